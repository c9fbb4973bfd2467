import Verif.Spec.Minksum

/-! Membership up to the tolerance. -/

namespace Ellipy.Ell
open Matrix

/-- The point is in the ellipsoid enlarged less than `1 + tol` times. -/
def EllN.Near {n : ℕ} (e : EllN n) (x : Fin n → ℝ) : Prop := ∃ s : ℝ, 0 < s ∧ s < 1 + e.props.absTol ∧ x ∈ Ell e.c (s ^ 2 • e.Q)

/-- The array has the given points as columns. -/
def IsPoints {n k : ℕ} (a : Arr ℝ) (X : Fin k → Fin n → ℝ) : Prop :=
  a.shape = [n, k] ∧ ∀ (j : Fin k) (i : Fin n), a.data[i.val * k + j.val]? = some (X j i)

/-- An array of ellipsoids that is one column. -/
def IsColumn {α : Type} (a : Arr α) : Prop := ∃ r s rest, a.shape = r :: s :: rest ∧ r = a.data.length

end Ellipy.Ell
