import Verif.Spec.Minksum

/-! The support values and the points of many pairs of an ellipsoid and a direction. -/

namespace Ellipy.Ell
open Matrix

/-- An array of shape `(n,) + rest` with the given directions as columns. -/
def IsDirs {n k : ℕ} (d : Arr ℝ) (rest : List ℕ) (ls : Fin k → Fin n → ℝ) : Prop :=
  d.shape = n :: rest ∧ k = rest.foldr (· * ·) 1 ∧ ∀ (j : Fin k) (i : Fin n), d.data[i.val * k + j.val]? = some (ls j i)

/-- Entry `j` of `s` is the support value of the ellipsoid `j` in the direction `j`, and column `j` of `b` is a point where it is
attained. -/
def IsRho {n k : ℕ} (s : Arr ℝ) (b : Arr (XF ℝ)) (es : Fin k → EllN n) (ls : Fin k → Fin n → ℝ) : Prop :=
  s.data.length = k ∧ b.data.length = n * k ∧ ∀ j : Fin k, ∃ (r : ℝ) (x : Fin n → ℝ), s.data[j.val]? = some r ∧
    IsSupport (es j).set (ls j) r ∧ x ∈ (es j).set ∧ ls j ⬝ᵥ x = r ∧ ∀ i : Fin n, b.data[i.val * k + j.val]? = some (.fin (x i))

end Ellipy.Ell
