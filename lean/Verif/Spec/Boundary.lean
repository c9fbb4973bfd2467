import Verif.Spec.Minksum
import Verif.Spec.SphereTriExt

/-! Vocabulary of the statements about points on the boundary of an ellipsoid. -/

namespace Ellipy.Ell
open Matrix

/-- The point lies in the ellipsoid scaled up by `√(1 + r)` and in no ellipsoid scaled down. -/
def Shell {n : ℕ} (c : Fin n → ℝ) (Q : Matrix (Fin n) (Fin n) ℝ) (r : ℝ) (x : Fin n → ℝ) : Prop :=
  x ∈ Ell c ((1 + r) • Q) ∧ ∀ t : ℝ, 0 ≤ t → t < 1 → x ∉ Ell c (t • Q)

/-- The number of points is given, or it is the attribute of the object. -/
def Asked (num : Option Tri.NPts) (attr : ℝ) (n : ℕ) : Prop := num = some (.int n) ∨ num = none ∧ attr = n

/-- The points approximate the boundary of the ellipsoid: within `r` of every point of the boundary, measured by the ellipsoid itself, there is one of
them, and in every direction one of them reaches the support value up to the part `δ` of the distance from the centre. -/
def Approximates {n : ℕ} (c : Fin n → ℝ) (Q : Matrix (Fin n) (Fin n) ℝ) (r δ : ℝ) (V : List (Fin n → ℝ)) : Prop :=
  (∀ y, Shell c Q 0 y → ∃ v ∈ V, v - y ∈ Ell 0 (r ^ 2 • Q)) ∧
  ∀ l s, IsSupport (Ell c Q) l s → ∃ v ∈ V, l ⬝ᵥ c + (1 - δ) * (s - l ⬝ᵥ c) ≤ l ⬝ᵥ v

end Ellipy.Ell
