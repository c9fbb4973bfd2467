import Verif.Props.LaPosDef

/-! What an ellipsoid is: the image of the unit ball under the root of the shape matrix, moved to the centre. -/

namespace Ellipy.Ell
open Matrix Ellipy.LA

/-- The ellipsoid `E(c, Q)` as a set of points. -/
def Ell {n : ℕ} (c : Fin n → ℝ) (Q : Matrix (Fin n) (Fin n) ℝ) : Set (Fin n → ℝ) :=
  {x | ∃ S : Matrix (Fin n) (Fin n) ℝ, IsPSD S ∧ S * S = Q ∧ ∃ u : Fin n → ℝ, u ⬝ᵥ u ≤ 1 ∧ x = c + S *ᵥ u}

/-- `r` is the value of the support function of `X` in the direction `l`: the largest `⟨l, x⟩`. -/
def IsSupport {n : ℕ} (X : Set (Fin n → ℝ)) (l : Fin n → ℝ) (r : ℝ) : Prop := IsGreatest ((fun x => l ⬝ᵥ x) '' X) r

end Ellipy.Ell
