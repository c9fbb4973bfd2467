import Verif.Spec.Minksum

/-! The polar of a set. -/

namespace Ellipy.Ell
open Matrix

/-- The polar of a set of points. -/
def polarSet {n : ℕ} (X : Set (Fin n → ℝ)) : Set (Fin n → ℝ) := {l | ∀ x ∈ X, l ⬝ᵥ x ≤ 1}

/-- The origin is an interior point. -/
def OriginInside {n : ℕ} (X : Set (Fin n → ℝ)) : Prop := ∃ ε > 0, ∀ x : Fin n → ℝ, x ⬝ᵥ x ≤ ε → x ∈ X

end Ellipy.Ell
