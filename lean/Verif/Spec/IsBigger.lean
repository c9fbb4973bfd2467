import Verif.Spec.Minksum

/-! Inclusion of centred ellipsoids up to the tolerance; the condition number. -/

namespace Ellipy.Ell
open Matrix

/-- The second ellipsoid is strictly inside the first one enlarged `√(1 + tol)` times, both with the centre at the origin: its support
function is smaller in every direction. -/
def InsideEnlarged {n : ℕ} (e f : EllN n) : Prop :=
  ∀ l : Fin n → ℝ, l ≠ 0 → ∀ r, IsSupport (Ell 0 f.Q) l r → ∀ R, IsSupport (Ell 0 e.Q) l R → r ^ 2 < (1 + e.props.absTol) * R ^ 2

/-- The ratio of the largest and the smallest eigenvalue is below `1 / (n ε)`. -/
def WellCond {n : ℕ} (Q : Matrix (Fin n) (Fin n) ℝ) (eps : ℝ) : Prop :=
  ∀ x y : Fin n → ℝ, x ⬝ᵥ x = 1 → y ⬝ᵥ y = 1 → (y ⬝ᵥ Q *ᵥ y) * n * eps < x ⬝ᵥ Q *ᵥ x

end Ellipy.Ell
