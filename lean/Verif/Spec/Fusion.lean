import Verif.Base.LinAlg

/-! The one-parameter family of ellipsoids used to approximate the intersection of two ellipsoids. -/

namespace Ellipy.Core
open Matrix

/-- The ellipsoid (or cylinder) `{x | ⟨x - q, W (x - q)⟩ ≤ 1}`. -/
def Within {m : ℕ} (q : Fin m → ℝ) (W : Matrix (Fin m) (Fin m) ℝ) : Set (Fin m → ℝ) := {x | (x - q) ⬝ᵥ W *ᵥ (x - q) ≤ 1}

/-- The fusion of two such sets with weight `a`: the weighted mean of the two inequalities. -/
def Fused {m : ℕ} (q1 : Fin m → ℝ) (W1 : Matrix (Fin m) (Fin m) ℝ) (q2 : Fin m → ℝ) (W2 : Matrix (Fin m) (Fin m) ℝ) (a : ℝ) :
    Set (Fin m → ℝ) :=
  {x | a * ((x - q1) ⬝ᵥ W1 *ᵥ (x - q1)) + (1 - a) * ((x - q2) ⬝ᵥ W2 *ᵥ (x - q2)) ≤ 1}

end Ellipy.Core
