import Mathlib.Analysis.SpecialFunctions.Sqrt
import Mathlib.Data.Matrix.Mul

/-! Specification vocabulary for C24-C28: orthogonal matrices that carry one direction to another. -/

namespace Ellipy.LA
open Matrix

/-- Orthogonal matrix. -/
def IsOrth {n : ℕ} (O : Matrix (Fin n) (Fin n) ℝ) : Prop := O * Oᵀ = 1

/-- The direction of a vector. -/
noncomputable def dir {n : ℕ} (v : Fin n → ℝ) : Fin n → ℝ := (1 / Real.sqrt (v ⬝ᵥ v)) • v

/-- `O` carries the direction of `src` to the direction of `dst`. -/
def Carries {n : ℕ} (O : Matrix (Fin n) (Fin n) ℝ) (src dst : Fin n → ℝ) : Prop := O *ᵥ dir src = dir dst

/-- Squared sine of the angle between two directions. -/
noncomputable def sinSq {n : ℕ} (x y : Fin n → ℝ) : ℝ := 1 - (dir x ⬝ᵥ dir y) ^ 2

/-- The competitors of C26 and C27. -/
def Feasible {n : ℕ} (O : Matrix (Fin n) (Fin n) ℝ) (src dst : Fin n → ℝ) : Prop := IsOrth O ∧ Carries O src dst

/-- Directions that coincide, are opposite, or are not nearly (anti)parallel: the sine of the angle is zero or exceeds `10⁻⁷`. -/
def Apart {n : ℕ} (src dst : Fin n → ℝ) : Prop := sinSq src dst = 0 ∨ (1 / 10 ^ 7 : ℝ) ^ 2 < sinSq src dst

/-- The squared Frobenius distance of a matrix to the identity: how far it moves the points of the space. -/
def moved {n : ℕ} (P : Matrix (Fin n) (Fin n) ℝ) : ℝ := ∑ i, ∑ j, (P i j - (1 : Matrix (Fin n) (Fin n) ℝ) i j) ^ 2

end Ellipy.LA
