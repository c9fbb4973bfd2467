import Mathlib.Data.Real.Basic
import Mathlib.Data.Matrix.Mul

/-! Vocabulary of the statements about `sphere_part`. -/

namespace Ellipy.Geom
open Matrix

/-- One vector of each pair of opposite vectors, in the order of the list. -/
def IsHalf (V C : List (Fin 3 → ℝ)) : Prop := C.Sublist V ∧ ∀ v ∈ V, v ∈ C ↔ -v ∉ C

/-- `L` lists different vectors of `C`, those with the largest products with `a`, in the order of these products. -/
def AreNearest (a : Fin 3 → ℝ) (C L : List (Fin 3 → ℝ)) : Prop :=
  L.Nodup ∧ (∀ v ∈ L, v ∈ C) ∧ L.Pairwise (fun u v => a ⬝ᵥ v ≤ a ⬝ᵥ u) ∧ ∀ v ∈ C, v ∉ L → ∀ u ∈ L, a ⬝ᵥ v ≤ a ⬝ᵥ u

/-- The rows number `r`, `r + 3`, `r + 6`, … of `R` are the rows of `L`. -/
def IsThird (r : ℕ) (R L : List (Fin 3 → ℝ)) : Prop := ∀ k, L[k]? = R[3 * k + r]?

end Ellipy.Geom
