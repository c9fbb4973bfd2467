import Verif.Spec.MatVector

/-! Specification vocabulary for C118: two-sided products of batches of matrices. -/

namespace Ellipy.MV
open Finset

/-- Entry `(i, j)` of `A[:, :, t].T B[:, :, t] A[:, :, t]` for `B` of size `n × n`. -/
noncomputable def rightForm (n : ℕ) (B A : ℕ → ℕ → ℕ → ℝ) (i j t : ℕ) : ℝ :=
  ∑ k ∈ range n, ∑ l ∈ range n, A k i t * B k l t * A l j t

/-- Entry `(i, j)` of `A[:, :, t] B[:, :, t] A[:, :, t].T` for `B` of size `n × n`. -/
noncomputable def leftForm (n : ℕ) (B A : ℕ → ℕ → ℕ → ℝ) (i j t : ℕ) : ℝ :=
  ∑ k ∈ range n, ∑ l ∈ range n, A i k t * B k l t * A j l t

/-- The array is one matrix or a batch with at least one matrix. -/
def Arr.Inhabited : Arr → Prop
  | .d2 _ _ _ => True
  | .d3 _ _ T _ => 0 < T

/-- `A` has a matrix for each of the matrices of `B`. -/
def Covers : Arr → Arr → Prop
  | _, .d2 _ _ _ => True
  | .d2 _ _ _, .d3 _ _ T _ => 0 < T
  | .d3 _ _ T _, .d3 _ _ T' _ => T ≤ T'

end Ellipy.MV
