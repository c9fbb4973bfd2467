import Verif.Model.MatVector

/-! Specification vocabulary for C16 and C17: slices of a batch and slice-by-slice products. -/

namespace Ellipy.MV
open Finset

/-- Entry `(i, j)` of the matrix an array stands for at time `t`; an array with two axes is constant in time. -/
def Arr.entry : Arr → ℕ → ℕ → ℕ → ℝ
  | .d2 _ _ v, i, j, _ => v i j
  | .d3 _ _ _ v, i, j, t => v i j t

/-- The array has a matrix for each of the `T` time points, and no more. -/
def Arr.TimeOk (T : ℕ) : Arr → Prop
  | .d2 _ _ _ => True
  | .d3 _ _ t _ => t = T

/-- No empty matrices. -/
def Arr.Pos (b : Arr) : Prop := 0 < b.nRows ∧ 0 < b.nCols

/-- The array has three axes. -/
def Arr.Is3 : Arr → Prop
  | .d2 _ _ _ => False
  | .d3 _ _ _ _ => True

/-- `res[:, :, t] = a[:, :, t] b[:, :, t]` for every `t`. -/
structure IsProd2 (ra ca T : ℕ) (a : ℕ → ℕ → ℕ → ℝ) (b : Arr) (res : Arr3) : Prop where
  rows : res.r = ra
  cols : res.c = b.nCols
  time : res.t = T
  val : ∀ i j t, i < ra → j < b.nCols → t < T → res.v i j t = ∑ l ∈ range ca, a i l t * b.entry l j t

/-- `res[:, :, t] = a[:, :, t] b[:, :, t] c[:, :, t]` for every `t`. -/
structure IsProd3 (ra ca T : ℕ) (a : ℕ → ℕ → ℕ → ℝ) (b c : Arr) (res : Arr3) : Prop where
  rows : res.r = ra
  cols : res.c = c.nCols
  time : res.t = T
  val : ∀ i j t, i < ra → j < c.nCols → t < T →
    res.v i j t = ∑ k ∈ range b.nCols, (∑ l ∈ range ca, a i l t * b.entry l k t) * c.entry k j t

/-- Two result arrays are the same array. -/
def SameArr (x y : Arr3) : Prop :=
  x.r = y.r ∧ x.c = y.c ∧ x.t = y.t ∧ ∀ i j t, i < x.r → j < x.c → t < x.t → x.v i j t = y.v i j t

end Ellipy.MV
