import Mathlib.LinearAlgebra.Matrix.Trace
import Verif.Model.MatHelpers

/-! Specification vocabulary for C74–C79. -/

namespace Ellipy.MV
open Matrix

/-- The `n × n` matrix an array with leading axes `(n, n)` holds at the position `k` of the other axes. -/
def Nd.mat (n : ℕ) (a : Nd) (k : List ℕ) : Matrix (Fin n) (Fin n) ℝ := of fun i j => a.v ((i : ℕ) :: (j : ℕ) :: k)

/-- An array of shape `(r, c, T)` with given entries. -/
def Arr3.Is (x : Arr3) (r c T : ℕ) (v : ℕ → ℕ → ℕ → ℝ) : Prop :=
  x.r = r ∧ x.c = c ∧ x.t = T ∧ ∀ i j t, i < r → j < c → t < T → x.v i j t = v i j t

/-- Squared euclidean norm. -/
def sqNorm {n : ℕ} (x : Fin n → ℝ) : ℝ := x ⬝ᵥ x

/-- `x` solves `A x = y` in the sense of least squares, and is the shortest such vector. -/
def IsShortestLs {m n : ℕ} (A : Matrix (Fin m) (Fin n) ℝ) (y : Fin m → ℝ) (x : Fin n → ℝ) : Prop :=
  (∀ z, sqNorm (A *ᵥ x - y) ≤ sqNorm (A *ᵥ z - y)) ∧
    ∀ z, (∀ w, sqNorm (A *ᵥ z - y) ≤ sqNorm (A *ᵥ w - y)) → sqNorm x ≤ sqNorm z

/-- A value returned by a callback holds the matrix `m` of shape `(r, c)`: numbers are `1 × 1`, vectors are columns. -/
def FVal.Holds (r c : ℕ) (m : ℕ → ℕ → ℝ) : FVal → Prop
  | .num x => r = 1 ∧ c = 1 ∧ m 0 0 = x
  | .seq l => r = l.length ∧ c = 1 ∧ ∀ i < r, m i 0 = l.getD i 0
  | .nd0 _ => False
  | .nd1 n v => r = n ∧ c = 1 ∧ ∀ i < r, m i 0 = v i
  | .nd2 r' c' v => r = r' ∧ c = c' ∧ ∀ i j, i < r → j < c → m i j = v i j

/-- The shape of a value as columns; an array without axes has none. -/
def FVal.colShape : FVal → Option (ℕ × ℕ)
  | .num _ => some (1, 1)
  | .seq l => some (l.length, 1)
  | .nd0 _ => none
  | .nd1 n _ => some (n, 1)
  | .nd2 r c _ => some (r, c)

/-- The shape of a value as rows. -/
def FVal.rowShape : FVal → ℕ × ℕ
  | .num _ => (1, 1)
  | .seq l => (1, l.length)
  | .nd0 _ => (1, 1)
  | .nd1 n _ => (1, n)
  | .nd2 r c _ => (r, c)

/-- A shape that fits into the slice `(r, c)`, repeating rows or columns if necessary. -/
def Fits (s : ℕ × ℕ) (r c : ℕ) : Prop := (s.1 = r ∨ s.1 = 1) ∧ (s.2 = c ∨ s.2 = 1)

/-- The value is the number `x`, or an array with this only entry. -/
def FVal.IsNumber (v : FVal) (x : ℝ) : Prop :=
  v = .num x ∨ v = .nd0 x ∨ (∃ w, v = .nd1 1 w ∧ w 0 = x) ∨ ∃ w, v = .nd2 1 1 w ∧ w 0 0 = x

/-- An entry of the evaluated text shows the function `F` at the times `t`. -/
def Cell.Shows (t : List ℝ) (F : ℝ → ℝ) : Cell → Prop
  | .num x => ∀ s, F s = x
  | .arr n v => n = t.length ∧ ∀ k, (h : k < t.length) → v k = F t[k]

/-- The evaluated text is an `r × c` matrix that shows the functions `F i j`. -/
structure RowsShow (t : List ℝ) (r c : ℕ) (F : ℕ → ℕ → ℝ → ℝ) (rows : List (List Cell)) : Prop where
  rows_len : rows.length = r
  cols_len : ∀ row ∈ rows, row.length = c
  entry : ∀ i (hi : i < rows.length) j (hj : j < rows[i].length), rows[i][j].Shows t (F i j)

end Ellipy.MV
