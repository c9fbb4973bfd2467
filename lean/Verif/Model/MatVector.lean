import Mathlib.Algebra.BigOperators.Group.Finset.Basic
import Mathlib.Data.Real.Basic
import Verif.Base.Py

/-! Model of the class `MatVector` of gras/gen/gen.py: batched matrix products.

An array is its shape together with its entries as a total function of the indices; entries outside the
shape mean nothing and no theorem speaks about them. -/

namespace Ellipy.MV
noncomputable section

/-- numpy arrays with two or three axes. -/
inductive Arr where
  | d2 (r c : ℕ) (v : ℕ → ℕ → ℝ)
  | d3 (r c t : ℕ) (v : ℕ → ℕ → ℕ → ℝ)

namespace Arr
/-- `shape[0]`. -/
def nRows : Arr → ℕ
  | d2 r _ _ => r
  | d3 r _ _ _ => r

/-- `shape[1]`. -/
def nCols : Arr → ℕ
  | d2 _ c _ => c
  | d3 _ c _ _ => c
end Arr

/-- The result arrays of this class, always with three axes. -/
structure Arr3 where
  r : ℕ
  c : ℕ
  t : ℕ
  v : ℕ → ℕ → ℕ → ℝ

/-- `for t in range(T): res[:, :, t] = f(t)` into a zero array; the first exception ends the loop. -/
def forRange {α : Type} [Zero α] : ℕ → (ℕ → Py α) → Py (ℕ → α)
  | 0, _ => .ok (fun _ => 0)
  | T + 1, f =>
    match forRange T f with
    | .error e => .error e
    | .ok g =>
      match f T with
      | .error e => .error e
      | .ok x => .ok (fun t => if t = T then x else g t)

/-- `x @ y` for matrices of sizes `r × k` and `k' × c`. -/
def matmul (k k' : ℕ) (x y : ℕ → ℕ → ℝ) : Py (ℕ → ℕ → ℝ) :=
  if k ≠ k' then .error .pyValueError else .ok (fun i j => ∑ l ∈ Finset.range k, x i l * y l j)

/-- `np.reshape(a, (r, c * T), order='F')` of an array of shape `(r, c, T)`. -/
def reshape32 (r c : ℕ) (a : ℕ → ℕ → ℕ → ℝ) : ℕ → ℕ → ℝ := fun i q =>
  let k := i + r * q
  a (k % r) (k / r % c) (k / (r * c))

/-- `np.reshape(a, (r, c, T), order='F')` of an array of shape `(r, c * T)`. -/
def reshape23 (r c : ℕ) (a : ℕ → ℕ → ℝ) : ℕ → ℕ → ℕ → ℝ := fun i j t =>
  let k := i + r * j + r * c * t
  a (k % r) (k / r)

/-- `sp.csc_matrix((data, (i_ind, j_ind)), …)` with `n` entries: entries with the same position are added. -/
def csc (n : ℕ) (data : ℕ → ℝ) (iInd jInd : ℕ → ℕ) : ℕ → ℕ → ℝ := fun p q =>
  ∑ k ∈ Finset.range n, if iInd k = p ∧ jInd k = q then data k else 0

/-- `get_sparse_mat(inp_arr)`, gras/gen/gen.py:229-243, as a dense function of row and column.  scipy raises
`ValueError` when the data and the index arrays have different lengths. -/
def getSparseMat (T : ℕ) (inp : Arr) : Py (ℕ → ℕ → ℝ) :=
  let nr := inp.nRows
  let nc := inp.nCols
  let tw : ℕ × (ℕ → ℕ → ℕ → ℝ) := match inp with
    | .d2 _ _ v => (T, fun i j _ => v i j)                                     -- lines 232-233: tile
    | .d3 _ _ t v => (t, v)
  -- lines 236-237: entry (c, r, t) of the reshaped tile is its flat position divided by the number of rows
  let iMat : ℕ → ℕ → ℕ → ℕ := fun c r t => (c + nc * r + nc * nr * t) / nc
  let iMatT : ℕ → ℕ → ℕ → ℕ := fun r c t => iMat c r t                         -- line 238
  let iInd : ℕ → ℕ := fun k => iMatT (k % nr) (k / nr % nc) (k / (nr * nc))    -- line 239
  let jInd : ℕ → ℕ := fun k => k / nr                                          -- lines 240-241
  let data : ℕ → ℝ := fun k => tw.2 (k % nr) (k / nr % nc) (k / (nr * nc))     -- line 242: int_arr.T.flatten()
  if nr * nc * tw.1 ≠ nr * nc * T then .error .pyValueError                    -- line 242
  else .ok (csc (nr * nc * T) data iInd jInd)

/-- `a_arr[:, :, t] @ b_arr` where `b_arr` has shape `(s, k', 1)`, stored into a slice of shape `(x, _)`
(gras/gen/gen.py:290): numpy multiplies by the `s` matrices `b_arr[l]` of size `k' × 1` and gets shape `(s, r, 1)`;
the assignment drops leading axes of length one and repeats along axes of length one. -/
def stackAssign (r k x : ℕ) (s k' : ℕ) (a : ℕ → ℕ → ℝ) (b : ℕ → ℕ → ℕ → ℝ) : Py (ℕ → ℕ → ℝ) :=
  if k ≠ k' then .error .pyValueError
  else if s ≠ 1 then .error .pyValueError
  else if r ≠ x ∧ r ≠ 1 then .error .pyValueError
  else .ok (fun i _ => ∑ l ∈ Finset.range k, a (if r = 1 then 0 else i) l * b 0 l 0)

/-- `arr[:, :, t]`: `IndexError` for a matrix and for a time point outside the array. -/
def slice (t : ℕ) : Arr → Py (ℕ → ℕ → ℝ)
  | .d2 _ _ _ => .error .indexError
  | .d3 _ _ T v => if t < T then .ok (fun i j => v i j t) else .error .indexError

/-- Work on `arr[:, :, t]`. -/
def onSlice {β : Type} (t : ℕ) (a : Arr) (f : (ℕ → ℕ → ℝ) → Py β) : Py β :=
  match slice t a with
  | .error e => .error e
  | .ok m => f m

/-- A loop over the time points that fills an array of shape `(r, c, T)`. -/
def fill (r c T : ℕ) (f : ℕ → Py (ℕ → ℕ → ℝ)) : Py Arr3 :=
  match forRange T f with
  | .error e => .error e
  | .ok g => .ok ⟨r, c, T, fun i j t => g t i j⟩

/-- `a_arr[:, :, t] @ b_arr[:, :, t]`, gras/gen/gen.py:287. -/
def dense2Step (ca : ℕ) (a : ℕ → ℕ → ℕ → ℝ) (b : Arr) (t : ℕ) : Py (ℕ → ℕ → ℝ) :=
  match slice t b with
  | .error e => .error e
  | .ok bt => matmul ca b.nRows (fun i j => a i j t) bt

/-- `a_arr[:, :, t] @ b_arr[:, :, t] @ c_arr[:, :, t]`, gras/gen/gen.py:300-301. -/
def dense3Step (ca : ℕ) (a : ℕ → ℕ → ℕ → ℝ) (b c : Arr) (t : ℕ) : Py (ℕ → ℕ → ℝ) :=
  match dense2Step ca a b t with
  | .error e => .error e
  | .ok ab =>
    match slice t c with
    | .error e => .error e
    | .ok ct => matmul b.nCols c.nRows ab ct

/-- `b_shape[2]` after gras/gen/gen.py:252-253. -/
def timeLen : Arr → ℕ
  | .d2 _ _ _ => 1
  | .d3 _ _ t _ => t

/-- Shape of the result array for two factors in dense mode, gras/gen/gen.py:279-284. -/
def denseShape (ra ca : ℕ) (b : Arr) : ℕ × ℕ :=
  if ca = 1 ∧ ra = 1 then (b.nRows, b.nCols) else if b.nCols = 1 ∧ b.nRows = 1 then (ra, ca) else (ra, b.nCols)

/-- The `else` branch of `r_multiply` for two factors, gras/gen/gen.py:278-292. -/
def rMultiplyDense2 (ra ca T : ℕ) (a : ℕ → ℕ → ℕ → ℝ) (b : Arr) : Py Arr3 :=
  let shape := denseShape ra ca b
  if timeLen b = T then fill shape.1 shape.2 T (dense2Step ca a b)             -- lines 285-287
  else if timeLen b = 1 then                                                   -- lines 288-290
    match b with
    | .d2 r _ v => fill shape.1 shape.2 T (fun t => matmul ca r (fun i j => a i j t) v)
    | .d3 s k' _ v => fill shape.1 shape.2 T (fun t => stackAssign ra ca shape.1 s k' (fun i j => a i j t) v)
  else throwErr "wrongInput"                                                   -- lines 291-292

/-- The `else` branch of `r_multiply` for three factors, gras/gen/gen.py:293-301. -/
def rMultiplyDense3 (ra ca T : ℕ) (a : ℕ → ℕ → ℕ → ℝ) (b c : Arr) : Py Arr3 :=
  let aScalar : Prop := ca = 1 ∧ ra = 1
  let bScalar : Prop := b.nCols = 1 ∧ b.nRows = 1
  let rows : ℕ := if aScalar ∧ bScalar then c.nRows else if aScalar then b.nRows else ra   -- lines 294-299
  fill rows c.nCols T (dense3Step ca a b c)

/-- The sparse branch of `r_multiply`, gras/gen/gen.py:269-276. -/
def rMultiplySparse (ra ca T : ℕ) (a : ℕ → ℕ → ℕ → ℝ) (b : Arr) (c : Option Arr) : Py Arr3 :=
  let aMat := reshape32 ra ca a                                                -- line 269
  match getSparseMat T b with
  | .error e => .error e
  | .ok bS =>
    match matmul (ca * T) (b.nRows * T) aMat bS with
    | .error e => .error e
    | .ok ab =>
      match c with
      | none => .ok ⟨ra, b.nCols, T, reshape23 ra b.nCols ab⟩                  -- line 272
      | some c =>
        match getSparseMat T c with
        | .error e => .error e
        | .ok cS =>
          match matmul (b.nCols * T) (c.nRows * T) ab cS with
          | .error e => .error e
          | .ok abc => .ok ⟨ra, c.nCols, T, reshape23 ra c.nCols abc⟩          -- line 275

/-- `MatVector.r_multiply(a_arr, b_arr, c_arr, use_sparse_matrix)`, gras/gen/gen.py:227-302. -/
def rMultiply (a b : Arr) (c : Option Arr) (useSparse : Bool) : Py Arr3 :=
  match a with
  | .d2 _ _ _ => .error .indexError                                            -- line 249: a_shape[2]
  | .d3 ra ca T v =>
    if useSparse = true ∧ ¬ (ca = 1 ∧ ra = 1) ∧ ¬ (b.nCols = 1 ∧ b.nRows = 1) then   -- lines 264-268
      rMultiplySparse ra ca T v b c
    else
      match c with
      | none => rMultiplyDense2 ra ca T v b
      | some c => rMultiplyDense3 ra ca T v b c

/-- `MatVector.r_multiply_by_vec(a_arr, b_mat, use_sparse_matrix)`, gras/gen/gen.py:209-224.  The result is a matrix,
its entry `(i, t)` is `v i t`. -/
def rMultiplyByVec (a b : Arr) (useSparse : Bool) : Py (ℕ × ℕ × (ℕ → ℕ → ℝ)) :=
  match b with
  | .d3 _ _ _ _ => throwErr "wrongInput"                                       -- lines 210-211
  | .d2 rb cb bv =>
    match a with
    | .d2 _ _ _ => .error .indexError                                          -- line 214
    | .d3 ra ca T av =>
      if useSparse then
        let data : ℕ → ℝ := fun k => bv (k % rb) (k / rb)                      -- line 218: b_mat.T.flatten()
        if rb * cb ≠ ca * T then .error .pyValueError
        else
          let bS := csc (ca * T) data (fun k => k) (fun k => k / ca)           -- lines 216-218
          match matmul (ca * T) (ca * T) (reshape32 ra ca av) bS with          -- line 219
          | .error e => .error e
          | .ok g => .ok (ra, T, g)
      else
        match forRange T (fun t =>                                             -- lines 221-223
            if cb ≤ t then .error .indexError
            else if ca ≠ rb then .error .pyValueError
            else .ok (fun i => ∑ l ∈ Finset.range ca, av i l t * bv l t)) with
        | .error e => .error e
        | .ok g => .ok (ra, T, fun i t => g t i)

end
end Ellipy.MV
