import Verif.Base.LinAlg
import Verif.Base.Seq
import Verif.Model.La
import Verif.Model.MatVector

/-! Model of the classes `SquareMatVector` and `SymmetricMatVector` of gras/gen/gen.py.

The functions that work slice by slice with a spectral decomposition take a batch as a family of square matrices; the products
use the arrays of `Model/MatVector.lean`. -/

namespace Ellipy.MV
open Matrix Ellipy.LA
noncomputable section

/-! ### Slice by slice functions -/

/-- One matrix of `make_pos_definite_by_eig`, gras/gen/gen.py:355-360 and 363-366.  `is_mat_symm` is called with
its default tolerance 0. -/
def posDefByEig1 (E : Eigh) {n : ℕ} (Q : Matrix (Fin n) (Fin n) ℝ) (value : ℝ) : Py (Matrix (Fin n) (Fin n) ℝ) :=
  match isMatSymm Q 0 with
  | .error e => .error e
  | .ok false => throwErr "wrongInput:non SymmMat"
  | .ok true =>
    let d := fun i => if E.vals Q i < 0 then value else E.vals Q i
    .ok (E.vecs Q * diagonal d * (E.vecs Q)ᵀ)

/-- `make_pos_definite_by_eig(data_arr, value)` on an array with three axes, gras/gen/gen.py:351-367; the array with two axes is
`posDefByEig1`. -/
def posDefByEig (E : Eigh) {n T : ℕ} (Q : Fin T → Matrix (Fin n) (Fin n) ℝ) (value : ℝ) :
    Py (Fin T → Matrix (Fin n) (Fin n) ℝ) :=
  pyAll (fun t => posDefByEig1 E (Q t) value)

/-- One matrix of `make_pos_definite_or_nan`, gras/gen/gen.py:334-339 and 343-347; `none` stands for NaN.  There is no test of
symmetry; `min` of an empty array raises `ValueError`. -/
def posDefOrNan1 (E : Eigh) {n : ℕ} (Q : Matrix (Fin n) (Fin n) ℝ) : Py (Option (Matrix (Fin n) (Fin n) ℝ)) :=
  match (List.ofFn (E.vals Q)).min? with
  | none => .error .pyValueError
  | some s => if s < 0 then .ok none else .ok (some Q)

/-- `make_pos_definite_or_nan(data_arr)` on an array with three axes, gras/gen/gen.py:333-348. -/
def posDefOrNan (E : Eigh) {n T : ℕ} (Q : Fin T → Matrix (Fin n) (Fin n) ℝ) :
    Py (Fin T → Option (Matrix (Fin n) (Fin n) ℝ)) :=
  pyAll (fun t => posDefOrNan1 E (Q t))

/-- One matrix of `SquareMatVector.inv`: `np.linalg.inv` raises `LinAlgError` for a singular matrix. -/
def inv1 {n : ℕ} (Q : Matrix (Fin n) (Fin n) ℝ) : Py (Matrix (Fin n) (Fin n) ℝ) :=
  if Q.det = 0 then .error .linAlgError else .ok Q⁻¹

/-- `SquareMatVector.inv(data_arr)` on an array with three axes, gras/gen/gen.py:307-316. -/
def invBatch {n T : ℕ} (Q : Fin T → Matrix (Fin n) (Fin n) ℝ) : Py (Fin T → Matrix (Fin n) (Fin n) ℝ) :=
  pyAll (fun t => inv1 (Q t))

/-- `SquareMatVector.sqrtm_pos(data_arr)` on an array with three axes and finite entries, gras/gen/gen.py:319-330.  `np.squeeze`
turns a 1×1 slice into an array without axes, which `is_mat_symm` rejects (gras/la/la.py:38-39). -/
def sqrtmBatch (E : Eigh) {n T : ℕ} (Q : Fin T → Matrix (Fin n) (Fin n) ℝ) : Py (Fin T → Matrix (Fin n) (Fin n) ℝ) :=
  pyAll (fun t => if n = 1 then throwErr "wrongInput:nonSquareMat" else sqrtmPos E (Q t) 0)

/-! ### Products -/

/-- `x.T @ b @ x` (`flag = 'R'`) and `x @ b @ x.T` (`flag = 'L'`) for matrices of sizes `ra × ca` and `rb × cb`. -/
def lrStep (flag : String) (rb cb ra ca : ℕ) (b a : ℕ → ℕ → ℝ) : Py (ℕ → ℕ → ℝ) :=
  if flag = "R" then
    match matmul ra rb (fun i j => a j i) b with
    | .error e => .error e
    | .ok x => matmul cb ra x a
  else
    match matmul ca rb a b with
    | .error e => .error e
    | .ok x => matmul cb ca x (fun i j => a j i)

/-- `SquareMatVector.lr_multiply(inp_b_arr, inp_a_arr, flag)`, gras/gen/gen.py:370-412. -/
def lrMultiply (b a : Arr) (flag : String) : Py Arr :=
  let n := if flag = "R" then a.nCols else a.nRows
  if ¬ (flag = "R" ∨ flag = "L") then throwErr "wrong_input"
  else
    match b with
    | .d2 rb cb bv =>
      match a with
      | .d2 ra ca av =>                                                        -- lines 375-381
        match lrStep flag rb cb ra ca bv av with
        | .error e => .error e
        | .ok x => .ok (.d2 n n x)
      | .d3 ra ca _ _ =>                                                       -- lines 382-388: only the slice 0
        match slice 0 a with
        | .error e => .error e
        | .ok a0 =>
          match lrStep flag rb cb ra ca bv a0 with
          | .error e => .error e
          | .ok x => .ok (.d2 n n x)
    | .d3 rb cb T bv =>
      match a with
      | .d2 ra ca av =>                                                        -- lines 390-400
        match fill n n T (fun t => lrStep flag rb cb ra ca (fun i j => bv i j t) av) with
        | .error e => .error e
        | .ok x => .ok (.d3 x.r x.c x.t x.v)
      | .d3 ra ca _ _ =>                                                       -- lines 401-411
        match fill n n T (fun t => onSlice t a (fun at' => lrStep flag rb cb ra ca (fun i j => bv i j t) at')) with
        | .error e => .error e
        | .ok x => .ok (.d3 x.r x.c x.t x.v)

/-- `a[:, t].T @ b @ a[:, t]` for a matrix `b` of size `rb × cb` and a vector of length `ra`. -/
def quadStep (rb cb ra : ℕ) (b : ℕ → ℕ → ℝ) (x : ℕ → ℝ) : Py ℝ :=
  if ra ≠ rb then .error .pyValueError
  else if cb ≠ ra then .error .pyValueError
  else .ok (∑ l ∈ Finset.range cb, (∑ k ∈ Finset.range ra, x k * b k l) * x l)

/-- `SquareMatVector.lr_multiply_by_vec(inp_b_arr, inp_a_arr)`, gras/gen/gen.py:415-427, on an argument `inp_a_arr` of shape
`(ra, m)`; a 1-D argument is given the shape `(size, 1)` (in place, line 417).  The result has shape `(1, m)`. -/
def lrMultiplyByVec (b : Arr) (ra m : ℕ) (a : ℕ → ℕ → ℝ) : Py (ℕ → ℝ) :=
  match b with
  | .d2 rb cb bv => forRange m (fun t => quadStep rb cb ra bv (fun k => a k t))
  | .d3 rb cb _ _ => forRange m (fun t => onSlice t b (fun bt => quadStep rb cb ra bt (fun k => a k t)))

/-! ### `SymmetricMatVector` -/

/-- The matrix of a square slice. -/
def sliceMat (n : ℕ) (v : ℕ → ℕ → ℝ) : Matrix (Fin n) (Fin n) ℝ := of fun i j => v i j

/-- The entries of a matrix as a total function. -/
def matFun {n : ℕ} (M : Matrix (Fin n) (Fin n) ℝ) : ℕ → ℕ → ℝ := fun i j =>
  if h : i < n ∧ j < n then M ⟨i, h.1⟩ ⟨j, h.2⟩ else 0

/-- `SymmetricMatVector.__array_svd(sym_arr)`, gras/gen/gen.py:502-511: the pair (eigenvectors, diagonal
matrices of eigenvalues).  An array with two axes is indexed with three indices (`IndexError`); `eigh` of a non-square slice
raises `LinAlgError`. -/
def arraySvd (E : Eigh) (b : Arr) : Py (Arr × Arr) :=
  match b with
  | .d2 _ _ _ => .error .indexError
  | .d3 r c T v =>
    if 0 < T ∧ r ≠ c then .error .linAlgError
    else
      let M := fun t => sliceMat r (fun i j => v i j t)
      .ok (.d3 r c T (fun i j t => matFun (E.vecs (M t)) i j), .d3 r c T (fun i j t => matFun (diagonal (E.vals (M t))) i j))

/-- `MatVector.transpose`, gras/gen/gen.py:102-107. -/
def transposeArr : Arr → Arr
  | .d2 r c v => .d3 c r 1 (fun i j _ => v j i)
  | .d3 r c t v => .d3 c r t (fun i j k => v j i k)

/-- `SymmetricMatVector.lr_svd_multiply(inp_b_arr, inp_a_arr, flag)`, gras/gen/gen.py:449-459. -/
def lrSvdMultiply (E : Eigh) (b a : Arr) (flag : String) : Py Arr :=
  match arraySvd E b with
  | .error e => .error e
  | .ok (u, s) =>
    if flag = "L" then
      match rMultiply u (transposeArr a) none false with
      | .error e => .error e
      | .ok ua => lrMultiply s (.d3 ua.r ua.c ua.t ua.v) flag
    else if flag = "R" then
      match rMultiply u a none false with
      | .error e => .error e
      | .ok ua => lrMultiply s (.d3 ua.r ua.c ua.t ua.v) flag
    else throwErr "wrongInput:flag"

/-- `SymmetricMatVector.r_svd_multiply_by_vec(inp_mat_arr, inp_vec_arr)`, gras/gen/gen.py:462-472, for a matrix of vectors.  The
number of time points of both factors is the same when `r_multiply_by_vec` accepts vectors of the right shape. -/
def rSvdMultiplyByVec (E : Eigh) (b a : Arr) : Py (ℕ × ℕ × (ℕ → ℕ → ℝ)) :=
  match arraySvd E b with
  | .error e => .error e
  | .ok (u, s) =>
    match rMultiplyByVec u a true with
    | .error e => .error e
    | .ok (_, m, uv) =>
      match forRange m (fun t => onSlice t u (fun ut => onSlice t s (fun st =>
          .ok (fun i => ∑ k ∈ Finset.range s.nRows, (∑ l ∈ Finset.range s.nRows, ut l i * st l k) * uv k t)))) with
      | .error e => .error e
      | .ok g => .ok (s.nRows, m, fun i t => g t i)

/-- `SymmetricMatVector.lr_svd_multiply_by_vec(inp_b_arr, inp_a_arr)`, gras/gen/gen.py:475-479. -/
def lrSvdMultiplyByVec (E : Eigh) (b a : Arr) : Py (ℕ → ℝ) :=
  match arraySvd E b with
  | .error e => .error e
  | .ok (u, s) =>
    match rMultiplyByVec u a true with
    | .error e => .error e
    | .ok (r, m, ua) => lrMultiplyByVec s r m ua

/-- `SymmetricMatVector.lr_svd_divide_vec(inp_b_arr, inp_a_arr)`, gras/gen/gen.py:482-499.  With a single
time point `np.diag` is called on an array with three axes (`ValueError`).  Division by a zero eigenvalue gives `inf` in the
code and 0 here, so theorems ask for non-zero eigenvalues. -/
def lrSvdDivideVec (E : Eigh) (b a : Arr) : Py (ℕ → ℝ) :=
  match arraySvd E b with
  | .error e => .error e
  | .ok (u, s) =>
    match rMultiplyByVec u a true with
    | .error e => .error e
    | .ok (_, _, ua) =>
      match b with
      | .d2 _ _ _ => .error .indexError
      | .d3 _ _ T _ =>
        if T = 1 then .error .pyValueError
        else forRange a.nCols (fun t => onSlice t s (fun st =>
          .ok (∑ k ∈ Finset.range s.nRows, ua k t * (1 / st k k * ua k t))))

end
end Ellipy.MV
