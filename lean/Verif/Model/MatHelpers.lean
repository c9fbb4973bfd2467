import Verif.Base.Lstsq
import Verif.Base.PyMap
import Verif.Model.SquareMatVector

/-! Model of the remaining helpers of gras/gen/gen.py: `mat_dot`, the slice-wise operations of `MatVector`, the constructors of
batches from functions and from text, and `SquareMatVector.lr_divide_vec`. -/

namespace Ellipy.MV
open Matrix Ellipy.LA
noncomputable section

/-! ### `mat_dot` -/

/-- A float array with any number of axes: the shape and the entries as a function of the list of indices. -/
structure Nd where
  shape : List ℕ
  v : List ℕ → ℝ

/-- A float array whose entries may be `nan`. -/
structure NdX where
  shape : List ℕ
  v : List ℕ → XF ℝ

/-- `mat_dot(inp_arr1, inp_arr2)`, gras/gen/gen.py:9-18.  Both sums keep their axis (line 16); the division of an empty sum by zero
gives `nan` (line 17). -/
def matDot (a b : Nd) : Py NdX :=
  if b.shape ≠ a.shape then throwErr "wrongInput:size"                            -- lines 12-13
  else
    match a.shape with
    | [] => .error .indexError                                                    -- line 14
    | [_] => .error .indexError
    | n :: m :: rest =>
      if n ≠ m then throwErr "wrongInput:not_square"                              -- lines 14-15
      else .ok ⟨1 :: 1 :: rest, fun ix =>
        if n = 0 then .nan
        else .fin ((∑ i ∈ Finset.range n, ∑ j ∈ Finset.range m,
          a.v (i :: j :: ix.drop 2) * b.v (i :: j :: ix.drop 2)) / n)⟩            -- lines 16-18

/-! ### Slice-wise operations of `MatVector` -/

/-- `MatVector.triu(data_arr)`, gras/gen/gen.py:77-84. -/
def triuArr : Arr → Arr
  | .d2 r c v => .d3 r c 1 (fun i j _ => if i ≤ j then v i j else 0)              -- lines 79-80
  | .d3 r c t v => .d3 r c t (fun i j k => if i ≤ j then v i j k else 0)

/-- The common length of two axes under numpy broadcasting. -/
def bcast (x y : ℕ) : Option ℕ := if x = y then some x else if x = 1 then some y else if y = 1 then some x else none

/-- Index into an axis of length `x` that was repeated if `x = 1`. -/
def bix (x i : ℕ) : ℕ := if x = 1 then 0 else i

/-- `MatVector.make_symmetric(data_arr)`, gras/gen/gen.py:87-89.  `transpose` always returns three axes, so a matrix of shape `(r, c)` is
added, as an array of shape `(1, r, c)`, to one of shape `(c, r, 1)`. -/
def makeSymmetric : Arr → Py Arr3
  | .d2 r c v => .ok ⟨c, r, c, fun i j k => 1 / 2 * (v j k + v j i)⟩
  | .d3 r c t v =>
    match bcast r c, bcast c r with
    | some x, some y => .ok ⟨x, y, t, fun i j k => 1 / 2 * (v (bix r i) (bix c j) k + v (bix r j) (bix c i) k)⟩
    | _, _ => .error .pyValueError

/-- A slice of shape `(r, c)` as a matrix. -/
def rectMat (r c : ℕ) (v : ℕ → ℕ → ℝ) : Matrix (Fin r) (Fin c) ℝ := of fun i j => v i j

/-- The entries of a rectangular matrix as a total function. -/
def rectFun {r c : ℕ} (M : Matrix (Fin r) (Fin c) ℝ) : ℕ → ℕ → ℝ := fun i j =>
  if h : i < r ∧ j < c then M ⟨i, h.1⟩ ⟨j, h.2⟩ else 0

/-- `np.linalg.pinv` with a cut-off at rounding level: the four equations of Moore and Penrose. -/
structure Pinv where
  inv : {m n : ℕ} → Matrix (Fin m) (Fin n) ℝ → Matrix (Fin n) (Fin m) ℝ
  p1 : ∀ {m n : ℕ} (A : Matrix (Fin m) (Fin n) ℝ), A * inv A * A = A
  p2 : ∀ {m n : ℕ} (A : Matrix (Fin m) (Fin n) ℝ), inv A * A * inv A = inv A
  p3 : ∀ {m n : ℕ} (A : Matrix (Fin m) (Fin n) ℝ), (A * inv A)ᵀ = A * inv A
  p4 : ∀ {m n : ℕ} (A : Matrix (Fin m) (Fin n) ℝ), (inv A * A)ᵀ = inv A * A

/-- `MatVector.pinv(data_arr)`, gras/gen/gen.py:92-99.  Line 98 takes a slice of `data_arr` itself, so a matrix raises `IndexError`
although lines 94-95 prepare for it. -/
def pinvArr (P : Pinv) (a : Arr) : Py Arr3 :=
  fill a.nCols a.nRows (timeLen a) (fun t => onSlice t a (fun m => .ok (rectFun (P.inv (rectMat a.nRows a.nCols m)))))

/-! ### Batches from functions -/

/-- What the callback of `from_func` and `eval_func` returns: a number, another sequence of numbers, or a numpy array with at most
two axes. -/
inductive FVal where
  | num (x : ℝ)
  | seq (l : List ℝ)
  | nd0 (x : ℝ)
  | nd1 (n : ℕ) (v : ℕ → ℝ)
  | nd2 (r c : ℕ) (v : ℕ → ℕ → ℝ)

/-- A two-dimensional array. -/
structure Mat2 where
  r : ℕ
  c : ℕ
  v : ℕ → ℕ → ℝ

/-- gras/gen/gen.py:128-131 and 139-142: everything but an array is flattened into a vector, a vector becomes a column;
`np.expand_dims(x, 1)` of an array without axes raises. -/
def toColumn : FVal → Py Mat2
  | .num x => .ok ⟨1, 1, fun _ _ => x⟩
  | .seq l => .ok ⟨l.length, 1, fun i _ => l.getD i 0⟩
  | .nd0 _ => .error .pyValueError
  | .nd1 n v => .ok ⟨n, 1, fun i _ => v i⟩
  | .nd2 r c v => .ok ⟨r, c, v⟩

/-- `res[:, :, i] = m` for a slice of shape `(r, c)`. -/
def assign2 (r c : ℕ) (m : Mat2) : Py (ℕ → ℕ → ℝ) :=
  if (m.r = r ∨ m.r = 1) ∧ (m.c = c ∨ m.c = 1) then .ok (fun i j => m.v (bix m.r i) (bix m.c j)) else .error .pyValueError

/-- The value of the callback goes into a slice of shape `(r, c)`, gras/gen/gen.py:138-143. -/
def colStep (r c : ℕ) (x : Py FVal) : Py (ℕ → ℕ → ℝ) :=
  match x with
  | .error e => .error e
  | .ok v =>
    match toColumn v with
    | .error e => .error e
    | .ok m => assign2 r c m

/-- `MatVector.from_func(f, t_vec)`, gras/gen/gen.py:124-145, on the flattened time vector `t` (lines 72-74).  The first value is assigned
like the others, which changes nothing as it has the shape of the slice. -/
def fromFunc (f : ℝ → Py FVal) (t : List ℝ) : Py Arr3 :=
  match t with
  | [] => .error .indexError                                                      -- line 127: t[0]
  | t0 :: _ =>
    match f t0 with
    | .error e => .error e
    | .ok v0 =>
      match toColumn v0 with
      | .error e => .error e
      | .ok m0 =>
        fill m0.r m0.c t.length (fun i => colStep m0.r m0.c (f (t.getD i 0)))

/-- A right-hand side of `res[:, :, i] = …` without the `expand_dims` of `from_func`: a vector is a row. -/
def toRow : FVal → Mat2
  | .num x => ⟨1, 1, fun _ _ => x⟩
  | .seq l => ⟨1, l.length, fun _ j => l.getD j 0⟩
  | .nd0 x => ⟨1, 1, fun _ _ => x⟩
  | .nd1 n v => ⟨1, n, fun _ j => v j⟩
  | .nd2 r c v => ⟨r, c, v⟩

/-- A right-hand side of `res[i] = …`: an array of size one is converted, a longer one and any sequence is refused. -/
def toNumber : FVal → Py ℝ
  | .num x => .ok x
  | .seq _ => .error .pyValueError
  | .nd0 x => .ok x
  | .nd1 n v => if n = 1 then .ok (v 0) else .error .pyValueError
  | .nd2 r c v => if r = 1 ∧ c = 1 then .ok (v 0 0) else .error .pyValueError

/-- `res_array[:, :, i] = f(…)`, gras/gen/gen.py:167. -/
def rowStep (r c : ℕ) (x : Py FVal) : Py (ℕ → ℕ → ℝ) :=
  match x with
  | .error e => .error e
  | .ok v => assign2 r c (toRow v)

/-- `res_array[i] = f(…)`, gras/gen/gen.py:171. -/
def numStep (x : Py FVal) : Py ℝ :=
  match x with
  | .error e => .error e
  | .ok v => toNumber v

/-- Result of `eval_func`. -/
inductive EvalRes where
  | values (l : List FVal)
  | same (a : Arr3)
  | numbers (n : ℕ) (v : ℕ → ℝ)

/-- The slice of an array that has been given three axes. -/
def sliceOf : Arr → ℕ → Mat2
  | .d2 r c v, _ => ⟨r, c, v⟩
  | .d3 r c _ v, t => ⟨r, c, fun i j => v i j t⟩

/-- `MatVector.eval_func(f, inp_arr, uniform_output, keep_size)`, gras/gen/gen.py:148-171, for a float array. -/
def evalFunc (f : Mat2 → Py FVal) (a : Arr) (uniform keepSize : Bool) : Py EvalRes :=
  let size := timeLen a                                                           -- lines 154-158
  if !uniform then                                                                -- lines 159-162
    match pyMap (fun i => f (sliceOf a i)) (List.range size) with
    | .error e => .error e
    | .ok l => .ok (.values l)
  else if keepSize then                                                           -- lines 164-167
    match fill a.nRows a.nCols size (fun i => rowStep a.nRows a.nCols (f (sliceOf a i))) with
    | .error e => .error e
    | .ok x => .ok (.same x)
  else                                                                            -- lines 168-171
    match forRange size (fun i => numStep (f (sliceOf a i))) with
    | .error e => .error e
    | .ok x => .ok (.numbers size x)

/-! ### Batches from text -/

/-- The brackets `from_expression` adds, gras/gen/gen.py:177-187. -/
def addBrackets (s : List Char) : Py (List Char) :=
  match s with
  | [] => throwErr "wrongInput"                                                   -- lines 178-179
  | c :: _ =>
    let opened : Py (List Char) :=
      if c ≠ '[' then .ok ('[' :: '[' :: s)                                       -- lines 180-181
      else
        match pyIndex s 1 with                                                    -- lines 182-183
        | .error e => .error e
        | .ok d => if d ≠ '[' then .ok ('[' :: s) else .ok s
    match opened with
    | .error e => .error e
    | .ok x =>
      match pyIndex x (x.length - 1) with                                         -- lines 184-185
      | .error e => .error e
      | .ok d =>
        if d ≠ ']' then .ok (x ++ [']', ']'])
        else
          match pyIndex x (x.length - 2) with                                     -- lines 186-187
          | .error e => .error e
          | .ok d' => if d' ≠ ']' then .ok (x ++ [']']) else .ok x

/-- An entry of the evaluated matrix: a number, or an array of the values of an expression that depends on time. -/
inductive Cell where
  | num (x : ℝ)
  | arr (n : ℕ) (v : ℕ → ℝ)

/-- Every row has `c` entries, and every entry that is an array has length `T`. -/
def cellsFit (c T : ℕ) (rows : List (List Cell)) : Bool :=
  rows.all (fun row => decide (row.length = c) && row.all (fun x =>
    match x with
    | .num _ => true
    | .arr n _ => decide (n = T)))

/-- Value at time `k` of entry `(i, j)`; numbers are repeated (line 199). -/
def cellAt (rows : List (List Cell)) (i j k : ℕ) : ℝ :=
  match (rows.getD i []).getD j (.num 0) with
  | .num x => x
  | .arr _ v => v k

/-- `MatVector.from_expression(expr, t_vec)`, gras/gen/gen.py:174-206, for `T` time points.  `ev` evaluates the text with `t` bound to the time
vector.  When the rows have different lengths, or an array does not have the length of the time vector, the result of `np.array` depends
on the numpy version: `other` is arbitrary.  With one time point an entry that is an array of length one is identified with its number. -/
def fromExpression (ev : List Char → Py (List (List Cell))) (other : ℕ → List (List Cell) → Py Arr3) (s : List Char) (T : ℕ) :
    Py Arr3 :=
  match addBrackets s with
  | .error e => .error e
  | .ok text =>
    match ev text with                                                            -- lines 190, 198
    | .error e => .error e
    | .ok rows =>
      let c := (rows.headD []).length
      if cellsFit c T rows then .ok ⟨rows.length, c, T, cellAt rows⟩              -- lines 189-206
      else other T rows

/-- `ret_arr[i, j, :] = a[0, 0, :]` for `T` time points, gras/gen/gen.py:120. -/
def firstEntry (T : ℕ) (a : Arr3) : Py (ℕ → ℝ) :=
  if a.r = 0 ∨ a.c = 0 then .error .indexError
  else if a.t = T ∨ a.t = 1 then .ok (fun k => a.v 0 0 (bix a.t k))
  else .error .pyValueError

/-- One entry of `from_formula_mat`, gras/gen/gen.py:120. -/
def formulaStep (ev : List Char → Py (List (List Cell))) (other : ℕ → List (List Cell) → Py Arr3) (T : ℕ) (s : List Char) : Py (ℕ → ℝ) :=
  match fromExpression ev other s T with
  | .error e => .error e
  | .ok a => firstEntry T a

/-- `MatVector.from_formula_mat(x, t_vec)`, gras/gen/gen.py:110-121, for a table of texts of shape `(r, c)`; a 1-D argument is a column
(lines 113-115). -/
def fromFormulaMat (ev : List Char → Py (List (List Cell))) (other : ℕ → List (List Cell) → Py Arr3) (r c : ℕ)
    (x : ℕ → ℕ → List Char) (T : ℕ) : Py Arr3 :=
  match forRange r (fun i => forRange c (fun j => formulaStep ev other T (x i j))) with
  | .error e => .error e
  | .ok g => .ok ⟨r, c, T, fun i j k => g i j k⟩

/-! ### `lr_divide_vec` -/

/-- The argument `inp_a_arr`: a vector or a matrix of columns. -/
inductive VecArg where
  | d1 (n : ℕ) (v : ℕ → ℝ)
  | d2 (r c : ℕ) (v : ℕ → ℕ → ℝ)

/-- The shape and entries of `inp_a_arr` after gras/gen/gen.py:432-433.  The assignment to `shape` changes the caller's array too. -/
def VecArg.asMat : VecArg → Mat2
  | .d1 n v => ⟨n, 1, fun i _ => v i⟩
  | .d2 r c v => ⟨r, c, v⟩

/-- `x.T @ np.linalg.lstsq(b, x, -1)[0]` for a matrix `b` of shape `(rb, cb)` and `x` of shape `(ra, m)`. -/
def divStep (L : Lstsq) (rb cb ra m : ℕ) (b x : ℕ → ℕ → ℝ) : Py (ℕ → ℕ → ℝ) :=
  if ra ≠ rb then .error .linAlgError
  else if ra ≠ cb then .error .pyValueError
  else .ok (rectFun ((rectMat rb m x)ᵀ * rectMat rb m (rectFun (L.sol (rectMat rb cb b) (rectMat rb m x)))))

/-- The number of the `1 × 1` result of `divStep`. -/
def divNum (L : Lstsq) (rb cb ra : ℕ) (b x : ℕ → ℕ → ℝ) : Py ℝ :=
  match divStep L rb cb ra 1 b x with
  | .error e => .error e
  | .ok y => .ok (y 0 0)

/-- Result of `lr_divide_vec`. -/
inductive DivRes where
  | mat (m : ℕ) (v : ℕ → ℕ → ℝ)
  | vec (n : ℕ) (v : ℕ → ℝ)

/-- `SquareMatVector.lr_divide_vec(inp_b_arr, inp_a_arr)`, gras/gen/gen.py:430-444: the result, and `inp_a_arr` after the call. -/
def lrDivideVec (L : Lstsq) (b : Arr) (arg : VecArg) : Py DivRes × Mat2 :=
  let a := arg.asMat                                                              -- lines 432-433
  let res : Py DivRes :=
    match b with
    | .d2 rb cb bv =>                                                             -- lines 434-435
      match divStep L rb cb a.r a.c bv a.v with
      | .error e => .error e
      | .ok x => .ok (.mat a.c x)
    | .d3 rb cb T bv =>
      if a.c = 1 then                                                             -- lines 437-440
        match forRange T (fun t => divNum L rb cb a.r (fun i j => bv i j t) a.v) with
        | .error e => .error e
        | .ok g => .ok (.vec T g)
      else                                                                        -- lines 442-444
        match forRange a.c (fun t => onSlice t b (fun bt => divNum L rb cb a.r bt (fun i _ => a.v i t))) with
        | .error e => .error e
        | .ok g => .ok (.vec a.c g)
  (res, a)

end
end Ellipy.MV
