import Mathlib.Algebra.Order.Group.Unbundled.Abs
import Verif.Model.AbsRelCompare

/-!  Model of `dict_compare` / `dict_compare_vec`, gen/dict/dict.py.

Values: Python/numpy scalars, strings, `None`, numeric nd-arrays, lists, one-dimensional
non-numeric arrays (`oarr`, no dictionaries inside), dictionaries and object arrays of dictionaries
(`darr`).  A dictionary is the list of its entries in increasing key order, which is the only order in
which the code visits them (`sorted`, lines 62-63 and 133).  Tuples, complex numbers, strings of
bytes, multi-dimensional non-numeric arrays and nested lists of dictionaries at top level are not
modelled.  An array of dictionaries without entries is treated as one-dimensional (for the shape `(2, 0)` the code would look at two
empty rows). -/

namespace Ellipy

/-- Scalar types, distinguished by `type(x)`. -/
inductive STy where
  | pyBool | npBool | pyInt | npInt64 | pyFloat | npFloat64
  deriving DecidableEq, Repr

/-- `np.asarray(x).dtype.kind` of a scalar. -/
def STy.kind : STy → Kind
  | .pyBool => .b
  | .npBool => .b
  | .pyInt => .i
  | .npInt64 => .i
  | .pyFloat => .f
  | .npFloat64 => .f

/-- Python values. -/
inductive PyVal (K : Type) where
  | scal (ty : STy) (x : XF K)
  | str (s : String)
  | none
  | arr (a : NArr K)
  | list (l : List (PyVal K))
  | oarr (l : List (PyVal K))
  | dict (d : List (String × PyVal K))
  | darr (shape : List Nat) (ds : List (List (String × PyVal K)))

/-- `type(x)`, as far as the code compares it. -/
inductive PTy where
  | scal (t : STy) | str | none | ndarray | list | dict
  deriving DecidableEq, Repr

namespace PyVal
variable {K : Type}

/-- `type(x)`. -/
def ty : PyVal K → PTy
  | scal t _ => .scal t
  | str _ => .str
  | none => .none
  | arr _ => .ndarray
  | list _ => .list
  | oarr _ => .ndarray
  | dict _ => .dict
  | darr _ _ => .ndarray

/-- `np.asarray(x).dtype.kind`.  For lists (and non-numeric arrays) the kind comes out of numpy's promotion
rules; it is left as an arbitrary function `lk` of the list. -/
def kindOf (lk : List (PyVal K) → Kind) : PyVal K → Kind
  | scal t _ => t.kind
  | str _ => .other
  | none => .other
  | arr a => a.kind
  | list l => lk l
  | oarr _ => .other
  | dict _ => .other
  | darr _ _ => .other

end PyVal

variable {K : Type} [Field K] [LinearOrder K]

/-- Symbolic report lines are rendered by an arbitrary function (the number format is not modelled). -/
abbrev Fmt (K : Type) := Report K → String

/-- How Python prints a tuple of natural numbers (the shapes in the message of gen/dict/dict.py:85). -/
def tupleStr : List Nat → String
  | [a] => "(" ++ toString a ++ ",)"
  | l => "(" ++ ", ".intercalate (l.map toString) ++ ")"

/-- The numeric branch of `comp_fun`, gen/dict/dict.py:79-107, on the two arrays.  `x_dtype == 'fc'`
(line 90) is never true because the kind is a single letter, so lines 91-100 are dead and all entries
are compared.  Integers are converted to float first (lines 87-89), which does not change values. -/
def numComp (fmt : Fmt K) (absTol : XF K) (relTol : Option (XF K)) (x y : NArr K) : Py (Bool × String) :=
  if x.shape ≠ y.shape then
    .ok (false, "Different sizes (left: " ++ tupleStr x.shape ++ ", right: " ++ tupleStr y.shape ++ ")")
  else do
    let res ← absRelCompare ⟨x.kind, [x.data.length], x.data, by simp⟩ ⟨y.kind, [y.data.length], y.data, by simp⟩
      absTol relTol (fun z => |z|)
    if !res.isEqual then .ok (false, "Max. " ++ fmt res.report)
    else .ok (true, "")

/-- `np.array(x)` of a scalar. -/
def scalArr (t : STy) (x : XF K) : NArr K := ⟨t.kind, [], [x], by simp⟩

/-- `d[key]`. -/
def fieldGet (d : List (String × PyVal K)) (k : String) : Option (PyVal K) :=
  (d.find? (fun p => p.1 == k)).map Prod.snd

/-- The key sets of two dictionaries coincide (gen/dict/dict.py:58-60). -/
def sameKeys (x y : List (String × PyVal K)) : Bool :=
  x.all (fun p => decide (p.1 ∈ y.map Prod.fst)) && y.all (fun p => decide (p.1 ∈ x.map Prod.fst))

/-- gen/dict/dict.py:64-66: the report line about the keys. -/
def keyReport (x y : List (String × PyVal K)) : String :=
  "Field names are different, left-right:" ++
    "|".intercalate ((x.map Prod.fst).filter (fun k => decide (k ∉ y.map Prod.fst))) ++ ", right-left: " ++
    "|".intercalate ((y.map Prod.fst).filter (fun k => decide (k ∉ x.map Prod.fst)))

/-- gen/dict/dict.py:152-156 and 162-166: the joined report of a vector comparison. -/
def joinReports (res : List (Bool × List String)) : String :=
  "\n".intercalate ((res.zipIdx.map (fun p =>
    if p.1.1 then [] else p.1.2.map (fun s => "(" ++ toString p.2 ++ ")" ++ s))).flatten)

section
variable (lk : List (PyVal K) → Kind) (fmt : Fmt K) (absTol : XF K) (relTol : Option (XF K))

mutual

/-- `comp_fun(x, y, abs_tol, rel_tol)`, gen/dict/dict.py:68-131. -/
def compFun : PyVal K → PyVal K → Py (Bool × String)
  | x, y =>
    if x.ty ≠ y.ty ∨ x.kindOf lk ≠ y.kindOf lk then .ok (false, "Different types")      -- lines 75-77
    else
      match x, y with
      | .scal t a, .scal t' b => numComp fmt absTol relTol (scalArr t a) (scalArr t' b)  -- lines 79-107
      | .arr a, .arr b => numComp fmt absTol relTol a b
      | .dict d, .dict d' => do                                            -- lines 109, 112-115
        let r ← compScalar d d'
        .ok (r.1, joinReports [r])
      | .darr sh ds, .darr sh' ds' =>                                      -- lines 110-115, 37-40
        if ds.isEmpty then .ok (true, "")                                  -- size 0: lines 117-119
        else if sh ≠ sh' then .ok (false, "sizes are different")
        else do
          let rs ← compVec ds ds'
          .ok (rs.all (fun r => r.1), joinReports rs)
      | .darr _ ds, .oarr l' => if ds.isEmpty then .ok (true, "") else
          match l' with
          | [] => .ok (false, "sizes are different")
          | _ :: _ => throwErr "wrongInput:dict_y"                         -- lines 30-32
      | .darr _ ds, .arr _ => if ds.isEmpty then .ok (true, "") else throwErr "wrongInput:dict_y"
      | .list l, .list l' => compList 0 l l'                               -- lines 117-128
      | .oarr l, .oarr l' => compList 0 l l'
      | .oarr l, .darr _ ds => compList 0 l (ds.map .dict)
      | .oarr l, .arr _ => if l.isEmpty then .ok (true, "") else .error .typeError
      | .str a, .str b => if a ≠ b then .ok (false, "values are different") else .ok (true, "")  -- 129-131
      | _, _ => .ok (true, "")

/-- The loop over list elements, gen/dict/dict.py:120-128; `y[i]` raises `IndexError` past the end. -/
def compList : Nat → List (PyVal K) → List (PyVal K) → Py (Bool × String)
  | _, [], _ => .ok (true, "")
  | _, _ :: _, [] => .error .indexError
  | i, x :: xs, y :: ys => do
    let r ← compFun x y
    if !r.1 then .ok (false, "{" ++ toString i ++ "}" ++ r.2)
    else compList (i + 1) xs ys

/-- `dict_compare_scalar`, gen/dict/dict.py:52-145. -/
def compScalar : List (String × PyVal K) → List (String × PyVal K) → Py (Bool × List String)
  | x, y =>
    if sameKeys x y then compFields x y
    else .ok (false, [keyReport x y])

/-- The loop over the keys, gen/dict/dict.py:133-145 (all keys are visited; reports accumulate). -/
def compFields : List (String × PyVal K) → List (String × PyVal K) → Py (Bool × List String)
  | [], _ => .ok (true, [])
  | (k, v) :: xs, y =>
    match fieldGet y k with
    | Option.none => .error .keyError
    | some w => do
      let r ← compFun v w
      let rest ← compFields xs y
      .ok (r.1 && rest.1,
        if r.1 then rest.2 else
          ("." ++ k ++ (if v.ty = .dict then "" else "--> ") ++ r.2) :: rest.2)

/-- The comprehension of gen/dict/dict.py:147-149 over the zipped dictionaries. -/
def compVec : List (List (String × PyVal K)) → List (List (String × PyVal K)) → Py (List (Bool × List String))
  | x :: xs, y :: ys => do
    let r ← compScalar x y
    let rest ← compVec xs ys
    .ok (r :: rest)
  | _, _ => .ok []

end

/-- `type(x) == dict`. -/
def PyVal.isDict : PyVal K → Bool
  | .dict _ => true
  | _ => false

/-- gen/dict/dict.py:11-23 (and 24-36 for the second argument): the argument as an array, given by its shape and its flattened
entries. -/
def asDictArr (tag : String) : PyVal K → Py (List Nat × List (PyVal K))
  | .dict d => .ok ([1], [.dict d])
  | .list l => if l.head?.all PyVal.isDict then .ok ([l.length], l) else throwErr tag
  | .oarr l => if l.head?.all PyVal.isDict then .ok ([l.length], l) else throwErr tag
  | .darr sh ds => .ok (sh, ds.map .dict)
  | .arr a => if a.data.isEmpty then .ok (a.shape, []) else throwErr tag
  | _ => throwErr tag

/-- The comprehension of gen/dict/dict.py:147-149 on arbitrary entries: line 54 rejects everything
that is not a dictionary. -/
def compVecAny : List (PyVal K) → List (PyVal K) → Py (List (Bool × List String))
  | x :: xs, y :: ys => do
    let r ← (match x, y with
      | .dict d, .dict d' => compScalar lk fmt absTol relTol d d'
      | _, _ => throwErr "wrongInput" : Py (Bool × List String))
    let rest ← compVecAny xs ys
    .ok (r :: rest)
  | _, _ => .ok []

/-- `dict_compare(dict_x, dict_y, abs_tol, rel_tol)`, gen/dict/dict.py:6-40, followed by
`dict_compare_vec`, lines 43-167.  With no entries at all the unpacking of `zip(*[])` on line 147
raises `ValueError`. -/
def dictCompare (x y : PyVal K) : Py (Bool × String) := do
  let a ← asDictArr "wrongInput:dict_x" x
  let b ← asDictArr "wrongInput:dict_y" y
  if a.1 ≠ b.1 then .ok (false, "sizes are different")
  else do
    let rs ← compVecAny lk fmt absTol relTol a.2 b.2
    if rs.isEmpty then .error .pyValueError
    else .ok (rs.all (fun r => r.1), joinReports rs)

end

end Ellipy
