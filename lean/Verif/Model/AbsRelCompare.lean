import Mathlib.Algebra.Order.Field.Basic
import Verif.Base.Py

/-!  Model of `abs_rel_compare`, gen/common/common.py:112-203.

Floats are modelled by `XF K` (exact finite numbers of an ordered field `K`, NaN, ±inf).  Unsigned
integer and complex arrays are not modelled. `f_norm_op` is modelled as an elementwise function
`nrm : K → K` (every caller in the library passes `np.abs`). -/

namespace Ellipy

/-- numpy dtype kinds that matter: bool, integer, float, and everything non-numeric. -/
inductive Kind where
  | b | i | f | other
  deriving DecidableEq, Repr

/-- An nd-array of numbers: kind, shape and flattened data. -/
structure NArr (K : Type _) where
  kind : Kind
  shape : List Nat
  data : List (XF K)
  len : data.length = shape.prod
  deriving DecidableEq

/-- `is_numeric(arr)`, gen/common/common.py:90-109. -/
def Kind.isNumeric : Kind → Bool
  | .other => false
  | _ => true

variable {K : Type _} [Field K] [LinearOrder K]

/-- `tol >= 0.` for a real scalar, gen/common/common.py:121,123 (`nan >= 0` is False). -/
def tolOk : XF K → Bool
  | .fin t => decide (0 ≤ t)
  | .pinf => true
  | _ => false

/-- `x <= tol` for finite `x`. -/
def leTol (x : K) : XF K → Bool
  | .fin t => decide (x ≤ t)
  | .pinf => true
  | _ => false

/-- `x > tol` for finite `x`. -/
def gtTol (x : K) : XF K → Bool
  | .fin t => decide (t < x)
  | .ninf => true
  | _ => false

/-- `np.amax` of a non-empty array. -/
def npAmax : List K → K
  | [] => 0
  | x :: xs => xs.foldl max x

/-- The finite value of an entry that is known to be finite. -/
def XF.toK : XF K → K
  | .fin x => x
  | _ => 0

/-- The report string, kept symbolic (the `%.17g` formatting is not modelled). -/
inductive Report (K : Type _) where
  | empty
  | nansDiffer
  | finiteDiffer
  | infsDiffer
  | relGreater (relDiff : K) (relTol : XF K) (absMRelDiff : K) (absTol : XF K)
  | absGreater (absDiff : K) (absTol : XF K)
  deriving DecidableEq

/-- The tuple returned by `abs_rel_compare`.  For the three numbers `none` is `np.array([])`. -/
structure ARResult (K : Type _) where
  isEqual : Bool
  absDiff : Option (XF K)
  isRelTriggered : Bool
  relDiff : Option (XF K)
  absMRelDiff : Option (XF K)
  report : Report K
  deriving DecidableEq

/-- gen/common/common.py:128-140: comparison of the places of the special values. -/
def specialsReport (left right : List (XF K)) : Bool × Report K :=
  if left.map XF.isNan = right.map XF.isNan then
    if left.map XF.isFinite = right.map XF.isFinite then
      if left.map XF.isPInf = right.map XF.isPInf ∧ left.map XF.isNInf = right.map XF.isNInf then
        (true, .empty)
      else (false, .infsDiffer)
    else (false, .finiteDiffer)
  else (false, .nansDiffer)

/-- gen/common/common.py:142-203 after the special values were found to coincide; `lv`, `rv` are the
values after lines 143-148. -/
def compareValues (lv rv : List K) (absTol : XF K) (relTol : Option (XF K)) (nrm : K → K) : ARResult K :=
  let diff := (List.zipWith (· - ·) lv rv).map nrm                          -- line 150
  if diff.isEmpty then                                                      -- lines 151-154
    ⟨true, none, false, none, none, .empty⟩
  else
    let absDiff := npAmax diff                                              -- line 156
    let isEqual := leTol absDiff absTol                                     -- line 158
    match relTol with
    | some rt =>
      let trig := diff.map (gtTol · absTol)                                 -- line 164
      if trig.any id then
        let sums := List.zipWith (· + ·) (lv.map nrm) (rv.map nrm)          -- line 167
        let trig2 := List.zipWith (· && ·) trig (sums.map (gtTol · absTol)) -- line 168
        if trig2.any id then                                                -- line 169
          let temp := List.zipWith (fun (t : Bool) (ds : K × K) => if t then 2 * ds.1 / ds.2 else 0)
            trig2 (diff.zip sums)                                           -- lines 171-175
          let relDiff := npAmax temp                                        -- line 176
          let temp2 := List.zipWith (fun t d => if t = relDiff then d else 0) temp diff  -- line 177
          let absM := npAmax temp2                                          -- line 178
          let temp3 := List.zipWith (fun (t : Bool) d => if t then 0 else d) trig2 diff  -- lines 179-181
          let absR := npAmax temp3                                          -- line 182
          let eq := leTol absR absTol && leTol relDiff rt                   -- lines 183-184
          ⟨eq, some (.fin absDiff), true, some (.fin relDiff), some (.fin absM),
            if eq then .empty else .relGreater relDiff rt absM absTol⟩      -- lines 188-193
        else
          ⟨isEqual, some (.fin absDiff), false, none, none,
            if isEqual then .empty else .absGreater absDiff absTol⟩         -- lines 195-197
      else
        ⟨isEqual, some (.fin absDiff), false, none, none,
          if isEqual then .empty else .absGreater absDiff absTol⟩
    | none =>                                                               -- lines 185-186
      ⟨isEqual, some (.fin absDiff), false, none, none,
        if isEqual then .empty else .absGreater absDiff absTol⟩

/-- `abs_rel_compare(left, right, abs_tol, rel_tol, f_norm_op)`, gen/common/common.py:112-203. -/
def absRelCompare (left right : NArr K) (absTol : XF K) (relTol : Option (XF K)) (nrm : K → K) :
    Py (ARResult K) :=
  if ¬ (left.shape = right.shape ∧ left.kind.isNumeric ∧ right.kind.isNumeric) then
    throwErr "wrongInput:wrongArgs"                                         -- lines 118-120
  else if ¬ tolOk absTol then
    throwErr "wrongInput:wrongAbsTol"                                       -- lines 121-122
  else if ¬ relTol.all tolOk then
    throwErr "wrongInput:wrongRelTol"                                       -- lines 123-124
  else
    match specialsReport left.data right.data with
    | (false, rep) => .ok ⟨false, some .nan, false, some .nan, some .nan, rep⟩   -- lines 198-202
    | (true, _) =>
      if left.kind = .b ∧ right.kind = .b then
        .error .typeError                       -- line 150: numpy refuses to subtract bool arrays
      else
        let isnFinite := left.data.map (fun x => !x.isFinite)               -- line 143
        let lv := List.zipWith (fun (m : Bool) (x : XF K) => if m then 0 else x.toK) isnFinite left.data
        let rv := List.zipWith (fun (m : Bool) (x : XF K) => if m then 0 else x.toK) isnFinite right.data
        .ok (compareValues lv rv absTol relTol nrm)

end Ellipy
