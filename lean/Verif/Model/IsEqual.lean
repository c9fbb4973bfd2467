import Verif.Model.DictCompare
import Verif.Model.EllCtor

/-! Model of `_is_equal_internal`, elltool/core/abasicellipsoid/ABasicEllipsoid.py:137-203, with the part of `dict_compare_vec` around
the comparisons (gen/dict/dict.py:43-48 and 147-167), for any class that supplies `to_dict`. -/

namespace Ellipy.Ell
open Matrix Ellipy.LA
noncomputable section

/-- What `_is_equal_internal` uses of a class: the tolerances of an object, `to_dict` on one object (`δ` is what it returns), and
`form_comp_dict` (lines 171-183), which applies the transformations to the fields.  The entries of the comparison dictionary are listed in
increasing order of the keys. -/
structure EqClass (α δ : Type) where
  absTol : α → ℝ
  relTol : α → ℝ
  toDict : α → Py δ
  form : Bool → ℝ → δ → Py (List (String × PyVal ℝ))

/-- `np.reshape(l, shape)`. -/
def reshape {β : Type} (l : List β) (shape : List ℕ) : Py (Arr β) :=
  if hl : l.length = shape.foldr (· * ·) 1 then .ok ⟨shape, l, hl⟩ else .error .pyValueError

/-- The shape of `np.tile(a, reps)` for an array `a` with one element and `nd` dimensions: the shorter of the two shapes is extended by
leading ones. -/
def tileShape (nd : ℕ) (reps : List ℕ) : List ℕ := List.replicate (nd - reps.length) 1 ++ reps

/-- `np.tile(a, reps)` for an array with one element. -/
def tileOne {β : Type} (sh : List ℕ) (l : List β) (reps : List ℕ) : List ℕ × List β :=
  (tileShape sh.length reps, (List.replicate (reps.foldr (· * ·) 1) l).flatten)

section
variable (lk : List (PyVal ℝ) → Kind) (fmt : Fmt ℝ)

/-- `dict_compare_vec(x, y, abs_tol, rel_tol)`, gen/dict/dict.py:43-167, on arrays of dictionaries given by shape and entries.  The verdict
on arrays of different shapes is 0-dimensional. -/
def dictCompareVec (x y : List ℕ × List (List (String × PyVal ℝ))) (absTol relTol : ℝ) : Py (List Bool × String) :=
  if x.1 ≠ y.1 then .ok ([false], "sizes are different")                             -- lines 45-48
  else
    match compVec lk fmt (.fin absTol) (some (.fin relTol)) x.2 y.2 with             -- lines 147-149
    | .error e => .error e
    | .ok rs => if rs.isEmpty then .error .pyValueError else .ok (rs.map Prod.fst, joinReports rs)

/-- `np.min` of a non-empty list. -/
def minTol : List ℝ → ℝ
  | [] => 0
  | x :: xs => xs.foldl min x

/-- `_is_equal_internal(ell_first_arr, ell_sec_arr, is_prop_included)`,
elltool/core/abasicellipsoid/ABasicEllipsoid.py:137-203, on arrays of objects of the class. -/
def isEqual {α δ : Type} (C : EqClass α δ) (a b : Arr α) (isProp : Bool) : Py (Arr Bool × String) :=
  if a.data.length = 0 ∧ b.data.length = 0 then .ok (Arr.vec [true], "")             -- lines 145-146
  else if a.data.length = 0 ∨ b.data.length = 0 then throwErr "wrongInput"           -- lines 147-148
  else if a.data.length > 1 ∧ b.data.length > 1 ∧ a.shape ≠ b.shape then throwErr "wrongSizes"   -- lines 153-154
  else
    let absTol := minTol ((a.data ++ b.data).map C.absTol)                           -- lines 156-162
    let relTol := minTol ((a.data ++ b.data).map C.relTol)
    match pyMap C.toDict a.data with                                                 -- lines 166-167
    | .error e => .error e
    | .ok da =>
      match pyMap C.toDict b.data with                                               -- lines 168-169
      | .error e => .error e
      | .ok db =>
        match pyMap (C.form isProp absTol) da with                                   -- lines 185-187
        | .error e => .error e
        | .ok fa =>
          match pyMap (C.form isProp absTol) db with                                 -- lines 188-190
          | .error e => .error e
          | .ok fb =>
            let xa := if a.data.length > 1 then (a.shape, fa)                        -- lines 191-197
              else tileOne a.shape fa b.shape
            let xb := if a.data.length > 1 ∧ ¬ b.data.length > 1 then tileOne b.shape fb a.shape else (b.shape, fb)
            match dictCompareVec lk fmt xa xb absTol relTol with                     -- line 198
            | .error e => .error e
            | .ok (v, rep) =>
              match reshape v (if a.data.length > 1 then a.shape else b.shape) with  -- lines 199-202
              | .error e => .error e
              | .ok r => .ok (r, rep)

/-- `x == y`, elltool/core/abasicellipsoid/ABasicEllipsoid.py:211-213. -/
def eqOp {α δ : Type} (C : EqClass α δ) (x y : α) : Py Bool :=
  match isEqual lk fmt C (Arr.vec [x]) (Arr.vec [y]) false with
  | .error e => .error e
  | .ok r => match r.1.data with
    | [] => .error .indexError
    | v :: _ => .ok v

/-- `eq(first, second)`, elltool/core/abasicellipsoid/ABasicEllipsoid.py:206-209: further arguments are ignored. -/
def eqArr {α δ : Type} (C : EqClass α δ) (a b : Arr α) : Py (Arr Bool × String) := isEqual lk fmt C a b false

end

/-- A float64 vector as a value. -/
def vecArr {n : ℕ} (c : Fin n → ℝ) : NArr ℝ := ⟨.f, [n], List.ofFn (fun i => XF.fin (c i)), by simp⟩

/-- `np.zeros((0,))`. -/
def zeros0 : PyVal ℝ := .arr ⟨.f, [0], [], rfl⟩

/-- `form_comp_dict`, elltool/core/abasicellipsoid/ABasicEllipsoid.py:171-183, with the transformations of `Ellipsoid.to_dict`,
elltool/core/ellipsoid/Ellipsoid.py:679-699: there is none for the properties, so the lookup fails when they are included. -/
def ellForm (E : Eigh) (isProp : Bool) (absTol : ℝ) (e : EllObj) : Py (List (String × PyVal ℝ)) :=
  match (if e.n = 0 then .ok zeros0
    else match sqrtmPos E e.Q absTol with
      | .error x => .error x
      | .ok R => .ok (.arr (matArr R)) : Py (PyVal ℝ)) with
  | .error x => .error x
  | .ok r => if isProp then .error .keyError
    else .ok [("QSqrt", r), ("q", if e.n = 0 then zeros0 else .arr (vecArr e.c))]

/-- The class `Ellipsoid`; `to_dict` (elltool/core/ellipsoid/Ellipsoid.py:658-672) collects the attributes. -/
def ellClass (E : Eigh) : EqClass EllObj EllObj where
  absTol := EllObj.absTol
  relTol := EllObj.relTol
  toDict := fun e => .ok e
  form := ellForm E

end
end Ellipy.Ell
