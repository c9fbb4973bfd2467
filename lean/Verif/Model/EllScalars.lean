import Mathlib.LinearAlgebra.Matrix.Trace
import Verif.Model.EllHeap
import Verif.Model.IsBigger
import Verif.Model.IsEqual

/-! Model of the type checks of `ABasicEllipsoid`, of the queries of `AEllipsoid` that return one number for each ellipsoid
(`dimension`, `min_eig`, `max_eig`, `trace`, `get_property`) and of `ell_unitball`.

`collections.Iterable` exists in the versions of Python the library is written for (it was removed in 3.10). -/

namespace Ellipy.Ell
open Matrix Ellipy.LA
noncomputable section

/-- An object: an instance of the class the method belongs to, or anything else. -/
inductive Item (α : Type) where
  | inst (x : α)
  | other

/-- An argument: an object that is not iterable, or an iterable, which `np.array` turns into an array of objects. -/
inductive ObjArg (α : Type) where
  | single (x : Item α)
  | many (a : Arr (Item α))

/-- `isinstance(x, cls)`; anything else raises with the tag. -/
def instOf {α : Type} (tag : String) : Item α → Py α
  | .inst x => .ok x
  | .other => throwErr tag

/-- The tag with the name of the variable, elltool/core/abasicellipsoid/ABasicEllipsoid.py:75-76. -/
def tagOf (tag var : String) : String := if var = "" then tag else tag ++ ":" ++ var

/-- `_check_is_me_internal(ell_arr, var_name, err_tag)`, elltool/core/abasicellipsoid/ABasicEllipsoid.py:73-87, followed by
`np.array(ell_arr)`: the array of the objects (an object that is not iterable gives an array without axes).  The methods
`_check_is_me` and `_check_is_me_virtual` of `Ellipsoid` (elltool/core/ellipsoid/Ellipsoid.py:205-206, 216-217) and of `Hyperplane`
(elltool/core/hyperplane/Hyperplane.py:85-90) only pass the arguments on. -/
def checkIsMe {α : Type} (tag var : String) (arg : ObjArg α) : Py (Arr α) :=
  match arg with
  | .single x =>                                                                       -- lines 86-87
    match instOf (tagOf tag var) x with
    | .error e => .error e
    | .ok x => .ok (Arr.scalar x)
  | .many a =>                                                                         -- lines 79-85
    match pyMap (instOf (tagOf tag var)) a.data with
    | .error e => .error e
    | .ok xs => reshape xs a.shape

/-- `_check_if_scalar(ell_arr)`, elltool/core/abasicellipsoid/ABasicEllipsoid.py:61-70. -/
def checkIfScalar {α : Type} (arg : ObjArg α) : Py Unit :=
  match arg with
  | .single (.inst _) => .ok ()
  | .single .other => throwErr "wrongInput:ell_arr"                                    -- lines 69-70
  | .many a =>
    match a.data with
    | [.inst _] => .ok ()
    | [.other] => throwErr "wrongInput:ell_arr"                                        -- lines 67-68
    | _ => throwErr "wrongInput:ell_arr"                                               -- lines 65-66

/-- `get_single_min_eig`, elltool/core/aellipsoid/AEllipsoid.py:183-190.  All entries of a shape matrix are finite (C33), so the
tests for infinities and NaN fail; `np.min` of an empty array raises. -/
def singleMinEig (E : Eigh) (e : EllObj) : Py ℝ :=
  match (List.ofFn (E.vals e.Q)).min? with
  | none => .error .pyValueError
  | some m => .ok m

/-- `min_eig(ell_arr)`, elltool/core/aellipsoid/AEllipsoid.py:177-192. -/
def minEig (E : Eigh) (arg : ObjArg EllObj) : Py (List ℝ) :=
  open Classical in
  match checkIsMe "wrongInput" "" arg with
  | .error e => .error e
  | .ok a =>
    if anyEmpty a.data then throwErr "wrongInput:emptyEllipsoid"
    else pyMap (singleMinEig E) a.data

/-- `get_single_max_eig`, elltool/core/aellipsoid/AEllipsoid.py:201-208. -/
def singleMaxEig (E : Eigh) (e : EllObj) : Py ℝ :=
  match (List.ofFn (E.vals e.Q)).max? with
  | none => .error .pyValueError
  | some m => .ok m

/-- `max_eig(ell_arr)`, elltool/core/aellipsoid/AEllipsoid.py:195-210. -/
def maxEig (E : Eigh) (arg : ObjArg EllObj) : Py (List ℝ) :=
  open Classical in
  match checkIsMe "wrongInput" "" arg with
  | .error e => .error e
  | .ok a =>
    if anyEmpty a.data then throwErr "wrongInput:emptyEllipsoid"
    else pyMap (singleMaxEig E) a.data

/-- `trace(ell_arr)`, elltool/core/aellipsoid/AEllipsoid.py:233-238. -/
def trace (arg : ObjArg EllObj) : Py (List ℝ) :=
  open Classical in
  match checkIsMe "wrongInput" "" arg with
  | .error e => .error e
  | .ok a =>
    if anyEmpty a.data then throwErr "wrongInput:emptyEllipsoid"
    else .ok (a.data.map (fun e => ∑ i, e.Q i i))

/-- `dimension(ell_arr)`, elltool/core/aellipsoid/AEllipsoid.py:156-170, with `return_rank=False`. -/
def dimension (arg : ObjArg EllObj) : Py (Arr ℕ) :=
  match checkIsMe "wrongInput" "" arg with
  | .error e => .error e
  | .ok a => reshape (a.data.map EllObj.n) a.shape                                     -- lines 169-170

/-- `dimension(ell_arr, return_rank=True)`, elltool/core/aellipsoid/AEllipsoid.py:156-170.  `zip(*[])` has no values to unpack. -/
def dimensionRank (B : Svd) (arg : ObjArg EllObj) : Py (Arr ℕ × Arr ℕ) :=
  match checkIsMe "wrongInput" "" arg with
  | .error e => .error e
  | .ok a =>
    match pyMap (fun e : EllObj => matRank B e.Q) a.data with                       -- lines 163-166
    | .error e => .error e
    | .ok rs =>
      if a.data.length = 0 then .error .pyValueError
      else
        match reshape (a.data.map EllObj.n) a.shape, reshape rs a.shape with           -- line 167
        | .error e, _ => .error e
        | _, .error e => .error e
        | .ok d, .ok r => .ok (d, r)

/-- The attributes `get_property` can read. -/
inductive Attr where
  | absTol
  | relTol
  | n2d
  | n3d
  | center
  | shape

/-- `_get_prop_aliases_dict()` of `Ellipsoid`: elltool/core/ellipsoid/Ellipsoid.py:15-21,
elltool/core/aellipsoid/AEllipsoid.py:11-23, elltool/core/abasicellipsoid/ABasicEllipsoid.py:12-20. -/
def aliases : List (String × Attr) :=
  [("absTol", .absTol), ("abs_tol", .absTol), ("_abs_tol", .absTol),
   ("relTol", .relTol), ("rel_tol", .relTol), ("_rel_tol", .relTol),
   ("nPlot2dPoints", .n2d), ("n_plot_2d_points", .n2d), ("_n_plot_2d_points", .n2d),
   ("nPlot3dPoints", .n3d), ("n_plot_3d_points", .n3d), ("_n_plot_3d_points", .n3d),
   ("centerVec", .center), ("center_vec", .center), ("_center_vec", .center),
   ("shapeMat", .shape), ("shape_mat", .shape), ("_shape_mat", .shape)]

/-- `prop_arr[i_elem] = ell.__getattribute__(prop_name)`, elltool/core/abasicellipsoid/ABasicEllipsoid.py:115: an array of one number
is converted, other arrays raise. -/
def readAttr (at' : Attr) (e : EllObj) : Py ℝ :=
  match at' with
  | .absTol => .ok e.absTol
  | .relTol => .ok e.relTol
  | .n2d => .ok e.n2d
  | .n3d => .ok e.n3d
  | .center => if h : e.n = 1 then .ok (e.c ⟨0, by omega⟩) else .error .pyValueError
  | .shape => if h : e.n = 1 then .ok (e.Q ⟨0, by omega⟩ ⟨0, by omega⟩) else .error .pyValueError

/-- `get_property(ell_arr, prop_name, f_prop_fun)`, elltool/core/abasicellipsoid/ABasicEllipsoid.py:99-125, for a function that returns
a number for every non-empty array.  `ell_arr` is flattened first (line 103), so the result has one axis.  The second component is
missing if `f_prop_fun` is `None`. -/
def getProperty (arg : ObjArg EllObj) (name : String) (f : Option (List ℝ → ℝ)) : Py (List ℝ × Option (XF ℝ)) :=
  match checkIsMe "wrongInput" "" arg with                                             -- line 102
  | .error e => .error e
  | .ok a =>
    if a.data.length = 0 then .ok ([], f.map (fun _ => .nan))                          -- lines 106-111
    else
      match aliases.lookup name with                                                   -- line 113
      | none => .error .keyError
      | some at' =>
        match pyMap (readAttr at') a.data with                                         -- lines 114-116
        | .error e => .error e
        | .ok xs => .ok (xs, f.map (fun g => .fin (g xs)))                             -- lines 117-125

/-- The default of `f_prop_fun`: `lambda x: np.min(x)`. -/
def npMin (l : List ℝ) : ℝ := l.min?.getD 0

/-- `get_abs_tol(ell_arr)`, elltool/core/abasicellipsoid/ABasicEllipsoid.py:128-130, without further arguments. -/
def getAbsTol (arg : ObjArg EllObj) : Py (List ℝ × Option (XF ℝ)) := getProperty arg "_abs_tol" (some npMin)

/-- `get_rel_tol(ell_arr)`, elltool/core/abasicellipsoid/ABasicEllipsoid.py:133-135, without further arguments. -/
def getRelTol (arg : ObjArg EllObj) : Py (List ℝ × Option (XF ℝ)) := getProperty arg "_rel_tol" (some npMin)

/-- `get_n_plot_2d_points(ell_arr)`, elltool/core/aellipsoid/AEllipsoid.py:74-75. -/
def getNPlot2d (arg : ObjArg EllObj) : Py (List ℝ × Option (XF ℝ)) := getProperty arg "_n_plot_2d_points" none

/-- `get_n_plot_3d_points(ell_arr)`, elltool/core/aellipsoid/AEllipsoid.py:78-79. -/
def getNPlot3d (arg : ObjArg EllObj) : Py (List ℝ × Option (XF ℝ)) := getProperty arg "_n_plot_3d_points" none

/-- `ell_unitball(n)`, elltool/core/core.py:8-9, for an integer; the properties are the current settings.  `np.eye` of a negative
size raises. -/
def ellUnitball (E : Eigh) (n : ℤ) (absTol relTol n2d n3d : ℝ) : Py EllObj :=
  if n < 0 then .error .pyValueError
  else ellNew E [.arr (encMat (1 : Matrix (Fin n.toNat) (Fin n.toNat) ℝ))] absTol relTol n2d n3d

end
end Ellipy.Ell
