import Verif.Model.Minksum

/-! Model of `is_internal` of `Ellipsoid`. -/

namespace Ellipy.Ell
open Matrix Ellipy.LA
noncomputable section

/-- `f_single_case(sing_ell, abs_tol)`, elltool/core/ellipsoid/Ellipsoid.py:414-429 (`abs_tol` is the tolerance of this ellipsoid).  The
root of a negative number is NaN, for which both comparisons are false. -/
def singleInternal (E : Eigh) (G : Eig) {m : ℕ} (x : Fin m → ℝ) (e : EllObj) : Py Bool :=
  open Classical in
  match regShape E G m e with                                                             -- lines 418-425
  | .error y => .error y
  | .ok R =>
    match invSq R with                                                                    -- line 426
    | .error y => .error y
    | .ok B =>
      let c := x - centerAs m e                                                           -- line 417
      let q := c ⬝ᵥ B *ᵥ c
      .ok (decide (0 ≤ q ∧ (Real.sqrt q < 1 ∨ |Real.sqrt q - 1| < e.absTol)))             -- lines 426-428

/-- `is_int_single_vec(ell_arr, x_vec, mode)`, elltool/core/ellipsoid/Ellipsoid.py:413-443.  `ell_arr[j].flat` needs an array with at least two
dimensions; `j` runs up to the number of all elements.  (When `ell_arr[j]` does not exist, the model leaves out the work on the rows
before, which can raise as well.) -/
def internalVec (E : Eigh) (G : Eig) {m : ℕ} (a : Arr EllObj) (x : Fin m → ℝ) (mode : String) : Py Bool :=
  match a.shape with
  | [] => .error .indexError
  | [_] => .error .attributeError                                                         -- an `Ellipsoid` has no `flat`
  | r :: _ =>
    if r = a.data.length then
      match pyMap (singleInternal E G x) a.data with                                      -- lines 433-434
      | .error y => .error y
      | .ok bs => .ok (if mode = "u" then bs.any id else bs.all id)                       -- lines 435-442
    else .error .indexError

/-- `is_internal(ell_arr, mat_of_vec_mat, mode)`, elltool/core/ellipsoid/Ellipsoid.py:410-468; a mode that is not a string is `none`. -/
def isInternal (E : Eigh) (G : Eig) (a : Arr EllObj) (x : Arr ℝ) (mode : Option String) : Py (Arr Bool) :=
  open Classical in
  if a.data = [] then throwErr "wrongInput:emptyArray"                                    -- lines 448-449
  else if anyEmpty a.data then throwErr "wrongInput:emptyEllipsoid"                       -- lines 450-451
  else
    let mode := mode.getD "u"                                                             -- lines 453-454
    if ¬ (mode = "u" ∨ mode = "i") then throwErr "wrongInput"                             -- lines 455-456
    else
      match x.shape with
      | [m, k] =>                                                                         -- line 459
        if ¬ ∀ e ∈ a.data, e.n = m then throwErr "wrongSizes"                             -- lines 460-461
        else
          match pyMap (fun j => internalVec E G a (fun i : Fin m => x.data.getD (i.val * k + j) 0) mode) (List.range k) with
          | .error y => .error y
          | .ok bs => reshape bs [k, 1]                                                   -- lines 463-468
      | _ => .error .pyValueError

end
end Ellipy.Ell
