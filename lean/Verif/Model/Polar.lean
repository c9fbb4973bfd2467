import Verif.Model.Minksum

/-! Model of `polar` of `Ellipsoid`. -/

namespace Ellipy.Ell
open Matrix Ellipy.LA
noncomputable section

/-- A float64 vector as an array of shape `(1, n)`. -/
def encRow {n : ℕ} (c : Fin n → ℝ) : Arr CX := ⟨[1, n], List.ofFn (fun i => ⟨.fin (c i), .fin 0⟩), by simp⟩

/-- `_get_scalar_polar_internal(True)`, elltool/core/ellipsoid/Ellipsoid.py:73-82.  `norm_const` has the shape `(1, 1)`, hence the centre
has the shape `(1, n)`; division by zero leaves no finite entry in the matrix and the constructor raises. -/
def polarRobust (E : Eigh) (L : Lstsq) (p : PropVals) (e : EllObj) : Py EllObj :=
  match npInv e.Q with                                                                    -- line 75
  | .error x => .error x
  | .ok B =>
    let S := (1 / 2 : ℝ) • (B + Bᵀ)                                                       -- line 76
    match quadMat L (matR e.Q) (vecR e.c) (Arr.scalar 0) "inv" with                       -- line 78
    | .error x => .error x
    | .ok a =>
      let k := a.data.getD 0 0
      if 1 - k = 0 then throwErr "wrongInput:center_vec"
      else
        let pc : Fin e.n → ℝ := fun i => - L.sol e.Q (colMat e.c) i 0 / (1 - k)           -- line 79
        let P := (1 / (1 - k)) • S + vecMulVec pc pc                                      -- line 80
        ellMake E [.arr (encRow pc), .arr (encMat P)] p                                   -- line 81

/-- `_get_scalar_polar_internal(False)`, elltool/core/ellipsoid/Ellipsoid.py:83-98 (`polar` does not use it).  In line 87 the centre is a
1-D array: `c_vec @ c_vec.T` is a number, which is subtracted from every entry. -/
def polarPlain (E : Eigh) (L : Lstsq) (p : PropVals) (e : EllObj) : Py EllObj :=
  match quadMat L (matR e.Q) (vecR e.c) (Arr.scalar 0) "invadv" with                      -- line 85
  | .error x => .error x
  | .ok a =>
    if a.data.getD 0 0 < 1 then
      match npInv (e.Q - of fun _ _ => e.c ⬝ᵥ e.c) with                                   -- line 87
      | .error x => .error x
      | .ok B =>
        let A := (1 / 2 : ℝ) • (B + Bᵀ)                                                   -- line 88
        let M := E.vecs A * diagonal (E.vals A) * (E.vecs A)ᵀ                             -- lines 90-91
        let A' := (0.5 : ℝ) • (M + Mᵀ)                                                    -- line 92
        match quadMat L (matR A') (vecR e.c) (Arr.scalar 0) "plain" with                  -- line 94
        | .error x => .error x
        | .ok q =>
          ellMake E [.arr (encVec (-(A' *ᵥ e.c))), .arr (encMat ((1 + q.data.getD 0 0) • A'))] p   -- lines 93-95
    else throwErr "degenerateEllipsoid"                                                   -- line 98

/-- `polar(ell_arr)`, elltool/core/ellipsoid/Ellipsoid.py:579-588.  The loop takes `ell_arr[i]`, which is an object for a 1-D array only,
and stores it in `pol_ell_arr[i]`, an array with one row. -/
def polar (E : Eigh) (L : Lstsq) (p : PropVals) (a : Arr EllObj) : Py (Arr EllObj) :=
  match isDegenerate E a.data with                                                        -- line 582
  | .error x => .error x
  | .ok ds =>
    if true ∈ ds then throwErr "degenerateEllipsoid"                                      -- line 583
    else
      match a.shape, a.data with
      | _, [] => .ok a                                                                    -- no element: the loop is not entered
      | [], _ => .error .indexError                                                       -- `ell_arr[0]` of a 0-d array
      | [_], e :: rest =>
        match polarRobust E L p e with                                                    -- lines 585-586
        | .error x => .error x
        | .ok r =>
          match rest with
          | [] => .ok (Arr.vec [r])                                                       -- line 587
          | e' :: _ =>
            match polarRobust E L p e' with
            | .error x => .error x
            | .ok _ => .error .indexError                                                 -- `pol_ell_arr[1]`
      | _, _ => .error .attributeError                                                    -- an array has no `_check_if_scalar`

end
end Ellipy.Ell
