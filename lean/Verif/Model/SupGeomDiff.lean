import Mathlib.LinearAlgebra.CrossProduct
import Verif.Base.Hull
import Verif.Base.Lstsq
import Verif.Base.PyMap
import Verif.Model.Core
import Verif.Model.La

/-! Model of `sup_geom_diff_2d` and `sup_geom_diff_3d`, gras/geom/sup/sup.py, in exact arithmetic on arrays of finite numbers.  A quotient
by zero is `inf` (the numerators are positive). -/

namespace Ellipy.Sup
open Matrix Ellipy.LA
noncomputable section

/-- `if r.size != max(r.shape): throw_error(tag, …)`, gras/geom/sup/sup.py:36-42 and 123-129; `max` of an empty tuple raises. -/
def vecArg (tag : String) (r : Arr ℝ) : Py Unit :=
  match r.shape.max? with
  | none => .error .pyValueError
  | some k => if r.data.length ≠ k then throwErr tag else .ok ()

/-- The columns of an array of shape `(d, n)`. -/
def columns (d n : ℕ) (data : List ℝ) : List (Fin d → ℝ) := (List.range n).map (fun j i => data.getD (i.val * n + j) 0)

/-- The part common to both functions, gras/geom/sup/sup.py:32-72 and 119-157: the columns of `l_mat` and the vector `rho_diff_vec`.
`sep` is the separator in two error tags.  The branches for arrays without axes (lines 44-45, 49-50) cannot be reached because `max(())` raises
before; `squeeze` turns an array of size one into one without axes, whose `shape[0]` raises. -/
def diffArgs (d : ℕ) (sep : String) (r1 r2 l : Arr ℝ) : Py (List (Fin d → ℝ) × List ℝ) :=
  match l.shape with
  | [k, n] =>
    match vecArg "wrongInput:rho1_vec" r1 with
    | .error e => .error e
    | .ok _ =>
      match vecArg "wrongInput:rho2_vec" r2 with
      | .error e => .error e
      | .ok _ =>
        match pyIndex (Core.squeeze r1.shape) 0 with
        | .error e => .error e
        | .ok n1 =>
          match pyIndex (Core.squeeze r2.shape) 0 with
          | .error e => .error e
          | .ok n2 =>
            if n1 ≠ n2 then throwErr ("wrongInput:rho1_vec" ++ sep ++ "rho2_vec")
            else if n1 ≠ n then throwErr ("wrongInput:rho1_vec" ++ sep ++ "l_mat")
            else if k ≠ d then throwErr "wrongInput:l_mat"
            else
              let rho := List.zipWith (· - ·) r1.data r2.data
              if ∃ x ∈ rho, x ≤ 0 then throwErr "wrongInput:rho_diff_vec"
              else .ok (columns d n l.data, rho)
  | _ => throwErr "wrongInput:l_mat"

/-- `s_mat = l_mat / np.matlib.repmat(rho_diff_vec, n_dims, 1)` by columns, gras/geom/sup/sup.py:74 and 159. -/
def scaled {d : ℕ} (l : List (Fin d → ℝ)) (rho : List ℝ) : List (Fin d → ℝ) := List.zipWith (fun c r i => c i / r) l rho

/-- One entry of `rho_diff_vec / s`, for a positive numerator. -/
def quot (r s : ℝ) : XF ℝ := if s = 0 then .pinf else .fin (r / s)

/-! ### Two dimensions -/

/-- The inner loop of `sup_geom_diff_2d`, gras/geom/sup/sup.py:96-109, with `c` passes left: the state is `ind_dir` and `s_norm_vec`. -/
def walk (L : Lstsq) (s : List (Fin 2 → ℝ)) (b a1 : Fin 2 → ℝ) : ℕ → ℕ → (ℕ → ℝ) → Py (ℕ → ℝ)
  | 0, _, w => .ok w
  | c + 1, ind, w =>
    let ind := if s.length < ind + 1 then 0 else ind + 1                       -- lines 97-100
    match pyIndex s ind with                                                   -- line 102
    | .error e => .error e
    | .ok sk =>
      let sVal := L.sol (of fun i j => (![a1, sk] : Fin 2 → Fin 2 → ℝ) j i) (colMat b) 1 0   -- lines 103-104
      if sVal < 0 then throwErr "wrongState:s_val"                             -- lines 106-107
      else walk L s b a1 c ind (Function.update w ind sVal)                    -- line 109

/-- One row of `ind_mat`, gras/geom/sup/sup.py:78-94; rows of length at most one are skipped (line 81). -/
def faceStep (L : Lstsq) (s : List (Fin 2 → ℝ)) (f : Fin 2 → ℕ) (w : ℕ → ℝ) : Py (ℕ → ℝ) :=
  let len0 : ℤ := (f 1 : ℤ) - f 0                                              -- line 78
  let len : ℤ := if len0 < -1 then s.length + len0 else len0                   -- lines 79-80
  if 1 < len then
    let b := s.getD (f 0) 0                                                    -- lines 87-91
    walk L s b (b - s.getD (f 1) 0) (len - 1).toNat (f 0) w
  else .ok w

/-- The loop over the rows, gras/geom/sup/sup.py:85-109. -/
def runFaces (L : Lstsq) (s : List (Fin 2 → ℝ)) : List (Fin 2 → ℕ) → (ℕ → ℝ) → Py (ℕ → ℝ)
  | [], w => .ok w
  | f :: fs, w =>
    match faceStep L s f w with
    | .error e => .error e
    | .ok w' => runFaces L s fs w'

/-- `sup_geom_diff_2d(rho1_vec, rho2_vec, l_mat)`, gras/geom/sup/sup.py:31-113. -/
def supGeomDiff2 (H : Hull 2) (L : Lstsq) (r1 r2 l : Arr ℝ) : Py (List (XF ℝ)) :=
  match diffArgs 2 "," r1 r2 l with
  | .error e => .error e
  | .ok (cols, rho) =>
    let s := scaled cols rho                                                   -- line 74
    match H.simplices s with                                                   -- line 76
    | .error e => .error e
    | .ok fs =>
      match runFaces L s fs (fun _ => 1) with                                  -- lines 83-109
      | .error e => .error e
      | .ok w => .ok ((List.range s.length).map (fun m => quot (rho.getD m 0) (w m)))   -- line 111

/-! ### Three dimensions -/

/-- `__ABS_TOL`, gras/geom/sup/sup.py:117. -/
def absTol3 : ℝ := 1 / 100000

/-- The body of the inner loop of `sup_geom_diff_3d`, gras/geom/sup/sup.py:166-181, for the direction `x` and the triangle `p`, `q`, `r`:
the new value of `dist_vec[i_dist]`, if it is set. -/
def hit (x p q r : Fin 3 → ℝ) : Option ℝ :=
  let x1 := q - p                                                              -- lines 167-168
  let x2 := r - p
  let norm1 := x ⨯₃ x2                                                         -- line 169
  let det := x1 ⬝ᵥ norm1                                                       -- line 170
  if absTol3 < |det| then
    let inv := 1 / det
    let sp := -p
    let u := inv * (sp ⬝ᵥ norm1)                                               -- line 174
    if -absTol3 ≤ u then
      let norm2 := sp ⨯₃ x1                                                    -- line 176
      let v := inv * (x ⬝ᵥ norm2)                                              -- line 177
      if -absTol3 ≤ v ∧ u + v ≤ 1 + absTol3 then
        let t := inv * (x2 ⬝ᵥ norm2)                                           -- line 179
        if 0 < t then some t else none
      else none
    else none
  else none

/-- `dist_vec[i_dist]` after the inner loop, gras/geom/sup/sup.py:165-181. -/
def dist (s : List (Fin 3 → ℝ)) (fs : List (Fin 3 → ℕ)) (x : Fin 3 → ℝ) : ℝ :=
  fs.foldl (fun t f => (hit x (s.getD (f 0) 0) (s.getD (f 1) 0) (s.getD (f 2) 0)).getD t) 0

/-- `sup_geom_diff_3d(rho1_vec, rho2_vec, l_mat)`, gras/geom/sup/sup.py:116-185. -/
def supGeomDiff3 (H : Hull 3) (r1 r2 l : Arr ℝ) : Py (List (XF ℝ)) :=
  match diffArgs 3 ", " r1 r2 l with
  | .error e => .error e
  | .ok (cols, rho) =>
    let s := scaled cols rho                                                   -- line 159
    match H.simplices s with                                                   -- line 161
    | .error e => .error e
    | .ok fs => .ok (List.zipWith (fun r x => quot r (dist s fs x)) rho s)     -- lines 164-183

end
end Ellipy.Sup
