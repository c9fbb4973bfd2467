import Verif.Model.SphereTri
import Verif.Model.CirclePart

/-! Model of `sphere_tri_ext` (gras/geom/tri/tri.py). -/

namespace Ellipy.Tri
open Ellipy.Geom
noncomputable section

/-- The argument `n_points`: a Python integer or a float. -/
inductive NPts where
  | int (z : ℤ)
  | flt (x : XF ℝ)

/-- `0 < n_points == np.fix(n_points)`, gras/geom/tri/tri.py:481. -/
def NPts.ok : NPts → Prop
  | .int z => 0 < z
  | .flt (.fin x) => 0 < x ∧ x = (⌊x⌋ : ℝ)
  | .flt .pinf => True
  | .flt _ => False

/-- `vert_num >= num_points`, gras/geom/tri/tri.py:476. -/
def NPts.leNat : NPts → ℕ → Prop
  | .int z, v => z ≤ v
  | .flt (.fin x), v => x ≤ v
  | .flt .ninf, _ => True
  | .flt _, _ => False

/-- The loop of `calc_depth(num_points)`, gras/geom/tri/tri.py:471-476, with at most `fuel` passes: `none` when they do not suffice. -/
def depthLoop (num : NPts) : ℕ → ℕ → ℕ → ℕ → ℕ → Option ℕ
  | 0, _, _, _, _ => none
  | fuel + 1, vert, edge, face, depth =>
    open Classical in
    let depth := depth + 1                                                                -- line 472
    let vert := vert + edge                                                               -- line 473
    let edge := 2 * edge + 3 * face                                                       -- line 474
    let face := 4 * face                                                                  -- line 475
    if num.leNat vert then some depth                                                     -- line 476
    else depthLoop num fuel vert edge face depth

/-- `calc_depth(num_points)`, gras/geom/tri/tri.py:460-478. -/
def calcDepth (num : NPts) (fuel : ℕ) : Option ℕ := depthLoop num fuel 12 30 20 0

/-- `np.finfo(float).eps`. -/
def eps : ℝ := 1 / 2 ^ 52

/-- An entry after `v_grid_mat[np.equal(v_grid_mat, 0)] = np.finfo(float).eps`, gras/geom/tri/tri.py:489 and 493. -/
def fixZero (x : ℝ) : ℝ := open Classical in if x = 0 then eps else x

/-- `spherebndr_2d(n_points, True)`, gras/geom/tri/tri.py:447-452, the second array: row `i` is `(i, i + 1)`, in the last row the second
number is `0`. -/
def circleFaces (n : ℕ) : List (ℕ × ℕ) := (List.range n).map (fun i => (i, if i + 1 = n then 0 else i + 1))

/-- What `sphere_tri_ext` returns: an array of points, or a pair of arrays, in the plane or in space. -/
inductive Grid where
  | pts2 (V : List (Fin 2 → ℝ))
  | grid2 (V : List (Fin 2 → ℝ)) (F : List (ℕ × ℕ))
  | grid3 (V : List (Fin 3 → ℝ)) (F : List Row)

/-- `sphere_tri_ext(n_dim, n_points, return_f_grid)`, gras/geom/tri/tri.py:443-494; `none` when the loops do not end within `fuel` passes.
`np.linspace` accepts Python integers only. -/
def sphereTriExt (argsort : List ℕ → List ℕ) (fuel : ℕ) (dim : ℤ) (num : NPts) (grid : Bool) : Py (Option Grid) :=
  open Classical in
  if ¬ num.ok then throwErr "wrong_input"                                                 -- lines 480-483
  else if dim = 2 then
    match num with
    | .flt _ => .error .typeError
    | .int n =>
      match circlePart n none with                                                        -- line 447
      | .error e => .error e
      | .ok l =>
        let V := l.map (fun p => fun i => fixZero (![p.1, p.2] i))
        .ok (some (if grid then .grid2 V (circleFaces n.toNat) else .pts2 V))             -- lines 485-490, 493-494
  else
    match calcDepth num fuel with                                                         -- line 456
    | none => .ok none
    | some d =>
      match sphereTri argsort fuel d with                                                 -- line 457
      | .error e => .error e
      | .ok none => .ok none
      | .ok (some (V, F)) => .ok (some (.grid3 (V.map (fun v => fun i => fixZero (v i))) F))   -- lines 493-494

end
end Ellipy.Tri
