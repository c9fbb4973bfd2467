import Mathlib.Analysis.SpecialFunctions.Trigonometric.Basic
import Mathlib.Data.Rat.Floor
import Verif.Model.TriShrink

/-! Model of `icosahedron` and `sphere_tri` (gras/geom/tri/tri.py), with exact square roots, cosines and sines. -/

namespace Ellipy.Tri
noncomputable section

/-- `r`, gras/geom/tri/tri.py:34-35. -/
def icoR : ℝ := (Real.sqrt 5 + 1) / 2 - 0.5

/-- A row at gras/geom/tri/tri.py:41 and 44: `np.column_stack((np.cos(a) / r, np.sin(a) / r, z / r))`. -/
def icoPoint (a z : ℝ) : Fin 3 → ℝ := ![Real.cos a / icoR, Real.sin a / icoR, z / icoR]

/-- `v_mat` of `icosahedron()`, gras/geom/tri/tri.py:32-44. -/
def icoVerts : List (Fin 3 → ℝ) :=
  [![0, 0, 1]] ++ (List.range 5).map (fun i : ℕ => icoPoint (-Real.pi / 5 + i * (Real.pi / 2.5)) 0.5) ++
  (List.range 5).map (fun i : ℕ => icoPoint (i * (Real.pi / 2.5)) (-0.5)) ++ [![0, 0, -1]]

/-- `f_mat` of `icosahedron()`, gras/geom/tri/tri.py:45-50. -/
def icoFaces : List Row :=
  [(0, 1, 2), (0, 2, 3), (0, 3, 4), (0, 4, 5), (0, 5, 1),
   (1, 6, 2), (2, 7, 3), (3, 8, 4), (4, 9, 5), (5, 10, 1),
   (6, 7, 2), (7, 8, 3), (8, 9, 4), (9, 10, 5), (10, 6, 1),
   (6, 11, 7), (7, 11, 8), (8, 11, 9), (9, 11, 10), (10, 11, 6)]

/-- A row of `normvert(x)`, gras/geom/tri/tri.py:314-315. -/
def normRow (x : Fin 3 → ℝ) : Fin 3 → ℝ := fun i => x i / Real.sqrt (∑ t, x t * x t)

/-- `sphere_tri(depth)` for a number, gras/geom/tri/tri.py:313-323: the vertices and the faces, or `none` when the loop does not end
within `fuel` passes.  (Other arguments than numbers are rejected like negative numbers, lines 317-320.) -/
def sphereTri (argsort : List ℕ → List ℕ) (fuel : ℕ) (depth : ℚ) : Py (Option (List (Fin 3 → ℝ) × List Row)) :=
  if ¬ (0 ≤ depth ∧ depth = (⌊depth⌋ : ℚ)) then throwErr "wrong_input"
  else
    match shrinkFaceTri argsort fuel icoVerts (.mat icoFaces) 0 (some ⌊depth⌋.toNat) (some (List.map normRow)) with
    | .error e => .error e
    | .ok none => .ok none
    | .ok (some m) => .ok (some (m.verts, m.faces.map (fun f => f.v)))

end
end Ellipy.Tri
