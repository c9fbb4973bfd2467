import Mathlib.Analysis.SpecialFunctions.Log.Base
import Mathlib.Analysis.SpecialFunctions.Trigonometric.Inverse
import Verif.Model.SphereTri

/-! Model of `sphere_part` (gras/geom/geom.py), with exact square roots, logarithms and arc cosines. -/

namespace Ellipy.Geom
open Ellipy.Tri
noncomputable section

/-- `diff_norm_vec < tol` for the rows `i` and `j`, gras/geom/geom.py:28-30. -/
def nearOpp (tol : ℝ) (A : List (Fin 3 → ℝ)) (i j : ℕ) : Prop :=
  Real.sqrt (∑ t, (A.getD j 0 t + A.getD i 0 t) * (A.getD j 0 t + A.getD i 0 t)) < tol

/-- The entry of `is_remove_vec` set to `True` in the pass `i_row` of the loop, gras/geom/geom.py:28-35. -/
def markAt (tol : ℝ) (A : List (Fin 3 → ℝ)) (i : ℕ) : Option ℕ :=
  open Classical in
  match (List.range' (i + 1) (A.length - i - 1)).find? (fun j => decide (nearOpp tol A i j)) with
  | none => none
  | some j => if ∑ t, A.getD i 0 t < 0 then some j else some i                            -- lines 32-35

/-- `unique_directions(a_mat, tol)`, gras/geom/geom.py:23-36: the marked rows are returned. -/
def uniqueDirections (A : List (Fin 3 → ℝ)) (tol : ℝ) : List (Fin 3 → ℝ) :=
  ((List.range A.length).filter (fun r => (List.range (A.length - 1)).any (fun i => decide (markAt tol A i = some r)))).map (fun r => A.getD r 0)

/-- `sphere_distance(a_mat, b_vec)`, gras/geom/geom.py:38-40. -/
def sphereDistance (A : List (Fin 3 → ℝ)) (b : Fin 3 → ℝ) : List ℝ := A.map (fun a => Real.arccos (∑ t, a t * b t))

/-- `np.argmin` of a vector of numbers: the first place of the smallest entry; an empty vector is rejected. -/
def argmin (d : List ℝ) : Py ℕ :=
  open Classical in
  match d.findIdx? (fun x => decide (∀ y ∈ d, x ≤ y)) with
  | some i => .ok i
  | none => .error .pyValueError

/-- The loop of `sphere_part`, gras/geom/geom.py:57-68, from the pass `i` on, with `k` passes left; the vectors are `x_dist_vec`, `y_dist_vec`
and `z_dist_vec`. -/
def pickLoop (P : List (Fin 3 → ℝ)) : ℕ → ℕ → List ℝ → List ℝ → List ℝ → Py (List (Fin 3 → ℝ))
  | 0, _, _, _, _ => .ok []
  | k + 1, i, dx, dy, dz =>
    if i % 3 = 1 then
      match argmin dx with                                                                -- lines 60-61
      | .error e => .error e
      | .ok q =>
        match pickLoop P k (i + 1) (dx.set q (2 * Real.pi)) dy dz with
        | .error e => .error e
        | .ok rows => .ok (P.getD q 0 :: rows)
    else if i % 3 = 2 then
      match argmin dy with                                                                -- lines 63-64
      | .error e => .error e
      | .ok q =>
        match pickLoop P k (i + 1) dx (dy.set q (2 * Real.pi)) dz with
        | .error e => .error e
        | .ok rows => .ok (P.getD q 0 :: rows)
    else
      match argmin dz with                                                                -- lines 66-67
      | .error e => .error e
      | .ok q =>
        match pickLoop P k (i + 1) dx dy (dz.set q (2 * Real.pi)) with
        | .error e => .error e
        | .ok rows => .ok (P.getD q 0 :: rows)

/-- `depth`, gras/geom/geom.py:45-48. -/
def partDepth (n : ℤ) : ℤ := if n < 21 then 1 else ⌈Real.logb 2 (((n : ℝ) - 1) / 5) / 2⌉

/-- `sphere_part(n_points)` for an integer, gras/geom/geom.py:20-69; `none` when the loop of `sphere_tri` does not end within `fuel`
passes. -/
def spherePart (argsort : List ℕ → List ℕ) (fuel : ℕ) (n : ℤ) : Py (Option (List (Fin 3 → ℝ))) :=
  if n ≤ 0 then throwErr "wrongInput:n_points"                                            -- lines 42-43
  else
    match sphereTri argsort fuel (partDepth n) with                                       -- line 50
    | .error e => .error e
    | .ok none => .ok none
    | .ok (some (V, _)) =>
      let P := uniqueDirections V 1e-8
      match pickLoop P n.toNat 0 (sphereDistance P ![1, 0, 0]) (sphereDistance P ![0, 1, 0]) (sphereDistance P ![0, 0, 1]) with
      | .error e => .error e
      | .ok rows => .ok (some rows)

end
end Ellipy.Geom
