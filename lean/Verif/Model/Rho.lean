import Verif.Model.Minksum
import Verif.Model.RhoMat

/-! Model of `rho` of `Ellipsoid`. -/

namespace Ellipy.Ell
open Matrix Ellipy.LA
noncomputable section

/-- The entries of a matrix given by its columns, in row-major order. -/
def rowMajor {α : Type} {m k : ℕ} (f : Fin k → Fin m → α) : List α := List.ofFn (fun q : Fin (m * k) => f q.modNat q.divNat)

/-- The columns of a list of results. -/
def colsOf {m : ℕ} (rs : List (ℝ × (Fin m → XF ℝ))) : Fin rs.length → Fin m → XF ℝ := fun j => (rs.get j).2

/-- `f_rho_for_dir(ell_obj, dir_vec)`, elltool/core/ellipsoid/Ellipsoid.py:591-595, for one direction. -/
def rhoForDir {m : ℕ} (e : EllObj) (v : Fin m → ℝ) : Py (ℝ × (Fin m → XF ℝ)) :=
  match rhoMat (shapeAs m e) (of fun i (_ : Fin 1) => v i) e.absTol (centerAs m e) with
  | .error x => .error x
  | .ok (sup, bp) => .ok (sup 0, bp 0)

/-- The test of the sizes, elltool/core/ellipsoid/Ellipsoid.py:603-617, for directions of shape `(m,) + rest` with `k` columns. -/
def rhoSizes (a : Arr EllObj) (rest : List ℕ) (k : ℕ) : Py Bool :=
  if a.data.length = 1 ∨ rest = [1] then .ok true
  else if a.data.length = k then
    match a.shape with
    | [] => .error .indexError
    | s :: t =>
      if s = 1 then .ok (decide (rest.length = 1 ∨ a.shape = rest))
      else
        match t with
        | [] => .error .indexError                                                        -- `ell_size_vec[1]`
        | u :: _ => .ok (decide (u = 1 ∧ rest.length = 1 ∨ a.shape = rest))
  else .ok (decide (a.shape = rest))

/-- `rho(ell_arr, dirs_arr)`, elltool/core/ellipsoid/Ellipsoid.py:589-651. -/
def rho (a : Arr EllObj) (d : Arr ℝ) : Py (Arr ℝ × Arr (XF ℝ)) :=
  open Classical in
  match d.shape with
  | m :: r0 :: r1 =>
    let rest := r0 :: r1
    let k := rest.foldr (· * ·) 1                                                         -- line 609
    let col : ℕ → Fin m → ℝ := fun j i => d.data.getD (i.val * k + j) 0
    match rhoSizes a rest k with
    | .error x => .error x
    | .ok false => throwErr "wrongInput:wrongSizes"                                       -- lines 611-615
    | .ok true =>
      if ¬ ∀ e ∈ a.data, e.n = m then throwErr "wrongInput"                               -- lines 617-619
      else
        match a.data with
        | [e] =>                                                                          -- lines 621-630
          match rhoMat (shapeAs m e) (of fun i (j : Fin k) => col j i) e.absTol (centerAs m e) with
          | .error x => .error x
          | .ok (sup, bp) =>
            match reshape (List.ofFn sup) (if 1 < rest.length then rest else [1, k]), reshape (rowMajor bp) (m :: rest) with
            | .ok s, .ok b => .ok (s, b)
            | .error x, _ => .error x
            | _, .error x => .error x
        | es =>
          if rest = [1] then                                                              -- lines 631-639
            match pyMap (fun e => rhoForDir e (col 0)) es with
            | .error x => .error x
            | .ok rs =>
              if rs = [] then .error .pyValueError                                        -- unpacking of nothing
              else
                match reshape (rs.map Prod.fst) a.shape,
                  reshape (rowMajor (colsOf rs)) (if 2 < a.shape.length then m :: a.shape else [m, rs.length]) with
                | .ok s, .ok b => .ok (s, b)
                | .error x, _ => .error x
                | _, .error x => .error x
          else                                                                            -- lines 640-650
            match pyMap (fun p => rhoForDir p.1 (col p.2)) (es.zip (List.range k)) with
            | .error x => .error x
            | .ok rs =>
              if rs = [] then .error .pyValueError
              else
                match reshape (rs.map Prod.fst) (if 1 < rest.length then rest else [rs.length, 1, 1]),
                  reshape (rowMajor (colsOf rs)) (if 1 < rest.length then m :: rest else [m, rs.length]) with
                | .ok s, .ok b => .ok (s, b)
                | .error x, _ => .error x
                | _, .error x => .error x
  | _ => .error .indexError                                                               -- `dir_size_vec[1]`, line 605

end
end Ellipy.Ell
