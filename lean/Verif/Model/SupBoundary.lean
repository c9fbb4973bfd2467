import Verif.Base.Lstsq
import Verif.Base.PyMap
import Verif.Model.La

/-! Model of `sup_2_boundary_2` and `sup_2_boundary_3`, gras/geom/sup/sup.py, in exact arithmetic.  `dir_mat` is the list of its rows (of
length 2 and 3), `sup_vec` is a list of numbers. -/

namespace Ellipy.Sup
open Matrix Ellipy.LA
noncomputable section

/-- `np.linalg.lstsq(rows, b, -1)[0]` for an array of rows and a vector: `LinAlgError` when they have different lengths. -/
def lstsqRows (L : Lstsq) {d : ℕ} (rows : List (Fin d → ℝ)) (b : List ℝ) : Py (Fin d → ℝ) :=
  if rows.length ≠ b.length then .error .linAlgError
  else .ok (fun j => L.sol (of fun (i : Fin rows.length) j => rows.get i j) (colMat fun i : Fin rows.length => b.getD i 0) j 0)

/-- `sup_2_boundary_2(dir_mat, sup_vec)`, gras/geom/sup/sup.py:7-17. -/
def sup2Boundary2 (L : Lstsq) (dirs : List (Fin 2 → ℝ)) (sup : List ℝ) : Py (List (Fin 2 → ℝ)) :=
  let n := dirs.length
  match pyMap (fun i => lstsqRows L ((dirs.drop i).take 2) ((sup.drop i).take 2)) (List.range (n - 1)) with   -- lines 10-12
  | .error e => .error e
  | .ok xs =>
    match pyIndex dirs (n - 1) with                                            -- line 14
    | .error e => .error e
    | .ok dn =>
      match pyIndex dirs 0 with
      | .error e => .error e
      | .ok d0 =>
        match pyIndex sup (n - 1) with                                         -- line 15
        | .error e => .error e
        | .ok sn =>
          match pyIndex sup 0 with
          | .error e => .error e
          | .ok s0 =>
            match lstsqRows L [dn, d0] [sn, s0] with
            | .error e => .error e
            | .ok x => .ok (xs ++ [x])

/-- `l[i]` with an integer index: negative ones count from the end. -/
def pyIndexZ {α : Type} (l : List α) (i : ℤ) : Py α :=
  if 0 ≤ i then pyIndex l i.toNat
  else if 0 ≤ l.length + i then pyIndex l (l.length + i).toNat
  else .error .indexError

/-- One pass of the loop of `sup_2_boundary_3`, gras/geom/sup/sup.py:25-26; `f` is a row of `face_mat`. -/
def faceRow (L : Lstsq) (dirs : List (Fin 3 → ℝ)) (sup : List ℝ) (f : List ℤ) : Py (Fin 3 → ℝ) :=
  match pyMap (pyIndexZ dirs) f with
  | .error e => .error e
  | .ok rows =>
    match pyMap (pyIndexZ sup) f with
    | .error e => .error e
    | .ok b => lstsqRows L rows b

/-- `sup_2_boundary_3(dir_mat, sup_vec, face_mat)`, gras/geom/sup/sup.py:20-28. -/
def sup2Boundary3 (L : Lstsq) (dirs : List (Fin 3 → ℝ)) (sup : List ℝ) (faces : List (List ℤ)) : Py (List (Fin 3 → ℝ)) :=
  pyMap (faceRow L dirs sup) faces                                             -- lines 24-26

end
end Ellipy.Sup
