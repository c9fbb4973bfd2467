import Mathlib.Data.Int.Notation
import Mathlib.Data.Nat.Notation
import Verif.Base.Py

/-! Model of `ell_tube_2_tri` and `ell_tube_discr_tri` (gras/geom/tri/tri.py).  The entries of the matrices are floats with integer
values in the code; here they are integers. -/

namespace Ellipy.Tri

/-- One row of a face matrix. -/
abbrev Row3 := ℤ × ℤ × ℤ

/-- `ell_tube_2_tri(n_e_points, n_points)`, gras/geom/tri/tri.py:9-24. -/
def ellTube2Tri (ne np : ℤ) : Py (List Row3) :=
  if np < 1 ∨ ne < 1 then .error .pyValueError                                            -- negative sizes, lines 14-15
  else
    let adt : List ℤ := (List.range (np - 1).toNat).map (fun (p : ℕ) => (p : ℤ) + 1)      -- line 11
    let tt : List ℤ := adt.map (fun a => a * ne)                                          -- line 12
    let ie : List ℤ := (adt.map (fun a => (a - 1) * ne)).flatMap                          -- lines 13-16
      (fun s => (List.range (ne - 1).toNat).map (fun (i : ℕ) => (i : ℤ) + 1 + s))
    let p11 := ie.map (fun x => (x, x + 1, x + 1 + ne))                                   -- line 18
    let p12 := ie.map (fun x => (x + 1 + ne, x + ne, x))                                  -- line 19
    let p21 := tt.map (fun t => (t, t + 1 - ne, t + 1))                                   -- line 20
    let p22 := tt.map (fun t => (t + 1, t + ne, t))                                       -- line 21
    .ok ((p11 ++ p12 ++ p21 ++ p22).map (fun r => (r.1 - 1, r.2.1 - 1, r.2.2 - 1)))       -- line 23

/-- `ell_tube_discr_tri(n_dim, m_dim)`, gras/geom/tri/tri.py:26-28: the rows of the matrix. -/
def ellTubeDiscrTri (n m : ℕ) : List (List ℤ) :=
  (List.range m).map (fun (j : ℕ) => (((List.range n).map (fun (i : ℕ) => (i : ℤ))) ++ [0]).map (fun x => (n : ℤ) * (j : ℤ) + x))

end Ellipy.Tri
