import Mathlib.LinearAlgebra.Matrix.NonsingularInverse
import Verif.Model.SqrtPos

/-! Model of `rho_mat`, gras/geom/ell/ell.py, in exact arithmetic. -/

namespace Ellipy.Ell
open Matrix Ellipy.SqrtPos
noncomputable section

/-- Division of floats, with numpy's results for a zero divisor. -/
def divX (x s : ℝ) : XF ℝ :=
  if s = 0 then (if x = 0 then .nan else if 0 < x then .pinf else .ninf) else .fin (x / s)

/-- Addition of a finite number. -/
def addX (a : XF ℝ) (c : ℝ) : XF ℝ :=
  match a with
  | .fin x => .fin (x + c)
  | .nan => .nan
  | .pinf => .pinf
  | .ninf => .ninf

/-- A column of boundary points that contains a NaN is replaced by zeros, gras/geom/ell/ell.py:110-111 and 118-121. -/
def nanToZero {m : ℕ} (col : Fin m → XF ℝ) : Fin m → XF ℝ :=
  if ∃ i, (col i).isNan = true then fun _ => .fin 0 else col

/-- `rho_mat(ell_shape_mat, dirs_mat, abs_tol, ell_center_vec)`, gras/geom/ell/ell.py:98-123, for a matrix `dirs_mat` with `nd`
columns and a centre of shape `(m, 1)` (the default centre is zero, the default tolerance comes from the settings).  The result
is the pair of the support values and, column by column, of the boundary points. -/
def rhoMat {m nd : ℕ} (Q : Matrix (Fin m) (Fin m) ℝ) (dirs : Matrix (Fin m) (Fin nd) ℝ) (absTol : ℝ) (c : Fin m → ℝ) :
    Py ((Fin nd → ℝ) × (Fin nd → Fin m → XF ℝ)) :=
  let l := fun (j : Fin nd) (i : Fin m) => dirs i j
  if nd = 1 then                                                             -- lines 106-112: no tolerance is passed on
    match sqrtPosArr (List.ofFn (fun j => l j ⬝ᵥ Q *ᵥ l j)) 0 with
    | .error e => .error e
    | .ok sq => .ok (fun j => c ⬝ᵥ l j + sq.getD j 0,
        fun j => fun i => addX (nanToZero (fun i => divX ((Q *ᵥ l j) i) (sq.getD j 0)) i) (c i))
  else                                                                       -- lines 114-122
    match sqrtPosArr (List.ofFn (fun j => l j ⬝ᵥ Q *ᵥ l j)) absTol with
    | .error e => .error e
    | .ok sq => .ok (fun j => c ⬝ᵥ l j + sq.getD j 0,
        fun j => fun i => addX (nanToZero (fun i => divX ((Q *ᵥ l j) i) (sq.getD j 0)) i) (c i))

end
end Ellipy.Ell
