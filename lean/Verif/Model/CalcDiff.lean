import Verif.Model.Rho

/-! Model of `_calc_diff_one_dir` of `Ellipsoid`. -/

namespace Ellipy.Ell
open Matrix Ellipy.LA
noncomputable section

/-- Subtraction of floats. -/
def subX (a b : XF ℝ) : XF ℝ :=
  match a, b with
  | .fin x, .fin y => .fin (x - y)
  | .nan, _ => .nan
  | _, .nan => .nan
  | .pinf, .pinf => .nan
  | .ninf, .ninf => .nan
  | .pinf, _ => .pinf
  | .ninf, _ => .ninf
  | .fin _, .pinf => .ninf
  | .fin _, .ninf => .pinf

/-- `np.abs(x - c) < 1e-14`. -/
def nearX (x : XF ℝ) (c : ℝ) : Prop :=
  match x with
  | .fin x => |x - c| < 1e-14
  | _ => False

/-- A matrix whose columns are the directions. -/
def dirsArr {m k : ℕ} (L : Fin k → Fin m → ℝ) : Arr ℝ := ⟨[m, k], rowMajor L, by simp [rowMajor]⟩

/-- `calc_diff(is_good, ind)`, elltool/core/ellipsoid/Ellipsoid.py:151-164, with the points found by `rho` and the difference `c` of the
centres; the second component tells whether the test at lines 158-159 succeeded.  For a bad direction `rho_mat` is called with a vector, not
with a column (line 157), and asks for `dirs_mat.shape[1]` (gras/geom/ell/ell.py:105). -/
def calcDiff {m : ℕ} (k : ℕ) (b1 b2 : Arr (XF ℝ)) (c : Fin m → ℝ) (good : Bool) (ind : ℕ) : Py ((Fin m → XF ℝ) × Bool) :=
  open Classical in
  if good then
    let diff : Fin m → XF ℝ := fun i => subX (b1.data.getD (i.val * k + ind) .nan) (b2.data.getD (i.val * k + ind) .nan)
    if ∀ i, nearX (diff i) (c i) then .ok (fun i => .fin (c i), true) else .ok (diff, false)
  else .error .indexError

/-- `_calc_diff_one_dir(first_ell, sec_ell, l_mat, p_univ_vec, is_good_dir_vec)`, elltool/core/ellipsoid/Ellipsoid.py:139-167, for a matrix
with `k` columns.  The universe of parameters `p_univ_vec` is used only for bad directions, where it makes no difference.  The result is
the list of the points and the flag `is_plot_center_3d`. -/
def calcDiffOneDir {m k : ℕ} (e1 e2 : EllObj) (L : Fin k → Fin m → ℝ) (good : List Bool) : Py (List (Fin m → XF ℝ) × Bool) :=
  match rho (Arr.scalar e1) (dirsArr L), rho (Arr.scalar e2) (dirsArr L) with          -- lines 144-145
  | .error e, _ => .error e
  | _, .error e => .error e
  | .ok (_, b1), .ok (_, b2) =>
    match pyMap (fun x => calcDiff k b1 b2 (fun i => centerAs m e1 i - centerAs m e2 i) x.1 x.2) (good.zip (List.range k)) with
    | .error e => .error e
    | .ok rows => .ok (rows.map Prod.fst, decide (m = 3) && rows.all Prod.snd)         -- lines 146-149, 161-163

end
end Ellipy.Ell
