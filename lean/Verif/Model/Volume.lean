import Mathlib.Analysis.SpecialFunctions.Gamma.Basic
import Verif.Model.EllObj

/-! Model of `AEllipsoid.volume` and `ell_volume`. -/

namespace Ellipy.Ell
open Matrix Ellipy.LA
noncomputable section

/-- An entry of the list from which `volume` builds its result: a number or an array of one number.  (`np.array` of such a list has shape
`(k,)` if all entries are numbers and `(k, 1)` if all are arrays; a mixed list depends on the version of numpy and is left as it is.) -/
structure VolEntry where
  isArr : Bool
  val : ℝ

/-- The factor `s`, elltool/core/aellipsoid/AEllipsoid.py:145-150 (`np.math.factorial` accepts floats with integer values). -/
def ballFactor (n : ℕ) : ℝ :=
  if n % 2 ≠ 0 then
    let k := (n - 1) / 2
    (2 ^ (2 * k + 1) * Real.pi ^ k * (k.factorial : ℝ)) / ((2 * k + 1).factorial : ℝ)
  else
    let k := n / 2
    Real.pi ^ k / (k.factorial : ℝ)

/-- `f_single_volume`, elltool/core/aellipsoid/AEllipsoid.py:139-151. -/
def singleVolume (E : Eigh) (e : EllObj) : Py VolEntry :=
  match isDegenerate E [e] with
  | .error x => .error x
  | .ok [true] => .ok ⟨true, 0⟩
  | .ok _ => .ok ⟨false, ballFactor e.n * Real.sqrt e.Q.det⟩

/-- `volume(ell_arr)`, elltool/core/aellipsoid/AEllipsoid.py:132-153, on the flattened array. -/
def volume (E : Eigh) (l : List EllObj) : Py (List VolEntry) :=
  open Classical in
  if anyEmpty l then throwErr "wrongInput:emptyEllipsoid"
  else pyMap (singleVolume E) l

/-- `ell_volume(q_mat)`, gras/geom/ell/ell.py:9-13. -/
def ellVolume {n : ℕ} (Q : Matrix (Fin n) (Fin n) ℝ) : ℝ :=
  Real.pi ^ ((n : ℝ) * 0.5) * Real.sqrt Q.det / Real.Gamma (0.5 * n + 1)

end
end Ellipy.Ell
