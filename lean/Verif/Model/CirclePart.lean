import Mathlib.Analysis.SpecialFunctions.Trigonometric.Basic
import Verif.Base.Py

/-! Model of `circle_part` (gras/geom/geom.py), with exact cosines and sines. -/

namespace Ellipy.Geom
noncomputable section

/-- `np.linspace(a, b, n, endpoint=False)`: `n` numbers with step `(b - a) / n`; a negative number is rejected. -/
def linspaceOpen (a b : ℝ) (n : ℤ) : Py (List ℝ) :=
  if n < 0 then .error .pyValueError
  else .ok ((List.range n.toNat).map (fun (k : ℕ) => (k : ℝ) * ((b - a) / (n : ℝ)) + a))

/-- `circle_part(n_points, False, angle_range_vec)`, gras/geom/geom.py:7-17: the rows of the matrix.  With `return_apart` the two
columns are returned separately (lines 12-15). -/
def circlePart (n : ℤ) (range : Option (ℝ × ℝ) := none) : Py (List (ℝ × ℝ)) :=
  let r := range.getD (0, 2 * Real.pi)                                                   -- lines 9-10
  match linspaceOpen r.1 r.2 n with                                                      -- line 11
  | .error e => .error e
  | .ok phi => .ok (phi.map (fun p => (Real.cos p, Real.sin p)))                         -- line 17

end
end Ellipy.Geom
