import Mathlib.Analysis.SpecialFunctions.Sqrt
import Verif.Base.Py

/-! Model of `sqrt_pos`, gras/gen/gen.py:52-67, on finite numbers. -/

namespace Ellipy.SqrtPos
noncomputable section

/-- `sqrt_pos(x, abs_tol)` for a scalar, gras/gen/gen.py:53-61. -/
def sqrtPosScalar (x absTol : ℝ) : Py ℝ :=
  if absTol < 0 then throwErr "wrongInput:abs_tolNegative"
  else if x < -absTol then throwErr "wrongInput:negativeInput"
  else
    let x' := if x < 0 then 0 else x
    .ok (Real.sqrt x')

/-- `sqrt_pos(x, abs_tol)` for an array, gras/gen/gen.py:53-54 and 63-67; the array is given by its flattened
data, the shape is kept. -/
def sqrtPosArr (xs : List ℝ) (absTol : ℝ) : Py (List ℝ) :=
  if absTol < 0 then throwErr "wrongInput:abs_tolNegative"
  else if ∃ x ∈ xs, x < -absTol then throwErr "wrongInput:negativeInput"
  else
    let xs' := xs.map (fun x => if x < 0 then 0 else x)
    .ok (xs'.map Real.sqrt)

end
end Ellipy.SqrtPos
