import Verif.Model.Hyperplane
import Verif.Spec.EllCtor

/-! Which arguments describe a hyperplane (C91). -/

namespace Ellipy.Hyp
open Ellipy.Ell

/-- The rounding unit of the machine, within which imaginary parts are ignored. -/
noncomputable def roundUnit : ℝ := 1 / 2 ^ 52

/-- A shift: a finite number, or an array of any shape with one finite entry; an imaginary part must be less than the rounding unit, and an array with a
non-zero imaginary part must have one or two dimensions. -/
def GoodShift (s : ℝ) : ShiftArg → Prop
  | .scal z => ∃ y, z = ⟨.fin s, .fin y⟩ ∧ |y| < roundUnit
  | .arr a => ∃ y, a.data = [⟨.fin s, .fin y⟩] ∧ (y = 0 ∨ ((a.shape = [1] ∨ a.shape = [1, 1]) ∧ |y| < roundUnit))
  | .notNum => False

end Ellipy.Hyp
