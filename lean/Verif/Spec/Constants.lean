import Mathlib.Data.Real.Basic

/-! Numbers and vectors named in the statements, written out independently of the model. -/

namespace Ellipy

/-- The distance from 1 to the next double. -/
noncomputable def machEps : ℝ := 1 / 2 ^ 52

/-- The first unit vector. -/
def axis0 {k : ℕ} : Fin (k + 1) → ℝ := fun i => if i = 0 then 1 else 0

end Ellipy
