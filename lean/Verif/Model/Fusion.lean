import Mathlib.LinearAlgebra.Matrix.NonsingularInverse
import Mathlib.LinearAlgebra.Matrix.Trace
import Verif.Base.LinAlg
import Verif.Base.Py

/-! Model of `ell_fusion_lambda`, elltool/core/core.py, in exact arithmetic on real finite arrays.  The vectors `q1`, `q2` have one axis. -/

namespace Ellipy.Core
open Matrix
noncomputable section

/-- `ell_fusion_lambda(a, q1, q1_mat, q2, q2_mat, n)`, elltool/core/core.py:28-40, for arrays of matching sizes.  `np.linalg.inv` raises
`LinAlgError` for a singular matrix. -/
def fusionLambda {m : ℕ} (a : ℝ) (q1 : Fin m → ℝ) (W1 : Matrix (Fin m) (Fin m) ℝ) (q2 : Fin m → ℝ) (W2 : Matrix (Fin m) (Fin m) ℝ)
    (n : ℤ) : Py ℝ :=
  let X := a • W1 + (1 - a) • W2                                               -- line 30
  if X.det = 0 then .error .linAlgError                                        -- line 31
  else
    let Y0 := X⁻¹
    let Y := (0.5 : ℝ) • (Y0 + Y0ᵀ)                                            -- line 32
    let k := 1 - a * (1 - a) * ((q2 - q1) ⬝ᵥ (W2 * Y * W1) *ᵥ (q2 - q1))       -- line 33
    let q := Y *ᵥ (a • (W1 *ᵥ q1) + (1 - a) • (W2 *ᵥ q2))                      -- line 34
    .ok (k * X.det * trace ((X.det • Y) * (W1 - W2)) -                         -- lines 36-38
      n * X.det ^ 2 * (2 * (q ⬝ᵥ W1 *ᵥ q1) - 2 * (q ⬝ᵥ W2 *ᵥ q2) + q ⬝ᵥ (W2 - W1) *ᵥ q - q1 ⬝ᵥ W1 *ᵥ q1 + q2 ⬝ᵥ W2 *ᵥ q2))

end
end Ellipy.Core
