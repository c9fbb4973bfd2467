import Verif.Base.LinAlg

/-! Contract of `np.linalg.lstsq` in exact arithmetic. -/

namespace Ellipy.LA
open Matrix

/-- `np.linalg.lstsq(A, b, rcond)[0]` with a cut-off at rounding level: the least-squares solution (normal equations) of least
norm (it lies in the row space of `A`). -/
structure Lstsq where
  sol : {m n p : ℕ} → Matrix (Fin m) (Fin n) ℝ → Matrix (Fin m) (Fin p) ℝ → Matrix (Fin n) (Fin p) ℝ
  normal : ∀ {m n p : ℕ} (A : Matrix (Fin m) (Fin n) ℝ) (b : Matrix (Fin m) (Fin p) ℝ), Aᵀ * A * sol A b = Aᵀ * b
  row : ∀ {m n p : ℕ} (A : Matrix (Fin m) (Fin n) ℝ) (b : Matrix (Fin m) (Fin p) ℝ), ∃ y : Matrix (Fin m) (Fin p) ℝ, sol A b = Aᵀ * y

end Ellipy.LA
