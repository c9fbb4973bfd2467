import Verif.Model.QuadMat

/-! Which arrays `quad_mat` takes. -/

namespace Ellipy.Ell
open Matrix

/-- `a` is an array of shape `(n, n)` with the entries of `Q` (row-major). -/
def IsSquare (a : Arr ℝ) {n : ℕ} (Q : Matrix (Fin n) (Fin n) ℝ) : Prop :=
  a.shape = [n, n] ∧ ∀ i j : Fin n, a.data[i.val * n + j.val]? = some (Q i j)

/-- `a` is a vector with the entries of `v`: of shape `(n,)`, `(1, n)` or `(n, 1)`. -/
def IsVecArr (a : Arr ℝ) {n : ℕ} (v : Fin n → ℝ) : Prop :=
  (a.shape = [n] ∨ a.shape = [1, n] ∨ a.shape = [n, 1]) ∧ ∀ i : Fin n, a.data[i.val]? = some (v i)

/-- The same for the centre, which may also be a single zero or, in dimension one, a number. -/
def IsCenterArr (a : Arr ℝ) {n : ℕ} (v : Fin n → ℝ) : Prop :=
  IsVecArr a v ∨ (a.data = [0] ∧ v = 0) ∨ (a.shape = [] ∧ n = 1 ∧ ∀ i : Fin n, a.data[i.val]? = some (v i))

/-- The array of shape `(1, 1)` with one entry. -/
def oneByOne (r : ℝ) : Arr ℝ := ⟨[1, 1], [r], rfl⟩

end Ellipy.Ell
