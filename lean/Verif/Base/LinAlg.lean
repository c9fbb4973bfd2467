import Mathlib.Analysis.InnerProductSpace.GramSchmidtOrtho
import Mathlib.Analysis.Matrix.Spectrum
import Mathlib.LinearAlgebra.Matrix.NonsingularInverse

/-! Contracts of the LAPACK-based routines of numpy the library calls, in exact arithmetic.

The results of these routines are not unique (signs, bases of eigenspaces), so each routine is an
arbitrary function together with what numpy documents about its result.  Every theorem that mentions one
of these structures holds for every choice.  `Proofs/LinAlg.lean` shows that each structure has an
inhabitant, so the contracts are satisfiable. -/

namespace Ellipy.LA
open Matrix

/-- `np.linalg.eigh` and `np.linalg.eigvalsh` read the lower triangle only (`UPLO='L'`). -/
def lowerSym {n : ℕ} (Q : Matrix (Fin n) (Fin n) ℝ) : Matrix (Fin n) (Fin n) ℝ :=
  fun i j => if j ≤ i then Q i j else Q j i

/-- `np.linalg.eigh` (and `eigvalsh`, its first component): ascending eigenvalues, orthonormal
eigenvectors in the columns. -/
structure Eigh where
  vals : {n : ℕ} → Matrix (Fin n) (Fin n) ℝ → Fin n → ℝ
  vecs : {n : ℕ} → Matrix (Fin n) (Fin n) ℝ → Matrix (Fin n) (Fin n) ℝ
  mono : ∀ {n : ℕ} (Q : Matrix (Fin n) (Fin n) ℝ), Monotone (vals Q)
  orth : ∀ {n : ℕ} (Q : Matrix (Fin n) (Fin n) ℝ), (vecs Q)ᵀ * vecs Q = 1
  spec : ∀ {n : ℕ} (Q : Matrix (Fin n) (Fin n) ℝ), lowerSym Q * vecs Q = vecs Q * diagonal (vals Q)

/-- The `m × n` matrix with `s` on the diagonal. -/
def sigma {m n : ℕ} (s : Fin (min m n) → ℝ) : Matrix (Fin m) (Fin n) ℝ :=
  fun i j => if h : i.val = j.val then s ⟨i.val, by omega⟩ else 0

/-- `np.linalg.svd(A)` with full matrices: orthogonal `U` and `Vt`, descending non-negative singular
values. -/
structure Svd where
  U : {m n : ℕ} → Matrix (Fin m) (Fin n) ℝ → Matrix (Fin m) (Fin m) ℝ
  s : {m n : ℕ} → Matrix (Fin m) (Fin n) ℝ → Fin (min m n) → ℝ
  Vt : {m n : ℕ} → Matrix (Fin m) (Fin n) ℝ → Matrix (Fin n) (Fin n) ℝ
  U_orth : ∀ {m n : ℕ} (A : Matrix (Fin m) (Fin n) ℝ), (U A)ᵀ * U A = 1
  Vt_orth : ∀ {m n : ℕ} (A : Matrix (Fin m) (Fin n) ℝ), Vt A * (Vt A)ᵀ = 1
  s_nonneg : ∀ {m n : ℕ} (A : Matrix (Fin m) (Fin n) ℝ) i, 0 ≤ s A i
  s_anti : ∀ {m n : ℕ} (A : Matrix (Fin m) (Fin n) ℝ), Antitone (s A)
  spec : ∀ {m n : ℕ} (A : Matrix (Fin m) (Fin n) ℝ), A = U A * sigma (s A) * Vt A

/-- `np.linalg.qr(A, 'complete')`: orthogonal square `Q`, upper triangular `R`; no sign convention. -/
structure QrC where
  Q : {m n : ℕ} → Matrix (Fin m) (Fin n) ℝ → Matrix (Fin m) (Fin m) ℝ
  R : {m n : ℕ} → Matrix (Fin m) (Fin n) ℝ → Matrix (Fin m) (Fin n) ℝ
  orth : ∀ {m n : ℕ} (A : Matrix (Fin m) (Fin n) ℝ), (Q A)ᵀ * Q A = 1
  upper : ∀ {m n : ℕ} (A : Matrix (Fin m) (Fin n) ℝ) i j, j.val < i.val → R A i j = 0
  spec : ∀ {m n : ℕ} (A : Matrix (Fin m) (Fin n) ℝ), A = Q A * R A

/-- `np.linalg.qr(A)` (mode `'reduced'`): `Q` has `min m n` orthonormal columns. -/
structure QrR where
  Q : {m n : ℕ} → Matrix (Fin m) (Fin n) ℝ → Matrix (Fin m) (Fin (min m n)) ℝ
  R : {m n : ℕ} → Matrix (Fin m) (Fin n) ℝ → Matrix (Fin (min m n)) (Fin n) ℝ
  orth : ∀ {m n : ℕ} (A : Matrix (Fin m) (Fin n) ℝ), (Q A)ᵀ * Q A = 1
  upper : ∀ {m n : ℕ} (A : Matrix (Fin m) (Fin n) ℝ) i j, j.val < i.val → R A i j = 0
  spec : ∀ {m n : ℕ} (A : Matrix (Fin m) (Fin n) ℝ), A = Q A * R A

/-- `np.linalg.eig` on symmetric matrices: eigenvalues (real for a symmetric matrix), eigenvectors of
length one in the columns.  Nothing is promised about the order of the eigenvalues nor about
orthogonality of eigenvectors that belong to the same eigenvalue. -/
structure Eig where
  vals : {n : ℕ} → Matrix (Fin n) (Fin n) ℝ → Fin n → ℝ
  vecs : {n : ℕ} → Matrix (Fin n) (Fin n) ℝ → Matrix (Fin n) (Fin n) ℝ
  unit : ∀ {n : ℕ} (Q : Matrix (Fin n) (Fin n) ℝ), Qᵀ = Q → ∀ j, ∑ i, vecs Q i j ^ 2 = 1
  spec : ∀ {n : ℕ} (Q : Matrix (Fin n) (Fin n) ℝ), Qᵀ = Q → Q * vecs Q = vecs Q * diagonal (vals Q)
  basis : ∀ {n : ℕ} (Q : Matrix (Fin n) (Fin n) ℝ), Qᵀ = Q → IsUnit (vecs Q).det

end Ellipy.LA
