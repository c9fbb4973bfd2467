import Verif.Model.EllCtor
import Verif.Props.LaPosDef

/-! Which arguments describe an ellipsoid. -/

namespace Ellipy.Ell
open Matrix Ellipy.LA

/-- `a` is an array of shape `(n, n)` with the finite entries `X i j + 𝑖 Y i j` (row-major). -/
def IsMat (a : Arr CX) {n : ℕ} (X Y : Matrix (Fin n) (Fin n) ℝ) : Prop :=
  a.shape = [n, n] ∧ ∀ i j : Fin n, a.data[i.val * n + j.val]? = some ⟨.fin (X i j), .fin (Y i j)⟩

/-- A shape matrix: real up to the tolerance, symmetric up to the tolerance, with eigenvalues (of the matrix that `eigh` reads off
the lower triangle) not below minus the tolerance. -/
def GoodShape (tol : ℝ) (a : Arr CX) {n : ℕ} (X : Matrix (Fin n) (Fin n) ℝ) : Prop :=
  0 < tol ∧ ∃ Y : Matrix (Fin n) (Fin n) ℝ, IsMat a X Y ∧ (∀ i, ∑ j, |Y i j| < tol) ∧ SymmWithin X tol ∧
    ∀ v : Fin n → ℝ, -tol * (v ⬝ᵥ v) ≤ v ⬝ᵥ lowerSym X *ᵥ v

/-- `a` is an array with the finite entries `x i + 𝑖 y i` and only one dimension different from 1. -/
def IsVector (a : Arr CX) {n : ℕ} (x y : Fin n → ℝ) : Prop :=
  a.shape.max? = some n ∧ a.data.length = n ∧ ∀ i : Fin n, a.data[i.val]? = some ⟨.fin (x i), .fin (y i)⟩

/-- A centre: real up to the tolerance (a complex array must have one or two dimensions; the norm of a row is the sum of its moduli). -/
def GoodCenter (tol : ℝ) (a : Arr CX) {n : ℕ} (x : Fin n → ℝ) : Prop :=
  0 < tol ∧ ∃ y : Fin n → ℝ, IsVector a x y ∧
    (y = 0 ∨ ((a.shape = [n] ∨ a.shape = [n, 1]) ∧ ∀ i, |y i| < tol) ∨ (a.shape = [1, n] ∧ ∑ i, |y i| < tol))

end Ellipy.Ell
