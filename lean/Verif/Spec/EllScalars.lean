import Mathlib.LinearAlgebra.AffineSpace.AffineSubspace.Basic
import Mathlib.LinearAlgebra.Dimension.Finrank
import Verif.Model.EllScalars
import Verif.Spec.Ell

/-! What the queries of `AEllipsoid` are about. -/

namespace Ellipy.Ell
open Matrix Ellipy.LA

/-- The argument consists of instances of the class only; as an array of objects it is `a`. -/
def ObjArg.Is {α : Type} (arg : ObjArg α) (a : Arr α) : Prop :=
  (∃ x, arg = .single (.inst x) ∧ a = Arr.scalar x) ∨
  (∃ b : Arr (Item α), arg = .many b ∧ b.shape = a.shape ∧ b.data = a.data.map .inst)

/-- Something in the argument is not an instance of the class. -/
def ObjArg.Foreign {α : Type} (arg : ObjArg α) : Prop :=
  arg = .single .other ∨ ∃ b : Arr (Item α), arg = .many b ∧ .other ∈ b.data

/-- The values of the quadratic form on the unit sphere. -/
def formValues {n : ℕ} (Q : Matrix (Fin n) (Fin n) ℝ) : Set ℝ := {r | ∃ x : Fin n → ℝ, x ⬝ᵥ x = 1 ∧ r = x ⬝ᵥ Q *ᵥ x}

/-- The ball of radius `r` about `c`. -/
def Ball {n : ℕ} (c : Fin n → ℝ) (r : ℝ) : Set (Fin n → ℝ) := {x | (x - c) ⬝ᵥ (x - c) ≤ r ^ 2}

/-- The dimension of the affine hull. -/
noncomputable def affDim {n : ℕ} (X : Set (Fin n → ℝ)) : ℕ := Module.finrank ℝ (vectorSpan ℝ X)

/-- `r` is an eigenvalue of `Q`. -/
def IsEigenvalue {n : ℕ} (Q : Matrix (Fin n) (Fin n) ℝ) (r : ℝ) : Prop := ∃ v : Fin n → ℝ, v ≠ 0 ∧ Q *ᵥ v = r • v

/-- The names of the numeric properties. -/
def numericNames : List String := ["absTol", "abs_tol", "_abs_tol", "relTol", "rel_tol", "_rel_tol",
  "nPlot2dPoints", "n_plot_2d_points", "_n_plot_2d_points", "nPlot3dPoints", "n_plot_3d_points", "_n_plot_3d_points"]

/-- The names of the arrays. -/
def arrayNames : List String := ["centerVec", "center_vec", "_center_vec", "shapeMat", "shape_mat", "_shape_mat"]

end Ellipy.Ell
