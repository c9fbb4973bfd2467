import Verif.Model.EllHeap
import Verif.Spec.Ell

/-! The Minkowski sum of sets, and lists of ellipsoids of one dimension. -/

namespace Ellipy.Ell
open Matrix Ellipy.LA

/-- The Minkowski sum: all sums of one point of each set. -/
def minkSum {n : ℕ} (Xs : List (Set (Fin n → ℝ))) : Set (Fin n → ℝ) :=
  {x | ∃ xs : List (Fin n → ℝ), List.Forall₂ (fun y X => y ∈ X) xs Xs ∧ xs.sum = x}

/-- An ellipsoid of the space of dimension `n` with its properties. -/
structure EllN (n : ℕ) where
  c : Fin n → ℝ
  Q : Matrix (Fin n) (Fin n) ℝ
  props : PropVals

/-- The object. -/
def EllN.obj {n : ℕ} (e : EllN n) : EllObj := ⟨n, e.c, e.Q, e.props.absTol, e.props.relTol, e.props.n2d, e.props.n3d⟩

/-- The points of the ellipsoid. -/
def EllN.set {n : ℕ} (e : EllN n) : Set (Fin n → ℝ) := Ell e.c e.Q

/-- An ellipsoid with a symmetric matrix whose eigenvalues exceed the tolerance. -/
def EllN.NonDeg {n : ℕ} (e : EllN n) : Prop :=
  e.props.ok ∧ e.Qᵀ = e.Q ∧ ∀ x : Fin n → ℝ, x ≠ 0 → e.props.absTol * (x ⬝ᵥ x) < x ⬝ᵥ e.Q *ᵥ x

/-- An ellipsoid, possibly flat, with a symmetric nonnegative matrix. -/
def EllN.PSD {n : ℕ} (e : EllN n) : Prop := e.props.ok ∧ IsPSD e.Q

end Ellipy.Ell
