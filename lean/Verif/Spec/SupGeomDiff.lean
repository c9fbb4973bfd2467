import Mathlib.Analysis.SpecialFunctions.Trigonometric.Basic
import Mathlib.Data.Matrix.Mul
import Verif.Base.PyMap

/-! Geometric difference of sets given by support values. -/

namespace Ellipy.Sup
open Matrix

/-- The geometric (Minkowski) difference of two sets: the shifts of `B` that fit into `A`. -/
def GeomDiff {d : ℕ} (A B : Set (Fin d → ℝ)) : Set (Fin d → ℝ) := {x | ∀ b ∈ B, x + b ∈ A}

/-- The polyhedron with the given outer normals and support values. -/
def Poly {d : ℕ} (l : List (Fin d → ℝ)) (r : List ℝ) : Set (Fin d → ℝ) := {x | List.Forall₂ (fun c ρ => c ⬝ᵥ x ≤ ρ) l r}

/-- Plane directions listed counterclockwise, one turn at most. -/
def Ccw (l : List (Fin 2 → ℝ)) : Prop :=
  ∃ θ r : ℕ → ℝ, (∀ i (h : i < l.length), 0 < r i ∧ l[i] = ![r i * Real.cos (θ i), r i * Real.sin (θ i)]) ∧
    (∀ i j, i < j → j < l.length → θ i < θ j ∧ θ j < θ i + 2 * Real.pi)

/-- The matrix with the given columns, as an array of shape `(d, n)`. -/
def colsArr {d : ℕ} (l : List (Fin d → ℝ)) : Arr ℝ where
  shape := [d, l.length]
  data := List.ofFn (fun k : Fin (d * l.length) => l.getD (k.val % l.length) 0
    ⟨k.val / l.length, Nat.div_lt_of_lt_mul (Nat.mul_comm d _ ▸ k.isLt)⟩)
  len := by simp

/-- The points `l_i / (ρ1_i - ρ2_i)` of the polar polytope. -/
noncomputable def polarPts {d : ℕ} (l : List (Fin d → ℝ)) (r1 r2 : List ℝ) : List (Fin d → ℝ) :=
  List.zipWith (fun c ρ => ρ⁻¹ • c) l (List.zipWith (· - ·) r1 r2)

/-- The second vector is reached from the first one by a counterclockwise turn of less than half a circle. -/
def Turn (a b : Fin 2 → ℝ) : Prop := 0 < a 0 * b 1 - a 1 * b 0

end Ellipy.Sup
