import Verif.Model.SphereTriExt

/-! Vocabulary of the statements about grids of directions. -/

namespace Ellipy.Tri

/-- The argument is the whole number `n`, as an integer or as a float. -/
def IsNum (num : NPts) (n : ℕ) : Prop := num = .int n ∨ num = .flt (.fin n)

/-- Two lists of points of the same length, point by point at most `r` apart in every coordinate. -/
def CloseTo {k : ℕ} (r : ℝ) (V W : List (Fin k → ℝ)) : Prop := List.Forall₂ (fun v w => ∀ i, |v i - w i| ≤ r) V W

end Ellipy.Tri
