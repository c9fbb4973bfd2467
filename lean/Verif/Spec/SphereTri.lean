import Verif.Spec.TriShrink

/-! Closed triangulated surfaces around the origin. -/

namespace Ellipy.Tri

/-- The triple product of three vectors. -/
def triple (a b c : Fin 3 → ℝ) : ℝ :=
  a 0 * (b 1 * c 2 - b 2 * c 1) + a 1 * (b 2 * c 0 - b 0 * c 2) + a 2 * (b 0 * c 1 - b 1 * c 0)

/-- `E` lists the sides of the triangles, each once in one of its directions. -/
def IsSideList (E : List (ℕ × ℕ)) (F : List (ℕ × ℕ × ℕ)) : Prop :=
  E.Pairwise (fun x y => ¬ ((x.1 = y.1 ∧ x.2 = y.2) ∨ (x.1 = y.2 ∧ x.2 = y.1))) ∧
  ∀ a b, ((a, b) ∈ E ∨ (b, a) ∈ E) ↔ ∃ v ∈ F, IsSide a b v

/-- The point `x` is the combination of the vertices of the triangle `f` with the weights `w`, which are nonnegative and vanish for all
other vertices. -/
def IsComb (V : List (Fin 3 → ℝ)) (f : ℕ × ℕ × ℕ) (w : ℕ → ℝ) (x : Fin 3 → ℝ) : Prop :=
  (∀ v, 0 ≤ w v) ∧ (∀ v, v ≠ f.1 → v ≠ f.2.1 → v ≠ f.2.2 → w v = 0) ∧
  x = w f.1 • V.getD f.1 0 + w f.2.1 • V.getD f.2.1 0 + w f.2.2 • V.getD f.2.2 0

/-- The cones over the triangles cover the space and meet only along common rays and sides: every point is such a combination for one of
the triangles, and the weights do not depend on the triangle. -/
def IsFan (V : List (Fin 3 → ℝ)) (F : List (ℕ × ℕ × ℕ)) : Prop := ∀ x, ∃! w, ∃ f ∈ F, IsComb V f w x

end Ellipy.Tri
