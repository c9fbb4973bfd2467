import Mathlib.Analysis.Convex.Hull
import Mathlib.Analysis.SpecialFunctions.Pow.Real
import Mathlib.Data.Matrix.Mul

/-! Triangles as sets of points, their areas, and subdivisions of lists of triangles. -/

namespace Ellipy.Tri
open Matrix

variable {d : ℕ}

/-- Three points. -/
abbrev Tria (d : ℕ) := (Fin d → ℝ) × (Fin d → ℝ) × (Fin d → ℝ)

/-- The points of the triangle. -/
def Tria.hull (t : Tria d) : Set (Fin d → ℝ) := convexHull ℝ {t.1, t.2.1, t.2.2}

/-- The area of the triangle, by the formula for two of its sides and their inner product. -/
noncomputable def Tria.area (t : Tria d) : ℝ :=
  Real.sqrt (((t.2.1 - t.1) ⬝ᵥ (t.2.1 - t.1)) * ((t.2.2 - t.1) ⬝ᵥ (t.2.2 - t.1)) - ((t.2.1 - t.1) ⬝ᵥ (t.2.2 - t.1)) ^ 2) / 2

/-- The oriented plane of the triangle: the exterior product of two sides (in the space, the entries of the normal vector). -/
def Tria.plane (t : Tria d) (i j : Fin d) : ℝ := (t.2.1 - t.1) i * (t.2.2 - t.1) j - (t.2.1 - t.1) j * (t.2.2 - t.1) i

/-- The triangles of the list cover exactly the triangle `t`, have the same orientation, and their areas add up to its area. -/
def Divides (t : Tria d) (g : List (Tria d)) : Prop :=
  (⋃ s ∈ g, s.hull) = t.hull ∧ (∀ s ∈ g, ∃ r : ℝ, 0 < r ∧ ∀ i j, s.plane i j = r * t.plane i j) ∧ (g.map Tria.area).sum = t.area

/-- The second list consists of a subdivision of each triangle of the first one and of flat triangles that lie in triangles of the first
one. -/
def IsSubdivision (T T' : List (Tria d)) : Prop :=
  ∃ (G : List (List (Tria d))) (flats : List (Tria d)), T'.Perm (G.flatten ++ flats) ∧ List.Forall₂ Divides T G ∧
    ∀ s ∈ flats, (∀ i j, s.plane i j = 0) ∧ s.area = 0 ∧ ∃ t ∈ T, s.hull ⊆ t.hull

/-- The points with the numbers in the row. -/
def corners (V : List (Fin d → ℝ)) (v : ℕ × ℕ × ℕ) : Tria d := (V.getD v.1 0, V.getD v.2.1 0, V.getD v.2.2 0)

end Ellipy.Tri
