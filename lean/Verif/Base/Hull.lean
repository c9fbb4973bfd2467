import Mathlib.Analysis.Convex.Hull
import Mathlib.Topology.Instances.Real.Lemmas
import Verif.Base.Py

/-! Contract of `scipy.spatial.ConvexHull(points).simplices` in exact arithmetic. -/

namespace Ellipy

/-- `ConvexHull(points).simplices` for points of dimension `d`: it raises `QhullError` for a flat set of points; otherwise the rows are tuples
of `d` point numbers, and the simplices with these vertices make up the boundary of the convex hull.  Neither the order of the rows nor the order
of the numbers within a row is specified. -/
structure Hull (d : ℕ) where
  simplices : List (Fin d → ℝ) → Py (List (Fin d → ℕ))
  raises_iff : ∀ pts, Raises (simplices pts) ↔ interior (convexHull ℝ {x | x ∈ pts}) = ∅
  bound : ∀ pts fs, simplices pts = .ok fs → ∀ f ∈ fs, ∀ i, f i < pts.length
  facets : ∀ pts fs, simplices pts = .ok fs →
    frontier (convexHull ℝ {x | x ∈ pts}) = ⋃ f ∈ fs, convexHull ℝ (Set.range fun i => pts.getD (f i) 0)

end Ellipy
