import Mathlib.Analysis.SpecialFunctions.Pow.Real
import Verif.Spec.TriFaceEdge

/-! Meshes of triangles. -/

namespace Ellipy.Tri

/-- The three numbers are less than `n`. -/
def RowLt (n : ℕ) (v : ℕ × ℕ × ℕ) : Prop := v.1 < n ∧ v.2.1 < n ∧ v.2.2 < n

/-- The tables refer to existing vertices and edges, and every edge belongs to a face. -/
def InRange (nV : ℕ) (E : List (ℕ × ℕ)) (F : List ((ℕ × ℕ × ℕ) × (ℕ × ℕ × ℕ) × (Bool × Bool × Bool))) : Prop :=
  (∀ e ∈ E, e.1 < nV ∧ e.2 < nV) ∧ (∀ f ∈ F, RowLt nV f.1 ∧ RowLt E.length f.2.1) ∧
  ∀ k, k < E.length → ∃ f ∈ F, f.2.1.1 = k ∨ f.2.1.2.1 = k ∨ f.2.1.2.2 = k

/-- The Euclidean distance between two points of a list. -/
noncomputable def pointDist {d : ℕ} (V : List (Fin d → ℝ)) (i j : ℕ) : ℝ := Real.sqrt (∑ t, (V.getD i 0 t - V.getD j 0 t) ^ 2)

end Ellipy.Tri
