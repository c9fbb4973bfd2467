import Mathlib.Algebra.Order.Field.Basic
import Mathlib.Algebra.Order.Group.Unbundled.Abs
import Mathlib.Data.List.Basic
import Mathlib.Logic.Equiv.Defs
import Verif.Spec.TriFaceEdge

/-! Equality of triangulations up to the numbering of the vertices and the order of the vertices in a face. -/

namespace Ellipy.Tri

instance decIsSide (a b : ℕ) (v : ℕ × ℕ × ℕ) : Decidable (IsSide a b v) := inferInstanceAs (Decidable (_ ∈ _))

/-- The same three vertices in some order. -/
def SameTri (t f : ℕ × ℕ × ℕ) : Prop := [t.1, t.2.1, t.2.2].Perm [f.1, f.2.1, f.2.2]

/-- The number of triangles with the side `a`, `b`. -/
def sideCount (rows : List (ℕ × ℕ × ℕ)) (a b : ℕ) : ℕ := (rows.filter (fun v => decide (IsSide a b v))).length

/-- Every side of the triangle belongs to at most two of the triangles. -/
def SidesFree (rows : List (ℕ × ℕ × ℕ)) (t : ℕ × ℕ × ℕ) : Prop := ∀ a b, IsSide a b t → sideCount rows a b ≤ 2

/-- The image `t'` of a triangle `t` under a numbering. -/
def Renumbered {n : ℕ} (σ : Equiv.Perm (Fin n)) (t t' : ℕ × ℕ × ℕ) : Prop :=
  ∃ a b c : Fin n, t = (a.val, b.val, c.val) ∧ t' = ((σ a).val, (σ b).val, (σ c).val)

/-- The triangulations `(v, f)` and `(w, g)` agree up to `tol`: a renumbering moves every vertex by at most `tol` in every coordinate and
takes the triangles of one to the triangles of the other. -/
def TriMatch {K : Type} [Field K] [LinearOrder K] {n m : ℕ} (tol : K) (σ : Equiv.Perm (Fin n)) (v : Fin n → Fin m → K)
    (f : List (ℕ × ℕ × ℕ)) (w : Fin n → Fin m → K) (g : List (ℕ × ℕ × ℕ)) : Prop :=
  (∀ i c, |v i c - w (σ i) c| ≤ tol) ∧ (∀ t ∈ f, ∃ t' ∈ g, ∃ s, Renumbered σ t s ∧ SameTri s t') ∧
    (∀ t' ∈ g, ∃ t ∈ f, ∃ s, Renumbered σ t s ∧ SameTri s t')

end Ellipy.Tri
