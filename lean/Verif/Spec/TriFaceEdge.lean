import Mathlib.Data.Nat.Notation

/-! Tables of edges and of face-to-edge incidence. -/

namespace Ellipy.Tri

/-- The pair of two vertices in the given direction. -/
def dirPair (d : Bool) (a b : ℕ) : ℕ × ℕ := if d then (a, b) else (b, a)

/-- The edges `e` of the table `E` with the directions `d` are the sides `(a,b)`, `(b,c)` and `(a,c)` of the triangle `(a,b,c)`. -/
def Joins (E : List (ℕ × ℕ)) (v e : ℕ × ℕ × ℕ) (d : Bool × Bool × Bool) : Prop :=
  E[e.1]? = some (dirPair d.1 v.1 v.2.1) ∧ E[e.2.1]? = some (dirPair d.2.1 v.2.1 v.2.2) ∧ E[e.2.2]? = some (dirPair d.2.2 v.1 v.2.2)

/-- The vertices `a` and `b` are joined by a side of the triangle. -/
def IsSide (a b : ℕ) (v : ℕ × ℕ × ℕ) : Prop :=
  (a, b) ∈ [(v.1, v.2.1), (v.2.1, v.1), (v.2.1, v.2.2), (v.2.2, v.2.1), (v.1, v.2.2), (v.2.2, v.1)]

/-- The three vertices are distinct. -/
def Proper (v : ℕ × ℕ × ℕ) : Prop := v.1 ≠ v.2.1 ∧ v.1 ≠ v.2.2 ∧ v.2.1 ≠ v.2.2

/-- The sides of the triangles, each once, as pairs of increasing numbers in lexicographic order. -/
def IsEdgeTable (E : List (ℕ × ℕ)) (rows : List (ℕ × ℕ × ℕ)) : Prop :=
  E.Pairwise (fun x y => x.1 < y.1 ∨ x.1 = y.1 ∧ x.2 < y.2) ∧ ∀ a b, (a, b) ∈ E ↔ a < b ∧ ∃ v ∈ rows, IsSide a b v

end Ellipy.Tri
