import Mathlib.Algebra.Order.BigOperators.Group.List
import Verif.Spec.TriFaceEdge

/-! How often an edge is used by the faces (C114). -/

namespace Ellipy.Tri

/-- How many of the three numbers are `k`. -/
def slotCount (k : ℕ) (e : ℕ × ℕ × ℕ) : ℕ := (if e.1 = k then 1 else 0) + (if e.2.1 = k then 1 else 0) + (if e.2.2 = k then 1 else 0)

/-- How often the number `k` occurs in a table of face-to-edge incidence. -/
def edgeUses (f2e : List (ℕ × ℕ × ℕ)) (k : ℕ) : ℕ := (f2e.map (slotCount k)).sum

/-- How many of the three sides of a triangle join `a` and `b`. -/
def joinCount (a b : ℕ) (v : ℕ × ℕ × ℕ) : ℕ :=
  (if (a = v.1 ∧ b = v.2.1) ∨ (b = v.1 ∧ a = v.2.1) then 1 else 0) + (if (a = v.2.1 ∧ b = v.2.2) ∨ (b = v.2.1 ∧ a = v.2.2) then 1 else 0) +
    (if (a = v.1 ∧ b = v.2.2) ∨ (b = v.1 ∧ a = v.2.2) then 1 else 0)

/-- How many sides of the triangles join `a` and `b`. -/
def joinUses (rows : List (ℕ × ℕ × ℕ)) (a b : ℕ) : ℕ := (rows.map (joinCount a b)).sum

end Ellipy.Tri
