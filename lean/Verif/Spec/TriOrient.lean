import Mathlib.Algebra.BigOperators.Group.List.Basic
import Verif.Spec.TriTube

/-! Directions in which the triangles of a surface pass their sides (C115). -/

namespace Ellipy.Tri

/-- How often the triangle passes from `a` to `b` when its vertices are visited in turn. -/
def dirCount {α : Type} [DecidableEq α] (a b : α) (v : α × α × α) : ℕ :=
  (if v.1 = a ∧ v.2.1 = b then 1 else 0) + (if v.2.1 = a ∧ v.2.2 = b then 1 else 0) + (if v.2.2 = a ∧ v.1 = b then 1 else 0)

/-- How often the triangles pass from `a` to `b`. -/
def dirUses {α : Type} [DecidableEq α] (rows : List (α × α × α)) (a b : α) : ℕ := (rows.map (dirCount a b)).sum

/-- How often one passes from `a` to `b` on the way round the ring `p` of a tube with `ne` points in a ring. -/
def ringUses (ne p : ℕ) (a b : ℤ) : ℕ := ((List.range ne).map fun i => if ringPt ne p i = a ∧ ringPt ne p (i + 1) = b then 1 else 0).sum

end Ellipy.Tri
