import Mathlib.Algebra.BigOperators.Fin
import Mathlib.Algebra.Order.BigOperators.Group.Finset
import Verif.Model.Hyperplane
import Verif.Spec.AbsRelCompare

/-! Specification of hyperplanes as sets (C37, C39, C50–C52, C61). -/

namespace Ellipy.Hyp
open Ellipy.Ell

/-- The set a hyperplane stands for. -/
def HypObj.set (h : HypObj) : Set (Fin h.n → ℝ) := {x | ∑ i, h.nrm i * x i = h.shift}

/-- The tolerances of an object. -/
def HypObj.tols (h : HypObj) : Tols := ⟨h.absTol, h.relTol⟩

/-- The hyperplane with normal and shift multiplied by `k`. -/
def scaled (k : ℝ) (h : HypObj) (t : Tols) : HypObj := ⟨h.n, fun i => k * h.nrm i, k * h.shift, t.absTol, t.relTol⟩

/-- What the library regards as the empty hyperplane: one dimension, normal and shift negligible. -/
def Negligible (h : HypObj) : Prop := h.n = 1 ∧ (∀ i, |h.nrm i| ≤ h.absTol) ∧ |h.shift| ≤ h.absTol

/-- The normal form of a hyperplane: a unit normal and a non-negative shift; with shift 0 the unit normal has the direction of the given one. -/
def Canon (h : HypObj) (u : Fin h.n → ℝ) (s : ℝ) : Prop :=
  ∑ i, u i ^ 2 = 1 ∧ 0 ≤ s ∧ ∃ r : ℝ, r ≠ 0 ∧ (s = 0 → 0 < r) ∧ (∀ i, h.nrm i = r * u i) ∧ h.shift = r * s

/-- Two hyperplanes agree within tolerances: both are negligible, or both have normal forms that agree entry by entry. -/
def HypClose (tA tR : ℝ) (h g : HypObj) : Prop :=
  (Negligible h ∧ Negligible g) ∨
  (¬ Negligible h ∧ ¬ Negligible g ∧ ∃ (e : h.n = g.n) (u : Fin h.n → ℝ) (s : ℝ) (v : Fin g.n → ℝ) (t : ℝ), Canon h u s ∧ Canon g v t ∧
    (∀ i, EntryClose (.fin tA) (some (.fin tR)) (.fin (u i) : XF ℝ) (.fin (v (Fin.cast e i)))) ∧
    EntryClose (.fin tA) (some (.fin tR)) (.fin s : XF ℝ) (.fin t))

/-- Normals are proportional. -/
def Parallel (h g : HypObj) : Prop := ∃ (e : h.n = g.n) (k : ℝ), k ≠ 0 ∧ ∀ i, g.nrm (Fin.cast e i) = k * h.nrm i

/-- A point, whose coordinates may be infinite, lies on the hyperplane within its tolerance: the normal vanishes in the infinite coordinates, and
the scalar product over the finite ones is close to the shift. -/
def OnPlane (h : HypObj) (p : Fin h.n → XF ℝ) : Prop :=
  (∀ i, (p i).isFinite = false → h.nrm i = 0) ∧
    |∑ i ∈ Finset.univ.filter (fun i => (p i).isFinite = true), h.nrm i * (p i).toK - h.shift| < h.absTol

/-- Point number `j` of an array of shape `(n, …)` with `m` points. -/
def point (n m : ℕ) (data : List (XF ℝ)) (j : ℕ) : Fin n → XF ℝ := fun i => data.getD (i * m + j) .nan

end Ellipy.Hyp
