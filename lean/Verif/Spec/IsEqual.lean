import Verif.Model.EllObj
import Verif.Props.LaPosDef
import Verif.Spec.AbsRelCompare

/-! Specification of equality of ellipsoids (C48). -/

namespace Ellipy.Ell
open Matrix Ellipy.LA

/-- Two ellipsoids agree within the tolerances: same dimension, centres close entry by entry, and the positive semidefinite square roots
of the shape matrices close entry by entry. -/
def EllClose (absTol relTol : ℝ) (e f : EllObj) : Prop :=
  ∃ h : e.n = f.n,
    (∀ i, EntryClose (.fin absTol) (some (.fin relTol)) (.fin (e.c i)) (.fin (f.c (Fin.cast h i)))) ∧
    ∃ R S, IsPSD R ∧ R * R = e.Q ∧ IsPSD S ∧ S * S = f.Q ∧
      ∀ i j, EntryClose (.fin absTol) (some (.fin relTol)) (.fin (R i j)) (.fin (S (Fin.cast h i) (Fin.cast h j)))

/-- The pairs of objects that are compared: an array with one element is repeated. -/
def bcList {α : Type} (a b : Arr α) : List α :=
  match a.data with
  | [x] => List.replicate b.data.length x
  | l => l

/-- Arrays that can be compared: equal shapes, or one object with an array that has at least as many dimensions. -/
def Compat {α : Type} (a b : Arr α) : Prop :=
  (1 < a.data.length → 1 < b.data.length → a.shape = b.shape) ∧
  (1 < a.data.length → b.data.length = 1 → b.shape.length ≤ a.shape.length) ∧
  (a.data.length = 1 → a.shape.length ≤ b.shape.length)

end Ellipy.Ell
