import Verif.Model.AbsRelCompare

/-! Specification of tolerance comparison (C06, C07), stated entry by entry. -/

namespace Ellipy
variable {K : Type _} [Field K] [LinearOrder K]

/-- `x` does not exceed the tolerance `t` (a NaN tolerance is never satisfied). -/
def Within (x : K) : XF K → Prop
  | .fin t => x ≤ t
  | .pinf => True
  | _ => False

/-- `x` exceeds the tolerance `t`. -/
def Exceeds (x : K) : XF K → Prop
  | .fin t => t < x
  | .ninf => True
  | _ => False

/-- A pair of entries is close: both NaN, or the same infinity, or finite with a small absolute
difference, or — when a relative tolerance is given and the entries are not both tiny — with a small
difference relative to the mean magnitude `(|x| + |y|) / 2`. -/
def EntryClose (absTol : XF K) (relTol : Option (XF K)) : XF K → XF K → Prop
  | .fin x, .fin y => Within |x - y| absTol ∨
      ∃ rt, relTol = some rt ∧ Exceeds (|x| + |y|) absTol ∧ Within (|x - y| / ((|x| + |y|) / 2)) rt
  | .nan, .nan => True
  | .pinf, .pinf => True
  | .ninf, .ninf => True
  | _, _ => False

/-- A usable tolerance: a non-negative number or +inf. -/
def ValidTol : XF K → Prop
  | .fin t => 0 ≤ t
  | .pinf => True
  | _ => False

/-- First tolerance not larger than the second. -/
def TolLE : XF K → XF K → Prop
  | .fin s, .fin t => s ≤ t
  | .fin _, .pinf => True
  | .pinf, .pinf => True
  | _, _ => False

/-- The larger verdict-relevant relative tolerance: none (absolute test only) is the strictest. -/
def RelTolLE : Option (XF K) → Option (XF K) → Prop
  | none, _ => True
  | some s, some t => TolLE s t
  | some _, none => False

/-- The special values of two arrays are at the same places. -/
def SameSpecials (l r : List (XF K)) : Prop :=
  ∀ p ∈ l.zip r, (∃ x y, p = (.fin x, .fin y)) ∨ p = (.nan, .nan) ∨ p = (.pinf, .pinf) ∨ p = (.ninf, .ninf)

/-- Corresponding entries that are both finite. -/
def finPairs (l r : List (XF K)) : Set (K × K) := {p | (XF.fin p.1, XF.fin p.2) ∈ l.zip r}

/-- Corresponding finite entries whose absolute difference exceeds the tolerance. -/
def farPairs (absTol : XF K) (l r : List (XF K)) : Set (K × K) := {p ∈ finPairs l r | Exceeds |p.1 - p.2| absTol}

/-- The difference relative to the mean magnitude. -/
def relDist (p : K × K) : K := |p.1 - p.2| / ((|p.1| + |p.2|) / 2)

end Ellipy
