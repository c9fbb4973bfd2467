/-
  Shared vocabulary of the model: Python exceptions as values and extended floats.
-/

namespace Ellipy

/-- Exceptions the modelled code can raise.  `valueError tag` is what `throw_error(tag, …)` raises
(gen/common/common.py:64-71); the caller-name prefix and the free-text message are dropped.
The other constructors are the built-in exceptions that Python/numpy raise by themselves. -/
inductive Exc where
  | valueError (tag : String)
  | pyValueError
  | typeError
  | keyError
  | indexError
  | attributeError
  | linAlgError
  | zeroDivision
  deriving DecidableEq, Repr

/-- Result of a Python call: a value or a raised exception. -/
abbrev Py (α : Type _) := Except Exc α

/-- `throw_error(tag, …)`, gen/common/common.py:64-71. -/
def throwErr {α : Type _} (tag : String) : Py α := .error (.valueError tag)

/-- A call raised some exception. -/
def Raises {α : Type _} (r : Py α) : Prop := ∃ e, r = .error e

/-- Python list indexing `l[i]` for a non-negative index: raises `IndexError` outside the range. -/
def pyIndex {α : Type _} (l : List α) (i : Nat) : Py α :=
  match l[i]? with
  | some x => .ok x
  | none => .error .indexError

/-- A float64 with exact arithmetic: a finite number of the ordered field `K`, or a special value. -/
inductive XF (K : Type _) where
  | fin (x : K)
  | nan
  | pinf
  | ninf
  deriving DecidableEq, Repr

namespace XF
variable {K : Type _}

/-- `np.isnan` on one entry. -/
def isNan : XF K → Bool
  | nan => true
  | _ => false

/-- `np.isfinite` on one entry. -/
def isFinite : XF K → Bool
  | fin _ => true
  | _ => false

/-- `x == np.inf`. -/
def isPInf : XF K → Bool
  | pinf => true
  | _ => false

/-- `x == -np.inf`. -/
def isNInf : XF K → Bool
  | ninf => true
  | _ => false

end XF
end Ellipy
