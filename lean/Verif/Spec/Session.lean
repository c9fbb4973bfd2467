import Verif.Model.Session
import Verif.Spec.Config

/-! Specification vocabulary for sessions (property C116). -/

namespace Ellipy.Session
open Ellipy.Config

/-- The value of a property for a call: the keyword argument if there is one, else the current setting. -/
def kwOr (kw : Dict) (name : String) (current : Val) : Val :=
  match dictGet kw name with
  | some v => v
  | none => current

/-- The settings calls among the steps of a session. -/
def confOps : List Act → List Op
  | [] => []
  | .conf op :: t => op :: confOps t
  | _ :: t => confOps t

/-- Every settings call of the session is well formed and does not bypass the setters, in the state in which it is executed. -/
def Regular (E : LA.Eigh) (acts : List Act) : Prop :=
  ∀ before op after, acts = before ++ .conf op :: after →
    op.WellFormed (play E before).conf ∧ op.NoBackdoor (play E before).conf

/-- The number that a property value stands for. -/
inductive Stands : Val → ℝ → Prop
  | int (i : ℤ) : Stands (.int i) i
  | tru : Stands (.bool true) 1
  | fls : Stands (.bool false) 0
  | float (q : ℚ) : Stands (.float (.fin q)) q

end Ellipy.Session
