import Mathlib.Data.Nat.Notation
import Verif.Base.Py

/-! Model of `get_caller_name` (gen/common/common.py) and of `get_logger` (gen/logging/logging.py).

A dotted name is the list of its components; the empty list is the name `''` of the root logger.  The state of the module `logging` is
the list of the names of the loggers to which a handler was added, in order of addition.  Not modelled: the text of the records,
handlers added by other code, `logging.disable`. -/

namespace Ellipy.Log

/-- One frame of the interpreter stack: the components of the name of its module (if there is one), the name of the class of its local
variable `self` (if there is one) and the name of its code. -/
structure Frame where
  module : Option (List String)
  selfClass : Option String
  code : String

/-- `get_caller_name_ext(skip)`, gen/common/common.py:7-37; `stack` is the stack seen by its caller, the innermost frame first. -/
def callerNameExt (stack : List Frame) (skip : ℕ) : String × List String :=
  match stack[skip - 1]? with
  | none => ("", [])                                                                     -- lines 17-18
  | some f =>
    let name := (f.module.getD []) ++ (f.selfClass.toList)                               -- lines 21-32
    let code := if f.code = "<module>" then "" else f.code                               -- lines 33-35
    (code, name)

/-- `get_caller_name(skip, mode)`, gen/common/common.py:40-61, called with the stack `stack` above it. -/
def callerName (stack : List Frame) (skip : ℕ) (mode : String) : Py (List String) :=
  let (code, cls) := callerNameExt (⟨some ["ellipy", "gen", "common", "common"], none, "get_caller_name"⟩ :: stack) (skip + 1)
  let codeL := if code = "" then [] else [code]
  if mode = "default" then .ok (if cls = [] then codeL else cls)
  else if mode = "full" then .ok (if cls = [] then codeL else cls ++ [code])
  else .error .pyValueError

/-- The names of the loggers with a handler, one entry for every handler. -/
abbrev State := List (List String)

/-- `get_logger()`, gen/logging/logging.py:5-14: the name of the logger and the new state; `stack` is the stack of the caller. -/
def getLogger (st : State) (stack : List Frame) : Py (List String × State) :=
  match callerName (⟨some ["ellipy", "gen", "logging", "logging"], none, "get_logger"⟩ :: stack) 2 "full" with
  | .error e => .error e
  | .ok n => .ok (n, st ++ [n])

/-- The number of times a record logged through the logger `n` is emitted: `Logger.callHandlers` of the standard library goes through
the handlers of the logger and of all its ancestors (the root included). -/
def emissions (st : State) (n : List String) : ℕ := (st.filter (fun h => h.isPrefixOf n)).length

end Ellipy.Log
