import Verif.Model.Logging

/-! Model of `throw_error` and `throw_warn`, gen/common/common.py:64-76, with the texts they produce (elsewhere in the models only the tag of
an error is kept).

A dotted name is the list of its components, as in `Verif.Model.Logging`; its text has dots between them.  Texts are lists of characters.
`up` is `str.upper` on one character (it may give several).  Not modelled: the number given for `n_caller_stack_steps_up` is
not negative, and the filters of the module `warnings`. -/

namespace Ellipy.Log

/-- `'.'.join(name)`. -/
def dotted (name : List String) : List Char := ".".toList.intercalate (name.map String.toList)

/-- `text.replace('.', ':')`. -/
def colons (text : List Char) : List Char := text.map (fun c => if c = '.' then ':' else c)

/-- `text.upper()`. -/
def upper (up : Char → List Char) (text : List Char) : List Char := text.flatMap up

/-- What a call of `throw_error` does with the `ValueError` it builds. -/
inductive Thrown where
  | raised (message : List Char)
  | returned (message : List Char)
  deriving DecidableEq

/-- The frame of `throw_error` itself. -/
def throwErrorFrame : Frame := ⟨some ["ellipy", "gen", "common", "common"], none, "throw_error"⟩

/-- The frame of `throw_warn` itself. -/
def throwWarnFrame : Frame := ⟨some ["ellipy", "gen", "common", "common"], none, "throw_warn"⟩

/-- `throw_error(tag, message, n_caller_stack_steps_up, throw)`, gen/common/common.py:64-71; `stack` is the stack of its caller. -/
def pyThrowError (up : Char → List Char) (stack : List Frame) (tag message : List Char) (steps : ℕ := 1) (throw : Bool := true) : Py Thrown :=
  match callerName (throwErrorFrame :: stack) (steps + 1) "full" with
  | .error e => .error e
  | .ok n =>
    let e := upper up (colons (dotted n)) ++ [':'] ++ tag ++ [':'] ++ message            -- lines 66-67
    if throw then .ok (.raised e) else .ok (.returned e)                                 -- lines 68-71

/-- `throw_warn(tag, message)`, gen/common/common.py:74-76: the text of the `RuntimeWarning`. -/
def pyThrowWarn (up : Char → List Char) (stack : List Frame) (tag message : List Char) : Py (List Char) :=
  match callerName (throwWarnFrame :: stack) 2 "full" with
  | .error e => .error e
  | .ok n => .ok (upper up (colons (dotted n)) ++ [':'] ++ tag ++ [':'] ++ message)

/-- The text of the `ValueError` that `get_caller_name` raises for an unknown mode, gen/common/common.py:59-61: there `get_caller_name_ext()` is
called without `skip`, that is with 1, and the name is not separated from the text. -/
def modeError (up : Char → List Char) (stack : List Frame) (mode : List Char) : List Char :=
  let (code, cls) := callerNameExt (⟨some ["ellipy", "gen", "common", "common"], none, "get_caller_name"⟩ :: stack) 1
  upper up (dotted cls ++ ['.'] ++ code.toList) ++ "wrongInput: Unknown mode: ".toList ++ mode

end Ellipy.Log
