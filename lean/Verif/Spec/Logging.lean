import Verif.Model.Logging

/-! What a caller of `get_logger` expects. -/

namespace Ellipy.Log

/-- The dotted name of the function that is running in a frame: module, class, function. -/
def Frame.qualname (f : Frame) : List String :=
  match f.module, f.selfClass, (if f.code = "<module>" then "" else f.code) with
  | none, none, "" => []
  | none, none, c => [c]
  | some m, none, c => if m = [] then (if c = "" then [] else [c]) else m ++ [c]
  | none, some s, c => [s, c]
  | some m, some s, c => m ++ [s, c]

/-- The states reached by calling `get_logger` in turn from the given stacks. -/
inductive Reach : List (List Frame) → State → Prop
  | init : Reach [] []
  | call {hist st stack n st'} : Reach hist st → getLogger st stack = .ok (n, st') → Reach (hist ++ [stack]) st'

end Ellipy.Log
