import Verif.Model.Config

/-! Specification vocabulary for the settings store (properties C01–C04). -/

namespace Ellipy.Config

/-- The documented default of every option. -/
def docDefault : Getter → Val
  | .version => .str "2.1"
  | .isVerbose => .bool false
  | .absTol => .float (.fin (1 / 1000000))
  | .relTol => .float (.fin (1 / 100000))
  | .regTol => .float (.fin (1 / 100000))
  | .nTimeGridPoints => .int 250
  | .odeSolverName => .str "ode45"
  | .isOdeNormControl => .str "on"
  | .isEnabledOdeSolverOptions => .bool false
  | .nPlot2dPoints => .int 200
  | .nPlot3dPoints => .int 200

/-- Which getter observes which setter. -/
def observes : Getter → Setter → Bool
  | .isVerbose, .isVerbose => true
  | .nPlot2dPoints, .nPlot2dPoints => true
  | .nPlot3dPoints, .nPlot3dPoints => true
  | .nTimeGridPoints, .nTimeGridPoints => true
  | .absTol, .absTol => true
  | .relTol, .relTol => true
  | _, _ => false

/-- Last-write-wins reading of a history given newest call first: the most recent value set for the
getter's own option since the last `init`, else the documented default. -/
def lastStored (g : Getter) : List Op → Val
  | [] => docDefault g
  | .init :: _ => docDefault g
  | .set k v :: older => if observes g k then v else lastStored g older
  | _ :: older => lastStored g older

/-- The same reading for a history that starts somewhere: the value stored since, if there is one. -/
def storedSince (g : Getter) : List Op → Option Val
  | [] => none
  | .init :: _ => some (docDefault g)
  | .set k v :: older => if observes g k then some v else storedSince g older
  | _ :: older => storedSince g older

/-- The user only passes on references to dictionaries that exist. -/
def Op.WellFormed (s : State) : Op → Prop
  | .setConfRepoMgr (some a) => a < s.heap.length
  | .write a _ _ => a < s.heap.length
  | .parseProp a _ => a < s.heap.length
  | _ => True

/-- The operation does not bypass the setters: it neither replaces the repository object nor writes
directly into it. -/
def Op.NoBackdoor (s : State) : Op → Prop
  | .setConfRepoMgr _ => False
  | .write a _ _ => s.conf ≠ some a
  | _ => True

/-- Every operation of the sequence satisfies `P` in the state in which it is executed. -/
def AllOps (P : State → Op → Prop) : State → List Op → Prop
  | _, [] => True
  | s, op :: ops => P s op ∧ AllOps P (step s op) ops

/-- The operation does not touch the dictionary object `a` through the user's own reference. -/
def Op.Avoids (a : Nat) : Op → Prop
  | .write b _ _ => b ≠ a
  | .setConfRepoMgr (some b) => b ≠ a
  | _ => True

/-- Validity rule of every property, in words of the documentation: strings, booleans, positive
floats, one of three solver names, whole numbers. -/
def Admissible (name : String) (v : Val) : Prop :=
  (name = "version" ∧ ∃ s, v = .str s) ∨
  (name ∈ ["is_verbose", "is_ode_norm_control", "is_enabled_ode_solver_options"] ∧ ∃ b, v = .bool b) ∨
  (name ∈ ["abs_tol", "rel_tol", "reg_tol"] ∧ (v = .float .pinf ∨ ∃ x : ℚ, 0 < x ∧ v = .float (.fin x))) ∨
  (name = "ode_solver_name" ∧ (v = .str "ode45" ∨ v = .str "ode23" ∨ v = .str "ode113")) ∨
  (name ∈ ["n_plot_2d_points", "n_plot_3d_points", "n_time_grid_points"] ∧
    ((∃ i, v = .int i) ∨ (∃ b, v = .bool b) ∨ ∃ i : ℤ, v = .float (.fin (i : ℚ))))

/-- The names of all properties. -/
def KnownName (name : String) : Prop :=
  name ∈ ["version", "is_verbose", "abs_tol", "rel_tol", "reg_tol", "ode_solver_name",
    "is_ode_norm_control", "is_enabled_ode_solver_options", "n_plot_2d_points",
    "n_plot_3d_points", "n_time_grid_points"]

/-- The names of all properties in the order of the answers. -/
def docNames : List String :=
  ["version", "is_verbose", "abs_tol", "rel_tol", "reg_tol", "ode_solver_name", "is_ode_norm_control", "is_enabled_ode_solver_options",
    "n_plot_2d_points", "n_plot_3d_points", "n_time_grid_points"]

/-- The default settings. -/
def docSettings : Dict :=
  [("version", .str "2.1"), ("is_verbose", .bool false), ("abs_tol", .float (.fin (1 / 1000000))), ("rel_tol", .float (.fin (1 / 100000))),
    ("n_time_grid_points", .int 250), ("ode_solver_name", .str "ode45"), ("is_ode_norm_control", .str "on"),
    ("is_enabled_ode_solver_options", .bool false), ("n_plot_2d_points", .int 200), ("n_plot_3d_points", .int 200),
    ("reg_tol", .float (.fin (1 / 100000)))]

/-- Value a request should get: the caller's own value if given (and not consumed by an earlier
request of the same name), else the global one. -/
def wanted (args glob : Dict) (earlier : List String) (name : String) : Option Val :=
  if name ∈ earlier then dictGet glob name
  else match dictGet args name with
    | some v => some v
    | none => dictGet glob name

end Ellipy.Config
