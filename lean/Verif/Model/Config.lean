import Mathlib.Data.Rat.Floor
import Mathlib.Data.String.Basic
import Verif.Model.IsMember

/-!
  Model of the settings store `Properties` (elltool/conf/properties/Properties.py) and of
  `parse_prop` (elltool/conf/properties/_ParseProp.py).

  Dictionaries are mutable Python objects, so they live in a heap; an address (a `Nat`) stands for an
  object identity.  The class variable `Properties.__conf_repo_mgr` is an address or `None`.
-/

namespace Ellipy.Config

/-- Python values that can be stored as option values.  `float` covers `float` and `np.float64`
(a subclass of `float`); `npInt` is a numpy integer, which is *not* an instance of `int`. -/
inductive Val where
  | str (s : String)
  | bool (b : Bool)
  | int (i : Int)
  | float (x : XF ℚ)
  | npInt (i : Int)
  | none
  deriving DecidableEq

/-- A Python `dict` with string keys: insertion-ordered, keys distinct by construction (`dictSet`). -/
abbrev Dict := List (String × Val)

/-- `d.get(k)`. -/
def dictGet (d : Dict) (k : String) : Option Val := (d.find? (fun p => p.1 == k)).map Prod.snd

/-- `d[k] = v`: overwrite in place or append. -/
def dictSet : Dict → String → Val → Dict
  | [], k, v => [(k, v)]
  | (k', v') :: t, k, v => if k' = k then (k, v) :: t else (k', v') :: dictSet t k v

/-- `del d[k]` (key present). -/
def dictDel (d : Dict) (k : String) : Dict := d.filter (fun p => p.1 != k)

/-- `d[k]`, raising `KeyError`. -/
def dictIndex (d : Dict) (k : String) : Py Val :=
  match dictGet d k with
  | some v => .ok v
  | none => .error .keyError

/-- The dictionary literal of `Properties.init`, Properties.py:41-53. -/
def defaultDict : Dict :=
  [("version", .str "2.1"),
   ("is_verbose", .bool false),
   ("abs_tol", .float (.fin (1 / 1000000))),
   ("rel_tol", .float (.fin (1 / 100000))),
   ("n_time_grid_points", .int 250),
   ("ode_solver_name", .str "ode45"),
   ("is_ode_norm_control", .str "on"),
   ("is_enabled_ode_solver_options", .bool false),
   ("n_plot_2d_points", .int 200),
   ("n_plot_3d_points", .int 200),
   ("reg_tol", .float (.fin (1 / 100000)))]

/-- All dictionaries created so far (address = position) and the class variable
`Properties.__conf_repo_mgr` (Properties.py:14). -/
structure State where
  heap : List Dict
  conf : Option Nat

/-- The dictionary object stored at an address. -/
def State.dict (s : State) (a : Nat) : Option Dict := s.heap[a]?

/-- Create a new dictionary object. -/
def alloc (s : State) (d : Dict) : State × Nat :=
  ({ s with heap := s.heap ++ [d] }, s.heap.length)

/-- In-place update of the dictionary object at address `a`. -/
def update (s : State) (a : Nat) (f : Dict → Dict) : State :=
  { s with heap := s.heap.modify a f }

/-- `Properties.init()`, Properties.py:35-58 (the setup-class list is empty, lines 55-58 only read
three options that were just stored). -/
def init (s : State) : State :=
  let r := alloc s defaultDict
  { r.1 with conf := some r.2 }

/-- State right after the module import: `Properties._implicit_init()`, Properties.py:18-21, 164. -/
def imported : State := init { heap := [], conf := none }

/-- `Properties.get_conf_repo_mgr()`, Properties.py:63-68. -/
def getConfRepoMgr (s : State) : State × Py Nat :=
  match s.conf with
  | some a => (s, .ok a)
  | none =>
    let s' := init s
    match s'.conf with
    | some a => (s', .ok a)
    | none => (s', throwErr "noConfRepoMgr")

/-- `Properties.set_conf_repo_mgr(d)`, Properties.py:71-72. -/
def setConfRepoMgr (s : State) (a : Option Nat) : State := { s with conf := a }

/-- `Properties.__get_option(name)`, Properties.py:149-153 (`None[...]` raises `TypeError`). -/
def getOption (s : State) (name : String) : Py Val :=
  match s.conf with
  | none => .error .typeError
  | some a =>
    match s.dict a with
    | none => .error .typeError
    | some d => dictIndex d name

/-- `Properties.__set_option(name, v)`, Properties.py:156-160. -/
def setOption (s : State) (name : String) (v : Val) : State × Py Unit :=
  match s.conf with
  | none => (s, .error .typeError)
  | some a => (update s a (fun d => dictSet d name v), .ok ())

/-- `Properties.get_prop_dict()`, Properties.py:145-146: `dict.copy()`, a new object. -/
def getPropDict (s : State) : State × Py Nat :=
  match s.conf with
  | none => (s, .error .attributeError)
  | some a =>
    match s.dict a with
    | none => (s, .error .attributeError)
    | some d => let r := alloc s d; (r.1, .ok r.2)

/-- The public getters, Properties.py:75-117, by the option each one reads. -/
inductive Getter where
  | version | isVerbose | absTol | relTol | regTol | nTimeGridPoints | odeSolverName
  | isOdeNormControl | isEnabledOdeSolverOptions | nPlot2dPoints | nPlot3dPoints
  deriving DecidableEq

/-- Option name read by a getter, Properties.py:75-117. -/
def Getter.optName : Getter → String
  | .version => "version"
  | .isVerbose => "is_verbose"
  | .absTol => "abs_tol"
  | .relTol => "rel_tol"
  | .regTol => "reg_tol"
  | .nTimeGridPoints => "n_time_grid_points"
  | .odeSolverName => "ode_solver_name"
  | .isOdeNormControl => "is_ode_norm_control"
  | .isEnabledOdeSolverOptions => "is_enabled_ode_solver_options"
  | .nPlot2dPoints => "n_plot_2d_points"
  | .nPlot3dPoints => "n_plot_3d_points"

/-- The public setters, Properties.py:120-142. -/
inductive Setter where
  | isVerbose | nPlot2dPoints | nPlot3dPoints | nTimeGridPoints | absTol | relTol
  deriving DecidableEq

/-- Option name written by a setter, Properties.py:120-142. -/
def Setter.optName : Setter → String
  | .isVerbose => "is_verbose"
  | .nPlot2dPoints => "n_plot_2d_points"
  | .nPlot3dPoints => "n_plot_3d_points"
  | .nTimeGridPoints => "n_time_grid_points"
  | .absTol => "abs_tol"
  | .relTol => "rel_tol"

/-- A getter call. -/
def get (s : State) (g : Getter) : Py Val := getOption s g.optName

/-- A setter call. -/
def set (s : State) (k : Setter) (v : Val) : State × Py Unit := setOption s k.optName v

/-! ### `parse_prop` -/

/-- `__PROP_NAME_LIST`, _ParseProp.py:8-10. -/
def propNameList : List String :=
  ["version", "is_verbose", "abs_tol", "rel_tol", "reg_tol",
   "ode_solver_name", "is_ode_norm_control", "is_enabled_ode_solver_options",
   "n_plot_2d_points", "n_plot_3d_points", "n_time_grid_points"]

/-- `lambda x: isinstance(x, str)`, _ParseProp.py:12. -/
def chkStr : Val → Bool
  | .str _ => true
  | _ => false

/-- `lambda x: isinstance(x, bool)`, _ParseProp.py:13,18,19. -/
def chkBool : Val → Bool
  | .bool _ => true
  | _ => false

/-- `lambda x: isinstance(x, float) and x > 0`, _ParseProp.py:14-16. -/
def chkTol : Val → Bool
  | .float (.fin x) => decide (0 < x)
  | .float .pinf => true
  | _ => false

/-- `lambda x: isinstance(x, str) and x in ['ode45', 'ode23', 'ode113']`, _ParseProp.py:17. -/
def chkSolver : Val → Bool
  | .str s => decide (s ∈ ["ode45", "ode23", "ode113"])
  | _ => false

/-- `lambda x: isinstance(x, int) or (isinstance(x, float) and x % 1 == 0.)`, _ParseProp.py:20-22
(`bool` is a subclass of `int`; `inf % 1` is NaN). -/
def chkCount : Val → Bool
  | .int _ => true
  | .bool _ => true
  | .float (.fin x) => decide (Int.fract x = 0)
  | _ => false

/-- `__PROP_CHECK_FUNC_LIST`, _ParseProp.py:11-23. -/
def propCheckFuncList : List (Val → Bool) :=
  [chkStr, chkBool, chkTol, chkTol, chkTol, chkSolver, chkBool, chkBool, chkCount, chkCount, chkCount]

/-- Loop body and loop of `parse_prop`, _ParseProp.py:43-54, on the private copy of `args`. -/
def parseLoop (preProp : Dict) : List String → List (Val → Bool) → Dict → List Val → Py (List Val × Dict)
  | [], _, args, acc => .ok (acc, args)
  | name :: names, checks, args, acc => do
    let check ← pyIndex checks 0                                       -- line 45
    let (val, args') ← (match dictGet args name with                   -- lines 46-50
      | some v => .ok (v, dictDel args name)
      | none => do let v ← dictIndex preProp name; .ok (v, args) : Py (Val × Dict))
    if !check val then                                                 -- lines 51-52
      throwErr "wrongInput"
    else
      parseLoop preProp names checks.tail args' (acc ++ [val])         -- line 53

/-- Selection of the names and check functions, _ParseProp.py:28-36. -/
def selectChecks (needed : Option (List String)) : Py (List String × List (Val → Bool)) :=
  match needed with
  | none => .ok (propNameList, propCheckFuncList)
  | some names => do
    let (isThere, indThere) ← isMember names propNameList
    if !(isThere.all id) then throwErr "wrongInput"
    else do
      let checks ← npTake propCheckFuncList indThere
      .ok (names, checks)

/-- `parse_prop(args, needed)`, _ParseProp.py:26-54.  `args` is a dictionary object; the returned
remainder is a new object (`args.copy()`, line 42). -/
def parseProp (s : State) (args : Nat) (needed : Option (List String)) :
    State × Py (List Val × Nat) :=
  match selectChecks needed with
  | .error e => (s, .error e)
  | .ok (names, checks) =>
    match getPropDict s with                                            -- line 38
    | (s1, .error e) => (s1, .error e)
    | (s1, .ok pre) =>
      match s1.dict args, s1.dict pre with
      | some d, some preD =>
        let r := alloc s1 d                                              -- line 42
        match parseLoop preD names checks d [] with
        | .ok (vals, rest) => (update r.1 r.2 (fun _ => rest), .ok (vals, r.2))
        | .error e => (r.1, .error e)
      | _, _ => (s1, .error .attributeError)

/-! ### The configuration API as a transition system -/

/-- One call, or one write by the user into a dictionary object. -/
inductive Op where
  | init
  | set (k : Setter) (v : Val)
  | get (g : Getter)
  | getPropDict
  | getConfRepoMgr
  | setConfRepoMgr (a : Option Nat)
  | parseProp (args : Nat) (needed : Option (List String))
  | newDict (d : Dict)
  | write (a : Nat) (k : String) (v : Val)

/-- State after one operation (results are dropped; exceptions leave the state described above). -/
def step (s : State) : Op → State
  | .init => Config.init s
  | .set k v => (Config.set s k v).1
  | .get _ => s
  | .getPropDict => (Config.getPropDict s).1
  | .getConfRepoMgr => (Config.getConfRepoMgr s).1
  | .setConfRepoMgr a => Config.setConfRepoMgr s a
  | .parseProp a n => (Config.parseProp s a n).1
  | .newDict d => (alloc s d).1
  | .write a k v => update s a (fun d => dictSet d k v)

/-- State after a sequence of operations. -/
def run (s : State) (ops : List Op) : State := ops.foldl step s

end Ellipy.Config
