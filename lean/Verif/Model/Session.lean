import Verif.Model.Config
import Verif.Model.Hyperplane

/-! Model of the constructors of `Ellipsoid` and `Hyperplane` together with the settings they consult, and of a session of the library in which
settings are changed and objects are created in any order. -/

namespace Ellipy.Session
open Ellipy.Config Ellipy.Ell Ellipy.Hyp
noncomputable section

/-- The number a checked property value stands for (`True` is 1); nothing for an infinite tolerance. -/
def numOf : Val → Option ℝ
  | .int i => some i
  | .bool b => some (if b then 1 else 0)
  | .float (.fin q) => some q
  | _ => none

/-- `Ellipsoid(*args, **kwargs)`, elltool/core/ellipsoid/Ellipsoid.py:23-40: the keyword arguments arrive as a new dictionary (a keyword occurs once),
the first four answers of `parse_prop` become the properties, the rest of the dictionary is dropped (line 25).  The answer `none` stands for an
object with an infinite tolerance, which `EllObj` cannot hold (simplification). -/
def ellConstruct (E : LA.Eigh) (s : State) (args : List RawArg) (kw : Dict) : State × Py (Option EllObj) :=
  let r := alloc s kw
  match parseProp r.1 r.2 (some ["abs_tol", "rel_tol", "n_plot_2d_points", "n_plot_3d_points"]) with   -- line 25
  | (s', .error e) => (s', .error e)
  | (s', .ok (vals, _)) =>
    match vals with                                                                                    -- lines 26-29
    | [v0, v1, v2, v3] =>
      match numOf v0, numOf v1, numOf v2, numOf v3 with
      | some x0, some x1, some x2, some x3 =>
        match ellNew E args x0 x1 x2 x3 with                                                           -- lines 30-40
        | .error e => (s', .error e)
        | .ok e => (s', .ok (some e))
      | _, _, _, _ => (s', .ok none)
    | _ => (s', .error .indexError)

/-- `Hyperplane(hyp_norm_vec, hyp_shift, **kwargs)`, elltool/core/hyperplane/Hyperplane.py:22-29; conventions as above. -/
def hypConstruct (s : State) (nrm : RawArg) (shift : ShiftArg) (kw : Dict) : State × Py (Option HypObj) :=
  let r := alloc s kw
  match parseProp r.1 r.2 (some ["abs_tol", "rel_tol"]) with                                           -- line 25
  | (s', .error e) => (s', .error e)
  | (s', .ok (vals, _)) =>
    match vals with                                                                                    -- lines 26-27
    | [v0, v1] =>
      match numOf v0, numOf v1 with
      | some x0, some x1 =>
        match hypNew nrm shift ⟨x0, x1⟩ with                                                           -- lines 28-29
        | .error e => (s', .error e)
        | .ok h => (s', .ok (some h))
      | _, _ => (s', .ok none)
    | _ => (s', .error .indexError)

/-- One step of a session: a call of the settings API (or a write into some dictionary), or the creation of an object. -/
inductive Act where
  | conf (op : Op)
  | ell (args : List RawArg) (kw : Dict)
  | hyp (nrm : RawArg) (shift : ShiftArg) (kw : Dict)

/-- The settings and the objects created so far, oldest first. -/
structure Sess where
  conf : State
  ells : List EllObj
  hyps : List HypObj

/-- One step; a call that raises creates no object. -/
def act (E : LA.Eigh) (s : Sess) : Act → Sess
  | .conf op => { s with conf := Config.step s.conf op }
  | .ell args kw =>
    match ellConstruct E s.conf args kw with
    | (c, .ok (some e)) => { s with conf := c, ells := s.ells ++ [e] }
    | (c, _) => { s with conf := c }
  | .hyp nrm shift kw =>
    match hypConstruct s.conf nrm shift kw with
    | (c, .ok (some h)) => { s with conf := c, hyps := s.hyps ++ [h] }
    | (c, _) => { s with conf := c }

/-- The session after a sequence of steps, from the import of the library. -/
def play (E : LA.Eigh) (acts : List Act) : Sess := acts.foldl (act E) ⟨imported, [], []⟩

end
end Ellipy.Session
