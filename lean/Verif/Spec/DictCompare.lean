import Mathlib.Data.List.Forall2
import Mathlib.Data.String.Basic
import Verif.Model.DictCompare
import Verif.Spec.AbsRelCompare

/-! Specification of structural agreement of nested data (C08–C10). -/

namespace Ellipy
variable {K : Type} [Field K] [LinearOrder K]

/-- The keys of a dictionary. -/
def keys (d : List (String × PyVal K)) : List String := d.map Prod.fst

/-- Two structures agree: same leaf types, leaves close within the tolerances, same keys, same array
shapes, and lists related by `R` (to be instantiated with "equal lengths") whose corresponding
entries agree. -/
inductive Agree (absTol : XF K) (relTol : Option (XF K)) (R : List (PyVal K) → List (PyVal K) → Prop) :
    PyVal K → PyVal K → Prop
  | scal (t a b) : EntryClose absTol relTol a b → Agree absTol relTol R (.scal t a) (.scal t b)
  | str (s) : Agree absTol relTol R (.str s) (.str s)
  | none : Agree absTol relTol R .none .none
  | arr (a b) : a.kind = b.kind → a.shape = b.shape →
      List.Forall₂ (EntryClose absTol relTol) a.data b.data → Agree absTol relTol R (.arr a) (.arr b)
  | list (l l') : R l l' → (∀ (i : Nat) x y, l[i]? = some x → l'[i]? = some y → Agree absTol relTol R x y) →
      Agree absTol relTol R (.list l) (.list l')
  | oarr (l l') : R l l' → (∀ (i : Nat) x y, l[i]? = some x → l'[i]? = some y → Agree absTol relTol R x y) →
      Agree absTol relTol R (.oarr l) (.oarr l')
  | emptyArr (sh ds) : R [] (ds.map .dict) → Agree absTol relTol R (.oarr []) (.darr sh ds)
  | dict (d d') : (∀ k, k ∈ keys d ↔ k ∈ keys d') →
      (∀ k v w, (k, v) ∈ d → (k, w) ∈ d' → Agree absTol relTol R v w) →
      Agree absTol relTol R (.dict d) (.dict d')
  | darr (sh ds ds') : ds.length = ds'.length →
      (∀ (i : Nat) d d', ds[i]? = some d → ds'[i]? = some d' → Agree absTol relTol R (.dict d) (.dict d')) →
      Agree absTol relTol R (.darr sh ds) (.darr sh ds')

/-- "Equal lengths": what a user expects of two lists called equal. -/
def SameLen (l l' : List (PyVal K)) : Prop := l.length = l'.length

/-- "Not longer than". -/
def NotLonger (l l' : List (PyVal K)) : Prop := l.length ≤ l'.length

/-- Well-formed data: dictionaries have distinct keys (listed in increasing order), arrays of
dictionaries are non-empty and match their shape (an empty object array is `oarr []`), entries of other
object arrays are not dictionaries, numeric arrays are numeric. -/
inductive WF : PyVal K → Prop
  | scal (t x) : WF (.scal t x)
  | str (s) : WF (.str s)
  | none : WF .none
  | arr (a) : a.kind ≠ .other → WF (.arr a)
  | list (l) : (∀ x ∈ l, WF x) → WF (.list l)
  | oarr (l) : (∀ x ∈ l, WF x) → (∀ x ∈ l, x.ty ≠ .dict) → WF (.oarr l)
  | dict (d) : (keys d).Pairwise (· < ·) → (∀ p ∈ d, WF p.2) → WF (.dict d)
  | darr (sh ds) : ds ≠ [] → ds.length = sh.prod → (∀ d ∈ ds, WF (.dict d)) → WF (.darr sh ds)

/-- No boolean leaves. -/
inductive NoBool : PyVal K → Prop
  | scal (t x) : t.kind ≠ .b → NoBool (.scal t x)
  | str (s) : NoBool (.str s)
  | none : NoBool .none
  | arr (a) : a.kind ≠ .b → NoBool (.arr a)
  | list (l) : (∀ x ∈ l, NoBool x) → NoBool (.list l)
  | oarr (l) : (∀ x ∈ l, NoBool x) → NoBool (.oarr l)
  | dict (d) : (∀ p ∈ d, NoBool p.2) → NoBool (.dict d)
  | darr (sh ds) : (∀ d ∈ ds, NoBool (.dict d)) → NoBool (.darr sh ds)

/-- Wherever two lists (or two object arrays) stand at the same place in `x` and `y`, they have the
same length. -/
inductive Aligned : PyVal K → PyVal K → Prop
  | list (l l') : l.length = l'.length → (∀ (i : Nat) x y, l[i]? = some x → l'[i]? = some y → Aligned x y) →
      Aligned (.list l) (.list l')
  | oarr (l l') : l.length = l'.length → (∀ (i : Nat) x y, l[i]? = some x → l'[i]? = some y → Aligned x y) →
      Aligned (.oarr l) (.oarr l')
  | dict (d d') : (∀ k v w, (k, v) ∈ d → (k, w) ∈ d' → Aligned v w) → Aligned (.dict d) (.dict d')
  | darr (sh sh' ds ds') : (∀ (i : Nat) d d', ds[i]? = some d → ds'[i]? = some d' → Aligned (.dict d) (.dict d')) →
      Aligned (.darr sh ds) (.darr sh' ds')
  | leaf (x y) : (∀ l, x ≠ .list l) → (∀ l, x ≠ .oarr l) → (∀ d, x ≠ .dict d) → (∀ sh ds, x ≠ .darr sh ds) →
      Aligned x y
  | types (x y) : x.ty ≠ y.ty → Aligned x y

/-- The dictionaries handed to `dict_compare` in one argument: a single one, a list of them or an
object array of them. -/
def entries : PyVal K → List (PyVal K)
  | .dict d => [.dict d]
  | .list l => l
  | .darr _ ds => ds.map .dict
  | _ => []

/-- The shape of an argument of `dict_compare`; a single dictionary counts as a vector of length one. -/
def entriesShape : PyVal K → List Nat
  | .dict _ => [1]
  | .list l => [l.length]
  | .darr sh _ => sh
  | .oarr l => [l.length]
  | .arr a => a.shape
  | _ => []

/-- A proper argument of `dict_compare`: at least one dictionary and nothing but dictionaries. -/
def Comparable (x : PyVal K) : Prop := entries x ≠ [] ∧ ∀ e ∈ entries x, e.ty = .dict

end Ellipy
