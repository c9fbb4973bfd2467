import Verif.Spec.DictCompare

/-! Exact description of the positive verdict of `dict_compare` (property C117). -/

namespace Ellipy
variable {K : Type} [Field K] [LinearOrder K]

/-- `x` passes the comparison with `y`: leaves of one type, no booleans, numbers close; equal strings; the same keys; the same array shapes; a list is at most
as long as its counterpart (and of the same numpy kind `lk`) and its elements pass. -/
inductive Passes (absTol : XF K) (relTol : Option (XF K)) (lk : List (PyVal K) → Kind) : PyVal K → PyVal K → Prop
  | scal (t a b) : t ≠ .pyBool → t ≠ .npBool → EntryClose absTol relTol a b → Passes absTol relTol lk (.scal t a) (.scal t b)
  | str (s) : Passes absTol relTol lk (.str s) (.str s)
  | none : Passes absTol relTol lk .none .none
  | arr (a b) : a.kind ≠ .b → a.kind = b.kind → a.shape = b.shape →
      List.Forall₂ (EntryClose absTol relTol) a.data b.data → Passes absTol relTol lk (.arr a) (.arr b)
  | list (l l') : lk l = lk l' → l.length ≤ l'.length →
      (∀ (i : Nat) x y, l[i]? = some x → l'[i]? = some y → Passes absTol relTol lk x y) → Passes absTol relTol lk (.list l) (.list l')
  | oarr (l l') : l.length ≤ l'.length →
      (∀ (i : Nat) x y, l[i]? = some x → l'[i]? = some y → Passes absTol relTol lk x y) → Passes absTol relTol lk (.oarr l) (.oarr l')
  | emptyArr (sh ds) : Passes absTol relTol lk (.oarr []) (.darr sh ds)
  | dict (d d') : (∀ k, k ∈ keys d ↔ k ∈ keys d') →
      (∀ k v w, (k, v) ∈ d → (k, w) ∈ d' → Passes absTol relTol lk v w) → Passes absTol relTol lk (.dict d) (.dict d')
  | darr (sh ds ds') : ds.length = ds'.length →
      (∀ (i : Nat) d d', ds[i]? = some d → ds'[i]? = some d' → Passes absTol relTol lk (.dict d) (.dict d')) →
      Passes absTol relTol lk (.darr sh ds) (.darr sh ds')

end Ellipy
