import Mathlib.Algebra.BigOperators.Group.Finset.Basic
import Mathlib.Algebra.Order.Field.Basic
import Mathlib.Algebra.Order.Group.Unbundled.Abs
import Mathlib.Data.Fin.Tuple.Sort
import Mathlib.Data.Fintype.BigOperators
import Verif.Base.Py

/-! Model of `sort_rows_tol`, gras/gen/gen.py:21-49.

A matrix with `n` rows and `m` columns is a function; index arrays that are permutations are
`Equiv.Perm`.  `np.argsort` uses an unstable sort, so it is an arbitrary function with the contract
`IsArgsort`; `np.lexsort` is a sequence of stable sorts and is modelled exactly. -/

namespace Ellipy.SortRows
variable {K : Type} [Field K] [LinearOrder K]

/-- Contract of `np.argsort` on the vectors of length `n`: the result indexes the vector in increasing order. -/
def IsArgsort {n : Nat} {α : Type} [Preorder α] (argsort : (Fin n → α) → Equiv.Perm (Fin n)) : Prop :=
  ∀ v, Monotone (v ∘ argsort v)

/-- `np.diff(v)`. -/
def npDiff {n : Nat} (v : Fin (n + 1) → K) : Fin n → K := fun i => v i.succ - v i.castSucc

/-- `np.cumsum(v)`. -/
def cumsum {n : Nat} (v : Fin n → K) : Fin n → K := fun k => ∑ i ∈ Finset.univ.filter (· ≤ k), v i

/-- One pass of the loop, gras/gen/gen.py:33-40: the new column. -/
def clusterCol {n : Nat} (argsortF : (Fin (n + 1) → K) → Equiv.Perm (Fin (n + 1)))
    (argsortI : (Fin (n + 1) → Fin (n + 1)) → Equiv.Perm (Fin (n + 1))) (tol : K) (col : Fin (n + 1) → K) :
    Fin (n + 1) → K :=
  let indSort := argsortF col                                              -- line 33
  let colVec := fun k => col (indSort k)                                   -- line 34
  let diff := npDiff colVec                                                -- line 35
  let diff' := fun k => if |diff k| ≤ tol then 0 else diff k               -- lines 36-37
  let colVec' := cumsum (Fin.cons (colVec 0) diff' : Fin (n + 1) → K)      -- line 38
  let indRev := argsortI indSort                                           -- line 39
  fun r => colVec' (indRev r)                                              -- line 40

/-- `np.lexsort(keys)`: one stable sort after the other, the last key being the primary one.
`Tuple.sort` is the stable sorting permutation. -/
def lexsort {n : Nat} (keys : List (Fin n → K)) : Equiv.Perm (Fin n) :=
  keys.foldl (fun ind key => ind * Tuple.sort (key ∘ ind)) 1

/-- The result of `sort_rows_tol`. -/
structure Result (K : Type) (n m : Nat) where
  res : Fin n → Fin m → K
  ind : Equiv.Perm (Fin n)
  rev : Equiv.Perm (Fin n)

/-- `sort_rows_tol(inp_mat, tol)`, gras/gen/gen.py:21-49.  The check on line 24 is a matter of types
here.  `np.lexsort` without keys (a matrix without columns) raises `TypeError`. -/
def sortRowsTol {m : Nat} : {n : Nat} → (argsortF : (Fin n → K) → Equiv.Perm (Fin n)) →
    (argsortI : (Fin n → Fin n) → Equiv.Perm (Fin n)) → (inp : Fin n → Fin m → K) → (tol : K) →
    Py (Result K n m)
  | 0, _, argsortI, inp, tol =>
    if tol < 0 then throwErr "wrongInput:tol"
    else .ok ⟨inp, 1, argsortI id⟩                                         -- lines 45-46, 48
  | n + 1, argsortF, argsortI, inp, tol =>
    if tol < 0 then throwErr "wrongInput:tol"                              -- lines 22-23
    else
      let copy := fun r c => clusterCol argsortF argsortI tol (fun r => inp r c) r   -- lines 32-40
      if m = 0 then .error .typeError
      else
        let ind : Equiv.Perm (Fin (n + 1)) := lexsort ((List.finRange m).reverse.map (fun c r => copy r c))  -- line 42: fliplr, transpose
        .ok ⟨fun r => inp (ind r), ind, argsortI ind⟩                     -- lines 43, 48

end Ellipy.SortRows
