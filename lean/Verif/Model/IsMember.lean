import Mathlib.Data.List.Dedup
import Mathlib.Data.List.Sort
import Mathlib.Order.Defs.LinearOrder
import Verif.Base.Py

/-!  Model of `is_member`, gen/common/common.py:79-87, and of the numpy set routines it calls. -/

namespace Ellipy

variable {α : Type _} [LinearOrder α]

/-- `np.unique(l)`: the distinct values in increasing order (numpy documentation). -/
def npUnique (l : List α) : List α := l.dedup.mergeSort (fun a b => decide (a ≤ b))

/-- `np.unique(l, return_index=True)[1]`: for each distinct value its first position in `l`. -/
def npUniqueIndex (l : List α) : List Nat := (npUnique l).map (fun u => l.idxOf u)

/-- `np.unique(l, return_inverse=True)[1]`: for each entry its position among the distinct values. -/
def npUniqueInverse (l : List α) : List Nat := l.map (fun x => (npUnique l).idxOf x)

/-- `np.isin(a, b)`. -/
def npIsin (a b : List α) : List Bool := a.map (fun x => decide (x ∈ b))

/-- Boolean-mask indexing `l[mask]` for a mask of the same length. -/
def npMask {β : Type _} (l : List β) (mask : List Bool) : List β :=
  ((l.zip mask).filter (fun p => p.2)).map Prod.fst

/-- Integer-array indexing `l[ind]`: raises `IndexError` when an index is out of range. -/
def npTake {β : Type _} (l : List β) (ind : List Nat) : Py (List β) := ind.mapM (pyIndex l)

/-- `is_member(a_vec, b_vec)`, gen/common/common.py:79-87 (1-D input; the conversion of a list to an
array on lines 80-81 does not change the sequence of values). -/
def isMember (aVec bVec : List α) : Py (List Bool × List Nat) := do
  let boolIndVec := npIsin aVec bVec                       -- line 82
  let commonVec := npMask aVec boolIndVec                  -- line 83
  let commonUniqueVec := npUnique commonVec                -- line 84
  let commonInvVec := npUniqueInverse commonVec            -- line 84
  let bUniqueVec := npUnique bVec                          -- line 85
  let bIndVec := npUniqueIndex bVec                        -- line 85
  let commonIndVec := npMask bIndVec (npIsin bUniqueVec commonUniqueVec)   -- line 86
  let res ← npTake commonIndVec commonInvVec               -- line 87
  return (boolIndVec, res)

end Ellipy
