import Mathlib.Logic.Relation
import Verif.Model.SortRows

/-! Specification of the order up to a tolerance (C13, C14).  Nothing here mentions sorting. -/

namespace Ellipy.SortRows
variable {K : Type} [Field K] [LinearOrder K] {n m : Nat}

/-- Two rows are linked in a column when a chain of rows connects them whose neighbouring values differ by at most
`tol`. -/
def Linked (tol : K) (col : Fin n → K) : Fin n → Fin n → Prop :=
  Relation.ReflTransGen (fun i j => |col i - col j| ≤ tol)

/-- Row `i` lies in an earlier cluster of the column than row `j`. -/
def ClusterLt (tol : K) (col : Fin n → K) (i j : Fin n) : Prop := col i < col j ∧ ¬ Linked tol col i j

/-- Row `i` has to come before row `j`: lexicographically earlier up to clusters, or in the same clusters everywhere
and earlier in the input. -/
def RowBefore (tol : K) (X : Fin n → Fin m → K) (i j : Fin n) : Prop :=
  (∃ c, (∀ c' < c, Linked tol (fun r => X r c') i j) ∧ ClusterLt tol (fun r => X r c) i j) ∨
  ((∀ c, Linked tol (fun r => X r c) i j) ∧ i < j)

end Ellipy.SortRows
