import Verif.Model.EllHeap
import Verif.Spec.EllCtor

/-! Vocabulary for the theorems about ellipsoid objects. -/

namespace Ellipy.Ell
open Matrix Ellipy.LA

/-- The data of an ellipsoid that the constructor accepts. -/
structure ValidObj (e : EllObj) : Prop where
  props : e.props.ok
  symm : SymmWithin e.Q e.absTol
  eig : ∀ v : Fin e.n → ℝ, -e.absTol * (v ⬝ᵥ v) ≤ v ⬝ᵥ lowerSym e.Q *ᵥ v

/-- The objects that a call is documented to modify. -/
def Call.projects : Call → List ℕ
  | .projection _ _ _ os => os.data
  | _ => []

/-- The columns of `B` divided by their lengths. -/
noncomputable def unitCols {n k : ℕ} (B : Matrix (Fin n) (Fin k) ℝ) : Matrix (Fin n) (Fin k) ℝ :=
  of fun i j => B i j / Real.sqrt (∑ i', B i' j ^ 2)

/-- The projected object: the data in the coordinates of the unit basis, and the same properties. -/
noncomputable def projVal (e : EllObj) {n k : ℕ} (B : Matrix (Fin n) (Fin k) ℝ) (he : e.n = n) : EllObj :=
  ⟨k, (unitCols B)ᵀ *ᵥ (he ▸ e.c), (unitCols B)ᵀ * (he ▸ e.Q) * unitCols B, e.absTol, e.relTol, e.n2d, e.n3d⟩

/-- The reflected object with other properties. -/
def negVal (p : PropVals) (e : EllObj) : EllObj := ⟨e.n, -e.c, e.Q, p.absTol, p.relTol, p.n2d, p.n3d⟩

/-- The memory can be reached from the start of the program by calls. -/
def Reachable (E : Eigh) (h : Heap) : Prop := ∃ p calls, h = run E (emptyHeap p) calls

end Ellipy.Ell
