import Verif.Model.Minksum
import Verif.Model.Core

/-! Model of `is_bigger` of `Ellipsoid`. -/

namespace Ellipy.Ell
open Matrix Ellipy.LA Ellipy.Core
noncomputable section

/-- The distance of 1 to the next float64. -/
def eps64 : ℝ := 1 / 2 ^ 52

/-- The singular values of a square matrix. -/
def singVals (S : Svd) {n : ℕ} (Q : Matrix (Fin n) (Fin n) ℝ) : Fin n → ℝ := fun i => S.s Q ⟨i.val, by omega⟩

/-- `np.linalg.matrix_rank(Q)` of a square matrix: the number of singular values above the largest one times `n` times the machine
epsilon.  For a matrix without entries the maximum of the singular values raises. -/
def matRank (S : Svd) {n : ℕ} (Q : Matrix (Fin n) (Fin n) ℝ) : Py ℕ :=
  open Classical in
  if h : n = 0 then .error .pyValueError
  else
    .ok (Finset.univ.filter (fun i => singVals S Q ⟨0, by omega⟩ * n * eps64 < singVals S Q i)).card

/-- `self.is_bigger(sec_ell)`, elltool/core/ellipsoid/Ellipsoid.py:388-408, for an array of ellipsoids as the second argument. -/
def isBigger (E : Eigh) (G : Eig) (S : Svd) (L : Lstsq) (e : EllObj) (sec : Arr EllObj) : Py Bool :=
  open Classical in
  match sec.data with
  | [f] =>
    match matRank S e.Q with                                                              -- line 393
    | .error x => .error x
    | .ok re =>
      match matRank S f.Q with
      | .error x => .error x
      | .ok rf =>
        if e.n ≠ f.n then throwErr "wrongInput"                                           -- lines 394-395
        else if re < rf then .ok false                                                    -- lines 396-397
        else
          match regShape E G e.n e with                                                   -- lines 398-405
          | .error x => .error x
          | .ok R =>
            match ellSimDiag E S L R (shapeAs e.n f) (min e.absTol f.absTol) with         -- lines 406-407
            | .error x => .error x
            | .ok T => .ok (decide (∀ i, |(T * shapeAs e.n f * Tᵀ) i i| < 1 + e.absTol))  -- line 408
  | _ => throwErr "wrongInput:ell_arr"                                                    -- line 391

end
end Ellipy.Ell
