import Verif.Base.Lstsq
import Verif.Model.La

/-! Model of `ell_sim_diag` and `ell_valign`, elltool/core/core.py, in exact arithmetic on real finite arrays (for which
`is_numeric` is true). -/

namespace Ellipy.Core
open Matrix Ellipy.LA
noncomputable section

/-- `ell_sim_diag(a_mat, b_mat, abs_tol)`, elltool/core/core.py:12-25, for a square first argument (`is_mat_pos_def` raises on any
other).  `svd` and `sqrtm_pos` do not raise. -/
def ellSimDiag (E : Eigh) (S : Svd) (L : Lstsq) {n m k : ℕ} (A : Matrix (Fin n) (Fin n) ℝ) (B : Matrix (Fin m) (Fin k) ℝ)
    (absTol : ℝ) : Py (Matrix (Fin n) (Fin n) ℝ) :=
  match isMatPosDef E A absTol false with                                      -- lines 15-16
  | .error e => .error e
  | .ok false => throwErr "wrongInput:a_mat"
  | .ok true =>
    match isMatSymm B 0 with                                                   -- lines 17-18
    | .error e => .error e
    | .ok false => throwErr "wrongInput:b_mat"
    | .ok true =>
      if h : n = m ∧ n = k then                                                -- lines 19-20 (m = k by now)
        let B' : Matrix (Fin n) (Fin n) ℝ := B.submatrix (Fin.cast h.1) (Fin.cast h.2)
        let u1 := S.U A                                                        -- line 22
        let s : Fin n → ℝ := fun i => S.s A ⟨i.val, by omega⟩
        match sqrtmPos E (diagonal s) absTol with                              -- line 23
        | .error e => .error e
        | .ok r =>
          let u := (L.sol rᵀ u1ᵀ)ᵀ
          let u2 := S.U (uᵀ * B' * u)                                          -- line 24
          .ok (u2ᵀ * uᵀ)                                                       -- line 25
      else throwErr "wrongInput"

/-- A numpy array of any shape that holds `n` numbers. -/
structure VecArr (n : ℕ) where
  shape : List ℕ
  prod : shape.prod = n
  data : Fin n → ℝ

/-- The shape after `np.squeeze`. -/
def squeeze (shape : List ℕ) : List ℕ := shape.filter (· ≠ 1)

/-- The test `v.size != max(v.shape)`, elltool/core/core.py:47-50; `max` of an empty tuple raises. -/
def vecCheck (tag : String) {n : ℕ} (v : VecArr n) : Py Unit :=
  match v.shape.max? with
  | none => .error .pyValueError
  | some k => if n ≠ k then throwErr tag else .ok ()

/-- `ell_valign(v, x)`, elltool/core/core.py:43-73, on non-empty arrays.  The branches for arrays without axes (lines 52-53,
57-58) cannot be reached because `max(())` raises before.  `squeeze` turns an array of size one into one without axes,
whose `shape[0]` raises. -/
def ellValign (S : Svd) {n m : ℕ} (v : VecArr n) (x : VecArr m) : Py (Matrix (Fin n) (Fin n) ℝ) :=
  match vecCheck "wrongInput:v" v with
  | .error e => .error e
  | .ok _ =>
    match vecCheck "wrongInput:x" x with
    | .error e => .error e
    | .ok _ =>
      match pyIndex (squeeze v.shape) 0 with
      | .error e => .error e
      | .ok p =>
        match pyIndex (squeeze x.shape) 0 with
        | .error e => .error e
        | .ok q =>
          if p ≠ q then throwErr "wrongInput:v,x"
          else if h : n = m then
            let vc := colMat v.data                                              -- line 65
            let xc := colMat (fun i => x.data (Fin.cast h i))                    -- line 66
            let v1 := S.Vt vc 0 0
            let v2 := S.Vt xc 0 0
            .ok ((v1 * v2) • (S.U vc * (S.U xc)ᵀ))                               -- line 71
          else .error .pyValueError                                              -- not reached: p = n and q = m

end
end Ellipy.Core
