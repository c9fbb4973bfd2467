import Verif.Base.LinAlg
import Verif.Base.Seq
import Verif.Model.AbsRelCompare

/-! Model of gras/la/la.py in exact arithmetic.

Matrices are `Matrix (Fin m) (Fin n) ℝ`, vectors (1-D arrays) are `Fin n → ℝ`; all entries are finite.
`try_treat_as_real` returns real arguments unchanged, so the calls to it on real data are left out. -/

namespace Ellipy.LA
open Matrix
noncomputable section

/-- A float matrix as an nd-array (row-major). -/
def matArr {m n : ℕ} (Q : Matrix (Fin m) (Fin n) ℝ) : NArr ℝ where
  kind := .f
  shape := [m, n]
  data := List.ofFn (fun k : Fin (m * n) => XF.fin (Q k.divNat k.modNat))
  len := by simp

/-- `is_mat_symm(q_mat, abs_tol)`, gras/la/la.py:37-47. -/
def isMatSymm {m n : ℕ} (Q : Matrix (Fin m) (Fin n) ℝ) (absTol : ℝ) : Py Bool :=
  if m ≠ n then throwErr "wrongInput:nonSquareMat"                           -- lines 42-43
  else
    match absRelCompare (matArr Q) (matArr Qᵀ) (.fin absTol) none (fun x => |x|) with   -- lines 45-46
    | .error e => .error e
    | .ok r => .ok r.isEqual

/-- `is_mat_not_deg(q_mat, abs_tol)`, gras/la/la.py:7-17.  `np.min` of an empty array raises
`ValueError`. -/
def isMatNotDeg (B : Svd) {m n : ℕ} (Q : Matrix (Fin m) (Fin n) ℝ) (absTol : ℝ) : Py Bool :=
  if absTol < 0 then throwErr "wrongInput:abs_tolNegative"
  else if absTol = 0 then .ok true
  else
    match (List.ofFn (B.s Q)).min? with
    | none => .error .pyValueError
    | some minSing => if minSing < absTol then .ok false else .ok true

/-- `is_mat_pos_def(q_mat, abs_tol, is_flag_sem_def_on)`, gras/la/la.py:20-34, on square matrices.  `min` of
an empty array raises `ValueError`. -/
def isMatPosDef (E : Eigh) {n : ℕ} (Q : Matrix (Fin n) (Fin n) ℝ) (absTol : ℝ) (semDef : Bool) : Py Bool :=
  if absTol < 0 then throwErr "wrongInput:abs_tolNegative"
  else
    match isMatSymm Q absTol with
    | .error e => .error e
    | .ok false => throwErr "wrongInput:nonSymmMat"
    | .ok true =>
      match (List.ofFn (E.vals Q)).min? with
      | none => .error .pyValueError
      | some minEig =>
        if semDef then (if minEig < -absTol then .ok false else .ok true)
        else (if minEig ≤ absTol then .ok false else .ok true)

/-- `mat_orth(src_mat)`, gras/la/la.py:50-56: columns whose diagonal entry of `R` is negative are flipped. -/
def matOrth (B : QrC) {m n : ℕ} (A : Matrix (Fin m) (Fin n) ℝ) : Matrix (Fin m) (Fin m) ℝ :=
  of fun i j => if ∃ h : j.val < n, B.R A j ⟨j, h⟩ < 0 then -B.Q A i j else B.Q A i j

/-- `math_orth_col(src_mat)`, gras/la/la.py:59-61 (a slice is cut at the number of columns). -/
def matOrthCol (B : QrC) {m n : ℕ} (A : Matrix (Fin m) (Fin n) ℝ) : Matrix (Fin m) (Fin (min m n)) ℝ :=
  of fun i j => matOrth B A i ⟨j, by omega⟩

/-- gras/la/la.py:80. -/
def translTol : ℝ := 1 / 10 ^ 7

/-- `orth_transl(src_vec, dst_vec)`, gras/la/la.py:79-106. -/
def orthTransl {n : ℕ} (src dst : Fin n → ℝ) : Py (Matrix (Fin n) (Fin n) ℝ) :=
  let dstSq := ∑ i, dst i * dst i                                          -- line 84
  let srcSq := ∑ i, src i * src i                                          -- line 85
  if dstSq = 0 then throwErr "wrongInput:dst_zero"                         -- lines 87-88
  else if srcSq = 0 then throwErr "wrongInput:src_zero"                    -- lines 89-90
  else
    let dst' := fun i => dst i / Real.sqrt dstSq                           -- line 92
    let src' := fun i => src i / Real.sqrt srcSq                           -- line 93
    let c := ∑ i, src' i * dst' i                                          -- line 95
    let s := Real.sqrt (max (1 - c * c) 0)                                 -- line 96
    let q : Matrix (Fin n) (Fin 2) ℝ := of fun i => ![dst' i,              -- lines 97-102
      if translTol < |s| then (src' i - c * dst' i) / s else 0]
    let S : Matrix (Fin 2) (Fin 2) ℝ := !![c - 1, s; -s, c - 1]            -- line 104
    .ok (1 + q * S * qᵀ)                                                   -- line 105

/-- `ml_orth_transl(src_mat, dst_arr)`, gras/la/la.py:64-76, on arrays that have the expected shapes `(n, k)`
and `(n, k, e)`: `o_arr[:, :, i_elem, i_vec]` is `result i_vec i_elem`. -/
def mlOrthTransl {n k e : ℕ} (src : Fin n → Fin k → ℝ) (dst : Fin n → Fin k → Fin e → ℝ) :
    Py (Fin k → Fin e → Matrix (Fin n) (Fin n) ℝ) :=
  pyAll (fun v => pyAll (fun t => orthTransl (fun i => src i v) (fun i => dst i v t)))

/-- gras/la/la.py:111. -/
def hausTol : ℝ := 1 / 10 ^ 14

/-- `orth_transl_haus(src_vec, dst_vec)`, gras/la/la.py:109-124.  There is no test for zero vectors: a zero
vector gives `0/0` everywhere and the result is a matrix of NaNs, `none` here. -/
def orthTranslHaus {n : ℕ} (src dst : Fin n → ℝ) : Option (Matrix (Fin n) (Fin n) ℝ) :=
  let srcN := Real.sqrt (∑ i, src i ^ 2)
  let dstN := Real.sqrt (∑ i, dst i ^ 2)
  if srcN = 0 ∨ dstN = 0 then none
  else
    let w := fun i => src i / srcN - dst i / dstN                          -- lines 112-114
    let wSq := ∑ i, w i ^ 2                                                -- line 117
    let r := if wSq < hausTol then 0 else 2 / wSq                          -- lines 118-121
    some (1 - r • vecMulVec w w)                                           -- line 123

/-- The unit vector `e_vec` of gras/la/la.py:131 and 157. -/
def e0 {k : ℕ} : Fin (k + 1) → ℝ := Fin.cons 1 (fun _ => 0)

/-- Columns `1:` of a matrix. -/
def tailCols {m k : ℕ} (O : Matrix (Fin m) (Fin (k + 1)) ℝ) : Matrix (Fin m) (Fin k) ℝ :=
  of fun i j => O i j.succ

/-- A vector as a one-column matrix, `v.reshape(-1, 1)`. -/
def colMat {k : ℕ} (v : Fin k → ℝ) : Matrix (Fin k) (Fin 1) ℝ := of fun i _ => v i

/-- `np.sign`. -/
def npSign (x : ℝ) : ℝ := if x < 0 then -1 else if 0 < x then 1 else 0

/-- `orth_transl_max_dir(src_vec, dst_vec, src_max_vec, dst_max_vec)`, gras/la/la.py:127-148, on 1-D arrays of
equal length.  In dimension one the code returns an array of shape `(1,)`, a 1×1 matrix here. -/
def orthTranslMaxDir (B : QrC) : {n : ℕ} → (src dst srcMax dstMax : Fin n → ℝ) → Py (Matrix (Fin n) (Fin n) ℝ)
  | k + 2, src, dst, srcMax, dstMax =>
    match orthTransl e0 src with                                           -- line 132
    | .error e => .error e
    | .ok oSrc =>
      match orthTransl e0 dst with                                         -- line 133
      | .error e => .error e
      | .ok oDst =>
        let v0 := tailCols oSrc                                            -- line 135
        let u0 := tailCols oDst                                            -- line 136
        let a := fun i => oSrc i 0                                         -- line 137
        let b := fun i => oDst i 0                                         -- line 138
        let a1 := v0ᵀ *ᵥ srcMax                                            -- line 139
        let b1 := u0ᵀ *ᵥ dstMax                                            -- line 140
        let o1Src := B.Q (colMat a1)                                       -- line 141
        let r1Src := B.R (colMat a1)
        let o1Dst := B.Q (colMat b1)                                       -- line 142
        let r1Dst := B.R (colMat b1)
        let o1Dst' : Matrix (Fin (k + 1)) (Fin (k + 1)) ℝ :=               -- lines 143-144
          if (0 < r1Src 0 0) ≠ (0 < r1Dst 0 0) then of fun i j => if j = 0 then -o1Dst i j else o1Dst i j
          else o1Dst
        .ok (u0 * o1Dst' * o1Srcᵀ * v0ᵀ + vecMulVec b a)                   -- line 145
  | _, src, dst, _, _ => .ok (of fun i j => npSign (src j) * npSign (dst i))   -- line 147

/-- `orth_transl_max_tr(src_vec, dst_vec, max_mat)`, gras/la/la.py:151-171, on 1-D arrays.  For empty arrays `e_vec` has
length one and nothing sensible happens; `IndexError` here. -/
def orthTranslMaxTr (B : Svd) : {n : ℕ} → (src dst : Fin n → ℝ) → (M : Matrix (Fin n) (Fin n) ℝ) →
    Py (Matrix (Fin n) (Fin n) ℝ)
  | 0, _, _, _ => .error .indexError
  | 1, _, _, _ => .ok (of fun _ _ => 1)                                    -- lines 154-155
  | k + 2, src, dst, M =>
    match orthTransl e0 src with                                           -- line 158
    | .error e => .error e
    | .ok oSrc =>
      match orthTransl e0 dst with                                         -- line 159
      | .error e => .error e
      | .ok oDst =>
        let v0 := (tailCols oSrc)ᵀ                                         -- line 161: o_src_mat.T[1:, :]
        let u0 := tailCols oDst                                            -- line 162
        let srcN := fun i => oSrc i 0                                      -- line 164
        let dstN := fun i => oDst i 0                                      -- line 165
        let K : Matrix (Fin (k + 1)) (Fin (k + 1)) ℝ := v0 * M * u0        -- line 167
        let sline := (B.U K * B.Vt K)ᵀ                                     -- lines 168-169
        .ok (u0 * sline * v0 + vecMulVec dstN srcN)                        -- line 170

/-- `orth_transl_qr(src_vec, dst_vec)`, gras/la/la.py:174-208. -/
def orthTranslQr (B : QrR) {n : ℕ} (src dst : Fin n → ℝ) : Py (Matrix (Fin n) (Fin n) ℝ) :=
  let dstSq := ∑ i, dst i * dst i                                        -- line 179
  let srcSq := ∑ i, src i * src i                                        -- line 181
  if dstSq = 0 then throwErr "wrongInput:dst_zero"
  else if srcSq = 0 then throwErr "wrongInput:src_zero"
  else if h : 2 ≤ n then
    let A : Matrix (Fin n) (Fin 2) ℝ := of fun i => ![dst i, src i]      -- line 198: hstack
    let q0 := fun i => B.Q A i ⟨0, by omega⟩
    let q1 := fun i => B.Q A i ⟨1, by omega⟩
    let r00 := B.R A ⟨0, by omega⟩ 0
    let r11 := B.R A ⟨1, by omega⟩ 1
    let c := (∑ i, dst i * src i) / Real.sqrt (dstSq * srcSq)            -- line 199
    let s := -Real.sqrt (1 - c * c)                                      -- line 200
    let s := if r00 * r11 < 0 then -s else s                             -- lines 201-202
    let qs0 := fun i => q0 i * (c - 1) + q1 i * s                        -- line 205
    let qs1 := fun i => -q0 i * s + q1 i * (c - 1)                       -- line 206
    .ok (1 + (vecMulVec qs0 q0 + vecMulVec qs1 q1))                      -- line 207
  else .ok (of fun i j => npSign (src i * dst j))                        -- lines 193-196

/-- `reg_pos_def_mat(inp_mat, reg_tol)`, gras/la/la.py:211-222, for a real scalar tolerance. -/
def regPosDefMat (E : Eig) {n : ℕ} (Q : Matrix (Fin n) (Fin n) ℝ) (regTol : ℝ) : Py (Matrix (Fin n) (Fin n) ℝ) :=
  if ¬ 0 < regTol then throwErr "wrongInput:reg_tol"                       -- lines 212-213
  else
    match isMatSymm Q 0 with                                               -- line 215
    | .error e => .error e
    | .ok false => throwErr "wrongInput:inp_mat"
    | .ok true =>
      let d := E.vals Q
      let V := E.vecs Q
      let M := V * diagonal (fun i => max 0 (regTol - d i)) * Vᵀ           -- lines 218-219
      let R := Q + M                                                       -- line 220
      .ok ((1 / 2 : ℝ) • (R + Rᵀ))                                         -- line 221

/-- `sqrtm_pos(q_mat, abs_tol)`, gras/la/la.py:225-235, on square matrices. -/
def sqrtmPos (E : Eigh) {n : ℕ} (Q : Matrix (Fin n) (Fin n) ℝ) (absTol : ℝ) : Py (Matrix (Fin n) (Fin n) ℝ) :=
  if absTol < 0 then throwErr "wrongInput:abs_tolNegative"
  else
    match isMatSymm Q absTol with
    | .error e => .error e
    | .ok false => throwErr "wrongInput:nonSymmMat"
    | .ok true =>
      let d := E.vals Q
      let V := E.vecs Q
      if ∃ i, d i < -absTol then throwErr "wrongInput:notPosSemDef"        -- lines 231-232
      else
        let d' := fun i => if d i < 0 then 0 else d i                      -- line 233
        .ok (V * diagonal (fun i => Real.sqrt (d' i)) * Vᵀ)                -- lines 234-235

/-- `reg_mat(inp_mat, reg_tol)`, gras/la/la.py:258-265, on square matrices. -/
def regMat (B : Svd) {n : ℕ} (A : Matrix (Fin n) (Fin n) ℝ) (regTol : ℝ) : Py (Matrix (Fin n) (Fin n) ℝ) :=
  if ¬ 0 < regTol then throwErr "wrongInput:reg_tol"
  else .ok (B.U A * diagonal (fun i => max (B.s A ⟨i.val, by omega⟩) regTol) * B.Vt A)

end
end Ellipy.LA
