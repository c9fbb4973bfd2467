import Verif.Proofs.TranslOpt

/-! Property theorems C26 (`orth_transl_max_tr`), C27 (`orth_transl_max_dir`), C28 (`mat_orth`). -/

namespace Ellipy.LA
open Matrix

/-! ### C26 -/

/-- **C26** in dimension at least two, for directions for which `orth_transl(e, ·)` is exact (see C24): the result is feasible
and no feasible matrix has a larger trace.  Missing for the full property: dimension one (`C26_violated`) and directions
within `10⁻⁷` of the first coordinate axis without being on it. -/
theorem C26_partial (B : Svd) {k : ℕ} (src dst : Fin (k + 2) → ℝ) (M : Matrix (Fin (k + 2)) (Fin (k + 2)) ℝ)
    (hs : src ≠ 0) (hd : dst ≠ 0) (hsA : Apart axis0 src) (hdA : Apart axis0 dst) :
    ∃ O, orthTranslMaxTr B src dst M = .ok O ∧ Feasible O src dst ∧
      ∀ O', Feasible O' src dst → trace (O' * M) ≤ trace (O * M) := by
  simp only [axis0_eq] at *
  obtain ⟨R, hR1, hR, hRc⟩ := orthTransl_e0 hs hsA
  obtain ⟨P, hP1, hP, hPc⟩ := orthTransl_e0 hd hdA
  set u := tailCols P with hu
  set v := tailCols R with hv
  let K : Matrix (Fin (k + 1)) (Fin (k + 1)) ℝ := vᵀ * M * u
  have hU : IsOrth (B.U K) := orth_comm (B.U_orth K)
  have hV : IsOrth (B.Vt K) := B.Vt_orth K
  let W := (B.U K * B.Vt K)ᵀ
  have hW : IsOrth W := (hU.mul hV).transpose
  let O := u * W * vᵀ + vecMulVec (col0 P) (col0 R)
  have hO : orthTranslMaxTr B src dst M = .ok O := by
    simp only [orthTranslMaxTr, hR1, hP1]
    rfl
  have hfeas := feasible_of_orth hP hR hW
  have htr : ∀ X : Matrix (Fin (k + 1)) (Fin (k + 1)) ℝ,
      trace ((u * X * vᵀ + vecMulVec (col0 P) (col0 R)) * M) = trace (X * K) + trace (vecMulVec (col0 P) (col0 R) * M) := by
    intro X
    rw [Matrix.add_mul, trace_add]
    congr 1
    rw [show u * X * vᵀ * M = u * (X * (vᵀ * M)) by simp only [Matrix.mul_assoc], trace_mul_comm]
    simp only [K, Matrix.mul_assoc]
  have hK : K = B.U K * diagonal (fun i => B.s K ⟨i.val, by omega⟩) * B.Vt K := by
    conv_lhs => rw [B.spec K]
    rw [show (sigma (B.s K) : Matrix (Fin (k + 1)) (Fin (k + 1)) ℝ) = diagonal (fun i => B.s K ⟨i.val, by omega⟩) from by
      ext i j
      rw [sigma, diagonal_apply]
      by_cases h : i = j
      · subst h; simp
      · rw [if_neg h, dif_neg (fun h' => h (Fin.ext h'))]]
  have hWK : trace (W * K) = ∑ i, B.s K ⟨(i : Fin (k + 1)).val, by omega⟩ := by
    have : W * K = (B.Vt K)ᵀ * (diagonal (fun i => B.s K ⟨i.val, by omega⟩) * B.Vt K) := by
      have : W * K = W * (B.U K * diagonal (fun i => B.s K ⟨i.val, by omega⟩) * B.Vt K) := congrArg (W * ·) hK
      rw [this]
      simp only [W]
      rw [transpose_mul]
      calc (B.Vt K)ᵀ * (B.U K)ᵀ * (B.U K * diagonal (fun i => B.s K ⟨i.val, by omega⟩) * B.Vt K)
          = (B.Vt K)ᵀ * (((B.U K)ᵀ * B.U K) * (diagonal (fun i => B.s K ⟨i.val, by omega⟩) * B.Vt K)) := by
            simp only [Matrix.mul_assoc]
        _ = _ := by rw [B.U_orth, Matrix.one_mul]
    rw [this, trace_mul_comm, Matrix.mul_assoc, B.Vt_orth, Matrix.mul_one, trace_diagonal]
  refine ⟨O, hO, ⟨hfeas.1, ?_⟩, ?_⟩
  · rw [Carries, ← hRc, ← hPc]; exact hfeas.2
  · rintro O' ⟨hO', hc'⟩
    rw [Carries, ← hRc, ← hPc] at hc'
    obtain ⟨W', hW', rfl⟩ := feasible_decomp hP hR hO' hc'
    rw [htr, htr, hWK]
    have := trace_orth_le hW' hU hV (s := fun i => B.s K ⟨i.val, by omega⟩) (fun i => B.s_nonneg K _)
    rw [← hK] at this
    linarith

/-- In dimension one the answer `1` does not carry a vector to an opposite one. -/
theorem C26_violated (B : Svd) : ∃ (src dst : Fin 1 → ℝ) (M O : Matrix (Fin 1) (Fin 1) ℝ), src ≠ 0 ∧ dst ≠ 0 ∧
    orthTranslMaxTr B src dst M = .ok O ∧ ¬ Feasible O src dst := by
  refine ⟨fun _ => 1, fun _ => -1, 0, of fun _ _ => 1, ?_, ?_, rfl, ?_⟩
  · intro h; have := congrFun h 0; simp at this
  · intro h; have := congrFun h 0; simp at this
  · rintro ⟨_, h⟩
    rw [Carries, dir_one, dir_one] at h
    have := congrFun h 0
    simp [mulVec, dotProduct, npSign] at this
    norm_num at this

/-- Zero vectors are rejected in dimension at least two. -/
theorem C26_raises_iff (B : Svd) {k : ℕ} (src dst : Fin (k + 2) → ℝ) (M : Matrix (Fin (k + 2)) (Fin (k + 2)) ℝ) :
    Raises (orthTranslMaxTr B src dst M) ↔ src = 0 ∨ dst = 0 := by
  by_cases hs : src = 0
  · obtain ⟨e, he⟩ := (C24_raises_iff e0 src).mpr (Or.inr hs)
    exact iff_of_true ⟨e, by simp only [orthTranslMaxTr, he]⟩ (Or.inl hs)
  by_cases hd : dst = 0
  · obtain ⟨e, he⟩ := (C24_raises_iff e0 dst).mpr (Or.inr hd)
    have h1 := orthTransl_eq (src := e0) (dst := src) e0_ne hs
    exact iff_of_true ⟨e, by simp only [orthTranslMaxTr, h1, he]⟩ (Or.inr hd)
  · have h1 := orthTransl_eq (src := e0) (dst := src) e0_ne hs
    have h2 := orthTransl_eq (src := e0) (dst := dst) e0_ne hd
    exact iff_of_false (by rintro ⟨e, he⟩; simp [orthTranslMaxTr, h1, h2] at he) (by push Not; exact ⟨hs, hd⟩)

theorem apart_e0_self {k : ℕ} : Apart (e0 : Fin (k + 1) → ℝ) e0 := by
  left
  rw [sinSq, dir_dot e0_ne]; norm_num

/-- The second coordinate vector of the three-dimensional space, an instance off the axis. -/
def ey : Fin 3 → ℝ := ![0, 1, 0]

theorem ey_ne : ey ≠ 0 := by
  intro h; have := congrFun h 1; simp [ey] at this

theorem apart_e0_ey : Apart e0 ey := by
  right
  have h0 : (dir (e0 : Fin 3 → ℝ)) ⬝ᵥ dir ey = 0 := by
    simp only [dir, smul_dotProduct, dotProduct_smul]
    have : (e0 : Fin 3 → ℝ) ⬝ᵥ ey = 0 := by
      rw [dotProduct, Fin.sum_univ_three]; simp [e0, ey]
    rw [this]; simp
  rw [sinSq, h0]; norm_num

/-- Carry the second axis to the first, maximising the trace against an asymmetric matrix. -/
example (B : Svd) : ∃ O, orthTranslMaxTr B ey e0 !![1, 2, 3; 4, 5, 6; 7, 8, 10] = .ok O ∧ Feasible O ey e0 ∧
    ∀ O' : Matrix (Fin 3) (Fin 3) ℝ, Feasible O' ey e0 →
      trace (O' * !![1, 2, 3; 4, 5, 6; 7, 8, 10]) ≤ trace (O * !![1, 2, 3; 4, 5, 6; 7, 8, 10]) :=
  C26_partial B _ _ _ ey_ne e0_ne (by rw [axis0_eq]; exact apart_e0_ey) (by rw [axis0_eq]; exact apart_e0_self)

/-! ### C27 -/

/-- Flipping the first column keeps a matrix orthogonal. -/
theorem isOrth_flip {k : ℕ} {O : Matrix (Fin (k + 1)) (Fin (k + 1)) ℝ} (hO : IsOrth O) :
    IsOrth (of fun i j => if j = 0 then -O i j else O i j) := by
  ext i j
  have h := congrFun (congrFun hO i) j
  rw [mul_apply] at h ⊢
  rw [← h]
  refine Finset.sum_congr rfl (fun x _ => ?_)
  simp only [of_apply, transpose_apply]
  split_ifs <;> ring

private theorem qr_col (B : QrC) {k : ℕ} (a : Fin (k + 1) → ℝ) :
    (B.Q (colMat a))ᵀ *ᵥ a = B.R (colMat a) 0 0 • e0 := by
  have h1 : a = B.Q (colMat a) *ᵥ (fun i => B.R (colMat a) i 0) := by
    funext i
    have h := congrFun (congrFun (B.spec (colMat a)) i) 0
    exact h
  have h2 : (fun i => B.R (colMat a) i 0) = B.R (colMat a) 0 0 • e0 := by
    funext i
    refine Fin.cases ?_ ?_ i
    · simp [e0]
    · intro j
      have := B.upper (colMat a) j.succ 0 (by simp)
      simp [e0, this]
  conv_lhs => rw [h1]
  rw [mulVec_mulVec, ← h1, B.orth, one_mulVec, h2]

/-- **C27** in dimension at least two, for directions for which `orth_transl(e, ·)` is exact (see C24): the result is feasible and
no feasible matrix gives a larger product.  Missing for the full property: directions within `10⁻⁷` of the first coordinate axis
without being on it. -/
theorem C27_partial (B : QrC) {k : ℕ} (src dst srcMax dstMax : Fin (k + 2) → ℝ)
    (hs : src ≠ 0) (hd : dst ≠ 0) (hsA : Apart axis0 src) (hdA : Apart axis0 dst) :
    ∃ O, orthTranslMaxDir B src dst srcMax dstMax = .ok O ∧ Feasible O src dst ∧
      ∀ O', Feasible O' src dst → dstMax ⬝ᵥ O' *ᵥ srcMax ≤ dstMax ⬝ᵥ O *ᵥ srcMax := by
  simp only [axis0_eq] at *
  obtain ⟨R, hR1, hR, hRc⟩ := orthTransl_e0 hs hsA
  obtain ⟨P, hP1, hP, hPc⟩ := orthTransl_e0 hd hdA
  set u := tailCols P with hu
  set v := tailCols R with hv
  set a1 := vᵀ *ᵥ srcMax with ha1
  set b1 := uᵀ *ᵥ dstMax with hb1
  let rS := B.R (colMat a1) 0 0
  let rD := B.R (colMat b1) 0 0
  have hQS : IsOrth (B.Q (colMat a1)) := orth_comm (B.orth _)
  have hQD : IsOrth (B.Q (colMat b1)) := orth_comm (B.orth _)
  let D : Matrix (Fin (k + 1)) (Fin (k + 1)) ℝ :=
    if (0 < rS) ≠ (0 < rD) then of fun i j => if j = 0 then -B.Q (colMat b1) i j else B.Q (colMat b1) i j
    else B.Q (colMat b1)
  have hD : IsOrth D := by
    simp only [D]
    split_ifs
    · exact isOrth_flip hQD
    · exact hQD
  let W := D * (B.Q (colMat a1))ᵀ
  have hW : IsOrth W := hD.mul hQS.transpose
  have hO : orthTranslMaxDir B src dst srcMax dstMax = .ok (u * W * vᵀ + vecMulVec (col0 P) (col0 R)) := by
    simp only [orthTranslMaxDir, hR1, hP1]
    show Except.ok _ = Except.ok _
    congr 1
    simp only [W, Matrix.mul_assoc]
    rfl
  have hfeas := feasible_of_orth hP hR hW
  have hval : ∀ X : Matrix (Fin (k + 1)) (Fin (k + 1)) ℝ,
      dstMax ⬝ᵥ (u * X * vᵀ + vecMulVec (col0 P) (col0 R)) *ᵥ srcMax =
        b1 ⬝ᵥ X *ᵥ a1 + dstMax ⬝ᵥ vecMulVec (col0 P) (col0 R) *ᵥ srcMax := by
    intro X
    rw [add_mulVec, dotProduct_add]
    congr 1
    rw [← mulVec_mulVec, ← mulVec_mulVec, dotProduct_mulVec, ← mulVec_transpose]
  -- lengths of the two residual vectors
  have hna : a1 ⬝ᵥ a1 = rS ^ 2 := by
    have h := dot_orth (V := (B.Q (colMat a1))ᵀ) (by rw [transpose_transpose]; exact hQS) a1 a1
    rw [← h, qr_col, dotProduct_smul, smul_dotProduct]
    have : (e0 : Fin (k + 1) → ℝ) ⬝ᵥ e0 = 1 := by rw [← dir_e0, dir_dot e0_ne]
    rw [this]; simp [rS, sq]
  have hnb : b1 ⬝ᵥ b1 = rD ^ 2 := by
    have h := dot_orth (V := (B.Q (colMat b1))ᵀ) (by rw [transpose_transpose]; exact hQD) b1 b1
    rw [← h, qr_col, dotProduct_smul, smul_dotProduct]
    have : (e0 : Fin (k + 1) → ℝ) ⬝ᵥ e0 = 1 := by rw [← dir_e0, dir_dot e0_ne]
    rw [this]; simp [rD, sq]
  have hopt : b1 ⬝ᵥ W *ᵥ a1 = |rD| * |rS| := by
    simp only [W]
    rw [← mulVec_mulVec, qr_col, dotProduct_mulVec, ← mulVec_transpose]
    have hDb : (Dᵀ *ᵥ b1) ⬝ᵥ e0 = if (0 < rS) ≠ (0 < rD) then -rD else rD := by
      have hq : ((B.Q (colMat b1))ᵀ *ᵥ b1) 0 = rD := by
        rw [qr_col]; simp [e0, rD]
      have h0 : ∀ x : Fin (k + 1) → ℝ, x ⬝ᵥ e0 = x 0 := by
        intro x
        rw [dotProduct, Fin.sum_univ_succ]; simp [e0]
      rw [h0]
      simp only [D]
      split_ifs
      · rw [← hq]
        simp only [mulVec, dotProduct, transpose_apply, of_apply, if_true, neg_mul, Finset.sum_neg_distrib]
      · exact hq
    rw [dotProduct_smul, hDb, smul_eq_mul]
    show rS * _ = _
    by_cases h1 : 0 < rS <;> by_cases h2 : 0 < rD
    · rw [if_neg (by simp [h1, h2]), abs_of_pos h1, abs_of_pos h2]; ring
    · rw [if_pos (by simp [h1, h2]), abs_of_pos h1, abs_of_nonpos (not_lt.mp h2)]; ring
    · rw [if_pos (by simp [h1, h2]), abs_of_nonpos (not_lt.mp h1), abs_of_pos h2]; ring
    · rw [if_neg (by simp [h1, h2]), abs_of_nonpos (not_lt.mp h1), abs_of_nonpos (not_lt.mp h2)]; ring
  refine ⟨_, hO, ⟨hfeas.1, ?_⟩, ?_⟩
  · rw [Carries, ← hRc, ← hPc]; exact hfeas.2
  · rintro O' ⟨hO', hc'⟩
    rw [Carries, ← hRc, ← hPc] at hc'
    obtain ⟨W', hW', rfl⟩ := feasible_decomp hP hR hO' hc'
    rw [hval, hval, hopt]
    have h1 := dot_sq_le_mul b1 (W' *ᵥ a1)
    rw [dot_orth hW'.left, hna, hnb, ← sq_abs rD, ← sq_abs rS, ← mul_pow] at h1
    have h2 := abs_le_of_sq_le_sq h1 (by positivity)
    have := le_abs_self (b1 ⬝ᵥ W' *ᵥ a1)
    linarith

/-- Zero vectors are rejected in dimension at least two. -/
theorem C27_raises_iff (B : QrC) {k : ℕ} (src dst : Fin (k + 2) → ℝ) (sm dm : Fin (k + 2) → ℝ) :
    Raises (orthTranslMaxDir B src dst sm dm) ↔ src = 0 ∨ dst = 0 := by
  by_cases hs : src = 0
  · obtain ⟨e, he⟩ := (C24_raises_iff e0 src).mpr (Or.inr hs)
    exact iff_of_true ⟨e, by simp only [orthTranslMaxDir, he]⟩ (Or.inl hs)
  by_cases hd : dst = 0
  · obtain ⟨e, he⟩ := (C24_raises_iff e0 dst).mpr (Or.inr hd)
    have h1 := orthTransl_eq (src := e0) (dst := src) e0_ne hs
    exact iff_of_true ⟨e, by simp only [orthTranslMaxDir, h1, he]⟩ (Or.inr hd)
  · have h1 := orthTransl_eq (src := e0) (dst := src) e0_ne hs
    have h2 := orthTransl_eq (src := e0) (dst := dst) e0_ne hd
    exact iff_of_false (by rintro ⟨e, he⟩; simp [orthTranslMaxDir, h1, h2] at he) (by push Not; exact ⟨hs, hd⟩)

/-- **C27** in dimension one. -/
theorem C27_dim_one (B : QrC) (src dst srcMax dstMax : Fin 1 → ℝ) (hs : src ≠ 0) (hd : dst ≠ 0) :
    ∃ O, orthTranslMaxDir B src dst srcMax dstMax = .ok O ∧ Feasible O src dst ∧
      ∀ O', Feasible O' src dst → O' = O := by
  have hs0 : src 0 ≠ 0 := by
    intro h; apply hs; funext i; rw [Subsingleton.elim i 0]; exact h
  have hd0 : dst 0 ≠ 0 := by
    intro h; apply hd; funext i; rw [Subsingleton.elim i 0]; exact h
  have h1 := npSign_mul_self hs0
  have h2 := npSign_mul_self hd0
  refine ⟨of fun i j => npSign (src j) * npSign (dst i), rfl, ⟨?_, ?_⟩, ?_⟩
  · rw [IsOrth]
    ext i j
    rw [Subsingleton.elim i 0, Subsingleton.elim j 0, mul_apply]
    simp
    linear_combination h1 * (npSign (dst 0) * npSign (dst 0)) + h2
  · rw [Carries, dir_one, dir_one]
    funext i
    rw [Subsingleton.elim i 0]
    simp [mulVec, dotProduct]
    linear_combination h1 * npSign (dst 0)
  · rintro O' ⟨_, hc⟩
    rw [Carries, dir_one, dir_one] at hc
    have h := congrFun hc 0
    simp [mulVec, dotProduct] at h
    ext i j
    rw [Subsingleton.elim i 0, Subsingleton.elim j 0]
    simp only [of_apply]
    rw [← h]
    linear_combination (-(O' 0 0)) * h1

example (B : QrC) : ∃ O, orthTranslMaxDir B ey e0 ![1, 2, 3] ![3, 2, 1] = .ok O ∧ Feasible O ey e0 ∧
    ∀ O' : Matrix (Fin 3) (Fin 3) ℝ, Feasible O' ey e0 →
      ![3, 2, 1] ⬝ᵥ O' *ᵥ ![1, 2, 3] ≤ ![3, 2, 1] ⬝ᵥ O *ᵥ ![1, 2, 3] :=
  C27_partial B _ _ _ _ ey_ne e0_ne (by rw [axis0_eq]; exact apart_e0_ey) (by rw [axis0_eq]; exact apart_e0_self)

/-! ### C28 -/

/-- **C28**: orthogonal for every QR factorisation. -/
theorem C28_orth (B : QrC) {m n : ℕ} (A : Matrix (Fin m) (Fin n) ℝ) : (matOrth B A)ᵀ * matOrth B A = 1 := by
  ext i j
  have h := congrFun (congrFun (B.orth A) i) j
  rw [mul_apply] at h ⊢
  simp only [transpose_apply, matOrth, of_apply] at h ⊢
  by_cases hij : i = j
  · subst hij
    rw [← h]
    refine Finset.sum_congr rfl (fun x _ => ?_)
    split_ifs <;> ring
  · rw [one_apply_ne hij] at h ⊢
    have key : ∀ ε δ : ℝ, ∑ x, (ε * B.Q A x i) * (δ * B.Q A x j) = 0 := by
      intro ε δ
      have : ∑ x, (ε * B.Q A x i) * (δ * B.Q A x j) = ε * δ * ∑ x, B.Q A x i * B.Q A x j := by
        rw [Finset.mul_sum]
        exact Finset.sum_congr rfl (fun x _ => by ring)
      rw [this, h, mul_zero]
    split_ifs
    · simpa using key (-1) (-1)
    · simpa using key (-1) 1
    · simpa using key 1 (-1)
    · simpa using key 1 1

/-- **C28**: the argument is the result times an upper triangular matrix with non-negative diagonal; so the first `j` columns of the
argument are combinations of the first `j` columns of the result, with aligned signs. -/
theorem C28_triangular (B : QrC) {m n : ℕ} (A : Matrix (Fin m) (Fin n) ℝ) :
    ∃ R : Matrix (Fin m) (Fin n) ℝ, A = matOrth B A * R ∧ (∀ i j, j.val < i.val → R i j = 0) ∧
      ∀ (i : Fin m) (j : Fin n), i.val = j.val → 0 ≤ R i j := by
  refine ⟨of fun i j => if ∃ h : i.val < n, B.R A i ⟨i, h⟩ < 0 then -B.R A i j else B.R A i j, ?_, ?_, ?_⟩
  · ext i j
    conv_lhs => rw [B.spec A]
    rw [mul_apply, mul_apply]
    refine Finset.sum_congr rfl (fun x _ => ?_)
    simp only [matOrth, of_apply]
    split_ifs <;> ring
  · intro i j hij
    simp only [of_apply]
    rw [B.upper A i j hij]
    simp
  · intro i j hij
    simp only [of_apply]
    have hj : (⟨i.val, hij ▸ j.2⟩ : Fin n) = j := Fin.ext hij
    by_cases hneg : B.R A i j < 0
    · rw [if_pos ⟨hij ▸ j.2, by rw [hj]; exact hneg⟩]
      linarith
    · rw [if_neg]
      · exact not_lt.mp hneg
      · rintro ⟨h, hlt⟩
        rw [hj] at hlt
        exact hneg hlt

/-- **C28**: `math_orth_col` has orthonormal columns; for a matrix with at most as many columns as rows the argument is the result times
a square upper triangular matrix with non-negative diagonal. -/
theorem C28_col (B : QrC) {m n : ℕ} (A : Matrix (Fin m) (Fin n) ℝ) :
    (matOrthCol B A)ᵀ * matOrthCol B A = 1 ∧
    ∃ R : Matrix (Fin (min m n)) (Fin n) ℝ, A = matOrthCol B A * R ∧ (∀ i j, j.val < i.val → R i j = 0) ∧
      ∀ (i : Fin (min m n)) (j : Fin n), i.val = j.val → 0 ≤ R i j := by
  constructor
  · ext i j
    have h := congrFun (congrFun (C28_orth B A) ⟨i, by omega⟩) ⟨j, by omega⟩
    rw [one_apply] at h ⊢
    rw [← if_congr (show ((⟨i.val, by omega⟩ : Fin m) = ⟨j.val, by omega⟩) ↔ i = j by
      rw [Fin.mk.injEq, Fin.val_inj]) rfl rfl]
    exact h
  · obtain ⟨R, h1, h2, h3⟩ := C28_triangular B A
    refine ⟨of fun i j => R ⟨i, by omega⟩ j, ?_, ?_, ?_⟩
    · ext i j
      conv_lhs => rw [h1]
      rw [mul_apply, mul_apply]
      simp only [of_apply, matOrthCol]
      let e : Fin (min m n) ↪ Fin m := Fin.castLEEmb (by omega)
      have : ∑ k : Fin (min m n), matOrth B A i ⟨k, by omega⟩ * R ⟨k, by omega⟩ j =
          ∑ k ∈ Finset.univ.map e, matOrth B A i k * R k j := by
        rw [Finset.sum_map]; rfl
      rw [this]
      symm
      apply Finset.sum_subset (Finset.subset_univ _)
      intro k _ hk
      have hk' : min m n ≤ k.val := by
        by_contra hlt
        push Not at hlt
        exact hk (Finset.mem_map.mpr ⟨⟨k, hlt⟩, Finset.mem_univ _, rfl⟩)
      rw [h2 k j (by have := j.2; have := k.2; omega), mul_zero]
    · intro i j hij
      exact h2 _ j hij
    · intro i j hij
      exact h3 _ j hij

/-- A column `(-2, 0)`: the first column of the result is `(-1, 0)` whatever signs the factorisation chose. -/
example (B : QrC) : ∀ i, matOrth B (!![-2; 0] : Matrix (Fin 2) (Fin 1) ℝ) i 0 = ![-1, 0] i := by
  set A : Matrix (Fin 2) (Fin 1) ℝ := !![-2; 0]
  obtain ⟨R, h1, h2, h3⟩ := C28_triangular B A
  have hO := C28_orth B A
  have hR1 := h2 1 0 (by simp)
  have hR0 := h3 0 0 rfl
  have e0' := congrFun (congrFun h1 0) 0
  have e1' := congrFun (congrFun h1 1) 0
  rw [mul_apply, Fin.sum_univ_two, hR1] at e0' e1'
  have o := congrFun (congrFun hO 0) 0
  rw [mul_apply, Fin.sum_univ_two, one_apply_eq, transpose_apply, transpose_apply] at o
  have hA0 : A 0 0 = -2 := rfl
  have hA1 : A 1 0 = 0 := rfl
  rw [hA0] at e0'
  rw [hA1] at e1'
  have hRne : R 0 0 ≠ 0 := by intro h; rw [h] at e0'; norm_num at e0'
  have h10 : matOrth B A 1 0 = 0 := by
    have : matOrth B A 1 0 * R 0 0 = 0 := by linarith
    exact (mul_eq_zero.mp this).resolve_right hRne
  have h00 : matOrth B A 0 0 = -1 := by
    rw [h10] at o
    have hp : 0 < R 0 0 := lt_of_le_of_ne hR0 (Ne.symm hRne)
    have : matOrth B A 0 0 < 0 := by nlinarith
    nlinarith
  intro i
  fin_cases i
  · exact h00
  · exact h10

end Ellipy.LA
