import Verif.Props.LaReg

/-! Property theorem C94 (`is_mat_not_deg`). -/

namespace Ellipy.LA
open Matrix

/-- The linear map of `A` stretches every vector at least `t` times. -/
def Stretches {m n : ℕ} (A : Matrix (Fin m) (Fin n) ℝ) (t : ℝ) : Prop :=
  ∀ x : Fin n → ℝ, t ^ 2 * ∑ j, x j ^ 2 ≤ ∑ i, (A *ᵥ x) i ^ 2

private theorem sigma_mulVec_sq {m n : ℕ} (h : n ≤ m) (s : Fin (min m n) → ℝ) (y : Fin n → ℝ) :
    ∑ i, ((sigma s : Matrix (Fin m) (Fin n) ℝ) *ᵥ y) i ^ 2 = ∑ j : Fin n, s ⟨j, by omega⟩ ^ 2 * y j ^ 2 := by
  have hval : ∀ j : Fin n, ((sigma s : Matrix (Fin m) (Fin n) ℝ) *ᵥ y) (Fin.castLE h j) = s ⟨j, by omega⟩ * y j := by
    intro j
    rw [mulVec, dotProduct, Finset.sum_eq_single j]
    · simp [sigma]
    · intro k _ hk
      have : ¬ (Fin.castLE h j).val = k.val := fun e => hk (Fin.ext e.symm)
      simp only [sigma]
      rw [dif_neg this, zero_mul]
    · intro hj; exact absurd (Finset.mem_univ _) hj
  have hzero : ∀ i : Fin m, i ∉ Finset.univ.map (Fin.castLEEmb h) → ((sigma s : Matrix (Fin m) (Fin n) ℝ) *ᵥ y) i ^ 2 = 0 := by
    intro i hi
    have : ((sigma s : Matrix (Fin m) (Fin n) ℝ) *ᵥ y) i = 0 := by
      rw [mulVec, dotProduct]
      refine Finset.sum_eq_zero fun k _ => ?_
      have : ¬ i.val = k.val := by
        intro e
        apply hi
        rw [Finset.mem_map]
        exact ⟨k, Finset.mem_univ _, Fin.ext e.symm⟩
      simp only [sigma]
      rw [dif_neg this, zero_mul]
    rw [this]; norm_num
  rw [← Finset.sum_subset (Finset.subset_univ (Finset.univ.map (Fin.castLEEmb h))) (fun i _ hi => hzero i hi), Finset.sum_map]
  refine Finset.sum_congr rfl fun j _ => ?_
  rw [← mul_pow, ← hval j]
  rfl

private theorem stretches_iff {m n : ℕ} (h : n ≤ m) {U : Matrix (Fin m) (Fin m) ℝ} {W : Matrix (Fin n) (Fin n) ℝ}
    {s : Fin (min m n) → ℝ} (hU : Uᵀ * U = 1) (hW : Wᵀ * W = 1) (hs : ∀ i, 0 ≤ s i) {t : ℝ} (ht : 0 ≤ t) :
    Stretches (U * sigma s * W) t ↔ ∀ i, t ≤ s i := by
  have e1 : ∀ x : Fin n → ℝ, ∑ i, ((U * sigma s * W) *ᵥ x) i ^ 2 = ∑ j : Fin n, s ⟨j, by omega⟩ ^ 2 * (W *ᵥ x) j ^ 2 := by
    intro x
    rw [← sigma_mulVec_sq h s (W *ᵥ x), ← dot_self_eq, ← dot_self_eq, ← mulVec_mulVec, ← mulVec_mulVec, dot_orth hU]
  have e2 : ∀ x : Fin n → ℝ, ∑ j, x j ^ 2 = ∑ j, (W *ᵥ x) j ^ 2 := by
    intro x
    rw [← dot_self_eq, ← dot_self_eq, dot_orth hW]
  constructor
  · intro hst i
    have hi : i.val < n := lt_of_lt_of_le i.2 (min_le_right _ _)
    have := hst (Wᵀ *ᵥ Pi.single ⟨i, hi⟩ 1)
    rw [e1, e2, mulVec_mulVec, orth_comm hW, one_mulVec, Finset.sum_eq_single ⟨i, hi⟩, Finset.sum_eq_single ⟨i, hi⟩] at this
    · simp only [Pi.single_eq_same, one_pow, mul_one] at this
      exact (sq_le_sq₀ ht (hs _)).mp this
    · intro j _ hj; simp [Pi.single_apply, hj]
    · intro hj; exact absurd (Finset.mem_univ _) hj
    · intro j _ hj; simp [Pi.single_apply, hj]
    · intro hj; exact absurd (Finset.mem_univ _) hj
  · intro hall x
    rw [e1, e2 x, Finset.mul_sum]
    refine Finset.sum_le_sum fun j _ => mul_le_mul_of_nonneg_right ?_ (sq_nonneg _)
    exact (sq_le_sq₀ ht (hs _)).mpr (hall _)

private theorem sigma_transpose {m n : ℕ} (s : Fin (min m n) → ℝ) :
    (sigma s : Matrix (Fin m) (Fin n) ℝ)ᵀ = sigma (fun i : Fin (min n m) => s ⟨i, by omega⟩) := by
  ext i j
  rw [transpose_apply]
  unfold sigma
  by_cases h : j.val = i.val
  · rw [dif_pos h, dif_pos h.symm]; congr 1; exact Fin.ext h
  · rw [dif_neg h, dif_neg (fun e => h e.symm)]

private theorem svd_iff (B : Svd) {m n : ℕ} (Q : Matrix (Fin m) (Fin n) ℝ) {t : ℝ} (ht : 0 ≤ t) :
    (n ≤ m → ((∀ i, t ≤ B.s Q i) ↔ Stretches Q t)) ∧ (m ≤ n → ((∀ i, t ≤ B.s Q i) ↔ Stretches Qᵀ t)) := by
  have hW := mul_eq_one_comm.mp (B.Vt_orth Q)
  constructor
  · intro h
    rw [← stretches_iff h (B.U_orth Q) hW (B.s_nonneg Q) ht, ← B.spec Q]
  · intro h
    have hQ : Qᵀ = (B.Vt Q)ᵀ * sigma (fun i : Fin (min n m) => B.s Q ⟨i, by omega⟩) * (B.U Q)ᵀ := by
      rw [← sigma_transpose, Matrix.mul_assoc, ← transpose_mul, ← transpose_mul, ← B.spec Q]
    rw [hQ, stretches_iff h (by rw [transpose_transpose]; exact B.Vt_orth Q)
      (by rw [transpose_transpose]; exact orth_comm (B.U_orth Q)) (fun i => B.s_nonneg Q _) ht]
    exact ⟨fun h i => h _, fun h i => h ⟨i, by omega⟩⟩

/-- **C94**: a call is rejected exactly when the tolerance is negative, or positive with a matrix that has no entries. -/
theorem C94_raises_iff (B : Svd) {m n : ℕ} (Q : Matrix (Fin m) (Fin n) ℝ) (tol : ℝ) :
    Raises (isMatNotDeg B Q tol) ↔ tol < 0 ∨ (0 < tol ∧ (m = 0 ∨ n = 0)) := by
  unfold isMatNotDeg
  rcases lt_trichotomy tol 0 with h | h | h
  · rw [if_pos h]; exact iff_of_true ⟨_, rfl⟩ (Or.inl h)
  · rw [if_neg (by rw [h]; exact lt_irrefl _), if_pos h]
    exact iff_of_false (by rintro ⟨e, he⟩; cases he) (by simp [h])
  · rw [if_neg h.not_gt, if_neg h.ne']
    rcases min?_ofFn (B.s Q) with ⟨h0, h1⟩ | ⟨i, h1, hi⟩
    · rw [h1]
      exact iff_of_true ⟨_, rfl⟩ (Or.inr ⟨h, by omega⟩)
    · rw [h1]
      have := i.2
      refine iff_of_false ?_ (by rintro (h' | ⟨_, h'⟩); exacts [h.not_gt h', by omega])
      rintro ⟨e, he⟩
      simp only at he
      split_ifs at he

/-- **C94**: for an accepted positive tolerance the verdict says whether the matrix (its transpose if it is wide) stretches every
vector at least `tol` times. -/
theorem C94_verdict (B : Svd) {m n : ℕ} (Q : Matrix (Fin m) (Fin n) ℝ) (tol : ℝ) (ht : 0 ≤ tol) (hm : m ≠ 0) (hn : n ≠ 0) :
    (n ≤ m → (isMatNotDeg B Q tol = .ok true ↔ Stretches Q tol)) ∧
    (m ≤ n → (isMatNotDeg B Q tol = .ok true ↔ Stretches Qᵀ tol)) := by
  have key : isMatNotDeg B Q tol = .ok true ↔ ∀ i, tol ≤ B.s Q i := by
    unfold isMatNotDeg
    rw [if_neg ht.not_gt]
    by_cases h0 : tol = 0
    · rw [if_pos h0, h0]; exact iff_of_true rfl (B.s_nonneg Q)
    rw [if_neg h0]
    rcases min?_ofFn (B.s Q) with ⟨h0, h1⟩ | ⟨i, h1, hi⟩
    · omega
    · rw [h1]
      simp only
      by_cases hc : B.s Q i < tol
      · rw [if_pos hc]
        exact iff_of_false (by simp) (fun h => hc.not_ge (h i))
      · rw [if_neg hc]
        exact iff_of_true rfl (fun j => (not_lt.mp hc).trans (hi j))
  rw [key]
  exact svd_iff B Q ht

/-- **C94**: a square matrix accepted with a positive tolerance is invertible. -/
theorem C94_invertible (B : Svd) {n : ℕ} (hn : n ≠ 0) (Q : Matrix (Fin n) (Fin n) ℝ) (tol : ℝ) (ht : 0 < tol)
    (h : isMatNotDeg B Q tol = .ok true) : IsUnit Q.det := by
  have hst := ((C94_verdict B Q tol ht.le hn hn).1 le_rfl).mp h
  rw [isUnit_iff_ne_zero]
  intro h0
  obtain ⟨x, hx, hQx⟩ := exists_mulVec_eq_zero_iff.mpr h0
  have := hst x
  rw [hQx, ← dot_self_eq] at this
  have h1 := mul_pos (pow_pos ht 2) (dot_self_pos hx)
  simp only [Pi.zero_apply, ne_eq, OfNat.ofNat_ne_zero, not_false_eq_true, zero_pow, Finset.sum_const_zero] at this
  linarith

/-- **C94**: an invertible matrix is accepted with every small enough positive tolerance. -/
theorem C94_complete (B : Svd) {n : ℕ} (hn : n ≠ 0) (Q : Matrix (Fin n) (Fin n) ℝ) (h : IsUnit Q.det) :
    ∃ δ, 0 < δ ∧ ∀ tol, 0 ≤ tol → tol ≤ δ → isMatNotDeg B Q tol = .ok true := by
  have hpos : ∀ i, 0 < B.s Q i := by
    intro i
    refine lt_of_le_of_ne (B.s_nonneg Q i) fun h0 => ?_
    have hd : (sigma (B.s Q) : Matrix (Fin n) (Fin n) ℝ).det = 0 := by
      rw [sigma_square, det_diagonal]
      exact Finset.prod_eq_zero (Finset.mem_univ ⟨i, by omega⟩) h0.symm
    rw [B.spec Q, det_mul, det_mul, hd, mul_zero, zero_mul] at h
    exact not_isUnit_zero h
  rcases min?_ofFn (B.s Q) with ⟨h0, h1⟩ | ⟨i, h1, hi⟩
  · omega
  refine ⟨B.s Q i, hpos i, fun tol h0 hle => ?_⟩
  rw [(C94_verdict B Q tol h0 hn hn).1 le_rfl, ← (svd_iff B Q h0).1 le_rfl]
  exact fun j => hle.trans (hi j)

/-- With the default tolerance 0 the function tests nothing: every matrix is accepted, the zero matrix too. -/
theorem C94_default (B : Svd) {m n : ℕ} (Q : Matrix (Fin m) (Fin n) ℝ) : isMatNotDeg B Q 0 = .ok true := by
  unfold isMatNotDeg
  rw [if_neg (lt_irrefl _), if_pos rfl]

/-- `diag(3, 1/2)` passes with tolerance `1/2`, not with tolerance `1`; the singular matrix `diag(1, 0)` passes with tolerance 0
only. -/
example (B : Svd) : isMatNotDeg B (diagonal ![3, 1 / 2]) (1 / 2) = .ok true ∧ isMatNotDeg B (diagonal ![3, 1 / 2]) 1 ≠ .ok true ∧
    isMatNotDeg B (diagonal ![1, 0]) 0 = .ok true ∧ isMatNotDeg B (diagonal ![1, 0]) (1 / 100) ≠ .ok true := by
  have key : ∀ (d : Fin 2 → ℝ) (t : ℝ), 0 ≤ t → (isMatNotDeg B (diagonal d) t = .ok true ↔ Stretches (diagonal d) t) :=
    fun d t ht => (C94_verdict B _ t ht (by norm_num) (by norm_num)).1 le_rfl
  refine ⟨?_, ?_, C94_default B _, ?_⟩
  · rw [key _ _ (by norm_num)]
    intro x
    simp only [mulVec_diagonal, Fin.sum_univ_two]
    norm_num
    nlinarith [sq_nonneg (x 0)]
  · rw [ne_eq, key _ _ (by norm_num)]
    intro h
    have := h ![0, 1]
    simp only [mulVec_diagonal, Fin.sum_univ_two] at this
    norm_num at this
  · rw [ne_eq, key _ _ (by norm_num)]
    intro h
    have := h ![0, 1]
    simp only [mulVec_diagonal, Fin.sum_univ_two] at this
    norm_num at this

end Ellipy.LA
