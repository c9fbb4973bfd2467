import Verif.Props.Transl

/-! Property theorem C25 for `orth_transl_qr`. -/

namespace Ellipy.LA
open Matrix

theorem sum_fin_eq_two {m : ℕ} (hm : m = 2) (f : Fin m → ℝ) : ∑ k, f k = f ⟨0, by omega⟩ + f ⟨1, by omega⟩ := by
  subst hm
  rw [Fin.sum_univ_two]; rfl

theorem npSign_mul_self {x : ℝ} (h : x ≠ 0) : npSign x * npSign x = 1 := by
  unfold npSign
  rcases lt_or_gt_of_ne h with h | h
  · rw [if_pos h]; norm_num
  · rw [if_neg (not_lt.mpr h.le), if_pos h]; norm_num

theorem npSign_mul_abs (x : ℝ) : npSign x * |x| = x := by
  unfold npSign
  rcases lt_trichotomy x 0 with h | h | h
  · rw [if_pos h, abs_of_neg h]; ring
  · subst h; simp
  · rw [if_neg (not_lt.mpr h.le), if_pos h, abs_of_pos h]; ring

theorem npSign_mul (x y : ℝ) : npSign (x * y) = npSign x * npSign y := by
  unfold npSign
  rcases lt_trichotomy x 0 with hx | hx | hx <;> rcases lt_trichotomy y 0 with hy | hy | hy
  · rw [if_neg (not_lt.mpr (mul_pos_of_neg_of_neg hx hy).le), if_pos (mul_pos_of_neg_of_neg hx hy), if_pos hx, if_pos hy]
    norm_num
  · subst hy; simp
  · rw [if_pos (mul_neg_of_neg_of_pos hx hy), if_pos hx, if_neg (not_lt.mpr hy.le), if_pos hy]; norm_num
  · subst hx; simp
  · subst hx; simp
  · subst hx; simp
  · rw [if_pos (mul_neg_of_pos_of_neg hx hy), if_pos hy, if_neg (not_lt.mpr hx.le), if_pos hx]; norm_num
  · subst hy; simp
  · rw [if_neg (not_lt.mpr (mul_pos hx hy).le), if_pos (mul_pos hx hy), if_neg (not_lt.mpr hx.le), if_pos hx,
      if_neg (not_lt.mpr hy.le), if_pos hy]; norm_num

/-- In dimension one the direction is the sign. -/
theorem dir_one (v : Fin 1 → ℝ) : dir v = fun _ => npSign (v 0) := by
  funext i
  have hi : i = 0 := Subsingleton.elim _ _
  subst hi
  rw [dir, Pi.smul_apply, smul_eq_mul]
  have : v ⬝ᵥ v = v 0 * v 0 := by simp [dotProduct]
  rw [this, Real.sqrt_mul_self_eq_abs]
  by_cases h : v 0 = 0
  · rw [h]; simp [npSign]
  · have h1 := npSign_mul_abs (v 0)
    nth_rw 2 [← h1]
    have : |v 0| ≠ 0 := abs_ne_zero.mpr h
    field_simp

/-- From dimension two on the result is the rotation in the plane of the two columns of the factor `Q`. -/
theorem qr_form (B : QrR) {n : ℕ} (hn : 2 ≤ n) {src dst : Fin n → ℝ} (hs : src ≠ 0) (hd : dst ≠ 0) :
    ∃ (q0 q1 : Fin n → ℝ) (c s σ : ℝ), q0 ⬝ᵥ q0 = 1 ∧ q0 ⬝ᵥ q1 = 0 ∧ q1 ⬝ᵥ q1 = 1 ∧ c ^ 2 + s ^ 2 = 1 ∧ σ * σ = 1 ∧
      dir dst = σ • q0 ∧ σ • dir src = c • q0 + s • q1 ∧ orthTranslQr B src dst = .ok (planeRot q0 q1 c s) := by
  have h1 : ∑ i, dst i * dst i ≠ 0 := (dot_self_pos hd).ne'
  have h2 : ∑ i, src i * src i ≠ 0 := (dot_self_pos hs).ne'
  let A : Matrix (Fin n) (Fin 2) ℝ := of fun i => ![dst i, src i]
  have hm : min n 2 = 2 := by omega
  let q0 : Fin n → ℝ := fun i => B.Q A i ⟨0, by omega⟩
  let q1 : Fin n → ℝ := fun i => B.Q A i ⟨1, by omega⟩
  have hq00 : q0 ⬝ᵥ q0 = 1 := by
    have h := congrFun (congrFun (B.orth A) ⟨0, by omega⟩) ⟨0, by omega⟩
    rw [one_apply_eq] at h; exact h
  have hq11 : q1 ⬝ᵥ q1 = 1 := by
    have h := congrFun (congrFun (B.orth A) ⟨1, by omega⟩) ⟨1, by omega⟩
    rw [one_apply_eq] at h; exact h
  have hq01 : q0 ⬝ᵥ q1 = 0 := by
    have h := congrFun (congrFun (B.orth A) ⟨0, by omega⟩) ⟨1, by omega⟩
    rw [one_apply_ne (by simp)] at h; exact h
  let r00 := B.R A ⟨0, by omega⟩ 0
  let r01 := B.R A ⟨0, by omega⟩ 1
  let r11 := B.R A ⟨1, by omega⟩ 1
  have hr10 : B.R A ⟨1, by omega⟩ 0 = 0 := B.upper A _ _ (by simp)
  have hdst : dst = r00 • q0 := by
    funext i
    have h := congrFun (congrFun (B.spec A) i) 0
    rw [mul_apply, sum_fin_eq_two hm, hr10] at h
    have hA : A i 0 = dst i := rfl
    rw [hA] at h
    rw [h, Pi.smul_apply, smul_eq_mul]
    simp only [q0, r00]; ring
  have hsrc : src = r01 • q0 + r11 • q1 := by
    funext i
    have h := congrFun (congrFun (B.spec A) i) 1
    rw [mul_apply, sum_fin_eq_two hm] at h
    have hA : A i 1 = src i := rfl
    rw [hA] at h
    rw [h, Pi.add_apply, Pi.smul_apply, Pi.smul_apply, smul_eq_mul, smul_eq_mul]
    simp only [q0, q1, r01, r11]; ring
  have hr0 : r00 ≠ 0 := by
    intro h0; rw [h0, zero_smul] at hdst; exact hd hdst
  have hq10 : q1 ⬝ᵥ q0 = 0 := by rw [dotProduct_comm, hq01]
  have hdd : dst ⬝ᵥ dst = r00 ^ 2 := by
    rw [hdst, dotProduct_smul, smul_dotProduct, hq00]; simp [sq]
  have hss : src ⬝ᵥ src = r01 ^ 2 + r11 ^ 2 := by
    rw [hsrc, dotProduct_add, add_dotProduct, add_dotProduct]
    simp only [dotProduct_smul, smul_dotProduct, hq00, hq01, hq10, hq11, smul_eq_mul]
    ring
  have hds : dst ⬝ᵥ src = r00 * r01 := by
    rw [hdst, hsrc, dotProduct_add]
    simp only [dotProduct_smul, smul_dotProduct, hq00, hq01, smul_eq_mul]
    ring
  have hN : 0 < r01 ^ 2 + r11 ^ 2 := hss ▸ dot_self_pos hs
  set N := Real.sqrt (r01 ^ 2 + r11 ^ 2) with hNdef
  have hNpos : 0 < N := Real.sqrt_pos.mpr hN
  have hNsq : N ^ 2 = r01 ^ 2 + r11 ^ 2 := Real.sq_sqrt hN.le
  -- sign of the first diagonal entry
  set σ := npSign r00 with hσ
  have hσσ : σ * σ = 1 := npSign_mul_self hr0
  have hσabs : σ * |r00| = r00 := npSign_mul_abs r00
  have hdirD : dir dst = σ • q0 := by
    rw [dir, hdd, Real.sqrt_sq_eq_abs, hdst, smul_smul]
    congr 1
    have : |r00| ≠ 0 := abs_ne_zero.mpr hr0
    field_simp
    linarith
  have hdirS : dir src = (r01 / N) • q0 + (r11 / N) • q1 := by
    rw [dir, hss, ← hNdef, hsrc, smul_add, smul_smul, smul_smul]
    congr 2 <;> ring
  -- cosine and sine of the code
  let c := (∑ i, dst i * src i) / Real.sqrt ((∑ i, dst i * dst i) * ∑ i, src i * src i)
  have hc : c = σ * r01 / N := by
    have e1 : ∑ i, dst i * src i = r00 * r01 := hds
    have e2 : ∑ i, dst i * dst i = r00 ^ 2 := hdd
    have e3 : ∑ i, src i * src i = r01 ^ 2 + r11 ^ 2 := hss
    simp only [c]
    rw [e1, e2, e3, Real.sqrt_mul (sq_nonneg _), Real.sqrt_sq_eq_abs, ← hNdef]
    have : |r00| ≠ 0 := abs_ne_zero.mpr hr0
    field_simp
    linear_combination (-r01) * hσabs
  have h1c : 1 - c * c = (r11 / N) ^ 2 := by
    rw [hc, div_pow]
    field_simp
    rw [hNsq]
    linear_combination (-(r01 ^ 2)) * hσσ
  have hsq : Real.sqrt (1 - c * c) = |r11| / N := by
    rw [h1c, Real.sqrt_sq_eq_abs, abs_div, abs_of_pos hNpos]
  let s0 := -Real.sqrt (1 - c * c)
  let s := if r00 * r11 < 0 then -s0 else s0
  have hs' : s = -(σ * r11 / N) := by
    simp only [s, s0, hsq]
    have hcase : (r00 * r11 < 0 ∧ σ * r11 = -|r11|) ∨ (¬ r00 * r11 < 0 ∧ σ * r11 = |r11|) := by
      rw [hσ]
      unfold npSign
      rcases lt_or_gt_of_ne hr0 with h | h
      · rw [if_pos h]
        rcases le_or_gt r11 0 with h' | h'
        · right
          exact ⟨not_lt.mpr (mul_nonneg_of_nonpos_of_nonpos h.le h'), by rw [abs_of_nonpos h']; ring⟩
        · left
          exact ⟨mul_neg_of_neg_of_pos h h', by rw [abs_of_pos h']; ring⟩
      · rw [if_neg (not_lt.mpr h.le), if_pos h]
        rcases lt_or_ge r11 0 with h' | h'
        · left
          exact ⟨mul_neg_of_pos_of_neg h h', by rw [abs_of_neg h']; ring⟩
        · right
          exact ⟨not_lt.mpr (mul_nonneg h.le h'), by rw [abs_of_nonneg h']; ring⟩
    rcases hcase with ⟨hlt, he⟩ | ⟨hlt, he⟩
    · rw [if_pos hlt, he]; ring
    · rw [if_neg hlt, he]
  have hO : orthTranslQr B src dst = .ok (planeRot q0 q1 c (-s)) := by
    unfold orthTranslQr
    rw [if_neg h1, if_neg h2, dif_pos hn]
    show Except.ok _ = Except.ok _
    congr 1
    rw [planeRot_eq]
    congr 1
    ext i j
    simp only [Matrix.add_apply, Matrix.sub_apply, Matrix.smul_apply, vecMulVec_apply, smul_eq_mul]
    show (q0 i * (c - 1) + q1 i * s) * q0 j + (-q0 i * s + q1 i * (c - 1)) * q1 j = _
    ring
  have hcs : c ^ 2 + (-s) ^ 2 = 1 := by
    have : s ^ 2 = (r11 / N) ^ 2 := by
      rw [hs']
      have : σ ^ 2 = 1 := by rw [sq, hσσ]
      rw [neg_sq, mul_div_assoc, mul_pow, this, one_mul]
    rw [neg_sq, this, ← h1c]; ring
  refine ⟨q0, q1, c, -s, σ, hq00, hq01, hq11, hcs, hσσ, hdirD, ?_, hO⟩
  rw [hdirS, hc, hs', smul_add, smul_smul, smul_smul]
  congr 2 <;> ring

/-- **C25** for `orth_transl_qr`: for every QR factorisation the result is an orthogonal matrix that carries the source direction to
the destination direction; only zero vectors are rejected. -/
theorem C25_qr (B : QrR) {n : ℕ} (src dst : Fin n → ℝ) (hs : src ≠ 0) (hd : dst ≠ 0) :
    ∃ O, orthTranslQr B src dst = .ok O ∧ O * Oᵀ = 1 ∧ O *ᵥ dir src = dir dst := by
  have h1 : ∑ i, dst i * dst i ≠ 0 := (dot_self_pos hd).ne'
  have h2 : ∑ i, src i * src i ≠ 0 := (dot_self_pos hs).ne'
  by_cases hn : 2 ≤ n
  · obtain ⟨q0, q1, c, s, σ, hq00, hq01, hq11, hcs, hσσ, hdirD, hdirS, hO⟩ := qr_form B hn hs hd
    refine ⟨_, hO, planeRot_orth hq00 hq01 hq11 hcs, ?_⟩
    have hcar := planeRot_carry (a := σ • dir src) hq00 hq01 hq11 hcs hdirS
    rw [mulVec_smul] at hcar
    have h3 := congrArg (σ • ·) hcar
    simp only [smul_smul, hσσ, one_smul] at h3
    rw [hdirD, h3]
  · have hn0 : n ≠ 0 := by
      rintro rfl
      exact hs (Subsingleton.elim _ _)
    obtain rfl : n = 1 := by omega
    have hs0 : src 0 ≠ 0 := by
      intro h; apply hs; funext i; rw [Subsingleton.elim i 0]; exact h
    have hd0 : dst 0 ≠ 0 := by
      intro h; apply hd; funext i; rw [Subsingleton.elim i 0]; exact h
    refine ⟨of fun i j => npSign (src i * dst j), ?_, ?_, ?_⟩
    · unfold orthTranslQr
      rw [if_neg h1, if_neg h2, dif_neg hn]
    · ext i j
      rw [Subsingleton.elim i 0, Subsingleton.elim j 0, mul_apply]
      simp
      exact npSign_mul_self (mul_ne_zero hs0 hd0)
    · rw [dir_one, dir_one]
      funext i
      rw [Subsingleton.elim i 0]
      simp only [mulVec, dotProduct, of_apply]
      simp
      rw [npSign_mul]
      linear_combination (npSign (dst 0)) * npSign_mul_self hs0

/-- **C25**: `orth_transl_qr` rejects exactly the zero vectors. -/
theorem C25_qr_raises_iff (B : QrR) {n : ℕ} (src dst : Fin n → ℝ) :
    Raises (orthTranslQr B src dst) ↔ src = 0 ∨ dst = 0 := by
  by_cases hd : dst = 0
  · subst hd
    refine iff_of_true ?_ (Or.inr rfl)
    unfold orthTranslQr
    rw [if_pos (by simp)]; exact ⟨_, rfl⟩
  by_cases hs : src = 0
  · subst hs
    refine iff_of_true ?_ (Or.inl rfl)
    have h1 : ∑ i, dst i * dst i ≠ 0 := (dot_self_pos hd).ne'
    unfold orthTranslQr
    rw [if_neg h1, if_pos (by simp)]; exact ⟨_, rfl⟩
  · obtain ⟨O, h, _⟩ := C25_qr B src dst hs hd
    rw [h]
    exact iff_of_false (by rintro ⟨e, he⟩; cases he) (by push Not; exact ⟨hs, hd⟩)

example (B : QrR) : ∃ O, orthTranslQr B (![1, 2] : Fin 2 → ℝ) ![3, -4] = .ok O ∧ O * Oᵀ = 1 ∧
    O *ᵥ dir ![1, 2] = dir ![3, -4] := by
  apply C25_qr
  · intro h; have := congrFun h 0; simp at this
  · intro h; have := congrFun h 0; simp at this

end Ellipy.LA
