import Verif.Proofs.TranslIff
import Verif.Props.Transl
import Verif.Props.TranslOpt

/-! The exact sets of arguments on which C24-C27 hold: together with the `_partial` theorems these leave nothing open. -/

namespace Ellipy.LA
open Matrix

/-- **C24**, exact criterion: for non-zero vectors the result of `orth_transl` is feasible exactly when the directions are equal,
opposite or more than `10⁻⁷` apart (sine of the angle). -/
theorem C24_feasible_iff {n : ℕ} (src dst : Fin n → ℝ) (hs : src ≠ 0) (hd : dst ≠ 0) (O : Matrix (Fin n) (Fin n) ℝ)
    (h : orthTransl src dst = .ok O) : Feasible O src dst ↔ Apart src dst := by
  constructor
  · rintro ⟨hO, _⟩
    by_contra hA
    obtain ⟨c, s, h1, _, h3⟩ := not_apart_form hs hd hA
    rw [h] at h1
    injection h1 with h1
    subst h1
    have h4 := dot_orth hO.left (dir dst) (dir dst)
    rw [shrink_norm (dir_dot hd), dir_dot hd] at h4
    linarith
  · intro hA
    obtain ⟨O', h1, h2⟩ := orthTransl_spec hs hd hA
    rw [h] at h1
    injection h1 with h1
    rw [h1]; exact h2

/-- **C25** for Householder, exact criterion: the direction is carried exactly when the directions are equal or their squared
distance is at least `10⁻¹⁴`. -/
theorem C25_haus_carries_iff {n : ℕ} (src dst : Fin n → ℝ) (hs : src ≠ 0) (hd : dst ≠ 0) (O : Matrix (Fin n) (Fin n) ℝ)
    (h : orthTranslHaus src dst = some O) :
    Carries O src dst ↔ dir src = dir dst ∨ (1 / 10 ^ 14 : ℝ) ≤ (dir src - dir dst) ⬝ᵥ (dir src - dir dst) := by
  constructor
  · intro hc
    by_contra hn
    rw [not_or, not_le] at hn
    have h2 : (dir src - dir dst) ⬝ᵥ (dir src - dir dst) < hausTol := hn.2
    rw [haus_eq hs hd, if_pos h2] at h
    injection h with h
    subst h
    rw [Carries, zero_smul, sub_zero, one_mulVec] at hc
    exact hn.1 hc
  · intro hA
    obtain ⟨O', h1, _, h3⟩ := C25_haus_partial src dst hs hd hA
    rw [h] at h1
    injection h1 with h1
    rw [h1]; exact h3

/-- **C26**, exact criterion in dimension at least two: the result of `orth_transl_max_tr` is orthogonal exactly when neither
direction is within `10⁻⁷` of the first coordinate axis without being on it, and then (`C26_partial`) it is optimal. -/
theorem C26_feasible_iff (B : Svd) {k : ℕ} (src dst : Fin (k + 2) → ℝ) (M O : Matrix (Fin (k + 2)) (Fin (k + 2)) ℝ)
    (hs : src ≠ 0) (hd : dst ≠ 0) (h : orthTranslMaxTr B src dst M = .ok O) :
    (IsOrth O ↔ Apart axis0 src ∧ Apart axis0 dst) ∧ (Feasible O src dst ↔ Apart axis0 src ∧ Apart axis0 dst) := by
  simp only [axis0_eq] at *
  have key : IsOrth O → Apart e0 src ∧ Apart e0 dst := by
    intro hO
    obtain ⟨P, hP, _⟩ := transl_contract hd
    obtain ⟨R, hR, _⟩ := transl_contract hs
    simp only [orthTranslMaxTr, hR, hP] at h
    injection h with h
    rw [← h] at hO
    have hU := orth_comm (B.U_orth ((tailCols R)ᵀ * M * tailCols P))
    have hV := B.Vt_orth ((tailCols R)ᵀ * M * tailCols P)
    exact combine_apart hs hd (IsOrth.transpose (IsOrth.mul hU hV)) hP hR hO
  have back : Apart e0 src ∧ Apart e0 dst → Feasible O src dst := by
    rintro ⟨h1, h2⟩
    obtain ⟨O', e, hf, _⟩ := C26_partial B src dst M hs hd (by rw [axis0_eq]; exact h1) (by rw [axis0_eq]; exact h2)
    rw [h] at e
    injection e with e
    rw [e]; exact hf
  exact ⟨⟨key, fun hA => (back hA).1⟩, ⟨fun hf => key hf.1, back⟩⟩

/-- **C26** in dimension one: the answer is the number `1`, which is feasible exactly when the two numbers have the same sign;
then it is the only feasible matrix. -/
theorem C26_dim_one (B : Svd) (src dst : Fin 1 → ℝ) (M O : Matrix (Fin 1) (Fin 1) ℝ) (hs : src ≠ 0) (hd : dst ≠ 0)
    (h : orthTranslMaxTr B src dst M = .ok O) :
    (Feasible O src dst ↔ 0 < src 0 * dst 0) ∧ (0 < src 0 * dst 0 → ∀ O', Feasible O' src dst → O' = O) := by
  have hs0 : src 0 ≠ 0 := by
    intro h; apply hs; funext i; rw [Subsingleton.elim i 0]; exact h
  have hd0 : dst 0 ≠ 0 := by
    intro h; apply hd; funext i; rw [Subsingleton.elim i 0]; exact h
  have hO : O = 1 := by
    simp only [orthTranslMaxTr] at h
    injection h with h
    rw [← h]
    ext i j
    rw [Subsingleton.elim i 0, Subsingleton.elim j 0]
    simp
  subst hO
  have hsign : npSign (src 0) = npSign (dst 0) ↔ 0 < src 0 * dst 0 := by
    unfold npSign
    rcases lt_or_gt_of_ne hs0 with a | a <;> rcases lt_or_gt_of_ne hd0 with b | b
    · simp [a, b, mul_pos_of_neg_of_neg a b]
    · rw [if_pos a, if_neg b.not_gt, if_pos b]
      have := mul_neg_of_neg_of_pos a b
      constructor
      · intro h; norm_num at h
      · intro h; linarith
    · rw [if_neg a.not_gt, if_pos a, if_pos b]
      have := mul_neg_of_pos_of_neg a b
      constructor
      · intro h; norm_num at h
      · intro h; linarith
    · simp [a, b, a.not_gt, b.not_gt, mul_pos a b]
  constructor
  · rw [← hsign, Feasible, Carries, dir_one, dir_one, one_mulVec]
    constructor
    · rintro ⟨_, h⟩; exact congrFun h 0
    · intro h
      refine ⟨by rw [IsOrth]; simp, ?_⟩
      funext i; exact h
  · intro hpos O' hf
    rw [← hsign] at hpos
    have hc := hf.2
    rw [Carries, dir_one, dir_one] at hc
    have h := congrFun hc 0
    simp [mulVec, dotProduct] at h
    have h1 := npSign_mul_self hs0
    ext i j
    rw [Subsingleton.elim i 0, Subsingleton.elim j 0, one_apply_eq]
    rw [← hpos] at h
    linear_combination (npSign (src 0)) * h + (1 - O' 0 0) * h1

/-- **C27**, exact criterion in dimension at least two. -/
theorem C27_feasible_iff (B : QrC) {k : ℕ} (src dst srcMax dstMax : Fin (k + 2) → ℝ)
    (O : Matrix (Fin (k + 2)) (Fin (k + 2)) ℝ) (hs : src ≠ 0) (hd : dst ≠ 0)
    (h : orthTranslMaxDir B src dst srcMax dstMax = .ok O) :
    (IsOrth O ↔ Apart axis0 src ∧ Apart axis0 dst) ∧ (Feasible O src dst ↔ Apart axis0 src ∧ Apart axis0 dst) := by
  simp only [axis0_eq] at *
  have key : IsOrth O → Apart e0 src ∧ Apart e0 dst := by
    intro hO
    obtain ⟨P, hP, _⟩ := transl_contract hd
    obtain ⟨R, hR, _⟩ := transl_contract hs
    simp only [orthTranslMaxDir, hR, hP] at h
    injection h with h
    rw [← h] at hO
    have hQS : IsOrth (B.Q (colMat ((tailCols R)ᵀ *ᵥ srcMax))) := orth_comm (B.orth _)
    have hQD : IsOrth (B.Q (colMat ((tailCols P)ᵀ *ᵥ dstMax))) := orth_comm (B.orth _)
    rw [Matrix.mul_assoc (tailCols P)] at hO
    refine combine_apart hs hd ?_ hP hR hO
    refine IsOrth.mul ?_ hQS.transpose
    split_ifs
    · exact isOrth_flip hQD
    · exact hQD
  have back : Apart e0 src ∧ Apart e0 dst → Feasible O src dst := by
    rintro ⟨h1, h2⟩
    obtain ⟨O', e, hf, _⟩ := C27_partial B src dst srcMax dstMax hs hd (by rw [axis0_eq]; exact h1) (by rw [axis0_eq]; exact h2)
    rw [h] at e
    injection e with e
    rw [e]; exact hf
  exact ⟨⟨key, fun hA => (back hA).1⟩, ⟨fun hf => key hf.1, back⟩⟩

/-- A vector very close to the first axis but not on it. -/
noncomputable def nearAxis : Fin 2 → ℝ := ![1, 1 / 10 ^ 8]

theorem nearAxis_ne : nearAxis ≠ 0 := by
  intro h; have := congrFun h 0; simp [nearAxis] at this

theorem nearAxis_not_apart : ¬ Apart e0 nearAxis := by
  have hn : nearAxis ⬝ᵥ nearAxis = 1 + 1 / 10 ^ 16 := by
    rw [dotProduct, Fin.sum_univ_two]; simp [nearAxis]; norm_num
  have h0 : (dir (e0 : Fin 2 → ℝ) ⬝ᵥ dir nearAxis) ^ 2 = 1 / (1 + 1 / 10 ^ 16) := by
    rw [dir_e0, dir, dotProduct_smul, hn]
    have : (e0 : Fin 2 → ℝ) ⬝ᵥ nearAxis = 1 := by
      rw [dotProduct, Fin.sum_univ_two]; simp [e0, nearAxis]
    rw [this, smul_eq_mul, mul_one, div_pow, one_pow, Real.sq_sqrt (by norm_num)]
  rw [Apart, sinSq, h0, not_or]
  constructor <;> norm_num

/-- **C26** fails in dimension two near the first axis, whatever decomposition and whatever matrix. -/
theorem C26_violated_near (B : Svd) (M : Matrix (Fin 2) (Fin 2) ℝ) :
    ∃ O, orthTranslMaxTr B axis0 nearAxis M = .ok O ∧ ¬ IsOrth O := by
  simp only [axis0_eq] at *
  obtain ⟨P, hP, _⟩ := transl_contract nearAxis_ne
  obtain ⟨R, hR, _⟩ := transl_contract (e0_ne (k := 1))
  have h : ∃ O, orthTranslMaxTr B e0 nearAxis M = .ok O := by
    simp only [orthTranslMaxTr, hR, hP]
    exact ⟨_, rfl⟩
  obtain ⟨O, hO⟩ := h
  refine ⟨O, hO, fun h => nearAxis_not_apart ?_⟩
  rw [← axis0_eq]
  exact ((C26_feasible_iff B e0 nearAxis M O e0_ne nearAxis_ne hO).1.mp h).2

/-- **C27** fails in dimension two near the first axis, whatever factorisation and whatever directions. -/
theorem C27_violated (B : QrC) (srcMax dstMax : Fin 2 → ℝ) :
    ∃ O, orthTranslMaxDir B axis0 nearAxis srcMax dstMax = .ok O ∧ ¬ IsOrth O := by
  simp only [axis0_eq] at *
  obtain ⟨P, hP, _⟩ := transl_contract nearAxis_ne
  obtain ⟨R, hR, _⟩ := transl_contract (e0_ne (k := 1))
  have h : ∃ O, orthTranslMaxDir B e0 nearAxis srcMax dstMax = .ok O := by
    simp only [orthTranslMaxDir, hR, hP]
    exact ⟨_, rfl⟩
  obtain ⟨O, hO⟩ := h
  refine ⟨O, hO, fun h => nearAxis_not_apart ?_⟩
  rw [← axis0_eq]
  exact ((C27_feasible_iff B e0 nearAxis srcMax dstMax O e0_ne nearAxis_ne hO).1.mp h).2

/-- The criterion on a pair that satisfies it. -/
example (B : Svd) (M : Matrix (Fin 3) (Fin 3) ℝ) (O : Matrix (Fin 3) (Fin 3) ℝ) (h : orthTranslMaxTr B ey e0 M = .ok O) :
    IsOrth O := (C26_feasible_iff B ey e0 M O ey_ne e0_ne h).1.mpr ⟨by rw [axis0_eq]; exact apart_e0_ey, by rw [axis0_eq]; exact apart_e0_self⟩

end Ellipy.LA
