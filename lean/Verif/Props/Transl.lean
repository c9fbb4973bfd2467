import Mathlib.Tactic.NormNum
import Mathlib.Tactic.FinCases
import Verif.Proofs.Transl

/-! Property theorems C24 (`orth_transl`, `ml_orth_transl`) and C25 (`orth_transl_haus`, `orth_transl_qr`). -/

namespace Ellipy.LA
open Matrix

/-! ### C24 -/

/-- **C24**: zero vectors are rejected, nothing else is. -/
theorem C24_raises_iff {n : ℕ} (src dst : Fin n → ℝ) : Raises (orthTransl src dst) ↔ src = 0 ∨ dst = 0 := by
  by_cases hs : src = 0
  · subst hs
    refine iff_of_true ?_ (Or.inl rfl)
    unfold orthTransl
    by_cases h : ∑ i, dst i * dst i = 0
    · rw [if_pos h]; exact ⟨_, rfl⟩
    · rw [if_neg h, if_pos (by simp)]; exact ⟨_, rfl⟩
  by_cases hd : dst = 0
  · subst hd
    refine iff_of_true ?_ (Or.inr rfl)
    unfold orthTransl
    rw [if_pos (by simp)]; exact ⟨_, rfl⟩
  · refine iff_of_false ?_ (by push Not; exact ⟨hs, hd⟩)
    rw [orthTransl_eq hs hd]
    rintro ⟨e, he⟩
    cases he

/-- **C24** holds when the two directions are equal, opposite, or have an angle whose sine exceeds `10⁻⁷`.  Missing for
the full property: directions that are closer to (anti)parallel than that (see `C24_violated`, `C24_close`). -/
theorem C24_partial {n : ℕ} (src dst : Fin n → ℝ) (hs : src ≠ 0) (hd : dst ≠ 0) (h : Apart src dst) :
    ∃ O, orthTransl src dst = .ok O ∧ O * Oᵀ = 1 ∧ O *ᵥ dir src = dir dst :=
  orthTransl_spec hs hd h

/-- Between the thresholds the matrix is not orthogonal: source `(1, t)`-like and destination `(1, 0)`. -/
theorem C24_violated : ∃ (src dst : Fin 2 → ℝ) (O : Matrix (Fin 2) (Fin 2) ℝ), src ≠ 0 ∧ dst ≠ 0 ∧
    orthTransl src dst = .ok O ∧ O * Oᵀ ≠ 1 := by
  -- a point of the unit circle with sine `2t / (1 + t²)`, `t = 10⁻⁸`
  let t : ℝ := 1 / 10 ^ 8
  let c : ℝ := (1 - t ^ 2) / (1 + t ^ 2)
  let s : ℝ := 2 * t / (1 + t ^ 2)
  have hcs : c ^ 2 + s ^ 2 = 1 := by simp only [c, s, t]; norm_num
  have hs0 : 0 < s := by simp only [s, t]; norm_num
  have hst : s ≤ translTol := by simp only [s, t, translTol]; norm_num
  have hsrc : (![c, s] : Fin 2 → ℝ) ≠ 0 := by
    intro h
    have := congrFun h 1
    simp at this
    exact hs0.ne' this
  have hdst : (![1, 0] : Fin 2 → ℝ) ≠ 0 := by
    intro h
    have := congrFun h 0
    simp at this
  have d1 : dir (![c, s] : Fin 2 → ℝ) = ![c, s] := by
    have : (![c, s] : Fin 2 → ℝ) ⬝ᵥ ![c, s] = 1 := by
      simp only [dotProduct, Fin.sum_univ_two]
      simp
      linarith [sq c, sq s]
    rw [dir, this]; simp
  have d2 : dir (![1, 0] : Fin 2 → ℝ) = ![1, 0] := by
    have : (![1, 0] : Fin 2 → ℝ) ⬝ᵥ ![1, 0] = 1 := by
      simp only [dotProduct, Fin.sum_univ_two]; simp
    rw [dir, this]; simp
  have hdot : dir (![c, s] : Fin 2 → ℝ) ⬝ᵥ dir (![1, 0] : Fin 2 → ℝ) = c := by
    rw [d1, d2]; simp [dotProduct, Fin.sum_univ_two]
  have hsin : sinSq (![c, s] : Fin 2 → ℝ) ![1, 0] = s ^ 2 := by rw [sinSq, hdot]; linarith
  have hsq : Real.sqrt (sinSq (![c, s] : Fin 2 → ℝ) ![1, 0]) = s := by rw [hsin, Real.sqrt_sq hs0.le]
  refine ⟨![c, s], ![1, 0], _, hsrc, hdst, orthTransl_eq hsrc hdst, ?_⟩
  rw [hsq, hdot, if_neg (not_lt.mpr hst), d2]
  intro h
  have h00 := congrFun (congrFun h 0) 0
  rw [mul_apply, Fin.sum_univ_two, transpose_apply, transpose_apply, planeRot_apply, planeRot_apply] at h00
  simp at h00
  have hc2 : c ^ 2 = 1 := by
    rw [sq]; exact h00
  have : s ^ 2 = 0 := by linarith
  exact hs0.ne' (pow_eq_zero_iff (two_ne_zero) |>.mp this)

/-- The error made between the thresholds is tiny: for all non-zero vectors the entries of `O Oᵀ` are within `10⁻¹⁴` of
those of the identity and `O` carries the source direction to within `2·10⁻⁷` of the destination in every coordinate. -/
theorem C24_close {n : ℕ} (src dst : Fin n → ℝ) (O : Matrix (Fin n) (Fin n) ℝ) (h : orthTransl src dst = .ok O) :
    (∀ i j, |(O * Oᵀ) i j - (1 : Matrix (Fin n) (Fin n) ℝ) i j| ≤ 1 / 10 ^ 14) ∧
    (∀ i, |(O *ᵥ dir src) i - dir dst i| ≤ 2 / 10 ^ 7) := by
  have hne : ¬ (src = 0 ∨ dst = 0) := by
    rw [← C24_raises_iff]
    rintro ⟨e, he⟩
    rw [he] at h; cases h
  push Not at hne
  obtain ⟨hs, hd⟩ := hne
  by_cases hA : Apart src dst
  · obtain ⟨O', h1, h2, h3⟩ := orthTransl_spec hs hd hA
    rw [h] at h1
    injection h1 with h1
    subst h1
    rw [IsOrth] at h2
    rw [Carries] at h3
    constructor
    · intro i j; rw [h2]; simp
    · intro i; rw [h3]; norm_num
  · have hs2 : sinSq src dst ≤ (1 / 10 ^ 7 : ℝ) ^ 2 := by
      by_contra hlt
      exact hA (Or.inr (not_le.mp hlt))
    have h0 := sinSq_nonneg hs hd
    have hnl : ¬ translTol < Real.sqrt (sinSq src dst) := by
      rw [not_lt, translTol]
      exact Real.sqrt_le_iff.mpr ⟨by norm_num, hs2⟩
    rw [orthTransl_eq hs hd, if_neg hnl] at h
    injection h with h
    have ha := dir_dot hs
    have hd' := dir_dot hd
    set a := dir src
    set d := dir dst
    set c := a ⬝ᵥ d with hc
    have hcS : sinSq src dst = 1 - c ^ 2 := rfl
    have hdi : ∀ i, |d i| ≤ 1 := by
      intro i
      rw [dot_self_eq] at hd'
      have := Finset.single_le_sum (f := fun i => d i ^ 2) (fun i _ => sq_nonneg _) (Finset.mem_univ i)
      rw [hd'] at this
      exact abs_le_one_iff_mul_self_le_one.mpr (by simpa [sq] using this)
    constructor
    · intro i j
      have e : (O * Oᵀ) i j - (1 : Matrix (Fin n) (Fin n) ℝ) i j = (c ^ 2 - 1) * (d i * d j) := by
        rw [← h, planeRot_transpose, planeRot_eq, planeRot_eq]
        simp only [neg_zero, vecMulVec_zero, zero_vecMulVec, smul_zero, add_zero, sub_zero, Matrix.add_mul,
          Matrix.mul_add, Matrix.one_mul, Matrix.mul_one, Matrix.smul_mul, Matrix.mul_smul, vecMulVec_mul', hd', one_smul,
          smul_smul, Matrix.add_apply, Matrix.smul_apply, smul_eq_mul, vecMulVec_apply]
        ring
      rw [e, abs_mul, abs_mul]
      have h1 : |c ^ 2 - 1| ≤ 1 / 10 ^ 14 := by
        rw [abs_le]; constructor
        · rw [hcS] at hs2; norm_num at hs2 ⊢; linarith
        · rw [hcS] at h0; linarith [show (0:ℝ) ≤ 1 / 10 ^ 14 by positivity]
      have h2 : |d i| * |d j| ≤ 1 := by
        have := mul_le_mul (hdi i) (hdi j) (abs_nonneg _) zero_le_one
        simpa using this
      calc |c ^ 2 - 1| * (|d i| * |d j|) ≤ |c ^ 2 - 1| * 1 := mul_le_mul_of_nonneg_left h2 (abs_nonneg _)
        _ ≤ _ := by rw [mul_one]; exact h1
    · intro i
      have e : (O *ᵥ a) i - d i = (a i - c * d i) - (1 - c ^ 2) * d i := by
        rw [← h, planeRot_mulVec]
        simp only [zero_dotProduct, mul_zero, add_zero, Pi.add_apply, Pi.smul_apply, smul_eq_mul, smul_zero]
        have : d ⬝ᵥ a = c := by rw [hc, dotProduct_comm]
        rw [this]
        ring
      have h1 : (a i - c * d i) ^ 2 ≤ 1 - c ^ 2 := by
        have e2 : (a - c • d) ⬝ᵥ (a - c • d) = 1 - c ^ 2 := by
          rw [sub_dotProduct, dotProduct_sub, dotProduct_sub, smul_dotProduct, dotProduct_smul, smul_dotProduct,
            dotProduct_smul, ha, hd', dotProduct_comm d a, ← hc]
          simp only [smul_eq_mul]
          ring
        rw [← e2, dot_self_eq]
        exact Finset.single_le_sum (f := fun i => (a - c • d) i ^ 2) (fun i _ => sq_nonneg _) (Finset.mem_univ i)
      have h2 : |a i - c * d i| ≤ 1 / 10 ^ 7 := by
        apply abs_le_of_sq_le_sq _ (by norm_num)
        rw [hcS] at hs2
        linarith
      have h3 : |(1 - c ^ 2) * d i| ≤ 1 / 10 ^ 7 := by
        rw [abs_mul]
        rw [hcS] at hs2 h0
        rw [abs_of_nonneg h0]
        calc (1 - c ^ 2) * |d i| ≤ (1 - c ^ 2) * 1 := mul_le_mul_of_nonneg_left (hdi i) h0
          _ ≤ _ := by rw [mul_one]; refine le_trans hs2 (by norm_num)
      rw [e]
      calc |(a i - c * d i) - (1 - c ^ 2) * d i| ≤ |a i - c * d i| + |(1 - c ^ 2) * d i| := abs_sub _ _
        _ ≤ _ := by linarith

/-- `ml_orth_transl` treats every pair on its own. -/
theorem C24_ml {n k e : ℕ} (src : Fin n → Fin k → ℝ) (dst : Fin n → Fin k → Fin e → ℝ)
    (res : Fin k → Fin e → Matrix (Fin n) (Fin n) ℝ) (h : mlOrthTransl src dst = .ok res) (v : Fin k) (t : Fin e) :
    orthTransl (fun i => src i v) (fun i => dst i v t) = .ok (res v t) := by
  unfold mlOrthTransl at h
  rw [pyAll_ok] at h
  exact (pyAll_ok _ _).mp (h v) t

/-- A quarter turn. -/
example : ∃ O, orthTransl (![1, 0] : Fin 2 → ℝ) ![0, 2] = .ok O ∧ O * Oᵀ = 1 ∧ O *ᵥ dir ![1, 0] = dir ![0, 2] := by
  apply C24_partial
  · intro h; have := congrFun h 0; simp at this
  · intro h; have := congrFun h 1; simp at this
  · right
    have : dir (![1, 0] : Fin 2 → ℝ) ⬝ᵥ dir (![0, 2] : Fin 2 → ℝ) = 0 := by
      simp [dir, dotProduct, Fin.sum_univ_two]
    rw [sinSq, this]; norm_num

/-! ### C25, Householder -/

/-- **C25**: `orth_transl_haus` yields NaNs exactly for a zero vector. -/
theorem C25_haus_nan_iff {n : ℕ} (src dst : Fin n → ℝ) : orthTranslHaus src dst = none ↔ src = 0 ∨ dst = 0 := by
  have key : ∀ v : Fin n → ℝ, Real.sqrt (∑ i, v i ^ 2) = 0 ↔ v = 0 := by
    intro v
    rw [← dot_self_eq, Real.sqrt_eq_zero (dot_self_nonneg v)]
    constructor
    · intro h
      by_contra hne
      exact absurd h (dot_self_pos hne).ne'
    · rintro rfl; simp
  unfold orthTranslHaus
  simp only [key]
  split_ifs with h <;> simp [h]

theorem haus_eq {n : ℕ} {src dst : Fin n → ℝ} (hs : src ≠ 0) (hd : dst ≠ 0) :
    orthTranslHaus src dst = some (1 - (if (dir src - dir dst) ⬝ᵥ (dir src - dir dst) < hausTol then 0
      else 2 / ((dir src - dir dst) ⬝ᵥ (dir src - dir dst))) • vecMulVec (dir src - dir dst) (dir src - dir dst)) := by
  have hn : ¬ (src = 0 ∨ dst = 0) := by push Not; exact ⟨hs, hd⟩
  have key : ∀ v : Fin n → ℝ, Real.sqrt (∑ i, v i ^ 2) = Real.sqrt (v ⬝ᵥ v) := fun v => by rw [dot_self_eq]
  have h0 : ¬ (Real.sqrt (∑ i, src i ^ 2) = 0 ∨ Real.sqrt (∑ i, dst i ^ 2) = 0) := by
    rw [key, key, Real.sqrt_eq_zero (dot_self_nonneg _), Real.sqrt_eq_zero (dot_self_nonneg _)]
    push Not
    exact ⟨(dot_self_pos hs).ne', (dot_self_pos hd).ne'⟩
  unfold orthTranslHaus
  rw [if_neg h0]
  have hw : (fun i => src i / Real.sqrt (∑ i, src i ^ 2) - dst i / Real.sqrt (∑ i, dst i ^ 2)) = dir src - dir dst := by
    funext i
    rw [key, key, Pi.sub_apply, dir, dir, Pi.smul_apply, Pi.smul_apply, smul_eq_mul, smul_eq_mul]
    ring
  have hw2 : ∑ i, (src i / Real.sqrt (∑ i, src i ^ 2) - dst i / Real.sqrt (∑ i, dst i ^ 2)) ^ 2 =
      (dir src - dir dst) ⬝ᵥ (dir src - dir dst) := by
    rw [dot_self_eq]
    exact Finset.sum_congr rfl (fun i _ => by rw [← congrFun hw i])
  simp only [hw, hw2]

/-- **C25**: the Householder matrix is always orthogonal. -/
theorem C25_haus_orth {n : ℕ} (src dst : Fin n → ℝ) (O : Matrix (Fin n) (Fin n) ℝ)
    (h : orthTranslHaus src dst = some O) : O * Oᵀ = 1 := by
  have hn : ¬ (src = 0 ∨ dst = 0) := by
    rw [← C25_haus_nan_iff]; rw [h]; simp
  push Not at hn
  rw [haus_eq hn.1 hn.2] at h
  injection h with h
  subst h
  set w := dir src - dir dst
  rw [transpose_sub, transpose_one, transpose_smul, transpose_vecMulVec, Matrix.sub_mul, Matrix.one_mul, Matrix.mul_sub, Matrix.mul_one,
    Matrix.smul_mul, Matrix.mul_smul, vecMulVec_mul', smul_smul, smul_smul]
  by_cases hw : w ⬝ᵥ w < hausTol
  · rw [if_pos hw]; simp
  · rw [if_neg hw]
    have h0 : w ⬝ᵥ w ≠ 0 := by
      have : 0 < hausTol := by unfold hausTol; positivity
      exact (lt_of_lt_of_le this (not_lt.mp hw)).ne'
    ext i j
    simp only [Matrix.sub_apply, Matrix.smul_apply, smul_eq_mul]
    field_simp
    ring

/-- **C25** for Householder: the direction is carried when the directions are equal or the squared distance of the
directions is at least `10⁻¹⁴`.  Missing for the full property: directions closer than that, see `C25_haus_violated`. -/
theorem C25_haus_partial {n : ℕ} (src dst : Fin n → ℝ) (hs : src ≠ 0) (hd : dst ≠ 0)
    (h : dir src = dir dst ∨ (1 / 10 ^ 14 : ℝ) ≤ (dir src - dir dst) ⬝ᵥ (dir src - dir dst)) :
    ∃ O, orthTranslHaus src dst = some O ∧ O * Oᵀ = 1 ∧ O *ᵥ dir src = dir dst := by
  refine ⟨_, haus_eq hs hd, C25_haus_orth src dst _ (haus_eq hs hd), ?_⟩
  rcases h with h | h
  · rw [h]; simp
  · have h' : ¬ (dir src - dir dst) ⬝ᵥ (dir src - dir dst) < hausTol := not_lt.mpr h
    rw [if_neg h', sub_mulVec, one_mulVec, smul_mulVec, vecMulVec_mulVec']
    have h0 : (dir src - dir dst) ⬝ᵥ (dir src - dir dst) ≠ 0 := by
      have : (0:ℝ) < 1 / 10 ^ 14 := by positivity
      exact (lt_of_lt_of_le this h).ne'
    have e1 : (dir src - dir dst) ⬝ᵥ (dir src - dir dst) = 2 * ((dir src - dir dst) ⬝ᵥ dir src) := by
      rw [dotProduct_sub, sub_dotProduct, sub_dotProduct, dir_dot hs, dir_dot hd, dotProduct_comm (dir dst)]
      ring
    rw [smul_smul]
    have e2 : 2 / ((dir src - dir dst) ⬝ᵥ (dir src - dir dst)) * ((dir src - dir dst) ⬝ᵥ dir src) = 1 := by
      rw [e1] at h0 ⊢
      have : (dir src - dir dst) ⬝ᵥ dir src ≠ 0 := fun h => h0 (by rw [h]; ring)
      field_simp
    rw [e2, one_smul]
    abel

/-- Directions that differ by less than `10⁻⁷` are not carried: the identity is returned. -/
theorem C25_haus_violated : ∃ (src dst : Fin 2 → ℝ) (O : Matrix (Fin 2) (Fin 2) ℝ), src ≠ 0 ∧ dst ≠ 0 ∧
    orthTranslHaus src dst = some O ∧ O *ᵥ dir src ≠ dir dst := by
  let t : ℝ := 1 / 10 ^ 8
  let c : ℝ := (1 - t ^ 2) / (1 + t ^ 2)
  let s : ℝ := 2 * t / (1 + t ^ 2)
  have hcs : c ^ 2 + s ^ 2 = 1 := by simp only [c, s, t]; norm_num
  have hs0 : 0 < s := by simp only [s, t]; norm_num
  have hsrc : (![c, s] : Fin 2 → ℝ) ≠ 0 := by
    intro h
    have := congrFun h 1
    simp at this
    exact hs0.ne' this
  have hdst : (![1, 0] : Fin 2 → ℝ) ≠ 0 := by
    intro h
    have := congrFun h 0
    simp at this
  have d1 : dir (![c, s] : Fin 2 → ℝ) = ![c, s] := by
    have : (![c, s] : Fin 2 → ℝ) ⬝ᵥ ![c, s] = 1 := by
      simp only [dotProduct, Fin.sum_univ_two]
      simp
      linarith [sq c, sq s]
    rw [dir, this]; simp
  have d2 : dir (![1, 0] : Fin 2 → ℝ) = ![1, 0] := by
    have : (![1, 0] : Fin 2 → ℝ) ⬝ᵥ ![1, 0] = 1 := by
      simp only [dotProduct, Fin.sum_univ_two]; simp
    rw [dir, this]; simp
  have hlt : (dir ![c, s] - dir ![1, 0]) ⬝ᵥ (dir ![c, s] - dir ![1, 0]) < hausTol := by
    rw [d1, d2]
    simp only [dotProduct, Fin.sum_univ_two, Pi.sub_apply]
    simp only [Matrix.cons_val_zero, Matrix.cons_val_one]
    simp only [c, s, t, hausTol]
    norm_num
  refine ⟨![c, s], ![1, 0], _, hsrc, hdst, haus_eq hsrc hdst, ?_⟩
  rw [if_pos hlt, zero_smul, sub_zero, one_mulVec, d1, d2]
  intro h
  have := congrFun h 1
  simp at this
  exact hs0.ne' this

/-- Opposite vectors. -/
example : ∃ O, orthTranslHaus (![3, 4] : Fin 2 → ℝ) ![-3, -4] = some O ∧ O * Oᵀ = 1 ∧
    O *ᵥ dir ![3, 4] = dir ![-3, -4] := by
  have h1 : (![3, 4] : Fin 2 → ℝ) ≠ 0 := by intro h; have := congrFun h 0; simp at this
  have h2 : (![-3, -4] : Fin 2 → ℝ) ≠ 0 := by intro h; have := congrFun h 0; simp at this
  apply C25_haus_partial _ _ h1 h2
  right
  have e : dir (![-3, -4] : Fin 2 → ℝ) = - dir ![3, 4] := by
    have e1 : (![-3, -4] : Fin 2 → ℝ) = -![3, 4] := by simp
    rw [e1, dir, dir, neg_dotProduct_neg, smul_neg]
  rw [e, sub_neg_eq_add, dotProduct_add, add_dotProduct, dir_dot h1]
  norm_num

end Ellipy.LA
