import Mathlib.Topology.Order.IntermediateValue
import Verif.Proofs.DetRoot
import Verif.Props.Fusion
import Verif.Props.PolarDual

/-! Property theorems C138: what the sign of `ell_fusion_lambda` says about the smallest fused ellipsoid. -/

namespace Ellipy.Core
open Matrix Ellipy.LA Ellipy.Ell

section
variable {m : ℕ} {q1 q2 : Fin m → ℝ} {W1 W2 : Matrix (Fin m) (Fin m) ℝ}

/-- The value by the determinant, the trace and the difference of the two forms at the centre. -/
private theorem value (h1 : W1ᵀ = W1) (h2 : W2ᵀ = W2) {a : ℝ} (hd : (Fus.X W1 W2 a).det ≠ 0) (n : ℤ) :
    fusionLambda a q1 W1 q2 W2 n = .ok ((Fus.X W1 W2 a).det ^ 2 * (Fus.k q1 W1 q2 W2 a * trace ((Fus.X W1 W2 a)⁻¹ * (W1 - W2)) +
      n * Fus.s q1 W1 q2 W2 (Fus.q q1 W1 q2 W2 a))) := by
  have hY : ((Fus.X W1 W2 a)⁻¹)ᵀ = (Fus.X W1 W2 a)⁻¹ := by rw [transpose_nonsing_inv, Fus.X_symm h1 h2]
  unfold fusionLambda
  have e0 : a • W1 + (1 - a) • W2 = Fus.X W1 W2 a := rfl
  have eY : (0.5 : ℝ) • ((Fus.X W1 W2 a)⁻¹ + ((Fus.X W1 W2 a)⁻¹)ᵀ) = (Fus.X W1 W2 a)⁻¹ := by
    rw [hY, ← two_smul ℝ, smul_smul]; norm_num
  simp only [e0, eY]
  rw [if_neg hd]
  have eq' : (Fus.X W1 W2 a)⁻¹ *ᵥ (a • (W1 *ᵥ q1) + (1 - a) • (W2 *ᵥ q2)) = Fus.q q1 W1 q2 W2 a := rfl
  have eK : 1 - a * (1 - a) * ((q2 - q1) ⬝ᵥ (W2 * (Fus.X W1 W2 a)⁻¹ * W1) *ᵥ (q2 - q1)) = Fus.k q1 W1 q2 W2 a := rfl
  rw [eq', eK, Matrix.smul_mul, trace_smul, smul_eq_mul]
  congr 1
  unfold Fus.s
  set z := Fus.q q1 W1 q2 W2 a
  rw [sub_eq_add_neg z q1, sub_eq_add_neg z q2, Fus.quad_add h1, Fus.quad_add h2, sub_mulVec, dotProduct_sub]
  simp only [mulVec_neg, dotProduct_neg, neg_dotProduct, neg_neg]
  ring

/-- The inequality between the means for two matrices. -/
private theorem det_ratio {A B : Matrix (Fin m) (Fin m) ℝ} (hm : m ≠ 0) (hA : IsPSD A) (hB : IsPSD B) (hd : 0 < A.det) :
    0 ≤ trace (A⁻¹ * B) ∧ B.det / A.det ≤ (trace (A⁻¹ * B) / m) ^ m := by
  have hu : IsUnit A.det := hd.ne'.isUnit
  have hinv : IsPSD A⁻¹ := by
    refine ⟨by rw [transpose_nonsing_inv, hA.1], fun x => ?_⟩
    have h := hA.2 (A⁻¹ *ᵥ x)
    rwa [mulVec_mulVec, mul_nonsing_inv _ hu, one_mulVec, dotProduct_comm] at h
  obtain ⟨S, hS, hSS⟩ := exists_root hinv
  have hC : IsPSD (S * B * S) := by
    refine ⟨by rw [transpose_mul, transpose_mul, hS.1, hB.1, Matrix.mul_assoc], fun x => ?_⟩
    rw [← mulVec_mulVec, ← mulVec_mulVec, Fus.symm_dot hS.1, dotProduct_comm]
    exact hB.2 _
  have h := detRoot_le_trace hm hC
  have ht : trace (S * B * S) = trace (A⁻¹ * B) := by
    rw [trace_mul_comm, ← Matrix.mul_assoc, hSS]
  have hdet : (S * B * S).det = B.det / A.det := by
    have : (S * S).det = A.det⁻¹ := by rw [hSS, det_nonsing_inv, Ring.inverse_eq_inv']
    rw [det_mul] at this
    rw [det_mul, det_mul, div_eq_mul_inv, ← this]
    ring
  have hm' : (0 : ℝ) < m := by exact_mod_cast Nat.pos_of_ne_zero hm
  have h0 : 0 ≤ detRoot (S * B * S) := Real.rpow_nonneg (psd_det_nonneg hC) _
  have hle : detRoot (S * B * S) ≤ trace (A⁻¹ * B) / m := by
    rw [le_div_iff₀ hm', mul_comm, ← ht]
    exact h
  refine ⟨?_, ?_⟩
  · rw [← ht]
    exact le_trans (mul_nonneg hm'.le h0) h
  · have := pow_le_pow_left₀ h0 hle m
    rwa [detRoot, Real.rpow_inv_natCast_pow (psd_det_nonneg hC) hm, hdet] at this

private theorem X_psd (h1 : IsPSD W1) (h2 : IsPSD W2) {b : ℝ} (h0 : 0 ≤ b) (hb : b ≤ 1) : IsPSD (Fus.X W1 W2 b) := by
  refine ⟨Fus.X_symm h1.1 h2.1 b, fun x => ?_⟩
  rw [Fus.quad_X]
  exact add_nonneg (mul_nonneg h0 (h1.2 x)) (mul_nonneg (by linarith) (h2.2 x))

private theorem k_pos (h1 : IsPSD W1) (h2 : IsPSD W2) {b : ℝ} (h0 : 0 ≤ b) (hb : b ≤ 1) (hd : 0 < (Fus.X W1 W2 b).det)
    (hx : ∃ x, (x - q1) ⬝ᵥ W1 *ᵥ (x - q1) < 1 ∧ (x - q2) ⬝ᵥ W2 *ᵥ (x - q2) < 1) : 0 < Fus.k q1 W1 q2 W2 b := by
  obtain ⟨x, x1, x2⟩ := hx
  have hg := Fus.g_shift (q1 := q1) (q2 := q2) h1.1 h2.1 hd.ne'.isUnit x
  rw [Fus.g_min h1.1 h2.1 hd.ne'.isUnit] at hg
  have hlt : Fus.g q1 W1 q2 W2 b x < 1 := by
    unfold Fus.g
    rcases h0.lt_or_eq with h | h
    · have := mul_lt_mul_of_pos_left x1 h
      have := mul_le_mul_of_nonneg_left x2.le (sub_nonneg.2 hb)
      linarith
    · rw [← h]; linarith
  have := (X_psd h1 h2 h0 hb).2 (x - Fus.q q1 W1 q2 W2 b)
  linarith

private theorem vol_at (hm : m ≠ 0) (h1 : IsPSD W1) (h2 : IsPSD W2) {b : ℝ} (h0 : 0 ≤ b) (hb : b ≤ 1) (hd : 0 < (Fus.X W1 W2 b).det)
    (hk : 0 < Fus.k q1 W1 q2 W2 b) :
    MeasureTheory.volume (Fused q1 W1 q2 W2 b) = ENNReal.ofReal (Real.sqrt Real.pi ^ m / Real.Gamma (m / 2 + 1) *
      Real.sqrt (Fus.k q1 W1 q2 W2 b ^ m / (Fus.X W1 W2 b).det)) := by
  obtain ⟨hP, he⟩ := fused_ell (q1 := q1) (q2 := q2) h1.1 h2.1 (X_psd h1 h2 h0 hb) hd.ne'.isUnit hk
  rw [he, ell_volume_eq hm _ hP, det_smul, det_nonsing_inv, Ring.inverse_eq_inv', Fintype.card_fin, div_eq_mul_inv (Fus.k q1 W1 q2 W2 b ^ m)]

/-- The value at one weight against another weight. -/
private theorem secant (h1 : IsPSD W1) (h2 : IsPSD W2) {a b : ℝ} (hda : (Fus.X W1 W2 a).det ≠ 0) (hdb : (Fus.X W1 W2 b).det ≠ 0) :
    (b - a) * (Fus.k q1 W1 q2 W2 a * trace ((Fus.X W1 W2 a)⁻¹ * (W1 - W2)) + m * Fus.s q1 W1 q2 W2 (Fus.q q1 W1 q2 W2 a)) =
      Fus.k q1 W1 q2 W2 a * trace ((Fus.X W1 W2 a)⁻¹ * Fus.X W1 W2 b) +
      m * ((Fus.q q1 W1 q2 W2 a - Fus.q q1 W1 q2 W2 b) ⬝ᵥ Fus.X W1 W2 b *ᵥ (Fus.q q1 W1 q2 W2 a - Fus.q q1 W1 q2 W2 b)) -
      m * Fus.k q1 W1 q2 W2 b := by
  have e1 : (b - a) * trace ((Fus.X W1 W2 a)⁻¹ * (W1 - W2)) = trace ((Fus.X W1 W2 a)⁻¹ * Fus.X W1 W2 b) - m := by
    have : Fus.X W1 W2 b = Fus.X W1 W2 a + (b - a) • (W1 - W2) := by
      unfold Fus.X
      rw [smul_sub, sub_smul, sub_smul, sub_smul, sub_smul]
      abel
    rw [this, mul_add, nonsing_inv_mul _ (isUnit_iff_ne_zero.2 hda), Matrix.mul_smul, trace_add, trace_smul, trace_one, Fintype.card_fin, smul_eq_mul]
    ring
  have e2 := Fus.g_affine (q1 := q1) (q2 := q2) (W1 := W1) (W2 := W2) a b (Fus.q q1 W1 q2 W2 a)
  rw [Fus.g_min h1.1 h2.1 (isUnit_iff_ne_zero.2 hda), Fus.g_shift h1.1 h2.1 (isUnit_iff_ne_zero.2 hdb), Fus.g_min h1.1 h2.1 (isUnit_iff_ne_zero.2 hdb)] at e2
  linear_combination Fus.k q1 W1 q2 W2 a * e1 - (m : ℝ) * e2

/-- A set given by a singular form has no finite measure. -/
private theorem within_top (hm : m ≠ 0) (q : Fin m → ℝ) {W : Matrix (Fin m) (Fin m) ℝ} (hW : IsPSD W) (hd : W.det = 0) :
    MeasureTheory.volume (Within q W) = ⊤ := by
  set β := Real.sqrt Real.pi ^ m / Real.Gamma (m / 2 + 1) with hβ
  have hβ0 : 0 < β := div_pos (pow_pos (Real.sqrt_pos.mpr Real.pi_pos) _) (Real.Gamma_pos_of_pos (by positivity))
  have hpos : ∀ ε : ℝ, 0 < ε → IsPSD (W + ε • 1) ∧ 0 < (W + ε • (1 : Matrix (Fin m) (Fin m) ℝ)).det := by
    intro ε hε
    have hq : ∀ x : Fin m → ℝ, x ⬝ᵥ (W + ε • 1) *ᵥ x = x ⬝ᵥ W *ᵥ x + ε * (x ⬝ᵥ x) := by
      intro x
      rw [add_mulVec, smul_mulVec, one_mulVec, dotProduct_add, dotProduct_smul, smul_eq_mul]
    have hP : IsPSD (W + ε • 1) := by
      refine ⟨by rw [transpose_add, transpose_smul, transpose_one, hW.1], fun x => ?_⟩
      rw [hq]
      exact add_nonneg (hW.2 x) (mul_nonneg hε.le (dot_self_nonneg x))
    refine ⟨hP, det_pos_of_pos hP fun x hx => ?_⟩
    rw [hq]
    have : 0 < x ⬝ᵥ x := lt_of_le_of_ne (dot_self_nonneg x) fun h => hx (dotProduct_self_eq_zero.1 h.symm)
    exact add_pos_of_nonneg_of_pos (hW.2 x) (mul_pos hε this)
  have hle : ∀ ε : ℝ, 0 < ε → ENNReal.ofReal (β * Real.sqrt (1 / (W + ε • (1 : Matrix (Fin m) (Fin m) ℝ)).det)) ≤ MeasureTheory.volume (Within q W) := by
    intro ε hε
    obtain ⟨hP, hd'⟩ := hpos ε hε
    have hu : IsUnit (W + ε • (1 : Matrix (Fin m) (Fin m) ℝ)).det := hd'.ne'.isUnit
    have hinv : IsPSD (W + ε • (1 : Matrix (Fin m) (Fin m) ℝ))⁻¹ := by
      refine ⟨by rw [transpose_nonsing_inv, hP.1], fun x => ?_⟩
      have h := hP.2 ((W + ε • (1 : Matrix (Fin m) (Fin m) ℝ))⁻¹ *ᵥ x)
      rwa [mulVec_mulVec, mul_nonsing_inv _ hu, one_mulVec, dotProduct_comm] at h
    have e := ell_volume_eq hm q hinv
    rw [det_nonsing_inv, Ring.inverse_eq_inv'] at e
    rw [one_div, hβ, ← e]
    refine MeasureTheory.measure_mono fun x hx => ?_
    rw [mem_ell_inv hinv (by rw [det_nonsing_inv, Ring.inverse_eq_inv']; exact (inv_ne_zero hd'.ne').isUnit), nonsing_inv_nonsing_inv _ hu,
      add_mulVec, smul_mulVec, one_mulVec, dotProduct_add, dotProduct_smul, smul_eq_mul] at hx
    have := mul_nonneg hε.le (dot_self_nonneg (x - q))
    show (x - q) ⬝ᵥ W *ᵥ (x - q) ≤ 1
    linarith
  have hc : Filter.Tendsto (fun ε : ℝ => (W + ε • (1 : Matrix (Fin m) (Fin m) ℝ)).det) (nhdsWithin 0 (Set.Ioi 0)) (nhdsWithin 0 (Set.Ioi 0)) := by
    refine tendsto_nhdsWithin_iff.2 ⟨?_, ?_⟩
    · have hcont : Continuous fun ε : ℝ => (W + ε • (1 : Matrix (Fin m) (Fin m) ℝ)).det := Continuous.matrix_det (by fun_prop)
      have := hcont.tendsto 0
      rw [zero_smul, add_zero, hd] at this
      exact this.mono_left nhdsWithin_le_nhds
    · filter_upwards [self_mem_nhdsWithin] with ε hε
      exact (hpos ε hε).2
  have ht : Filter.Tendsto (fun ε : ℝ => ENNReal.ofReal (β * Real.sqrt (1 / (W + ε • (1 : Matrix (Fin m) (Fin m) ℝ)).det)))
      (nhdsWithin 0 (Set.Ioi 0)) (nhds ⊤) := by
    refine ENNReal.tendsto_ofReal_atTop.comp (Filter.Tendsto.const_mul_atTop hβ0 (Real.tendsto_sqrt_atTop.comp ?_))
    simp only [one_div]
    exact tendsto_inv_nhdsGT_zero.comp hc
  exact top_le_iff.1 (le_of_tendsto ht (by filter_upwards [self_mem_nhdsWithin] with ε hε using hle ε hε))

private theorem singular_top (hm : m ≠ 0) (h1 : IsPSD W1) (h2 : IsPSD W2)
    (hp : ∀ x : Fin m → ℝ, x ≠ 0 → 0 < x ⬝ᵥ W1 *ᵥ x + x ⬝ᵥ W2 *ᵥ x) {b : ℝ} (h0 : 0 ≤ b) (hb : b ≤ 1) (hd : ¬ 0 < (Fus.X W1 W2 b).det) :
    MeasureTheory.volume (Fused q1 W1 q2 W2 b) = ⊤ := by
  have hdet : (Fus.X W1 W2 b).det = 0 := le_antisymm (not_lt.1 hd) (psd_det_nonneg (X_psd h1 h2 h0 hb))
  rcases h0.lt_or_eq with h | h
  · rcases hb.lt_or_eq with h' | h'
    · exact absurd (det_pos_of_pos (Fus.X_pos h1 h2 hp h h').1 (Fus.X_pos h1 h2 hp h h').2) hd
    · subst h'
      have e : Fused q1 W1 q2 W2 1 = Within q1 W1 := by ext x; simp [Fused, Within]
      rw [e]
      exact within_top hm q1 h1 (by simpa [Fus.X] using hdet)
  · subst h
    have e : Fused q1 W1 q2 W2 0 = Within q2 W2 := by ext x; simp [Fused, Within]
    rw [e]
    exact within_top hm q2 h2 (by simpa [Fus.X] using hdet)

end

/-- **C138**: the sign of the value says on which side the smallest fused ellipsoid is not: every weight against the sign gives a larger measure.
The weights 0 and 1 belong to the two ellipsoids themselves. -/
theorem C138_sign {m : ℕ} (hm : m ≠ 0) (q1 q2 : Fin m → ℝ) (W1 W2 : Matrix (Fin m) (Fin m) ℝ) (h1 : IsPSD W1) (h2 : IsPSD W2)
    (hp : ∀ x : Fin m → ℝ, x ≠ 0 → 0 < x ⬝ᵥ W1 *ᵥ x + x ⬝ᵥ W2 *ᵥ x)
    (hx : ∃ x, (x - q1) ⬝ᵥ W1 *ᵥ (x - q1) < 1 ∧ (x - q2) ⬝ᵥ W2 *ᵥ (x - q2) < 1) (a : ℝ) (ha0 : 0 < a) (ha1 : a < 1) (b : ℝ) (hb0 : 0 ≤ b) (hb1 : b ≤ 1)
    (f : ℝ) (hf : fusionLambda a q1 W1 q2 W2 m = .ok f) :
    ((b - a) * f ≤ 0 → MeasureTheory.volume (Fused q1 W1 q2 W2 a) ≤ MeasureTheory.volume (Fused q1 W1 q2 W2 b)) ∧
    ((b - a) * f < 0 → MeasureTheory.volume (Fused q1 W1 q2 W2 a) < MeasureTheory.volume (Fused q1 W1 q2 W2 b)) := by
  have hda : 0 < (Fus.X W1 W2 a).det := det_pos_of_pos (Fus.X_pos h1 h2 hp ha0 ha1).1 (Fus.X_pos h1 h2 hp ha0 ha1).2
  have hka := k_pos h1 h2 ha0.le ha1.le hda hx
  have hva := vol_at hm h1 h2 ha0.le ha1.le hda hka
  by_cases hdb : 0 < (Fus.X W1 W2 b).det
  swap
  · rw [singular_top hm h1 h2 hp hb0 hb1 hdb, hva]
    exact ⟨fun _ => le_top, fun _ => ENNReal.ofReal_lt_top⟩
  have hkb := k_pos h1 h2 hb0 hb1 hdb hx
  rw [hva, vol_at hm h1 h2 hb0 hb1 hdb hkb]
  rw [value h1.1 h2.1 hda.ne' m] at hf
  have hf' := Except.ok.inj hf
  have hs := secant (q1 := q1) (q2 := q2) h1 h2 hda.ne' hdb.ne'
  have hE := (X_psd h1 h2 hb0 hb1).2 (Fus.q q1 W1 q2 W2 a - Fus.q q1 W1 q2 W2 b)
  obtain ⟨hT, hr⟩ := det_ratio hm (X_psd h1 h2 ha0.le ha1.le) (X_psd h1 h2 hb0 hb1) hda
  set T := trace ((Fus.X W1 W2 a)⁻¹ * Fus.X W1 W2 b)
  set E := (Fus.q q1 W1 q2 W2 a - Fus.q q1 W1 q2 W2 b) ⬝ᵥ Fus.X W1 W2 b *ᵥ (Fus.q q1 W1 q2 W2 a - Fus.q q1 W1 q2 W2 b)
  set ka := Fus.k q1 W1 q2 W2 a
  set kb := Fus.k q1 W1 q2 W2 b
  set δa := (Fus.X W1 W2 a).det
  set δb := (Fus.X W1 W2 b).det
  have hm' : (0 : ℝ) < m := by exact_mod_cast Nat.pos_of_ne_zero hm
  have hprod : (b - a) * f = δa ^ 2 * (ka * T + m * E - m * kb) := by
    rw [← hs, ← hf']
    push_cast
    ring
  have hδ2 : 0 < δa ^ 2 := pow_pos hda 2
  set β := Real.sqrt Real.pi ^ m / Real.Gamma (m / 2 + 1) with hβ
  have hβ0 : 0 < β := div_pos (pow_pos (Real.sqrt_pos.mpr Real.pi_pos) _) (Real.Gamma_pos_of_pos (by positivity))
  have hmE := mul_nonneg hm'.le hE
  rw [div_le_iff₀ hda] at hr
  constructor
  · intro h
    rw [hprod] at h
    have h' : ka * T + m * E - m * kb ≤ 0 := nonpos_of_mul_nonpos_right h hδ2
    have hle : T / m ≤ kb / ka := by
      rw [div_le_div_iff₀ hm' hka]
      linarith
    have hpw := pow_le_pow_left₀ (div_nonneg hT hm'.le) hle m
    refine ENNReal.ofReal_le_ofReal (mul_le_mul_of_nonneg_left (Real.sqrt_le_sqrt ?_) hβ0.le)
    rw [div_le_div_iff₀ hda hdb]
    have h2 := hr.trans (mul_le_mul_of_nonneg_right hpw hda.le)
    rw [div_pow, div_mul_eq_mul_div, le_div_iff₀ (pow_pos hka m)] at h2
    linarith
  · intro h
    rw [hprod] at h
    have h' : ka * T + m * E - m * kb < 0 := by
      by_contra hc
      exact absurd h (not_lt.2 (mul_nonneg hδ2.le (not_lt.1 hc)))
    have hlt : T / m < kb / ka := by
      rw [div_lt_div_iff₀ hm' hka]
      linarith
    have hpw := pow_lt_pow_left₀ hlt (div_nonneg hT hm'.le) hm
    have hlt' : ka ^ m / δa < kb ^ m / δb := by
      rw [div_lt_div_iff₀ hda hdb]
      have h2 := hr.trans_lt (mul_lt_mul_of_pos_right hpw hda)
      rw [div_pow, div_mul_eq_mul_div, lt_div_iff₀ (pow_pos hka m)] at h2
      linarith
    have h0 : 0 ≤ ka ^ m / δa := (div_pos (pow_pos hka m) hda).le
    refine (ENNReal.ofReal_lt_ofReal_iff (mul_pos hβ0 (Real.sqrt_pos.2 (h0.trans_lt hlt')))).2 ?_
    exact mul_lt_mul_of_pos_left (Real.sqrt_lt_sqrt h0 hlt') hβ0

/-- **C138**: at a zero the fused ellipsoid is the smallest of all, also compared with the two ellipsoids themselves. -/
theorem C138_zero {m : ℕ} (hm : m ≠ 0) (q1 q2 : Fin m → ℝ) (W1 W2 : Matrix (Fin m) (Fin m) ℝ) (h1 : IsPSD W1) (h2 : IsPSD W2)
    (hp : ∀ x : Fin m → ℝ, x ≠ 0 → 0 < x ⬝ᵥ W1 *ᵥ x + x ⬝ᵥ W2 *ᵥ x)
    (hx : ∃ x, (x - q1) ⬝ᵥ W1 *ᵥ (x - q1) < 1 ∧ (x - q2) ⬝ᵥ W2 *ᵥ (x - q2) < 1) (a : ℝ) (ha0 : 0 < a) (ha1 : a < 1)
    (hf : fusionLambda a q1 W1 q2 W2 m = .ok 0) :
    (∀ b, 0 ≤ b → b ≤ 1 → MeasureTheory.volume (Fused q1 W1 q2 W2 a) ≤ MeasureTheory.volume (Fused q1 W1 q2 W2 b)) ∧
    MeasureTheory.volume (Fused q1 W1 q2 W2 a) ≤ MeasureTheory.volume (Within q1 W1) ∧
    MeasureTheory.volume (Fused q1 W1 q2 W2 a) ≤ MeasureTheory.volume (Within q2 W2) := by
  have key := fun b hb0 hb1 => (C138_sign hm q1 q2 W1 W2 h1 h2 hp hx a ha0 ha1 b hb0 hb1 0 hf).1 (by simp)
  refine ⟨key, ?_, ?_⟩
  · have := key 1 zero_le_one le_rfl
    rwa [show Fused q1 W1 q2 W2 1 = Within q1 W1 by ext x; simp [Fused, Within]] at this
  · have := key 0 le_rfl zero_le_one
    rwa [show Fused q1 W1 q2 W2 0 = Within q2 W2 by ext x; simp [Fused, Within]] at this

/-- **C138**: there is only one smallest fused ellipsoid: all zeros give the same set. -/
theorem C138_unique {m : ℕ} (hm : m ≠ 0) (q1 q2 : Fin m → ℝ) (W1 W2 : Matrix (Fin m) (Fin m) ℝ) (h1 : IsPSD W1) (h2 : IsPSD W2)
    (hp : ∀ x : Fin m → ℝ, x ≠ 0 → 0 < x ⬝ᵥ W1 *ᵥ x + x ⬝ᵥ W2 *ᵥ x)
    (hx : ∃ x, (x - q1) ⬝ᵥ W1 *ᵥ (x - q1) < 1 ∧ (x - q2) ⬝ᵥ W2 *ᵥ (x - q2) < 1) (a b : ℝ) (ha0 : 0 < a) (ha1 : a < 1) (hb0 : 0 < b) (hb1 : b < 1)
    (hfa : fusionLambda a q1 W1 q2 W2 m = .ok 0) (hfb : fusionLambda b q1 W1 q2 W2 m = .ok 0) : Fused q1 W1 q2 W2 a = Fused q1 W1 q2 W2 b := by
  have hXa := Fus.X_pos h1 h2 hp ha0 ha1
  have hXb := Fus.X_pos h1 h2 hp hb0 hb1
  have hda : 0 < (Fus.X W1 W2 a).det := det_pos_of_pos hXa.1 hXa.2
  have hdb : 0 < (Fus.X W1 W2 b).det := det_pos_of_pos hXb.1 hXb.2
  have hka := k_pos h1 h2 ha0.le ha1.le hda hx
  have hkb := k_pos h1 h2 hb0.le hb1.le hdb hx
  rw [value h1.1 h2.1 hda.ne' m] at hfa
  rw [value h1.1 h2.1 hdb.ne' m] at hfb
  have hfa' := (mul_eq_zero.1 (Except.ok.inj hfa)).resolve_left (pow_pos hda 2).ne'
  have hfb' := (mul_eq_zero.1 (Except.ok.inj hfb)).resolve_left (pow_pos hdb 2).ne'
  push_cast at hfa' hfb'
  have sa := secant (q1 := q1) (q2 := q2) h1 h2 hda.ne' hdb.ne'
  have sb := secant (q1 := q1) (q2 := q2) h1 h2 hdb.ne' hda.ne'
  rw [hfa', mul_zero] at sa
  rw [hfb', mul_zero] at sb
  have hua := hda.ne'.isUnit
  have hub := hdb.ne'.isUnit
  have hm' : (0 : ℝ) < m := by exact_mod_cast Nat.pos_of_ne_zero hm
  have hEa := hXb.1.2 (Fus.q q1 W1 q2 W2 a - Fus.q q1 W1 q2 W2 b)
  have hEb := hXa.1.2 (Fus.q q1 W1 q2 W2 b - Fus.q q1 W1 q2 W2 a)
  set Ta := trace ((Fus.X W1 W2 a)⁻¹ * Fus.X W1 W2 b) with hTa
  set Tb := trace ((Fus.X W1 W2 b)⁻¹ * Fus.X W1 W2 a) with hTb
  set Ea := (Fus.q q1 W1 q2 W2 a - Fus.q q1 W1 q2 W2 b) ⬝ᵥ Fus.X W1 W2 b *ᵥ (Fus.q q1 W1 q2 W2 a - Fus.q q1 W1 q2 W2 b) with hEadef
  set Eb := (Fus.q q1 W1 q2 W2 b - Fus.q q1 W1 q2 W2 a) ⬝ᵥ Fus.X W1 W2 a *ᵥ (Fus.q q1 W1 q2 W2 b - Fus.q q1 W1 q2 W2 a)
  set ka := Fus.k q1 W1 q2 W2 a with hkadef
  set kb := Fus.k q1 W1 q2 W2 b with hkbdef
  -- the forms are proportional
  set D := ka • Fus.X W1 W2 b - kb • Fus.X W1 W2 a with hD
  have hDs : Dᵀ = D := by rw [hD, transpose_sub, transpose_smul, transpose_smul, hXb.1.1, hXa.1.1]
  have hinv : ∀ {A : Matrix (Fin m) (Fin m) ℝ}, IsPSD A → IsUnit A.det → IsPSD A⁻¹ := by
    intro A hA hu
    refine ⟨by rw [transpose_nonsing_inv, hA.1], fun x => ?_⟩
    have h := hA.2 (A⁻¹ *ᵥ x)
    rwa [mulVec_mulVec, mul_nonsing_inv _ hu, one_mulVec, dotProduct_comm] at h
  obtain ⟨S, hS, hSS⟩ := exists_root (hinv hXa.1 hua)
  have htr : trace ((S * D) * (Fus.X W1 W2 b)⁻¹ * (D * S)) = ka ^ 2 * Ta - 2 * (ka * kb * m) + kb ^ 2 * Tb := by
    have e1 : D * (Fus.X W1 W2 b)⁻¹ * D = ka ^ 2 • Fus.X W1 W2 b - (2 * (ka * kb)) • Fus.X W1 W2 a +
        kb ^ 2 • (Fus.X W1 W2 a * (Fus.X W1 W2 b)⁻¹ * Fus.X W1 W2 a) := by
      have e2 : Fus.X W1 W2 b * (Fus.X W1 W2 b)⁻¹ = 1 := mul_nonsing_inv _ hub
      have e3 : (Fus.X W1 W2 b)⁻¹ * Fus.X W1 W2 b = 1 := nonsing_inv_mul _ hub
      rw [hD]
      simp only [sub_mul, mul_sub, Matrix.smul_mul, Matrix.mul_smul, e2, Matrix.one_mul, Matrix.mul_assoc, e3, Matrix.mul_one, smul_smul]
      module
    have e4 : trace ((S * D) * (Fus.X W1 W2 b)⁻¹ * (D * S)) = trace ((Fus.X W1 W2 a)⁻¹ * (D * (Fus.X W1 W2 b)⁻¹ * D)) := by
      have : (S * D) * (Fus.X W1 W2 b)⁻¹ * (D * S) = (S * (D * (Fus.X W1 W2 b)⁻¹ * D)) * S := by simp only [Matrix.mul_assoc]
      rw [this, trace_mul_comm, ← Matrix.mul_assoc, hSS]
    rw [e4, e1, mul_add, mul_sub, Matrix.mul_smul, Matrix.mul_smul, Matrix.mul_smul, nonsing_inv_mul _ hua, Matrix.mul_assoc (Fus.X W1 W2 a),
      ← Matrix.mul_assoc (Fus.X W1 W2 a)⁻¹, nonsing_inv_mul _ hua, Matrix.one_mul, trace_add, trace_sub, trace_smul, trace_smul, trace_smul, trace_one,
      Fintype.card_fin, smul_eq_mul, smul_eq_mul, smul_eq_mul]
    ring
  have hle : trace ((S * D) * (Fus.X W1 W2 b)⁻¹ * (D * S)) ≤ 0 := by
    rw [htr]
    have i1 := mul_nonneg (mul_nonneg hka.le hm'.le) hEa
    have i2 := mul_nonneg (mul_nonneg hkb.le hm'.le) hEb
    nlinarith [sa, sb]
  have hPb := hinv hXb.1 hub
  have hcol : ∀ i, ((S * D) * (Fus.X W1 W2 b)⁻¹ * (D * S)) i i = (fun j => (D * S) j i) ⬝ᵥ (Fus.X W1 W2 b)⁻¹ *ᵥ (fun j => (D * S) j i) := by
    intro i
    have : S * D = (D * S)ᵀ := by rw [transpose_mul, hDs, hS.1]
    rw [this, Matrix.mul_assoc]
    rfl
  have hDS : D * S = 0 := by
    have hz : ∀ i, ((S * D) * (Fus.X W1 W2 b)⁻¹ * (D * S)) i i = 0 := by
      have hnn : ∀ i ∈ Finset.univ, 0 ≤ ((S * D) * (Fus.X W1 W2 b)⁻¹ * (D * S)) i i := fun i _ => by rw [hcol]; exact hPb.2 _
      have hsum : ∑ i, ((S * D) * (Fus.X W1 W2 b)⁻¹ * (D * S)) i i = 0 := le_antisymm hle (Finset.sum_nonneg hnn)
      exact fun i => (Finset.sum_eq_zero_iff_of_nonneg hnn).1 hsum i (Finset.mem_univ i)
    ext j i
    have h := hz i
    rw [hcol] at h
    by_contra hne
    have hv : (Fus.X W1 W2 b)⁻¹ *ᵥ (fun j => (D * S) j i) ≠ 0 := by
      intro h0
      have := congrArg (fun v => Fus.X W1 W2 b *ᵥ v) h0
      simp only [mulVec_mulVec, mul_nonsing_inv _ hub, one_mulVec, mulVec_zero] at this
      exact hne (congrFun this j)
    have := hXb.2 _ hv
    rw [mulVec_mulVec, mul_nonsing_inv _ hub, one_mulVec, dotProduct_comm, h] at this
    exact lt_irrefl _ this
  have hD0 : D = 0 := by
    have : D * S * (S * Fus.X W1 W2 a) = D := by
      rw [Matrix.mul_assoc, ← Matrix.mul_assoc S S, hSS, nonsing_inv_mul _ hua, Matrix.mul_one]
    rw [← this, hDS, Matrix.zero_mul]
  have hprop : ka • Fus.X W1 W2 b = kb • Fus.X W1 W2 a := sub_eq_zero.1 (hD ▸ hD0)
  -- the centres agree
  have hTa' : ka * Ta = kb * m := by
    have := congrArg (fun M => trace ((Fus.X W1 W2 a)⁻¹ * M)) hprop
    simpa [Matrix.mul_smul, nonsing_inv_mul _ hua, trace_one] using this
  have hEa0 : Ea = 0 := by
    have : (m : ℝ) * Ea = 0 := by linarith
    exact (mul_eq_zero.1 this).resolve_left hm'.ne'
  have hq : Fus.q q1 W1 q2 W2 a = Fus.q q1 W1 q2 W2 b := by
    by_contra hne
    have := hXb.2 _ (sub_ne_zero.2 hne)
    rw [← hEadef, hEa0] at this
    exact lt_irrefl _ this
  ext x
  have ea := Fus.g_shift (q1 := q1) (q2 := q2) h1.1 h2.1 hua x
  have eb := Fus.g_shift (q1 := q1) (q2 := q2) h1.1 h2.1 hub x
  rw [Fus.g_min h1.1 h2.1 hua] at ea
  rw [Fus.g_min h1.1 h2.1 hub, ← hq] at eb
  have ec := congrArg (fun M => (x - Fus.q q1 W1 q2 W2 a) ⬝ᵥ M *ᵥ (x - Fus.q q1 W1 q2 W2 a)) hprop
  simp only [smul_mulVec, dotProduct_smul, smul_eq_mul] at ec
  show Fus.g q1 W1 q2 W2 a x ≤ 1 ↔ Fus.g q1 W1 q2 W2 b x ≤ 1
  have hfin : ka * (Fus.g q1 W1 q2 W2 b x - 1) = kb * (Fus.g q1 W1 q2 W2 a x - 1) := by
    rw [ea, eb]
    linear_combination ec
  constructor <;> intro h
  · have := mul_nonpos_of_nonneg_of_nonpos hkb.le (sub_nonpos.2 h)
    rw [← hfin] at this
    exact sub_nonpos.1 (nonpos_of_mul_nonpos_right this hka)
  · have := mul_nonpos_of_nonneg_of_nonpos hka.le (sub_nonpos.2 h)
    rw [hfin] at this
    exact sub_nonpos.1 (nonpos_of_mul_nonpos_right this hkb)

/-- **C138**: between two weights with opposite signs lies a zero, so bisection finds the smallest fused ellipsoid. -/
theorem C138_bracket {m : ℕ} (q1 q2 : Fin m → ℝ) (W1 W2 : Matrix (Fin m) (Fin m) ℝ) (h1 : IsPSD W1) (h2 : IsPSD W2)
    (hp : ∀ x : Fin m → ℝ, x ≠ 0 → 0 < x ⬝ᵥ W1 *ᵥ x + x ⬝ᵥ W2 *ᵥ x) (a b : ℝ) (ha0 : 0 < a) (hab : a < b) (hb1 : b < 1) (fa fb : ℝ)
    (hfa : fusionLambda a q1 W1 q2 W2 m = .ok fa) (hfb : fusionLambda b q1 W1 q2 W2 m = .ok fb) (ha : 0 < fa) (hb : fb < 0) :
    ∃ c, a < c ∧ c < b ∧ fusionLambda c q1 W1 q2 W2 m = .ok 0 := by
  have hd : ∀ t, 0 < t → t < 1 → 0 < (Fus.X W1 W2 t).det := fun t ht ht' =>
    det_pos_of_pos (Fus.X_pos h1 h2 hp ht ht').1 (Fus.X_pos h1 h2 hp ht ht').2
  let F : ℝ → ℝ := fun t => (Fus.X W1 W2 t).det ^ 2 * (Fus.k q1 W1 q2 W2 t * trace ((Fus.X W1 W2 t)⁻¹ * (W1 - W2)) +
    ((m : ℤ) : ℝ) * Fus.s q1 W1 q2 W2 (Fus.q q1 W1 q2 W2 t))
  have hF : ∀ t, 0 < t → t < 1 → fusionLambda t q1 W1 q2 W2 m = .ok (F t) := fun t ht ht' => value h1.1 h2.1 (hd t ht ht').ne' m
  have hcont : ContinuousOn F (Set.Icc a b) := by
    intro t ht
    have ht0 : 0 < t := lt_of_lt_of_le ha0 ht.1
    have ht1 : t < 1 := lt_of_le_of_lt ht.2 hb1
    have hX : Continuous (fun t : ℝ => Fus.X W1 W2 t) := by unfold Fus.X; fun_prop
    have hi : ContinuousAt (fun t : ℝ => (Fus.X W1 W2 t)⁻¹) t := by
      have : (fun t : ℝ => (Fus.X W1 W2 t)⁻¹) = fun t => ((Fus.X W1 W2 t).det)⁻¹ • (Fus.X W1 W2 t).adjugate := by
        funext t
        rw [Matrix.inv_def, Ring.inverse_eq_inv']
      rw [this]
      exact (hX.matrix_det.continuousAt.inv₀ (hd t ht0 ht1).ne').smul hX.matrix_adjugate.continuousAt
    have htr : ContinuousAt (fun t : ℝ => trace ((Fus.X W1 W2 t)⁻¹ * (W1 - W2))) t := by
      have hc : Continuous fun M : Matrix (Fin m) (Fin m) ℝ => trace (M * (W1 - W2)) := by fun_prop
      exact ContinuousAt.comp (f := fun t : ℝ => (Fus.X W1 W2 t)⁻¹) hc.continuousAt hi
    have hs : ContinuousAt (fun t => Fus.s q1 W1 q2 W2 (Fus.q q1 W1 q2 W2 t)) t :=
      Fus.s_cont.continuousAt.comp (Fus.q_cont (hd t ht0 ht1).ne')
    have hk : ContinuousAt (Fus.k q1 W1 q2 W2) t := (Fus.k_deriv h1 h2 hp ht0 ht1).continuousAt
    exact ((hX.matrix_det.continuousAt.pow 2).mul ((hk.mul htr).add (continuousAt_const.mul hs))).continuousWithinAt
  rw [hF a ha0 (hab.trans hb1)] at hfa
  rw [hF b (ha0.trans hab) hb1] at hfb
  have ea := Except.ok.inj hfa
  have eb := Except.ok.inj hfb
  obtain ⟨c, hc, hc0⟩ := intermediate_value_Ioo' hab.le hcont (show (0 : ℝ) ∈ Set.Ioo (F b) (F a) from ⟨eb ▸ hb, ea ▸ ha⟩)
  refine ⟨c, hc.1, hc.2, ?_⟩
  rw [hF c (ha0.trans hc.1) (hc.2.trans hb1), hc0]

/-- **C138**: exchanging the ellipsoids and the weights changes the sign. -/
theorem C138_swap {m : ℕ} (a : ℝ) (q1 q2 : Fin m → ℝ) (W1 W2 : Matrix (Fin m) (Fin m) ℝ) (h1 : W1ᵀ = W1) (h2 : W2ᵀ = W2) (n : ℤ) :
    fusionLambda (1 - a) q2 W2 q1 W1 n = (fusionLambda a q1 W1 q2 W2 n).map fun f => -f := by
  have eX : Fus.X W2 W1 (1 - a) = Fus.X W1 W2 a := by unfold Fus.X; rw [sub_sub_cancel, add_comm]
  by_cases hd : (Fus.X W1 W2 a).det = 0
  · have e1 : fusionLambda a q1 W1 q2 W2 n = .error .linAlgError := by unfold fusionLambda; exact if_pos hd
    have e2 : fusionLambda (1 - a) q2 W2 q1 W1 n = .error .linAlgError := by unfold fusionLambda; exact if_pos ((congrArg det eX).trans hd)
    rw [e1, e2]
    rfl
  · rw [value h1 h2 hd, value h2 h1 (by rwa [eX])]
    have eq : Fus.q q2 W2 q1 W1 (1 - a) = Fus.q q1 W1 q2 W2 a := by
      unfold Fus.q
      rw [eX, sub_sub_cancel, add_comm]
    have ek : Fus.k q2 W2 q1 W1 (1 - a) = Fus.k q1 W1 q2 W2 a := by
      unfold Fus.k
      rw [eX, sub_sub_cancel, Fus.par_comm (isUnit_iff_ne_zero.2 hd), ← neg_sub q2 q1, mulVec_neg, neg_dotProduct_neg]
      ring
    have es : Fus.s q2 W2 q1 W1 (Fus.q q1 W1 q2 W2 a) = -Fus.s q1 W1 q2 W2 (Fus.q q1 W1 q2 W2 a) := by unfold Fus.s; ring
    rw [eq, ek, eX, es, ← neg_sub W1 W2, mul_neg, trace_neg]
    show _ = Except.ok _
    congr 1
    ring

/-- **C138**: moving both ellipsoids changes nothing. -/
theorem C138_move {m : ℕ} (a : ℝ) (q1 q2 t : Fin m → ℝ) (W1 W2 : Matrix (Fin m) (Fin m) ℝ) (h1 : W1ᵀ = W1) (h2 : W2ᵀ = W2) (n : ℤ) :
    fusionLambda a (q1 + t) W1 (q2 + t) W2 n = fusionLambda a q1 W1 q2 W2 n := by
  by_cases hd : (Fus.X W1 W2 a).det = 0
  · have e1 : ∀ p1 p2 : Fin m → ℝ, fusionLambda a p1 W1 p2 W2 n = .error .linAlgError := by intro p1 p2; unfold fusionLambda; exact if_pos hd
    rw [e1, e1]
  · rw [value h1 h2 hd, value h1 h2 hd]
    have hq : Fus.q (q1 + t) W1 (q2 + t) W2 a = Fus.q q1 W1 q2 W2 a + t := by
      unfold Fus.q
      have e : a • (W1 *ᵥ (q1 + t)) + (1 - a) • (W2 *ᵥ (q2 + t)) = a • (W1 *ᵥ q1) + (1 - a) • (W2 *ᵥ q2) + Fus.X W1 W2 a *ᵥ t := by
        unfold Fus.X
        rw [mulVec_add, mulVec_add, add_mulVec, smul_mulVec, smul_mulVec, smul_add, smul_add]
        abel
      rw [e, mulVec_add, mulVec_mulVec, nonsing_inv_mul _ (isUnit_iff_ne_zero.2 hd), one_mulVec]
    have hk : Fus.k (q1 + t) W1 (q2 + t) W2 a = Fus.k q1 W1 q2 W2 a := by unfold Fus.k; rw [add_sub_add_right_eq_sub]
    have hs : ∀ z, Fus.s (q1 + t) W1 (q2 + t) W2 (z + t) = Fus.s q1 W1 q2 W2 z := by
      intro z; unfold Fus.s; rw [add_sub_add_right_eq_sub, add_sub_add_right_eq_sub]
    rw [hq, hk, hs]

/-- **C138**: in other coordinates the value is multiplied by a positive number, so signs and zeros stay. -/
theorem C138_coordinates {m : ℕ} (a : ℝ) (q1 q2 : Fin m → ℝ) (W1 W2 P T : Matrix (Fin m) (Fin m) ℝ) (hPT : P * T = 1) (n : ℤ) :
    fusionLambda a (T *ᵥ q1) (Pᵀ * W1 * P) (T *ᵥ q2) (Pᵀ * W2 * P) n = (fusionLambda a q1 W1 q2 W2 n).map fun f => P.det ^ 4 * f := by
  have hTP : T * P = 1 := mul_eq_one_comm.1 hPT
  have hTt : Tᵀ * Pᵀ = 1 := by rw [← transpose_mul, hPT, transpose_one]
  have hPt : Pᵀ * Tᵀ = 1 := by rw [← transpose_mul, hTP, transpose_one]
  have hdP : P.det ≠ 0 := fun h => by
    have := congrArg det hPT
    rw [det_mul, h, zero_mul, det_one] at this
    exact zero_ne_one this
  have eX : a • (Pᵀ * W1 * P) + (1 - a) • (Pᵀ * W2 * P) = Pᵀ * (a • W1 + (1 - a) • W2) * P := by
    rw [mul_add, add_mul, Matrix.mul_smul, Matrix.mul_smul, Matrix.smul_mul, Matrix.smul_mul]
  have edet : (Pᵀ * (a • W1 + (1 - a) • W2) * P).det = P.det ^ 2 * (a • W1 + (1 - a) • W2).det := by
    rw [det_mul, det_mul, det_transpose]; ring
  by_cases hd : (a • W1 + (1 - a) • W2).det = 0
  · have e1 : fusionLambda a q1 W1 q2 W2 n = .error .linAlgError := by unfold fusionLambda; exact if_pos hd
    have e2 : fusionLambda a (T *ᵥ q1) (Pᵀ * W1 * P) (T *ᵥ q2) (Pᵀ * W2 * P) n = .error .linAlgError := by
      unfold fusionLambda; exact if_pos (by rw [eX, edet, hd, mul_zero])
    rw [e1, e2]
    rfl
  · set X := a • W1 + (1 - a) • W2 with hX
    have hu : IsUnit X.det := isUnit_iff_ne_zero.2 hd
    have eI : (Pᵀ * X * P)⁻¹ = T * X⁻¹ * Tᵀ := by
      refine inv_eq_right_inv ?_
      calc Pᵀ * X * P * (T * X⁻¹ * Tᵀ) = Pᵀ * X * (P * T) * X⁻¹ * Tᵀ := by simp only [Matrix.mul_assoc]
        _ = 1 := by rw [hPT, Matrix.mul_one, Matrix.mul_assoc Pᵀ, mul_nonsing_inv _ hu, Matrix.mul_one, hPt]
    have eY : (0.5 : ℝ) • ((Pᵀ * X * P)⁻¹ + ((Pᵀ * X * P)⁻¹)ᵀ) = T * ((0.5 : ℝ) • (X⁻¹ + X⁻¹ᵀ)) * Tᵀ := by
      rw [eI, transpose_mul, transpose_mul, transpose_transpose, Matrix.mul_smul, Matrix.smul_mul, mul_add, add_mul, Matrix.mul_assoc T X⁻¹ᵀ]
    unfold fusionLambda
    simp only [eX]
    rw [← hX, if_neg hd, if_neg (by rw [edet]; exact mul_ne_zero (pow_ne_zero _ hdP) hd), eY, edet]
    set Y := (0.5 : ℝ) • (X⁻¹ + X⁻¹ᵀ) with hY
    have quad : ∀ (M : Matrix (Fin m) (Fin m) ℝ) (x y : Fin m → ℝ), (T *ᵥ x) ⬝ᵥ (Pᵀ * M * P) *ᵥ (T *ᵥ y) = x ⬝ᵥ M *ᵥ y := by
      intro M x y
      rw [mulVec_mulVec, Matrix.mul_assoc, hPT, Matrix.mul_one, ← mulVec_mulVec, dotProduct_mulVec, vecMul_transpose, mulVec_mulVec, hPT, one_mulVec]
    have ek : (T *ᵥ q2 - T *ᵥ q1) ⬝ᵥ (Pᵀ * W2 * P * (T * Y * Tᵀ) * (Pᵀ * W1 * P)) *ᵥ (T *ᵥ q2 - T *ᵥ q1) = (q2 - q1) ⬝ᵥ (W2 * Y * W1) *ᵥ (q2 - q1) := by
      have e : Pᵀ * W2 * P * (T * Y * Tᵀ) * (Pᵀ * W1 * P) = Pᵀ * (W2 * Y * W1) * P := by
        calc Pᵀ * W2 * P * (T * Y * Tᵀ) * (Pᵀ * W1 * P) = Pᵀ * W2 * (P * T) * Y * (Tᵀ * Pᵀ) * W1 * P := by simp only [Matrix.mul_assoc]
          _ = _ := by rw [hPT, hTt, Matrix.mul_one, Matrix.mul_one]; simp only [Matrix.mul_assoc]
      rw [e, ← mulVec_sub, quad]
    have eq : (T * Y * Tᵀ) *ᵥ (a • ((Pᵀ * W1 * P) *ᵥ (T *ᵥ q1)) + (1 - a) • ((Pᵀ * W2 * P) *ᵥ (T *ᵥ q2))) =
        T *ᵥ (Y *ᵥ (a • (W1 *ᵥ q1) + (1 - a) • (W2 *ᵥ q2))) := by
      have e : ∀ (M : Matrix (Fin m) (Fin m) ℝ) (x : Fin m → ℝ), (Pᵀ * M * P) *ᵥ (T *ᵥ x) = Pᵀ *ᵥ (M *ᵥ x) := by
        intro M x
        rw [mulVec_mulVec, Matrix.mul_assoc, hPT, Matrix.mul_one, mulVec_mulVec]
      rw [e, e, ← mulVec_smul Pᵀ, ← mulVec_smul Pᵀ, ← mulVec_add Pᵀ, mulVec_mulVec, Matrix.mul_assoc, hTt, Matrix.mul_one, mulVec_mulVec]
    have et : trace ((P.det ^ 2 * X.det) • (T * Y * Tᵀ) * (Pᵀ * W1 * P - Pᵀ * W2 * P)) = P.det ^ 2 * trace ((X.det • Y) * (W1 - W2)) := by
      rw [Matrix.smul_mul, trace_smul, Matrix.smul_mul, trace_smul, smul_eq_mul, smul_eq_mul, mul_assoc]
      congr 2
      have : T * Y * Tᵀ * (Pᵀ * W1 * P - Pᵀ * W2 * P) = T * (Y * (W1 - W2) * P) := by
        rw [← Matrix.sub_mul, ← Matrix.mul_sub]
        calc T * Y * Tᵀ * (Pᵀ * (W1 - W2) * P) = T * Y * (Tᵀ * Pᵀ) * (W1 - W2) * P := by simp only [Matrix.mul_assoc]
          _ = _ := by rw [hTt, Matrix.mul_one]; simp only [Matrix.mul_assoc]
      rw [this, trace_mul_comm, Matrix.mul_assoc, hPT, Matrix.mul_one]
    have es : Pᵀ * W2 * P - Pᵀ * W1 * P = Pᵀ * (W2 - W1) * P := by rw [Matrix.mul_sub, Matrix.sub_mul]
    rw [ek, eq, et, es, quad, quad, quad, quad, quad]
    show _ = Except.ok _
    congr 1
    ring

/-! ### Non-triviality -/

/-- Two unit discs: the weight `1/2` gives the smallest fused disc. -/
example : ∀ b, 0 ≤ b → b ≤ 1 → MeasureTheory.volume (Fused 0 (1 : Matrix (Fin 2) (Fin 2) ℝ) ![1, 0] 1 (1 / 2)) ≤
    MeasureTheory.volume (Fused 0 (1 : Matrix (Fin 2) (Fin 2) ℝ) ![1, 0] 1 b) := by
  have hv : fusionLambda (1 / 2) 0 (1 : Matrix (Fin 2) (Fin 2) ℝ) ![1, 0] 1 2 = .ok 0 := by
    have h : ∀ a : ℝ, a • (1 : Matrix (Fin 2) (Fin 2) ℝ) + (1 - a) • 1 = 1 := fun a => by rw [← add_smul]; simp
    have h2 : (0.5 : ℝ) • ((1 : Matrix (Fin 2) (Fin 2) ℝ) + 1) = 1 := by rw [← two_smul ℝ, smul_smul]; norm_num
    unfold fusionLambda
    simp only [h, det_one, inv_one, transpose_one, h2]
    rw [if_neg one_ne_zero]
    congr 1
    simp [dotProduct, Fin.sum_univ_two]
    norm_num
  exact (C138_zero two_ne_zero 0 ![1, 0] 1 1 Fus.one_psd Fus.one_psd (fun x hx => add_pos (Fus.one_pos hx) (Fus.one_pos hx))
    ⟨![1 / 2, 0], by simp [dotProduct, Fin.sum_univ_two, one_mulVec]; norm_num⟩ (1 / 2) (by norm_num) (by norm_num) (by exact_mod_cast hv)).1

/-- Their signs at `1/4` and `3/4` are opposite. -/
example : ∃ c : ℝ, 1 / 4 < c ∧ c < 3 / 4 ∧ fusionLambda c 0 (1 : Matrix (Fin 2) (Fin 2) ℝ) ![1, 0] 1 2 = .ok 0 := by
  have hv : fusionLambda (1 / 4) 0 (1 : Matrix (Fin 2) (Fin 2) ℝ) ![1, 0] 1 2 = .ok 1 ∧
      fusionLambda (3 / 4) 0 (1 : Matrix (Fin 2) (Fin 2) ℝ) ![1, 0] 1 2 = .ok (-1) := by
    have h : ∀ a : ℝ, a • (1 : Matrix (Fin 2) (Fin 2) ℝ) + (1 - a) • 1 = 1 := fun a => by rw [← add_smul]; simp
    have h2 : (0.5 : ℝ) • ((1 : Matrix (Fin 2) (Fin 2) ℝ) + 1) = 1 := by rw [← two_smul ℝ, smul_smul]; norm_num
    constructor <;>
    · unfold fusionLambda
      simp only [h, det_one, inv_one, transpose_one, h2]
      rw [if_neg one_ne_zero]
      congr 1
      simp [dotProduct, Fin.sum_univ_two]
      try norm_num
  exact C138_bracket 0 ![1, 0] 1 1 Fus.one_psd Fus.one_psd (fun x hx => add_pos (Fus.one_pos hx) (Fus.one_pos hx)) (1 / 4) (3 / 4) (by norm_num)
    (by norm_num) (by norm_num) 1 (-1) (by exact_mod_cast hv.1) (by exact_mod_cast hv.2) one_pos (by norm_num)

end Ellipy.Core
