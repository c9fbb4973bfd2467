import Verif.Proofs.MinksumMin

/-! In the plane no ellipse fits between the internal approximation of a sum of two ellipses and the sum. -/

namespace Ellipy.Ell
open Matrix Ellipy.LA

/-- The quarter turn. -/
def turn (z : Fin 2 → ℝ) : Fin 2 → ℝ := ![-z 1, z 0]

theorem dot2 (x y : Fin 2 → ℝ) : x ⬝ᵥ y = x 0 * y 0 + x 1 * y 1 := by simp [dotProduct, Fin.sum_univ_two]

private theorem scalar_gap {mu nu al r k : ℝ} (hm : 0 < mu) (hn : 0 < nu) (hr : 0 ≤ r)
    (h : ∀ s : ℝ, k ≤ 2 * r * (Real.sqrt (((mu * s + al) ^ 2 + nu ^ 2) * (s ^ 2 + 1)) - ((mu * s + al) * s + nu))) : k ≤ 0 := by
  by_cases hne : mu = nu
  · subst hne
    by_contra hk
    push Not at hk
    set T := r * al ^ 2 / k with hT
    have hT0 : 0 ≤ T := by positivity
    set s := (T + |al|) / mu + 1 with hs
    have hs1 : 1 ≤ s := by
      have : 0 ≤ (T + |al|) / mu := by positivity
      linarith
    have hms : mu * s = T + |al| + mu := by rw [hs]; field_simp
    have hP : T < (mu * s + al) * s + mu := by
      have : -|al| ≤ al := neg_abs_le al
      nlinarith
    have h1 := h s
    set P := (mu * s + al) * s + mu with hPd
    have e : ((mu * s + al) ^ 2 + mu ^ 2) * (s ^ 2 + 1) = P ^ 2 + al ^ 2 := by rw [hPd]; ring
    rw [e] at h1
    have hP0 : 0 < P := lt_of_le_of_lt hT0 hP
    have h2 : Real.sqrt (P ^ 2 + al ^ 2) ≤ P + al ^ 2 / (2 * P) := by
      apply Real.sqrt_le_iff.2
      refine ⟨by positivity, ?_⟩
      have : (P + al ^ 2 / (2 * P)) ^ 2 = P ^ 2 + al ^ 2 + (al ^ 2 / (2 * P)) ^ 2 := by field_simp; ring
      rw [this]
      linarith [sq_nonneg (al ^ 2 / (2 * P))]
    have h3 : k ≤ r * al ^ 2 / P := by
      have : 2 * r * (Real.sqrt (P ^ 2 + al ^ 2) - P) ≤ 2 * r * (al ^ 2 / (2 * P)) :=
        mul_le_mul_of_nonneg_left (by linarith) (by positivity)
      have e2 : 2 * r * (al ^ 2 / (2 * P)) = r * al ^ 2 / P := by field_simp
      linarith
    rw [le_div_iff₀ hP0] at h3
    have h4 : T * k = r * al ^ 2 := by rw [hT]; field_simp
    nlinarith
  · have hd : nu - mu ≠ 0 := sub_ne_zero.2 (Ne.symm hne)
    have h1 := h (al / (nu - mu))
    set s := al / (nu - mu) with hs
    have e : mu * s + al = nu * s := by
      have : (nu - mu) * s = al := by rw [hs]; field_simp
      linarith
    rw [e, show ((nu * s) ^ 2 + nu ^ 2) * (s ^ 2 + 1) = (nu * (s ^ 2 + 1)) ^ 2 by ring,
      Real.sqrt_sq (by positivity)] at h1
    linarith [show 2 * r * (nu * (s ^ 2 + 1) - (nu * s * s + nu)) = 0 by ring]

/-- A non-negative quadratic form in the plane that is dominated by `|Ax||Bx| - ⟨Ax, Bx⟩` is zero if `A` and `B` have the same orientation and
agree in one direction. -/
theorem plane_gap_zero {A B D : Matrix (Fin 2) (Fin 2) ℝ} (hD : IsPSD D) (hA : 0 < A.det) (hB : 0 < B.det) {l : Fin 2 → ℝ} (hl : l ≠ 0)
    {mu : ℝ} (hm : 0 < mu) (hmu : A *ᵥ l = mu • B *ᵥ l)
    (h : ∀ x : Fin 2 → ℝ, x ⬝ᵥ D *ᵥ x ≤ 2 * (Real.sqrt ((A *ᵥ x) ⬝ᵥ (A *ᵥ x)) * Real.sqrt ((B *ᵥ x) ⬝ᵥ (B *ᵥ x)) - (A *ᵥ x) ⬝ᵥ (B *ᵥ x))) :
    D = 0 := by
  have hBu : IsUnit B.det := hB.ne'.isUnit
  set z := B *ᵥ l with hz
  have hz0 : z ≠ 0 := by
    intro h0
    apply hl
    have := congrArg (B⁻¹ *ᵥ ·) h0
    simpa [hz, mulVec_mulVec, nonsing_inv_mul B hBu] using this
  set w := B⁻¹ *ᵥ turn z with hw
  have hBw : B *ᵥ w = turn z := by rw [hw, mulVec_mulVec, mul_nonsing_inv B hBu, one_mulVec]
  set r := z ⬝ᵥ z with hr
  have hr0 : 0 < r := dot_self_pos hz0
  set al := ((A *ᵥ w) ⬝ᵥ z) / r with hal
  set nu := ((A *ᵥ w) ⬝ᵥ turn z) / r with hnu
  have hdec : A *ᵥ w = al • z + nu • turn z := by
    ext i
    have hr' : z 0 * z 0 + z 1 * z 1 = r := by rw [hr, dot2]
    have h1 : al * r = (A *ᵥ w) 0 * z 0 + (A *ᵥ w) 1 * z 1 := by rw [hal, div_mul_cancel₀ _ hr0.ne', dot2]
    have h2 : nu * r = -(A *ᵥ w) 0 * z 1 + (A *ᵥ w) 1 * z 0 := by
      rw [hnu, div_mul_cancel₀ _ hr0.ne', dot2]; simp [turn]
    apply mul_left_cancel₀ hr0.ne'
    fin_cases i
    · simp only [Fin.zero_eta, Pi.add_apply, Pi.smul_apply, smul_eq_mul, turn, Matrix.cons_val_zero]
      linear_combination (-(A *ᵥ w) 0) * hr' - z 0 * h1 + z 1 * h2
    · simp only [Fin.mk_one, Pi.add_apply, Pi.smul_apply, smul_eq_mul, turn, Matrix.cons_val_one, Matrix.cons_val_zero]
      linear_combination (-(A *ᵥ w) 1) * hr' - z 1 * h1 - z 0 * h2
  have harea : ∀ X : Matrix (Fin 2) (Fin 2) ℝ, X.det * (l 0 * w 1 - l 1 * w 0) = (X *ᵥ l) 0 * (X *ᵥ w) 1 - (X *ᵥ l) 1 * (X *ᵥ w) 0 := by
    intro X
    rw [det_fin_two]
    simp only [mulVec, dot2]
    ring
  have hr' : r = z 0 * z 0 + z 1 * z 1 := by rw [hr, dot2]
  have hareaB : B.det * (l 0 * w 1 - l 1 * w 0) = r := by
    rw [harea, ← hz, hBw, hr']; simp [turn]
  have hareaA : A.det * (l 0 * w 1 - l 1 * w 0) = mu * nu * r := by
    rw [harea, hmu, hdec, hr']; simp [turn]; ring
  have hnu0 : 0 < nu := by
    have h1 : 0 < l 0 * w 1 - l 1 * w 0 := by
      by_contra hc
      push Not at hc
      nlinarith
    have h2 : 0 < mu * nu * r := by rw [← hareaA]; positivity
    by_contra hc
    push Not at hc
    nlinarith [mul_pos hm hr0]
  have hDl : D *ᵥ l = 0 := by
    apply psd_null_le hD
    refine (h l).trans ?_
    rw [hmu, ← hz]
    simp only [smul_dotProduct, dotProduct_smul, smul_eq_mul, ← hr]
    rw [show mu * (mu * r) = mu ^ 2 * r by ring, Real.sqrt_mul (by positivity), Real.sqrt_sq hm.le, mul_assoc, Real.mul_self_sqrt hr0.le]
    linarith
  have hDw : D *ᵥ w = 0 := by
    apply psd_null_le hD
    refine scalar_gap (mu := mu) (nu := nu) (al := al) (r := r) hm hnu0 hr0.le fun s => ?_
    have h1 := h (s • l + w)
    have e1 : (s • l + w) ⬝ᵥ D *ᵥ (s • l + w) = w ⬝ᵥ D *ᵥ w := by
      rw [mulVec_add, mulVec_smul, hDl, smul_zero, zero_add, add_dotProduct, smul_dotProduct, symm_dot hD.1, hDl, zero_dotProduct, smul_zero,
        zero_add]
    have e2 : A *ᵥ (s • l + w) = (mu * s + al) • z + nu • turn z := by
      rw [mulVec_add, mulVec_smul, hmu, hdec]
      module
    have e3 : B *ᵥ (s • l + w) = s • z + turn z := by rw [mulVec_add, mulVec_smul, hBw]
    have t1 : turn z ⬝ᵥ turn z = r := by rw [hr', dot2]; simp [turn]; ring
    have t2 : z ⬝ᵥ turn z = 0 := by rw [dot2]; simp [turn]; ring
    have t3 : turn z ⬝ᵥ z = 0 := by rw [dotProduct_comm, t2]
    rw [e1, e2, e3] at h1
    simp only [add_dotProduct, dotProduct_add, smul_dotProduct, dotProduct_smul, smul_eq_mul, t1, t2, t3, ← hr, mul_zero, add_zero, zero_add] at h1
    refine h1.trans (le_of_eq ?_)
    rw [← Real.sqrt_mul (by nlinarith [mul_nonneg hr0.le (sq_nonneg (mu * s + al)), mul_nonneg hr0.le (sq_nonneg nu)]),
      show ((mu * s + al) * ((mu * s + al) * r) + nu * (nu * r)) * (s * (s * r) + r) =
        r ^ 2 * (((mu * s + al) ^ 2 + nu ^ 2) * (s ^ 2 + 1)) by ring, Real.sqrt_mul (by positivity), Real.sqrt_sq hr0.le]
    ring
  -- two independent vectors
  have hdet : l 0 * w 1 - l 1 * w 0 ≠ 0 := by
    intro h0; rw [h0, mul_zero] at hareaB; exact hr0.ne hareaB
  ext i j
  have h1 := congrFun hDl i
  have h2 := congrFun hDw i
  simp only [mulVec, dot2, Pi.zero_apply] at h1 h2
  have a0 : D i 0 * (l 0 * w 1 - l 1 * w 0) = 0 := by linear_combination w 1 * h1 - l 1 * h2
  have a1 : D i 1 * (l 0 * w 1 - l 1 * w 0) = 0 := by linear_combination l 0 * h2 - w 0 * h1
  fin_cases j
  · simpa using (mul_eq_zero.1 a0).resolve_right hdet
  · simpa using (mul_eq_zero.1 a1).resolve_right hdet

/-- In the plane `orth_transl` gives a rotation, unless the directions are opposite or nearly parallel. -/
theorem orthTransl_det {src dst : Fin 2 → ℝ} {O : Matrix (Fin 2) (Fin 2) ℝ} (h : orthTransl src dst = .ok O) (ha : Apart src dst)
    (hop : dir src ≠ -dir dst) : O.det = 1 := by
  obtain ⟨hs, hd, -⟩ := orthTransl_branches h
  rw [orthTransl_eq hs hd] at h
  injection h with h
  subst h
  have hd1 := dir_dot hd
  have hs1 := dir_dot hs
  set d := dir dst with hdd
  set a := dir src with haa
  set c := a ⬝ᵥ d with hc
  have hss : sinSq src dst = 1 - c ^ 2 := rfl
  by_cases h0 : sinSq src dst = 0
  · have hc2 : c ^ 2 = 1 := by rw [hss] at h0; linarith
    have hc1 : c = 1 := by
      rcases mul_self_eq_one_iff.1 (show c * c = 1 by rw [← sq]; exact hc2) with h | h
      · exact h
      · exfalso
        apply hop
        have : (a + d) ⬝ᵥ (a + d) = 0 := by
          rw [add_dotProduct, dotProduct_add, dotProduct_add, dotProduct_comm d a, ← hc, hs1, hd1, h]; norm_num
        have := dotProduct_self_eq_zero.1 this
        exact eq_neg_of_add_eq_zero_left this
    rw [h0, Real.sqrt_zero, if_neg (not_lt.2 translTol_pos.le), hc1, planeRot_eq]
    simp
  · have h1 : (1 / 10 ^ 7 : ℝ) ^ 2 < sinSq src dst := ha.resolve_left h0
    set s := Real.sqrt (sinSq src dst) with hsd
    have hs2 : s ^ 2 = 1 - c ^ 2 := by rw [hsd, Real.sq_sqrt (sinSq_nonneg hs hd), hss]
    have hs0 : 0 < s := Real.sqrt_pos.2 (lt_trans (by positivity) h1)
    have hlt : translTol < s := by
      rw [hsd]
      exact Real.lt_sqrt_of_sq_lt h1
    rw [if_pos hlt]
    set w := (1 / s) • (a - c • d) with hw
    have hsw : ∀ i, s * w i = a i - c * d i := by
      intro i
      rw [hw]
      simp only [Pi.smul_apply, Pi.sub_apply, smul_eq_mul]
      field_simp
    have w0 := hsw 0
    have w1 := hsw 1
    rw [dot2] at hd1 hs1
    rw [dot2] at hc
    have hdw : d 0 * w 0 + d 1 * w 1 = 0 := by
      apply mul_left_cancel₀ hs0.ne'
      linear_combination d 0 * w0 + d 1 * w1 - c * hd1 - hc
    have hww : w 0 * w 0 + w 1 * w 1 = 1 := by
      apply mul_left_cancel₀ (pow_pos hs0 2).ne'
      linear_combination (s * w 0 + (a 0 - c * d 0)) * w0 + (s * w 1 + (a 1 - c * d 1)) * w1 + hs1 + 2 * c * hc + c ^ 2 * hd1 - hs2
    set e := d 0 * w 1 - d 1 * w 0 with he
    have k0 : w 0 = -d 1 * e := by rw [he]; linear_combination d 0 * hdw - w 0 * hd1
    have k1 : w 1 = d 0 * e := by rw [he]; linear_combination d 1 * hdw - w 1 * hd1
    have he2 : e ^ 2 = 1 := by
      rw [k0, k1] at hww
      linear_combination hww - e ^ 2 * hd1
    have f0 : d 0 * d 0 + w 0 * w 0 = 1 := by rw [k0]; linear_combination hd1 + d 1 ^ 2 * he2
    have f1 : d 1 * d 1 + w 1 * w 1 = 1 := by rw [k1]; linear_combination hd1 + d 0 ^ 2 * he2
    have f2 : d 0 * d 1 + w 0 * w 1 = 0 := by rw [k0, k1]; linear_combination (-(d 0 * d 1)) * he2
    have g00 : planeRot d w c s 0 0 = c := by
      rw [planeRot_apply, one_apply_eq]; linear_combination (c - 1) * f0
    have g11 : planeRot d w c s 1 1 = c := by
      rw [planeRot_apply, one_apply_eq]; linear_combination (c - 1) * f1
    have g01 : planeRot d w c s 0 1 = s * e := by
      rw [planeRot_apply, one_apply_ne (by decide), he]; linear_combination (c - 1) * f2
    have g10 : planeRot d w c s 1 0 = -(s * e) := by
      rw [planeRot_apply, one_apply_ne (by decide), he]; linear_combination (c - 1) * f2
    rw [det_fin_two, g00, g11, g01, g10]
    linear_combination hs2 + s ^ 2 * he2

end Ellipy.Ell
