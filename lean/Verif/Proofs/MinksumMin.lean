import Verif.Proofs.MinksumEq

/-! No ellipsoid fits between a sum of two ellipsoids and its external approximation. -/

namespace Ellipy.Ell
open Matrix Ellipy.LA

theorem psd_null_le {n : ℕ} {D : Matrix (Fin n) (Fin n) ℝ} (hD : IsPSD D) {x : Fin n → ℝ} (h : x ⬝ᵥ D *ᵥ x ≤ 0) : D *ᵥ x = 0 := by
  obtain ⟨S, hS, hSS⟩ := exists_root hD
  have h1 : (S *ᵥ x) ⬝ᵥ (S *ᵥ x) ≤ 0 := by rw [root_dot hS hSS]; exact h
  have h2 : S *ᵥ x = 0 := by
    by_contra hne
    exact absurd (dot_self_pos hne) (not_lt.2 h1)
  rw [← hSS, ← mulVec_mulVec, h2, mulVec_zero]

theorem quad_line {n : ℕ} {A : Matrix (Fin n) (Fin n) ℝ} (hA : Aᵀ = A) (y l : Fin n → ℝ) (t : ℝ) :
    (y + t • l) ⬝ᵥ A *ᵥ (y + t • l) = y ⬝ᵥ A *ᵥ y + 2 * t * (l ⬝ᵥ A *ᵥ y) + t ^ 2 * (l ⬝ᵥ A *ᵥ l) := by
  have h : y ⬝ᵥ A *ᵥ l = l ⬝ᵥ A *ᵥ y := by rw [symm_dot hA, dotProduct_comm]
  simp only [mulVec_add, mulVec_smul, add_dotProduct, dotProduct_add, smul_dotProduct, dotProduct_smul, smul_eq_mul, h]
  ring

/-- The quadratic form of a non-negative matrix that is dominated by the square `(q a - p b)²`, where `a` and `b` are the half widths of two
ellipsoids and `p`, `q` their values in the direction `l`, is zero. -/
theorem gap_zero {n : ℕ} {A B D : Matrix (Fin n) (Fin n) ℝ} (hA : IsPSD A) (hB : IsPSD B) (hD : IsPSD D) {l : Fin n → ℝ}
    (ha : 0 < l ⬝ᵥ A *ᵥ l) (hb : 0 < l ⬝ᵥ B *ᵥ l)
    (h : ∀ x : Fin n → ℝ, Real.sqrt (l ⬝ᵥ A *ᵥ l) * Real.sqrt (l ⬝ᵥ B *ᵥ l) * (x ⬝ᵥ D *ᵥ x) ≤
      (Real.sqrt (l ⬝ᵥ B *ᵥ l) * Real.sqrt (x ⬝ᵥ A *ᵥ x) - Real.sqrt (l ⬝ᵥ A *ᵥ l) * Real.sqrt (x ⬝ᵥ B *ᵥ x)) ^ 2) : D = 0 := by
  set p := Real.sqrt (l ⬝ᵥ A *ᵥ l) with hp
  set q := Real.sqrt (l ⬝ᵥ B *ᵥ l) with hq
  have hp0 : 0 < p := Real.sqrt_pos.2 ha
  have hq0 : 0 < q := Real.sqrt_pos.2 hb
  have hp2 : p ^ 2 = l ⬝ᵥ A *ᵥ l := Real.sq_sqrt ha.le
  have hq2 : q ^ 2 = l ⬝ᵥ B *ᵥ l := Real.sq_sqrt hb.le
  -- the difference of the squares
  let m : (Fin n → ℝ) → ℝ := fun x => q ^ 2 * (x ⬝ᵥ A *ᵥ x) - p ^ 2 * (x ⬝ᵥ B *ᵥ x)
  have hm : ∀ x, m x = (q * Real.sqrt (x ⬝ᵥ A *ᵥ x) - p * Real.sqrt (x ⬝ᵥ B *ᵥ x)) *
      (q * Real.sqrt (x ⬝ᵥ A *ᵥ x) + p * Real.sqrt (x ⬝ᵥ B *ᵥ x)) := by
    intro x
    have h1 := Real.sq_sqrt (hA.2 x)
    have h2 := Real.sq_sqrt (hB.2 x)
    show q ^ 2 * _ - p ^ 2 * _ = _
    rw [← h1, ← h2, Real.sqrt_sq (Real.sqrt_nonneg _), Real.sqrt_sq (Real.sqrt_nonneg _)]
    ring
  have hnull : ∀ x, m x = 0 → D *ᵥ x = 0 := by
    intro x hx
    apply psd_null_le hD
    have h0 : q * Real.sqrt (x ⬝ᵥ A *ᵥ x) = p * Real.sqrt (x ⬝ᵥ B *ᵥ x) := by
      rw [hm] at hx
      rcases mul_eq_zero.1 hx with h1 | h1
      · linarith
      · have h2 := mul_nonneg hq0.le (Real.sqrt_nonneg (x ⬝ᵥ A *ᵥ x))
        have h3 := mul_nonneg hp0.le (Real.sqrt_nonneg (x ⬝ᵥ B *ᵥ x))
        linarith
    have h1 := h x
    rw [h0, sub_self, zero_pow two_ne_zero] at h1
    exact nonpos_of_mul_nonpos_right h1 (mul_pos hp0 hq0)
  have hl : m l = 0 := by
    show q ^ 2 * _ - p ^ 2 * _ = 0
    rw [← hp2, ← hq2]; ring
  have hDl := hnull l hl
  have hmline : ∀ y t, m (y + t • l) = m y + 2 * t * (q ^ 2 * (l ⬝ᵥ A *ᵥ y) - p ^ 2 * (l ⬝ᵥ B *ᵥ y)) := by
    intro y t
    show q ^ 2 * _ - p ^ 2 * _ = q ^ 2 * _ - p ^ 2 * _ + _
    rw [quad_line hA.1, quad_line hB.1, ← hp2, ← hq2]; ring
  -- every vector is annihilated
  have hall : ∀ y, D *ᵥ y = 0 := by
    intro y
    by_cases hw : q ^ 2 * (l ⬝ᵥ A *ᵥ y) - p ^ 2 * (l ⬝ᵥ B *ᵥ y) = 0
    swap
    · have h1 := hnull (y + (-(m y) / (2 * (q ^ 2 * (l ⬝ᵥ A *ᵥ y) - p ^ 2 * (l ⬝ᵥ B *ᵥ y)))) • l) (by
        rw [hmline]; field_simp; ring)
      rwa [mulVec_add, mulVec_smul, hDl, smul_zero, add_zero] at h1
    · apply psd_null_le hD
      by_contra hpos
      rw [not_le] at hpos
      -- along `l + ε y` the bound is of the fourth order
      have key : ∀ ε : ℝ, ε ≠ 0 → p * q ^ 3 * (y ⬝ᵥ D *ᵥ y) * ((l + ε • y) ⬝ᵥ A *ᵥ (l + ε • y)) ≤ ε ^ 2 * m y ^ 2 := by
        intro ε hε
        set x := l + ε • y with hx
        have hx' : x = ε • (y + ε⁻¹ • l) := by
          rw [hx, smul_add, smul_smul, mul_inv_cancel₀ hε, one_smul, add_comm]
        have hmx : m x = ε ^ 2 * m y := by
          have : ∀ (t : ℝ) z, m (t • z) = t ^ 2 * m z := by
            intro t z
            show q ^ 2 * _ - p ^ 2 * _ = t ^ 2 * (q ^ 2 * _ - p ^ 2 * _)
            simp only [mulVec_smul, smul_dotProduct, dotProduct_smul, smul_eq_mul]; ring
          rw [hx', this, hmline, hw]; ring
        have hDx : x ⬝ᵥ D *ᵥ x = ε ^ 2 * (y ⬝ᵥ D *ᵥ y) := by
          rw [hx, mulVec_add, mulVec_smul, hDl, zero_add, add_dotProduct, dotProduct_smul, smul_dotProduct, dotProduct_smul]
          have : l ⬝ᵥ D *ᵥ y = 0 := by rw [symm_dot hD.1, hDl, zero_dotProduct]
          rw [this]; simp only [smul_eq_mul]; ring
        have h1 := h x
        rw [hDx] at h1
        set a := Real.sqrt (x ⬝ᵥ A *ᵥ x) with haa
        set b := Real.sqrt (x ⬝ᵥ B *ᵥ x)
        have ha0 : 0 ≤ a := Real.sqrt_nonneg _
        have hb0 : 0 ≤ b := Real.sqrt_nonneg _
        have ha2 : a ^ 2 = x ⬝ᵥ A *ᵥ x := Real.sq_sqrt (hA.2 x)
        have h2 : (q * a - p * b) * (q * a + p * b) = ε ^ 2 * m y := by rw [← hmx, hm]
        have h3 : (q * a) ^ 2 ≤ (q * a + p * b) ^ 2 := by
          have := mul_nonneg hq0.le ha0
          have := mul_nonneg hp0.le hb0
          nlinarith
        have h4 : (p * q * (ε ^ 2 * (y ⬝ᵥ D *ᵥ y))) * (q * a) ^ 2 ≤ (q * a - p * b) ^ 2 * (q * a + p * b) ^ 2 := by
          refine mul_le_mul h1 h3 (sq_nonneg _) (sq_nonneg _)
        rw [← mul_pow, h2] at h4
        rw [← ha2]
        have he2 : 0 < ε ^ 2 := by positivity
        refine le_of_mul_le_mul_left ?_ he2
        nlinarith [h4]
      set c := p * q ^ 3 * (y ⬝ᵥ D *ᵥ y) with hc
      have hc0 : 0 < c := by positivity
      set g := m y ^ 2 - c * (y ⬝ᵥ A *ᵥ y) with hg
      have key2 : ∀ ε : ℝ, ε ≠ 0 → c * p ^ 2 ≤ ε ^ 2 * g := by
        intro ε hε
        have h1 := key ε hε
        have h2 := key (-ε) (neg_ne_zero.2 hε)
        rw [quad_line hA.1] at h1 h2
        rw [← hp2] at h1 h2
        rw [hg]
        nlinarith
      have hcp : 0 < c * p ^ 2 := by positivity
      have hg0 : 0 < g := by
        have := key2 1 one_ne_zero
        linarith
      have h1 := key2 (Real.sqrt (c * p ^ 2 / (2 * g))) (by positivity)
      rw [Real.sq_sqrt (show 0 ≤ c * p ^ 2 / (2 * g) by positivity)] at h1
      have h2 : c * p ^ 2 / (2 * g) * g = c * p ^ 2 / 2 := by field_simp
      rw [h2] at h1
      linarith
  ext i j
  have := congrFun (hall (Pi.single j 1)) i
  simpa using this

end Ellipy.Ell
