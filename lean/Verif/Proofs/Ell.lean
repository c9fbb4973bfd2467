import Verif.Proofs.TranslOpt
import Verif.Spec.Ell

/-! Facts about ellipsoids as sets. -/

namespace Ellipy.Ell
open Matrix Ellipy.LA

theorem exists_root {n : ℕ} {Q : Matrix (Fin n) (Fin n) ℝ} (hQ : IsPSD Q) : ∃ S, IsPSD S ∧ S * S = Q := by
  obtain ⟨E⟩ := nonempty_eigh
  obtain ⟨S, -, h1, h2, -⟩ := C21_root E Q 0 (le_refl _) hQ
  exact ⟨S, h1, h2⟩

theorem symm_dot {n : ℕ} {S : Matrix (Fin n) (Fin n) ℝ} (hS : Sᵀ = S) (x y : Fin n → ℝ) : x ⬝ᵥ S *ᵥ y = (S *ᵥ x) ⬝ᵥ y := by
  rw [dotProduct_mulVec, ← mulVec_transpose, hS]

/-- A point that satisfies all support inequalities is `Q w` with `⟨y, w⟩ ≤ 1`. -/
theorem support_witness {n : ℕ} {Q : Matrix (Fin n) (Fin n) ℝ} (hQ : IsPSD Q) {y : Fin n → ℝ}
    (h : ∀ l : Fin n → ℝ, (l ⬝ᵥ y) ^ 2 ≤ l ⬝ᵥ Q *ᵥ l) : ∃ w, Q *ᵥ w = y ∧ y ⬝ᵥ w ≤ 1 := by
  obtain ⟨d, V, -, hV, hE⟩ := exists_eigh Q hQ.1
  have hdec : Q = V * diagonal d * Vᵀ := by rw [← hE, Matrix.mul_assoc, orth_comm hV, Matrix.mul_one]
  set z := Vᵀ *ᵥ y with hz
  have hVz : V *ᵥ z = y := by rw [hz, mulVec_mulVec, orth_comm hV, one_mulVec]
  have hm : ∀ m : Fin n → ℝ, (m ⬝ᵥ z) ^ 2 ≤ ∑ i, d i * m i ^ 2 := by
    intro m
    have := h (V *ᵥ m)
    have e1 : (V *ᵥ m) ⬝ᵥ y = m ⬝ᵥ z := by rw [← hVz, dot_orth hV]
    have e2 : (V *ᵥ m) ⬝ᵥ Q *ᵥ (V *ᵥ m) = ∑ i, d i * m i ^ 2 := by
      rw [hdec, quad_conj, mulVec_mulVec, hV, one_mulVec, quad_diag]
    rwa [e1, e2] at this
  have hz0 : ∀ i, d i = 0 → z i = 0 := by
    intro i hi
    have := hm (Pi.single i 1)
    rw [Finset.sum_eq_single i (fun j _ hj => by rw [Pi.single_eq_of_ne hj]; ring) (fun h => absurd (Finset.mem_univ _) h), hi, zero_mul,
      single_one_dotProduct] at this
    exact pow_eq_zero_iff two_ne_zero |>.mp (le_antisymm this (sq_nonneg _))
  let m : Fin n → ℝ := fun i => z i / d i
  have hr : m ⬝ᵥ z = ∑ i, d i * m i ^ 2 := by
    rw [dotProduct]
    refine Finset.sum_congr rfl (fun i _ => ?_)
    show z i / d i * z i = d i * (z i / d i) ^ 2
    by_cases hi : d i = 0
    · rw [hz0 i hi]; simp
    · field_simp
  have hle : m ⬝ᵥ z ≤ 1 := by
    have h1 := hm m
    rw [← hr] at h1
    by_contra hgt
    push Not at hgt
    nlinarith
  refine ⟨V *ᵥ m, ?_, ?_⟩
  · rw [hdec, mulVec_mulVec, Matrix.mul_assoc, hV, Matrix.mul_one, ← mulVec_mulVec]
    have : diagonal d *ᵥ m = z := by
      funext i
      rw [mulVec_diagonal]
      show d i * (z i / d i) = z i
      by_cases hi : d i = 0
      · rw [hz0 i hi, hi]; simp
      · field_simp
    rw [this, hVz]
  · rw [← hVz, dot_orth hV, dotProduct_comm]; exact hle

/-- Cauchy's inequality for a factor of the shape matrix. -/
theorem factor_le {n k : ℕ} {Q : Matrix (Fin n) (Fin n) ℝ} {M : Matrix (Fin n) (Fin k) ℝ} (hM : M * Mᵀ = Q) {u : Fin k → ℝ}
    (hu : u ⬝ᵥ u ≤ 1) (l : Fin n → ℝ) : (l ⬝ᵥ M *ᵥ u) ^ 2 ≤ l ⬝ᵥ Q *ᵥ l := by
  have h1 : l ⬝ᵥ M *ᵥ u = (Mᵀ *ᵥ l) ⬝ᵥ u := by rw [dotProduct_mulVec, ← mulVec_transpose]
  have h2 : l ⬝ᵥ Q *ᵥ l = (Mᵀ *ᵥ l) ⬝ᵥ (Mᵀ *ᵥ l) := by
    rw [← hM, ← mulVec_mulVec, dotProduct_mulVec l M, ← mulVec_transpose]
  rw [h1, h2]
  have := dot_sq_le_mul (Mᵀ *ᵥ l) u
  nlinarith [dot_self_nonneg (Mᵀ *ᵥ l)]

theorem psd_factor {n k : ℕ} (M : Matrix (Fin n) (Fin k) ℝ) : IsPSD (M * Mᵀ) := by
  refine ⟨by rw [transpose_mul, transpose_transpose], fun x => ?_⟩
  rw [← mulVec_mulVec, dotProduct_mulVec x M, ← mulVec_transpose]
  exact dot_self_nonneg _

/-- An ellipsoid is the image of the unit ball under any factor of its shape matrix. -/
theorem mem_ell_factor {n k : ℕ} {c : Fin n → ℝ} {Q : Matrix (Fin n) (Fin n) ℝ} {M : Matrix (Fin n) (Fin k) ℝ} (hM : M * Mᵀ = Q)
    (x : Fin n → ℝ) : x ∈ Ell c Q ↔ ∃ u : Fin k → ℝ, u ⬝ᵥ u ≤ 1 ∧ x = c + M *ᵥ u := by
  have hQ : IsPSD Q := hM ▸ psd_factor M
  have key : ∀ {k' k'' : ℕ} (M' : Matrix (Fin n) (Fin k') ℝ) (M'' : Matrix (Fin n) (Fin k'') ℝ), M' * M'ᵀ = Q → M'' * M''ᵀ = Q →
      ∀ u : Fin k' → ℝ, u ⬝ᵥ u ≤ 1 → ∃ v : Fin k'' → ℝ, v ⬝ᵥ v ≤ 1 ∧ M' *ᵥ u = M'' *ᵥ v := by
    intro k' k'' M' M'' h' h'' u hu
    obtain ⟨w, hw, hle⟩ := support_witness hQ (fun l => factor_le h' hu l)
    refine ⟨M''ᵀ *ᵥ w, ?_, ?_⟩
    · have : (M''ᵀ *ᵥ w) ⬝ᵥ (M''ᵀ *ᵥ w) = w ⬝ᵥ Q *ᵥ w := by
        rw [← h'', ← mulVec_mulVec, dotProduct_mulVec w M'', ← mulVec_transpose]
      rw [this, hw, dotProduct_comm]; exact hle
    · rw [mulVec_mulVec, h'', hw]
  constructor
  · rintro ⟨S, hS, hSS, u, hu, rfl⟩
    obtain ⟨v, hv, he⟩ := key S M (by rw [hS.1, hSS]) hM u hu
    exact ⟨v, hv, by rw [he]⟩
  · rintro ⟨u, hu, rfl⟩
    obtain ⟨S, hS, hSS⟩ := exists_root hQ
    obtain ⟨v, hv, he⟩ := key M S hM (by rw [hS.1, hSS]) u hu
    exact ⟨S, hS, hSS, v, hv, by rw [he]⟩

/-- An ellipsoid is the set of points that satisfy all support inequalities. -/
theorem mem_ell_support {n : ℕ} {c : Fin n → ℝ} {Q : Matrix (Fin n) (Fin n) ℝ} (hQ : IsPSD Q) (x : Fin n → ℝ) :
    x ∈ Ell c Q ↔ ∀ l : Fin n → ℝ, (l ⬝ᵥ (x - c)) ^ 2 ≤ l ⬝ᵥ Q *ᵥ l := by
  obtain ⟨S, hS, hSS⟩ := exists_root hQ
  have hM : S * Sᵀ = Q := by rw [hS.1, hSS]
  rw [mem_ell_factor hM]
  constructor
  · rintro ⟨u, hu, rfl⟩ l
    rw [add_sub_cancel_left]
    exact factor_le hM hu l
  · intro h
    obtain ⟨w, hw, hle⟩ := support_witness hQ h
    refine ⟨S *ᵥ w, ?_, ?_⟩
    · rw [← symm_dot hS.1, mulVec_mulVec, hSS, hw, dotProduct_comm]; exact hle
    · rw [mulVec_mulVec, hSS, hw]; simp

/-- The same with the square root on the right. -/
theorem mem_ell_sqrt {n : ℕ} {c : Fin n → ℝ} {Q : Matrix (Fin n) (Fin n) ℝ} (hQ : IsPSD Q) (x : Fin n → ℝ) :
    x ∈ Ell c Q ↔ ∀ l : Fin n → ℝ, l ⬝ᵥ x ≤ l ⬝ᵥ c + Real.sqrt (l ⬝ᵥ Q *ᵥ l) := by
  rw [mem_ell_support hQ]
  constructor
  · intro h l
    have h1 := h l
    have h2 := Real.abs_le_sqrt h1
    rw [dotProduct_sub] at h2
    linarith [le_abs_self (l ⬝ᵥ x - l ⬝ᵥ c)]
  · intro h l
    have h1 := h l
    have h2 := h (-l)
    rw [neg_dotProduct, neg_dotProduct, mulVec_neg, neg_dotProduct, dotProduct_neg, neg_neg] at h2
    rw [dotProduct_sub]
    have h3 : |l ⬝ᵥ x - l ⬝ᵥ c| ≤ Real.sqrt (l ⬝ᵥ Q *ᵥ l) := abs_le.mpr ⟨by linarith, by linarith⟩
    calc (l ⬝ᵥ x - l ⬝ᵥ c) ^ 2 = |l ⬝ᵥ x - l ⬝ᵥ c| ^ 2 := (sq_abs _).symm
      _ ≤ Real.sqrt (l ⬝ᵥ Q *ᵥ l) ^ 2 := pow_le_pow_left₀ (abs_nonneg _) h3 2
      _ = _ := Real.sq_sqrt (hQ.2 l)

/-- A semidefinite form that vanishes at `l` is annihilated there. -/
theorem psd_null {n : ℕ} {Q : Matrix (Fin n) (Fin n) ℝ} (hQ : IsPSD Q) {l : Fin n → ℝ} (h : l ⬝ᵥ Q *ᵥ l = 0) : Q *ᵥ l = 0 := by
  obtain ⟨S, hS, hSS⟩ := exists_root hQ
  have h1 : (S *ᵥ l) ⬝ᵥ (S *ᵥ l) = 0 := by rw [← symm_dot hS.1, mulVec_mulVec, hSS, h]
  have h2 : S *ᵥ l = 0 := by
    by_contra hne
    exact absurd h1 (dot_self_pos hne).ne'
  rw [← hSS, ← mulVec_mulVec, h2, mulVec_zero]

theorem center_mem {n : ℕ} {c : Fin n → ℝ} {Q : Matrix (Fin n) (Fin n) ℝ} (hQ : IsPSD Q) : c ∈ Ell c Q := by
  rw [mem_ell_support hQ]
  intro l
  rw [sub_self, dotProduct_zero]
  simpa using hQ.2 l

/-- The point of the ellipsoid farthest in the direction `l`. -/
theorem support_point {n : ℕ} {c : Fin n → ℝ} {Q : Matrix (Fin n) (Fin n) ℝ} (hQ : IsPSD Q) (l : Fin n → ℝ) :
    c + (1 / Real.sqrt (l ⬝ᵥ Q *ᵥ l)) • Q *ᵥ l ∈ Ell c Q ∧
      l ⬝ᵥ (c + (1 / Real.sqrt (l ⬝ᵥ Q *ᵥ l)) • Q *ᵥ l) = l ⬝ᵥ c + Real.sqrt (l ⬝ᵥ Q *ᵥ l) := by
  by_cases h0 : l ⬝ᵥ Q *ᵥ l = 0
  · rw [psd_null hQ h0, smul_zero, add_zero, dotProduct_zero, Real.sqrt_zero, add_zero]
    exact ⟨center_mem hQ, rfl⟩
  have hpos : 0 < l ⬝ᵥ Q *ᵥ l := lt_of_le_of_ne (hQ.2 l) (Ne.symm h0)
  have hs := Real.sqrt_pos.mpr hpos
  have hss : Real.sqrt (l ⬝ᵥ Q *ᵥ l) * Real.sqrt (l ⬝ᵥ Q *ᵥ l) = l ⬝ᵥ Q *ᵥ l := Real.mul_self_sqrt hpos.le
  constructor
  · obtain ⟨S, hS, hSS⟩ := exists_root hQ
    refine ⟨S, hS, hSS, (1 / Real.sqrt (l ⬝ᵥ Q *ᵥ l)) • S *ᵥ l, ?_, ?_⟩
    · rw [smul_dotProduct, dotProduct_smul, ← symm_dot hS.1, mulVec_mulVec, hSS, smul_eq_mul, smul_eq_mul]
      nth_rw 3 [← hss]
      apply le_of_eq
      field_simp
    · rw [mulVec_smul, mulVec_mulVec, hSS]
  · rw [dotProduct_add, dotProduct_smul, smul_eq_mul]
    congr 1
    nth_rw 2 [← hss]
    field_simp

/-- The support function of an ellipsoid. -/
theorem ell_support {n : ℕ} {c : Fin n → ℝ} {Q : Matrix (Fin n) (Fin n) ℝ} (hQ : IsPSD Q) (l : Fin n → ℝ) :
    IsSupport (Ell c Q) l (l ⬝ᵥ c + Real.sqrt (l ⬝ᵥ Q *ᵥ l)) := by
  constructor
  · exact ⟨_, (support_point hQ l).1, (support_point hQ l).2⟩
  · rintro _ ⟨x, hx, rfl⟩
    exact (mem_ell_sqrt hQ x).mp hx l

/-- Non-degenerate ellipsoids in terms of the inverse of the shape matrix. -/
theorem mem_ell_inv {n : ℕ} {c : Fin n → ℝ} {Q : Matrix (Fin n) (Fin n) ℝ} (hQ : IsPSD Q) (hd : IsUnit Q.det) (x : Fin n → ℝ) :
    x ∈ Ell c Q ↔ (x - c) ⬝ᵥ Q⁻¹ *ᵥ (x - c) ≤ 1 := by
  constructor
  · intro h
    obtain ⟨w, hw, hle⟩ := support_witness hQ ((mem_ell_support hQ x).mp h)
    have : w = Q⁻¹ *ᵥ (x - c) := by rw [← hw, mulVec_mulVec, nonsing_inv_mul _ hd, one_mulVec]
    rw [← this]; exact hle
  · intro h
    obtain ⟨S, hS, hSS⟩ := exists_root hQ
    refine ⟨S, hS, hSS, S *ᵥ (Q⁻¹ *ᵥ (x - c)), ?_, ?_⟩
    · rw [← symm_dot hS.1, mulVec_mulVec _ S S, hSS, mulVec_mulVec _ Q, mul_nonsing_inv _ hd, one_mulVec, dotProduct_comm]
      exact h
    · rw [mulVec_mulVec _ S S, hSS, mulVec_mulVec _ Q, mul_nonsing_inv _ hd, one_mulVec]; simp

end Ellipy.Ell
