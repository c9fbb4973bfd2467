import Mathlib.MeasureTheory.Measure.Lebesgue.VolumeOfBalls
import Mathlib.MeasureTheory.Measure.Lebesgue.EqHaar
import Verif.Model.Volume
import Verif.Proofs.Ell

/-! Property theorem C32 (`volume`). -/

namespace Ellipy.Ell
open Matrix Ellipy.LA MeasureTheory

theorem unit_ball_volume (n : ℕ) (hn : n ≠ 0) : MeasureTheory.volume {u : Fin n → ℝ | u ⬝ᵥ u ≤ 1} =
    ENNReal.ofReal (Real.sqrt Real.pi ^ n / Real.Gamma (n / 2 + 1)) := by
  have : Nonempty (Fin n) := ⟨⟨0, Nat.pos_of_ne_zero hn⟩⟩
  have h := EuclideanSpace.volume_closedBall (Fin n) 0 1
  rw [← (PiLp.volume_preserving_toLp (Fin n)).measure_preimage measurableSet_closedBall.nullMeasurableSet] at h
  have hs : (WithLp.toLp 2 ⁻¹' Metric.closedBall (0 : EuclideanSpace ℝ (Fin n)) 1) = {u : Fin n → ℝ | u ⬝ᵥ u ≤ 1} := by
    ext u
    simp only [Set.mem_preimage, mem_closedBall_zero_iff, Set.mem_setOf_eq]
    rw [← sq_le_one_iff₀ (norm_nonneg _), EuclideanSpace.norm_sq_eq]
    simp only [dotProduct, Real.norm_eq_abs, sq_abs]
    simp only [pow_two]
  rw [hs] at h
  rw [h]
  simp

theorem ell_volume_eq {n : ℕ} (hn : n ≠ 0) (c : Fin n → ℝ) {Q : Matrix (Fin n) (Fin n) ℝ} (hQ : IsPSD Q) :
    MeasureTheory.volume (Ell c Q) = ENNReal.ofReal (Real.sqrt Real.pi ^ n / Real.Gamma (n / 2 + 1) * Real.sqrt Q.det) := by
  obtain ⟨S, hS, hSS⟩ := exists_root hQ
  have hset : Ell c Q = (fun y => c + y) '' (Matrix.toLin' S '' {u : Fin n → ℝ | u ⬝ᵥ u ≤ 1}) := by
    ext x
    rw [mem_ell_factor (M := S) (by rw [hS.1, hSS])]
    simp only [Set.mem_image, Set.mem_setOf_eq, exists_exists_and_eq_and, Matrix.toLin'_apply]
    constructor
    · rintro ⟨u, hu, rfl⟩; exact ⟨u, hu, rfl⟩
    · rintro ⟨u, hu, rfl⟩; exact ⟨u, hu, rfl⟩
  rw [hset, Set.image_add_left, measure_preimage_add, Measure.addHaar_image_linearMap, unit_ball_volume n hn, LinearMap.det_toLin',
    mul_comm, ← ENNReal.ofReal_mul' (abs_nonneg _), ← hSS, det_mul, Real.sqrt_mul_self_eq_abs]

theorem ballFactor_eq (n : ℕ) : ballFactor n = Real.sqrt Real.pi ^ n / Real.Gamma (n / 2 + 1) := by
  unfold ballFactor
  rcases Nat.even_or_odd' n with ⟨k, rfl | rfl⟩
  · rw [if_neg (by omega)]
    have hk : 2 * k / 2 = k := by omega
    rw [hk, pow_mul, Real.sq_sqrt Real.pi_pos.le]
    have : ((2 * k : ℕ) : ℝ) / 2 + 1 = (k : ℝ) + 1 := by push_cast; ring
    rw [this, Real.Gamma_nat_eq_factorial]
  · rw [if_pos (by omega)]
    have hk : (2 * k + 1 - 1) / 2 = k := by omega
    have hc : ((2 * k + 1 : ℕ) : ℝ) / 2 + 1 = (k : ℝ) + 1 + 1 / 2 := by push_cast; ring
    have hf : (2 * k + 1).factorial = (2 * k + 1).doubleFactorial * (2 ^ k * k.factorial) := by
      rw [Nat.factorial_eq_mul_doubleFactorial, Nat.doubleFactorial_two_mul]
    have hd : ((2 * k + 1).doubleFactorial : ℝ) ≠ 0 := by
      have := Nat.doubleFactorial_pos (2 * k + 1)
      positivity
    have hg : (k.factorial : ℝ) ≠ 0 := by exact_mod_cast Nat.factorial_ne_zero k
    have hp : Real.sqrt Real.pi ≠ 0 := (Real.sqrt_pos.mpr Real.pi_pos).ne'
    simp only [hk]
    rw [hc, Real.Gamma_nat_add_one_add_half, hf, pow_succ (Real.sqrt Real.pi), pow_mul, Real.sq_sqrt Real.pi_pos.le]
    push_cast
    field_simp
    ring

theorem ballFactor_nonneg (n : ℕ) : 0 ≤ ballFactor n := by
  unfold ballFactor
  split_ifs <;> positivity

/-- A form that is positive away from zero has a positive determinant. -/
theorem det_pos_of_pos {n : ℕ} {Q : Matrix (Fin n) (Fin n) ℝ} (hQ : IsPSD Q) (h : ∀ x : Fin n → ℝ, x ≠ 0 → 0 < x ⬝ᵥ Q *ᵥ x) :
    0 < Q.det := by
  obtain ⟨S, hS, hSS⟩ := exists_root hQ
  have h0 : Q.det ≠ 0 := by
    intro h0
    obtain ⟨v, hv, hz⟩ := Matrix.exists_mulVec_eq_zero_iff.mpr h0
    have := h v hv
    rw [hz, dotProduct_zero] at this
    exact lt_irrefl _ this
  have : 0 ≤ Q.det := by rw [← hSS, det_mul]; exact mul_self_nonneg _
  exact lt_of_le_of_ne this (Ne.symm h0)

theorem singleVolume_eq (E : Eigh) (e : EllObj) (hn : e.n ≠ 0) (hs : e.Qᵀ = e.Q) (ht : 0 ≤ e.absTol) :
    (isMatPosDef E e.Q e.absTol false = .ok true ∧ singleVolume E e = .ok ⟨false, ballFactor e.n * Real.sqrt e.Q.det⟩) ∨
    (isMatPosDef E e.Q e.absTol false ≠ .ok true ∧ singleVolume E e = .ok ⟨true, 0⟩) := by
  have hno : ¬ Raises (isMatPosDef E e.Q e.absTol false) := by
    rw [C20_raises_iff]
    push Not
    exact ⟨ht, symmWithin_of_symm hs ht, hn⟩
  have he : ¬ anyEmpty [e] := by
    rintro ⟨e', he', h0⟩
    rw [List.mem_singleton.mp he'] at h0
    exact hn h0
  unfold singleVolume isDegenerate
  rw [if_neg he]
  unfold pyMap pyMap
  cases h : isMatPosDef E e.Q e.absTol false with
  | error x => exact absurd ⟨x, h⟩ hno
  | ok b => cases b <;> simp

/-- **C32**: which arrays are rejected: those with an empty ellipsoid (and, for objects no constructor produces, a negative tolerance or
a shape matrix that is not symmetric within it). -/
theorem C32_raises_iff (E : Eigh) (l : List EllObj) : Raises (volume E l) ↔
    ∃ e ∈ l, e.n = 0 ∨ e.absTol < 0 ∨ ¬ SymmWithin e.Q e.absTol := by
  unfold volume
  by_cases h : anyEmpty l
  · rw [if_pos h]
    obtain ⟨e, he, h0⟩ := h
    exact iff_of_true ⟨_, rfl⟩ ⟨e, he, Or.inl h0⟩
  · rw [if_neg h, pyMap_raises]
    refine exists_congr (fun e => and_congr_right (fun he => ?_))
    have hn : e.n ≠ 0 := fun h0 => h ⟨e, he, h0⟩
    have h1 : ¬ anyEmpty [e] := by
      rintro ⟨e', he', h0⟩
      rw [List.mem_singleton.mp he'] at h0
      exact hn h0
    have h2 := C20_raises_iff E e.Q e.absTol false
    unfold singleVolume isDegenerate
    rw [if_neg h1]
    unfold pyMap pyMap
    cases h3 : isMatPosDef E e.Q e.absTol false with
    | error x =>
      refine iff_of_true ⟨x, rfl⟩ ?_
      rcases h2.mp ⟨x, h3⟩ with h | h | h
      · exact Or.inr (Or.inl h)
      · exact Or.inr (Or.inr h)
      · exact absurd h hn
    | ok b =>
      refine iff_of_false ?_ ?_
      · rintro ⟨x, hx⟩
        cases b <;> cases hx
      · rintro (h | h | h)
        · exact hn h
        · obtain ⟨x, hx⟩ := h2.mpr (Or.inl h); rw [h3] at hx; cases hx
        · obtain ⟨x, hx⟩ := h2.mpr (Or.inr (Or.inl h)); rw [h3] at hx; cases hx

/-- **C32**: for ellipsoids with positive semidefinite shape matrices the result of `volume` has one entry for each ellipsoid: the Lebesgue
measure of the set if the form exceeds the tolerance of the ellipsoid, and 0 otherwise. -/
theorem C32 (E : Eigh) (l : List EllObj) (hl : ∀ e ∈ l, e.n ≠ 0 ∧ IsPSD e.Q ∧ 0 ≤ e.absTol) :
    ∃ vs, Ell.volume E l = .ok vs ∧ List.Forall₂ (fun (e : EllObj) (v : VolEntry) =>
      ((∀ x : Fin e.n → ℝ, x ≠ 0 → e.absTol * (x ⬝ᵥ x) < x ⬝ᵥ e.Q *ᵥ x) →
        MeasureTheory.volume (Ell e.c e.Q) = ENNReal.ofReal v.val ∧ 0 < v.val ∧ v.isArr = false) ∧
      (¬ (∀ x : Fin e.n → ℝ, x ≠ 0 → e.absTol * (x ⬝ᵥ x) < x ⬝ᵥ e.Q *ᵥ x) → v.val = 0 ∧ v.isArr = true)) l vs := by
  have h0 : ¬ anyEmpty l := by rintro ⟨e, he, h0⟩; exact (hl e he).1 h0
  have hno : ¬ Raises (Ell.volume E l) := by
    rw [C32_raises_iff]
    rintro ⟨e, he, h | h | h⟩
    · exact (hl e he).1 h
    · exact absurd (hl e he).2.2 (not_le.mpr h)
    · exact h (symmWithin_of_symm (hl e he).2.1.1 (hl e he).2.2)
  cases h : Ell.volume E l with
  | error x => exact absurd ⟨x, h⟩ hno
  | ok vs =>
    refine ⟨vs, rfl, ?_⟩
    unfold volume at h
    rw [if_neg h0, pyMap_ok_iff] at h
    refine (List.forall₂_and_left (p := fun e => e ∈ l) l vs |>.mpr ⟨fun _ h => h, h⟩).imp ?_
    rintro e v ⟨he, hv⟩
    obtain ⟨hn, hQ, ht⟩ := hl e he
    have hc := C20_pos_def E e.Q e.absTol ht hn hQ.1
    rcases singleVolume_eq E e hn hQ.1 ht with ⟨h1, h2⟩ | ⟨h1, h2⟩
    · rw [h2] at hv
      injection hv with hv
      subst hv
      refine ⟨fun hp => ⟨?_, ?_, rfl⟩, fun hp => absurd (hc.mp h1) hp⟩
      · rw [ell_volume_eq hn e.c hQ, ballFactor_eq]
      · refine mul_pos (lt_of_le_of_ne (ballFactor_nonneg _) (Ne.symm ?_)) (Real.sqrt_pos.mpr (det_pos_of_pos hQ (fun x hx => ?_)))
        · rw [ballFactor_eq]
          have h3 : 0 < Real.sqrt Real.pi := Real.sqrt_pos.mpr Real.pi_pos
          have h4 : 0 < Real.Gamma (e.n / 2 + 1) := Real.Gamma_pos_of_pos (by positivity)
          positivity
        · exact lt_of_le_of_lt (mul_nonneg ht (dot_self_nonneg x)) (hp x hx)
    · rw [h2] at hv
      injection hv with hv
      subst hv
      exact ⟨fun hp => absurd (hc.mpr hp) h1, fun _ => ⟨rfl, rfl⟩⟩

/-- **C32**: `ell_volume` is the Lebesgue measure for every positive semidefinite matrix. -/
theorem C32_ell_volume {n : ℕ} (hn : n ≠ 0) (c : Fin n → ℝ) (Q : Matrix (Fin n) (Fin n) ℝ) (hQ : IsPSD Q) :
    MeasureTheory.volume (Ell c Q) = ENNReal.ofReal (ellVolume Q) := by
  rw [ell_volume_eq hn c hQ]
  congr 1
  unfold ellVolume
  have h1 : Real.pi ^ ((n : ℝ) * 0.5) = Real.sqrt Real.pi ^ n := by
    rw [Real.sqrt_eq_rpow, ← Real.rpow_natCast, ← Real.rpow_mul Real.pi_pos.le]
    congr 1
    ring
  have h2 : (0.5 : ℝ) * n + 1 = n / 2 + 1 := by ring
  rw [h1, h2]
  ring

/-- **C32**: a flat ellipsoid has measure zero, which is what `volume` returns for it. -/
theorem C32_degenerate {n : ℕ} (hn : n ≠ 0) (c : Fin n → ℝ) (Q : Matrix (Fin n) (Fin n) ℝ) (hQ : IsPSD Q) (x : Fin n → ℝ)
    (hx : x ≠ 0) (h0 : x ⬝ᵥ Q *ᵥ x = 0) : MeasureTheory.volume (Ell c Q) = 0 := by
  have hd : Q.det = 0 := Matrix.exists_mulVec_eq_zero_iff.mp ⟨x, hx, psd_null hQ h0⟩
  rw [ell_volume_eq hn c hQ, hd, Real.sqrt_zero, mul_zero, ENNReal.ofReal_zero]

/-- The ellipse with half-axes 2 and 1 has volume `2 π`, the segment `diag(1, 0)` has volume 0. -/
example (E : Eigh) : ∃ v w : VolEntry, Ell.volume E [⟨2, ![1, 1], diagonal ![4, 1], 1 / 10, 0, 0, 0⟩,
    ⟨2, 0, diagonal ![1, 0], 1 / 10, 0, 0, 0⟩] = .ok [v, w] ∧ v.val = 2 * Real.pi ∧ w.val = 0 := by
  have hp : ∀ a b : ℝ, 0 ≤ a → 0 ≤ b → IsPSD (diagonal ![a, b]) := fun a b ha hb => ⟨diagonal_transpose _, fun x => by
    rw [quad_diag, Fin.sum_univ_two]; simp; positivity⟩
  obtain ⟨vs, h, hf⟩ := C32 E [⟨2, ![1, 1], diagonal ![4, 1], 1 / 10, 0, 0, 0⟩, ⟨2, 0, diagonal ![1, 0], 1 / 10, 0, 0, 0⟩] (by
    intro e he
    simp only [List.mem_cons, List.not_mem_nil, or_false] at he
    rcases he with rfl | rfl
    · exact ⟨by norm_num, hp 4 1 (by norm_num) (by norm_num), by norm_num⟩
    · exact ⟨by norm_num, hp 1 0 (by norm_num) (by norm_num), by norm_num⟩)
  cases hf with
  | cons h1 hf =>
    cases hf with
    | cons h2 hf =>
      cases hf
      refine ⟨_, _, h, ?_, (h2.2 ?_).1⟩
      · obtain ⟨h3, h4, -⟩ := h1.1 (by
          intro x hx
          have := dot_self_pos hx
          rw [quad_diag, Fin.sum_univ_two]
          rw [dotProduct, Fin.sum_univ_two] at *
          simp at *
          nlinarith)
        rw [ell_volume_eq (by norm_num) _ (hp 4 1 (by norm_num) (by norm_num)), ← ballFactor_eq] at h3
        have h5 := (ENNReal.ofReal_eq_ofReal_iff (mul_nonneg (ballFactor_nonneg _) (Real.sqrt_nonneg _)) h4.le).mp h3
        rw [← h5, det_diagonal]
        simp [ballFactor, Fin.prod_univ_two]
        rw [show (4 : ℝ) = 2 ^ 2 by norm_num, Real.sqrt_sq (by norm_num)]
        ring
      · intro h
        have := h ![0, 1] (by intro h; have := congrFun h 1; simp at this)
        rw [quad_diag, Fin.sum_univ_two, dotProduct, Fin.sum_univ_two] at this
        norm_num at this

end Ellipy.Ell
