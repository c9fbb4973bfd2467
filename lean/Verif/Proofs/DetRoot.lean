import Mathlib.Analysis.MeanInequalities
import Verif.Proofs.MinksumMin

/-! The `n`-th root of the determinant is superadditive on positive semidefinite matrices. -/

namespace Ellipy.Ell
open Matrix Ellipy.LA

/-- The `n`-th root of the determinant. -/
noncomputable def detRoot {n : ℕ} (Q : Matrix (Fin n) (Fin n) ℝ) : ℝ := Q.det ^ ((n : ℝ)⁻¹)

/-- Determinant and trace by the eigenvalues. -/
theorem eigh_det_trace {n : ℕ} {Q : Matrix (Fin n) (Fin n) ℝ} (hQ : IsPSD Q) :
    ∃ d : Fin n → ℝ, (∀ i, 0 ≤ d i) ∧ Q.det = ∏ i, d i ∧ Q.trace = ∑ i, d i := by
  obtain ⟨E⟩ := nonempty_eigh
  have h1 := E.orth Q
  have h2 := E.spec Q
  rw [lowerSym_of_symm hQ.1] at h2
  set V := E.vecs Q
  set d := E.vals Q
  have h3 : V * Vᵀ = 1 := mul_eq_one_comm.1 h1
  have hD : Vᵀ * Q * V = diagonal d := by
    rw [Matrix.mul_assoc, h2, ← Matrix.mul_assoc, h1, Matrix.one_mul]
  have hV : Vᵀ.det * V.det = 1 := by rw [← det_mul, h1, det_one]
  refine ⟨d, fun i => ?_, ?_, ?_⟩
  · have h := hQ.2 (fun j => V j i)
    have : (fun j => V j i) ⬝ᵥ Q *ᵥ (fun j => V j i) = (Vᵀ * Q * V) i i := by
      rw [Matrix.mul_assoc]
      rfl
    rw [this, hD, diagonal_apply_eq] at h
    exact h
  · have := congrArg det hD
    rw [det_mul, det_mul, det_diagonal] at this
    rw [← this, mul_right_comm, hV, one_mul]
  · have := congrArg trace hD
    rw [Matrix.mul_assoc, trace_mul_comm, Matrix.mul_assoc, h3, Matrix.mul_one, trace_diagonal] at this
    exact this

/-- The inequality between the geometric and the arithmetic mean. -/
theorem detRoot_le_trace {n : ℕ} (hn : n ≠ 0) {Q : Matrix (Fin n) (Fin n) ℝ} (hQ : IsPSD Q) : (n : ℝ) * detRoot Q ≤ Q.trace := by
  obtain ⟨d, h0, h1, h2⟩ := eigh_det_trace hQ
  have hn' : (0 : ℝ) < n := by exact_mod_cast Nat.pos_of_ne_zero hn
  have h := Real.geom_mean_le_arith_mean Finset.univ (fun _ : Fin n => (1 : ℝ)) d (fun _ _ => zero_le_one) (by simpa using hn') fun i _ => h0 i
  simp only [Real.rpow_one, one_mul, Finset.sum_const, Finset.card_univ, Fintype.card_fin, nsmul_eq_mul, mul_one] at h
  rw [le_div_iff₀ hn'] at h
  rw [detRoot, h1, h2, mul_comm]
  exact h

/-- The same for two matrices. -/
theorem detRoot_le_trace_mul {n : ℕ} (hn : n ≠ 0) {A X : Matrix (Fin n) (Fin n) ℝ} (hA : IsPSD A) (hX : IsPSD X) (h1 : X.det = 1) :
    (n : ℝ) * detRoot A ≤ (A * X).trace := by
  obtain ⟨S, hS, rfl⟩ := exists_root hX
  have hB : IsPSD (S * A * S) := by
    refine ⟨by rw [transpose_mul, transpose_mul, hS.1, hA.1, Matrix.mul_assoc], fun x => ?_⟩
    rw [← mulVec_mulVec, ← mulVec_mulVec, symm_dot hS.1]
    exact hA.2 _
  have h := detRoot_le_trace hn hB
  have e : (S * A * S).det = A.det := by
    rw [det_mul] at h1
    rw [det_mul, det_mul, mul_right_comm, h1, one_mul]
  rw [detRoot, e] at h
  rw [← Matrix.mul_assoc, trace_mul_comm, ← Matrix.mul_assoc]
  exact h

theorem detRoot_smul {n : ℕ} (hn : n ≠ 0) {Q : Matrix (Fin n) (Fin n) ℝ} (hd : 0 ≤ Q.det) {a : ℝ} (ha : 0 ≤ a) :
    detRoot (a • Q) = a * detRoot Q := by
  rw [detRoot, det_smul, Fintype.card_fin, Real.mul_rpow (pow_nonneg ha n) hd, Real.pow_rpow_inv_natCast ha hn]
  rfl

/-- Minkowski's inequality for determinants, for sums of any number of matrices. -/
theorem detRoot_sum {n : ℕ} (hn : n ≠ 0) (As : List (Matrix (Fin n) (Fin n) ℝ)) (hA : ∀ A ∈ As, IsPSD A) (hpos : 0 < As.sum.det)
    (hS : IsPSD As.sum) : (As.map detRoot).sum ≤ detRoot As.sum := by
  set M := As.sum with hM
  have hu : IsUnit M.det := hpos.ne'.isUnit
  have hn' : (0 : ℝ) < n := by exact_mod_cast Nat.pos_of_ne_zero hn
  have hr : 0 < detRoot M := Real.rpow_pos_of_pos hpos _
  have hinv : IsPSD M⁻¹ := by
    refine ⟨by rw [transpose_nonsing_inv, hS.1], fun x => ?_⟩
    have h := hS.2 (M⁻¹ *ᵥ x)
    rw [mulVec_mulVec, mul_nonsing_inv M hu, one_mulVec, dotProduct_comm] at h
    exact h
  set X := detRoot M • M⁻¹ with hX
  have hXp : IsPSD X := by
    refine ⟨by rw [hX, transpose_smul, hinv.1], fun x => ?_⟩
    rw [hX, smul_mulVec, dotProduct_smul, smul_eq_mul]
    exact mul_nonneg hr.le (hinv.2 x)
  have hXd : X.det = 1 := by
    rw [hX, det_smul, Fintype.card_fin, det_nonsing_inv, Ring.inverse_eq_inv', detRoot, Real.rpow_inv_natCast_pow hpos.le hn,
      mul_inv_cancel₀ hpos.ne']
  have key : ∀ Bs : List (Matrix (Fin n) (Fin n) ℝ), (∀ B ∈ Bs, IsPSD B) → (n : ℝ) * (Bs.map detRoot).sum ≤ (Bs.sum * X).trace := by
    intro Bs
    induction Bs with
    | nil => intro _; simp
    | cons B Bs ih =>
      intro h
      have h1 := detRoot_le_trace_mul hn (h B (by simp)) hXp hXd
      have h2 := ih fun C hC => h C (List.mem_cons_of_mem _ hC)
      rw [List.map_cons, List.sum_cons, List.sum_cons, Matrix.add_mul, trace_add]
      linarith
  have h := key As hA
  rw [← hM, hX, mul_smul_comm, mul_nonsing_inv M hu, trace_smul, trace_one, Fintype.card_fin, smul_eq_mul, mul_comm (detRoot M)] at h
  exact le_of_mul_le_mul_left h hn'

end Ellipy.Ell
