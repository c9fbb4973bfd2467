import Verif.Base.Lstsq
import Verif.Proofs.La
import Verif.Props.LaPosDef

/-! The contract of `lstsq` is satisfiable; on an invertible system it is the solution. -/

namespace Ellipy.LA
open Matrix

theorem gram_zero {m n : ℕ} {A : Matrix (Fin m) (Fin n) ℝ} (h : Aᵀ * A = 0) : A = 0 := by
  ext i j
  have h1 := congrFun (congrFun h j) j
  have h2 : ∑ k, A k j * A k j = 0 := h1
  rw [Finset.sum_eq_zero_iff_of_nonneg (fun k _ => mul_self_nonneg _)] at h2
  exact mul_self_eq_zero.mp (h2 i (Finset.mem_univ _))

theorem exists_lstsq {m n p : ℕ} (A : Matrix (Fin m) (Fin n) ℝ) (b : Matrix (Fin m) (Fin p) ℝ) :
    ∃ x : Matrix (Fin n) (Fin p) ℝ, Aᵀ * A * x = Aᵀ * b ∧ ∃ y : Matrix (Fin m) (Fin p) ℝ, x = Aᵀ * y := by
  obtain ⟨d, V, _, hV, hE⟩ := exists_eigh (Aᵀ * A) (by rw [transpose_mul, transpose_transpose])
  have hG : Aᵀ * A = V * diagonal d * Vᵀ := by rw [← hE, Matrix.mul_assoc, orth_comm hV, Matrix.mul_one]
  let P : Matrix (Fin n) (Fin n) ℝ := V * diagonal (fun i => 1 - d i * (d i)⁻¹) * Vᵀ
  have hPt : Pᵀ = P := by
    show (V * diagonal _ * Vᵀ)ᵀ = V * diagonal _ * Vᵀ
    rw [transpose_mul, transpose_mul, transpose_transpose, diagonal_transpose, Matrix.mul_assoc]
  have hAP : A * P = 0 := by
    apply gram_zero
    rw [transpose_mul, hPt, Matrix.mul_assoc, ← Matrix.mul_assoc Aᵀ, hG, ← Matrix.mul_assoc]
    show V * diagonal _ * Vᵀ * (V * diagonal d * Vᵀ) * (V * diagonal _ * Vᵀ) = 0
    rw [conj_mul hV, conj_mul hV]
    have : (fun i => (1 - d i * (d i)⁻¹) * d i * (1 - d i * (d i)⁻¹)) = fun _ => 0 := by
      funext i
      by_cases h : d i = 0
      · rw [h]; ring
      · rw [mul_inv_cancel₀ h]; ring
    rw [this, diagonal_zero, Matrix.mul_zero, Matrix.zero_mul]
  have hPA : P * Aᵀ = 0 := by
    have := congrArg transpose hAP
    rwa [transpose_mul, hPt, transpose_zero] at this
  refine ⟨V * diagonal (fun i => (d i)⁻¹) * Vᵀ * (Aᵀ * b), ?_, A * (V * diagonal (fun i => (d i)⁻¹ * (d i)⁻¹) * Vᵀ * (Aᵀ * b)), ?_⟩
  · rw [hG, ← Matrix.mul_assoc, conj_mul hV]
    have h1 : V * diagonal (fun i => d i * (d i)⁻¹) * Vᵀ = 1 - P := by
      show _ = 1 - V * diagonal _ * Vᵀ
      have : (1 : Matrix (Fin n) (Fin n) ℝ) = V * diagonal (fun _ => 1) * Vᵀ := by
        rw [diagonal_one, Matrix.mul_one, orth_comm hV]
      rw [this, ← Matrix.sub_mul, ← Matrix.mul_sub, diagonal_sub]
      congr 3
      funext i
      ring
    rw [h1, Matrix.sub_mul, Matrix.one_mul, ← Matrix.mul_assoc P, hPA, Matrix.zero_mul, sub_zero]
  · rw [← Matrix.mul_assoc Aᵀ, hG, ← Matrix.mul_assoc (V * diagonal d * Vᵀ), conj_mul hV]
    congr 4
    funext i
    by_cases h : d i = 0
    · rw [h]; simp
    · field_simp

theorem nonempty_lstsq : Nonempty Lstsq := by
  choose x h1 h2 using fun (m n p : ℕ) (A : Matrix (Fin m) (Fin n) ℝ) (b : Matrix (Fin m) (Fin p) ℝ) => exists_lstsq A b
  exact ⟨⟨fun {m n p} => x m n p, fun {m n p} => h1 m n p, fun {m n p} => h2 m n p⟩⟩

/-- On an invertible square system `lstsq` returns the solution. -/
theorem Lstsq.solve (L : Lstsq) {n p : ℕ} {A : Matrix (Fin n) (Fin n) ℝ} (hA : IsUnit A.det) (b : Matrix (Fin n) (Fin p) ℝ) :
    L.sol A b = A⁻¹ * b := by
  have h := L.normal A b
  have hAt : IsUnit (Aᵀ).det := by rwa [det_transpose]
  have h2 : A * L.sol A b = b := by
    have := congrArg (fun M => (Aᵀ)⁻¹ * M) h
    rwa [Matrix.mul_assoc, ← Matrix.mul_assoc (Aᵀ)⁻¹, nonsing_inv_mul _ hAt, Matrix.one_mul, ← Matrix.mul_assoc,
      nonsing_inv_mul _ hAt, Matrix.one_mul] at this
  rw [← h2, ← Matrix.mul_assoc, nonsing_inv_mul _ hA, Matrix.one_mul, h2]

end Ellipy.LA
