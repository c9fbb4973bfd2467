import Verif.Proofs.Lstsq
import Verif.Proofs.MatVector
import Verif.Spec.MatHelpers

/-! Least squares, the pseudo-inverse, and entries of rectangular slices. -/

namespace Ellipy.MV
open Matrix Ellipy.LA

theorem sqNorm_nonneg {n : ℕ} (x : Fin n → ℝ) : 0 ≤ sqNorm x := by
  unfold sqNorm dotProduct
  exact Finset.sum_nonneg (fun i _ => mul_self_nonneg (x i))

theorem sqNorm_zero {n : ℕ} {x : Fin n → ℝ} (h : sqNorm x = 0) : x = 0 := by
  unfold sqNorm dotProduct at h
  funext i
  exact mul_self_eq_zero.mp ((Finset.sum_eq_zero_iff_of_nonneg (fun i _ => mul_self_nonneg (x i))).mp h i (Finset.mem_univ _))

theorem sqNorm_add {n : ℕ} {x y : Fin n → ℝ} (h : x ⬝ᵥ y = 0) : sqNorm (x + y) = sqNorm x + sqNorm y := by
  unfold sqNorm
  rw [add_dotProduct, dotProduct_add, dotProduct_add, h, dotProduct_comm y x, h]
  ring

/-- The normal equations together with membership in the row space characterise the shortest least-squares solution. -/
theorem shortest_of_normal {m n : ℕ} {A : Matrix (Fin m) (Fin n) ℝ} {y : Fin m → ℝ} {x : Fin n → ℝ}
    (h1 : Aᵀ *ᵥ (A *ᵥ x) = Aᵀ *ᵥ y) (h2 : ∃ w, x = Aᵀ *ᵥ w) : IsShortestLs A y x := by
  have key : ∀ z, sqNorm (A *ᵥ z - y) = sqNorm (A *ᵥ (z - x)) + sqNorm (A *ᵥ x - y) := by
    intro z
    have e : A *ᵥ z - y = A *ᵥ (z - x) + (A *ᵥ x - y) := by rw [mulVec_sub]; abel
    rw [e]
    apply sqNorm_add
    rw [dotProduct_comm, dotProduct_mulVec, ← mulVec_transpose, mulVec_sub, h1, sub_self, zero_dotProduct]
  refine ⟨fun z => ?_, fun z hz => ?_⟩
  · rw [key z]
    linarith [sqNorm_nonneg (A *ᵥ (z - x))]
  · have h3 := hz x
    rw [key z] at h3
    have h4 : A *ᵥ (z - x) = 0 := sqNorm_zero (le_antisymm (by linarith) (sqNorm_nonneg _))
    obtain ⟨w, hw⟩ := h2
    have h5 : x ⬝ᵥ (z - x) = 0 := by
      nth_rw 1 [hw]
      rw [mulVec_transpose, ← dotProduct_mulVec, h4, dotProduct_zero]
    have h6 := sqNorm_add h5
    rw [add_sub_cancel] at h6
    linarith [sqNorm_nonneg (z - x)]

theorem Pinv.shortest (P : Pinv) {m n : ℕ} (A : Matrix (Fin m) (Fin n) ℝ) (y : Fin m → ℝ) : IsShortestLs A y (P.inv A *ᵥ y) := by
  apply shortest_of_normal
  · rw [mulVec_mulVec, mulVec_mulVec]
    congr 1
    have h := congrArg transpose (P.p1 A)
    rwa [transpose_mul, P.p3, ← Matrix.mul_assoc] at h
  · refine ⟨((P.inv A)ᵀ * P.inv A) *ᵥ y, ?_⟩
    rw [mulVec_mulVec, ← Matrix.mul_assoc, ← transpose_mul, P.p4, P.p2]

theorem Pinv.inverse (P : Pinv) {n : ℕ} {A : Matrix (Fin n) (Fin n) ℝ} (hA : IsUnit A.det) : P.inv A = A⁻¹ := by
  have h := P.p1 A
  have h1 : P.inv A * A = 1 := by
    have := congrArg (fun M => A⁻¹ * M) h
    simpa only [← Matrix.mul_assoc, nonsing_inv_mul _ hA, Matrix.one_mul] using this
  have h2 := congrArg (fun M => M * A⁻¹) h1
  simpa only [Matrix.mul_assoc, mul_nonsing_inv _ hA, Matrix.mul_one, Matrix.one_mul] using h2

theorem exists_pinv {m n : ℕ} (A : Matrix (Fin m) (Fin n) ℝ) :
    ∃ X : Matrix (Fin n) (Fin m) ℝ, A * X * A = A ∧ X * A * X = X ∧ (A * X)ᵀ = A * X ∧ (X * A)ᵀ = X * A := by
  obtain ⟨X, hn, Y, hY⟩ := exists_lstsq A (1 : Matrix (Fin m) (Fin m) ℝ)
  rw [Matrix.mul_one] at hn
  have h3 : (A * X)ᵀ = A * X := by
    have h : (A * X)ᵀ * (A * X) = (A * X)ᵀ := by
      rw [transpose_mul, Matrix.mul_assoc, ← Matrix.mul_assoc Aᵀ, hn]
    have h' := congrArg transpose h
    rw [transpose_mul (A * X)ᵀ, transpose_transpose, h] at h'
    exact h'
  have h1 : A * X * A = A := by
    have h := congrArg transpose hn
    rwa [Matrix.mul_assoc, transpose_mul, h3, transpose_transpose] at h
  have h4 : (X * A)ᵀ = X * A := by
    have e : (X * A)ᵀ = Aᵀ * Yᵀ * A := by
      rw [hY, transpose_mul, transpose_mul, transpose_transpose, Matrix.mul_assoc]
    have h : (X * A)ᵀ * (X * A) = (X * A)ᵀ := by
      nth_rw 1 [e]
      rw [Matrix.mul_assoc, ← Matrix.mul_assoc A, h1, e]
    have h' := congrArg transpose h
    rw [transpose_mul (X * A)ᵀ, transpose_transpose, h] at h'
    exact h'
  have h2 : X * A * X = X := by
    have e : X * A * Aᵀ = Aᵀ := by
      rw [← h4, ← transpose_mul, ← Matrix.mul_assoc, h1]
    rw [hY] at e ⊢
    rw [← Matrix.mul_assoc, e]
  exact ⟨X, h1, h2, h3, h4⟩

theorem nonempty_pinv : Nonempty Pinv := by
  choose x h1 h2 h3 h4 using fun (m n : ℕ) (A : Matrix (Fin m) (Fin n) ℝ) => exists_pinv A
  exact ⟨⟨fun {m n} => x m n, fun {m n} => h1 m n, fun {m n} => h2 m n, fun {m n} => h3 m n, fun {m n} => h4 m n⟩⟩

theorem rectFun_apply {r c : ℕ} (M : Matrix (Fin r) (Fin c) ℝ) {i j : ℕ} (hi : i < r) (hj : j < c) : rectFun M i j = M ⟨i, hi⟩ ⟨j, hj⟩ := by
  unfold rectFun
  rw [dif_pos ⟨hi, hj⟩]

theorem rectMat_rectFun {r c : ℕ} (M : Matrix (Fin r) (Fin c) ℝ) : rectMat r c (rectFun M) = M := by
  ext i j
  exact rectFun_apply M i.2 j.2

end Ellipy.MV
