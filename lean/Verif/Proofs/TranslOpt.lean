import Verif.Spec.Constants
import Mathlib.LinearAlgebra.Matrix.Trace
import Verif.Props.TranslQr

/-! Helper facts for C26-C28: orthogonal maps with one prescribed direction. -/

namespace Ellipy.LA
open Matrix

theorem IsOrth.left {n : ℕ} {O : Matrix (Fin n) (Fin n) ℝ} (h : IsOrth O) : Oᵀ * O = 1 := mul_eq_one_comm.mp h

/-- First column. -/
def col0 {m k : ℕ} (P : Matrix (Fin m) (Fin (k + 1)) ℝ) : Fin m → ℝ := fun i => P i 0

section frame
variable {k : ℕ} {P : Matrix (Fin (k + 1)) (Fin (k + 1)) ℝ} (hP : IsOrth P)
include hP

theorem tail_orth : (tailCols P)ᵀ * tailCols P = 1 := by
  ext i j
  have h := congrFun (congrFun hP.left i.succ) j.succ
  rw [one_apply] at h ⊢
  rw [if_congr (Fin.succ_inj) rfl rfl] at h
  exact h

theorem tail_col : (tailCols P)ᵀ *ᵥ col0 P = 0 := by
  funext i
  have h := congrFun (congrFun hP.left i.succ) 0
  rw [one_apply_ne (Fin.succ_ne_zero i)] at h
  exact h

theorem col0_dot : col0 P ⬝ᵥ col0 P = 1 := by
  have h := congrFun (congrFun hP.left 0) 0
  rw [one_apply_eq] at h
  exact h

theorem frame_complete : tailCols P * (tailCols P)ᵀ + vecMulVec (col0 P) (col0 P) = 1 := by
  ext i j
  have h := congrFun (congrFun hP i) j
  rw [mul_apply, Fin.sum_univ_succ] at h
  rw [Matrix.add_apply, mul_apply, vecMulVec_apply, add_comm]
  exact h

end frame

theorem mul_vecMulVec' {m n : ℕ} (A : Matrix (Fin m) (Fin n) ℝ) {p : ℕ} (u : Fin n → ℝ) (v : Fin p → ℝ) :
    A * vecMulVec u v = vecMulVec (A *ᵥ u) v := by
  ext i j
  simp only [mul_apply, vecMulVec_apply, mulVec, dotProduct, Finset.sum_mul]
  exact Finset.sum_congr rfl (fun x _ => by ring)

theorem vecMulVec_mul'' {m n : ℕ} (A : Matrix (Fin m) (Fin n) ℝ) {p : ℕ} (u : Fin p → ℝ) (v : Fin m → ℝ) :
    vecMulVec u v * A = vecMulVec u (Aᵀ *ᵥ v) := by
  ext i j
  simp only [mul_apply, vecMulVec_apply, mulVec, dotProduct, Finset.mul_sum, transpose_apply]
  exact Finset.sum_congr rfl (fun x _ => by ring)

theorem vecMulVec_zero' {m n : ℕ} (u : Fin m → ℝ) : vecMulVec u (0 : Fin n → ℝ) = 0 := by
  ext i j
  simp [vecMulVec_apply]

theorem zero_vecMulVec' {m n : ℕ} (u : Fin m → ℝ) : vecMulVec (0 : Fin n → ℝ) u = 0 := by
  ext i j
  simp [vecMulVec_apply]

/-- Every orthogonal map with `O a = b` is `u₀ W v₀ᵀ + b aᵀ` with `W` orthogonal. -/
theorem feasible_decomp {k : ℕ} {P R O : Matrix (Fin (k + 1)) (Fin (k + 1)) ℝ} (hP : IsOrth P) (hR : IsOrth R)
    (hO : IsOrth O) (hab : O *ᵥ col0 R = col0 P) :
    ∃ W : Matrix (Fin k) (Fin k) ℝ, IsOrth W ∧
      O = tailCols P * W * (tailCols R)ᵀ + vecMulVec (col0 P) (col0 R) := by
  set u := tailCols P
  set v := tailCols R
  set a := col0 R
  set b := col0 P
  have hOb : Oᵀ *ᵥ b = a := by rw [← hab, mulVec_mulVec, hO.left, one_mulVec]
  have hbv : vecMulVec b b * (O * v) = 0 := by
    rw [vecMulVec_mul'', transpose_mul, ← mulVec_mulVec, hOb]
    have : vᵀ *ᵥ a = 0 := tail_col hR
    rw [this, vecMulVec_zero']
  have hOv : O * v = u * (uᵀ * O * v) := by
    have h := congrArg (· * (O * v)) (frame_complete hP)
    simp only [Matrix.add_mul, Matrix.one_mul] at h
    rw [hbv, add_zero] at h
    rw [← h]
    simp only [Matrix.mul_assoc]
    rfl
  refine ⟨uᵀ * O * v, ?_, ?_⟩
  · apply mul_eq_one_comm.mp
    have : (uᵀ * O * v)ᵀ * (uᵀ * O * v) = (O * v)ᵀ * (u * (uᵀ * O * v)) := by
      simp only [transpose_mul, transpose_transpose, Matrix.mul_assoc]
    rw [this, ← hOv, transpose_mul]
    calc vᵀ * Oᵀ * (O * v) = vᵀ * (Oᵀ * O) * v := by simp only [Matrix.mul_assoc]
      _ = 1 := by rw [hO.left, Matrix.mul_one]; exact tail_orth hR
  · have h := congrArg (O * ·) (frame_complete hR)
    simp only [Matrix.mul_add, Matrix.mul_one] at h
    rw [mul_vecMulVec', hab] at h
    rw [← hOv, Matrix.mul_assoc]
    exact h.symm

/-- Conversely every orthogonal `W` gives such a map. -/
theorem feasible_of_orth {k : ℕ} {P R : Matrix (Fin (k + 1)) (Fin (k + 1)) ℝ} (hP : IsOrth P) (hR : IsOrth R)
    {W : Matrix (Fin k) (Fin k) ℝ} (hW : IsOrth W) :
    IsOrth (tailCols P * W * (tailCols R)ᵀ + vecMulVec (col0 P) (col0 R)) ∧
      (tailCols P * W * (tailCols R)ᵀ + vecMulVec (col0 P) (col0 R)) *ᵥ col0 R = col0 P := by
  set u := tailCols P
  set v := tailCols R
  set a := col0 R
  set b := col0 P
  have hva : vᵀ *ᵥ a = 0 := tail_col hR
  have haa : a ⬝ᵥ a = 1 := col0_dot hR
  constructor
  · rw [IsOrth, transpose_add, transpose_vecMulVec, Matrix.mul_add, Matrix.add_mul, Matrix.add_mul, vecMulVec_mul', haa, one_smul,
      mul_vecMulVec', ← mulVec_mulVec, hva, mulVec_zero, zero_vecMulVec', zero_add]
    have h2 : vecMulVec b a * (u * W * vᵀ)ᵀ = 0 := by
      rw [vecMulVec_mul'', transpose_transpose, ← mulVec_mulVec, hva, mulVec_zero, vecMulVec_zero']
    rw [h2, add_zero]
    have h3 : u * W * vᵀ * (u * W * vᵀ)ᵀ = u * uᵀ := by
      rw [transpose_mul, transpose_mul, transpose_transpose]
      calc u * W * vᵀ * (v * (Wᵀ * uᵀ)) = u * (W * (vᵀ * v) * Wᵀ) * uᵀ := by simp only [Matrix.mul_assoc]
        _ = u * uᵀ := by
          have : vᵀ * v = 1 := tail_orth hR
          rw [this, Matrix.mul_one, hW, Matrix.mul_one]
    rw [h3]
    exact frame_complete hP
  · rw [add_mulVec, ← mulVec_mulVec, hva, mulVec_zero, zero_add, vecMulVec_mulVec', haa, one_smul]

theorem IsOrth.mul {n : ℕ} {A B : Matrix (Fin n) (Fin n) ℝ} (hA : IsOrth A) (hB : IsOrth B) : IsOrth (A * B) := by
  rw [IsOrth, transpose_mul]
  calc A * B * (Bᵀ * Aᵀ) = A * (B * Bᵀ) * Aᵀ := by simp only [Matrix.mul_assoc]
    _ = 1 := by rw [hB, Matrix.mul_one, hA]

theorem IsOrth.transpose {n : ℕ} {A : Matrix (Fin n) (Fin n) ℝ} (hA : IsOrth A) : IsOrth Aᵀ := by
  rw [IsOrth, transpose_transpose]; exact hA.left

theorem orth_diag_le {n : ℕ} {Z : Matrix (Fin n) (Fin n) ℝ} (hZ : IsOrth Z) (i : Fin n) : Z i i ≤ 1 := by
  have h := congrFun (congrFun hZ i) i
  rw [mul_apply, one_apply_eq] at h
  have h1 := Finset.single_le_sum (f := fun j => Z i j * Zᵀ j i) (fun j _ => by
    rw [transpose_apply]; exact mul_self_nonneg _) (Finset.mem_univ i)
  rw [h, transpose_apply] at h1
  nlinarith

/-- The trace of a product with an orthogonal matrix is at most the sum of the singular values. -/
theorem trace_orth_le {n : ℕ} {W U V : Matrix (Fin n) (Fin n) ℝ} {s : Fin n → ℝ} (hW : IsOrth W) (hU : IsOrth U) (hV : IsOrth V)
    (hs : ∀ i, 0 ≤ s i) : trace (W * (U * diagonal s * V)) ≤ ∑ i, s i := by
  have h1 : trace (W * (U * diagonal s * V)) = trace ((V * W * U) * diagonal s) := by
    rw [show W * (U * diagonal s * V) = (W * U * diagonal s) * V by simp only [Matrix.mul_assoc],
      trace_mul_comm]
    simp only [Matrix.mul_assoc]
  rw [h1, trace]
  refine Finset.sum_le_sum (fun i _ => ?_)
  rw [diag_apply, mul_diagonal]
  have := orth_diag_le ((hV.mul hW).mul hU) i
  have := hs i
  nlinarith

theorem axis0_eq {k : ℕ} : (axis0 : Fin (k + 1) → ℝ) = e0 := by
  funext i
  refine Fin.cases ?_ (fun j => ?_) i
  · simp [axis0, e0]
  · simp [axis0, e0, Fin.succ_ne_zero]

theorem dir_e0 {k : ℕ} : dir (e0 : Fin (k + 1) → ℝ) = e0 := by
  have : (e0 : Fin (k + 1) → ℝ) ⬝ᵥ e0 = 1 := by
    rw [dotProduct, Fin.sum_univ_succ]
    simp [e0]
  rw [dir, this]; simp

theorem e0_ne {k : ℕ} : (e0 : Fin (k + 1) → ℝ) ≠ 0 := by
  intro h; have := congrFun h 0; simp [e0] at this

theorem mulVec_e0 {m k : ℕ} (O : Matrix (Fin m) (Fin (k + 1)) ℝ) : O *ᵥ e0 = col0 O := by
  funext i
  rw [mulVec, dotProduct, Fin.sum_univ_succ]
  simp [e0, col0]

/-- What `orth_transl(e_vec, v)` gives: an orthogonal matrix whose first column is the direction of `v`. -/
theorem orthTransl_e0 {k : ℕ} {v : Fin (k + 1) → ℝ} (hv : v ≠ 0) (hA : Apart e0 v) :
    ∃ O, orthTransl e0 v = .ok O ∧ IsOrth O ∧ col0 O = dir v := by
  obtain ⟨O, h1, h2, h3⟩ := orthTransl_spec e0_ne hv hA
  refine ⟨O, h1, h2, ?_⟩
  rw [Carries, dir_e0, mulVec_e0] at h3
  exact h3

theorem dot_sq_le_mul {n : ℕ} (x y : Fin n → ℝ) : (x ⬝ᵥ y) ^ 2 ≤ (x ⬝ᵥ x) * (y ⬝ᵥ y) := by
  rw [dot_self_eq, dot_self_eq]
  exact Finset.sum_mul_sq_le_sq_mul_sq _ _ _

end Ellipy.LA
