import Mathlib.Analysis.Calculus.Deriv.Pow
import Mathlib.Analysis.Calculus.Deriv.Inv
import Mathlib.Analysis.Calculus.Deriv.Polynomial
import Mathlib.Analysis.Calculus.LocalExtr.Basic
import Mathlib.Analysis.SpecialFunctions.Sqrt
import Mathlib.LinearAlgebra.Matrix.Charpoly.Coeff
import Mathlib.Topology.Instances.Matrix
import Verif.Model.Fusion
import Verif.Spec.Fusion
import Verif.Props.Volume

/-! Property theorem C67 (`ell_fusion_lambda`). -/

namespace Ellipy.Core
open Matrix Ellipy.LA Ellipy.Ell

namespace Fus

/-- The weighted mean of the two quadratic forms. -/
def g {m : ℕ} (q1 : Fin m → ℝ) (W1 : Matrix (Fin m) (Fin m) ℝ) (q2 : Fin m → ℝ) (W2 : Matrix (Fin m) (Fin m) ℝ) (a : ℝ) (x : Fin m → ℝ) : ℝ :=
  a * ((x - q1) ⬝ᵥ W1 *ᵥ (x - q1)) + (1 - a) * ((x - q2) ⬝ᵥ W2 *ᵥ (x - q2))

def X {m : ℕ} (W1 W2 : Matrix (Fin m) (Fin m) ℝ) (a : ℝ) : Matrix (Fin m) (Fin m) ℝ := a • W1 + (1 - a) • W2

noncomputable def q {m : ℕ} (q1 : Fin m → ℝ) (W1 : Matrix (Fin m) (Fin m) ℝ) (q2 : Fin m → ℝ) (W2 : Matrix (Fin m) (Fin m) ℝ) (a : ℝ) :
    Fin m → ℝ := (X W1 W2 a)⁻¹ *ᵥ (a • (W1 *ᵥ q1) + (1 - a) • (W2 *ᵥ q2))

noncomputable def k {m : ℕ} (q1 : Fin m → ℝ) (W1 : Matrix (Fin m) (Fin m) ℝ) (q2 : Fin m → ℝ) (W2 : Matrix (Fin m) (Fin m) ℝ) (a : ℝ) : ℝ :=
  1 - a * (1 - a) * ((q2 - q1) ⬝ᵥ (W2 * (X W1 W2 a)⁻¹ * W1) *ᵥ (q2 - q1))

variable {m : ℕ} {q1 q2 : Fin m → ℝ} {W1 W2 : Matrix (Fin m) (Fin m) ℝ}

theorem X_symm (h1 : W1ᵀ = W1) (h2 : W2ᵀ = W2) (a : ℝ) : (X W1 W2 a)ᵀ = X W1 W2 a := by
  unfold X; rw [transpose_add, transpose_smul, transpose_smul, h1, h2]

theorem quad_X (a : ℝ) (x y : Fin m → ℝ) : x ⬝ᵥ X W1 W2 a *ᵥ y = a * (x ⬝ᵥ W1 *ᵥ y) + (1 - a) * (x ⬝ᵥ W2 *ᵥ y) := by
  unfold X
  rw [add_mulVec, smul_mulVec, smul_mulVec, dotProduct_add, dotProduct_smul, dotProduct_smul, smul_eq_mul, smul_eq_mul]

theorem symm_dot {W : Matrix (Fin m) (Fin m) ℝ} (h : Wᵀ = W) (x y : Fin m → ℝ) : x ⬝ᵥ W *ᵥ y = y ⬝ᵥ W *ᵥ x := by
  rw [dotProduct_mulVec, ← mulVec_transpose, h, dotProduct_comm]

theorem quad_add {W : Matrix (Fin m) (Fin m) ℝ} (h : Wᵀ = W) (x y : Fin m → ℝ) :
    (x + y) ⬝ᵥ W *ᵥ (x + y) = x ⬝ᵥ W *ᵥ x + 2 * (x ⬝ᵥ W *ᵥ y) + y ⬝ᵥ W *ᵥ y := by
  rw [mulVec_add, add_dotProduct, dotProduct_add, dotProduct_add, symm_dot h y x]; ring

/-- The mean with the sum of the two quadratic forms around the centre `q`. -/
theorem g_shift (h1 : W1ᵀ = W1) (h2 : W2ᵀ = W2) {a : ℝ} (hd : IsUnit (X W1 W2 a).det) (x : Fin m → ℝ) :
    g q1 W1 q2 W2 a x = (x - q q1 W1 q2 W2 a) ⬝ᵥ X W1 W2 a *ᵥ (x - q q1 W1 q2 W2 a) + g q1 W1 q2 W2 a (q q1 W1 q2 W2 a) := by
  set z := x - q q1 W1 q2 W2 a with hz
  set p := q q1 W1 q2 W2 a with hp
  have hx : x = z + p := by rw [hz]; abel
  have hb : X W1 W2 a *ᵥ p = a • (W1 *ᵥ q1) + (1 - a) • (W2 *ᵥ q2) := by
    rw [hp, q, mulVec_mulVec, mul_nonsing_inv _ hd, one_mulVec]
  have hb' : z ⬝ᵥ X W1 W2 a *ᵥ p = z ⬝ᵥ (a • (W1 *ᵥ q1) + (1 - a) • (W2 *ᵥ q2)) := by rw [hb]
  rw [quad_X, dotProduct_add, dotProduct_smul, dotProduct_smul, smul_eq_mul, smul_eq_mul] at hb'
  unfold g
  have e1 : z ⬝ᵥ W1 *ᵥ (p - q1) = z ⬝ᵥ W1 *ᵥ p - z ⬝ᵥ W1 *ᵥ q1 := by rw [mulVec_sub, dotProduct_sub]
  have e2 : z ⬝ᵥ W2 *ᵥ (p - q2) = z ⬝ᵥ W2 *ᵥ p - z ⬝ᵥ W2 *ᵥ q2 := by rw [mulVec_sub, dotProduct_sub]
  rw [hx, add_sub_assoc, add_sub_assoc, quad_add h1, quad_add h2, quad_X, e1, e2]
  linear_combination 2 * hb'

theorem q_sub1 {a : ℝ} (hd : IsUnit (X W1 W2 a).det) :
    q q1 W1 q2 W2 a - q1 = (1 - a) • ((X W1 W2 a)⁻¹ *ᵥ (W2 *ᵥ (q2 - q1))) := by
  have h : q1 = (X W1 W2 a)⁻¹ *ᵥ (X W1 W2 a *ᵥ q1) := by rw [mulVec_mulVec, nonsing_inv_mul _ hd, one_mulVec]
  nth_rw 2 [h]
  unfold q
  rw [← mulVec_sub, ← mulVec_smul (X W1 W2 a)⁻¹]
  congr 1
  unfold X
  rw [add_mulVec, smul_mulVec, smul_mulVec, mulVec_sub, smul_sub]
  abel

theorem q_sub2 {a : ℝ} (hd : IsUnit (X W1 W2 a).det) :
    q q1 W1 q2 W2 a - q2 = (-a) • ((X W1 W2 a)⁻¹ *ᵥ (W1 *ᵥ (q2 - q1))) := by
  have h : q2 = (X W1 W2 a)⁻¹ *ᵥ (X W1 W2 a *ᵥ q2) := by rw [mulVec_mulVec, nonsing_inv_mul _ hd, one_mulVec]
  nth_rw 2 [h]
  unfold q
  rw [← mulVec_sub, ← mulVec_smul (X W1 W2 a)⁻¹]
  congr 1
  unfold X
  rw [add_mulVec, smul_mulVec, smul_mulVec, mulVec_sub, smul_sub, neg_smul, neg_smul]
  abel

/-- The parallel sum does not depend on the order. -/
theorem par_comm {a : ℝ} (hd : IsUnit (X W1 W2 a).det) :
    W1 * (X W1 W2 a)⁻¹ * W2 = W2 * (X W1 W2 a)⁻¹ * W1 := by
  by_cases ha : a = 0
  · subst ha
    have e : X W1 W2 0 = W2 := by unfold X; simp
    rw [e] at hd ⊢
    rw [Matrix.mul_assoc, nonsing_inv_mul _ hd, mul_nonsing_inv _ hd, Matrix.mul_one, Matrix.one_mul]
  have e : a • W1 = X W1 W2 a - (1 - a) • W2 := by unfold X; abel
  have h : a • (W1 * (X W1 W2 a)⁻¹ * W2) = a • (W2 * (X W1 W2 a)⁻¹ * W1) := by
    rw [← smul_mul, ← smul_mul, e, ← Matrix.mul_smul (W2 * (X W1 W2 a)⁻¹) a W1, e, sub_mul, sub_mul, mul_sub, mul_nonsing_inv _ hd, Matrix.one_mul,
      nonsing_inv_mul_cancel_right _ _ hd, smul_mul, smul_mul, Matrix.mul_smul]
  exact smul_right_injective _ ha h

/-- The least value of the mean, by the formula of line 33. -/
theorem g_min (h1 : W1ᵀ = W1) (h2 : W2ᵀ = W2) {a : ℝ} (hd : IsUnit (X W1 W2 a).det) :
    g q1 W1 q2 W2 a (q q1 W1 q2 W2 a) = 1 - k q1 W1 q2 W2 a := by
  have hY : ((X W1 W2 a)⁻¹)ᵀ = (X W1 W2 a)⁻¹ := by rw [transpose_nonsing_inv, X_symm h1 h2]
  have hp := par_comm (W1 := W1) (W2 := W2) hd
  have hsum : a • (W1 * (X W1 W2 a)⁻¹) + (1 - a) • (W2 * (X W1 W2 a)⁻¹) = 1 := by
    rw [← smul_mul, ← smul_mul, ← add_mul]
    exact mul_nonsing_inv _ hd
  unfold g k
  rw [q_sub1 hd, q_sub2 hd]
  set Y := (X W1 W2 a)⁻¹ with hYdef
  set d := q2 - q1 with hdd
  have t1 : ∀ (A B : Matrix (Fin m) (Fin m) ℝ), Aᵀ = A → Bᵀ = B →
      (Y *ᵥ (A *ᵥ d)) ⬝ᵥ B *ᵥ (Y *ᵥ (A *ᵥ d)) = d ⬝ᵥ (A * Y * (B * Y * A)) *ᵥ d := by
    intro A B hA hB
    rw [mulVec_mulVec, mulVec_mulVec, dotProduct_comm, dotProduct_mulVec, ← mulVec_transpose, transpose_mul, hA, hY, dotProduct_comm, mulVec_mulVec]
    simp only [Matrix.mul_assoc]
  simp only [mulVec_smul, dotProduct_smul, smul_dotProduct, smul_eq_mul]
  rw [t1 W2 W1 h2 h1, t1 W1 W2 h1 h2, hp, ← hp]
  have key : (W2 * Y * W1) = a • (W1 * Y * (W2 * Y * W1)) + (1 - a) • (W2 * Y * (W2 * Y * W1)) := by
    rw [← smul_mul a (W1 * Y), ← smul_mul (1 - a) (W2 * Y), ← add_mul, hsum, Matrix.one_mul]
  rw [hp]
  have key2 : d ⬝ᵥ (W2 * Y * W1) *ᵥ d = a * (d ⬝ᵥ (W1 * Y * (W2 * Y * W1)) *ᵥ d) + (1 - a) * (d ⬝ᵥ (W2 * Y * (W2 * Y * W1)) *ᵥ d) := by
    conv_lhs => rw [key]
    rw [add_mulVec, smul_mulVec, smul_mulVec, dotProduct_add, dotProduct_smul, dotProduct_smul, smul_eq_mul, smul_eq_mul]
  rw [key2]
  ring

/-- The weighted form is positive definite for every weight in `(0, 1)`. -/
theorem X_pos (h1 : IsPSD W1) (h2 : IsPSD W2) (hp : ∀ x : Fin m → ℝ, x ≠ 0 → 0 < x ⬝ᵥ W1 *ᵥ x + x ⬝ᵥ W2 *ᵥ x) {a : ℝ} (h0 : 0 < a) (h1' : a < 1) :
    IsPSD (X W1 W2 a) ∧ ∀ x : Fin m → ℝ, x ≠ 0 → 0 < x ⬝ᵥ X W1 W2 a *ᵥ x := by
  refine ⟨⟨X_symm h1.1 h2.1 a, fun x => ?_⟩, fun x hx => ?_⟩
  · rw [quad_X]
    exact add_nonneg (mul_nonneg h0.le (h1.2 x)) (mul_nonneg (by linarith) (h2.2 x))
  · rw [quad_X]
    have ha := h1.2 x
    have hb := h2.2 x
    have hc := hp x hx
    have hd : 0 < 1 - a := by linarith
    rcases ha.lt_or_eq with h | h
    · have := mul_pos h0 h
      have := mul_nonneg hd.le hb
      linarith
    · rw [← h] at hc ⊢
      have : 0 < x ⬝ᵥ W2 *ᵥ x := by linarith
      have := mul_pos hd this
      linarith

/-- The centre depends continuously on the weight. -/
theorem q_cont {a : ℝ} (hd : (X W1 W2 a).det ≠ 0) : ContinuousAt (fun t => q q1 W1 q2 W2 t) a := by
  have hX : Continuous (fun t : ℝ => X W1 W2 t) := by unfold X; fun_prop
  have hi : ContinuousAt (fun t : ℝ => (X W1 W2 t)⁻¹) a := by
    have : (fun t : ℝ => (X W1 W2 t)⁻¹) = fun t => ((X W1 W2 t).det)⁻¹ • (X W1 W2 t).adjugate := by
      funext t
      rw [Matrix.inv_def, Ring.inverse_eq_inv']
    rw [this]
    exact (hX.matrix_det.continuousAt.inv₀ hd).smul hX.matrix_adjugate.continuousAt
  have hb : Continuous (fun t : ℝ => t • (W1 *ᵥ q1) + (1 - t) • (W2 *ᵥ q2)) := by fun_prop
  refine continuousAt_pi.mpr (fun i => ?_)
  unfold q
  simp only [mulVec, dotProduct]
  refine tendsto_finset_sum _ (fun j _ => ?_)
  refine Filter.Tendsto.mul ?_ ?_
  · exact (continuousAt_pi.mp (continuousAt_pi.mp hi i) j)
  · have := continuousAt_pi.mp (hb.continuousAt (x := a)) j
    simpa [ContinuousAt, mulVec, dotProduct] using this

/-- Difference of the two forms. -/
def s (q1 : Fin m → ℝ) (W1 : Matrix (Fin m) (Fin m) ℝ) (q2 : Fin m → ℝ) (W2 : Matrix (Fin m) (Fin m) ℝ) (x : Fin m → ℝ) : ℝ :=
  (x - q1) ⬝ᵥ W1 *ᵥ (x - q1) - (x - q2) ⬝ᵥ W2 *ᵥ (x - q2)

theorem s_cont : Continuous (s q1 W1 q2 W2) := by
  unfold s
  simp only [mulVec, dotProduct]
  fun_prop

theorem g_affine (a t : ℝ) (x : Fin m → ℝ) : g q1 W1 q2 W2 t x = g q1 W1 q2 W2 a x + (t - a) * s q1 W1 q2 W2 x := by
  unfold g s; ring

/-- Envelope theorem for the least value. -/
theorem k_deriv (h1 : IsPSD W1) (h2 : IsPSD W2) (hp : ∀ x : Fin m → ℝ, x ≠ 0 → 0 < x ⬝ᵥ W1 *ᵥ x + x ⬝ᵥ W2 *ᵥ x) {a : ℝ} (h0 : 0 < a) (h1' : a < 1) :
    HasDerivAt (k q1 W1 q2 W2) (-s q1 W1 q2 W2 (q q1 W1 q2 W2 a)) a := by
  have hu : ∀ t, 0 < t → t < 1 → IsUnit (X W1 W2 t).det := fun t ht ht' =>
    isUnit_iff_ne_zero.mpr (det_pos_of_pos (X_pos h1 h2 hp ht ht').1 (X_pos h1 h2 hp ht ht').2).ne'
  have hmin : ∀ t, 0 < t → t < 1 → ∀ x, 1 - k q1 W1 q2 W2 t ≤ g q1 W1 q2 W2 t x := by
    intro t ht ht' x
    rw [g_shift h1.1 h2.1 (hu t ht ht') x, g_min h1.1 h2.1 (hu t ht ht')]
    linarith [(X_pos h1 h2 hp ht ht').1.2 (x - q q1 W1 q2 W2 t)]
  have hval : ∀ t, 0 < t → t < 1 → 1 - k q1 W1 q2 W2 t = g q1 W1 q2 W2 t (q q1 W1 q2 W2 t) := fun t ht ht' =>
    (g_min h1.1 h2.1 (hu t ht ht')).symm
  have hc : ContinuousAt (fun t => s q1 W1 q2 W2 (q q1 W1 q2 W2 t)) a :=
    s_cont.continuousAt.comp (q_cont (isUnit_iff_ne_zero.mp (hu a h0 h1')))
  rw [hasDerivAt_iff_isLittleO, Asymptotics.isLittleO_iff]
  intro c hcpos
  have hnear : ∀ᶠ t in nhds a, |s q1 W1 q2 W2 (q q1 W1 q2 W2 t) - s q1 W1 q2 W2 (q q1 W1 q2 W2 a)| < c := by
    have := Metric.continuousAt_iff'.mp hc c hcpos
    simpa [Real.dist_eq] using this
  filter_upwards [hnear, lt_mem_nhds h0, gt_mem_nhds h1'] with t hs ht ht'
  have e1 := hmin t ht ht' (q q1 W1 q2 W2 a)
  rw [g_affine a t, ← hval a h0 h1'] at e1
  have e2 := hmin a h0 h1' (q q1 W1 q2 W2 t)
  rw [g_affine t a, ← hval t ht ht'] at e2
  rw [Real.norm_eq_abs, Real.norm_eq_abs, smul_eq_mul]
  set S := s q1 W1 q2 W2 (q q1 W1 q2 W2 a)
  set T := s q1 W1 q2 W2 (q q1 W1 q2 W2 t)
  have hb : |(t - a) * (T - S)| ≤ c * |t - a| := by
    rw [abs_mul, mul_comm]
    exact mul_le_mul_of_nonneg_right hs.le (abs_nonneg _)
  have hb' := abs_le.mp hb
  rw [abs_le]
  constructor <;> nlinarith

/-- Jacobi's formula along the segment. -/
theorem det_deriv {a : ℝ} (hd : IsUnit (X W1 W2 a).det) :
    HasDerivAt (fun t => (X W1 W2 t).det) ((X W1 W2 a).det * trace ((X W1 W2 a)⁻¹ * (W1 - W2))) a := by
  set M := (X W1 W2 a)⁻¹ * (W1 - W2) with hM
  have hX : ∀ t, X W1 W2 t = X W1 W2 a * (1 + (t - a) • M) := by
    intro t
    rw [mul_add, Matrix.mul_one, Matrix.mul_smul, hM, ← Matrix.mul_assoc, mul_nonsing_inv _ hd, Matrix.one_mul]
    unfold X
    rw [smul_sub, sub_smul, sub_smul, sub_smul, sub_smul]
    abel
  have hdet : (fun t => (X W1 W2 t).det) = fun t => (X W1 W2 a).det *
      (1 + trace M * (t - a) + (det (1 + (Polynomial.X : Polynomial ℝ) • M.map Polynomial.C)).divX.divX.eval (t - a) * (t - a) ^ 2) := by
    funext t
    rw [hX t, det_mul, det_one_add_smul]
  rw [hdet]
  set P := (det (1 + (Polynomial.X : Polynomial ℝ) • M.map Polynomial.C)).divX.divX
  have hl : HasDerivAt (fun t : ℝ => t - a) 1 a := (hasDerivAt_id a).sub_const a
  have hP : HasDerivAt (fun t => P.eval (t - a)) (P.derivative.eval (a - a) * 1) a := HasDerivAt.comp (h := fun t : ℝ => t - a) (h₂ := fun x => P.eval x) a (P.hasDerivAt (a - a)) hl
  have h2 := ((hl.const_mul (trace M)).const_add 1).add (hP.mul (hl.pow 2))
  have h3 := h2.const_mul (X W1 W2 a).det
  refine HasDerivAt.congr_deriv h3 ?_
  simp

end Fus

/-- The fused set is an ellipsoid. -/
theorem fused_ell {m : ℕ} {q1 q2 : Fin m → ℝ} {W1 W2 : Matrix (Fin m) (Fin m) ℝ} (h1 : W1ᵀ = W1) (h2 : W2ᵀ = W2) {a : ℝ}
    (hX : IsPSD (Fus.X W1 W2 a)) (hd : IsUnit (Fus.X W1 W2 a).det) (hk : 0 < Fus.k q1 W1 q2 W2 a) :
    IsPSD (Fus.k q1 W1 q2 W2 a • (Fus.X W1 W2 a)⁻¹) ∧
    Fused q1 W1 q2 W2 a = Ell (Fus.q q1 W1 q2 W2 a) (Fus.k q1 W1 q2 W2 a • (Fus.X W1 W2 a)⁻¹) := by
  have hY : ((Fus.X W1 W2 a)⁻¹)ᵀ = (Fus.X W1 W2 a)⁻¹ := by rw [transpose_nonsing_inv, hX.1]
  have hP : IsPSD (Fus.k q1 W1 q2 W2 a • (Fus.X W1 W2 a)⁻¹) := by
    refine ⟨by rw [transpose_smul, hY], fun x => ?_⟩
    rw [smul_mulVec, dotProduct_smul, smul_eq_mul]
    refine mul_nonneg hk.le ?_
    have := hX.2 ((Fus.X W1 W2 a)⁻¹ *ᵥ x)
    rwa [mulVec_mulVec, mul_nonsing_inv _ hd, one_mulVec, dotProduct_comm] at this
  have hu : IsUnit (Fus.k q1 W1 q2 W2 a • (Fus.X W1 W2 a)⁻¹).det := by
    rw [det_smul, det_nonsing_inv]
    exact (isUnit_iff_ne_zero.mpr (pow_ne_zero _ hk.ne')).mul (by rw [Ring.inverse_eq_inv']; exact isUnit_iff_ne_zero.mpr (inv_ne_zero hd.ne_zero))
  refine ⟨hP, ?_⟩
  ext x
  rw [mem_ell_inv hP hu]
  have hinv : (Fus.k q1 W1 q2 W2 a • (Fus.X W1 W2 a)⁻¹)⁻¹ = (Fus.k q1 W1 q2 W2 a)⁻¹ • Fus.X W1 W2 a := by
    refine inv_eq_right_inv ?_
    rw [Matrix.smul_mul, Matrix.mul_smul, nonsing_inv_mul _ hd, smul_smul, mul_inv_cancel₀ hk.ne', one_smul]
  rw [hinv, smul_mulVec, dotProduct_smul, smul_eq_mul]
  have hg := Fus.g_shift (q1 := q1) (q2 := q2) h1 h2 hd x
  rw [Fus.g_min h1 h2 hd] at hg
  have : x ∈ Fused q1 W1 q2 W2 a ↔ Fus.g q1 W1 q2 W2 a x ≤ 1 := Iff.rfl
  rw [this, hg, inv_mul_le_iff₀ hk, mul_one]
  constructor <;> intro h <;> linarith

theorem fused_vol {m : ℕ} (hm : m ≠ 0) {q1 q2 : Fin m → ℝ} {W1 W2 : Matrix (Fin m) (Fin m) ℝ} (h1 : IsPSD W1) (h2 : IsPSD W2)
    (hp : ∀ x : Fin m → ℝ, x ≠ 0 → 0 < x ⬝ᵥ W1 *ᵥ x + x ⬝ᵥ W2 *ᵥ x) {a : ℝ} (ha0 : 0 < a) (ha1 : a < 1) (hk : 0 < Fus.k q1 W1 q2 W2 a) :
    ∀ᶠ t in nhds a, MeasureTheory.volume (Fused q1 W1 q2 W2 t) = ENNReal.ofReal (Real.sqrt Real.pi ^ m / Real.Gamma (m / 2 + 1) *
      Real.sqrt (Fus.k q1 W1 q2 W2 t ^ m / (Fus.X W1 W2 t).det)) := by
  have hkc := (Fus.k_deriv (q1 := q1) (q2 := q2) h1 h2 hp ha0 ha1).continuousAt.eventually (lt_mem_nhds hk)
  filter_upwards [hkc, lt_mem_nhds ha0, gt_mem_nhds ha1] with t hkt ht ht'
  have hX := Fus.X_pos h1 h2 hp ht ht'
  obtain ⟨hP, he⟩ := fused_ell (q1 := q1) (q2 := q2) h1.1 h2.1 hX.1 (isUnit_iff_ne_zero.mpr (det_pos_of_pos hX.1 hX.2).ne') hkt
  rw [he, ell_volume_eq hm _ hP, det_smul, det_nonsing_inv, Ring.inverse_eq_inv', Fintype.card_fin, div_eq_mul_inv (Fus.k q1 W1 q2 W2 t ^ m)]

theorem fused_k_pos {m : ℕ} {q1 q2 : Fin m → ℝ} {W1 W2 : Matrix (Fin m) (Fin m) ℝ} (h1 : IsPSD W1) (h2 : IsPSD W2)
    (hp : ∀ x : Fin m → ℝ, x ≠ 0 → 0 < x ⬝ᵥ W1 *ᵥ x + x ⬝ᵥ W2 *ᵥ x) {a : ℝ} (ha0 : 0 < a) (ha1 : a < 1)
    (hint : ∃ x, a * ((x - q1) ⬝ᵥ W1 *ᵥ (x - q1)) + (1 - a) * ((x - q2) ⬝ᵥ W2 *ᵥ (x - q2)) < 1) : 0 < Fus.k q1 W1 q2 W2 a := by
  have hX := Fus.X_pos h1 h2 hp ha0 ha1
  have hu : IsUnit (Fus.X W1 W2 a).det := isUnit_iff_ne_zero.mpr (det_pos_of_pos hX.1 hX.2).ne'
  obtain ⟨x, hx⟩ := hint
  have hg := Fus.g_shift (q1 := q1) (q2 := q2) h1.1 h2.1 hu x
  rw [Fus.g_min h1.1 h2.1 hu] at hg
  have hx' : Fus.g q1 W1 q2 W2 a x < 1 := hx
  have := hX.1.2 (x - Fus.q q1 W1 q2 W2 a)
  linarith

/-- **C67**: the call raises exactly when the weighted matrix is singular. -/
theorem C67_raises_iff {m : ℕ} (a : ℝ) (q1 q2 : Fin m → ℝ) (W1 W2 : Matrix (Fin m) (Fin m) ℝ) (n : ℤ) :
    Raises (fusionLambda a q1 W1 q2 W2 n) ↔ ∃ x : Fin m → ℝ, x ≠ 0 ∧ a • (W1 *ᵥ x) + (1 - a) • (W2 *ᵥ x) = 0 := by
  have h : (∃ x : Fin m → ℝ, x ≠ 0 ∧ a • (W1 *ᵥ x) + (1 - a) • (W2 *ᵥ x) = 0) ↔ (a • W1 + (1 - a) • W2).det = 0 := by
    rw [← Matrix.exists_mulVec_eq_zero_iff]
    simp only [add_mulVec, smul_mulVec]
  rw [h]
  unfold fusionLambda
  constructor
  · intro hr
    by_contra hne
    rw [if_neg hne] at hr
    obtain ⟨e, he⟩ := hr
    cases he
  · intro h0
    rw [if_pos h0]
    exact ⟨_, rfl⟩

/-- Every fused set contains the intersection. -/
theorem C67_encloses {m : ℕ} (q1 q2 : Fin m → ℝ) (W1 W2 : Matrix (Fin m) (Fin m) ℝ) {a : ℝ} (h0 : 0 ≤ a) (h1 : a ≤ 1) :
    Within q1 W1 ∩ Within q2 W2 ⊆ Fused q1 W1 q2 W2 a := by
  rintro x ⟨hx1, hx2⟩
  have e1 := mul_le_mul_of_nonneg_left hx1 h0
  have e2 := mul_le_mul_of_nonneg_left hx2 (sub_nonneg.mpr h1)
  show _ + _ ≤ (1 : ℝ)
  linarith

/-- **C67**: for a weight in `(0, 1)` at which the fused set has interior points, the value has the sign opposite to the derivative of
the Lebesgue measure of the fused set with respect to the weight. -/
theorem C67 {m : ℕ} (hm : m ≠ 0) (q1 q2 : Fin m → ℝ) (W1 W2 : Matrix (Fin m) (Fin m) ℝ) (h1 : IsPSD W1) (h2 : IsPSD W2)
    (hp : ∀ x : Fin m → ℝ, x ≠ 0 → 0 < x ⬝ᵥ W1 *ᵥ x + x ⬝ᵥ W2 *ᵥ x) (a : ℝ) (ha0 : 0 < a) (ha1 : a < 1)
    (hint : ∃ x, a * ((x - q1) ⬝ᵥ W1 *ᵥ (x - q1)) + (1 - a) * ((x - q2) ⬝ᵥ W2 *ᵥ (x - q2)) < 1) :
    ∃ f, fusionLambda a q1 W1 q2 W2 m = .ok f ∧
      ∃ c > 0, HasDerivAt (fun t => (MeasureTheory.volume (Fused q1 W1 q2 W2 t)).toReal) (-(c * f)) a := by
  have hXp : ∀ t, 0 < t → t < 1 → IsPSD (Fus.X W1 W2 t) ∧ 0 < (Fus.X W1 W2 t).det := fun t ht ht' =>
    ⟨(Fus.X_pos h1 h2 hp ht ht').1, det_pos_of_pos (Fus.X_pos h1 h2 hp ht ht').1 (Fus.X_pos h1 h2 hp ht ht').2⟩
  obtain ⟨hXP, hD⟩ := hXp a ha0 ha1
  have hu : IsUnit (Fus.X W1 W2 a).det := isUnit_iff_ne_zero.mpr hD.ne'
  have hY : ((Fus.X W1 W2 a)⁻¹)ᵀ = (Fus.X W1 W2 a)⁻¹ := by rw [transpose_nonsing_inv, hXP.1]
  have hk := fused_k_pos h1 h2 hp ha0 ha1 hint
  have hkd := Fus.k_deriv (q1 := q1) (q2 := q2) h1 h2 hp ha0 ha1
  have hdd := Fus.det_deriv (W1 := W1) (W2 := W2) hu
  set S := Fus.s q1 W1 q2 W2 (Fus.q q1 W1 q2 W2 a) with hS
  set τ := trace ((Fus.X W1 W2 a)⁻¹ * (W1 - W2)) with hτ
  set δ := (Fus.X W1 W2 a).det with hδ
  set K := Fus.k q1 W1 q2 W2 a with hK
  have hval : fusionLambda a q1 W1 q2 W2 m = .ok (K * δ ^ 2 * τ - m * δ ^ 2 * (-S)) := by
    unfold fusionLambda
    have e0 : a • W1 + (1 - a) • W2 = Fus.X W1 W2 a := rfl
    have eY : (0.5 : ℝ) • ((Fus.X W1 W2 a)⁻¹ + ((Fus.X W1 W2 a)⁻¹)ᵀ) = (Fus.X W1 W2 a)⁻¹ := by
      rw [hY, ← two_smul ℝ, smul_smul]; norm_num
    simp only [e0, eY]
    rw [if_neg hD.ne']
    have eq' : (Fus.X W1 W2 a)⁻¹ *ᵥ (a • (W1 *ᵥ q1) + (1 - a) • (W2 *ᵥ q2)) = Fus.q q1 W1 q2 W2 a := rfl
    have eK : 1 - a * (1 - a) * ((q2 - q1) ⬝ᵥ (W2 * (Fus.X W1 W2 a)⁻¹ * W1) *ᵥ (q2 - q1)) = K := rfl
    rw [eq', eK, Matrix.smul_mul, trace_smul, smul_eq_mul]
    have eS : 2 * (Fus.q q1 W1 q2 W2 a ⬝ᵥ W1 *ᵥ q1) - 2 * (Fus.q q1 W1 q2 W2 a ⬝ᵥ W2 *ᵥ q2) +
        Fus.q q1 W1 q2 W2 a ⬝ᵥ (W2 - W1) *ᵥ Fus.q q1 W1 q2 W2 a - q1 ⬝ᵥ W1 *ᵥ q1 + q2 ⬝ᵥ W2 *ᵥ q2 = -S := by
      rw [hS]
      unfold Fus.s
      set z := Fus.q q1 W1 q2 W2 a
      rw [sub_eq_add_neg z q1, sub_eq_add_neg z q2, Fus.quad_add h1.1, Fus.quad_add h2.1, sub_mulVec, dotProduct_sub]
      simp only [mulVec_neg, dotProduct_neg, neg_dotProduct, neg_neg]
      ring
    rw [eS]
    congr 1
    push_cast
    ring
  refine ⟨_, hval, ?_⟩
  set β := Real.sqrt Real.pi ^ m / Real.Gamma (m / 2 + 1) with hβ
  have hβ0 : 0 < β := div_pos (pow_pos (Real.sqrt_pos.mpr Real.pi_pos) _) (Real.Gamma_pos_of_pos (by positivity))
  have hV : (fun t => (MeasureTheory.volume (Fused q1 W1 q2 W2 t)).toReal) =ᶠ[nhds a]
      fun t => β * Real.sqrt (Fus.k q1 W1 q2 W2 t ^ m / (Fus.X W1 W2 t).det) := by
    filter_upwards [fused_vol hm h1 h2 hp ha0 ha1 hk] with t ht
    rw [ht, ENNReal.toReal_ofReal (mul_nonneg hβ0.le (Real.sqrt_nonneg _))]
  have hu' : 0 < K ^ m / δ := div_pos (pow_pos hk _) hD
  have hder := ((((hkd.pow m).div hdd hD.ne').sqrt hu'.ne').const_mul β).congr_of_eventuallyEq hV
  refine ⟨β * K ^ (m - 1) / (2 * δ ^ 3 * Real.sqrt (K ^ m / δ)), ?_, ?_⟩
  · have := Real.sqrt_pos.mpr hu'
    have := pow_pos hk (m - 1)
    positivity
  · refine hder.congr_deriv ?_
    have hsq := (Real.sqrt_pos.mpr hu').ne'
    obtain ⟨r, rfl⟩ := Nat.exists_eq_succ_of_ne_zero hm
    simp only [Nat.succ_eq_add_one, Nat.add_sub_cancel, Pi.pow_apply, Pi.div_apply]
    rw [← hK, ← hδ]
    have hD' := hD.ne'
    field_simp
    ring

/-- **C67**: a weight at which the measure of the fused set is least among nearby weights is a zero. -/
theorem C67_min {m : ℕ} (hm : m ≠ 0) (q1 q2 : Fin m → ℝ) (W1 W2 : Matrix (Fin m) (Fin m) ℝ) (h1 : IsPSD W1) (h2 : IsPSD W2)
    (hp : ∀ x : Fin m → ℝ, x ≠ 0 → 0 < x ⬝ᵥ W1 *ᵥ x + x ⬝ᵥ W2 *ᵥ x) (a : ℝ) (ha0 : 0 < a) (ha1 : a < 1)
    (hint : ∃ x, a * ((x - q1) ⬝ᵥ W1 *ᵥ (x - q1)) + (1 - a) * ((x - q2) ⬝ᵥ W2 *ᵥ (x - q2)) < 1)
    (hmin : IsLocalMin (fun t => MeasureTheory.volume (Fused q1 W1 q2 W2 t)) a) :
    fusionLambda a q1 W1 q2 W2 m = .ok 0 := by
  obtain ⟨f, hf, c, hc, hd⟩ := C67 hm q1 q2 W1 W2 h1 h2 hp a ha0 ha1 hint
  have hm' : IsLocalMin (fun t => (MeasureTheory.volume (Fused q1 W1 q2 W2 t)).toReal) a := by
    filter_upwards [hmin, fused_vol hm h1 h2 hp ha0 ha1 (fused_k_pos h1 h2 hp ha0 ha1 hint)] with t h ht
    exact ENNReal.toReal_mono (by rw [ht]; exact ENNReal.ofReal_ne_top) h
  have := hm'.hasDerivAt_eq_zero hd
  have hf0 : f = 0 := by
    rcases mul_eq_zero.mp (neg_eq_zero.mp this) with h | h
    · exact absurd h hc.ne'
    · exact h
  rw [hf, hf0]

theorem Fus.one_psd {m : ℕ} : IsPSD (1 : Matrix (Fin m) (Fin m) ℝ) := ⟨transpose_one, fun x => by rw [one_mulVec]; exact dot_self_nonneg x⟩

theorem Fus.one_pos {m : ℕ} {x : Fin m → ℝ} (hx : x ≠ 0) : 0 < x ⬝ᵥ (1 : Matrix (Fin m) (Fin m) ℝ) *ᵥ x := by
  rw [one_mulVec]
  exact lt_of_le_of_ne (dot_self_nonneg x) (fun h => hx (dotProduct_self_eq_zero.mp h.symm))

/-- Two unit discs with centres `(0, 0)` and `(1, 0)`: the theorem applies at every weight in `(0, 1)`. -/
example (a : ℝ) (h0 : 0 < a) (h1 : a < 1) : ∃ f, fusionLambda a 0 (1 : Matrix (Fin 2) (Fin 2) ℝ) ![1, 0] 1 2 = .ok f ∧
    ∃ c > 0, HasDerivAt (fun t => (MeasureTheory.volume (Fused 0 (1 : Matrix (Fin 2) (Fin 2) ℝ) ![1, 0] 1 t)).toReal) (-(c * f)) a := by
  refine C67 (by norm_num) 0 ![1, 0] 1 1 Fus.one_psd Fus.one_psd (fun x hx => add_pos (Fus.one_pos hx) (Fus.one_pos hx)) a h0 h1
    ⟨![1/2, 0], ?_⟩
  simp [dotProduct, Fin.sum_univ_two, one_mulVec]
  nlinarith

/-- By symmetry the weight `1/2` is the zero; at `1/4` the value is positive, so the area still decreases there. -/
example : fusionLambda (1 / 2) 0 (1 : Matrix (Fin 2) (Fin 2) ℝ) ![1, 0] 1 2 = .ok 0 ∧
    fusionLambda (1 / 4) 0 (1 : Matrix (Fin 2) (Fin 2) ℝ) ![1, 0] 1 2 = .ok 1 := by
  have h : ∀ a : ℝ, a • (1 : Matrix (Fin 2) (Fin 2) ℝ) + (1 - a) • 1 = 1 := fun a => by rw [← add_smul]; simp
  have h2 : (0.5 : ℝ) • ((1 : Matrix (Fin 2) (Fin 2) ℝ) + 1) = 1 := by rw [← two_smul ℝ, smul_smul]; norm_num
  constructor <;>
  · unfold fusionLambda
    simp only [h, det_one, inv_one, transpose_one, h2]
    rw [if_neg one_ne_zero]
    congr 1
    simp [dotProduct, Fin.sum_univ_two]
    try norm_num

end Ellipy.Core
