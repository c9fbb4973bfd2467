import Mathlib.Tactic.Positivity
import Verif.Proofs.La
import Verif.Spec.Transl

/-! Facts about the orthogonal translations of gras/la/la.py. -/

namespace Ellipy.LA
open Matrix

theorem dir_dot {n : ℕ} {v : Fin n → ℝ} (h : v ≠ 0) : dir v ⬝ᵥ dir v = 1 := by
  have hp := dot_self_pos h
  rw [dir, smul_dotProduct, dotProduct_smul, smul_eq_mul, smul_eq_mul]
  have : Real.sqrt (v ⬝ᵥ v) ≠ 0 := (Real.sqrt_pos.mpr hp).ne'
  field_simp
  rw [Real.sq_sqrt hp.le]

theorem dot_sq_le {n : ℕ} {a d : Fin n → ℝ} (ha : a ⬝ᵥ a = 1) (hd : d ⬝ᵥ d = 1) : (a ⬝ᵥ d) ^ 2 ≤ 1 := by
  have h := dot_self_nonneg (a - (a ⬝ᵥ d) • d)
  rw [sub_dotProduct, dotProduct_sub, dotProduct_sub, smul_dotProduct, dotProduct_smul, smul_dotProduct,
    dotProduct_smul, ha, hd, dotProduct_comm d a] at h
  simp only [smul_eq_mul] at h
  nlinarith

theorem sinSq_nonneg {n : ℕ} {x y : Fin n → ℝ} (hx : x ≠ 0) (hy : y ≠ 0) : 0 ≤ sinSq x y := by
  have := dot_sq_le (dir_dot hx) (dir_dot hy)
  rw [sinSq]; linarith

/-- The rotation in the plane of the orthonormal pair `d`, `w`. -/
noncomputable def planeRot {n : ℕ} (d w : Fin n → ℝ) (c s : ℝ) : Matrix (Fin n) (Fin n) ℝ :=
  1 + (of fun i => ![d i, w i] : Matrix (Fin n) (Fin 2) ℝ) * !![c - 1, s; -s, c - 1] *
    (of fun i => ![d i, w i] : Matrix (Fin n) (Fin 2) ℝ)ᵀ

theorem planeRot_apply {n : ℕ} (d w : Fin n → ℝ) (c s : ℝ) (i j : Fin n) :
    planeRot d w c s i j = (1 : Matrix (Fin n) (Fin n) ℝ) i j +
      ((c - 1) * (d i * d j) + s * (d i * w j) - s * (w i * d j) + (c - 1) * (w i * w j)) := by
  rw [planeRot, Matrix.add_apply, mul_apply, Fin.sum_univ_two, mul_apply, mul_apply, Fin.sum_univ_two, Fin.sum_univ_two]
  simp
  ring

theorem planeRot_eq {n : ℕ} (d w : Fin n → ℝ) (c s : ℝ) :
    planeRot d w c s = 1 + ((c - 1) • vecMulVec d d + s • vecMulVec d w - s • vecMulVec w d + (c - 1) • vecMulVec w w) := by
  ext i j
  rw [planeRot_apply]
  simp [vecMulVec_apply]

theorem vecMulVec_mulVec' {n : ℕ} (u v x : Fin n → ℝ) : vecMulVec u v *ᵥ x = (v ⬝ᵥ x) • u := by
  funext i
  simp only [mulVec, dotProduct, vecMulVec_apply, Pi.smul_apply, smul_eq_mul, Finset.sum_mul]
  exact Finset.sum_congr rfl (fun j _ => by ring)

theorem planeRot_mulVec {n : ℕ} (d w : Fin n → ℝ) (c s : ℝ) (x : Fin n → ℝ) :
    planeRot d w c s *ᵥ x = x + (((c - 1) * (d ⬝ᵥ x) + s * (w ⬝ᵥ x)) • d + ((c - 1) * (w ⬝ᵥ x) - s * (d ⬝ᵥ x)) • w) := by
  rw [planeRot_eq, add_mulVec, one_mulVec, add_mulVec, sub_mulVec, add_mulVec, smul_mulVec, smul_mulVec, smul_mulVec,
    smul_mulVec, vecMulVec_mulVec', vecMulVec_mulVec', vecMulVec_mulVec', vecMulVec_mulVec']
  funext i
  simp only [Pi.add_apply, Pi.sub_apply, Pi.smul_apply, smul_eq_mul]
  ring

theorem vecMulVec_mul' {n : ℕ} (u v x y : Fin n → ℝ) : vecMulVec u v * vecMulVec x y = (v ⬝ᵥ x) • vecMulVec u y := by
  ext i j
  rw [mul_apply, Matrix.smul_apply, dotProduct, smul_eq_mul, Finset.sum_mul]
  refine Finset.sum_congr rfl (fun k _ => ?_)
  simp only [vecMulVec_apply]; ring

theorem planeRot_transpose {n : ℕ} (d w : Fin n → ℝ) (c s : ℝ) : (planeRot d w c s)ᵀ = planeRot d w c (-s) := by
  ext i j
  rw [transpose_apply, planeRot_apply, planeRot_apply, one_apply, one_apply]
  simp only [eq_comm]
  ring

/-- `O Oᵀ` in general: `d` of length one, `w` orthogonal to `d` and of squared length `p`. -/
theorem planeRot_orth {n : ℕ} {d w : Fin n → ℝ} {c s : ℝ} (hd : d ⬝ᵥ d = 1) (hdw : d ⬝ᵥ w = 0)
    (hw : w ⬝ᵥ w = 1) (hcs : c ^ 2 + s ^ 2 = 1) : planeRot d w c s * (planeRot d w c s)ᵀ = 1 := by
  have hwd : w ⬝ᵥ d = 0 := by rw [dotProduct_comm, hdw]
  rw [planeRot_transpose, planeRot_eq, planeRot_eq, Matrix.add_mul, Matrix.one_mul, Matrix.mul_add, Matrix.mul_one]
  simp only [Matrix.add_mul, Matrix.sub_mul, Matrix.mul_add, Matrix.mul_sub, Matrix.smul_mul, Matrix.mul_smul,
    vecMulVec_mul', hd, hdw, hwd, hw, smul_smul, one_smul, zero_smul, smul_zero]
  ext i j
  simp only [Matrix.add_apply, Matrix.sub_apply, Matrix.smul_apply, vecMulVec_apply, smul_eq_mul, Matrix.zero_apply]
  have : s * s = 1 - c * c := by linarith [hcs, sq c, sq s]
  linear_combination (d i * d j + w i * w j) * this

/-- The rotation carries `c d + s w` to `d`. -/
theorem planeRot_carry {n : ℕ} {d w a : Fin n → ℝ} {c s : ℝ} (hd : d ⬝ᵥ d = 1) (hdw : d ⬝ᵥ w = 0)
    (hw : w ⬝ᵥ w = 1) (hcs : c ^ 2 + s ^ 2 = 1) (ha : a = c • d + s • w) : planeRot d w c s *ᵥ a = d := by
  have hwd : w ⬝ᵥ d = 0 := by rw [dotProduct_comm, hdw]
  have h1 : d ⬝ᵥ a = c := by
    rw [ha, dotProduct_add, dotProduct_smul, dotProduct_smul, hd, hdw]; simp
  have h2 : w ⬝ᵥ a = s := by
    rw [ha, dotProduct_add, dotProduct_smul, dotProduct_smul, hwd, hw]; simp
  rw [planeRot_mulVec, h1, h2, ha]
  funext i
  simp only [Pi.add_apply, Pi.smul_apply, smul_eq_mul]
  linear_combination (d i) * hcs

theorem translTol_pos : 0 < translTol := by unfold translTol; positivity

/-- The branches of `orth_transl`, in terms of the directions. -/
theorem orthTransl_eq {n : ℕ} {src dst : Fin n → ℝ} (hs : src ≠ 0) (hd : dst ≠ 0) :
    orthTransl src dst = .ok (planeRot (dir dst)
      (if translTol < Real.sqrt (sinSq src dst) then
        (1 / Real.sqrt (sinSq src dst)) • (dir src - (dir src ⬝ᵥ dir dst) • dir dst) else 0)
      (dir src ⬝ᵥ dir dst) (Real.sqrt (sinSq src dst))) := by
  have h1 : ∑ i, dst i * dst i ≠ 0 := (dot_self_pos hd).ne'
  have h2 : ∑ i, src i * src i ≠ 0 := (dot_self_pos hs).ne'
  unfold orthTransl
  rw [if_neg h1, if_neg h2]
  have e1 : (fun i => dst i / Real.sqrt (∑ i, dst i * dst i)) = dir dst := by
    funext i; rw [dir, Pi.smul_apply, smul_eq_mul, dotProduct]; ring
  have e2 : (fun i => src i / Real.sqrt (∑ i, src i * src i)) = dir src := by
    funext i; rw [dir, Pi.smul_apply, smul_eq_mul, dotProduct]; ring
  have e1' : ∀ i, dst i / Real.sqrt (∑ i, dst i * dst i) = dir dst i := fun i => congrFun e1 i
  have e2' : ∀ i, src i / Real.sqrt (∑ i, src i * src i) = dir src i := fun i => congrFun e2 i
  have e3 : ∑ i, dir src i * dir dst i = dir src ⬝ᵥ dir dst := rfl
  have e4 : Real.sqrt (max (1 - dir src ⬝ᵥ dir dst * dir src ⬝ᵥ dir dst) 0) = Real.sqrt (sinSq src dst) := by
    rw [max_eq_left, sinSq, sq]
    have := sinSq_nonneg hs hd
    rwa [sinSq, sq] at this
  simp only [e1', e2', e3, e4, abs_of_nonneg (Real.sqrt_nonneg _)]
  congr 1
  unfold planeRot
  have e5 : (of fun i => ![dir dst i, if translTol < Real.sqrt (sinSq src dst) then
      (dir src i - dir src ⬝ᵥ dir dst * dir dst i) / Real.sqrt (sinSq src dst) else 0] : Matrix (Fin n) (Fin 2) ℝ) =
      of fun i => ![dir dst i, (if translTol < Real.sqrt (sinSq src dst) then
        (1 / Real.sqrt (sinSq src dst)) • (dir src - (dir src ⬝ᵥ dir dst) • dir dst) else 0) i] := by
    ext i k
    simp only [of_apply]
    congr 2
    split_ifs
    · simp only [Pi.smul_apply, Pi.sub_apply, smul_eq_mul]; ring
    · rfl
  rw [e5]

theorem orthTransl_spec {n : ℕ} {src dst : Fin n → ℝ} (hs : src ≠ 0) (hd : dst ≠ 0) (h : Apart src dst) :
    ∃ O, orthTransl src dst = .ok O ∧ Feasible O src dst := by
  refine ⟨_, orthTransl_eq hs hd, ?_⟩
  have ha := dir_dot hs
  have hd' := dir_dot hd
  set a := dir src
  set d := dir dst
  set c := a ⬝ᵥ d with hc
  have hss : Real.sqrt (sinSq src dst) ^ 2 = 1 - c ^ 2 := by
    rw [Real.sq_sqrt (sinSq_nonneg hs hd), sinSq]
  rcases h with h | h
  · -- parallel or opposite
    have h0 : Real.sqrt (sinSq src dst) = 0 := by rw [h, Real.sqrt_zero]
    rw [h0] at hss ⊢
    rw [if_neg (not_lt.mpr translTol_pos.le)]
    have hac : a = c • d := by
      have : (a - c • d) ⬝ᵥ (a - c • d) = 0 := by
        rw [sub_dotProduct, dotProduct_sub, dotProduct_sub, smul_dotProduct, dotProduct_smul, smul_dotProduct,
          dotProduct_smul, ha, hd', dotProduct_comm d a, ← hc]
        simp only [smul_eq_mul]
        linarith
      by_contra hne
      have := dot_self_pos (sub_ne_zero.mpr hne)
      linarith
    have hcc : c ^ 2 = 1 := by linarith
    constructor
    · rw [IsOrth, planeRot_transpose, planeRot_eq, planeRot_eq]
      ext i j
      simp only [zero_smul, neg_zero, vecMulVec_zero, zero_vecMulVec, smul_zero, add_zero, sub_zero, Matrix.add_mul,
        Matrix.mul_add, Matrix.one_mul, Matrix.mul_one, Matrix.smul_mul, Matrix.mul_smul, vecMulVec_mul', hd', one_smul,
        smul_smul, Matrix.add_apply, Matrix.smul_apply, smul_eq_mul]
      linear_combination (vecMulVec d d i j) * hcc
    · rw [Carries, planeRot_mulVec]
      funext i
      simp only [zero_smul, zero_mul, neg_zero, zero_dotProduct, mul_zero, smul_zero, add_zero, sub_zero, Pi.add_apply, Pi.smul_apply,
        smul_eq_mul]
      have : d ⬝ᵥ a = c := by rw [hc, dotProduct_comm]
      show a i + (c - 1) * (d ⬝ᵥ a) * d i = d i
      rw [this]
      have hi := congrFun hac i
      rw [Pi.smul_apply, smul_eq_mul] at hi
      linear_combination hi + (d i) * hcc
  · have hlt : translTol < Real.sqrt (sinSq src dst) := by
      rw [translTol]
      exact Real.lt_sqrt_of_sq_lt h
    rw [if_pos hlt]
    have hspos : 0 < Real.sqrt (sinSq src dst) := translTol_pos.trans hlt
    set s := Real.sqrt (sinSq src dst)
    have hdw : d ⬝ᵥ ((1 / s) • (a - c • d)) = 0 := by
      rw [dotProduct_smul, dotProduct_sub, dotProduct_smul, hd', dotProduct_comm d a, ← hc]
      simp
    have hww : ((1 / s) • (a - c • d)) ⬝ᵥ ((1 / s) • (a - c • d)) = 1 := by
      rw [dotProduct_smul, smul_dotProduct, sub_dotProduct, dotProduct_sub, dotProduct_sub, smul_dotProduct, dotProduct_smul,
        smul_dotProduct, dotProduct_smul, ha, hd', dotProduct_comm d a, ← hc]
      simp only [smul_eq_mul]
      field_simp
      linarith
    have hcs : c ^ 2 + s ^ 2 = 1 := by linarith
    have hav : a = c • d + s • ((1 / s) • (a - c • d)) := by
      rw [smul_smul, mul_one_div_cancel hspos.ne', one_smul]; abel
    exact ⟨planeRot_orth hd' hdw hww hcs, planeRot_carry hd' hdw hww hcs hav⟩

end Ellipy.LA
