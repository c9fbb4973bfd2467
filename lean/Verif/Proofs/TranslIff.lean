import Verif.Proofs.TranslOpt

/-! Helper facts for the exact criteria of C24-C27: what `orth_transl` gives below its tolerance. -/

namespace Ellipy.LA
open Matrix

/-- Below the tolerance `orth_transl` returns `1 + (c - 1) d dᵀ`, which shortens vectors that are not orthogonal to `d`. -/
theorem shrink_norm {n : ℕ} {d : Fin n → ℝ} (hd : d ⬝ᵥ d = 1) (c s : ℝ) (x : Fin n → ℝ) :
    (planeRot d 0 c s *ᵥ x) ⬝ᵥ (planeRot d 0 c s *ᵥ x) = x ⬝ᵥ x - (1 - c ^ 2) * (d ⬝ᵥ x) ^ 2 := by
  rw [planeRot_mulVec]
  simp only [zero_dotProduct, mul_zero, add_zero, smul_zero]
  rw [add_dotProduct, dotProduct_add, dotProduct_add, smul_dotProduct, dotProduct_smul, smul_dotProduct, dotProduct_smul, hd,
    dotProduct_comm x d]
  simp only [smul_eq_mul]
  ring

theorem not_apart_form {n : ℕ} {src dst : Fin n → ℝ} (hs : src ≠ 0) (hd : dst ≠ 0) (hA : ¬ Apart src dst) :
    ∃ c s : ℝ, orthTransl src dst = .ok (planeRot (dir dst) 0 c s) ∧ c = dir src ⬝ᵥ dir dst ∧ 0 < 1 - c ^ 2 := by
  rw [Apart, not_or] at hA
  refine ⟨_, Real.sqrt (sinSq src dst), ?_, rfl, lt_of_le_of_ne (sinSq_nonneg hs hd) (Ne.symm hA.1)⟩
  · rw [orthTransl_eq hs hd, if_neg]
    intro h
    apply hA.2
    have h2 := pow_lt_pow_left₀ h translTol_pos.le two_ne_zero
    rw [Real.sq_sqrt (sinSq_nonneg hs hd)] at h2
    exact h2

/-- The two factors around the free part: isometries, or contractions that are strict somewhere. -/
theorem transl_contract {k : ℕ} {v : Fin (k + 1) → ℝ} (hv : v ≠ 0) :
    ∃ P, orthTransl e0 v = .ok P ∧ (∀ x, (P *ᵥ x) ⬝ᵥ (P *ᵥ x) ≤ x ⬝ᵥ x) ∧ (∀ x, (Pᵀ *ᵥ x) ⬝ᵥ (Pᵀ *ᵥ x) ≤ x ⬝ᵥ x) ∧
      (Apart e0 v → IsOrth P) ∧
      (¬ Apart e0 v → ∃ x, (P *ᵥ x) ⬝ᵥ (P *ᵥ x) < x ⬝ᵥ x ∧ (Pᵀ *ᵥ x) ⬝ᵥ (Pᵀ *ᵥ x) < x ⬝ᵥ x) := by
  by_cases hA : Apart e0 v
  · obtain ⟨P, h1, h2, _⟩ := orthTransl_e0 hv hA
    exact ⟨P, h1, fun x => (dot_orth h2.left x x).le, fun x => (dot_orth h2.transpose.left x x).le, fun _ => h2,
      fun h => absurd hA h⟩
  · obtain ⟨c, s, h1, _, h3⟩ := not_apart_form e0_ne hv hA
    have hd := dir_dot hv
    refine ⟨_, h1, fun x => ?_, fun x => ?_, fun h => absurd h hA, fun _ => ⟨dir v, ?_, ?_⟩⟩
    · rw [shrink_norm hd]
      have := mul_nonneg h3.le (sq_nonneg (dir v ⬝ᵥ x))
      linarith
    · rw [planeRot_transpose, shrink_norm hd]
      have := mul_nonneg h3.le (sq_nonneg (dir v ⬝ᵥ x))
      linarith
    · rw [shrink_norm hd, hd]
      linarith
    · rw [planeRot_transpose, shrink_norm hd, hd]
      linarith

/-- `u₀ W v₀ᵀ + b aᵀ` is a product of three maps: `Rᵀ`, then `W` on the last coordinates, then `P`. -/
theorem combine_mulVec {k : ℕ} (P R : Matrix (Fin (k + 1)) (Fin (k + 1)) ℝ) (W : Matrix (Fin k) (Fin k) ℝ)
    (x : Fin (k + 1) → ℝ) :
    (tailCols P * W * (tailCols R)ᵀ + vecMulVec (col0 P) (col0 R)) *ᵥ x =
      P *ᵥ (Fin.cons ((Rᵀ *ᵥ x) 0) (W *ᵥ fun i => (Rᵀ *ᵥ x) i.succ)) := by
  have h1 : (tailCols R)ᵀ *ᵥ x = fun i => (Rᵀ *ᵥ x) i.succ := rfl
  rw [add_mulVec, ← mulVec_mulVec, ← mulVec_mulVec, h1, vecMulVec_mulVec']
  have h2 : col0 R ⬝ᵥ x = (Rᵀ *ᵥ x) 0 := rfl
  rw [h2]
  generalize (W *ᵥ fun i => (Rᵀ *ᵥ x) i.succ) = z
  generalize (Rᵀ *ᵥ x) 0 = c
  funext i
  have h3 : (P *ᵥ (Fin.cons c z : Fin (k + 1) → ℝ)) i = P i 0 * c + ∑ j, P i (Fin.succ j) * z j := by
    rw [mulVec, dotProduct, Fin.sum_univ_succ]
    simp only [Fin.cons_zero, Fin.cons_succ]
  rw [h3, Pi.add_apply, Pi.smul_apply, smul_eq_mul, add_comm, mul_comm]
  rfl

theorem cons_norm {k : ℕ} {W : Matrix (Fin k) (Fin k) ℝ} (hW : IsOrth W) (y : Fin (k + 1) → ℝ) :
    (Fin.cons (y 0) (W *ᵥ fun i => y i.succ) : Fin (k + 1) → ℝ) ⬝ᵥ Fin.cons (y 0) (W *ᵥ fun i => y i.succ) = y ⬝ᵥ y := by
  have h := dot_orth hW.left (fun i => y i.succ) (fun i => y i.succ)
  rw [dotProduct, Fin.sum_univ_succ, dotProduct, Fin.sum_univ_succ]
  simp only [Fin.cons_zero, Fin.cons_succ]
  rw [dotProduct, dotProduct] at h
  rw [h]

/-- If the combination is orthogonal then neither factor shortens any vector. -/
theorem combine_orth {k : ℕ} {P R : Matrix (Fin (k + 1)) (Fin (k + 1)) ℝ} {W : Matrix (Fin k) (Fin k) ℝ} (hW : IsOrth W)
    (hP : ∀ x, (P *ᵥ x) ⬝ᵥ (P *ᵥ x) ≤ x ⬝ᵥ x) (hR : ∀ x, (Rᵀ *ᵥ x) ⬝ᵥ (Rᵀ *ᵥ x) ≤ x ⬝ᵥ x)
    (hO : IsOrth (tailCols P * W * (tailCols R)ᵀ + vecMulVec (col0 P) (col0 R))) (x : Fin (k + 1) → ℝ) :
    (Rᵀ *ᵥ x) ⬝ᵥ (Rᵀ *ᵥ x) = x ⬝ᵥ x := by
  refine le_antisymm (hR x) ?_
  have h := dot_orth hO.left x x
  rw [combine_mulVec] at h
  have h1 := hP (Fin.cons ((Rᵀ *ᵥ x) 0) (W *ᵥ fun i => (Rᵀ *ᵥ x) i.succ))
  rw [cons_norm hW] at h1
  linarith

/-- The transposed combination has the same form. -/
theorem combine_transpose {k : ℕ} (P R : Matrix (Fin (k + 1)) (Fin (k + 1)) ℝ) (W : Matrix (Fin k) (Fin k) ℝ) :
    (tailCols P * W * (tailCols R)ᵀ + vecMulVec (col0 P) (col0 R))ᵀ =
      tailCols R * Wᵀ * (tailCols P)ᵀ + vecMulVec (col0 R) (col0 P) := by
  rw [transpose_add, transpose_vecMulVec, transpose_mul, transpose_mul, transpose_transpose, Matrix.mul_assoc]

/-- The combination built from `orth_transl(e, src)` and `orth_transl(e, dst)` is orthogonal only if both are. -/
theorem combine_apart {k : ℕ} {src dst : Fin (k + 1) → ℝ} (hs : src ≠ 0) (hd : dst ≠ 0)
    {P R : Matrix (Fin (k + 1)) (Fin (k + 1)) ℝ} {W : Matrix (Fin k) (Fin k) ℝ} (hW : IsOrth W)
    (hP : orthTransl e0 dst = .ok P) (hR : orthTransl e0 src = .ok R)
    (hO : IsOrth (tailCols P * W * (tailCols R)ᵀ + vecMulVec (col0 P) (col0 R))) : Apart e0 src ∧ Apart e0 dst := by
  obtain ⟨P', p1, p2, p3, _, p5⟩ := transl_contract hd
  obtain ⟨R', r1, r2, r3, _, r5⟩ := transl_contract hs
  rw [hP] at p1
  rw [hR] at r1
  injection p1 with p1
  injection r1 with r1
  subst p1 r1
  constructor
  · by_contra hA
    obtain ⟨x, _, hx⟩ := r5 hA
    have := combine_orth hW p2 r3 hO x
    linarith
  · by_contra hA
    obtain ⟨x, _, hx⟩ := p5 hA
    have hO' := hO.transpose
    rw [combine_transpose] at hO'
    have := combine_orth hW.transpose r2 p3 hO' x
    linarith

end Ellipy.LA
