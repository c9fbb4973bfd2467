import Mathlib.LinearAlgebra.Matrix.SchurComplement
import Verif.Proofs.LinImage
import Verif.Props.TranslIff
import Verif.Props.TranslQr

/-! Property theorems C126: which orthogonal matrix `orth_transl`, `orth_transl_haus` and `orth_transl_qr` return. -/

namespace Ellipy.LA
open Matrix

private theorem ne_of_ok {n : ℕ} {src dst : Fin n → ℝ} {O : Matrix (Fin n) (Fin n) ℝ} (h : orthTransl src dst = .ok O) :
    src ≠ 0 ∧ dst ≠ 0 := by
  by_contra hcon
  obtain ⟨e, he⟩ := (C24_raises_iff src dst).2 (by tauto)
  rw [h] at he
  cases he

private theorem ne_of_haus {n : ℕ} {src dst : Fin n → ℝ} {O : Matrix (Fin n) (Fin n) ℝ} (h : orthTranslHaus src dst = some O) :
    src ≠ 0 ∧ dst ≠ 0 := by
  by_contra hcon
  rw [(C25_haus_nan_iff src dst).2 (by tauto)] at h
  cases h

private theorem dot_dir {n : ℕ} {x y : Fin n → ℝ} (h : x ⬝ᵥ y = 0) : dir x ⬝ᵥ y = 0 := by
  rw [dir, smul_dotProduct, h, smul_zero]

private theorem rot_closed {n : ℕ} {q0 q1 a b : Fin n → ℝ} {c s σ : ℝ} (h00 : q0 ⬝ᵥ q0 = 1) (h01 : q0 ⬝ᵥ q1 = 0)
    (hcs : c ^ 2 + s ^ 2 = 1) (hσ : σ * σ = 1) (hb : b = σ • q0) (ha : σ • a = c • q0 + s • q1) (hc : c ≠ -1) :
    a ⬝ᵥ b = c ∧ planeRot q0 q1 c s = 1 - (1 / (1 + c)) • vecMulVec (a + b) (a + b) + (2 : ℝ) • vecMulVec b a := by
  have ha' : a = (σ * c) • q0 + (σ * s) • q1 := by
    have := congrArg (σ • ·) ha
    simp only [smul_smul, hσ, one_smul, smul_add] at this
    exact this
  constructor
  · rw [ha', hb, add_dotProduct, smul_dotProduct, dotProduct_smul, h00, smul_dotProduct, dotProduct_smul, dotProduct_comm q1, h01]
    simp only [smul_eq_mul]
    linear_combination c * hσ
  · have hc1 : 1 + c ≠ 0 := fun h => hc (by linarith)
    rw [planeRot_eq, ha', hb]
    ext i j
    simp only [Matrix.add_apply, Matrix.sub_apply, Matrix.smul_apply, vecMulVec_apply, smul_eq_mul, Pi.add_apply, Pi.smul_apply]
    have hk : 1 / (1 + c) * (1 + c) = 1 := by field_simp
    generalize 1 / (1 + c) = k at hk
    linear_combination (k * ((c * q0 i + s * q1 i + q0 i) * (c * q0 j + s * q1 j + q0 j)) - 2 * (q0 i * (c * q0 j + s * q1 j))) * hσ +
      ((1 + c) * (q0 i * q0 j) + s * (q0 i * q1 j + q1 i * q0 j) + (1 - c) * (q1 i * q1 j)) * hk + k * (q1 i * q1 j) * hcs

/-- Two unit vectors whose product is `1` coincide. -/
private theorem unit_eq {n : ℕ} {a b : Fin n → ℝ} (ha : a ⬝ᵥ a = 1) (hb : b ⬝ᵥ b = 1) (h : a ⬝ᵥ b = 1) : a = b := by
  by_contra hne
  have := dot_self_pos (sub_ne_zero.2 hne)
  rw [sub_dotProduct, dotProduct_sub, dotProduct_sub, ha, hb, dotProduct_comm b a, h] at this
  linarith

private theorem unit_neg {n : ℕ} {a b : Fin n → ℝ} (ha : a ⬝ᵥ a = 1) (hb : b ⬝ᵥ b = 1) (h : a ⬝ᵥ b = -1) : b = -a := by
  have : (-a) = b := unit_eq (by rw [neg_dotProduct, dotProduct_neg, neg_neg, ha]) hb (by rw [neg_dotProduct, h, neg_neg])
  exact this.symm

/-- The two kinds of values of `orth_transl` on arguments where it is orthogonal. -/
private theorem transl_closed {n : ℕ} {src dst : Fin n → ℝ} {O : Matrix (Fin n) (Fin n) ℝ} (hA : Apart src dst)
    (h : orthTransl src dst = .ok O) :
    (dir dst ≠ -dir src ∧ dir src ⬝ᵥ dir dst ≠ -1 ∧ O = 1 - (1 / (1 + dir src ⬝ᵥ dir dst)) • vecMulVec (dir src + dir dst) (dir src + dir dst) +
      (2 : ℝ) • vecMulVec (dir dst) (dir src)) ∨ (dir dst = -dir src ∧ O = 1 - (2 : ℝ) • vecMulVec (dir src) (dir src)) := by
  obtain ⟨hs, hd⟩ := ne_of_ok h
  have ha := dir_dot hs
  have hb := dir_dot hd
  rw [orthTransl_eq hs hd] at h
  injection h with h
  set a := dir src with haD
  set b := dir dst with hbD
  set c := a ⬝ᵥ b with hc
  have hS : sinSq src dst = 1 - c ^ 2 := rfl
  rcases hA with h0 | h0
  · rw [h0, Real.sqrt_zero, if_neg (not_lt.2 translTol_pos.le)] at h
    have hc2 : (c - 1) * (c + 1) = 0 := by rw [hS] at h0; linear_combination -h0
    rcases mul_eq_zero.1 hc2 with h1 | h1
    · have hc1 : c = 1 := by linarith
      have hab := unit_eq ha hb hc1
      left
      refine ⟨fun hcon => ?_, by rw [hc1]; norm_num, ?_⟩
      · rw [hcon, dotProduct_neg, ha] at hc
        linarith
      · rw [← h, planeRot_eq, ← hab, hc1]
        ext i j
        simp only [Matrix.add_apply, Matrix.sub_apply, Matrix.smul_apply, vecMulVec_apply, smul_eq_mul, Pi.add_apply]
        ring
    · have hc1 : c = -1 := by linarith
      have hab := unit_neg ha hb hc1
      right
      refine ⟨hab, ?_⟩
      rw [← h, planeRot_eq, hab, hc1]
      ext i j
      simp only [Matrix.add_apply, Matrix.sub_apply, Matrix.smul_apply, vecMulVec_apply, smul_eq_mul, Pi.neg_apply, Pi.zero_apply]
      ring
  · have hlt : translTol < Real.sqrt (sinSq src dst) := by
      rw [translTol]
      exact Real.lt_sqrt_of_sq_lt h0
    have hspos : 0 < Real.sqrt (sinSq src dst) := translTol_pos.trans hlt
    rw [if_pos hlt] at h
    have hss : Real.sqrt (sinSq src dst) ^ 2 = 1 - c ^ 2 := by rw [Real.sq_sqrt (sinSq_nonneg hs hd), hS]
    set s := Real.sqrt (sinSq src dst)
    have hcne : c ≠ -1 := by
      intro hcon
      rw [hcon] at hss
      nlinarith
    left
    refine ⟨fun hcon => hcne (by rw [hc, hcon, dotProduct_neg, ha]), hcne, ?_⟩
    have hdw : b ⬝ᵥ ((1 / s) • (a - c • b)) = 0 := by
      rw [dotProduct_smul, dotProduct_sub, dotProduct_smul, hb, dotProduct_comm b a, ← hc]
      simp
    rw [← h]
    refine (rot_closed (σ := 1) hb hdw (by linarith) (by norm_num) (by rw [one_smul]) ?_ hcne).2
    rw [one_smul, smul_smul, mul_one_div_cancel hspos.ne', one_smul]
    abel

/-- **C126** (what stays). Whatever is orthogonal to source and destination stays where it is — for all non-zero vectors. -/
theorem C126_rest {n : ℕ} {src dst : Fin n → ℝ} {O : Matrix (Fin n) (Fin n) ℝ} (h : orthTransl src dst = .ok O) (y : Fin n → ℝ)
    (h1 : src ⬝ᵥ y = 0) (h2 : dst ⬝ᵥ y = 0) : O *ᵥ y = y ∧ Oᵀ *ᵥ y = y := by
  obtain ⟨hs, hd⟩ := ne_of_ok h
  rw [orthTransl_eq hs hd] at h
  injection h with h
  have e : ∀ p : Prop, [Decidable p] → ∀ k : ℝ, ∀ m : ℝ, (if p then k • (dir src - m • dir dst) else 0) ⬝ᵥ y = 0 := by
    intro p _ k m
    split_ifs
    · rw [smul_dotProduct, sub_dotProduct, smul_dotProduct, dot_dir h1, dot_dir h2]; simp
    · simp
  rw [← h, planeRot_transpose, planeRot_mulVec, planeRot_mulVec, e, dot_dir h2]
  simp

/-- **C126** (the plane). On the plane of the two vectors the matrix is the rotation by the angle between them: the destination
goes to its mirror image of the source. -/
theorem C126_plane {n : ℕ} {src dst : Fin n → ℝ} {O : Matrix (Fin n) (Fin n) ℝ} (hA : Apart src dst)
    (hne : dir dst ≠ -dir src) (h : orthTransl src dst = .ok O) :
    O *ᵥ dir src = dir dst ∧ O *ᵥ dir dst = (2 * (dir src ⬝ᵥ dir dst)) • dir dst - dir src ∧
    O = 1 - (1 / (1 + dir src ⬝ᵥ dir dst)) • vecMulVec (dir src + dir dst) (dir src + dir dst) + (2 : ℝ) • vecMulVec (dir dst) (dir src) := by
  obtain ⟨hs, hd⟩ := ne_of_ok h
  have ha := dir_dot hs
  have hb := dir_dot hd
  rcases transl_closed hA h with ⟨_, hc, hO⟩ | ⟨hcon, _⟩
  swap
  · exact absurd hcon hne
  have hc1 : 1 + dir src ⬝ᵥ dir dst ≠ 0 := fun h0 => hc (by linarith)
  refine ⟨?_, ?_, hO⟩
  · rw [hO, add_mulVec, sub_mulVec, one_mulVec, smul_mulVec, smul_mulVec, vecMulVec_mulVec', vecMulVec_mulVec', add_dotProduct, ha,
      dotProduct_comm (dir dst), smul_smul, one_div_mul_cancel hc1]
    funext i
    simp only [Pi.add_apply, Pi.sub_apply, Pi.smul_apply, smul_eq_mul]
    ring
  · rw [hO, add_mulVec, sub_mulVec, one_mulVec, smul_mulVec, smul_mulVec, vecMulVec_mulVec', vecMulVec_mulVec', add_dotProduct, hb,
      smul_smul, add_comm (dir src ⬝ᵥ dir dst) 1, one_div_mul_cancel hc1]
    funext i
    simp only [Pi.add_apply, Pi.sub_apply, Pi.smul_apply, smul_eq_mul]
    ring

private theorem apart_comm {n : ℕ} {src dst : Fin n → ℝ} (h : Apart src dst) : Apart dst src := by
  unfold Apart sinSq at *
  rwa [dotProduct_comm]

/-- **C126** (back). Exchanging source and destination gives the inverse, which is the transposed matrix. -/
theorem C126_back {n : ℕ} {src dst : Fin n → ℝ} {O : Matrix (Fin n) (Fin n) ℝ} (hA : Apart src dst)
    (h : orthTransl src dst = .ok O) : orthTransl dst src = .ok Oᵀ ∧ O * Oᵀ = 1 ∧ Oᵀ * O = 1 := by
  obtain ⟨hs, hd⟩ := ne_of_ok h
  obtain ⟨O2, h2, hO2⟩ := orthTransl_spec hd hs (apart_comm hA)
  obtain ⟨O1, h1, hO1, _⟩ := orthTransl_spec hs hd hA
  rw [h] at h1
  injection h1 with h1
  subst h1
  refine ⟨?_, hO1, mul_eq_one_comm.mp hO1⟩
  rw [h2]
  congr 1
  rcases transl_closed hA h with ⟨hne, _, hO⟩ | ⟨he, hO⟩ <;> rcases transl_closed (apart_comm hA) h2 with ⟨hne', _, hO'⟩ | ⟨he', hO'⟩
  · rw [hO, hO', dotProduct_comm (dir dst)]
    ext i j
    simp only [Matrix.add_apply, Matrix.sub_apply, Matrix.smul_apply, vecMulVec_apply, smul_eq_mul, Pi.add_apply, transpose_apply, one_apply,
      eq_comm]
    ring
  · exact absurd (by rw [he', neg_neg]) hne
  · exact absurd (by rw [he, neg_neg]) hne'
  · rw [hO, hO', he]
    ext i j
    simp only [Matrix.sub_apply, Matrix.smul_apply, vecMulVec_apply, smul_eq_mul, Pi.neg_apply, transpose_apply, one_apply, eq_comm]
    ring

/-- **C126** (lengths). Only the directions count. -/
theorem C126_lengths {n : ℕ} (src dst : Fin n → ℝ) {t u : ℝ} (ht : 0 < t) (hu : 0 < u) :
    orthTransl (t • src) (u • dst) = orthTransl src dst ∧ orthTranslHaus (t • src) (u • dst) = orthTranslHaus src dst := by
  have hdir : ∀ {r : ℝ}, 0 < r → ∀ x : Fin n → ℝ, dir (r • x) = dir x := by
    intro r hr x
    unfold dir
    rw [smul_dotProduct, dotProduct_smul, smul_eq_mul, smul_eq_mul, ← mul_assoc, Real.sqrt_mul (mul_self_nonneg r),
      Real.sqrt_mul_self hr.le, smul_smul]
    congr 1
    field_simp
  have herr1 : ∀ x : Fin n → ℝ, orthTransl x 0 = throwErr "wrongInput:dst_zero" := fun x => by
    unfold orthTransl; rw [if_pos (by simp)]
  have herr2 : ∀ x : Fin n → ℝ, x ≠ 0 → orthTransl 0 x = throwErr "wrongInput:src_zero" := fun x hx => by
    unfold orthTransl; rw [if_neg (show ∑ i, x i * x i ≠ 0 from (dot_self_pos hx).ne'), if_pos (by simp)]
  by_cases hd : dst = 0
  · subst hd
    rw [smul_zero, herr1, herr1, (C25_haus_nan_iff _ _).2 (.inr rfl), (C25_haus_nan_iff _ _).2 (.inr rfl)]
    exact ⟨rfl, rfl⟩
  have hd' : u • dst ≠ 0 := smul_ne_zero hu.ne' hd
  by_cases hs : src = 0
  · subst hs
    rw [smul_zero, herr2 _ hd, herr2 _ hd', (C25_haus_nan_iff _ _).2 (.inl rfl), (C25_haus_nan_iff _ _).2 (.inl rfl)]
    exact ⟨rfl, rfl⟩
  have hs' : t • src ≠ 0 := smul_ne_zero ht.ne' hs
  rw [orthTransl_eq hs hd, orthTransl_eq hs' hd', haus_eq hs hd, haus_eq hs' hd']
  unfold sinSq
  rw [hdir ht, hdir hu]
  exact ⟨rfl, rfl⟩

private theorem turn_outer {n : ℕ} (U : Matrix (Fin n) (Fin n) ℝ) (x y : Fin n → ℝ) :
    vecMulVec (U *ᵥ x) (U *ᵥ y) = U * vecMulVec x y * Uᵀ := by
  rw [mul_vecMulVec, vecMulVec_mul, vecMul_transpose]

/-- **C126** (turning). Turning or mirroring source and destination with `U` turns the matrix: `U O Uᵀ`. -/
theorem C126_turn {n : ℕ} {src dst : Fin n → ℝ} {O U : Matrix (Fin n) (Fin n) ℝ} (hU : IsOrth U)
    (h : orthTransl src dst = .ok O) : orthTransl (U *ᵥ src) (U *ᵥ dst) = .ok (U * O * Uᵀ) := by
  obtain ⟨hs, hd⟩ := ne_of_ok h
  have hU' : Uᵀ * U = 1 := mul_eq_one_comm.mp hU
  have hne : ∀ x : Fin n → ℝ, x ≠ 0 → U *ᵥ x ≠ 0 := by
    intro x hx h0
    apply hx
    have := congrArg (Uᵀ *ᵥ ·) h0
    simpa only [mulVec_mulVec, hU', one_mulVec, mulVec_zero] using this
  rw [orthTransl_eq hs hd] at h
  injection h with h
  rw [orthTransl_eq (hne _ hs) (hne _ hd), ← h]
  congr 1
  have hsin : sinSq (U *ᵥ src) (U *ᵥ dst) = sinSq src dst := by
    unfold sinSq
    rw [Ell.dir_turn hU, Ell.dir_turn hU, Ell.orth_dot hU]
  rw [hsin, Ell.dir_turn hU, Ell.dir_turn hU, Ell.orth_dot hU]
  have hw : ∀ p : Prop, [Decidable p] → ∀ k m : ℝ, (if p then k • (U *ᵥ dir src - m • (U *ᵥ dir dst)) else 0) =
      U *ᵥ (if p then k • (dir src - m • dir dst) else 0) := by
    intro p _ k m
    split_ifs
    · rw [mulVec_smul, mulVec_sub, mulVec_smul]
    · rw [mulVec_zero]
  rw [hw, planeRot_eq, planeRot_eq]
  simp only [turn_outer, Matrix.mul_add, Matrix.add_mul, Matrix.mul_sub, Matrix.sub_mul, Matrix.mul_one, Matrix.mul_smul, Matrix.smul_mul]
  rw [hU]

private theorem det_planeRot {n : ℕ} {q0 q1 : Fin n → ℝ} {c s : ℝ} (h00 : q0 ⬝ᵥ q0 = 1) (h01 : q0 ⬝ᵥ q1 = 0) (h11 : q1 ⬝ᵥ q1 = 1)
    (hcs : c ^ 2 + s ^ 2 = 1) : (planeRot q0 q1 c s).det = 1 := by
  have hq : (of fun i => ![q0 i, q1 i] : Matrix (Fin n) (Fin 2) ℝ)ᵀ * (of fun i => ![q0 i, q1 i] : Matrix (Fin n) (Fin 2) ℝ) = 1 := by
    have h10 : q1 ⬝ᵥ q0 = 0 := by rw [dotProduct_comm, h01]
    ext i j
    rw [mul_apply]
    fin_cases i <;> fin_cases j
    · simpa [dotProduct] using h00
    · simpa [dotProduct] using h01
    · simpa [dotProduct] using h10
    · simpa [dotProduct] using h11
  rw [planeRot, Matrix.mul_assoc, det_one_add_mul_comm, Matrix.mul_assoc, hq, Matrix.mul_one, det_fin_two]
  simp
  linear_combination hcs

/-- **C126** (orientation). The matrix is a rotation (determinant one), except for opposite directions, where it is a reflection. -/
theorem C126_det {n : ℕ} {src dst : Fin n → ℝ} {O : Matrix (Fin n) (Fin n) ℝ} (hA : Apart src dst)
    (h : orthTransl src dst = .ok O) : O.det = if dir dst = -dir src then -1 else 1 := by
  obtain ⟨hs, hd⟩ := ne_of_ok h
  have ha := dir_dot hs
  have hb := dir_dot hd
  have hrefl : dir dst = -dir src → O.det = -1 := by
    intro he
    rcases transl_closed hA h with ⟨hcon, _⟩ | ⟨_, hO⟩
    · exact absurd he hcon
    · rw [hO, ← smul_vecMulVec, vecMulVec_eq Unit, det_one_sub_mul_comm]
      rw [det_unique]
      simp only [Matrix.sub_apply, one_apply_eq, mul_apply, replicateRow_apply, replicateCol_apply, Pi.smul_apply, smul_eq_mul]
      have : ∑ x, dir src x * (2 * dir src x) = 2 * (dir src ⬝ᵥ dir src) := by
        rw [dotProduct, Finset.mul_sum]
        exact Finset.sum_congr rfl (fun i _ => by ring)
      rw [this, ha]
      norm_num
  split_ifs with he
  · exact hrefl he
  · rw [orthTransl_eq hs hd] at h
    injection h with h
    have hS : sinSq src dst = 1 - (dir src ⬝ᵥ dir dst) ^ 2 := rfl
    have hss : Real.sqrt (sinSq src dst) ^ 2 = 1 - (dir src ⬝ᵥ dir dst) ^ 2 := by rw [Real.sq_sqrt (sinSq_nonneg hs hd), hS]
    rcases hA with h0 | h0
    · rw [h0, Real.sqrt_zero, if_neg (not_lt.2 translTol_pos.le)] at h
      have hc2 : (dir src ⬝ᵥ dir dst - 1) * (dir src ⬝ᵥ dir dst + 1) = 0 := by rw [hS] at h0; linear_combination -h0
      rcases mul_eq_zero.1 hc2 with h1 | h1
      · rw [← h, planeRot_eq, h1]
        simp
      · exact absurd (unit_neg ha hb (by linarith)) he
    · have hlt : translTol < Real.sqrt (sinSq src dst) := by
        rw [translTol]
        exact Real.lt_sqrt_of_sq_lt h0
      have hspos : 0 < Real.sqrt (sinSq src dst) := translTol_pos.trans hlt
      rw [if_pos hlt] at h
      set c := dir src ⬝ᵥ dir dst with hc
      set s := Real.sqrt (sinSq src dst)
      rw [← h]
      refine det_planeRot hb ?_ ?_ (by linarith)
      · rw [dotProduct_smul, dotProduct_sub, dotProduct_smul, hb, dotProduct_comm (dir dst), ← hc]
        simp
      · rw [dotProduct_smul, smul_dotProduct, sub_dotProduct, dotProduct_sub, dotProduct_sub, smul_dotProduct, dotProduct_smul,
          smul_dotProduct, dotProduct_smul, ha, hb, dotProduct_comm (dir dst), ← hc]
        simp only [smul_eq_mul]
        field_simp
        linarith

/-- **C126** (agreement). Wherever `orth_transl` is orthogonal and the directions are not opposite, `orth_transl_qr` returns the same matrix,
for every QR factorisation. -/
theorem C126_agree (B : QrR) {n : ℕ} {src dst : Fin n → ℝ} (hs : src ≠ 0) (hd : dst ≠ 0) (hA : Apart src dst) (hne : dir dst ≠ -dir src) :
    orthTranslQr B src dst = orthTransl src dst := by
  obtain ⟨O, hO, -⟩ := orthTransl_spec hs hd hA
  have hc : dir src ⬝ᵥ dir dst ≠ -1 := fun h0 => hne (unit_neg (dir_dot hs) (dir_dot hd) h0)
  rw [hO, (C126_plane hA hne hO).2.2]
  by_cases hn : 2 ≤ n
  · obtain ⟨q0, q1, c, s, σ, h00, h01, h11, hcs, hσ, hb, ha, hq⟩ := qr_form B hn hs hd
    rw [hq]
    congr 1
    have hcc : dir src ⬝ᵥ dir dst = c := by
      have : σ * (dir src ⬝ᵥ dir dst) = σ * c := by
        rw [← smul_eq_mul, ← smul_dotProduct, ha, hb, add_dotProduct, smul_dotProduct, smul_dotProduct, dotProduct_smul, dotProduct_smul,
          h00, dotProduct_comm q1, h01]
        simp only [smul_eq_mul]
        ring
      have := congrArg (σ * ·) this
      simpa only [← mul_assoc, hσ, one_mul] using this
    rw [hcc] at hc ⊢
    exact (rot_closed h00 h01 hcs hσ hb ha hc).2
  · have hn0 : n ≠ 0 := by
      rintro rfl
      exact hs (Subsingleton.elim _ _)
    obtain rfl : n = 1 := by omega
    obtain ⟨P, hP, h1, h2⟩ := C25_qr B src dst hs hd
    rw [hP]
    congr 1
    have hone : ∀ (M N : Matrix (Fin 1) (Fin 1) ℝ), M *ᵥ dir src = N *ᵥ dir src → M = N := by
      intro M N hMN
      have h3 := dir_dot hs
      have h4 := congrFun hMN 0
      simp only [mulVec, dotProduct, Finset.univ_unique, Fin.default_eq_zero, Finset.sum_singleton] at h3 h4
      have h5 : dir src 0 ≠ 0 := fun h0 => by rw [h0] at h3; norm_num at h3
      ext i j
      rw [Subsingleton.elim i 0, Subsingleton.elim j 0]
      exact mul_right_cancel₀ h5 h4
    apply hone
    rw [h2, ← (C126_plane hA hne hO).2.2]
    exact ((C126_plane hA hne hO).1).symm

private theorem trace_proj {n : ℕ} {P J : Matrix (Fin n) (Fin n) ℝ} (hP : IsOrth P) (hs : Jᵀ = J) (hi : J * J = J) :
    (P * J).trace ≤ J.trace := by
  have h0 : 0 ≤ ((Pᵀ * J - J)ᵀ * (Pᵀ * J - J)).trace := by
    refine Finset.sum_nonneg (fun i _ => ?_)
    rw [diag_apply, mul_apply]
    exact Finset.sum_nonneg (fun k _ => mul_self_nonneg _)
  have e : (Pᵀ * J - J)ᵀ * (Pᵀ * J - J) = J - J * P * J - (J * P * J)ᵀ + J := by
    simp only [transpose_sub, transpose_mul, transpose_transpose, hs, Matrix.sub_mul, Matrix.mul_sub]
    have e1 : J * P * (Pᵀ * J) = J := by
      calc J * P * (Pᵀ * J) = J * (P * Pᵀ) * J := by simp only [Matrix.mul_assoc]
        _ = J := by rw [hP, Matrix.mul_one, hi]
    have e2 : J * (Pᵀ * J) = J * (Pᵀ * J) := rfl
    rw [e1, hi]
    abel
  have e3 : (J * P * J).trace = (P * J).trace := by
    rw [trace_mul_comm, ← Matrix.mul_assoc, hi, trace_mul_comm]
  rw [e, trace_add, trace_sub, trace_sub, trace_transpose, e3] at h0
  linarith

private theorem trace_outer {n : ℕ} (P : Matrix (Fin n) (Fin n) ℝ) (x y : Fin n → ℝ) : (P * vecMulVec x y).trace = y ⬝ᵥ P *ᵥ x := by
  rw [mul_vecMulVec, trace_vecMulVec, dotProduct_comm]

/-- The bound of `C126_least`. -/
private theorem trace_bound {n : ℕ} {a b : Fin n → ℝ} (ha : a ⬝ᵥ a = 1) (hb : b ⬝ᵥ b = 1) {P : Matrix (Fin n) (Fin n) ℝ} (hP : IsOrth P)
    (hc : P *ᵥ a = b) : P.trace ≤ n - 2 + (a ⬝ᵥ b) + |a ⬝ᵥ b| := by
  have hP' : Pᵀ * P = 1 := mul_eq_one_comm.mp hP
  have hba := dotProduct_comm b a
  set c := a ⬝ᵥ b with hcd
  have hc2 : c ^ 2 ≤ 1 := dot_sq_le ha hb
  rcases hc2.lt_or_eq with hlt | heq
  · -- a proper angle
    obtain ⟨s, hs0, hs2⟩ : ∃ s : ℝ, 0 < s ∧ s ^ 2 = 1 - c ^ 2 :=
      ⟨Real.sqrt (1 - c ^ 2), Real.sqrt_pos.2 (by linarith), Real.sq_sqrt (by linarith)⟩
    set w := (1 / s) • (a - c • b) with hw
    set e := (1 / s) • (b - c • a) with he
    have hbw : b ⬝ᵥ w = 0 := by
      rw [hw, dotProduct_smul, dotProduct_sub, dotProduct_smul, hb, hba]; simp
    have hww : w ⬝ᵥ w = 1 := by
      rw [hw, dotProduct_smul, smul_dotProduct, sub_dotProduct, dotProduct_sub, dotProduct_sub, smul_dotProduct, dotProduct_smul,
        smul_dotProduct, dotProduct_smul, ha, hb, hba]
      simp only [smul_eq_mul, ← hcd]
      field_simp
      linarith
    have hee : e ⬝ᵥ e = 1 := by
      rw [he, dotProduct_smul, smul_dotProduct, sub_dotProduct, dotProduct_sub, dotProduct_sub, smul_dotProduct, dotProduct_smul,
        smul_dotProduct, dotProduct_smul, ha, hb, hba]
      simp only [smul_eq_mul, ← hcd]
      field_simp
      linarith
    have hwae : w = s • a - c • e := by
      funext i
      rw [hw, he]
      simp only [Pi.smul_apply, Pi.sub_apply, smul_eq_mul]
      field_simp
      linear_combination (-(a i)) * hs2
    let J : Matrix (Fin n) (Fin n) ℝ := 1 - vecMulVec b b - vecMulVec w w
    have hwb : w ⬝ᵥ b = 0 := by rw [dotProduct_comm, hbw]
    have hJs : Jᵀ = J := by
      simp only [J, transpose_sub, transpose_one, transpose_vecMulVec]
    have hJi : J * J = J := by
      simp only [J, Matrix.sub_mul, Matrix.mul_sub, Matrix.one_mul, Matrix.mul_one, vecMulVec_mul', hb, hww, hbw, hwb, one_smul, zero_smul]
      abel
    have hJt : J.trace = n - 2 := by
      simp only [J, trace_sub, trace_one, Fintype.card_fin, trace_vecMulVec, hb, hww]
      ring
    have h1 := trace_proj hP hJs hJi
    have h2 : (P * J).trace = P.trace - b ⬝ᵥ P *ᵥ b - w ⬝ᵥ P *ᵥ w := by
      simp only [J, Matrix.mul_sub, Matrix.mul_one, trace_sub, trace_outer]
    have hPb : Pᵀ *ᵥ b = a := by rw [← hc, mulVec_mulVec, hP', one_mulVec]
    have h3 : b ⬝ᵥ P *ᵥ b = c := by
      rw [dotProduct_mulVec, ← mulVec_transpose, hPb]
    have h4 : w ⬝ᵥ P *ᵥ w = -c * (w ⬝ᵥ P *ᵥ e) := by
      have : P *ᵥ w = s • b - c • (P *ᵥ e) := by rw [hwae, mulVec_sub, mulVec_smul, mulVec_smul, hc]
      rw [this, dotProduct_sub, dotProduct_smul, dotProduct_smul, hwb]
      simp
    have h5 : (w ⬝ᵥ P *ᵥ e) ^ 2 ≤ 1 := dot_sq_le hww (by rw [dot_orth hP', hee])
    have h6 : -c * (w ⬝ᵥ P *ᵥ e) ≤ |c| := by
      have h7 : |w ⬝ᵥ P *ᵥ e| ≤ 1 := abs_le_one_iff_mul_self_le_one.2 (by rw [← sq]; exact h5)
      calc -c * (w ⬝ᵥ P *ᵥ e) ≤ |-c * (w ⬝ᵥ P *ᵥ e)| := le_abs_self _
        _ = |c| * |w ⬝ᵥ P *ᵥ e| := by rw [abs_mul, abs_neg]
        _ ≤ |c| * 1 := mul_le_mul_of_nonneg_left h7 (abs_nonneg c)
        _ = |c| := mul_one _
    rw [hJt, h2, h3, h4] at h1
    linarith
  · let J : Matrix (Fin n) (Fin n) ℝ := 1 - vecMulVec a a
    have hJs : Jᵀ = J := by simp only [J, transpose_sub, transpose_one, transpose_vecMulVec]
    have hJi : J * J = J := by
      simp only [J, Matrix.sub_mul, Matrix.mul_sub, Matrix.one_mul, Matrix.mul_one, vecMulVec_mul', ha, one_smul]
      abel
    have hJt : J.trace = n - 1 := by simp only [J, trace_sub, trace_one, Fintype.card_fin, trace_vecMulVec, ha]
    have h1 := trace_proj hP hJs hJi
    have h2 : (P * J).trace = P.trace - c := by
      simp only [J, Matrix.mul_sub, Matrix.mul_one, trace_sub, trace_outer, hc]
      rw [hcd]
    have h3 : |c| = 1 := by
      rw [← sq_eq_sq₀ (abs_nonneg c) zero_le_one, sq_abs, heq]; norm_num
    rw [hJt, h2] at h1
    linarith

private theorem moved_eq {n : ℕ} {P : Matrix (Fin n) (Fin n) ℝ} (hP : IsOrth P) : moved P = 2 * n - 2 * P.trace := by
  have h : moved P = ((P - 1) * (P - 1)ᵀ).trace := by
    unfold moved Matrix.trace
    refine Finset.sum_congr rfl (fun i _ => ?_)
    rw [diag_apply, mul_apply]
    refine Finset.sum_congr rfl (fun j _ => ?_)
    rw [transpose_apply, Matrix.sub_apply, sq]
  rw [h, transpose_sub, transpose_one, Matrix.sub_mul, Matrix.mul_sub, Matrix.mul_sub, hP, trace_sub, trace_sub, trace_sub]
  simp only [Matrix.mul_one, Matrix.one_mul, trace_transpose, trace_one, Fintype.card_fin]
  ring

private theorem trace_closed {n : ℕ} {src dst : Fin n → ℝ} {O : Matrix (Fin n) (Fin n) ℝ} (hA : Apart src dst)
    (h : orthTransl src dst = .ok O) : O.trace = if dir dst = -dir src then (n : ℝ) - 2 else n - 2 + 2 * (dir src ⬝ᵥ dir dst) := by
  obtain ⟨hs, hd⟩ := ne_of_ok h
  have ha := dir_dot hs
  have hb := dir_dot hd
  rcases transl_closed hA h with ⟨hne, hc, hO⟩ | ⟨he, hO⟩
  · rw [if_neg hne, hO]
    have hc1 : 1 + dir src ⬝ᵥ dir dst ≠ 0 := fun h0 => hc (by linarith)
    simp only [trace_add, trace_sub, trace_one, trace_smul, Fintype.card_fin, trace_vecMulVec, smul_eq_mul, add_dotProduct, dotProduct_add, ha, hb,
      dotProduct_comm (dir dst) (dir src)]
    field_simp
    ring
  · rw [if_pos he, hO]
    simp only [trace_sub, trace_one, trace_smul, Fintype.card_fin, trace_vecMulVec, ha, smul_eq_mul, mul_one]

/-- **C126** (least motion). When the angle is at most a right one, or the directions are opposite, no orthogonal matrix that carries the source direction to
the destination direction moves the space less than `orth_transl` does. -/
theorem C126_least {n : ℕ} {src dst : Fin n → ℝ} {O P : Matrix (Fin n) (Fin n) ℝ} (hA : Apart src dst) (h : orthTransl src dst = .ok O)
    (hang : 0 ≤ dir src ⬝ᵥ dir dst ∨ dir dst = -dir src) (hP : Feasible P src dst) : moved O ≤ moved P := by
  obtain ⟨hs, hd⟩ := ne_of_ok h
  have ha := dir_dot hs
  have hb := dir_dot hd
  obtain ⟨O1, h1, hO1, _⟩ := orthTransl_spec hs hd hA
  rw [h] at h1
  injection h1 with h1
  subst h1
  rw [moved_eq hO1, moved_eq hP.1, trace_closed hA h]
  have hB := trace_bound ha hb hP.1 hP.2
  split_ifs with he
  · rw [he, dotProduct_neg, ha, abs_neg, abs_one] at hB
    linarith
  · rcases hang with h2 | h2
    · rw [abs_of_nonneg h2] at hB
      linarith
    · exact absurd h2 he

/-- **C126** (least motion, Householder). From a right angle on the Householder matrix is the one that moves the space least. -/
theorem C126_haus_least {n : ℕ} {src dst : Fin n → ℝ} {O P : Matrix (Fin n) (Fin n) ℝ} (h : orthTranslHaus src dst = some O)
    (hang : dir src ⬝ᵥ dir dst ≤ 0) (hP : Feasible P src dst) : Feasible O src dst ∧ moved O ≤ moved P := by
  obtain ⟨hs, hd⟩ := ne_of_haus h
  have ha := dir_dot hs
  have hb := dir_dot hd
  have hw : (dir src - dir dst) ⬝ᵥ (dir src - dir dst) = 2 - 2 * (dir src ⬝ᵥ dir dst) := by
    rw [sub_dotProduct, dotProduct_sub, dotProduct_sub, ha, hb, dotProduct_comm (dir dst)]; ring
  have hO1 : IsOrth O := C25_haus_orth src dst O h
  have hO2 : Carries O src dst := (C25_haus_carries_iff src dst hs hd O h).2 (.inr (by rw [hw]; norm_num; linarith))
  refine ⟨⟨hO1, hO2⟩, ?_⟩
  have hB := trace_bound ha hb hP.1 hP.2
  rw [abs_of_nonpos hang] at hB
  have ht : O.trace = n - 2 := by
    have hnl : ¬ (dir src - dir dst) ⬝ᵥ (dir src - dir dst) < hausTol := by
      rw [hw, hausTol, not_lt]; norm_num; linarith
    rw [haus_eq hs hd, if_neg hnl] at h
    injection h with h
    rw [← h, trace_sub, trace_one, trace_smul, trace_vecMulVec, smul_eq_mul, Fintype.card_fin, hw]
    have : (2 - 2 * (dir src ⬝ᵥ dir dst)) ≠ 0 := by linarith
    rw [div_mul_cancel₀ _ this]
  rw [moved_eq hO1, moved_eq hP.1, ht]
  linarith

/-- **C126** (Householder). The Householder matrix is symmetric, its own inverse, the same in both directions, keeps what is orthogonal to the
difference of the directions, and is a reflection unless it is the identity. -/
theorem C126_haus {n : ℕ} {src dst : Fin n → ℝ} {O : Matrix (Fin n) (Fin n) ℝ} (h : orthTranslHaus src dst = some O) :
    Oᵀ = O ∧ O * O = 1 ∧ orthTranslHaus dst src = some O ∧ (∀ y : Fin n → ℝ, dir src ⬝ᵥ y = dir dst ⬝ᵥ y → O *ᵥ y = y) ∧
    (O = 1 ∨ O.det = -1) := by
  obtain ⟨hs, hd⟩ := ne_of_haus h
  have horth := C25_haus_orth src dst O h
  have hneg : dir dst - dir src = -(dir src - dir dst) := by abel
  have h' := haus_eq hd hs
  rw [hneg, neg_dotProduct, dotProduct_neg, neg_neg, neg_vecMulVec, vecMulVec_neg, neg_neg, ← haus_eq hs hd, h] at h'
  rw [haus_eq hs hd] at h
  injection h with h
  set w := dir src - dir dst with hw
  have hsym : Oᵀ = O := by rw [← h, transpose_sub, transpose_one, transpose_smul, transpose_vecMulVec]
  refine ⟨hsym, by rwa [hsym] at horth, h', fun y hy => ?_, ?_⟩
  · have hwy : w ⬝ᵥ y = 0 := by rw [hw, sub_dotProduct, hy, sub_self]
    rw [← h, sub_mulVec, one_mulVec, smul_mulVec, vecMulVec_mulVec', hwy, zero_smul, smul_zero, sub_zero]
  · by_cases hlt : w ⬝ᵥ w < hausTol
    · left
      rw [← h, if_pos hlt, zero_smul, sub_zero]
    · right
      have hpos : w ⬝ᵥ w ≠ 0 := by
        intro h0
        apply hlt
        rw [h0, hausTol]
        norm_num
      rw [← h, if_neg hlt, ← smul_vecMulVec, vecMulVec_eq Unit, det_one_sub_mul_comm, det_unique]
      simp only [Matrix.sub_apply, one_apply_eq, mul_apply, replicateRow_apply, replicateCol_apply, Pi.smul_apply, smul_eq_mul]
      have : ∑ x, w x * (2 / (w ⬝ᵥ w) * w x) = 2 / (w ⬝ᵥ w) * (w ⬝ᵥ w) := by
        rw [dotProduct, Finset.mul_sum]
        exact Finset.sum_congr rfl (fun i _ => by ring)
      rw [this, div_mul_cancel₀ _ hpos]
      norm_num

/-- The hypotheses of C126 are met by a turn through an acute angle, by a right angle and by opposite directions. -/
example : ∃ (x y : Fin 2 → ℝ) (O U : Matrix (Fin 2) (Fin 2) ℝ), orthTransl x y = .ok O ∧ Apart x y ∧ dir y ≠ -dir x ∧ 0 ≤ dir x ⬝ᵥ dir y ∧
    (∃ P, orthTranslHaus x y = some P) ∧ dir x ⬝ᵥ dir y ≤ 0 ∧ IsOrth U ∧ U ≠ 1 ∧ Apart x (-x) ∧ dir (-x) = -dir x := by
  have hx : (![1, 0] : Fin 2 → ℝ) ≠ 0 := by intro h; have := congrFun h 0; simp at this
  have hy : (![0, 2] : Fin 2 → ℝ) ≠ 0 := by intro h; have := congrFun h 1; simp at this
  have hdot : dir (![1, 0] : Fin 2 → ℝ) ⬝ᵥ dir (![0, 2] : Fin 2 → ℝ) = 0 := by simp [dir, dotProduct, Fin.sum_univ_two]
  have hA : Apart (![1, 0] : Fin 2 → ℝ) ![0, 2] := by right; rw [sinSq, hdot]; norm_num
  have hneg : dir (-(![1, 0] : Fin 2 → ℝ)) = -dir ![1, 0] := by
    unfold dir
    rw [neg_dotProduct, dotProduct_neg, neg_neg, smul_neg]
  obtain ⟨O, hO, hf⟩ := orthTransl_spec hx hy hA
  refine ⟨_, _, O, diagonal ![1, -1], hO, hA, ?_, hdot.ge, ⟨_, haus_eq hx hy⟩, hdot.le, ?_, ?_, ?_, hneg⟩
  · intro h
    rw [h, dotProduct_neg, dir_dot hx] at hdot
    norm_num at hdot
  · rw [IsOrth, diagonal_transpose, diagonal_mul_diagonal, ← diagonal_one]
    congr 1; funext i; fin_cases i <;> norm_num
  · intro h
    have := congrFun (congrFun h 1) 1
    norm_num at this
  · left
    rw [sinSq, hneg, dotProduct_neg, dir_dot hx]
    norm_num

end Ellipy.LA
