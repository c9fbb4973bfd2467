import Verif.Proofs.MinksumMax
import Verif.Props.MinksumMin
import Verif.Props.PolarDual

/-! Property theorem C104: the internal approximation of a sum of two ellipses cannot be improved. -/

namespace Ellipy.Ell
open Matrix Ellipy.LA

private theorem support_le' {n : ℕ} {X Y : Set (Fin n → ℝ)} {l : Fin n → ℝ} {r s : ℝ} (hX : IsSupport X l r) (hY : IsSupport Y l s)
    (h : X ⊆ Y) : r ≤ s := by
  obtain ⟨x, hx, rfl⟩ := hX.1
  exact hY.2 ⟨x, h hx, rfl⟩

private theorem quad_gram {n : ℕ} (T : Matrix (Fin n) (Fin n) ℝ) (x : Fin n → ℝ) : x ⬝ᵥ (Tᵀ * T) *ᵥ x = (T *ᵥ x) ⬝ᵥ (T *ᵥ x) := by
  rw [← mulVec_mulVec, dotProduct_mulVec, vecMul_transpose]

private theorem orth_norm {n : ℕ} {O : Matrix (Fin n) (Fin n) ℝ} (hO : IsOrth O) (x : Fin n → ℝ) : (O *ᵥ x) ⬝ᵥ (O *ᵥ x) = x ⬝ᵥ x := by
  rw [← quad_gram, mul_eq_one_comm.1 hO, one_mulVec]

/-- The directions of the images under two roots of non-degenerate matrices are not opposite. -/
private theorem roots_not_opposite {n : ℕ} {e f : EllN n} (he : e.NonDeg) (hf : f.NonDeg) {S T : Matrix (Fin n) (Fin n) ℝ} (hS : IsPSD S)
    (hSS : S * S = e.Q) (hT : IsPSD T) (hTT : T * T = f.Q) {l : Fin n → ℝ} (hl : l ≠ 0) : dir (S *ᵥ l) ≠ -dir (T *ᵥ l) := by
  have key : ∀ {g : EllN n} (_ : g.NonDeg) {R : Matrix (Fin n) (Fin n) ℝ} (_ : IsPSD R) (_ : R * R = g.Q), 0 < l ⬝ᵥ dir (R *ᵥ l) := by
    intro g hg R hR hRR
    have hne := root_ne_zero hg hR hRR hl
    rw [dir, dotProduct_smul, smul_eq_mul]
    refine mul_pos (one_div_pos.2 (Real.sqrt_pos.2 (dot_self_pos hne))) ?_
    rcases (hR.2 l).lt_or_eq with h | h
    · exact h
    · exact absurd (psd_null_le hR h.ge) hne
  intro h
  have h1 := key he hS hSS
  have h2 := key hf hT hTT
  rw [h, dotProduct_neg] at h1
  linarith

private theorem rootdet {n : ℕ} {e : EllN n} (he : e.NonDeg) {S : Matrix (Fin n) (Fin n) ℝ} (hS : IsPSD S) (hSS : S * S = e.Q) : 0 < S.det := by
  refine lt_of_le_of_ne (psd_det_nonneg hS) fun h => ?_
  obtain ⟨v, hv, h0⟩ := exists_mulVec_eq_zero_iff.2 h.symm
  exact root_ne_zero he hS hSS hv h0

private theorem carry_form {n : ℕ} {O : Matrix (Fin n) (Fin n) ℝ} {v d : Fin n → ℝ} (hv : v ≠ 0) (h : Feasible O v d) :
    O *ᵥ v = Real.sqrt (v ⬝ᵥ v) • dir d := by
  have h1 : O *ᵥ dir v = dir d := h.2
  rw [← h1, dir, mulVec_smul, smul_smul, mul_one_div_cancel (Real.sqrt_pos.2 (dot_self_pos hv)).ne', one_smul]

/-- **C104**: for two non-degenerate ellipses in the plane and non-zero directions whose images under the roots of the two shape matrices are
parallel or not nearly so (the directions for which `minksum_ia` touches the sum, see C44), no other ellipse fits between an approximation
returned by `minksum_ia` and the Minkowski sum. -/
theorem C104 (E : Eigh) (G : Eig) (p : PropVals) (hp : p.ok) {k : ℕ} (a b : EllN 2)
    (ha : a.NonDeg) (hb : b.NonDeg) (M : Matrix (Fin 2) (Fin k) ℝ) (hM : ∀ j, (fun i => M i j) ≠ 0)
    (hap : ∀ S S0, IsPSD S → S * S = b.Q → IsPSD S0 → S0 * S0 = a.Q → ∀ j, Apart (S *ᵥ fun i => M i j) (S0 *ᵥ fun i => M i j)) :
    ∃ Qs : Fin k → Matrix (Fin 2) (Fin 2) ℝ,
      minksumIa E G p [a.obj, b.obj] M =
        .ok (Arr.vec (List.ofFn fun j => ⟨2, a.c + b.c, Qs j, p.absTol, p.relTol, p.n2d, p.n3d⟩)) ∧
      ∀ j (c' : Fin 2 → ℝ) (Q' : Matrix (Fin 2) (Fin 2) ℝ), IsPSD Q' → Ell (a.c + b.c) (Qs j) ⊆ Ell c' Q' →
        Ell c' Q' ⊆ minkSum [a.set, b.set] → c' = a.c + b.c ∧ Q' = Qs j := by
  have hes : ∀ e ∈ [a, b], e.NonDeg := by
    intro e he
    rcases List.mem_cons.1 he with rfl | he
    · exact ha
    · rw [List.mem_singleton] at he; subst he; exact hb
  have hc : ([a, b].map EllN.c).sum = a.c + b.c := by simp
  obtain ⟨S0, ts, hS0, hS0Q, h3, h4⟩ := minksumIa_form E G p hp (by norm_num) a b [] hes M hM
  rw [hc] at h4
  refine ⟨_, h4, fun j c' Q' hQ' h1 h2 => ?_⟩
  set l := fun i => M i j with hl
  have hl0 : l ≠ 0 := hM j
  obtain ⟨t1, t2, rfl, ht1, ht2⟩ : ∃ t1 t2, ts = [t1, t2] ∧ IaSpec M (S0 * M) a t1 ∧ IaSpec M (S0 * M) b t2 := by
    cases h3 with
    | cons x1 h3 => cases h3 with
      | cons x2 h3 => cases h3 with
        | nil => exact ⟨_, _, rfl, x1, x2⟩
  obtain ⟨hP1, hQ1, hO1⟩ := ht1
  obtain ⟨hP2, hQ2, hO2⟩ := ht2
  have hO1 := hO1 j
  have hO2 := hO2 j
  rw [col_mul, ← hl] at hO1 hO2
  obtain rfl := psd_root_unique hP1 hS0 (hQ1.trans hS0Q.symm)
  have hne := root_ne_zero ha hP1 hQ1 hl0
  have hne2 := root_ne_zero hb hP2 hQ2 hl0
  have hap1 : Apart (t1.1 *ᵥ l) (t1.1 *ᵥ l) := by left; rw [sinSq, dir_dot hne]; norm_num
  have hap2 : Apart (t2.1 *ᵥ l) (t1.1 *ᵥ l) := hap _ _ hP2 hQ2 hP1 hQ1 j
  have d1 := orthTransl_det hO1 hap1 (roots_not_opposite ha ha hP1 hQ1 hP1 hQ1 hl0)
  have d2 := orthTransl_det hO2 hap2 (roots_not_opposite hb ha hP2 hQ2 hP1 hQ1 hl0)
  have f1 : Feasible (t1.2 j) (t1.1 *ᵥ l) (t1.1 *ᵥ l) := by
    obtain ⟨O, hO, hf⟩ := orthTransl_spec hne hne hap1
    rw [hO1] at hO; injection hO with hO; rw [hO]; exact hf
  have f2 : Feasible (t2.2 j) (t2.1 *ᵥ l) (t1.1 *ᵥ l) := by
    obtain ⟨O, hO, hf⟩ := orthTransl_spec hne2 hne hap2
    rw [hO2] at hO; injection hO with hO; rw [hO]; exact hf
  set A := t1.2 j * t1.1 with hA
  set B := t2.2 j * t2.1 with hB
  have hT : ([t1, t2].map (fun t => t.2 j * t.1)).sum = A + B := by simp [hA, hB]
  rw [hT] at h1 ⊢
  have hQ : IsPSD ((A + B)ᵀ * (A + B)) := by
    have := psd_factor (A + B)ᵀ
    rwa [transpose_transpose] at this
  have nA : ∀ x, (A *ᵥ x) ⬝ᵥ (A *ᵥ x) = x ⬝ᵥ a.Q *ᵥ x := fun x => by
    rw [hA, ← mulVec_mulVec, orth_norm f1.1, root_dot hP1 hQ1]
  have nB : ∀ x, (B *ᵥ x) ⬝ᵥ (B *ᵥ x) = x ⬝ᵥ b.Q *ᵥ x := fun x => by
    rw [hB, ← mulVec_mulVec, orth_norm f2.1, root_dot hP2 hQ2]
  have hAdet : 0 < A.det := by rw [hA, det_mul, d1, one_mul]; exact rootdet ha hP1 hQ1
  have hBdet : 0 < B.det := by rw [hB, det_mul, d2, one_mul]; exact rootdet hb hP2 hQ2
  -- the half widths
  have w1 : ∀ x, Real.sqrt (x ⬝ᵥ Q' *ᵥ x) ≤ Real.sqrt ((A *ᵥ x) ⬝ᵥ (A *ᵥ x)) + Real.sqrt ((B *ᵥ x) ⬝ᵥ (B *ᵥ x)) := by
    intro x
    have a1 := support_le' (ell_support hQ' x) (minkSum_support x [a, b] fun e he => (hes e he).psd.2) h2
    have a2 := support_le' (ell_support hQ' (-x)) (minkSum_support (-x) [a, b] fun e he => (hes e he).psd.2) h2
    simp only [neg_dotProduct, mulVec_neg, dotProduct_neg, neg_neg, List.map_cons, List.map_nil, List.sum_cons, List.sum_nil, add_zero] at a1 a2
    rw [nA, nB]
    linarith
  have w2 : ∀ x, x ⬝ᵥ ((A + B)ᵀ * (A + B)) *ᵥ x ≤ x ⬝ᵥ Q' *ᵥ x := by
    intro x
    have a1 := support_le' (ell_support (c := a.c + b.c) hQ x) (ell_support hQ' x) h1
    have a2 := support_le' (ell_support (c := a.c + b.c) hQ (-x)) (ell_support hQ' (-x)) h1
    simp only [neg_dotProduct, mulVec_neg, dotProduct_neg, neg_neg] at a2
    exact (Real.sqrt_le_sqrt_iff (hQ'.2 x)).1 (by linarith)
  have hD : IsPSD (Q' - (A + B)ᵀ * (A + B)) := by
    refine ⟨by rw [transpose_sub, hQ'.1, hQ.1], fun x => ?_⟩
    rw [sub_mulVec, dotProduct_sub]
    linarith [w2 x]
  obtain ⟨mu, hmu, hmueq⟩ : ∃ mu : ℝ, 0 < mu ∧ A *ᵥ l = mu • B *ᵥ l := by
    have p1 := Real.sqrt_pos.2 (dot_self_pos hne)
    have p2 := Real.sqrt_pos.2 (dot_self_pos hne2)
    refine ⟨_, div_pos p1 p2, ?_⟩
    rw [hA, hB, ← mulVec_mulVec, ← mulVec_mulVec, carry_form hne f1, carry_form hne2 f2, smul_smul, div_mul_cancel₀ _ p2.ne']
  have hzero : Q' - (A + B)ᵀ * (A + B) = 0 := by
    refine plane_gap_zero hD hAdet hBdet hl0 hmu hmueq fun x => ?_
    have e1 : x ⬝ᵥ Q' *ᵥ x ≤ (Real.sqrt ((A *ᵥ x) ⬝ᵥ (A *ᵥ x)) + Real.sqrt ((B *ᵥ x) ⬝ᵥ (B *ᵥ x))) ^ 2 := by
      rw [← Real.sq_sqrt (hQ'.2 x)]
      exact pow_le_pow_left₀ (Real.sqrt_nonneg _) (w1 x) 2
    have e2 := Real.sq_sqrt (dot_self_nonneg (A *ᵥ x))
    have e3 := Real.sq_sqrt (dot_self_nonneg (B *ᵥ x))
    rw [sub_mulVec, dotProduct_sub, quad_gram, add_mulVec]
    simp only [add_dotProduct, dotProduct_add, dotProduct_comm (B *ᵥ x) (A *ᵥ x)]
    nlinarith
  have hQeq : Q' = (A + B)ᵀ * (A + B) := sub_eq_zero.1 hzero
  refine ⟨?_, hQeq⟩
  have hcc : (c' - (a.c + b.c)) ⬝ᵥ (c' - (a.c + b.c)) = 0 := by
    have a1 := fun x => support_le' (ell_support (c := a.c + b.c) hQ x) (ell_support hQ' x) h1
    rw [hQeq] at a1
    have b1 := a1 (-(c' - (a.c + b.c)))
    have b2 := dot_self_nonneg (c' - (a.c + b.c))
    simp only [neg_dotProduct] at b1
    rw [dotProduct_sub] at b2 ⊢
    linarith
  exact sub_eq_zero.1 (dotProduct_self_eq_zero.1 hcc)

/-! ### Three ellipses -/

/-- The unit circle and two tilted ellipses. -/
noncomputable def threeIa : List (EllN 2) :=
  [⟨0, !![1, 0; 0, 1], stdProps⟩, ⟨0, !![25, 20 * 1; 20 * 1, 25], stdProps⟩, ⟨0, !![25, 20 * (-1); 20 * (-1), 25], stdProps⟩]

theorem threeIa_nonDeg : ∀ e ∈ threeIa, e.NonDeg := by
  intro e he
  simp only [threeIa, List.mem_cons, List.not_mem_nil, or_false] at he
  rcases he with rfl | rfl | rfl <;> (refine nonDeg_two _ _ stdProps_ok ?_ ?_ <;> (unfold stdProps; norm_num))

private theorem quad2' (a b d : ℝ) (x : Fin 2 → ℝ) : x ⬝ᵥ !![a, b; b, d] *ᵥ x = a * x 0 ^ 2 + 2 * b * x 0 * x 1 + d * x 1 ^ 2 := by
  simp only [dotProduct, mulVec, Fin.sum_univ_two, of_apply, cons_val_zero, cons_val_one]; ring

/-- The root of a tilted ellipse. -/
private theorem tilt_root {g : ℝ} (hg : g ^ 2 = 1) {S : Matrix (Fin 2) (Fin 2) ℝ} (hS : IsPSD S) (hSS : S * S = !![25, 20 * g; 20 * g, 25]) :
    S = !![Real.sqrt 5 * 2, Real.sqrt 5 * g; Real.sqrt 5 * g, Real.sqrt 5 * 2] := by
  have h5 : Real.sqrt 5 * Real.sqrt 5 = 5 := Real.mul_self_sqrt (by norm_num)
  have h0 := Real.sqrt_nonneg 5
  refine psd_root_unique hS (psd_two ?_) (hSS.trans ?_)
  · have hg1 : |g| = 1 := by rw [← sq_eq_sq₀ (abs_nonneg g) zero_le_one, sq_abs, hg, one_pow]
    rw [abs_mul, abs_of_nonneg h0, hg1]
    linarith
  · ext i j
    fin_cases i <;> fin_cases j <;> simp [mul_apply, Fin.sum_univ_two]
    · linear_combination (-5) * h5 + (-(Real.sqrt 5 * Real.sqrt 5)) * hg
    · linear_combination (-4 * g) * h5
    · linear_combination (-4 * g) * h5
    · linear_combination (-5) * h5 + (-(Real.sqrt 5 * Real.sqrt 5)) * hg

/-- The image of `(1, 0)` under the root of a tilted ellipse. -/
private theorem tilt_image {g : ℝ} (hg : g ^ 2 = 1) {S : Matrix (Fin 2) (Fin 2) ℝ} (hS : IsPSD S)
    (hSS : S * S = !![25, 20 * g; 20 * g, 25]) : (S *ᵥ ![1, 0]) ⬝ᵥ (S *ᵥ ![1, 0]) = 25 ∧ dir (![1, 0] : Fin 2 → ℝ) = ![1, 0] ∧
      dir (S *ᵥ ![1, 0]) ⬝ᵥ dir ![1, 0] = Real.sqrt 5 * 2 / 5 := by
  have hr := tilt_root hg hS hSS
  have h5 : Real.sqrt 5 * Real.sqrt 5 = 5 := Real.mul_self_sqrt (by norm_num)
  have hv : S *ᵥ ![1, 0] = ![Real.sqrt 5 * 2, Real.sqrt 5 * g] := by
    rw [hr]; ext i; fin_cases i <;> simp [mulVec, dot2]
  have hvv : (S *ᵥ ![1, 0]) ⬝ᵥ (S *ᵥ ![1, 0]) = 25 := by
    rw [hv, dot2]
    simp only [cons_val_zero, cons_val_one]
    linear_combination (4 + g ^ 2) * h5 + 5 * hg
  have s25 : Real.sqrt 25 = 5 := by rw [show (25 : ℝ) = 5 ^ 2 by norm_num, Real.sqrt_sq (by norm_num)]
  have hdl : dir (![1, 0] : Fin 2 → ℝ) = ![1, 0] := by
    rw [dir, dot2]; simp
  refine ⟨hvv, hdl, ?_⟩
  rw [hdl, dir, hvv, s25, hv, smul_dotProduct, dot2]
  simp only [cons_val_zero, cons_val_one, smul_eq_mul]
  ring

private theorem tilt_apart {g : ℝ} (hg : g ^ 2 = 1) {S : Matrix (Fin 2) (Fin 2) ℝ} (hS : IsPSD S)
    (hSS : S * S = !![25, 20 * g; 20 * g, 25]) : Apart (S *ᵥ ![1, 0]) ![1, 0] := by
  have h5 : Real.sqrt 5 * Real.sqrt 5 = 5 := Real.mul_self_sqrt (by norm_num)
  right
  rw [sinSq, (tilt_image hg hS hSS).2.2, show (Real.sqrt 5 * 2 / 5) ^ 2 = 4 / 25 * (Real.sqrt 5 * Real.sqrt 5) by ring, h5]
  norm_num

/-- The turned root of a tilted ellipse in the direction `(1, 0)`. -/
private theorem tilt_turned {g : ℝ} (hg : g ^ 2 = 1) {S O : Matrix (Fin 2) (Fin 2) ℝ} (hS : IsPSD S)
    (hSS : S * S = !![25, 20 * g; 20 * g, 25]) (hO : orthTransl (S *ᵥ ![1, 0]) ![1, 0] = .ok O) : O * S = !![5, 4 * g; 0, 3] := by
  have hr := tilt_root hg hS hSS
  have h5 : Real.sqrt 5 * Real.sqrt 5 = 5 := Real.mul_self_sqrt (by norm_num)
  have hp : 0 < Real.sqrt 5 := Real.sqrt_pos.2 (by norm_num)
  obtain ⟨hvv, hdl, hcos⟩ := tilt_image hg hS hSS
  have hv0 : S *ᵥ ![1, 0] ≠ 0 := by
    intro h; rw [h, dotProduct_zero] at hvv; norm_num at hvv
  have hl : (![1, 0] : Fin 2 → ℝ) ≠ 0 := by
    intro h
    have := congrFun h 0
    simp at this
  have s25 : Real.sqrt 25 = 5 := by rw [show (25 : ℝ) = 5 ^ 2 by norm_num, Real.sqrt_sq (by norm_num)]
  have hap := tilt_apart hg hS hSS
  have hop : dir (S *ᵥ ![1, 0]) ≠ -dir ![1, 0] := by
    intro h
    have h1 := hcos
    rw [h, neg_dotProduct, dir_dot hl] at h1
    have : 0 < Real.sqrt 5 * 2 / 5 := by positivity
    linarith
  have hdet := orthTransl_det hO hap hop
  obtain ⟨O', hO', hf⟩ := orthTransl_spec hv0 hl hap
  rw [hO] at hO'
  injection hO' with hO'
  subst hO'
  have hfirst : (O * S) *ᵥ ![1, 0] = ![5, 0] := by
    rw [← mulVec_mulVec, carry_form hv0 hf, hvv, s25, hdl]
    ext i; fin_cases i <;> simp
  have hgram : (O * S)ᵀ * (O * S) = !![25, 20 * g; 20 * g, 25] := by
    rw [transpose_mul, Matrix.mul_assoc, ← Matrix.mul_assoc Oᵀ, mul_eq_one_comm.1 hf.1, Matrix.one_mul, hS.1, hSS]
  have hdd : (O * S).det = 15 := by
    rw [det_mul, hdet, hr, det_fin_two]
    simp only [of_apply, cons_val_zero, cons_val_one, cons_val', cons_val_fin_one]
    linear_combination (4 - g ^ 2) * h5 - 5 * hg
  set T := O * S with hT
  have t0 := congrFun hfirst 0
  have t1 := congrFun hfirst 1
  simp only [mulVec, dot2, cons_val_zero, cons_val_one, mul_one, mul_zero, add_zero] at t0 t1
  have t01 := congrFun (congrFun hgram 0) 1
  simp only [mul_apply, transpose_apply, Fin.sum_univ_two, of_apply, cons_val_zero, cons_val_one, t0, t1] at t01
  rw [det_fin_two, t0, t1] at hdd
  ext i j
  fin_cases i <;> fin_cases j
  · simpa using t0
  · show T 0 1 = 4 * g
    linarith
  · simpa using t1
  · show T 1 1 = 3
    linarith

/-- The width of the sum is at least that of `diag(121, 99/2)`. -/
private theorem threeIa_width (s t : ℝ) : Real.sqrt (121 * s ^ 2 + 99 / 2 * t ^ 2) ≤ Real.sqrt (s ^ 2 + t ^ 2) +
    (Real.sqrt (25 * s ^ 2 + 40 * (s * t) + 25 * t ^ 2) + Real.sqrt (25 * s ^ 2 - 40 * (s * t) + 25 * t ^ 2)) := by
  have hA : 0 ≤ s ^ 2 + t ^ 2 := by positivity
  have hB : 0 ≤ 25 * s ^ 2 + 40 * (s * t) + 25 * t ^ 2 := by nlinarith [sq_nonneg (s + t), sq_nonneg s, sq_nonneg t]
  have hC : 0 ≤ 25 * s ^ 2 - 40 * (s * t) + 25 * t ^ 2 := by nlinarith [sq_nonneg (s - t), sq_nonneg s, sq_nonneg t]
  have a2 := Real.sq_sqrt hA
  have b2 := Real.sq_sqrt hB
  have c2 := Real.sq_sqrt hC
  have a0 := Real.sqrt_nonneg (s ^ 2 + t ^ 2)
  have b0 := Real.sqrt_nonneg (25 * s ^ 2 + 40 * (s * t) + 25 * t ^ 2)
  have c0 := Real.sqrt_nonneg (25 * s ^ 2 - 40 * (s * t) + 25 * t ^ 2)
  set a := Real.sqrt (s ^ 2 + t ^ 2)
  set b := Real.sqrt (25 * s ^ 2 + 40 * (s * t) + 25 * t ^ 2)
  set c := Real.sqrt (25 * s ^ 2 - 40 * (s * t) + 25 * t ^ 2)
  have hX := sq_nonneg s
  have hY := sq_nonneg t
  have hbc : (b * c) ^ 2 = 625 * (s ^ 2) ^ 2 - 350 * (s ^ 2 * t ^ 2) + 625 * (t ^ 2) ^ 2 := by
    rw [mul_pow, b2, c2]; ring
  refine Real.sqrt_le_iff.2 ⟨by positivity, ?_⟩
  by_cases h : 49 / 16 * t ^ 2 ≤ 11 * s ^ 2
  · have h1 : 25 * s ^ 2 - 7 * t ^ 2 ≤ b * c := by
      refine le_of_sq_le_sq ?_ (mul_nonneg b0 c0)
      rw [hbc]
      nlinarith [sq_nonneg (t ^ 2)]
    have h2 : 10 * s ^ 2 + 25 / 4 * t ^ 2 ≤ a * (b + c) := by
      refine le_of_sq_le_sq ?_ (mul_nonneg a0 (add_nonneg b0 c0))
      have h3 : 100 * s ^ 2 + 36 * t ^ 2 ≤ (b + c) ^ 2 := by nlinarith
      have h4 : (s ^ 2 + t ^ 2) * (100 * s ^ 2 + 36 * t ^ 2) ≤ (a * (b + c)) ^ 2 := by
        rw [mul_pow, a2]; exact mul_le_mul_of_nonneg_left h3 hA
      refine le_trans ?_ h4
      nlinarith [mul_nonneg (sub_nonneg.2 h) hY]
    nlinarith
  · push Not at h
    have h1 : 25 * t ^ 2 - 7 * s ^ 2 ≤ b * c := by
      refine le_of_sq_le_sq ?_ (mul_nonneg b0 c0)
      rw [hbc]
      nlinarith [sq_nonneg (s ^ 2)]
    have h2 : 6 * s ^ 2 + 10 * t ^ 2 ≤ a * (b + c) := by
      refine le_of_sq_le_sq ?_ (mul_nonneg a0 (add_nonneg b0 c0))
      have h3 : 36 * s ^ 2 + 100 * t ^ 2 ≤ (b + c) ^ 2 := by nlinarith
      have h4 : (s ^ 2 + t ^ 2) * (36 * s ^ 2 + 100 * t ^ 2) ≤ (a * (b + c)) ^ 2 := by
        rw [mul_pow, a2]; exact mul_le_mul_of_nonneg_left h3 hA
      refine le_trans ?_ h4
      nlinarith [mul_nonneg hX hY]
    nlinarith

/-- For three ellipses the approximation can be improved: there are three ellipses and a direction, and an ellipse that lies in the sum and
properly contains the ellipse returned by `minksum_ia`. -/
theorem C104_three (E : Eigh) (G : Eig) : ∃ (es : List (EllN 2)) (l : Fin 2 → ℝ) (Q Q' : Matrix (Fin 2) (Fin 2) ℝ),
    es.length = 3 ∧ (∀ e ∈ es, e.NonDeg) ∧ l ≠ 0 ∧
    minksumIa E G stdProps (es.map EllN.obj) (colMat l) = .ok (Arr.vec [⟨2, 0, Q, 1 / 10 ^ 7, 1 / 10 ^ 5, 200, 200⟩]) ∧
    IsPSD Q' ∧ Ell 0 Q' ⊆ minkSum (es.map EllN.set) ∧ Ell 0 Q ⊂ Ell 0 Q' := by
  have hc : (threeIa.map EllN.c).sum = 0 := by simp [threeIa]
  have hl : (![1, 0] : Fin 2 → ℝ) ≠ 0 := by
    intro h
    have := congrFun h 0
    simp at this
  have hdiag : ∀ a d : ℝ, 0 ≤ a → 0 ≤ d → IsPSD !![a, 0; 0, d] := by
    intro a d ha hd
    refine ⟨by ext i j; fin_cases i <;> fin_cases j <;> rfl, fun x => ?_⟩
    rw [quad2']
    nlinarith [mul_nonneg ha (sq_nonneg (x 0)), mul_nonneg hd (sq_nonneg (x 1))]
  have hQ := hdiag 121 49 (by norm_num) (by norm_num)
  have hQ' := hdiag 121 (99 / 2) (by norm_num) (by norm_num)
  refine ⟨threeIa, ![1, 0], !![121, 0; 0, 49], !![121, 0; 0, 99 / 2], rfl, threeIa_nonDeg, hl, ?_, hQ', ?_, ?_, ?_⟩
  · obtain ⟨S0, ts, hS0, hS0Q, h3, h4⟩ := minksumIa_form E G stdProps stdProps_ok two_ne_zero _ _ _ threeIa_nonDeg (colMat ![1, 0]) (fun _ => hl)
    have hone : ∀ {S : Matrix (Fin 2) (Fin 2) ℝ}, IsPSD S → S * S = !![1, 0; 0, 1] → S = 1 := by
      intro S hS hSS
      refine psd_root_unique hS ?_ (hSS.trans (by rw [Matrix.one_mul, one_fin_two]))
      rw [one_fin_two]
      exact hdiag 1 1 zero_le_one zero_le_one
    have hS01 : S0 = 1 := hone hS0 hS0Q
    rw [hS01, Matrix.one_mul] at h3
    have hcol : (fun i => (colMat ![1, 0] : Matrix (Fin 2) (Fin 1) ℝ) i 0) = ![1, 0] := rfl
    have hsum : (ts.map (fun t => t.2 0 * t.1)).sum = !![11, 0; 0, 7] := by
      cases h3 with
      | cons x1 h3 => cases h3 with
        | cons x2 h3 => cases h3 with
          | cons x3 h3 => cases h3 with
            | nil =>
              have k1 := hone x1.1 x1.2.1
              have o1 := x1.2.2 0
              have o2 := x2.2.2 0
              have o3 := x3.2.2 0
              rw [hcol] at o1 o2 o3
              have r2 := tilt_turned (g := 1) (by norm_num) x2.1 x2.2.1 o2
              have r3 := tilt_turned (g := -1) (by norm_num) x3.1 x3.2.1 o3
              rw [k1, one_mulVec] at o1
              have hs0 : sinSq (![1, 0] : Fin 2 → ℝ) ![1, 0] = 0 := by rw [sinSq, dir_dot hl]; norm_num
              rw [orthTransl_eq hl hl, hs0, Real.sqrt_zero, if_neg (not_lt.2 translTol_pos.le), dir_dot hl, planeRot_eq] at o1
              injection o1 with o1
              simp only [List.map_cons, List.map_nil, List.sum_cons, List.sum_nil, add_zero, r2, r3, k1, ← o1]
              ext i j; fin_cases i <;> fin_cases j <;> simp <;> norm_num
    have heq : minksumIa E G stdProps (threeIa.map EllN.obj) (colMat ![1, 0]) = _ := h4
    have hc' := hc
    unfold threeIa at hc'
    rw [heq, hc']
    simp only [List.ofFn_succ, List.ofFn_zero, hsum]
    rw [show (!![11, 0; 0, 7] : Matrix (Fin 2) (Fin 2) ℝ)ᵀ * !![11, 0; 0, 7] = !![121, 0; 0, 49] by
      ext i j; fin_cases i <;> fin_cases j <;> simp [mul_apply, Fin.sum_univ_two] <;> norm_num]
    rfl
  · intro x hx
    obtain ⟨hk, hcv, hm⟩ := minkSum_compact threeIa (fun e he => (threeIa_nonDeg e he).psd.2)
    refine mem_of_support hcv hk.isClosed ⟨_, hm⟩ (fun m _ => ?_)
    obtain ⟨y, hy, hym⟩ := (minkSum_support m threeIa fun e he => (threeIa_nonDeg e he).psd.2).1
    refine ⟨y, hy, ?_⟩
    have h1 := (mem_ell_sqrt hQ' x).1 hx m
    have hym' : m ⬝ᵥ y = _ := hym
    rw [hym', hc]
    refine h1.trans ?_
    simp only [threeIa, List.map_cons, List.map_nil, List.sum_cons, List.sum_nil, add_zero, quad2']
    have := threeIa_width (m 0) (m 1)
    have e1 : 1 * m 0 ^ 2 + 2 * 0 * m 0 * m 1 + 1 * m 1 ^ 2 = m 0 ^ 2 + m 1 ^ 2 := by ring
    have e2 : 25 * m 0 ^ 2 + 2 * (20 * 1) * m 0 * m 1 + 25 * m 1 ^ 2 = 25 * m 0 ^ 2 + 40 * (m 0 * m 1) + 25 * m 1 ^ 2 := by ring
    have e3 : 25 * m 0 ^ 2 + 2 * (20 * (-1)) * m 0 * m 1 + 25 * m 1 ^ 2 = 25 * m 0 ^ 2 - 40 * (m 0 * m 1) + 25 * m 1 ^ 2 := by ring
    have e4 : 121 * m 0 ^ 2 + 2 * 0 * m 0 * m 1 + 99 / 2 * m 1 ^ 2 = 121 * m 0 ^ 2 + 99 / 2 * m 1 ^ 2 := by ring
    rw [e1, e2, e3, e4]
    gcongr
  · intro x hx
    rw [mem_ell_sqrt hQ] at hx
    rw [mem_ell_sqrt hQ']
    intro m
    refine (hx m).trans ?_
    gcongr
    rw [quad2', quad2']
    nlinarith [sq_nonneg (m 1)]
  · intro hsub
    have h1 := support_le' (ell_support (c := 0) hQ' ![0, 1]) (ell_support (c := 0) hQ ![0, 1]) hsub
    rw [quad2', quad2'] at h1
    simp only [dotProduct_zero, zero_add, cons_val_zero, cons_val_one] at h1
    rw [Real.sqrt_le_sqrt_iff (by norm_num)] at h1
    norm_num at h1

/-- `C104` applies to the unit circle at `(1, 1)` and the tilted ellipse `[[25, 20], [20, 25]]` at the origin in the direction `(1, 0)`. -/
example (E : Eigh) (G : Eig) : ∃ Qs : Fin 1 → Matrix (Fin 2) (Fin 2) ℝ,
    minksumIa E G stdProps [⟨2, ![1, 1], !![1, 0; 0, 1], 1 / 10 ^ 7, 1 / 10 ^ 5, 200, 200⟩,
      ⟨2, ![0, 0], !![25, 20 * 1; 20 * 1, 25], 1 / 10 ^ 7, 1 / 10 ^ 5, 200, 200⟩] (colMat ![1, 0]) =
        .ok (Arr.vec (List.ofFn fun j => ⟨2, ![1, 1] + ![0, 0], Qs j, 1 / 10 ^ 7, 1 / 10 ^ 5, 200, 200⟩)) := by
  obtain ⟨Qs, h, -⟩ := C104 E G stdProps stdProps_ok ⟨![1, 1], !![1, 0; 0, 1], stdProps⟩ ⟨![0, 0], !![25, 20 * 1; 20 * 1, 25], stdProps⟩
    (by refine nonDeg_two _ _ stdProps_ok ?_ ?_ <;> (unfold stdProps; norm_num))
    (by refine nonDeg_two _ _ stdProps_ok ?_ ?_ <;> (unfold stdProps; norm_num)) (colMat ![1, 0]) (by
      intro j h
      have := congrFun h 0
      simp [colMat] at this) (by
      intro S S0 hS hSS hS0 hSS0 j
      have h1 : S0 = 1 := by
        refine psd_root_unique hS0 ?_ (hSS0.trans (by rw [Matrix.one_mul, one_fin_two]))
        rw [one_fin_two]
        exact psd_two (by simp)
      rw [h1, one_mulVec]
      exact tilt_apart (g := 1) (by norm_num) hS hSS)
  exact ⟨Qs, h⟩

end Ellipy.Ell
