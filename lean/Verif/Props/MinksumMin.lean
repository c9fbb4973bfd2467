import Verif.Proofs.MinksumMin

/-! Property theorems C98: the external approximation of a sum of two ellipsoids cannot be improved. -/

namespace Ellipy.Ell
open Matrix Ellipy.LA

private theorem support_le {n : ℕ} {X Y : Set (Fin n → ℝ)} {l : Fin n → ℝ} {r s : ℝ} (hX : IsSupport X l r) (hY : IsSupport Y l s)
    (h : X ⊆ Y) : r ≤ s := by
  obtain ⟨x, hx, rfl⟩ := hX.1
  exact hY.2 ⟨x, h hx, rfl⟩

/-- What inclusion between a sum and two ellipsoids means for the half widths. -/
private theorem widths {n : ℕ} (es : List (EllN n)) (hes : ∀ e ∈ es, IsPSD e.Q) {c' : Fin n → ℝ} {Q Q' : Matrix (Fin n) (Fin n) ℝ}
    (hQ : IsPSD Q) (hQ' : IsPSD Q') (h1 : minkSum (es.map EllN.set) ⊆ Ell c' Q') (h2 : Ell c' Q' ⊆ Ell (es.map EllN.c).sum Q)
    (x : Fin n → ℝ) :
    (es.map fun e => Real.sqrt (x ⬝ᵥ e.Q *ᵥ x)).sum ≤ Real.sqrt (x ⬝ᵥ Q' *ᵥ x) ∧ Real.sqrt (x ⬝ᵥ Q' *ᵥ x) ≤ Real.sqrt (x ⬝ᵥ Q *ᵥ x) ∧
      x ⬝ᵥ c' + Real.sqrt (x ⬝ᵥ Q' *ᵥ x) ≤ x ⬝ᵥ (es.map EllN.c).sum + Real.sqrt (x ⬝ᵥ Q *ᵥ x) := by
  have a1 := support_le (minkSum_support x es hes) (ell_support hQ' x) h1
  have a2 := support_le (minkSum_support (-x) es hes) (ell_support hQ' (-x)) h1
  have b1 := support_le (ell_support hQ' x) (ell_support hQ x) h2
  have b2 := support_le (ell_support hQ' (-x)) (ell_support hQ (-x)) h2
  simp only [neg_dotProduct, mulVec_neg, dotProduct_neg, neg_neg] at a2 b2
  exact ⟨by linarith, by linarith, b1⟩

/-- **C98**: for two non-degenerate ellipsoids and non-zero directions, no other ellipsoid fits between the Minkowski sum and an
approximation returned by `minksum_ea`: an ellipsoid that contains the sum and is contained in the approximation has the same centre and
the same shape matrix. -/
theorem C98 (E : Eigh) (G : Eig) (L : Lstsq) (p : PropVals) (hp : p.ok) {n k : ℕ} (hn : n ≠ 0) (a b : EllN n)
    (ha : a.NonDeg) (hb : b.NonDeg) (M : Matrix (Fin n) (Fin k) ℝ) (hM : ∀ j, (fun i => M i j) ≠ 0) :
    ∃ Qs : Fin k → Matrix (Fin n) (Fin n) ℝ,
      minksumEa E G L p [a.obj, b.obj] M =
        .ok (Arr.vec (List.ofFn fun j => ⟨n, a.c + b.c, Qs j, p.absTol, p.relTol, p.n2d, p.n3d⟩)) ∧
      ∀ j (c' : Fin n → ℝ) (Q' : Matrix (Fin n) (Fin n) ℝ), IsPSD Q' → minkSum [a.set, b.set] ⊆ Ell c' Q' →
        Ell c' Q' ⊆ Ell (a.c + b.c) (Qs j) → c' = a.c + b.c ∧ Q' = Qs j := by
  have hes : ∀ e ∈ [a, b], e.NonDeg := by
    intro e he
    rcases List.mem_cons.1 he with rfl | he
    · exact ha
    · rw [List.mem_singleton] at he; subst he; exact hb
  have hc : ([a, b].map EllN.c).sum = a.c + b.c := by simp
  refine ⟨fun j => eaShape [a, b] (fun i => M i j), ?_, fun j c' Q' hQ' h1 h2 => ?_⟩
  · rw [← hc]
    exact minksumEa_eq E G L p hp hn [a, b] (by simp) hes M hM
  · set l := fun i => M i j with hl
    set Q := eaShape [a, b] l with hQdef
    have hQ : IsPSD Q := (eaDir_eq E G L hp hn (hM j) [a, b] hes 0).2
    have hA := ha.psd.2
    have hB := hb.psd.2
    have hal := ha.pos (hM j)
    have hbl := hb.pos (hM j)
    rw [← hc] at h2
    have hw := widths [a, b] (fun e he => (hes e he).psd.2) hQ hQ' h1 h2
    simp only [List.map_cons, List.map_nil, List.sum_cons, List.sum_nil, add_zero] at hw
    have hsq : ∀ x : Fin n → ℝ, x ⬝ᵥ Q' *ᵥ x ≤ x ⬝ᵥ Q *ᵥ x := fun x => (Real.sqrt_le_sqrt_iff (hQ.2 x)).1 (hw x).2.1
    have hD : IsPSD (Q - Q') := by
      refine ⟨by rw [transpose_sub, hQ.1, hQ'.1], fun x => ?_⟩
      rw [sub_mulVec, dotProduct_sub]
      linarith [hsq x]
    have hzero : Q - Q' = 0 := by
      refine gap_zero hA hB hD hal hbl fun x => ?_
      have hp0 := Real.sqrt_pos.2 hal
      have hq0 := Real.sqrt_pos.2 hbl
      have hquad : x ⬝ᵥ Q *ᵥ x = (Real.sqrt (l ⬝ᵥ a.Q *ᵥ l) + Real.sqrt (l ⬝ᵥ b.Q *ᵥ l)) *
          (1 / Real.sqrt (l ⬝ᵥ a.Q *ᵥ l) * (x ⬝ᵥ a.Q *ᵥ x) + 1 / Real.sqrt (l ⬝ᵥ b.Q *ᵥ l) * (x ⬝ᵥ b.Q *ᵥ x)) := by
        rw [hQdef, eaShape]
        simp only [List.map_cons, List.map_nil, List.sum_cons, List.sum_nil, add_zero, smul_mulVec, add_mulVec, dotProduct_smul,
          dotProduct_add, smul_eq_mul]
      have hlow : (Real.sqrt (x ⬝ᵥ a.Q *ᵥ x) + Real.sqrt (x ⬝ᵥ b.Q *ᵥ x)) ^ 2 ≤ x ⬝ᵥ Q' *ᵥ x := by
        rw [← Real.sq_sqrt (hQ'.2 x)]
        exact pow_le_pow_left₀ (add_nonneg (Real.sqrt_nonneg _) (Real.sqrt_nonneg _)) (hw x).1 2
      rw [sub_mulVec, dotProduct_sub, hquad]
      have ea := Real.sq_sqrt (hA.2 x)
      have eb := Real.sq_sqrt (hB.2 x)
      rw [← ea, ← eb, Real.sqrt_sq (Real.sqrt_nonneg _), Real.sqrt_sq (Real.sqrt_nonneg _)]
      generalize Real.sqrt (x ⬝ᵥ a.Q *ᵥ x) = s at *
      generalize Real.sqrt (x ⬝ᵥ b.Q *ᵥ x) = t at *
      generalize Real.sqrt (l ⬝ᵥ a.Q *ᵥ l) = u at *
      generalize Real.sqrt (l ⬝ᵥ b.Q *ᵥ l) = v at *
      have huv : 0 < u * v := mul_pos hp0 hq0
      have h3 : u * v * ((u + v) * (1 / u * s ^ 2 + 1 / v * t ^ 2)) = (u + v) * (v * s ^ 2 + u * t ^ 2) := by
        field_simp
      have h4 := mul_le_mul_of_nonneg_left hlow huv.le
      rw [mul_sub, h3]
      nlinarith [h4]
    have hQQ : Q' = Q := (sub_eq_zero.1 hzero).symm
    refine ⟨?_, hQQ⟩
    have hle : ∀ x : Fin n → ℝ, x ⬝ᵥ (c' - (a.c + b.c)) ≤ 0 := by
      intro x
      have := (hw x).2.2
      rw [hQQ] at this
      rw [dotProduct_sub]
      linarith
    have := hle (c' - (a.c + b.c))
    by_contra hne
    exact absurd (dot_self_pos (sub_ne_zero.2 hne)) (not_lt.2 this)

/-! ### Three ellipses -/

/-- `diag(1, 4)`, and two tilted ellipses. -/
noncomputable def three : List (EllN 2) :=
  [⟨0, !![1, 0; 0, 4], stdProps⟩, ⟨0, !![1, 1 / 2; 1 / 2, 1], stdProps⟩, ⟨0, !![1, -(1 / 2); -(1 / 2), 1], stdProps⟩]

theorem three_nonDeg : ∀ e ∈ three, e.NonDeg := by
  intro e he
  simp only [three, List.mem_cons, List.not_mem_nil, or_false] at he
  rcases he with rfl | rfl | rfl
  · refine ⟨stdProps_ok, by ext i j; fin_cases i <;> fin_cases j <;> rfl, fun x hx => ?_⟩
    have h0 := dot_self_pos hx
    simp only [dotProduct, mulVec, Fin.sum_univ_two, of_apply, cons_val_zero, cons_val_one, stdProps] at h0 ⊢
    have := mul_self_nonneg (x 0)
    have := mul_self_nonneg (x 1)
    nlinarith
  · refine nonDeg_two _ _ stdProps_ok ?_ ?_ <;> (unfold stdProps; norm_num)
  · refine nonDeg_two _ _ stdProps_ok ?_ ?_ <;> (unfold stdProps; norm_num)

private theorem quad2 (a b d : ℝ) (x : Fin 2 → ℝ) : x ⬝ᵥ !![a, b; b, d] *ᵥ x = a * x 0 ^ 2 + 2 * b * x 0 * x 1 + d * x 1 ^ 2 := by
  simp only [dotProduct, mulVec, Fin.sum_univ_two, of_apply, cons_val_zero, cons_val_one]; ring

private theorem three_shape : eaShape three ![1, 0] = !![9, 0; 0, 18] := by
  unfold eaShape three
  simp only [List.map_cons, List.map_nil, List.sum_cons, List.sum_nil, add_zero, quad2, cons_val_zero, cons_val_one]
  norm_num

/-- The width of the sum is at most that of `diag(9, 141/8)`. -/
private theorem three_width (s t : ℝ) : Real.sqrt (s ^ 2 + 4 * t ^ 2) + (Real.sqrt (s ^ 2 + s * t + t ^ 2) + Real.sqrt (s ^ 2 - s * t + t ^ 2)) ≤
    Real.sqrt (9 * s ^ 2 + 141 / 8 * t ^ 2) := by
  have hA : 0 ≤ s ^ 2 + 4 * t ^ 2 := by positivity
  have hB : 0 ≤ s ^ 2 + s * t + t ^ 2 := by nlinarith [sq_nonneg (s + t), sq_nonneg s, sq_nonneg t]
  have hC : 0 ≤ s ^ 2 - s * t + t ^ 2 := by nlinarith [sq_nonneg (s - t), sq_nonneg s, sq_nonneg t]
  apply Real.le_sqrt_of_sq_le
  have a2 := Real.sq_sqrt hA
  have b2 := Real.sq_sqrt hB
  have c2 := Real.sq_sqrt hC
  set a := Real.sqrt (s ^ 2 + 4 * t ^ 2)
  set b := Real.sqrt (s ^ 2 + s * t + t ^ 2)
  set c := Real.sqrt (s ^ 2 - s * t + t ^ 2)
  by_cases h : 5 / 16 * t ^ 2 ≤ s ^ 2
  · have hbc : b * c ≤ s ^ 2 + 7 / 8 * t ^ 2 := by
      apply le_of_sq_le_sq _ (by positivity)
      rw [mul_pow, b2, c2]
      nlinarith [mul_nonneg (sub_nonneg.2 h) (sq_nonneg t)]
    nlinarith [sq_nonneg (2 * a - (b + c))]
  · push Not at h
    nlinarith [sq_nonneg (a - (b + c)), sq_nonneg (b - c)]

/-- For three ellipsoids the approximation can be improved: there are three ellipses and a direction, and an ellipse that contains the sum
and lies properly in the ellipse returned by `minksum_ea`. -/
theorem C98_three (E : Eigh) (G : Eig) (L : Lstsq) : ∃ (es : List (EllN 2)) (l : Fin 2 → ℝ) (Q Q' : Matrix (Fin 2) (Fin 2) ℝ),
    es.length = 3 ∧ (∀ e ∈ es, e.NonDeg) ∧ l ≠ 0 ∧
    minksumEa E G L stdProps (es.map EllN.obj) (colMat l) = .ok (Arr.vec [⟨2, 0, Q, 1 / 10 ^ 7, 1 / 10 ^ 5, 200, 200⟩]) ∧
    IsPSD Q' ∧ minkSum (es.map EllN.set) ⊆ Ell 0 Q' ∧ Ell 0 Q' ⊂ Ell 0 Q := by
  have hc : (three.map EllN.c).sum = 0 := by simp [three]
  have hl : (![1, 0] : Fin 2 → ℝ) ≠ 0 := by
    intro h
    have := congrFun h 0
    simp at this
  have hdiag : ∀ a d : ℝ, 0 ≤ a → 0 ≤ d → IsPSD !![a, 0; 0, d] := by
    intro a d ha hd
    refine ⟨by ext i j; fin_cases i <;> fin_cases j <;> rfl, fun x => ?_⟩
    rw [quad2]
    nlinarith [mul_nonneg ha (sq_nonneg (x 0)), mul_nonneg hd (sq_nonneg (x 1))]
  have hQ := hdiag 9 18 (by norm_num) (by norm_num)
  have hQ' := hdiag 9 (141 / 8) (by norm_num) (by norm_num)
  refine ⟨three, ![1, 0], !![9, 0; 0, 18], !![9, 0; 0, 141 / 8], rfl, three_nonDeg, hl, ?_, hQ', ?_, ?_, ?_⟩
  · have := minksumEa_eq E G L stdProps stdProps_ok two_ne_zero three (by simp [three]) three_nonDeg (colMat ![1, 0]) (fun _ => hl)
    rw [this, hc, ← three_shape]
    rfl
  · intro x hx
    rw [mem_ell_sqrt hQ']
    intro m
    have h1 := (minkSum_support m three fun e he => (three_nonDeg e he).psd.2).2 ⟨x, hx, rfl⟩
    rw [hc] at h1
    refine h1.trans ?_
    simp only [three, List.map_cons, List.map_nil, List.sum_cons, List.sum_nil, add_zero, quad2]
    have := three_width (m 0) (m 1)
    have e1 : 1 * m 0 ^ 2 + 2 * 0 * m 0 * m 1 + 4 * m 1 ^ 2 = m 0 ^ 2 + 4 * m 1 ^ 2 := by ring
    have e2 : 1 * m 0 ^ 2 + 2 * (1 / 2) * m 0 * m 1 + 1 * m 1 ^ 2 = m 0 ^ 2 + m 0 * m 1 + m 1 ^ 2 := by ring
    have e3 : 1 * m 0 ^ 2 + 2 * -(1 / 2) * m 0 * m 1 + 1 * m 1 ^ 2 = m 0 ^ 2 - m 0 * m 1 + m 1 ^ 2 := by ring
    have e4 : 9 * m 0 ^ 2 + 2 * 0 * m 0 * m 1 + 141 / 8 * m 1 ^ 2 = 9 * m 0 ^ 2 + 141 / 8 * m 1 ^ 2 := by ring
    rw [e1, e2, e3, e4]
    gcongr
  · intro x hx
    rw [mem_ell_sqrt hQ'] at hx
    rw [mem_ell_sqrt hQ]
    intro m
    refine (hx m).trans ?_
    gcongr
    rw [quad2, quad2]
    nlinarith [sq_nonneg (m 1)]
  · intro hsub
    have h1 := support_le (ell_support (c := 0) hQ ![0, 1]) (ell_support (c := 0) hQ' ![0, 1]) hsub
    rw [quad2, quad2] at h1
    simp only [dotProduct_zero, zero_add, cons_val_zero, cons_val_one] at h1
    rw [Real.sqrt_le_sqrt_iff (by norm_num)] at h1
    norm_num at h1

/-- `C98` applies to the ellipse with the tilted matrix `[[2, 1], [1, 2]]` at the origin and the unit circle at `(1, 1)`. -/
example (E : Eigh) (G : Eig) (L : Lstsq) : ∃ Qs : Fin 1 → Matrix (Fin 2) (Fin 2) ℝ,
    minksumEa E G L stdProps [⟨2, ![0, 0], !![2, 1; 1, 2], 1 / 10 ^ 7, 1 / 10 ^ 5, 200, 200⟩,
      ⟨2, ![1, 1], !![1, 0; 0, 1], 1 / 10 ^ 7, 1 / 10 ^ 5, 200, 200⟩] (colMat ![1, 2]) =
        .ok (Arr.vec (List.ofFn fun j => ⟨2, ![0, 0] + ![1, 1], Qs j, 1 / 10 ^ 7, 1 / 10 ^ 5, 200, 200⟩)) := by
  obtain ⟨Qs, h, -⟩ := C98 E G L stdProps stdProps_ok two_ne_zero ⟨![0, 0], !![2, 1; 1, 2], stdProps⟩ ⟨![1, 1], !![1, 0; 0, 1], stdProps⟩
    (by refine nonDeg_two _ _ stdProps_ok ?_ ?_ <;> (unfold stdProps; norm_num))
    (by refine nonDeg_two _ _ stdProps_ok ?_ ?_ <;> (unfold stdProps; norm_num)) (colMat ![1, 2]) (by
      intro j h
      have := congrFun h 0
      simp [colMat] at this)
  exact ⟨Qs, h⟩

end Ellipy.Ell
