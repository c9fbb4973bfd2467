import Verif.Props.CalcDiff

/-! Property theorems C155 (`_calc_diff_one_dir`): the points in closed form and laws across calls. -/

namespace Ellipy.Ell
open Matrix Ellipy.LA

/-- The outermost point of the ellipsoid with the shape matrix `Q` and the centre zero in the direction `l`. -/
noncomputable def rim {n : ℕ} (Q : Matrix (Fin n) (Fin n) ℝ) (l : Fin n → ℝ) : Fin n → ℝ := (1 / Real.sqrt (l ⬝ᵥ Q *ᵥ l)) • Q *ᵥ l

/-- Both ellipsoids have a positive width in all directions. -/
def BothWide {n k : ℕ} (e1 e2 : EllN n) (L : Fin k → Fin n → ℝ) : Prop := ∀ j, 0 < L j ⬝ᵥ e1.Q *ᵥ L j ∧ 0 < L j ⬝ᵥ e2.Q *ᵥ L j

/-- What the function returns. -/
def Returns {n k : ℕ} (e1 e2 : EllN n) (L : Fin k → Fin n → ℝ) (xs : Fin k → Fin n → ℝ) (flag : Bool) : Prop :=
  calcDiffOneDir e1.obj e2.obj L (List.replicate k true) = .ok (List.ofFn (fun j i => .fin (xs j i)), flag)

/-- **C155**, closed form: for directions in which both ellipsoids have positive width the point is the difference of the centres plus the difference of
the outermost points of the centred ellipsoids, or without the latter if all its coordinates are below `10⁻¹⁴`. -/
theorem C155_value {n k : ℕ} (e1 e2 : EllN n) (h1 : e1.PSD) (h2 : e2.PSD) (L : Fin k → Fin n → ℝ) (hw : BothWide e1 e2 L) :
    ∃ xs flag, Returns e1 e2 L xs flag ∧
      (∀ j, ((∀ i, |rim e1.Q (L j) i - rim e2.Q (L j) i| < 1e-14) → xs j = e1.c - e2.c) ∧
        ((∃ i, 1e-14 ≤ |rim e1.Q (L j) i - rim e2.Q (L j) i|) → xs j = e1.c - e2.c + (rim e1.Q (L j) - rim e2.Q (L j)))) ∧
      (flag = true ↔ n = 3 ∧ ∀ j i, |rim e1.Q (L j) i - rim e2.Q (L j) i| < 1e-14) := by
  obtain ⟨xs, flag, h, hj, hf⟩ := C86_partial e1 e2 h1 h2 L
  have key : ∀ j, ((∀ i, |rim e1.Q (L j) i - rim e2.Q (L j) i| < 1e-14) ∧ xs j = e1.c - e2.c) ∨
      ((∃ i, 1e-14 ≤ |rim e1.Q (L j) i - rim e2.Q (L j) i|) ∧ xs j = e1.c - e2.c + (rim e1.Q (L j) - rim e2.Q (L j))) := by
    intro j
    obtain ⟨r1, r2, s1, s2, -, -, -, y1, hy1, y2, hy2, d1, d2, hc⟩ := hj j
    have k1 := support_unique h1.2 (hw j).1 hy1 (d1.trans (support_eq s1 (ell_support h1.2 (L j))))
    have k2 := support_unique h2.2 (hw j).2 hy2 (d2.trans (support_eq s2 (ell_support h2.2 (L j))))
    have e : ∀ i, y1 i - y2 i - (e1.c i - e2.c i) = rim e1.Q (L j) i - rim e2.Q (L j) i := by
      intro i
      rw [k1, k2]
      simp only [rim, Pi.add_apply]
      ring
    simp only [e] at hc
    rcases hc with ⟨ha, hb⟩ | ⟨ha, hb⟩
    · exact Or.inl ⟨ha, hb⟩
    · refine Or.inr ⟨ha, ?_⟩
      rw [hb]
      funext i
      have := e i
      simp only [Pi.sub_apply, Pi.add_apply]
      linarith
  refine ⟨xs, flag, h, fun j => ⟨fun hn => ?_, fun ⟨i, hi⟩ => ?_⟩, ?_⟩
  · rcases key j with hk | hk
    · exact hk.2
    · obtain ⟨⟨i, hi⟩, -⟩ := hk
      exact absurd (hn i) (not_lt.mpr hi)
  · rcases key j with hk | hk
    · exact absurd (hk.1 i) (not_lt.mpr hi)
    · exact hk.2
  · rw [hf]
    refine and_congr_right fun _ => ⟨fun h j i => ?_, fun h j => ?_⟩
    · rcases key j with hk | hk
      · exact hk.1 i
      · have hx := hk.2
        rw [h j] at hx
        have := congrFun hx i
        simp only [Pi.sub_apply, Pi.add_apply] at this
        rw [show rim e1.Q (L j) i - rim e2.Q (L j) i = 0 by linarith, abs_zero]
        norm_num
    · rcases key j with hk | hk
      · exact hk.2
      · obtain ⟨⟨i, hi⟩, -⟩ := hk
        exact absurd (h j i) (not_lt.mpr hi)

/-- The points of two calls with the same outermost points, up to a common sign. -/
private theorem two_calls {n k k' : ℕ} {e1 e2 e1' e2' : EllN n} (h1 : e1.PSD) (h2 : e2.PSD) (h1' : e1'.PSD) (h2' : e2'.PSD)
    {L : Fin k → Fin n → ℝ} {L' : Fin k' → Fin n → ℝ} (hw : BothWide e1 e2 L) (hw' : BothWide e1' e2' L') (σ : ℝ) (hσ : σ = 1 ∨ σ = -1) (g : Fin k' → Fin k)
    (hr : ∀ j i, rim e1'.Q (L' j) i - rim e2'.Q (L' j) i = σ * (rim e1.Q (L (g j)) i - rim e2.Q (L (g j)) i)) :
    ∃ xs xs' flag flag', Returns e1 e2 L xs flag ∧ Returns e1' e2' L' xs' flag' ∧
      (∀ j, xs' j = e1'.c - e2'.c + σ • (xs (g j) - (e1.c - e2.c))) ∧ (Function.Surjective g → (flag' = true ↔ flag = true)) := by
  obtain ⟨xs, flag, a1, a2, a3⟩ := C155_value e1 e2 h1 h2 L hw
  obtain ⟨xs', flag', b1, b2, b3⟩ := C155_value e1' e2' h1' h2' L' hw'
  have habs : ∀ j i, |rim e1'.Q (L' j) i - rim e2'.Q (L' j) i| = |rim e1.Q (L (g j)) i - rim e2.Q (L (g j)) i| := by
    intro j i
    rw [hr, abs_mul]
    rcases hσ with rfl | rfl <;> simp
  refine ⟨xs, xs', flag, flag', a1, b1, fun j => ?_, fun hg => ?_⟩
  · by_cases hn : ∀ i, |rim e1.Q (L (g j)) i - rim e2.Q (L (g j)) i| < 1e-14
    · rw [(a2 (g j)).1 hn, (b2 j).1 (fun i => by rw [habs]; exact hn i), sub_self, smul_zero, add_zero]
    · push Not at hn
      obtain ⟨i, hi⟩ := hn
      rw [(a2 (g j)).2 ⟨i, hi⟩, (b2 j).2 ⟨i, by rw [habs]; exact hi⟩]
      funext t
      simp only [Pi.add_apply, Pi.sub_apply, Pi.smul_apply, smul_eq_mul, hr]
      ring
  · rw [a3, b3]
    simp only [habs]
    refine and_congr_right fun _ => ⟨fun h j i => ?_, fun h j i => h (g j) i⟩
    obtain ⟨j', rfl⟩ := hg j
    exact h j' i

private theorem bool_eq {a b : Bool} (h : a = true ↔ b = true) : a = b := by cases a <;> cases b <;> simp_all

/-- **C155**, moving: moving the ellipsoids by `d1` and `d2` moves all points by `d1 - d2` and keeps the flag. -/
theorem C155_move {n k : ℕ} (e1 e2 : EllN n) (h1 : e1.PSD) (h2 : e2.PSD) (L : Fin k → Fin n → ℝ) (hw : BothWide e1 e2 L) (d1 d2 : Fin n → ℝ) :
    ∃ xs flag, Returns e1 e2 L xs flag ∧ Returns ⟨e1.c + d1, e1.Q, e1.props⟩ ⟨e2.c + d2, e2.Q, e2.props⟩ L (fun j => xs j + (d1 - d2)) flag := by
  obtain ⟨xs, xs', flag, flag', a, b, hx, hf⟩ := two_calls (e1' := ⟨e1.c + d1, e1.Q, e1.props⟩) (e2' := ⟨e2.c + d2, e2.Q, e2.props⟩) h1 h2 h1 h2 hw
    hw 1 (Or.inl rfl) id (fun j i => by simp)
  have hfl := bool_eq (hf Function.surjective_id)
  subst hfl
  refine ⟨xs, flag', a, ?_⟩
  have : xs' = fun j => xs j + (d1 - d2) := by
    funext j
    rw [hx j, one_smul]
    simp only [id]
    abel
  rw [← this]
  exact b

/-- **C155**, directions: the lengths of the directions do not matter. -/
theorem C155_lengths {n k : ℕ} (e1 e2 : EllN n) (h1 : e1.PSD) (h2 : e2.PSD) (L : Fin k → Fin n → ℝ) (hw : BothWide e1 e2 L) (t : Fin k → ℝ)
    (ht : ∀ j, 0 < t j) : ∃ xs flag, Returns e1 e2 L xs flag ∧ Returns e1 e2 (fun j => t j • L j) xs flag := by
  have hq : ∀ (Q : Matrix (Fin n) (Fin n) ℝ) j, (t j • L j) ⬝ᵥ Q *ᵥ (t j • L j) = t j ^ 2 * (L j ⬝ᵥ Q *ᵥ L j) := by
    intro Q j
    rw [mulVec_smul, dotProduct_smul, smul_dotProduct]
    simp only [smul_eq_mul]
    ring
  have hrim : ∀ (Q : Matrix (Fin n) (Fin n) ℝ) j, rim Q (t j • L j) = rim Q (L j) := by
    intro Q j
    have hs : Real.sqrt (t j ^ 2 * (L j ⬝ᵥ Q *ᵥ L j)) = t j * Real.sqrt (L j ⬝ᵥ Q *ᵥ L j) := by
      rw [Real.sqrt_mul (sq_nonneg _), Real.sqrt_sq (ht j).le]
    unfold rim
    rw [hq, hs, mulVec_smul, smul_smul, one_div, one_div, mul_inv, mul_right_comm, inv_mul_cancel₀ (ht j).ne', one_mul]
  obtain ⟨xs, xs', flag, flag', a, b, hx, hf⟩ := two_calls h1 h2 h1 h2 hw (L' := fun j => t j • L j)
    (fun j => ⟨by rw [hq]; exact mul_pos (pow_pos (ht j) 2) (hw j).1, by rw [hq]; exact mul_pos (pow_pos (ht j) 2) (hw j).2⟩) 1 (Or.inl rfl) id
    (fun j i => by simp [hrim])
  have hfl := bool_eq (hf Function.surjective_id)
  subst hfl
  have : xs' = xs := by
    funext j
    rw [hx j, one_smul]
    simp only [id]
    abel
  rw [this] at b
  exact ⟨xs, flag', a, b⟩

/-- **C155**, opposite directions: the points are mirrored at the difference of the centres. -/
theorem C155_opposite {n k : ℕ} (e1 e2 : EllN n) (h1 : e1.PSD) (h2 : e2.PSD) (L : Fin k → Fin n → ℝ) (hw : BothWide e1 e2 L) :
    ∃ xs flag, Returns e1 e2 L xs flag ∧ Returns e1 e2 (fun j => -L j) (fun j => (2 : ℝ) • (e1.c - e2.c) - xs j) flag := by
  have hq : ∀ (Q : Matrix (Fin n) (Fin n) ℝ) j, (-L j) ⬝ᵥ Q *ᵥ (-L j) = L j ⬝ᵥ Q *ᵥ L j := by
    intro Q j
    rw [mulVec_neg, dotProduct_neg, neg_dotProduct, neg_neg]
  have hrim : ∀ (Q : Matrix (Fin n) (Fin n) ℝ) j, rim Q (-L j) = -rim Q (L j) := by
    intro Q j
    unfold rim
    rw [hq, mulVec_neg, smul_neg]
  obtain ⟨xs, xs', flag, flag', a, b, hx, hf⟩ := two_calls h1 h2 h1 h2 hw (L' := fun j => -L j)
    (fun j => ⟨by rw [hq]; exact (hw j).1, by rw [hq]; exact (hw j).2⟩) (-1) (Or.inr rfl) id
    (fun j i => by simp only [hrim, Pi.neg_apply, id]; ring)
  have hfl := bool_eq (hf Function.surjective_id)
  subst hfl
  have : xs' = fun j => (2 : ℝ) • (e1.c - e2.c) - xs j := by
    funext j
    rw [hx j, two_smul, neg_one_smul]
    simp only [id]
    abel
  rw [this] at b
  exact ⟨xs, flag', a, b⟩

/-- **C155**, exchange: exchanging the ellipsoids changes the signs of the points. -/
theorem C155_exchange {n k : ℕ} (e1 e2 : EllN n) (h1 : e1.PSD) (h2 : e2.PSD) (L : Fin k → Fin n → ℝ) (hw : BothWide e1 e2 L) :
    ∃ xs flag, Returns e1 e2 L xs flag ∧ Returns e2 e1 L (fun j => -xs j) flag := by
  obtain ⟨xs, xs', flag, flag', a, b, hx, hf⟩ := two_calls h1 h2 h2 h1 hw (L' := L) (fun j => ⟨(hw j).2, (hw j).1⟩) (-1) (Or.inr rfl) id
    (fun j i => by simp only [id]; ring)
  have hfl := bool_eq (hf Function.surjective_id)
  subst hfl
  have : xs' = fun j => -xs j := by
    funext j
    rw [hx j, neg_one_smul]
    simp only [id]
    abel
  rw [this] at b
  exact ⟨xs, flag', a, b⟩

/-- **C155**, selections: the point of a direction does not depend on the other directions; a choice of the directions gives the choice of the points,
and the same flag if no direction is left out. -/
theorem C155_select {n k k' : ℕ} (e1 e2 : EllN n) (h1 : e1.PSD) (h2 : e2.PSD) (L : Fin k → Fin n → ℝ) (hw : BothWide e1 e2 L) (g : Fin k' → Fin k) :
    ∃ xs flag flag', Returns e1 e2 L xs flag ∧ Returns e1 e2 (fun j => L (g j)) (fun j => xs (g j)) flag' ∧ (flag = true → flag' = true) ∧
      (Function.Surjective g → flag' = flag) := by
  obtain ⟨xs, xs', flag, flag', a, b, hx, hf⟩ := two_calls h1 h2 h1 h2 hw (L' := fun j => L (g j)) (fun j => hw (g j)) 1 (Or.inl rfl) g
    (fun j i => by rw [one_mul])
  have : xs' = fun j => xs (g j) := by
    funext j
    rw [hx j, one_smul]
    abel
  rw [this] at b
  refine ⟨xs, flag, flag', a, b, fun h => ?_, fun hg => bool_eq (hf hg)⟩
  obtain ⟨ys, fl, c1, -, c3⟩ := C155_value e1 e2 h1 h2 L hw
  obtain ⟨zs, fl', d1, -, d3⟩ := C155_value e1 e2 h1 h2 (fun j => L (g j)) (fun j => hw (g j))
  have e1' : flag = fl := by have := a.symm.trans c1; simp only [Except.ok.injEq, Prod.mk.injEq] at this; exact this.2
  have e2' : flag' = fl' := by have := b.symm.trans d1; simp only [Except.ok.injEq, Prod.mk.injEq] at this; exact this.2
  rw [e1', c3] at h
  rw [e2', d3]
  exact ⟨h.1, fun j i => h.2 (g j) i⟩

/-- **C155**, equal shapes: for ellipsoids with the same shape matrix every point is the difference of the centres. -/
theorem C155_same_shape {n k : ℕ} (e1 e2 : EllN n) (h1 : e1.PSD) (h2 : e2.PSD) (hQ : e1.Q = e2.Q) (L : Fin k → Fin n → ℝ) (hw : BothWide e1 e2 L) :
    Returns e1 e2 L (fun _ => e1.c - e2.c) (decide (n = 3)) := by
  obtain ⟨xs, flag, a, hx, hf⟩ := C155_value e1 e2 h1 h2 L hw
  have hz : ∀ j i, |rim e1.Q (L j) i - rim e2.Q (L j) i| < 1e-14 := by
    intro j i
    rw [hQ, sub_self, abs_zero]
    norm_num
  have e : xs = fun _ => e1.c - e2.c := funext fun j => (hx j).1 (hz j)
  have ef : flag = decide (n = 3) := bool_eq (by rw [hf]; simp only [decide_eq_true_eq]; exact ⟨fun h => h.1, fun h => ⟨h, hz⟩⟩)
  rw [e, ef] at a
  exact a

/-! Discs of radius two and one with the centres (5, 0) and (0, 1), in the directions of the axes. -/

private noncomputable def exOne : EllN 2 := ⟨![5, 0], diagonal ![4, 4], ⟨1, 1, 1, 1⟩⟩
private noncomputable def exTwo : EllN 2 := ⟨![0, 1], diagonal ![1, 1], ⟨1, 1, 1, 1⟩⟩
private def exDirs : Fin 2 → Fin 2 → ℝ := ![![1, 0], ![0, 3]]

private theorem exOne_psd : exOne.PSD := ⟨⟨one_pos, one_pos, ⟨1, by norm_num [exOne]⟩, ⟨1, by norm_num [exOne]⟩⟩, diagonal_transpose _, fun x => by
  simp [exOne, dotProduct, mulVec_diagonal, Fin.sum_univ_two]; nlinarith [sq_nonneg (x 0), sq_nonneg (x 1)]⟩
private theorem exTwo_psd : exTwo.PSD := ⟨⟨one_pos, one_pos, ⟨1, by norm_num [exTwo]⟩, ⟨1, by norm_num [exTwo]⟩⟩, diagonal_transpose _, fun x => by
  simp [exTwo, dotProduct, mulVec_diagonal, Fin.sum_univ_two]; nlinarith [sq_nonneg (x 0), sq_nonneg (x 1)]⟩
private theorem ex_wide : BothWide exOne exTwo exDirs := by
  intro j
  fin_cases j <;> simp [exOne, exTwo, exDirs, dotProduct, mulVec_diagonal, Fin.sum_univ_two]

/-- The first point is (6, -1); exchanging the discs gives (-6, 1). -/
example : ∃ xs flag, Returns exOne exTwo exDirs xs flag ∧ Returns exTwo exOne exDirs (fun j => -xs j) flag ∧ xs 0 0 = 6 := by
  obtain ⟨xs, flag, a, b⟩ := C155_exchange exOne exTwo exOne_psd exTwo_psd exDirs ex_wide
  obtain ⟨ys, fl, c, hc, -⟩ := C155_value exOne exTwo exOne_psd exTwo_psd exDirs ex_wide
  have hy : ∀ j i, xs j i = ys j i := by
    intro j i
    have := a.symm.trans c
    simp only [Except.ok.injEq, Prod.mk.injEq] at this
    have h1 := congrFun (congrFun (List.ofFn_injective this.1) j) i
    simpa using h1
  have s4 : Real.sqrt 4 = 2 := by rw [show (4 : ℝ) = 2 ^ 2 by norm_num]; exact Real.sqrt_sq (by norm_num)
  have r1 : rim exOne.Q (exDirs 0) 0 = 2 := by
    simp [rim, exOne, exDirs, dotProduct, mulVec_diagonal, Fin.sum_univ_two, s4]
    norm_num
  have r2 : rim exTwo.Q (exDirs 0) 0 = 1 := by
    simp [rim, exTwo, exDirs, dotProduct, mulVec_diagonal, Fin.sum_univ_two]
  have h0 := (hc 0).2 ⟨0, by rw [r1, r2]; norm_num⟩
  refine ⟨xs, flag, a, b, ?_⟩
  rw [hy, h0]
  simp only [Pi.add_apply, Pi.sub_apply, r1, r2]
  simp [exOne, exTwo]
  norm_num

end Ellipy.Ell
