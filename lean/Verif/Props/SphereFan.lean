import Verif.Proofs.SphereFan
import Verif.Props.SphereTri

/-! Property theorem C56 (`sphere_tri`), continued: the triangles cover the sphere without overlapping, and the triangulation is symmetric
about the origin. -/

namespace Ellipy.Tri

/-! ### The inner products of the vertices of the icosahedron -/

/-- The inner product. -/
def dot3 (a b : Fin 3 → ℝ) : ℝ := a 0 * b 0 + a 1 * b 1 + a 2 * b 2

theorem dot3_comm (a b : Fin 3 → ℝ) : dot3 a b = dot3 b a := by unfold dot3; ring

/-- Four times the cosine of `d` times 36 degrees is `A + B √5`. -/
def cosTab : ℕ → ℤ × ℤ
  | 0 => (4, 0)
  | 1 => (1, 1)
  | 2 => (-1, 1)
  | 3 => (1, -1)
  | 4 => (-1, -1)
  | 5 => (-4, 0)
  | 6 => (-1, -1)
  | 7 => (1, -1)
  | 8 => (-1, 1)
  | _ => (1, 1)

theorem cos_tab (d : ℕ) (hd : d < 10) : Real.cos (d * (Real.pi / 5)) = ((cosTab d).1 + (cosTab d).2 * Real.sqrt 5) / 4 := by
  have h1 := Real.cos_pi_div_five
  have h5 : Real.sqrt 5 * Real.sqrt 5 = 5 := Real.mul_self_sqrt (by norm_num)
  have h2 : Real.cos (2 * (Real.pi / 5)) = (-1 + Real.sqrt 5) / 4 := by rw [Real.cos_two_mul, h1]; nlinarith
  have refl : ∀ x y : ℝ, x + y = 5 → Real.cos (x * (Real.pi / 5)) = - Real.cos (y * (Real.pi / 5)) := by
    intro x y hxy
    rw [← Real.cos_pi_sub]; congr 1
    have : x = 5 - y := by linarith
    rw [this]; ring
  have refl2 : ∀ x y : ℝ, x + y = 10 → Real.cos (x * (Real.pi / 5)) = Real.cos (y * (Real.pi / 5)) := by
    intro x y hxy
    rw [← Real.cos_two_pi_sub]; congr 1
    have : x = 10 - y := by linarith
    rw [this]; ring
  have c3 : Real.cos (3 * (Real.pi / 5)) = (1 - Real.sqrt 5) / 4 := by rw [refl 3 2 (by norm_num), h2]; ring
  have c4 : Real.cos (4 * (Real.pi / 5)) = (-1 - Real.sqrt 5) / 4 := by rw [refl 4 1 (by norm_num), one_mul, h1]; ring
  interval_cases d <;> simp only [cosTab, Nat.cast_ofNat, Nat.cast_one, Nat.cast_zero, zero_mul, one_mul, Real.cos_zero] <;> push_cast
  · norm_num
  · rw [h1]; ring
  · rw [h2]; ring
  · rw [c3]; ring
  · rw [c4]; ring
  · rw [show (5 : ℝ) * (Real.pi / 5) = Real.pi by ring, Real.cos_pi]; norm_num
  · rw [refl2 6 4 (by norm_num), c4]; ring
  · rw [refl2 7 3 (by norm_num), c3]; ring
  · rw [refl2 8 2 (by norm_num), h2]; ring
  · rw [refl2 9 1 (by norm_num), one_mul, h1]; ring

theorem dot_pt (k l : ℕ) (z z' : ℝ) (h : k ≤ l) (hd : l - k < 10) :
    dot3 (pt k z) (pt l z') = (((cosTab (l - k)).1 + (cosTab (l - k)).2 * Real.sqrt 5) / 4 + z * z') * (4 / 5) := by
  rw [← cos_tab _ hd, Nat.cast_sub h, sub_mul, Real.cos_sub]
  have hr := icoR_sq
  have hp := icoR_pos
  unfold dot3 pt icoPoint
  simp only [Matrix.cons_val_zero, Matrix.cons_val_one, Matrix.cons_val]
  have e : ∀ a b c d : ℝ, a / icoR * (b / icoR) = a * b * (4 / 5) := by
    intro a b c d
    rw [div_mul_div_comm, hr]; ring
  rw [e _ _ 0 0, e _ _ 0 0, e _ _ 0 0]
  ring

/-- The antipode of a vertex. -/
def icoAnti (i : ℕ) : ℕ := [11, 8, 9, 10, 6, 7, 4, 5, 1, 2, 3, 0].getD i 0

/-- Five times the inner product of two vertices is `a + b √5`. -/
def icoG (i j : ℕ) : ℤ × ℤ :=
  if i = j then (5, 0) else if icoAnti i = j then (-5, 0)
  else if icoFaces.any (fun f => decide (i ∈ [f.1, f.2.1, f.2.2]) && decide (j ∈ [f.1, f.2.1, f.2.2])) then (0, 1) else (0, -1)

theorem icoR_val : icoR = Real.sqrt 5 / 2 := by unfold icoR; norm_num; ring

theorem top_pt (k : ℕ) (z : ℝ) : dot3 ![0, 0, 1] (pt k z) = 2 * z * Real.sqrt 5 / 5 := by
  have h5 : Real.sqrt 5 * Real.sqrt 5 = 5 := Real.mul_self_sqrt (by norm_num)
  have hp : 0 < Real.sqrt 5 := Real.sqrt_pos.mpr (by norm_num)
  unfold dot3 pt icoPoint
  simp only [Matrix.cons_val_zero, Matrix.cons_val_one, Matrix.cons_val]
  rw [icoR_val]
  field_simp
  rw [pow_two, h5]
  ring

theorem bot_pt (k : ℕ) (z : ℝ) : dot3 ![0, 0, -1] (pt k z) = -(2 * z * Real.sqrt 5 / 5) := by
  rw [← top_pt k z]; unfold dot3
  simp only [Matrix.cons_val_zero, Matrix.cons_val_one, Matrix.cons_val]
  ring

theorem icoVerts_nat : icoVerts = [![0, 0, 1], pt (9 : ℕ) 0.5, pt (1 : ℕ) 0.5, pt (3 : ℕ) 0.5, pt (5 : ℕ) 0.5, pt (7 : ℕ) 0.5,
    pt (0 : ℕ) (-0.5), pt (2 : ℕ) (-0.5), pt (4 : ℕ) (-0.5), pt (6 : ℕ) (-0.5), pt (8 : ℕ) (-0.5), ![0, 0, -1]] := by
  rw [icoVerts_eq]
  have e1 : pt (-1) 0.5 = pt (9 : ℕ) 0.5 := by rw [← pt_period (-1)]; norm_num
  rw [e1]
  norm_num

/-- Entry of the table of inner products. -/
def GramOk (i j : ℕ) : Prop := dot3 (icoVerts.getD i 0) (icoVerts.getD j 0) = ((icoG i j).1 + (icoG i j).2 * Real.sqrt 5) / 5

theorem gram_le (i j : ℕ) (hj : j < 12) (hij : i ≤ j) : GramOk i j ∨ GramOk j i := by
  unfold GramOk
  rw [icoVerts_nat]
  have h5 : Real.sqrt 5 * Real.sqrt 5 = 5 := Real.mul_self_sqrt (by norm_num)
  interval_cases j <;> interval_cases i <;>
    simp only [List.getD_cons_zero, List.getD_cons_succ]
  all_goals first
    | (left; rw [dot_pt _ _ _ _ (by norm_num) (by norm_num)]; simp [cosTab, icoG, icoAnti, icoFaces]; ring_nf; done)
    | (right; rw [dot_pt _ _ _ _ (by norm_num) (by norm_num)]; simp [cosTab, icoG, icoAnti, icoFaces]; ring_nf; done)
    | (left; rw [top_pt]; simp [icoG, icoAnti, icoFaces]; ring_nf; done)
    | (left; rw [dot3_comm, bot_pt]; simp [icoG, icoAnti, icoFaces]; ring_nf; done)
    | (left; simp [dot3, icoG, icoAnti, icoFaces]; done)

theorem icoG_comm : ∀ i < 12, ∀ j < 12, icoG i j = icoG j i := by decide +kernel

theorem gram (i j : ℕ) (hi : i < 12) (hj : j < 12) : GramOk i j := by
  have key : ∀ i j, i < 12 → j < 12 → GramOk i j → GramOk j i := by
    intro i j hi hj h
    unfold GramOk at h ⊢
    rw [dot3_comm, h, icoG_comm i hi j hj]
  rcases le_total i j with h | h
  · rcases gram_le i j hj h with h | h
    · exact h
    · exact key _ _ hj hi h
  · rcases gram_le j i hi h with h | h
    · exact key _ _ hj hi h
    · exact h

/-! ### Linear algebra in space -/

theorem cramer (a b c x : Fin 3 → ℝ) : triple a b c • x = triple x b c • a + triple a x c • b + triple a b x • c := by
  funext i
  simp only [Pi.smul_apply, Pi.add_apply, smul_eq_mul]
  unfold triple
  fin_cases i <;> simp <;> ring

theorem indep {a b c : Fin 3 → ℝ} (h : 0 < triple a b c) {p q r p' q' r' : ℝ} (he : p • a + q • b + r • c = p' • a + q' • b + r' • c) :
    p = p' ∧ q = q' ∧ r = r' := by
  have e : ∀ i, p * a i + q * b i + r * c i = p' * a i + q' * b i + r' * c i := fun i => by
    have := congrFun he i
    simpa using this
  have e0 := e 0
  have e1 := e 1
  have e2 := e 2
  have k1 : (p - p') * triple a b c = 0 := by
    unfold triple
    linear_combination (b 1 * c 2 - b 2 * c 1) * e0 + (b 2 * c 0 - b 0 * c 2) * e1 + (b 0 * c 1 - b 1 * c 0) * e2
  have k2 : (q - q') * triple a b c = 0 := by
    unfold triple
    linear_combination (c 1 * a 2 - c 2 * a 1) * e0 + (c 2 * a 0 - c 0 * a 2) * e1 + (c 0 * a 1 - c 1 * a 0) * e2
  have k3 : (r - r') * triple a b c = 0 := by
    unfold triple
    linear_combination (a 1 * b 2 - a 2 * b 1) * e0 + (a 2 * b 0 - a 0 * b 2) * e1 + (a 0 * b 1 - a 1 * b 0) * e2
  refine ⟨?_, ?_, ?_⟩
  · exact sub_eq_zero.mp ((mul_eq_zero.mp k1).resolve_right h.ne')
  · exact sub_eq_zero.mp ((mul_eq_zero.mp k2).resolve_right h.ne')
  · exact sub_eq_zero.mp ((mul_eq_zero.mp k3).resolve_right h.ne')

theorem dot3_add (a b x : Fin 3 → ℝ) : dot3 (a + b) x = dot3 a x + dot3 b x := by unfold dot3; simp only [Pi.add_apply]; ring

theorem dot3_comb (a p q r : Fin 3 → ℝ) (α β γ : ℝ) : dot3 a (α • p + β • q + γ • r) = α * dot3 a p + β * dot3 a q + γ * dot3 a r := by
  unfold dot3; simp only [Pi.add_apply, Pi.smul_apply, smul_eq_mul]; ring

/-! ### The fan of the icosahedron -/

/-- A vertex of the icosahedron. -/
noncomputable abbrev iv (i : ℕ) : Fin 3 → ℝ := icoVerts.getD i 0

/-- The sum of the vertices of a face. -/
noncomputable def icoN (f : Row) : Fin 3 → ℝ := iv f.1 + iv f.2.1 + iv f.2.2

theorem s5 : 2 < Real.sqrt 5 ∧ Real.sqrt 5 < 3 := by
  constructor
  · rw [Real.lt_sqrt] <;> norm_num
  · rw [Real.sqrt_lt'] <;> norm_num

/-- Across every side of a face there is another face. -/
theorem ico_across : ∀ f ∈ icoFaces, ∀ t ∈ [(f.1, f.2.1, f.2.2), (f.2.1, f.2.2, f.1), (f.2.2, f.1, f.2.1)], ∃ g ∈ icoFaces, ∃ c ∈ List.range 12,
    (List.isPerm [g.1, g.2.1, g.2.2] [t.1, t.2.1, c] = true) ∧ icoG c t.1 = (0, 1) ∧ icoG c t.2.1 = (0, 1) ∧ icoG c t.2.2 = (0, -1) ∧
      icoG t.2.2 t.1 = (0, 1) ∧ icoG t.2.2 t.2.1 = (0, 1) ∧ t.1 < 12 ∧ t.2.1 < 12 ∧ t.2.2 < 12 := by decide +kernel

/-- In the face where the sum of the vertices has the largest product with a point, the point has nonnegative weights. -/
theorem ico_weight {f : Row} (hf : f ∈ icoFaces) {x : Fin 3 → ℝ} (hmax : ∀ g ∈ icoFaces, dot3 (icoN g) x ≤ dot3 (icoN f) x) {t : Row}
    (ht : t ∈ [(f.1, f.2.1, f.2.2), (f.2.1, f.2.2, f.1), (f.2.2, f.1, f.2.1)]) {α β γ : ℝ} (hx : x = α • iv t.1 + β • iv t.2.1 + γ • iv t.2.2) : 0 ≤ γ := by
  obtain ⟨g, hg, c, hc, hp, g1, g2, g3, g4, g5, l1, l2, l3⟩ := ico_across f hf t ht
  have hc' : c < 12 := List.mem_range.mp hc
  have hN : icoN g = iv t.1 + iv t.2.1 + iv c := by
    have := ((List.isPerm_iff.mp hp).map iv).sum_eq
    simp only [List.map_cons, List.map_nil, List.sum_cons, List.sum_nil, add_zero] at this
    unfold icoN
    rw [add_assoc, this, add_assoc]
  have hN' : icoN f = iv t.1 + iv t.2.1 + iv t.2.2 := by
    unfold icoN
    simp only [List.mem_cons, List.not_mem_nil, or_false] at ht
    rcases ht with rfl | rfl | rfl
    · rfl
    · simp only; abel
    · simp only; abel
  have h := hmax g hg
  rw [hN, hN'] at h
  simp only [dot3_add] at h
  have h' : dot3 (iv c) x ≤ dot3 (iv t.2.2) x := by linarith
  rw [hx, dot3_comb, dot3_comb] at h'
  have q1 := gram c t.1 hc' l1
  have q2 := gram c t.2.1 hc' l2
  have q3 := gram c t.2.2 hc' l3
  have q4 := gram t.2.2 t.1 l3 l1
  have q5 := gram t.2.2 t.2.1 l3 l2
  have q6 := gram t.2.2 t.2.2 l3 l3
  unfold GramOk at q1 q2 q3 q4 q5 q6
  rw [g1] at q1
  rw [g2] at q2
  rw [g3] at q3
  rw [g4] at q4
  rw [g5] at q5
  rw [show icoG t.2.2 t.2.2 = (5, 0) by simp [icoG]] at q6
  rw [q1, q2, q3, q4, q5, q6] at h'
  push_cast at h'
  have := s5.1
  by_contra hneg
  push Not at hneg
  nlinarith

theorem ico_exists (x : Fin 3 → ℝ) : ∃ f ∈ icoFaces, ∃ w, IsComb icoVerts f w x := by
  obtain ⟨f, hf, hmax⟩ : ∃ f ∈ icoFaces, ∀ g ∈ icoFaces, dot3 (icoN g) x ≤ dot3 (icoN f) x := by
    obtain ⟨f, hf, h⟩ := Finset.exists_max_image icoFaces.toFinset (fun g => dot3 (icoN g) x) ⟨(0, 1, 2), by simp [icoFaces]⟩
    exact ⟨f, List.mem_toFinset.mp hf, fun g hg => h g (List.mem_toFinset.mpr hg)⟩
  have hpos := ico_pos f hf
  have hp : Proper f := by
    have : ∀ v ∈ icoFaces, Proper v := by unfold Proper; decide
    exact this f hf
  have hx : x = (triple x (iv f.2.1) (iv f.2.2) / triple (iv f.1) (iv f.2.1) (iv f.2.2)) • iv f.1 +
      (triple (iv f.1) x (iv f.2.2) / triple (iv f.1) (iv f.2.1) (iv f.2.2)) • iv f.2.1 +
      (triple (iv f.1) (iv f.2.1) x / triple (iv f.1) (iv f.2.1) (iv f.2.2)) • iv f.2.2 := by
    have h := congrArg (fun y => (triple (iv f.1) (iv f.2.1) (iv f.2.2))⁻¹ • y) (cramer (iv f.1) (iv f.2.1) (iv f.2.2) x)
    simp only [smul_add, smul_smul] at h
    rw [inv_mul_cancel₀ hpos.ne', one_smul] at h
    rw [div_eq_inv_mul, div_eq_inv_mul, div_eq_inv_mul]
    exact h
  generalize triple x (iv f.2.1) (iv f.2.2) / triple (iv f.1) (iv f.2.1) (iv f.2.2) = α at hx
  generalize triple (iv f.1) x (iv f.2.2) / triple (iv f.1) (iv f.2.1) (iv f.2.2) = β at hx
  generalize triple (iv f.1) (iv f.2.1) x / triple (iv f.1) (iv f.2.1) (iv f.2.2) = γ at hx
  have hγ : 0 ≤ γ := ico_weight hf hmax (t := (f.1, f.2.1, f.2.2)) (by simp) hx
  have hα : 0 ≤ α := ico_weight hf hmax (t := (f.2.1, f.2.2, f.1)) (by simp) (α := β) (β := γ) (by rw [hx]; simp only; abel)
  have hβ : 0 ≤ β := ico_weight hf hmax (t := (f.2.2, f.1, f.2.1)) (by simp) (α := γ) (β := α) (by rw [hx]; simp only; abel)
  exact ⟨f, hf, _, comb_mk hp hα hβ hγ hx⟩

/-- The products of the sum of the vertices of a face with the vertices. -/
theorem ico_sum : ∀ f ∈ icoFaces, ∀ v < 12, (v ∈ [f.1, f.2.1, f.2.2] → icoG f.1 v + icoG f.2.1 v + icoG f.2.2 v = (5, 2)) ∧
    (v ∉ [f.1, f.2.1, f.2.2] → (icoG f.1 v + icoG f.2.1 v + icoG f.2.2 v).1 ≤ 0 ∧ (icoG f.1 v + icoG f.2.1 v + icoG f.2.2 v).2 ≤ 3) := by
  decide +kernel

theorem ico_lt : ∀ f ∈ icoFaces, RowLt 12 f := by unfold RowLt; decide
theorem ico_proper : ∀ f ∈ icoFaces, Proper f := by unfold Proper; decide

theorem icoN_dot {f : Row} (hf : f ∈ icoFaces) {v : ℕ} (hv : v < 12) :
    (v ∈ [f.1, f.2.1, f.2.2] → dot3 (icoN f) (iv v) = 1 + 2 * Real.sqrt 5 / 5) ∧ (v ∉ [f.1, f.2.1, f.2.2] → dot3 (icoN f) (iv v) < 1 + 2 * Real.sqrt 5 / 5) := by
  obtain ⟨l1, l2, l3⟩ := ico_lt f hf
  have e : dot3 (icoN f) (iv v) = (((icoG f.1 v + icoG f.2.1 v + icoG f.2.2 v).1 : ℤ) + ((icoG f.1 v + icoG f.2.1 v + icoG f.2.2 v).2 : ℤ) * Real.sqrt 5) / 5 := by
    unfold icoN
    have q1 := gram f.1 v l1 hv
    have q2 := gram f.2.1 v l2 hv
    have q3 := gram f.2.2 v l3 hv
    unfold GramOk at q1 q2 q3
    rw [dot3_add, dot3_add, q1, q2, q3]
    simp only [Prod.fst_add, Prod.snd_add]
    push_cast
    ring
  obtain ⟨h1, h2⟩ := ico_sum f hf v hv
  have := s5.1
  have := s5.2
  constructor
  · intro h
    rw [e, h1 h]
    push_cast
    ring
  · intro h
    obtain ⟨a, b⟩ := h2 h
    rw [e]
    have a' : ((icoG f.1 v + icoG f.2.1 v + icoG f.2.2 v).1 : ℝ) ≤ 0 := by exact_mod_cast a
    have b' : ((icoG f.1 v + icoG f.2.1 v + icoG f.2.2 v).2 : ℝ) ≤ 3 := by exact_mod_cast b
    generalize ((icoG f.1 v + icoG f.2.1 v + icoG f.2.2 v).1 : ℝ) = A at *
    generalize ((icoG f.1 v + icoG f.2.1 v + icoG f.2.2 v).2 : ℝ) = B at *
    nlinarith

/-- A combination as a sum over all vertices. -/
theorem comb_sum {V : List (Fin 3 → ℝ)} {n : ℕ} {r : Row} (hr : RowLt n r) (hp : Proper r) {w : ℕ → ℝ}
    (hw : ∀ v, v ≠ r.1 → v ≠ r.2.1 → v ≠ r.2.2 → w v = 0) :
    ∑ v ∈ Finset.range n, w v • V.getD v 0 = w r.1 • V.getD r.1 0 + w r.2.1 • V.getD r.2.1 0 + w r.2.2 • V.getD r.2.2 0 := by
  have h : ∑ v ∈ ({r.1, r.2.1, r.2.2} : Finset ℕ), w v • V.getD v 0 = ∑ v ∈ Finset.range n, w v • V.getD v 0 := by
    refine Finset.sum_subset ?_ ?_
    · intro v hv
      simp only [Finset.mem_insert, Finset.mem_singleton] at hv
      rw [Finset.mem_range]
      rcases hv with rfl | rfl | rfl
      · exact hr.1
      · exact hr.2.1
      · exact hr.2.2
    · intro v _ hv
      simp only [Finset.mem_insert, Finset.mem_singleton, not_or] at hv
      rw [hw v hv.1 hv.2.1 hv.2.2, zero_smul]
  rw [← h, Finset.sum_insert, Finset.sum_insert, Finset.sum_singleton, add_assoc]
  · simpa using hp.2.2
  · simp only [Finset.mem_insert, Finset.mem_singleton, not_or]; exact ⟨hp.1, hp.2.1⟩

theorem ico_unique {f g : Row} (hf : f ∈ icoFaces) (hg : g ∈ icoFaces) {w u : ℕ → ℝ} {x : Fin 3 → ℝ} (hw : IsComb icoVerts f w x)
    (hu : IsComb icoVerts g u x) : w = u := by
  have le : ∀ {f g : Row} (hf : f ∈ icoFaces) (hg : g ∈ icoFaces) {w u : ℕ → ℝ}, IsComb icoVerts f w x → IsComb icoVerts g u x →
      w f.1 + w f.2.1 + w f.2.2 ≤ u g.1 + u g.2.1 + u g.2.2 ∧
      (u g.1 + u g.2.1 + u g.2.2 ≤ w f.1 + w f.2.1 + w f.2.2 → ∀ v ∈ [g.1, g.2.1, g.2.2], v ∉ [f.1, f.2.1, f.2.2] → u v = 0) := by
    intro f g hf hg w u hw hu
    have hs := s5.1
    have e1 : dot3 (icoN f) x = (1 + 2 * Real.sqrt 5 / 5) * (w f.1 + w f.2.1 + w f.2.2) := by
      obtain ⟨l1, l2, l3⟩ := ico_lt f hf
      rw [hw.2.2, dot3_comb, (icoN_dot hf l1).1 (by simp), (icoN_dot hf l2).1 (by simp), (icoN_dot hf l3).1 (by simp)]
      ring
    have e2 : dot3 (icoN f) x = u g.1 * dot3 (icoN f) (iv g.1) + u g.2.1 * dot3 (icoN f) (iv g.2.1) + u g.2.2 * dot3 (icoN f) (iv g.2.2) := by
      rw [hu.2.2, dot3_comb]
    have b : ∀ v, v < 12 → u v * dot3 (icoN f) (iv v) ≤ u v * (1 + 2 * Real.sqrt 5 / 5) := by
      intro v hv
      refine mul_le_mul_of_nonneg_left ?_ (hu.1 v)
      by_cases hvf : v ∈ [f.1, f.2.1, f.2.2]
      · exact ((icoN_dot hf hv).1 hvf).le
      · exact ((icoN_dot hf hv).2 hvf).le
    obtain ⟨l1, l2, l3⟩ := ico_lt g hg
    have b1 := b _ l1
    have b2 := b _ l2
    have b3 := b _ l3
    constructor
    · have : (1 + 2 * Real.sqrt 5 / 5) * (w f.1 + w f.2.1 + w f.2.2) ≤ (1 + 2 * Real.sqrt 5 / 5) * (u g.1 + u g.2.1 + u g.2.2) := by
        rw [← e1, e2]; linarith
      exact le_of_mul_le_mul_left this (by positivity)
    · intro hle v hv hvf
      have hle' : (1 + 2 * Real.sqrt 5 / 5) * (u g.1 + u g.2.1 + u g.2.2) ≤ (1 + 2 * Real.sqrt 5 / 5) * (w f.1 + w f.2.1 + w f.2.2) :=
        mul_le_mul_of_nonneg_left hle (by positivity)
      rw [← e1, e2] at hle'
      have hv' : v < 12 := by
        simp only [List.mem_cons, List.not_mem_nil, or_false] at hv
        rcases hv with rfl | rfl | rfl <;> assumption
      have heq : u v * (1 + 2 * Real.sqrt 5 / 5) ≤ u v * dot3 (icoN f) (iv v) := by
        simp only [List.mem_cons, List.not_mem_nil, or_false] at hv
        rcases hv with rfl | rfl | rfl <;> linarith
      have hlt := (icoN_dot hf hv').2 hvf
      by_contra hne
      have hpos : 0 < u v := lt_of_le_of_ne (hu.1 v) (Ne.symm hne)
      have := mul_lt_mul_of_pos_left hlt hpos
      linarith
  obtain ⟨a1, -⟩ := le hf hg hw hu
  obtain ⟨a2, -⟩ := le hg hf hu hw
  have hz := (le hf hg hw hu).2 a2
  have hsupp : ∀ v, v ≠ f.1 → v ≠ f.2.1 → v ≠ f.2.2 → u v = 0 := by
    intro v h1 h2 h3
    by_cases hv : v ∈ [g.1, g.2.1, g.2.2]
    · exact hz v hv (by simp [h1, h2, h3])
    · simp only [List.mem_cons, List.not_mem_nil, or_false, not_or] at hv
      exact hu.2.1 v hv.1 hv.2.1 hv.2.2
  have hx : w f.1 • iv f.1 + w f.2.1 • iv f.2.1 + w f.2.2 • iv f.2.2 = u f.1 • iv f.1 + u f.2.1 • iv f.2.1 + u f.2.2 • iv f.2.2 := by
    rw [← hw.2.2, hu.2.2, ← comb_sum (ico_lt g hg) (ico_proper g hg) hu.2.1, ← comb_sum (ico_lt f hf) (ico_proper f hf) hsupp]
  obtain ⟨i1, i2, i3⟩ := indep (ico_pos f hf) hx
  funext v
  by_cases h1 : v = f.1
  · rw [h1, i1]
  by_cases h2 : v = f.2.1
  · rw [h2, i2]
  by_cases h3 : v = f.2.2
  · rw [h3, i3]
  rw [hw.2.1 v h1 h2 h3, hsupp v h1 h2 h3]

theorem ico_fan : IsFan icoVerts icoFaces := by
  intro x
  obtain ⟨f, hf, w, hw⟩ := ico_exists x
  exact ⟨w, ⟨f, hf, hw⟩, fun u ⟨g, hg, hu⟩ => ico_unique hg hf hu hw⟩

theorem ico_used : ∀ v < 12, ∃ f ∈ icoFaces, v = f.1 ∨ v = f.2.1 ∨ v = f.2.2 := by decide +kernel

theorem anti_lt : ∀ i < 12, icoAnti i < 12 ∧ icoG i (icoAnti i) = (-5, 0) := by decide +kernel

theorem ico_anti (i : ℕ) (hi : i < 12) : iv (icoAnti i) = -iv i := by
  obtain ⟨h1, h2⟩ := anti_lt i hi
  have hg := gram i _ hi h1
  unfold GramOk at hg
  rw [h2] at hg
  push_cast at hg
  have u : ∀ j, j < 12 → dot3 (iv j) (iv j) = 1 := by
    intro j hj
    have := gram j j hj hj
    unfold GramOk at this
    rw [this, show icoG j j = (5, 0) by simp [icoG]]
    norm_num
  have u1 := u i hi
  have u2 := u _ h1
  change dot3 (iv i) (iv (icoAnti i)) = _ at hg
  generalize iv (icoAnti i) = a at *
  generalize iv i = b at *
  unfold dot3 at *
  have hs : (a 0 + b 0) ^ 2 + (a 1 + b 1) ^ 2 + (a 2 + b 2) ^ 2 = 0 := by nlinarith
  have z0 := sq_nonneg (a 0 + b 0)
  have z1 := sq_nonneg (a 1 + b 1)
  have z2 := sq_nonneg (a 2 + b 2)
  have y0 : a 0 + b 0 = 0 := pow_eq_zero_iff two_ne_zero |>.mp (by linarith)
  have y1 : a 1 + b 1 = 0 := pow_eq_zero_iff two_ne_zero |>.mp (by linarith)
  have y2 : a 2 + b 2 = 0 := pow_eq_zero_iff two_ne_zero |>.mp (by linarith)
  funext j
  rw [Pi.neg_apply]
  fin_cases j
  · show a 0 = - b 0; linarith
  · show a 1 = - b 1; linarith
  · show a 2 = - b 2; linarith

/-! ### Symmetry about the origin -/

/-- A triangle of the mesh has the vertices `a`, `b`, `c` in some order. -/
def HasTri (V : List (Fin 3 → ℝ)) (F : List Row) (a b c : Fin 3 → ℝ) : Prop := ∃ f ∈ F, [V.getD f.1 0, V.getD f.2.1 0, V.getD f.2.2 0].Perm [a, b, c]

theorem HasTri.perm {V : List (Fin 3 → ℝ)} {F : List Row} {a b c a' b' c' : Fin 3 → ℝ} (h : HasTri V F a b c) (hp : [a, b, c].Perm [a', b', c']) :
    HasTri V F a' b' c' := by
  obtain ⟨f, hf, h⟩ := h
  exact ⟨f, hf, h.trans hp⟩

theorem HasTri.rot {V : List (Fin 3 → ℝ)} {F : List Row} {a b c : Fin 3 → ℝ} (h : HasTri V F a b c) : HasTri V F b c a :=
  h.perm (List.perm_append_comm (l₁ := [a]) (l₂ := [b, c]))

theorem HasTri.swap {V : List (Fin 3 → ℝ)} {F : List Row} {a b c : Fin 3 → ℝ} (h : HasTri V F a b c) : HasTri V F b a c :=
  h.perm (List.Perm.swap b a [c])

theorem mid_neg (a b : Fin 3 → ℝ) : mid (-a) (-b) = -mid a b := by
  rw [mid_sc, mid_sc]
  have : sc (-a) (-b) = sc a b := by
    unfold sc
    rw [← neg_add, smul_neg, sq_eq, sq_eq]
    simp only [Pi.neg_apply, neg_mul_neg]
  rw [this, ← neg_add, smul_neg]

/-- The faces of a mesh as rows. -/
abbrev rowsOf (m : Mesh 3) : List Row := m.faces.map (fun f => f.v)

/-- The triangles after a pass. -/
theorem tri_down {m : Mesh 3} (h : Sph m) {f' : Row} (hf' : f' ∈ rowsOf (shrinkStep 0 sphAdj m)) : ∃ a b c, HasTri m.verts (rowsOf m) a b c ∧
    ([(newVerts 0 m sphAdj).getD f'.1 0, (newVerts 0 m sphAdj).getD f'.2.1 0, (newVerts 0 m sphAdj).getD f'.2.2 0] = [mid a b, mid b c, mid a c] ∨
     [(newVerts 0 m sphAdj).getD f'.1 0, (newVerts 0 m sphAdj).getD f'.2.1 0, (newVerts 0 m sphAdj).getD f'.2.2 0] = [mid a b, mid a c, a]) := by
  obtain ⟨F, hF, rfl⟩ := List.mem_map.mp hf'
  rcases (mem_faces 0 m sphAdj F).mp hF with ⟨f, hf, rfl⟩ | ⟨q, f, hf, hc⟩ | ⟨k, hk, h1, h2, rfl⟩
  · rw [u_kept h.inv h.long] at hf; cases hf
  · have hfm := part_mem hf
    obtain ⟨j1, j2, j3⟩ := h.closed.joins f hfm
    obtain ⟨r1, r2, r3⟩ := h.inv.row f hfm
    obtain ⟨p1, p2, p3⟩ := part_e2part 0 m (List.mem_of_getElem? hf)
    have v1 := newVerts_mid_adj j1 p1
    have v2 := newVerts_mid_adj j2 p2
    have v3 := newVerts_mid_adj j3 p3
    have o1 := newVerts_old 0 m sphAdj _ r1
    have o2 := newVerts_old 0 m sphAdj _ r2
    have o3 := newVerts_old 0 m sphAdj _ r3
    have h0 : HasTri m.verts (rowsOf m) (m.verts.getD f.v.1 0) (m.verts.getD f.v.2.1 0) (m.verts.getD f.v.2.2 0) :=
      ⟨f.v, List.mem_map_of_mem (f := fun f : Face => f.v) hfm, List.Perm.refl _⟩
    rcases hc with rfl | rfl | rfl | rfl
    · refine ⟨_, _, _, h0, Or.inl ?_⟩
      simp only [innerFace]; rw [v1, v2, v3]
    · refine ⟨_, _, _, h0, Or.inr ?_⟩
      simp only [corner1]; rw [v1, v3, o1]
    · refine ⟨_, _, _, h0.rot, Or.inr ?_⟩
      simp only [corner2]; rw [v1, v2, o2, mid_comm (m.verts.getD f.v.1 0)]
    · refine ⟨_, _, _, h0.rot.rot, Or.inr ?_⟩
      simp only [corner3]; rw [v3, v2, o3, mid_comm (m.verts.getD f.v.1 0), mid_comm (m.verts.getD f.v.2.1 0)]
  · rw [u_eKept h.inv h.long] at h2; cases h2

theorem pair_perm {α : Type} {x y a b : α} (h : [x, y].Perm [a, b]) : (x = a ∧ y = b) ∨ (x = b ∧ y = a) := by
  have hx : x ∈ [a, b] := h.subset (by simp)
  simp only [List.mem_cons, List.not_mem_nil, or_false] at hx
  rcases hx with rfl | rfl
  · have := h.cons_inv
    rw [List.singleton_perm_singleton] at this
    exact Or.inl ⟨rfl, this⟩
  · have := (h.trans (List.Perm.swap _ _ _)).cons_inv
    rw [List.singleton_perm_singleton] at this
    exact Or.inr ⟨rfl, this⟩

theorem triple_perm {α : Type} {x y z a b c : α} (h : [x, y, z].Perm [a, b, c]) :
    (x = a ∧ y = b ∧ z = c) ∨ (x = a ∧ y = c ∧ z = b) ∨ (x = b ∧ y = a ∧ z = c) ∨ (x = b ∧ y = c ∧ z = a) ∨ (x = c ∧ y = a ∧ z = b) ∨ (x = c ∧ y = b ∧ z = a) := by
  have hx : x ∈ [a, b, c] := h.subset (by simp)
  simp only [List.mem_cons, List.not_mem_nil, or_false] at hx
  rcases hx with rfl | rfl | rfl
  · rcases pair_perm h.cons_inv with ⟨rfl, rfl⟩ | ⟨rfl, rfl⟩ <;> simp
  · rcases pair_perm (h.trans (List.Perm.swap _ _ _)).cons_inv with ⟨rfl, rfl⟩ | ⟨rfl, rfl⟩ <;> simp
  · rcases pair_perm (h.trans (List.perm_append_comm (l₁ := [a, b]) (l₂ := [x]))).cons_inv with ⟨rfl, rfl⟩ | ⟨rfl, rfl⟩ <;> simp

theorem tri_up {m : Mesh 3} (h : Sph m) {a b c : Fin 3 → ℝ} (ht : HasTri m.verts (rowsOf m) a b c) :
    HasTri (newVerts 0 m sphAdj) (rowsOf (shrinkStep 0 sphAdj m)) (mid a b) (mid b c) (mid a c) ∧
    HasTri (newVerts 0 m sphAdj) (rowsOf (shrinkStep 0 sphAdj m)) (mid a b) (mid a c) a := by
  obtain ⟨r, hr, hp⟩ := ht
  obtain ⟨f, hfm, rfl⟩ := List.mem_map.mp hr
  obtain ⟨q, hf⟩ : ∃ q, (partF 0 m)[q]? = some f := by rw [u_part h.inv h.long]; exact List.getElem?_of_mem hfm
  obtain ⟨j1, j2, j3⟩ := h.closed.joins f hfm
  obtain ⟨r1, r2, r3⟩ := h.inv.row f hfm
  obtain ⟨p1, p2, p3⟩ := part_e2part 0 m (List.mem_of_getElem? hf)
  have v1 := newVerts_mid_adj j1 p1
  have v2 := newVerts_mid_adj j2 p2
  have v3 := newVerts_mid_adj j3 p3
  have o1 := newVerts_old 0 m sphAdj _ r1
  have o2 := newVerts_old 0 m sphAdj _ r2
  have o3 := newVerts_old 0 m sphAdj _ r3
  have hmem : ∀ f', (f' = innerFace 0 m q f ∨ f' = corner1 0 m q f ∨ f' = corner2 0 m q f ∨ f' = corner3 0 m q f) → f'.v ∈ rowsOf (shrinkStep 0 sphAdj m) :=
    fun f' h' => List.mem_map_of_mem (f := fun f : Face => f.v) ((mem_faces 0 m sphAdj f').mpr (Or.inr (Or.inl ⟨q, f, hf, h'⟩)))
  generalize m.verts.getD f.v.1 0 = x at *
  generalize m.verts.getD f.v.2.1 0 = y at *
  generalize m.verts.getD f.v.2.2 0 = z at *
  have t0 : HasTri (newVerts 0 m sphAdj) (rowsOf (shrinkStep 0 sphAdj m)) (mid x y) (mid y z) (mid x z) :=
    ⟨_, hmem _ (Or.inl rfl), by simp only [innerFace]; rw [v1, v2, v3]⟩
  have t1 : HasTri (newVerts 0 m sphAdj) (rowsOf (shrinkStep 0 sphAdj m)) (mid x y) (mid x z) x :=
    ⟨_, hmem _ (Or.inr (Or.inl rfl)), by simp only [corner1]; rw [v1, v3, o1]⟩
  have t2 : HasTri (newVerts 0 m sphAdj) (rowsOf (shrinkStep 0 sphAdj m)) (mid y z) (mid x y) y :=
    ⟨_, hmem _ (Or.inr (Or.inr (Or.inl rfl))), by simp only [corner2]; rw [v1, v2, o2]⟩
  have t3 : HasTri (newVerts 0 m sphAdj) (rowsOf (shrinkStep 0 sphAdj m)) (mid x z) (mid y z) z :=
    ⟨_, hmem _ (Or.inr (Or.inr (Or.inr rfl))), by simp only [corner3]; rw [v3, v2, o3]⟩
  rcases triple_perm hp with ⟨rfl, rfl, rfl⟩ | ⟨rfl, rfl, rfl⟩ | ⟨rfl, rfl, rfl⟩ | ⟨rfl, rfl, rfl⟩ | ⟨rfl, rfl, rfl⟩ | ⟨rfl, rfl, rfl⟩
  all_goals
    try rw [mid_comm y x]
    try rw [mid_comm z y]
    try rw [mid_comm z x]
    constructor
    · first | exact t0 | exact t0.swap | exact t0.rot | exact t0.rot.rot | exact t0.swap.rot | exact t0.swap.rot.rot
    · first | exact t1 | exact t2 | exact t3 | exact t1.swap | exact t2.swap | exact t3.swap

/-- The mesh is symmetric about the origin. -/
def AntiM (m : Mesh 3) : Prop := ∀ a b c, HasTri m.verts (rowsOf m) a b c → HasTri m.verts (rowsOf m) (-a) (-b) (-c)

theorem AntiM.step {m : Mesh 3} (h : Sph m) (ha : AntiM m) : AntiM (shrinkStep 0 sphAdj m) := by
  rintro a b c ⟨f', hf', hp⟩
  change [(newVerts 0 m sphAdj).getD f'.1 0, (newVerts 0 m sphAdj).getD f'.2.1 0, (newVerts 0 m sphAdj).getD f'.2.2 0].Perm [a, b, c] at hp
  change HasTri (newVerts 0 m sphAdj) (rowsOf (shrinkStep 0 sphAdj m)) _ _ _
  obtain ⟨x, y, z, ht, he⟩ := tri_down h hf'
  obtain ⟨u0, u1⟩ := tri_up h (ha x y z ht)
  rw [mid_neg, mid_neg, mid_neg] at u0
  rw [mid_neg, mid_neg] at u1
  rcases he with he | he <;> rw [he] at hp
  · exact u0.perm (hp.map (fun v => -v))
  · exact u1.perm (hp.map (fun v => -v))

theorem AntiM.iter {m : Mesh 3} (h : Sph m) (ha : AntiM m) (n : ℕ) : AntiM ((shrinkStep 0 sphAdj)^[n] m) := by
  induction n with
  | zero => exact ha
  | succ n ih => rw [Function.iterate_succ_apply']; exact ih.step (h.iter n)

theorem ico_anti_faces : ∀ f ∈ icoFaces, ∃ g ∈ icoFaces, List.isPerm [g.1, g.2.1, g.2.2] [icoAnti f.1, icoAnti f.2.1, icoAnti f.2.2] = true := by
  decide +kernel

theorem ico_tri (a b c : Fin 3 → ℝ) (h : HasTri icoVerts icoFaces a b c) : HasTri icoVerts icoFaces (-a) (-b) (-c) := by
  obtain ⟨f, hf, hp⟩ := h
  obtain ⟨g, hg, hq⟩ := ico_anti_faces f hf
  obtain ⟨l1, l2, l3⟩ := ico_lt f hf
  refine ⟨g, hg, ?_⟩
  have h1 := (List.isPerm_iff.mp hq).map iv
  simp only [List.map_cons, List.map_nil] at h1
  rw [ico_anti _ l1, ico_anti _ l2, ico_anti _ l3] at h1
  exact h1.trans (hp.map (fun v => -v))

theorem AntiM.verts {m : Mesh 3} (h : Sph m) (ha : AntiM m) (hu : AllUsed m) {v : Fin 3 → ℝ} (hv : v ∈ m.verts) : -v ∈ m.verts := by
  obtain ⟨i, hi⟩ := List.getElem?_of_mem hv
  obtain ⟨f, hf, hif⟩ := hu i (get_lt hi)
  obtain ⟨g, hg, hp⟩ := ha _ _ _ ⟨f.v, List.mem_map_of_mem (f := fun f : Face => f.v) hf, List.Perm.refl _⟩
  have hvi : v = m.verts.getD i 0 := by rw [List.getD_eq_getElem?_getD, hi]; rfl
  have hmem : -v ∈ [-m.verts.getD f.v.1 0, -m.verts.getD f.v.2.1 0, -m.verts.getD f.v.2.2 0] := by
    rw [hvi]; rcases hif with rfl | rfl | rfl <;> simp
  have := hp.symm.subset hmem
  obtain ⟨G, hG, rfl⟩ := List.mem_map.mp hg
  obtain ⟨l1, l2, l3⟩ := h.inv.row G hG
  have hget : ∀ j, j < m.verts.length → m.verts.getD j 0 ∈ m.verts := by
    intro j hj
    rw [List.getD_eq_getElem?_getD, List.getElem?_eq_getElem hj]
    exact List.getElem_mem hj
  simp only [List.mem_cons, List.not_mem_nil, or_false] at this
  rcases this with e | e | e <;> rw [e]
  · exact hget _ l1
  · exact hget _ l2
  · exact hget _ l3

/-! ### The theorem -/

theorem sphere_start (argsort : List ℕ → List ℕ) (hsort : IsArgsort argsort) : ∃ m0 : Mesh 3, (Sph m0 ∧ FanM m0 ∧ AllUsed m0 ∧ AntiM m0) ∧
    (m0.verts = icoVerts ∧ rowsOf m0 = icoFaces ∧ IsEdgeTable m0.edges icoFaces) ∧ (m0.verts.length = 12 ∧ m0.edges.length = 30 ∧ m0.faces.length = 20) ∧
    ∀ n fuel : ℕ, n < fuel → sphereTri argsort fuel n = .ok (some (((shrinkStep 0 sphAdj)^[n] m0).verts, rowsOf ((shrinkStep 0 sphAdj)^[n] m0))) := by
  obtain ⟨m0, h0, hs, c1, c2, c3, hv, hr, het⟩ := ico_init argsort hsort
  have hmem : ∀ r ∈ icoFaces, ∃ f ∈ m0.faces, f.v = r := fun r hr' => List.mem_map.mp (hr ▸ hr')
  have hmem' : ∀ f ∈ m0.faces, f.v ∈ icoFaces := fun f hf' => hr ▸ List.mem_map_of_mem (f := fun f : Face => f.v) hf'
  have hfan : FanM m0 := by
    intro x
    obtain ⟨w, ⟨r, hr', hw⟩, hun⟩ := ico_fan x
    obtain ⟨f, hf', rfl⟩ := hmem r hr'
    refine ⟨w, ⟨f, hf', by rw [hv]; exact hw⟩, ?_⟩
    rintro u ⟨g, hg, hu⟩
    rw [hv] at hu
    exact hun u ⟨g.v, hmem' g hg, hu⟩
  have hused : AllUsed m0 := by
    intro v hlt
    rw [c1] at hlt
    obtain ⟨r, hr', h⟩ := ico_used v hlt
    obtain ⟨f, hf', rfl⟩ := hmem r hr'
    exact ⟨f, hf', h⟩
  have hanti : AntiM m0 := by
    intro a b c
    unfold rowsOf
    rw [hv, hr]
    exact ico_tri a b c
  exact ⟨m0, ⟨hs, hfan, hused, hanti⟩, ⟨hv, hr, het⟩, ⟨c1, c2, c3⟩, fun n fuel hf => sphere_passes argsort n fuel hf h0 hs c1 c2 c3⟩

theorem sphere_run (argsort : List ℕ → List ℕ) (hsort : IsArgsort argsort) (n fuel : ℕ) (hf : n < fuel) :
    ∃ m : Mesh 3, sphereTri argsort fuel n = .ok (some (m.verts, rowsOf m)) ∧ Sph m ∧ FanM m ∧ AllUsed m ∧ AntiM m := by
  obtain ⟨m0, ⟨hs, hfan, hused, hanti⟩, -, -, hrun⟩ := sphere_start argsort hsort
  exact ⟨_, hrun n fuel hf, hs.iter n, hfan.iter hs n, hused.iter hs n, hanti.iter hs n⟩

/-- **C56**: the vertices of the triangulation are different points, each of them belongs to a triangle, the cones over the triangles cover
the space and meet only along common sides, and with every triangle there is the opposite one. -/
theorem C56_fan (argsort : List ℕ → List ℕ) (hsort : IsArgsort argsort) (n fuel : ℕ) (hf : n < fuel) :
    ∃ V F, sphereTri argsort fuel n = .ok (some (V, F)) ∧ V.Nodup ∧ (∀ i < V.length, ∃ f ∈ F, i = f.1 ∨ i = f.2.1 ∨ i = f.2.2) ∧ IsFan V F ∧
      ∀ f ∈ F, ∃ g ∈ F, [V.getD g.1 0, V.getD g.2.1 0, V.getD g.2.2 0].Perm [-V.getD f.1 0, -V.getD f.2.1 0, -V.getD f.2.2 0] := by
  obtain ⟨m, hm, hs, hfan, hu, ha⟩ := sphere_run argsort hsort n fuel hf
  refine ⟨_, _, hm, hfan.nodup hs hu, ?_, ?_, ?_⟩
  · intro i hi
    obtain ⟨f, hf, h⟩ := hu i hi
    exact ⟨f.v, List.mem_map_of_mem (f := fun f : Face => f.v) hf, h⟩
  · intro x
    obtain ⟨w, ⟨f, hf, hw⟩, hun⟩ := hfan x
    refine ⟨w, ⟨f.v, List.mem_map_of_mem (f := fun f : Face => f.v) hf, hw⟩, ?_⟩
    rintro u ⟨g, hg, hu⟩
    obtain ⟨G, hG, rfl⟩ := List.mem_map.mp hg
    exact hun u ⟨G, hG, hu⟩
  · intro f hf
    exact ha _ _ _ ⟨f, hf, List.Perm.refl _⟩

/-- At depth three the centre of the first octant has weights with respect to exactly one set of vertices. -/
example : ∃ V F, sphereTri stableArgsort 10 3 = .ok (some (V, F)) ∧ ∃! w, ∃ f ∈ F, IsComb V f w (fun _ => 1) := by
  obtain ⟨V, F, h, -, -, hfan, -⟩ := C56_fan stableArgsort stableArgsort_ok 3 10 (by norm_num)
  exact ⟨V, F, by exact_mod_cast h, hfan _⟩

end Ellipy.Tri
