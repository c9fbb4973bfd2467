import Verif.Proofs.SphereSep

/-! The triangles of `sphere_tri` become small. -/

namespace Ellipy.Tri

/-- The inner product of two vertices of a triangle is at least `κ`. -/
def Fine (κ : ℝ) (m : Mesh 3) : Prop := ∀ f ∈ m.faces, κ ≤ dot3 (m.verts.getD f.v.1 0) (m.verts.getD f.v.2.1 0) ∧
  κ ≤ dot3 (m.verts.getD f.v.2.1 0) (m.verts.getD f.v.2.2 0) ∧ κ ≤ dot3 (m.verts.getD f.v.1 0) (m.verts.getD f.v.2.2 0)

theorem dot3_self (a : Fin 3 → ℝ) : dot3 a a = sq a := by unfold dot3; rw [sq_eq]

theorem half_sq {a b : Fin 3 → ℝ} (ha : sq a = 1) (hb : sq b = 1) : sq ((1 / 2 : ℝ) • (a + b)) = (1 + dot3 a b) / 2 := by
  rw [sq_eq] at *
  unfold dot3
  simp only [Pi.smul_apply, Pi.add_apply, smul_eq_mul]
  linear_combination (ha + hb) / 4

theorem dot3_le_one {a b : Fin 3 → ℝ} (ha : sq a = 1) (hb : sq b = 1) : dot3 a b ≤ 1 := by
  rw [sq_eq] at *
  unfold dot3
  nlinarith [mul_self_nonneg (a 0 - b 0), mul_self_nonneg (a 1 - b 1), mul_self_nonneg (a 2 - b 2)]

/-- The bound after a pass. -/
noncomputable def nextK (κ : ℝ) : ℝ := 1 - (1 - κ) / (2 + 2 * κ)

theorem fine_corner {κ : ℝ} (hκ : 0 ≤ κ) {a b : Fin 3 → ℝ} (ha : sq a = 1) (hb : sq b = 1) (h : κ ≤ dot3 a b) : nextK κ ≤ dot3 (mid a b) a := by
  have h1 := dot3_le_one ha hb
  have e : dot3 (mid a b) a = Real.sqrt ((1 + dot3 a b) / 2) := by
    rw [mid_sc, sc, half_sq ha hb]
    have : dot3 ((1 / 2 / Real.sqrt ((1 + dot3 a b) / 2)) • (a + b)) a = (1 + dot3 a b) / 2 / Real.sqrt ((1 + dot3 a b) / 2) := by
      generalize Real.sqrt ((1 + dot3 a b) / 2) = S
      have h2 : dot3 ((1 / 2 / S) • (a + b)) a = (1 / 2 / S) * (dot3 a a + dot3 a b) := by
        unfold dot3
        simp only [Pi.smul_apply, Pi.add_apply, smul_eq_mul]; ring
      rw [h2, dot3_self, ha]; ring
    rw [this, Real.div_sqrt]
  rw [e]
  have hY : Real.sqrt ((1 + κ) / 2) ≤ Real.sqrt ((1 + dot3 a b) / 2) := Real.sqrt_le_sqrt (by linarith)
  refine le_trans ?_ hY
  have hY2 : Real.sqrt ((1 + κ) / 2) ^ 2 = (1 + κ) / 2 := Real.sq_sqrt (by linarith)
  have hYp : 0 < Real.sqrt ((1 + κ) / 2) := Real.sqrt_pos.mpr (by linarith)
  generalize Real.sqrt ((1 + κ) / 2) = Y at hY2 hYp
  have hk : κ = 2 * Y ^ 2 - 1 := by linarith
  unfold nextK
  rw [hk]
  rw [sub_le_iff_le_add, ← sub_le_iff_le_add', le_div_iff₀ (by nlinarith [sq_nonneg Y])]
  nlinarith [mul_nonneg (sq_nonneg (Y - 1)) (show (0 : ℝ) ≤ 2 * Y + 1 by linarith)]

theorem fine_inner {κ : ℝ} (hκ : 0 ≤ κ) {a b c : Fin 3 → ℝ} (ha : sq a = 1) (hb : sq b = 1) (hc : sq c = 1) (h1 : κ ≤ dot3 a b) (h2 : κ ≤ dot3 b c)
    (h3 : κ ≤ dot3 a c) : nextK κ ≤ dot3 (mid a b) (mid a c) := by
  have g1 := dot3_le_one ha hb
  have g2 := dot3_le_one ha hc
  have e : dot3 (mid a b) (mid a c) = (1 + dot3 a b + dot3 a c + dot3 b c) / (4 * (Real.sqrt ((1 + dot3 a b) / 2) * Real.sqrt ((1 + dot3 a c) / 2))) := by
    rw [mid_sc, mid_sc, sc, sc, half_sq ha hb, half_sq ha hc]
    have : (1 : ℝ) = dot3 a a := by rw [dot3_self, ha]
    generalize Real.sqrt ((1 + dot3 a b) / 2) = S
    generalize Real.sqrt ((1 + dot3 a c) / 2) = T
    have h4 : 1 + dot3 a b + dot3 a c + dot3 b c = dot3 (a + b) (a + c) := by
      rw [this]; unfold dot3; simp only [Pi.add_apply]; ring
    rw [h4]
    unfold dot3
    simp only [Pi.smul_apply, Pi.add_apply, smul_eq_mul]
    ring
  rw [e]
  have p1 : Real.sqrt ((1 + dot3 a b) / 2) ^ 2 = (1 + dot3 a b) / 2 := Real.sq_sqrt (by linarith)
  have p2 : Real.sqrt ((1 + dot3 a c) / 2) ^ 2 = (1 + dot3 a c) / 2 := Real.sq_sqrt (by linarith)
  have q1 : 0 < Real.sqrt ((1 + dot3 a b) / 2) := Real.sqrt_pos.mpr (by linarith)
  have q2 : 0 < Real.sqrt ((1 + dot3 a c) / 2) := Real.sqrt_pos.mpr (by linarith)
  generalize Real.sqrt ((1 + dot3 a b) / 2) = S at *
  generalize Real.sqrt ((1 + dot3 a c) / 2) = T at *
  generalize dot3 a b = x at *
  generalize dot3 a c = y at *
  generalize dot3 b c = z at *
  have hst : 4 * (S * T) ≤ 2 + x + y := by nlinarith [sq_nonneg (S - T)]
  have hst0 : 0 < S * T := mul_pos q1 q2
  have k1 : (1 + x + y + κ) / (2 + x + y) ≤ (1 + x + y + z) / (4 * (S * T)) := by
    apply div_le_div₀ <;> linarith
  refine le_trans ?_ k1
  have k2 : (1 + x + y + κ) / (2 + x + y) = 1 - (1 - κ) / (2 + x + y) := by
    have : 2 + x + y ≠ 0 := by linarith
    rw [eq_sub_iff_add_eq, ← add_div, div_eq_one_iff_eq this]; ring
  have k3 : κ ≤ 1 := by linarith
  rw [k2, nextK]
  have : (1 - κ) / (2 + x + y) ≤ (1 - κ) / (2 + 2 * κ) := by
    apply div_le_div₀ <;> linarith
  linarith

theorem Fine.step {κ : ℝ} (hκ : 0 ≤ κ) {m : Mesh 3} (h : Sph m) (ht : Fine κ m) : Fine (nextK κ) (shrinkStep 0 sphAdj m) := by
  intro f' hf'
  obtain ⟨a, b, c, ⟨r, hr, hp⟩, he⟩ := tri_down h (List.mem_map_of_mem (f := fun f : Face => f.v) hf')
  obtain ⟨f, hf, rfl⟩ := List.mem_map.mp hr
  obtain ⟨l1, l2, l3⟩ := h.inv.row f hf
  have hu : ∀ v ∈ [a, b, c], sq v = 1 := by
    intro v hv
    have := hp.symm.subset hv
    simp only [List.mem_cons, List.not_mem_nil, or_false] at this
    rcases this with rfl | rfl | rfl
    · exact vert_unit h l1
    · exact vert_unit h l2
    · exact vert_unit h l3
  have hd : κ ≤ dot3 a b ∧ κ ≤ dot3 b c ∧ κ ≤ dot3 a c := by
    obtain ⟨t1, t2, t3⟩ := ht f hf
    rcases triple_perm hp with ⟨rfl, rfl, rfl⟩ | ⟨rfl, rfl, rfl⟩ | ⟨rfl, rfl, rfl⟩ | ⟨rfl, rfl, rfl⟩ | ⟨rfl, rfl, rfl⟩ | ⟨rfl, rfl, rfl⟩ <;>
      (refine ⟨?_, ?_, ?_⟩ <;> first | assumption | (rw [dot3_comm]; assumption))
  obtain ⟨d1, d2, d3⟩ := hd
  have ua := hu a (by simp)
  have ub := hu b (by simp)
  have uc := hu c (by simp)
  have d1' : κ ≤ dot3 b a := by rw [dot3_comm]; exact d1
  have d2' : κ ≤ dot3 c b := by rw [dot3_comm]; exact d2
  have d3' : κ ≤ dot3 c a := by rw [dot3_comm]; exact d3
  change nextK κ ≤ dot3 ((newVerts 0 m sphAdj).getD f'.v.1 0) ((newVerts 0 m sphAdj).getD f'.v.2.1 0) ∧
    nextK κ ≤ dot3 ((newVerts 0 m sphAdj).getD f'.v.2.1 0) ((newVerts 0 m sphAdj).getD f'.v.2.2 0) ∧
    nextK κ ≤ dot3 ((newVerts 0 m sphAdj).getD f'.v.1 0) ((newVerts 0 m sphAdj).getD f'.v.2.2 0)
  rcases he with he | he <;> simp only [List.cons.injEq, and_true] at he <;> rw [he.1, he.2.1, he.2.2]
  · refine ⟨?_, ?_, fine_inner hκ ua ub uc d1 d2 d3⟩
    · rw [mid_comm a b]; exact fine_inner hκ ub ua uc d1' d3 d2
    · rw [mid_comm b c, mid_comm a c]; exact fine_inner hκ uc ub ua d2' d1' d3'
  · exact ⟨fine_inner hκ ua ub uc d1 d2 d3, fine_corner hκ ua uc d3, fine_corner hκ ua ub d1⟩

/-- The bound after `n` passes. -/
noncomputable def kn (n : ℕ) : ℝ := 1 - 3 / (3 * 4 ^ n + 2)

theorem kn_nonneg (n : ℕ) : 0 ≤ kn n := by
  unfold kn
  have : (1 : ℝ) ≤ 4 ^ n := one_le_pow₀ (by norm_num)
  rw [sub_nonneg, div_le_one (by linarith)]
  linarith

theorem kn_next (n : ℕ) : nextK (kn n) = kn (n + 1) := by
  unfold nextK kn
  have : (0 : ℝ) < 4 ^ n := by positivity
  rw [pow_succ]
  generalize (4 : ℝ) ^ n = t at *
  have h1 : 3 * t + 2 ≠ 0 := by linarith
  have h2 : (2 : ℝ) + 2 * (1 - 3 / (3 * t + 2)) = (4 * (3 * t) + 2) / (3 * t + 2) := by field_simp; ring
  rw [h2, sub_sub_cancel, div_div_div_cancel_right₀ h1]
  congr 2; ring

theorem Fine.iter {m : Mesh 3} (h : Sph m) (ht : Fine (kn 0) m) (n : ℕ) : Fine (kn n) ((shrinkStep 0 sphAdj)^[n] m) := by
  induction n with
  | zero => exact ht
  | succ n ih =>
    rw [Function.iterate_succ_apply', ← kn_next]
    exact ih.step (kn_nonneg n) (h.iter n)

theorem ico_fine (f : Row) (hf : f ∈ icoFaces) : kn 0 ≤ dot3 (iv f.1) (iv f.2.1) ∧ kn 0 ≤ dot3 (iv f.2.1) (iv f.2.2) ∧ kn 0 ≤ dot3 (iv f.1) (iv f.2.2) := by
  have hg : ∀ f ∈ icoFaces, icoG f.1 f.2.1 = (0, 1) ∧ icoG f.2.1 f.2.2 = (0, 1) ∧ icoG f.1 f.2.2 = (0, 1) := by decide +kernel
  obtain ⟨g1, g2, g3⟩ := hg f hf
  obtain ⟨l1, l2, l3⟩ := ico_lt f hf
  have q1 := gram f.1 f.2.1 l1 l2
  have q2 := gram f.2.1 f.2.2 l2 l3
  have q3 := gram f.1 f.2.2 l1 l3
  unfold GramOk at q1 q2 q3
  rw [g1] at q1
  rw [g2] at q2
  rw [g3] at q3
  push_cast at q1 q2 q3
  have := s5.1
  rw [q1, q2, q3]
  have hk : kn 0 = 2 / 5 := by unfold kn; norm_num
  rw [hk]
  refine ⟨?_, ?_, ?_⟩ <;> linarith

/-- A unit vector in the cone over a small triangle is close to its vertices. -/
theorem near_verts {κ : ℝ} (hκ : 0 ≤ κ) {a b c x : Fin 3 → ℝ} (ha : sq a = 1) (hb : sq b = 1) (hc : sq c = 1) (h1 : κ ≤ dot3 a b) (h2 : κ ≤ dot3 b c)
    (h3 : κ ≤ dot3 a c) (hx : sq x = 1) {p q r : ℝ} (hp : 0 ≤ p) (hq : 0 ≤ q) (hr : 0 ≤ r) (e : x = p • a + q • b + r • c) :
    κ ≤ dot3 a x ∧ κ ≤ dot3 b x ∧ κ ≤ dot3 c x := by
  have g1 := dot3_le_one ha hb
  have g2 := dot3_le_one hb hc
  have g3 := dot3_le_one ha hc
  have hsum : 1 ≤ p + q + r := by
    have : (1 : ℝ) = p ^ 2 + q ^ 2 + r ^ 2 + 2 * (p * q * dot3 a b) + 2 * (q * r * dot3 b c) + 2 * (p * r * dot3 a c) := by
      rw [← hx]
      have h : sq x = p ^ 2 * sq a + q ^ 2 * sq b + r ^ 2 * sq c + 2 * (p * q * dot3 a b) + 2 * (q * r * dot3 b c) + 2 * (p * r * dot3 a c) := by
        rw [e, sq_eq, sq_eq, sq_eq, sq_eq]; unfold dot3; simp only [Pi.smul_apply, Pi.add_apply, smul_eq_mul]; ring
      rw [h, ha, hb, hc]; ring
    by_contra hn
    push Not at hn
    have k1 := mul_le_mul_of_nonneg_left g1 (mul_nonneg hp hq)
    have k2 := mul_le_mul_of_nonneg_left g2 (mul_nonneg hq hr)
    have k3 := mul_le_mul_of_nonneg_left g3 (mul_nonneg hp hr)
    nlinarith
  have hk1 : κ ≤ 1 := h1.trans g1
  have d1 : dot3 a a = 1 := by rw [dot3_self, ha]
  have d2 : dot3 b b = 1 := by rw [dot3_self, hb]
  have d3 : dot3 c c = 1 := by rw [dot3_self, hc]
  rw [e, dot3_comb, dot3_comb, dot3_comb, d1, d2, d3, dot3_comm b a, dot3_comm c a, dot3_comm c b]
  have m1 := mul_le_mul_of_nonneg_left h1 hp
  have m2 := mul_le_mul_of_nonneg_left h1 hq
  have m3 := mul_le_mul_of_nonneg_left h2 hq
  have m4 := mul_le_mul_of_nonneg_left h2 hr
  have m5 := mul_le_mul_of_nonneg_left h3 hp
  have m6 := mul_le_mul_of_nonneg_left h3 hr
  have n1 := mul_le_mul_of_nonneg_left hk1 hp
  have n2 := mul_le_mul_of_nonneg_left hk1 hq
  have n3 := mul_le_mul_of_nonneg_left hk1 hr
  have hs := mul_le_mul_of_nonneg_left hsum hκ
  refine ⟨?_, ?_, ?_⟩ <;> nlinarith

end Ellipy.Tri
