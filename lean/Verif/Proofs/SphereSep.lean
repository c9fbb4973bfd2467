import Mathlib.Data.Fintype.Pigeonhole
import Verif.Props.SphereFan

/-! The vertices of `sphere_tri` keep a distance from each other. -/

namespace Ellipy.Tri

/-- The triple product of every triangle is at least `τ`. -/
def Thick (τ : ℝ) (m : Mesh 3) : Prop := ∀ f ∈ m.faces, τ ≤ triple (m.verts.getD f.v.1 0) (m.verts.getD f.v.2.1 0) (m.verts.getD f.v.2.2 0)

theorem triple_rot (a b c : Fin 3 → ℝ) : triple b c a = triple a b c := by unfold triple; ring
theorem triple_swap (a b c : Fin 3 → ℝ) : triple b a c = -triple a b c := by unfold triple; ring

theorem triple_abs {a b c x y z : Fin 3 → ℝ} (h : [x, y, z].Perm [a, b, c]) : |triple x y z| = |triple a b c| := by
  have r1 := triple_rot a b c
  have r2 := triple_rot b c a
  rcases triple_perm h with ⟨rfl, rfl, rfl⟩ | ⟨rfl, rfl, rfl⟩ | ⟨rfl, rfl, rfl⟩ | ⟨rfl, rfl, rfl⟩ | ⟨rfl, rfl, rfl⟩ | ⟨rfl, rfl, rfl⟩
  · rfl
  · rw [show triple x z y = -triple x y z by unfold triple; ring, abs_neg]
  · rw [triple_swap, abs_neg]
  · rw [r1]
  · rw [r2, r1]
  · rw [show triple x y z = -triple z y x by unfold triple; ring, abs_neg]

theorem sq_add_le {a b : Fin 3 → ℝ} (ha : sq a = 1) (hb : sq b = 1) : sq ((1 / 2 : ℝ) • (a + b)) ≤ 1 := by
  rw [sq_eq] at *
  simp only [Pi.smul_apply, Pi.add_apply, smul_eq_mul]
  nlinarith [mul_self_nonneg (a 0 - b 0), mul_self_nonneg (a 1 - b 1), mul_self_nonneg (a 2 - b 2)]

theorem sc_ge {a b : Fin 3 → ℝ} (ha : sq a = 1) (hb : sq b = 1) (h : 0 < sq ((1 / 2 : ℝ) • (a + b))) : 1 / 2 ≤ sc a b := by
  have h1 := Real.sqrt_le_one.mpr (sq_add_le ha hb)
  have h2 := Real.sqrt_pos.mpr h
  unfold sc
  rw [le_div_iff₀ h2]
  linarith

/-- The triple products of the parts. -/
theorem thick_parts {τ : ℝ} {a b c : Fin 3 → ℝ} (ha : sq a = 1) (hb : sq b = 1) (hc : sq c = 1) (h : 0 < |triple a b c|) (hτ : τ ≤ |triple a b c|) :
    τ / 4 ≤ |triple (mid a b) (mid b c) (mid a c)| ∧ τ / 4 ≤ |triple (mid a b) (mid a c) a| := by
  have hne : triple a b c ≠ 0 := abs_pos.mp h
  have hs : 0 < sq ((1 / 2 : ℝ) • (a + b)) ∧ 0 < sq ((1 / 2 : ℝ) • (b + c)) ∧ 0 < sq ((1 / 2 : ℝ) • (a + c)) := by
    rcases lt_or_gt_of_ne hne with h | h
    · have h' : 0 < triple b a c := by rw [triple_swap]; linarith
      obtain ⟨x, y, z⟩ := triple_ne h'
      exact ⟨by rw [add_comm]; exact x, z, y⟩
    · exact triple_ne h
  have c1 := sc_ge ha hb hs.1
  have c2 := sc_ge hb hc hs.2.1
  have c3 := sc_ge ha hc hs.2.2
  rw [mid_sc, mid_sc, mid_sc]
  generalize sc a b = s at *
  generalize sc b c = t at *
  generalize sc a c = u at *
  have k0 : triple (s • (a + b)) (t • (b + c)) (u • (a + c)) = (2 * s * t * u) * triple a b c := by
    unfold triple; simp only [Pi.smul_apply, Pi.add_apply, smul_eq_mul]; ring
  have k1 : triple (s • (a + b)) (u • (a + c)) a = (s * u) * triple a b c := by
    unfold triple; simp only [Pi.smul_apply, Pi.add_apply, smul_eq_mul]; ring
  rw [k0, k1, abs_mul (2 * s * t * u), abs_mul (s * u)]
  have e1 : 1 / 4 ≤ s * u := by nlinarith
  have e2 : 1 / 4 ≤ 2 * s * t * u := by nlinarith
  rw [abs_of_pos (by linarith : 0 < 2 * s * t * u), abs_of_pos (by linarith : 0 < s * u)]
  generalize |triple a b c| = T at *
  constructor <;> nlinarith

theorem vert_unit {m : Mesh 3} (h : Sph m) {i : ℕ} (hi : i < m.verts.length) : sq (m.verts.getD i 0) = 1 := by
  refine h.unit _ ?_
  rw [List.getD_eq_getElem?_getD, List.getElem?_eq_getElem hi]
  exact List.getElem_mem hi

theorem Thick.step {τ : ℝ} {m : Mesh 3} (h : Sph m) (ht : Thick τ m) : Thick (τ / 4) (shrinkStep 0 sphAdj m) := by
  intro f' hf'
  have hpos := h.step.pos f' hf'
  rw [← abs_of_pos hpos]
  obtain ⟨a, b, c, ⟨r, hr, hp⟩, he⟩ := tri_down h (List.mem_map_of_mem (f := fun f : Face => f.v) hf')
  obtain ⟨f, hf, rfl⟩ := List.mem_map.mp hr
  obtain ⟨l1, l2, l3⟩ := h.inv.row f hf
  have hu : ∀ v ∈ [a, b, c], sq v = 1 := by
    intro v hv
    have := hp.symm.subset hv
    simp only [List.mem_cons, List.not_mem_nil, or_false] at this
    rcases this with rfl | rfl | rfl
    · exact vert_unit h l1
    · exact vert_unit h l2
    · exact vert_unit h l3
  have hab := triple_abs hp
  have hp0 := h.pos f hf
  have ht0 := ht f hf
  rw [abs_of_pos hp0] at hab
  obtain ⟨t0, t1⟩ := thick_parts (τ := τ) (hu a (by simp)) (hu b (by simp)) (hu c (by simp)) (hab ▸ hp0) (hab ▸ ht0)
  change τ / 4 ≤ |triple ((newVerts 0 m sphAdj).getD f'.v.1 0) ((newVerts 0 m sphAdj).getD f'.v.2.1 0) ((newVerts 0 m sphAdj).getD f'.v.2.2 0)|
  rcases he with he | he <;> simp only [List.cons.injEq, and_true] at he <;> rw [he.1, he.2.1, he.2.2]
  · exact t0
  · exact t1

theorem Thick.iter {τ : ℝ} {m : Mesh 3} (h : Sph m) (ht : Thick τ m) (n : ℕ) : Thick (τ / 4 ^ n) ((shrinkStep 0 sphAdj)^[n] m) := by
  induction n with
  | zero => simpa using ht
  | succ n ih =>
    rw [Function.iterate_succ_apply', pow_succ, ← div_div]
    exact ih.step (h.iter n)

theorem triple_sq_le {e b c : Fin 3 → ℝ} (hb : sq b = 1) (hc : sq c = 1) : triple e b c ^ 2 ≤ sq e := by
  have h1 : triple e b c ^ 2 + (e 0 * (b 2 * c 0 - b 0 * c 2) - e 1 * (b 1 * c 2 - b 2 * c 1)) ^ 2 +
      (e 0 * (b 0 * c 1 - b 1 * c 0) - e 2 * (b 1 * c 2 - b 2 * c 1)) ^ 2 + (e 1 * (b 0 * c 1 - b 1 * c 0) - e 2 * (b 2 * c 0 - b 0 * c 2)) ^ 2 +
      sq e * (b 0 * c 0 + b 1 * c 1 + b 2 * c 2) ^ 2 = sq e * (sq b * sq c) := by
    rw [sq_eq, sq_eq, sq_eq]; unfold triple; ring
  rw [hb, hc] at h1
  have : 0 ≤ sq e := by rw [sq_eq]; nlinarith [mul_self_nonneg (e 0), mul_self_nonneg (e 1), mul_self_nonneg (e 2)]
  have := mul_nonneg this (sq_nonneg (b 0 * c 0 + b 1 * c 1 + b 2 * c 2))
  nlinarith [sq_nonneg (e 0 * (b 2 * c 0 - b 0 * c 2) - e 1 * (b 1 * c 2 - b 2 * c 1)),
    sq_nonneg (e 0 * (b 0 * c 1 - b 1 * c 0) - e 2 * (b 1 * c 2 - b 2 * c 1)), sq_nonneg (e 1 * (b 0 * c 1 - b 1 * c 0) - e 2 * (b 2 * c 0 - b 0 * c 2))]

/-- A short step from a vertex of a triangle into its cone. -/
theorem sep_core {a b c e : Fin 3 → ℝ} {τ k p q r : ℝ} (hτ : 0 < τ) (hD : τ ≤ triple a b c) (hb : sq b = 1) (hc : sq c = 1) (he : sq e < τ ^ 2)
    (hk : e + k • a = p • a + q • b + r • c) : ∃ p' : ℝ, 0 < p' ∧ a + e = p' • a + q • b + r • c := by
  refine ⟨1 + (p - k), ?_, ?_⟩
  · have h1 : e = (p - k) • a + q • b + r • c := by
      have : e = (p • a + q • b + r • c) - k • a := by rw [← hk]; abel
      rw [this]; module
    have h2 : triple e b c = (p - k) * triple a b c := by
      rw [h1]; unfold triple; simp only [Pi.smul_apply, Pi.add_apply, smul_eq_mul]; ring
    have h3 := triple_sq_le (e := e) hb hc
    rw [h2] at h3
    by_contra hn
    push Not at hn
    have h4 : 1 ≤ (p - k) ^ 2 := by nlinarith
    have h5 : τ ^ 2 ≤ triple a b c ^ 2 := by nlinarith
    have : τ ^ 2 ≤ (p - k) ^ 2 * triple a b c ^ 2 := by nlinarith [sq_nonneg τ]
    rw [mul_pow] at h3
    linarith
  · have : a + e = (1 - k) • a + (e + k • a) := by module
    rw [this, hk]; module

theorem single_comb {m : Mesh 3} (h : Sph m) (hu : AllUsed m) {i : ℕ} (hi : i < m.verts.length) :
    ∃ f ∈ m.faces, IsComb m.verts f.v (fun v => if v = i then 1 else 0) (m.verts.getD i 0) := by
  obtain ⟨f, hfm, hif⟩ := hu i hi
  obtain ⟨d1, d2, d3⟩ := h.closed.proper f hfm
  refine ⟨f, hfm, fun v => ?_, fun v h1 h2 h3 => ?_, ?_⟩
  · simp only; split_ifs <;> norm_num
  · simp only
    refine if_neg ?_
    rintro rfl
    rcases hif with hif | hif | hif
    · exact h1 hif
    · exact h2 hif
    · exact h3 hif
  · rcases hif with rfl | rfl | rfl
    · simp [if_neg d1.symm, if_neg d2.symm]
    · simp [if_neg d1, if_neg d3.symm]
    · simp [if_neg d2, if_neg d3]

theorem lin_nonneg {x y : ℝ} (h : ∀ N : ℕ, ∃ k : ℕ, N ≤ k ∧ 0 ≤ x + k * y) : 0 ≤ y := by
  by_contra hn
  push Not at hn
  obtain ⟨N, hN⟩ := exists_nat_gt (x / (-y))
  obtain ⟨k, hk, h0⟩ := h N
  rw [div_lt_iff₀ (by linarith)] at hN
  have : (N : ℝ) ≤ k := by exact_mod_cast hk
  nlinarith

/-- Different vertices of a fan of thick triangles are not close. -/
theorem FanM.sep {m : Mesh 3} (h : Sph m) (hf : FanM m) (hu : AllUsed m) {τ : ℝ} (hτ : 0 < τ) (ht : Thick τ m) {i j : ℕ} (hi : i < m.verts.length)
    (hj : j < m.verts.length) (hij : i ≠ j) : τ ^ 2 ≤ sq (m.verts.getD j 0 - m.verts.getD i 0) := by
  by_contra hlt
  push Not at hlt
  set v := m.verts.getD i 0 with hv
  set e := m.verts.getD j 0 - v with he
  have hje : m.verts.getD j 0 = v + e := by rw [he]; abel
  have hex : ∀ k : ℕ, ∃ q : Fin m.faces.length, ∃ w, IsComb m.verts (m.faces[q]).v w (e + (k : ℝ) • v) := by
    intro k
    obtain ⟨w, ⟨f, hfm, hw⟩, -⟩ := hf (e + (k : ℝ) • v)
    obtain ⟨q, hq, rfl⟩ := List.getElem_of_mem hfm
    exact ⟨⟨q, hq⟩, w, hw⟩
  choose Q hQ using hex
  obtain ⟨q, hq⟩ := Finite.exists_infinite_fiber Q
  have hinf : ∀ N : ℕ, ∃ k, N ≤ k ∧ Q k = q := by
    intro N
    have := (Set.infinite_coe_iff.mp hq).exists_gt N
    obtain ⟨k, hk, hlt⟩ := this
    exact ⟨k, hlt.le, hk⟩
  have hfm : m.faces[q] ∈ m.faces := List.getElem_mem _
  have hfl : ∀ N : ℕ, ∃ k : ℕ, N ≤ k ∧ ∃ w, IsComb m.verts (m.faces[q]).v w (e + (k : ℝ) • v) := by
    intro N
    obtain ⟨k, hk, hQk⟩ := hinf N
    have := hQ k
    rw [hQk] at this
    exact ⟨k, hk, this⟩
  generalize m.faces[q] = f at hfm hfl
  have hD := ht f hfm
  have hDp := h.pos f hfm
  have hpr := h.closed.proper f hfm
  obtain ⟨l1, l2, l3⟩ := h.inv.row f hfm
  have n1 := vert_unit h l1
  have n2 := vert_unit h l2
  have n3 := vert_unit h l3
  have hi1 : i = f.v.1 ∨ i = f.v.2.1 ∨ i = f.v.2.2 := by
    have hA : 0 ≤ triple v (m.verts.getD f.v.2.1 0) (m.verts.getD f.v.2.2 0) ∧ 0 ≤ triple (m.verts.getD f.v.1 0) v (m.verts.getD f.v.2.2 0) ∧
        0 ≤ triple (m.verts.getD f.v.1 0) (m.verts.getD f.v.2.1 0) v := by
      refine ⟨lin_nonneg (x := triple e (m.verts.getD f.v.2.1 0) (m.verts.getD f.v.2.2 0)) fun N => ?_,
        lin_nonneg (x := triple (m.verts.getD f.v.1 0) e (m.verts.getD f.v.2.2 0)) fun N => ?_,
        lin_nonneg (x := triple (m.verts.getD f.v.1 0) (m.verts.getD f.v.2.1 0) e) fun N => ?_⟩
      all_goals
        obtain ⟨k, hk, w, hw0, -, hw⟩ := hfl N
        refine ⟨k, hk, ?_⟩
      · have e1 : triple (e + (k : ℝ) • v) (m.verts.getD f.v.2.1 0) (m.verts.getD f.v.2.2 0) = triple e (m.verts.getD f.v.2.1 0) (m.verts.getD f.v.2.2 0) +
            k * triple v (m.verts.getD f.v.2.1 0) (m.verts.getD f.v.2.2 0) := by
          unfold triple; simp only [Pi.smul_apply, Pi.add_apply, smul_eq_mul]; ring
        rw [← e1, hw]
        have e2 : ∀ (p q r : ℝ) (a b c : Fin 3 → ℝ), triple (p • a + q • b + r • c) b c = p * triple a b c := by
          intro p q r a b c
          unfold triple; simp only [Pi.smul_apply, Pi.add_apply, smul_eq_mul]; ring
        rw [e2]
        exact mul_nonneg (hw0 _) hDp.le
      · have e1 : triple (m.verts.getD f.v.1 0) (e + (k : ℝ) • v) (m.verts.getD f.v.2.2 0) = triple (m.verts.getD f.v.1 0) e (m.verts.getD f.v.2.2 0) +
            k * triple (m.verts.getD f.v.1 0) v (m.verts.getD f.v.2.2 0) := by
          unfold triple; simp only [Pi.smul_apply, Pi.add_apply, smul_eq_mul]; ring
        rw [← e1, hw]
        have e2 : ∀ (p q r : ℝ) (a b c : Fin 3 → ℝ), triple a (p • a + q • b + r • c) c = q * triple a b c := by
          intro p q r a b c
          unfold triple; simp only [Pi.smul_apply, Pi.add_apply, smul_eq_mul]; ring
        rw [e2]
        exact mul_nonneg (hw0 _) hDp.le
      · have e1 : triple (m.verts.getD f.v.1 0) (m.verts.getD f.v.2.1 0) (e + (k : ℝ) • v) = triple (m.verts.getD f.v.1 0) (m.verts.getD f.v.2.1 0) e +
            k * triple (m.verts.getD f.v.1 0) (m.verts.getD f.v.2.1 0) v := by
          unfold triple; simp only [Pi.smul_apply, Pi.add_apply, smul_eq_mul]; ring
        rw [← e1, hw]
        have e2 : ∀ (p q r : ℝ) (a b c : Fin 3 → ℝ), triple a b (p • a + q • b + r • c) = r * triple a b c := by
          intro p q r a b c
          unfold triple; simp only [Pi.smul_apply, Pi.add_apply, smul_eq_mul]; ring
        rw [e2]
        exact mul_nonneg (hw0 _) hDp.le
    obtain ⟨A1, A2, A3⟩ := hA
    have hx := congrArg (fun y => (triple (m.verts.getD f.v.1 0) (m.verts.getD f.v.2.1 0) (m.verts.getD f.v.2.2 0))⁻¹ • y)
      (cramer (m.verts.getD f.v.1 0) (m.verts.getD f.v.2.1 0) (m.verts.getD f.v.2.2 0) v)
    simp only [smul_add, smul_smul] at hx
    rw [inv_mul_cancel₀ hDp.ne', one_smul] at hx
    have hc := comb_mk (V := m.verts) (r := f.v) hpr (mul_nonneg (inv_nonneg.mpr hDp.le) A1) (mul_nonneg (inv_nonneg.mpr hDp.le) A2)
      (mul_nonneg (inv_nonneg.mpr hDp.le) A3) hx
    obtain ⟨w, -, hw⟩ := hf v
    have h1 := hw _ ⟨f, hfm, hc⟩
    have h2 := hw _ (single_comb h hu hi)
    have h3 := congrFun (h1.trans h2.symm) i
    by_contra hno
    simp only [not_or] at hno
    simp only [if_neg hno.1, if_neg hno.2.1, if_neg hno.2.2, if_true] at h3
    norm_num at h3
  obtain ⟨k, -, w, hw0, -, hw⟩ := hfl 0
  have fin : ∀ p q r : ℝ, 0 ≤ p → 0 ≤ q → 0 ≤ r → v + e = p • m.verts.getD f.v.1 0 + q • m.verts.getD f.v.2.1 0 + r • m.verts.getD f.v.2.2 0 →
      (i = f.v.1 → 0 < p) → (i = f.v.2.1 → 0 < q) → (i = f.v.2.2 → 0 < r) → False := by
    intro p q r hp hq hr hx i1 i2 i3
    have hc := comb_mk (V := m.verts) (r := f.v) hpr hp hq hr hx
    obtain ⟨w, -, hw⟩ := hf (v + e)
    have h1 := hw _ ⟨f, hfm, hc⟩
    have h2 := hw _ (hje ▸ single_comb h hu hj)
    have h3 := congrFun (h1.trans h2.symm) i
    simp only [if_neg hij] at h3
    obtain ⟨d1, d2, d3⟩ := hpr
    rcases hi1 with hi1 | hi1 | hi1
    · simp only [if_pos hi1] at h3
      exact (i1 hi1).ne' h3
    · rw [if_neg (by rw [hi1]; exact d1.symm), if_pos hi1] at h3
      exact (i2 hi1).ne' h3
    · rw [if_neg (by rw [hi1]; exact d2.symm), if_neg (by rw [hi1]; exact d3.symm), if_pos hi1] at h3
      exact (i3 hi1).ne' h3
  obtain ⟨d1, d2, d3⟩ := hpr
  rcases hi1 with hi1 | hi1 | hi1
  · rw [hi1] at hv
    rw [← hv] at hw hD
    obtain ⟨p', hp', hx⟩ := sep_core (a := v) hτ hD n2 n3 hlt hw
    refine fin p' _ _ hp'.le (hw0 _) (hw0 _) (by rw [hx, hv]) (fun _ => hp') (fun h => absurd (hi1.symm.trans h) d1) (fun h => absurd (hi1.symm.trans h) d2)
  · rw [hi1] at hv
    rw [← hv] at hw hD
    obtain ⟨p', hp', hx⟩ := sep_core (a := v) (b := m.verts.getD f.v.2.2 0) (c := m.verts.getD f.v.1 0) hτ (by rw [triple_rot]; exact hD) n3 n1 hlt
      (p := w f.v.2.1) (q := w f.v.2.2) (r := w f.v.1) (by rw [hw]; abel)
    refine fin _ p' _ (hw0 _) hp'.le (hw0 _) (by rw [hx, hv]; abel) (fun h => absurd (hi1.symm.trans h) d1.symm) (fun _ => hp') (fun h => absurd (hi1.symm.trans h) d3)
  · rw [hi1] at hv
    rw [← hv] at hw hD
    obtain ⟨p', hp', hx⟩ := sep_core (a := v) (b := m.verts.getD f.v.1 0) (c := m.verts.getD f.v.2.1 0) hτ (by rw [← triple_rot]; exact hD) n1 n2 hlt
      (p := w f.v.2.2) (q := w f.v.1) (r := w f.v.2.1) (by rw [hw]; abel)
    refine fin _ _ p' (hw0 _) (hw0 _) hp'.le (by rw [hx, hv]; abel) (fun h => absurd (hi1.symm.trans h) d2.symm) (fun h => absurd (hi1.symm.trans h) d3.symm) (fun _ => hp')

/-- The triple product of a face of the icosahedron. -/
theorem ico_thick (f : Row) (hf : f ∈ icoFaces) : 1 / 2 ≤ triple (iv f.1) (iv f.2.1) (iv f.2.2) := by
  have hg : ∀ f ∈ icoFaces, icoG f.1 f.2.1 = (0, 1) ∧ icoG f.2.1 f.2.2 = (0, 1) ∧ icoG f.1 f.2.2 = (0, 1) := by decide +kernel
  obtain ⟨g1, g2, g3⟩ := hg f hf
  obtain ⟨l1, l2, l3⟩ := ico_lt f hf
  have hp := ico_pos f hf
  have q1 := gram f.1 f.2.1 l1 l2
  have q2 := gram f.2.1 f.2.2 l2 l3
  have q3 := gram f.1 f.2.2 l1 l3
  have u1 := gram f.1 f.1 l1 l1
  have u2 := gram f.2.1 f.2.1 l2 l2
  have u3 := gram f.2.2 f.2.2 l3 l3
  unfold GramOk at q1 q2 q3 u1 u2 u3
  rw [g1] at q1
  rw [g2] at q2
  rw [g3] at q3
  rw [show icoG f.1 f.1 = (5, 0) by simp [icoG]] at u1
  rw [show icoG f.2.1 f.2.1 = (5, 0) by simp [icoG]] at u2
  rw [show icoG f.2.2 f.2.2 = (5, 0) by simp [icoG]] at u3
  push_cast at q1 q2 q3 u1 u2 u3
  change 0 < triple (iv f.1) (iv f.2.1) (iv f.2.2) at hp
  change dot3 (iv f.1) (iv f.2.1) = _ at q1
  change dot3 (iv f.2.1) (iv f.2.2) = _ at q2
  change dot3 (iv f.1) (iv f.2.2) = _ at q3
  change dot3 (iv f.1) (iv f.1) = _ at u1
  change dot3 (iv f.2.1) (iv f.2.1) = _ at u2
  change dot3 (iv f.2.2) (iv f.2.2) = _ at u3
  generalize iv f.1 = a at *
  generalize iv f.2.1 = b at *
  generalize iv f.2.2 = c at *
  have hgram : triple a b c ^ 2 = dot3 a a * (dot3 b b * dot3 c c - dot3 b c ^ 2) - dot3 a b * (dot3 a b * dot3 c c - dot3 b c * dot3 a c) +
      dot3 a c * (dot3 a b * dot3 b c - dot3 b b * dot3 a c) := by unfold triple dot3; ring
  have h5 : Real.sqrt 5 * Real.sqrt 5 = 5 := Real.mul_self_sqrt (by norm_num)
  rw [q1, q2, q3, u1, u2, u3] at hgram
  have hv : triple a b c ^ 2 = 2 / 5 + 2 * Real.sqrt 5 / 25 := by
    rw [hgram]
    have : Real.sqrt 5 ^ 3 = 5 * Real.sqrt 5 := by rw [pow_succ, pow_two, h5]
    ring_nf
    rw [this, Real.sq_sqrt (by norm_num)]
    ring
  have := s5.1
  nlinarith

end Ellipy.Tri
