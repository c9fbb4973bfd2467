import Verif.Proofs.SphereTri

/-! The passes of `sphere_tri` keep the cones over the triangles apart. -/

namespace Ellipy.Tri

/-- The weights with respect to the parts of a triangle. -/
theorem parts_arith {α β γ o1 o2 o3 p q r T : ℝ} (h1 : 0 ≤ o1) (h2 : 0 ≤ o2) (h3 : 0 ≤ o3) (hp : 0 ≤ p) (hq : 0 ≤ q) (hr : 0 ≤ r)
    (h : (o1 = 0 ∧ o2 = 0 ∧ o3 = 0) ∨ (o2 = 0 ∧ o3 = 0 ∧ q = 0) ∨ (o1 = 0 ∧ o3 = 0 ∧ r = 0) ∨ (o1 = 0 ∧ o2 = 0 ∧ p = 0))
    (ha : α = o1 + p + r) (hb : β = o2 + p + q) (hc : γ = o3 + q + r) (hT : T = α + β + γ) :
    (o1 = max 0 (2 * α - T) ∧ o2 = max 0 (2 * β - T) ∧ o3 = max 0 (2 * γ - T)) ∧ p = max 0 (min (min α β) (α + β - T / 2)) ∧
    q = max 0 (min (min β γ) (β + γ - T / 2)) ∧ r = max 0 (min (min α γ) (α + γ - T / 2)) := by
  subst hT ha hb hc
  rcases h with ⟨rfl, rfl, rfl⟩ | ⟨rfl, rfl, rfl⟩ | ⟨rfl, rfl, rfl⟩ | ⟨rfl, rfl, rfl⟩
  all_goals
    refine ⟨⟨?_, ?_, ?_⟩, ?_, ?_, ?_⟩ <;> simp only [max_def, min_def] <;> split_ifs <;> linarith

/-- The factor of the middle of two points. -/
noncomputable def sc (a b : Fin 3 → ℝ) : ℝ := 1 / 2 / Real.sqrt (sq ((1 / 2 : ℝ) • (a + b)))

theorem sc_comm (a b : Fin 3 → ℝ) : sc a b = sc b a := by unfold sc; rw [add_comm a b]

theorem sc_pos {a b : Fin 3 → ℝ} (h : 0 < sq ((1 / 2 : ℝ) • (a + b))) : 0 < sc a b := by
  have := Real.sqrt_pos.mpr h
  unfold sc; positivity

theorem mid_sc (a b : Fin 3 → ℝ) : mid a b = sc a b • (a + b) := by
  funext i
  unfold mid normRow sc sq
  simp only [Pi.smul_apply, Pi.add_apply, smul_eq_mul]
  ring

/-- The sum of the weights. -/
theorem weight_sum {n : ℕ} {r : Row} (hr : RowLt n r) (hp : Proper r) {w : ℕ → ℝ} (hw : ∀ v, v ≠ r.1 → v ≠ r.2.1 → v ≠ r.2.2 → w v = 0) :
    ∑ v ∈ Finset.range n, w v = w r.1 + w r.2.1 + w r.2.2 := by
  have h : ∑ v ∈ ({r.1, r.2.1, r.2.2} : Finset ℕ), w v = ∑ v ∈ Finset.range n, w v := by
    refine Finset.sum_subset ?_ ?_
    · intro v hv
      simp only [Finset.mem_insert, Finset.mem_singleton] at hv
      rw [Finset.mem_range]
      rcases hv with rfl | rfl | rfl
      · exact hr.1
      · exact hr.2.1
      · exact hr.2.2
    · intro v _ hv
      simp only [Finset.mem_insert, Finset.mem_singleton, not_or] at hv
      exact hw v hv.1 hv.2.1 hv.2.2
  rw [← h, Finset.sum_insert, Finset.sum_insert, Finset.sum_singleton, add_assoc]
  · simpa using hp.2.2
  · simp only [Finset.mem_insert, Finset.mem_singleton, not_or]; exact ⟨hp.1, hp.2.1⟩

theorem comb_mk {V : List (Fin 3 → ℝ)} {r : Row} (hp : Proper r) {a b c : ℝ} (ha : 0 ≤ a) (hb : 0 ≤ b) (hc : 0 ≤ c) {x : Fin 3 → ℝ}
    (hx : x = a • V.getD r.1 0 + b • V.getD r.2.1 0 + c • V.getD r.2.2 0) :
    IsComb V r (fun v => if v = r.1 then a else if v = r.2.1 then b else if v = r.2.2 then c else 0) x := by
  refine ⟨fun v => ?_, fun v h1 h2 h3 => ?_, ?_⟩
  · simp only; split_ifs <;> first | assumption | exact le_rfl
  · simp only [if_neg h1, if_neg h2, if_neg h3]
  · simp only [if_true, if_neg hp.1.symm, if_neg hp.2.1.symm, if_neg hp.2.2.symm]; exact hx

/-- How the weights `w'` of a point after a pass are obtained from the weights `w` before it. -/
def Rel (m : Mesh 3) (w w' : ℕ → ℝ) : Prop :=
  (∀ v, v < m.verts.length → w' v = max 0 (2 * w v - ∑ v ∈ Finset.range m.verts.length, w v)) ∧
  (∀ k e, m.edges[k]? = some e → sc (m.verts.getD e.1 0) (m.verts.getD e.2 0) * w' (m.verts.length + k) =
    max 0 (min (min (w e.1) (w e.2)) (w e.1 + w e.2 - (∑ v ∈ Finset.range m.verts.length, w v) / 2))) ∧
  ∀ v, m.verts.length + m.edges.length ≤ v → w' v = 0

theorem Rel.unique {m : Mesh 3} (h : Sph m) {w w1 w2 : ℕ → ℝ} (h1 : Rel m w w1) (h2 : Rel m w w2) : w1 = w2 := by
  funext v
  rcases lt_or_ge v m.verts.length with hv | hv
  · rw [h1.1 v hv, h2.1 v hv]
  · obtain ⟨k, rfl⟩ := Nat.exists_eq_add_of_le hv
    rcases lt_or_ge k m.edges.length with hk | hk
    · have he := List.getElem?_eq_getElem hk
      have := (h1.2.1 k _ he).trans (h2.2.1 k _ he).symm
      exact mul_left_cancel₀ (sc_pos (edge_face h he).2).ne' this
    · rw [h1.2.2 _ (by omega), h2.2.2 _ (by omega)]

/-- The weights of a point with respect to a part of a triangle. -/
theorem six_form {m : Mesh 3} (h : Sph m) {f' : Face} (hf' : f' ∈ (shrinkStep 0 sphAdj m).faces) {w : ℕ → ℝ} {x : Fin 3 → ℝ}
    (hw : IsComb (shrinkStep 0 sphAdj m).verts f'.v w x) : ∃ f ∈ m.faces,
      (∀ u, u ≠ f.v.1 → u ≠ f.v.2.1 → u ≠ f.v.2.2 → u ≠ m.verts.length + f.e.1 → u ≠ m.verts.length + f.e.2.1 → u ≠ m.verts.length + f.e.2.2 → w u = 0) ∧
      ((w f.v.1 = 0 ∧ w f.v.2.1 = 0 ∧ w f.v.2.2 = 0) ∨ (w f.v.2.1 = 0 ∧ w f.v.2.2 = 0 ∧ w (m.verts.length + f.e.2.1) = 0) ∨
        (w f.v.1 = 0 ∧ w f.v.2.2 = 0 ∧ w (m.verts.length + f.e.2.2) = 0) ∨ (w f.v.1 = 0 ∧ w f.v.2.1 = 0 ∧ w (m.verts.length + f.e.1) = 0)) ∧
      x = w f.v.1 • m.verts.getD f.v.1 0 + w f.v.2.1 • m.verts.getD f.v.2.1 0 + w f.v.2.2 • m.verts.getD f.v.2.2 0 +
        (w (m.verts.length + f.e.1) • mid (m.verts.getD f.v.1 0) (m.verts.getD f.v.2.1 0) +
        w (m.verts.length + f.e.2.1) • mid (m.verts.getD f.v.2.1 0) (m.verts.getD f.v.2.2 0) +
        w (m.verts.length + f.e.2.2) • mid (m.verts.getD f.v.1 0) (m.verts.getD f.v.2.2 0)) := by
  obtain ⟨-, h0, hx⟩ := hw
  change x = w _ • (newVerts 0 m sphAdj).getD _ 0 + w _ • (newVerts 0 m sphAdj).getD _ 0 + w _ • (newVerts 0 m sphAdj).getD _ 0 at hx
  rcases (mem_faces 0 m sphAdj f').mp hf' with ⟨f, hf, rfl⟩ | ⟨q, f, hf, hc⟩ | ⟨k, hk, h1, h2, rfl⟩
  · rw [u_kept h.inv h.long] at hf; cases hf
  · have hfm := part_mem hf
    refine ⟨f, hfm, ?_⟩
    obtain ⟨j1, j2, j3⟩ := h.closed.joins f hfm
    obtain ⟨r1, r2, r3⟩ := h.inv.row f hfm
    obtain ⟨d1, d2, d3⟩ := h.closed.proper f hfm
    obtain ⟨p1, p2, p3⟩ := part_e2part 0 m (List.mem_of_getElem? hf)
    obtain ⟨n1, n2, n3⟩ := edges_ne (h.closed.joins f hfm) (h.closed.proper f hfm)
    have v1 := newVerts_mid_adj j1 p1
    have v2 := newVerts_mid_adj j2 p2
    have v3 := newVerts_mid_adj j3 p3
    have o1 := newVerts_old 0 m sphAdj _ r1
    have o2 := newVerts_old 0 m sphAdj _ r2
    have o3 := newVerts_old 0 m sphAdj _ r3
    rw [u_ePart h.inv h.long _ (get_lt j1)] at v1
    rw [u_ePart h.inv h.long _ (get_lt j2)] at v2
    rw [u_ePart h.inv h.long _ (get_lt j3)] at v3
    rcases hc with rfl | rfl | rfl | rfl
    · simp only [innerFace, u_ePart h.inv h.long _ (get_lt j1), u_ePart h.inv h.long _ (get_lt j2), u_ePart h.inv h.long _ (get_lt j3)] at h0 hx
      rw [v1, v2, v3] at hx
      have z1 : w f.v.1 = 0 := h0 _ (by omega) (by omega) (by omega)
      have z2 : w f.v.2.1 = 0 := h0 _ (by omega) (by omega) (by omega)
      have z3 : w f.v.2.2 = 0 := h0 _ (by omega) (by omega) (by omega)
      refine ⟨fun u _ _ _ a b c => h0 u a b c, Or.inl ⟨z1, z2, z3⟩, ?_⟩
      rw [z1, z2, z3, hx]
      simp only [zero_smul, zero_add]
    · simp only [corner1, u_ePart h.inv h.long _ (get_lt j1), u_ePart h.inv h.long _ (get_lt j3)] at h0 hx
      rw [v1, v3, o1] at hx
      have z2 : w f.v.2.1 = 0 := h0 _ (by omega) (by omega) (by omega)
      have z3 : w f.v.2.2 = 0 := h0 _ (by omega) (by omega) (by omega)
      have z4 : w (m.verts.length + f.e.2.1) = 0 := h0 _ (by omega) (by omega) (by omega)
      refine ⟨fun u a _ _ b _ c => h0 u b c a, Or.inr (Or.inl ⟨z2, z3, z4⟩), ?_⟩
      rw [z2, z3, z4, hx]
      simp only [zero_smul, zero_add, add_zero]
      abel
    · simp only [corner2, u_ePart h.inv h.long _ (get_lt j1), u_ePart h.inv h.long _ (get_lt j2)] at h0 hx
      rw [v1, v2, o2] at hx
      have z2 : w f.v.1 = 0 := h0 _ (by omega) (by omega) (by omega)
      have z3 : w f.v.2.2 = 0 := h0 _ (by omega) (by omega) (by omega)
      have z4 : w (m.verts.length + f.e.2.2) = 0 := h0 _ (by omega) (by omega) (by omega)
      refine ⟨fun u _ a _ b c _ => h0 u c b a, Or.inr (Or.inr (Or.inl ⟨z2, z3, z4⟩)), ?_⟩
      rw [z2, z3, z4, hx]
      simp only [zero_smul, zero_add, add_zero]
      abel
    · simp only [corner3, u_ePart h.inv h.long _ (get_lt j2), u_ePart h.inv h.long _ (get_lt j3)] at h0 hx
      rw [v2, v3, o3] at hx
      have z2 : w f.v.1 = 0 := h0 _ (by omega) (by omega) (by omega)
      have z3 : w f.v.2.1 = 0 := h0 _ (by omega) (by omega) (by omega)
      have z4 : w (m.verts.length + f.e.1) = 0 := h0 _ (by omega) (by omega) (by omega)
      refine ⟨fun u _ _ a _ b c => h0 u c b a, Or.inr (Or.inr (Or.inr ⟨z2, z3, z4⟩)), ?_⟩
      rw [z2, z3, z4, hx]
      simp only [zero_smul, zero_add, add_zero]
      abel
  · rw [u_eKept h.inv h.long] at h2; cases h2

/-- The weights before a pass. -/
theorem child_up {m : Mesh 3} (h : Sph m) {f' : Face} (hf' : f' ∈ (shrinkStep 0 sphAdj m).faces) {w' : ℕ → ℝ} {x : Fin 3 → ℝ}
    (hw : IsComb (shrinkStep 0 sphAdj m).verts f'.v w' x) : ∃ f ∈ m.faces, ∃ w, IsComb m.verts f.v w x ∧ Rel m w w' := by
  obtain ⟨f, hf, h0, hcase, hx⟩ := six_form h hf' hw
  have hn := hw.1
  obtain ⟨j1, j2, j3⟩ := h.closed.joins f hf
  have hrow := h.inv.row f hf
  have hprop := h.closed.proper f hf
  obtain ⟨d1, d2, d3⟩ := hprop
  obtain ⟨s1, s2, s3⟩ := triple_ne (h.pos f hf)
  have c1 := sc_pos s1
  have c2 := sc_pos s2
  have c3 := sc_pos s3
  rw [mid_sc, mid_sc, mid_sc] at hx
  generalize hs12 : sc (m.verts.getD f.v.1 0) (m.verts.getD f.v.2.1 0) = s12 at *
  generalize hs23 : sc (m.verts.getD f.v.2.1 0) (m.verts.getD f.v.2.2 0) = s23 at *
  generalize hs13 : sc (m.verts.getD f.v.1 0) (m.verts.getD f.v.2.2 0) = s13 at *
  have hp := mul_nonneg c1.le (hn (m.verts.length + f.e.1))
  have hq := mul_nonneg c2.le (hn (m.verts.length + f.e.2.1))
  have hr := mul_nonneg c3.le (hn (m.verts.length + f.e.2.2))
  set α := w' f.v.1 + s12 * w' (m.verts.length + f.e.1) + s13 * w' (m.verts.length + f.e.2.2) with hα
  set β := w' f.v.2.1 + s12 * w' (m.verts.length + f.e.1) + s23 * w' (m.verts.length + f.e.2.1) with hβ
  set γ := w' f.v.2.2 + s23 * w' (m.verts.length + f.e.2.1) + s13 * w' (m.verts.length + f.e.2.2) with hγ
  have hα0 : 0 ≤ α := by have := hn f.v.1; rw [hα]; linarith
  have hβ0 : 0 ≤ β := by have := hn f.v.2.1; rw [hβ]; linarith
  have hγ0 : 0 ≤ γ := by have := hn f.v.2.2; rw [hγ]; linarith
  have hcomb := comb_mk (V := m.verts) (r := f.v) (h.closed.proper f hf) hα0 hβ0 hγ0 (x := x) (by
    rw [hx, hα, hβ, hγ]; module)
  refine ⟨f, hf, _, hcomb, ?_⟩
  set w : ℕ → ℝ := fun v => if v = f.v.1 then α else if v = f.v.2.1 then β else if v = f.v.2.2 then γ else 0 with hwdef
  have w1 : w f.v.1 = α := if_pos rfl
  have w2 : w f.v.2.1 = β := by simp only [hwdef, if_true, if_neg d1.symm]
  have w3 : w f.v.2.2 = γ := by simp only [hwdef, if_true, if_neg d2.symm, if_neg d3.symm]
  have hT := weight_sum hrow (h.closed.proper f hf) hcomb.2.1
  rw [w1, w2, w3] at hT
  obtain ⟨⟨a1, a2, a3⟩, a4, a5, a6⟩ := parts_arith (hn f.v.1) (hn f.v.2.1) (hn f.v.2.2) hp hq hr (by
    rcases hcase with h | h | h | h
    · exact Or.inl h
    · exact Or.inr (Or.inl ⟨h.1, h.2.1, by rw [h.2.2, mul_zero]⟩)
    · exact Or.inr (Or.inr (Or.inl ⟨h.1, h.2.1, by rw [h.2.2, mul_zero]⟩))
    · exact Or.inr (Or.inr (Or.inr ⟨h.1, h.2.1, by rw [h.2.2, mul_zero]⟩))) hα hβ hγ hT
  unfold Rel
  generalize (∑ v ∈ Finset.range m.verts.length, w v) = T at *
  have hT0 : 0 ≤ T := by rw [hT]; linarith
  obtain ⟨l1, l2, l3⟩ := h.inv.row f hf
  refine ⟨fun v hv => ?_, fun k e he => ?_, fun v hv => ?_⟩
  · by_cases e1 : v = f.v.1
    · rw [e1, w1]; exact a1
    by_cases e2 : v = f.v.2.1
    · rw [e2, w2]; exact a2
    by_cases e3 : v = f.v.2.2
    · rw [e3, w3]; exact a3
    rw [hcomb.2.1 v e1 e2 e3, h0 v e1 e2 e3 (by omega) (by omega) (by omega), max_eq_left (by linarith)]
  · have key : ∀ (dd : Bool) (i a b : ℕ), m.edges[i]? = some (dirPair dd a b) → k = i → ∀ (s wa wb : ℝ), sc (m.verts.getD a 0) (m.verts.getD b 0) = s → w a = wa → w b = wb →
        s * w' (m.verts.length + i) = max 0 (min (min wa wb) (wa + wb - T / 2)) →
        sc (m.verts.getD e.1 0) (m.verts.getD e.2 0) * w' (m.verts.length + k) = max 0 (min (min (w e.1) (w e.2)) (w e.1 + w e.2 - T / 2)) := by
      rintro dd i a b hi rfl s wa wb rfl rfl rfl hh
      rw [he] at hi
      injection hi with hi
      subst hi
      cases dd
      · simp only [dirPair]
        simp only [Bool.false_eq_true, if_false]
        rw [sc_comm, hh, min_comm (w b), add_comm (w b)]
      · simp only [dirPair, if_true]
        exact hh
    by_cases k1 : k = f.e.1
    · exact key _ _ _ _ j1 k1 _ _ _ hs12 w1 w2 a4
    by_cases k2 : k = f.e.2.1
    · exact key _ _ _ _ j2 k2 _ _ _ hs23 w2 w3 a5
    by_cases k3 : k = f.e.2.2
    · exact key _ _ _ _ j3 k3 _ _ _ hs13 w1 w3 a6
    obtain ⟨g1, g2⟩ := h.inv.ends e (List.mem_of_getElem? he)
    rw [h0 (m.verts.length + k) (by omega) (by omega) (by omega) (by omega) (by omega) (by omega), mul_zero]
    have hout : w e.1 = 0 ∨ w e.2 = 0 := by
      have hnot : ¬ ((e.1 = f.v.1 ∨ e.1 = f.v.2.1 ∨ e.1 = f.v.2.2) ∧ (e.2 = f.v.1 ∨ e.2 = f.v.2.1 ∨ e.2 = f.v.2.2)) := by
        have hl := loopless h.inv h.closed (List.mem_of_getElem? he)
        have i1 : ¬ UEq e (f.v.1, f.v.2.1) := fun hu => k1 (unod_inj h.closed.unod he j1 (hu.trans (dirPair_uEq _ _ _).symm))
        have i2 : ¬ UEq e (f.v.2.1, f.v.2.2) := fun hu => k2 (unod_inj h.closed.unod he j2 (hu.trans (dirPair_uEq _ _ _).symm))
        have i3 : ¬ UEq e (f.v.1, f.v.2.2) := fun hu => k3 (unod_inj h.closed.unod he j3 (hu.trans (dirPair_uEq _ _ _).symm))
        unfold UEq at i1 i2 i3
        simp only at i1 i2 i3
        clear * - hl i1 i2 i3
        omega
      rw [not_and_or] at hnot
      rcases hnot with hnot | hnot
      · simp only [not_or] at hnot
        exact Or.inl (hcomb.2.1 _ hnot.1 hnot.2.1 hnot.2.2)
      · simp only [not_or] at hnot
        exact Or.inr (hcomb.2.1 _ hnot.1 hnot.2.1 hnot.2.2)
    refine (max_eq_left ?_).symm
    rcases hout with h' | h'
    · exact (min_le_left _ _).trans ((min_le_left _ _).trans h'.le)
    · exact (min_le_left _ _).trans ((min_le_right _ _).trans h'.le)
  · have := get_lt j1
    have := get_lt j2
    have := get_lt j3
    exact h0 v (by omega) (by omega) (by omega) (by omega) (by omega) (by omega)

/-- A point of a triangle belongs to one of its parts. -/
theorem child_down {m : Mesh 3} (h : Sph m) {f : Face} (hf : f ∈ m.faces) {w : ℕ → ℝ} {x : Fin 3 → ℝ}
    (hw : IsComb m.verts f.v w x) : ∃ f' ∈ (shrinkStep 0 sphAdj m).faces, ∃ w', IsComb (shrinkStep 0 sphAdj m).verts f'.v w' x := by
  obtain ⟨q, hq⟩ : ∃ q, (partF 0 m)[q]? = some f := by rw [u_part h.inv h.long]; exact List.getElem?_of_mem hf
  have hmem : ∀ f', (f' = innerFace 0 m q f ∨ f' = corner1 0 m q f ∨ f' = corner2 0 m q f ∨ f' = corner3 0 m q f) → f' ∈ (shrinkStep 0 sphAdj m).faces :=
    fun f' h' => (mem_faces 0 m sphAdj f').mpr (Or.inr (Or.inl ⟨q, f, hq, h'⟩))
  have hprop' : ∀ f' ∈ (shrinkStep 0 sphAdj m).faces, Proper f'.v := h.step.closed.proper
  obtain ⟨j1, j2, j3⟩ := h.closed.joins f hf
  obtain ⟨r1, r2, r3⟩ := h.inv.row f hf
  obtain ⟨p1, p2, p3⟩ := part_e2part 0 m (List.mem_of_getElem? hq)
  have v1 := newVerts_mid_adj j1 p1
  have v2 := newVerts_mid_adj j2 p2
  have v3 := newVerts_mid_adj j3 p3
  have o1 := newVerts_old 0 m sphAdj _ r1
  have o2 := newVerts_old 0 m sphAdj _ r2
  have o3 := newVerts_old 0 m sphAdj _ r3
  obtain ⟨s1, s2, s3⟩ := triple_ne (h.pos f hf)
  have c1 := sc_pos s1
  have c2 := sc_pos s2
  have c3 := sc_pos s3
  rw [mid_sc] at v1 v2 v3
  obtain ⟨hn, -, hx⟩ := hw
  have n1 := hn f.v.1
  have n2 := hn f.v.2.1
  have n3 := hn f.v.2.2
  generalize sc (m.verts.getD f.v.1 0) (m.verts.getD f.v.2.1 0) = s12 at *
  generalize sc (m.verts.getD f.v.2.1 0) (m.verts.getD f.v.2.2 0) = s23 at *
  generalize sc (m.verts.getD f.v.1 0) (m.verts.getD f.v.2.2 0) = s13 at *
  generalize w f.v.1 = α at *
  generalize w f.v.2.1 = β at *
  generalize w f.v.2.2 = γ at *
  have mk : ∀ f' ∈ (shrinkStep 0 sphAdj m).faces, ∀ a b c : ℝ, 0 ≤ a → 0 ≤ b → 0 ≤ c →
      x = a • (newVerts 0 m sphAdj).getD f'.v.1 0 + b • (newVerts 0 m sphAdj).getD f'.v.2.1 0 + c • (newVerts 0 m sphAdj).getD f'.v.2.2 0 →
      ∃ f' ∈ (shrinkStep 0 sphAdj m).faces, ∃ w', IsComb (shrinkStep 0 sphAdj m).verts f'.v w' x :=
    fun f' hf' a b c ha hb hc hx' => ⟨f', hf', _, comb_mk (hprop' f' hf') ha hb hc hx'⟩
  have cancel : ∀ (s t : ℝ) (y : Fin 3 → ℝ), 0 < s → (t / s) • (s • y) = t • y := by
    intro s t y hs
    rw [smul_smul, div_mul_cancel₀ _ hs.ne']
  by_cases ha : β + γ ≤ α
  · refine mk _ (hmem _ (Or.inr (Or.inl rfl))) (β / s12) (γ / s13) (α - β - γ) (by positivity) (by positivity) (by linarith) ?_
    simp only [corner1]
    rw [v1, v3, o1, cancel _ _ _ c1, cancel _ _ _ c3, hx]
    module
  by_cases hb : α + γ ≤ β
  · refine mk _ (hmem _ (Or.inr (Or.inr (Or.inl rfl)))) (γ / s23) (α / s12) (β - α - γ) (by positivity) (by positivity) (by linarith) ?_
    simp only [corner2]
    rw [v2, v1, o2, cancel _ _ _ c1, cancel _ _ _ c2, hx]
    module
  by_cases hc : α + β ≤ γ
  · refine mk _ (hmem _ (Or.inr (Or.inr (Or.inr rfl)))) (α / s13) (β / s23) (γ - α - β) (by positivity) (by positivity) (by linarith) ?_
    simp only [corner3]
    rw [v3, v2, o3, cancel _ _ _ c2, cancel _ _ _ c3, hx]
    module
  · have t1 : 0 ≤ (α + β - γ) / 2 := by linarith
    have t2 : 0 ≤ (β + γ - α) / 2 := by linarith
    have t3 : 0 ≤ (α + γ - β) / 2 := by linarith
    refine mk _ (hmem _ (Or.inl rfl)) ((α + β - γ) / 2 / s12) ((β + γ - α) / 2 / s23) ((α + γ - β) / 2 / s13)
      (div_nonneg t1 c1.le) (div_nonneg t2 c2.le) (div_nonneg t3 c3.le) ?_
    simp only [innerFace]
    rw [v1, v2, v3, cancel _ _ _ c1, cancel _ _ _ c2, cancel _ _ _ c3, hx]
    module

/-- The fan of the triangles of a mesh. -/
def FanM (m : Mesh 3) : Prop := ∀ x, ∃! w, ∃ f ∈ m.faces, IsComb m.verts f.v w x

theorem FanM.step {m : Mesh 3} (h : Sph m) (hf : FanM m) : FanM (shrinkStep 0 sphAdj m) := by
  intro x
  obtain ⟨w, ⟨f, hfm, hw⟩, hu⟩ := hf x
  obtain ⟨f', hf', w', hw'⟩ := child_down h hfm hw
  refine ⟨w', ⟨f', hf', hw'⟩, ?_⟩
  rintro w2 ⟨f2, hf2, hw2⟩
  obtain ⟨g1, hg1, u1, hu1, hr1⟩ := child_up h hf' hw'
  obtain ⟨g2, hg2, u2, hu2, hr2⟩ := child_up h hf2 hw2
  have e1 := hu u1 ⟨g1, hg1, hu1⟩
  have e2 := hu u2 ⟨g2, hg2, hu2⟩
  rw [e1] at hr1
  rw [e2] at hr2
  exact hr2.unique h hr1

theorem FanM.iter {m : Mesh 3} (h : Sph m) (hf : FanM m) (n : ℕ) : FanM ((shrinkStep 0 sphAdj)^[n] m) := by
  induction n with
  | zero => exact hf
  | succ n ih => rw [Function.iterate_succ_apply']; exact ih.step (h.iter n)

/-- Every vertex belongs to a triangle. -/
def AllUsed (m : Mesh 3) : Prop := ∀ v, v < m.verts.length → ∃ f ∈ m.faces, v = f.v.1 ∨ v = f.v.2.1 ∨ v = f.v.2.2

theorem AllUsed.step {m : Mesh 3} (h : Sph m) (hu : AllUsed m) : AllUsed (shrinkStep 0 sphAdj m) := by
  intro v hv
  have hmem : ∀ f ∈ m.faces, ∃ q, ∀ f', (f' = innerFace 0 m q f ∨ f' = corner1 0 m q f ∨ f' = corner2 0 m q f ∨ f' = corner3 0 m q f) → f' ∈ (shrinkStep 0 sphAdj m).faces := by
    intro f hf
    obtain ⟨q, hq⟩ : ∃ q, (partF 0 m)[q]? = some f := by rw [u_part h.inv h.long]; exact List.getElem?_of_mem hf
    exact ⟨q, fun f' h' => (mem_faces 0 m sphAdj f').mpr (Or.inr (Or.inl ⟨q, f, hq, h'⟩))⟩
  rcases lt_or_ge v m.verts.length with hlt | hge
  · obtain ⟨f, hf, hvf⟩ := hu v hlt
    obtain ⟨q, hq⟩ := hmem f hf
    rcases hvf with rfl | rfl | rfl
    · exact ⟨_, hq _ (Or.inr (Or.inl rfl)), Or.inr (Or.inr rfl)⟩
    · exact ⟨_, hq _ (Or.inr (Or.inr (Or.inl rfl))), Or.inr (Or.inr rfl)⟩
    · exact ⟨_, hq _ (Or.inr (Or.inr (Or.inr rfl))), Or.inr (Or.inr rfl)⟩
  · obtain ⟨k, rfl⟩ := Nat.exists_eq_add_of_le hge
    rw [(u_counts h.inv h.long sphAdj_len).1] at hv
    have hk : k < m.edges.length := by omega
    obtain ⟨f, hf, hfk⟩ := h.inv.used k hk
    obtain ⟨q, hq⟩ := hmem f hf
    refine ⟨_, hq _ (Or.inl rfl), ?_⟩
    rw [← u_ePart h.inv h.long k hk]
    rcases hfk with rfl | rfl | rfl
    · exact Or.inl rfl
    · exact Or.inr (Or.inl rfl)
    · exact Or.inr (Or.inr rfl)

theorem AllUsed.iter {m : Mesh 3} (h : Sph m) (hu : AllUsed m) (n : ℕ) : AllUsed ((shrinkStep 0 sphAdj)^[n] m) := by
  induction n with
  | zero => exact hu
  | succ n ih => rw [Function.iterate_succ_apply']; exact ih.step (h.iter n)

/-- The vertices of a fan are different. -/
theorem FanM.nodup {m : Mesh 3} (h : Sph m) (hf : FanM m) (hu : AllUsed m) : m.verts.Nodup := by
  rw [List.nodup_iff_getElem?_ne_getElem?]
  intro i j hij hj he
  have hi : i < m.verts.length := by omega
  have single : ∀ i, i < m.verts.length → ∃ f ∈ m.faces, IsComb m.verts f.v (fun v => if v = i then 1 else 0) (m.verts.getD i 0) := by
    intro i hi
    obtain ⟨f, hfm, hif⟩ := hu i hi
    obtain ⟨d1, d2, d3⟩ := h.closed.proper f hfm
    refine ⟨f, hfm, fun v => ?_, fun v h1 h2 h3 => ?_, ?_⟩
    · simp only; split_ifs <;> norm_num
    · simp only
      refine if_neg ?_
      rintro rfl
      rcases hif with hif | hif | hif
      · exact h1 hif
      · exact h2 hif
      · exact h3 hif
    · rcases hif with rfl | rfl | rfl
      · simp [if_neg d1.symm, if_neg d2.symm]
      · simp [if_neg d1, if_neg d3.symm]
      · simp [if_neg d2, if_neg d3]
  have e : m.verts.getD i 0 = m.verts.getD j 0 := by
    rw [List.getD_eq_getElem?_getD, List.getD_eq_getElem?_getD, he]
  have h1 := single i hi
  have h2 := single j hj
  rw [← e] at h2
  obtain ⟨w, -, hw⟩ := hf (m.verts.getD i 0)
  have := congrFun ((hw _ h1).trans (hw _ h2).symm) i
  simp only [if_true] at this
  rw [if_neg (by omega)] at this
  norm_num at this

end Ellipy.Tri
