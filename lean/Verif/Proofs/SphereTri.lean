import Mathlib.Tactic.Ring
import Mathlib.Tactic.Linarith
import Mathlib.Tactic.FieldSimp
import Mathlib.Tactic.Positivity
import Verif.Model.SphereTri
import Verif.Spec.SphereTri
import Verif.Proofs.TriUniform

/-! The passes of `sphere_tri`. -/

namespace Ellipy.Tri

/-- The squared length. -/
noncomputable def sq (x : Fin 3 → ℝ) : ℝ := ∑ t, x t * x t

theorem sq_eq (x : Fin 3 → ℝ) : sq x = x 0 * x 0 + x 1 * x 1 + x 2 * x 2 := by
  unfold sq; rw [Fin.sum_univ_three]

/-- The normalised middle of two points. -/
noncomputable def mid (a b : Fin 3 → ℝ) : Fin 3 → ℝ := normRow ((1 / 2 : ℝ) • (a + b))

theorem mid_comm (a b : Fin 3 → ℝ) : mid a b = mid b a := by unfold mid; rw [add_comm]

theorem triple_ne {a b c : Fin 3 → ℝ} (h : 0 < triple a b c) : 0 < sq ((1 / 2 : ℝ) • (a + b)) ∧ 0 < sq ((1 / 2 : ℝ) • (b + c)) ∧
    0 < sq ((1 / 2 : ℝ) • (a + c)) := by
  have key : ∀ x : Fin 3 → ℝ, (¬ (x 0 = 0 ∧ x 1 = 0 ∧ x 2 = 0)) → 0 < sq x := by
    intro x hx
    rw [sq_eq]
    by_contra hn
    have h0 := mul_self_nonneg (x 0)
    have h1 := mul_self_nonneg (x 1)
    have h2 := mul_self_nonneg (x 2)
    refine hx ⟨mul_self_eq_zero.mp ?_, mul_self_eq_zero.mp ?_, mul_self_eq_zero.mp ?_⟩ <;> linarith
  unfold triple at h
  refine ⟨key _ ?_, key _ ?_, key _ ?_⟩ <;> rintro ⟨h0, h1, h2⟩ <;> simp at h0 h1 h2
  · have e0 : b 0 = - a 0 := by linarith
    have e1 : b 1 = - a 1 := by linarith
    have e2 : b 2 = - a 2 := by linarith
    rw [e0, e1, e2] at h
    ring_nf at h
    exact lt_irrefl _ h
  · have e0 : c 0 = - b 0 := by linarith
    have e1 : c 1 = - b 1 := by linarith
    have e2 : c 2 = - b 2 := by linarith
    rw [e0, e1, e2] at h
    ring_nf at h
    exact lt_irrefl _ h
  · have e0 : c 0 = - a 0 := by linarith
    have e1 : c 1 = - a 1 := by linarith
    have e2 : c 2 = - a 2 := by linarith
    rw [e0, e1, e2] at h
    ring_nf at h
    exact lt_irrefl _ h

theorem mid_form {a b : Fin 3 → ℝ} (h : 0 < sq ((1 / 2 : ℝ) • (a + b))) : ∃ s : ℝ, 0 < s ∧ ∀ i, mid a b i = s * (a i + b i) := by
  refine ⟨1 / 2 / Real.sqrt (sq ((1 / 2 : ℝ) • (a + b))), by have := Real.sqrt_pos.mpr h; positivity, fun i => ?_⟩
  unfold mid normRow
  simp only [Pi.smul_apply, Pi.add_apply, smul_eq_mul]
  unfold sq
  simp only [Pi.smul_apply, Pi.add_apply, smul_eq_mul]
  ring

theorem mid_unit {a b : Fin 3 → ℝ} (h : 0 < sq ((1 / 2 : ℝ) • (a + b))) : sq (mid a b) = 1 := by
  have h1 : sq (mid a b) = sq ((1 / 2 : ℝ) • (a + b)) / (Real.sqrt (sq ((1 / 2 : ℝ) • (a + b))) * Real.sqrt (sq ((1 / 2 : ℝ) • (a + b)))) := by
    have h2 : mid a b = fun i => ((1 / 2 : ℝ) • (a + b)) i / Real.sqrt (sq ((1 / 2 : ℝ) • (a + b))) := rfl
    rw [h2]
    generalize Real.sqrt (sq ((1 / 2 : ℝ) • (a + b))) = S
    rw [sq_eq, sq_eq]
    ring
  rw [h1, Real.mul_self_sqrt h.le, div_self h.ne']

/-- The four parts of a triangle have the orientation of the triangle. -/
theorem triple_parts {a b c : Fin 3 → ℝ} (h : 0 < triple a b c) : 0 < triple (mid a b) (mid b c) (mid a c) ∧
    0 < triple (mid a b) (mid a c) a ∧ 0 < triple (mid b c) (mid a b) b ∧ 0 < triple (mid a c) (mid b c) c := by
  obtain ⟨h1, h2, h3⟩ := triple_ne h
  obtain ⟨s, hs, e1⟩ := mid_form h1
  obtain ⟨t, ht, e2⟩ := mid_form h2
  obtain ⟨u, hu, e3⟩ := mid_form h3
  have k0 : triple (mid a b) (mid b c) (mid a c) = 2 * s * t * u * triple a b c := by unfold triple; rw [e1, e1, e1, e2, e2, e2, e3, e3, e3]; ring
  have k1 : triple (mid a b) (mid a c) a = s * u * triple a b c := by unfold triple; rw [e1, e1, e1, e3, e3, e3]; ring
  have k2 : triple (mid b c) (mid a b) b = s * t * triple a b c := by unfold triple; rw [e1, e1, e1, e2, e2, e2]; ring
  have k3 : triple (mid a c) (mid b c) c = t * u * triple a b c := by unfold triple; rw [e2, e2, e2, e3, e3, e3]; ring
  rw [k0, k1, k2, k3]
  exact ⟨by positivity, by positivity, by positivity, by positivity⟩

theorem triple_distinct {a b c : Fin 3 → ℝ} (h : 0 < triple a b c) : a ≠ b ∧ b ≠ c ∧ a ≠ c := by
  unfold triple at h
  refine ⟨?_, ?_, ?_⟩ <;> rintro rfl <;> ring_nf at h <;> exact lt_irrefl _ h

/-- The adjustment of `sphere_tri`. -/
noncomputable abbrev sphAdj : Option (List (Fin 3 → ℝ) → List (Fin 3 → ℝ)) := some (List.map normRow)

theorem sphAdj_len : KeepsLength sphAdj := by
  intro g hg l
  simp only [sphAdj, Option.mem_def, Option.some.injEq] at hg
  subst hg
  simp

/-- What the meshes of `sphere_tri` satisfy. -/
structure Sph (m : Mesh 3) : Prop where
  inv : Inv m
  closed : Closed m
  pos : ∀ f ∈ m.faces, 0 < triple (m.verts.getD f.v.1 0) (m.verts.getD f.v.2.1 0) (m.verts.getD f.v.2.2 0)
  unit : ∀ v ∈ m.verts, sq v = 1

theorem sq_sub_pos {a b : Fin 3 → ℝ} (h : a ≠ b) : 0 < ∑ t, (a t - b t) ^ 2 := by
  refine lt_of_le_of_ne (Finset.sum_nonneg (fun _ _ => sq_nonneg _)) (fun h0 => h ?_)
  have := (Finset.sum_eq_zero_iff_of_nonneg (fun t _ => sq_nonneg (a t - b t))).mp h0.symm
  funext t
  have h1 := this t (Finset.mem_univ _)
  have := pow_eq_zero_iff (two_ne_zero) |>.mp h1
  linarith

/-- The two ends of an edge are two vertices of a face. -/
theorem edge_face {m : Mesh 3} (h : Sph m) {k : ℕ} {e : ℕ × ℕ} (hk : m.edges[k]? = some e) :
    m.verts.getD e.1 0 ≠ m.verts.getD e.2 0 ∧ 0 < sq ((1 / 2 : ℝ) • (m.verts.getD e.1 0 + m.verts.getD e.2 0)) := by
  obtain ⟨f, hf, hfk⟩ := h.inv.used k (get_lt hk)
  obtain ⟨j1, j2, j3⟩ := h.closed.joins f hf
  have hp := h.pos f hf
  obtain ⟨d1, d2, d3⟩ := triple_distinct hp
  obtain ⟨s1, s2, s3⟩ := triple_ne hp
  have key : ∀ (dd : Bool) (a b : ℕ), m.edges[k]? = some (dirPair dd a b) → m.verts.getD a 0 ≠ m.verts.getD b 0 →
      0 < sq ((1 / 2 : ℝ) • (m.verts.getD a 0 + m.verts.getD b 0)) →
      m.verts.getD e.1 0 ≠ m.verts.getD e.2 0 ∧ 0 < sq ((1 / 2 : ℝ) • (m.verts.getD e.1 0 + m.verts.getD e.2 0)) := by
    intro dd a b h1 h2 h3
    rw [hk] at h1
    injection h1 with h1
    rw [h1]
    cases dd
    · exact ⟨h2.symm, by simp only [dirPair]; rw [add_comm]; exact h3⟩
    · exact ⟨h2, h3⟩
  rcases hfk with rfl | rfl | rfl
  · exact key _ _ _ j1 d1 s1
  · exact key _ _ _ j2 d2 s2
  · exact key _ _ _ j3 d3 s3

/-- Every edge is longer than zero. -/
theorem Sph.long {m : Mesh 3} (h : Sph m) (k : ℕ) (hk : k < m.edges.length) : isLong 0 m k = true := by
  have he := List.getElem?_eq_getElem hk
  unfold isLong
  rw [decide_eq_true_iff, h.inv.len_get he]
  exact Real.sqrt_pos.mpr (sq_sub_pos (edge_face h he).1)

theorem newVerts_mid_adj {m : Mesh 3} {maxLen : ℝ} {k : ℕ} {dd : Bool} {a b : ℕ} (hk : m.edges[k]? = some (dirPair dd a b)) (h : e2part maxLen m k) :
    (newVerts maxLen m sphAdj).getD (ePart maxLen m k) 0 = mid (m.verts.getD a 0) (m.verts.getD b 0) := by
  obtain ⟨r, hr, h1, h2, -⟩ := split_place maxLen m k (get_lt hk) h
  rw [hk] at h1
  unfold newVerts
  rw [h2, List.getD_eq_getElem?_getD, List.getElem?_append_right (by omega), Nat.add_sub_cancel_left]
  simp only [vNew, List.getElem?_map, h1, Option.map_some, Option.getD_some]
  cases dd
  · rw [mid_comm]; rfl
  · rfl

theorem Sph.step {m : Mesh 3} (h : Sph m) : Sph (shrinkStep 0 sphAdj m) := by
  refine ⟨h.inv.step 0 sphAdj_len, h.closed.step h.inv h.long sphAdj_len, ?_, ?_⟩
  · intro f' hf'
    show 0 < triple ((newVerts 0 m sphAdj).getD _ 0) ((newVerts 0 m sphAdj).getD _ 0) ((newVerts 0 m sphAdj).getD _ 0)
    rcases (mem_faces 0 m sphAdj f').mp hf' with ⟨f, hf, rfl⟩ | ⟨q, f, hf, hc⟩ | ⟨k, hk, h1, h2, rfl⟩
    · rw [u_kept h.inv h.long] at hf; cases hf
    · have hfm := part_mem hf
      obtain ⟨j1, j2, j3⟩ := h.closed.joins f hfm
      obtain ⟨r1, r2, r3⟩ := h.inv.row f hfm
      obtain ⟨p1, p2, p3⟩ := part_e2part 0 m (List.mem_of_getElem? hf)
      obtain ⟨t0, t1, t2, t3⟩ := triple_parts (h.pos f hfm)
      have v1 := newVerts_mid_adj j1 p1
      have v2 := newVerts_mid_adj j2 p2
      have v3 := newVerts_mid_adj j3 p3
      have o1 := newVerts_old 0 m sphAdj _ r1
      have o2 := newVerts_old 0 m sphAdj _ r2
      have o3 := newVerts_old 0 m sphAdj _ r3
      rcases hc with rfl | rfl | rfl | rfl
      · simp only [innerFace]; rw [v1, v2, v3]; exact t0
      · simp only [corner1]; rw [v1, v3, o1]; exact t1
      · simp only [corner2]; rw [v2, v1, o2]; exact t2
      · simp only [corner3]; rw [v3, v2, o3]; exact t3
    · rw [u_eKept h.inv h.long] at h2; cases h2
  · intro v hv
    rcases List.mem_append.mp hv with hv | hv
    · exact h.unit v hv
    · obtain ⟨x, hx, rfl⟩ := List.mem_map.mp hv
      unfold vNew at hx
      obtain ⟨e, he, rfl⟩ := List.mem_map.mp hx
      rw [u_splitE h.inv h.long] at he
      obtain ⟨k, hk⟩ := List.getElem?_of_mem he
      exact mid_unit (edge_face h hk).2

theorem Sph.iter {m : Mesh 3} (h : Sph m) (n : ℕ) : Sph ((shrinkStep 0 sphAdj)^[n] m) := by
  induction n with
  | zero => exact h
  | succ n ih => rw [Function.iterate_succ_apply']; exact ih.step

theorem Sph.counts {m : Mesh 3} (h : Sph m) (hv : m.verts.length = 12) (he : m.edges.length = 30) (hf : m.faces.length = 20) (n : ℕ) :
    ((shrinkStep 0 sphAdj)^[n] m).verts.length = 10 * 4 ^ n + 2 ∧ ((shrinkStep 0 sphAdj)^[n] m).edges.length = 30 * 4 ^ n ∧
    ((shrinkStep 0 sphAdj)^[n] m).faces.length = 20 * 4 ^ n := by
  induction n with
  | zero => exact ⟨hv, he, hf⟩
  | succ n ih =>
    rw [Function.iterate_succ_apply']
    obtain ⟨a, b, c⟩ := u_counts (h.iter n).inv (h.iter n).long sphAdj_len
    rw [a, b, c, ih.1, ih.2.1, ih.2.2, pow_succ]
    refine ⟨by ring, by ring, by ring⟩

end Ellipy.Tri
