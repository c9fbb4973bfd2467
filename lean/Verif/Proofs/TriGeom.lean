import Mathlib.Analysis.Convex.Combination
import Mathlib.Data.List.Perm.Basic
import Mathlib.Tactic.LinearCombination
import Mathlib.Tactic.Module
import Verif.Spec.TriGeom

/-! Geometry of the subdivision of triangles. -/

namespace Ellipy.Tri
open Matrix

variable {d : ℕ}

theorem mem_hull (t : Tria d) (x : Fin d → ℝ) :
    x ∈ t.hull ↔ ∃ α β γ : ℝ, 0 ≤ α ∧ 0 ≤ β ∧ 0 ≤ γ ∧ α + β + γ = 1 ∧ x = α • t.1 + β • t.2.1 + γ • t.2.2 := by
  constructor
  · intro h
    have hsub : t.hull ⊆ {x | ∃ α β γ : ℝ, 0 ≤ α ∧ 0 ≤ β ∧ 0 ≤ γ ∧ α + β + γ = 1 ∧ x = α • t.1 + β • t.2.1 + γ • t.2.2} := by
      refine convexHull_min ?_ ?_
      · rintro y (rfl | rfl | rfl)
        · exact ⟨1, 0, 0, by norm_num, le_rfl, le_rfl, by norm_num, by simp⟩
        · exact ⟨0, 1, 0, le_rfl, by norm_num, le_rfl, by norm_num, by simp⟩
        · exact ⟨0, 0, 1, le_rfl, le_rfl, by norm_num, by norm_num, by simp⟩
      · rintro y ⟨a, b, c, ha, hb, hc, hs, rfl⟩ z ⟨a', b', c', ha', hb', hc', hs', rfl⟩ p q hp hq hpq
        refine ⟨p * a + q * a', p * b + q * b', p * c + q * c', by positivity, by positivity, by positivity, ?_, by module⟩
        linear_combination p * hs + q * hs' + hpq
    exact hsub h
  · rintro ⟨α, β, γ, ha, hb, hc, hs, rfl⟩
    have hcx := convex_convexHull ℝ ({t.1, t.2.1, t.2.2} : Set (Fin d → ℝ))
    have h1 : t.1 ∈ convexHull ℝ ({t.1, t.2.1, t.2.2} : Set (Fin d → ℝ)) := subset_convexHull ℝ _ (by simp)
    have h2 : t.2.1 ∈ convexHull ℝ ({t.1, t.2.1, t.2.2} : Set (Fin d → ℝ)) := subset_convexHull ℝ _ (by simp)
    have h3 : t.2.2 ∈ convexHull ℝ ({t.1, t.2.1, t.2.2} : Set (Fin d → ℝ)) := subset_convexHull ℝ _ (by simp)
    rcases eq_or_ne (α + β) 0 with h0 | h0
    · have e1 : α = 0 := by linarith
      have e2 : β = 0 := by linarith
      have e3 : γ = 1 := by linarith
      subst e1 e2 e3
      simpa [Tria.hull] using h3
    · have hpos : 0 < α + β := lt_of_le_of_ne (by linarith) (Ne.symm h0)
      have h4 := hcx h1 h2 (div_nonneg ha hpos.le) (div_nonneg hb hpos.le) (by field_simp)
      have h5 := hcx h4 h3 hpos.le hc hs
      have e : (α + β) • ((α / (α + β)) • t.1 + (β / (α + β)) • t.2.1) + γ • t.2.2 = α • t.1 + β • t.2.1 + γ • t.2.2 := by
        rw [smul_add, smul_smul, smul_smul, mul_div_cancel₀ _ h0, mul_div_cancel₀ _ h0]
      rw [e] at h5
      exact h5

/-- The area by the oriented plane. -/
theorem area_plane (t : Tria d) : t.area = Real.sqrt ((∑ i, ∑ j, t.plane i j ^ 2) / 2) / 2 := by
  unfold Tria.area Tria.plane
  generalize t.2.1 - t.1 = u
  generalize t.2.2 - t.1 = v
  congr 2
  have e : ∀ i j, (u i * v j - u j * v i) ^ 2 = u i * u i * (v j * v j) + v i * v i * (u j * u j) - 2 * (u i * v i * (u j * v j)) := fun i j => by ring
  simp_rw [e, Finset.sum_sub_distrib, Finset.sum_add_distrib, ← Finset.mul_sum, ← Finset.sum_mul]
  unfold dotProduct
  ring

theorem area_of_plane {s t : Tria d} {r : ℝ} (hr : 0 ≤ r) (h : ∀ i j, s.plane i j = r * t.plane i j) : s.area = r * t.area := by
  rw [area_plane, area_plane]
  simp_rw [h, mul_pow, ← Finset.mul_sum]
  rw [mul_div_assoc, Real.sqrt_mul (sq_nonneg r), Real.sqrt_sq hr, mul_div_assoc]

/-- A triangle and the triangles between its corners and the middles of its sides. -/
theorem divides_four (a b c : Fin d → ℝ) : Divides ((a, b, c) : Tria d)
    [((1 / 2 : ℝ) • (a + b), (1 / 2 : ℝ) • (b + c), (1 / 2 : ℝ) • (a + c)), ((1 / 2 : ℝ) • (a + b), (1 / 2 : ℝ) • (a + c), a),
      ((1 / 2 : ℝ) • (b + c), (1 / 2 : ℝ) • (a + b), b), ((1 / 2 : ℝ) • (a + c), (1 / 2 : ℝ) • (b + c), c)] := by
  have hpl : ∀ s ∈ ([((1 / 2 : ℝ) • (a + b), (1 / 2 : ℝ) • (b + c), (1 / 2 : ℝ) • (a + c)), ((1 / 2 : ℝ) • (a + b), (1 / 2 : ℝ) • (a + c), a),
      ((1 / 2 : ℝ) • (b + c), (1 / 2 : ℝ) • (a + b), b), ((1 / 2 : ℝ) • (a + c), (1 / 2 : ℝ) • (b + c), c)] : List (Tria d)),
      ∀ i j, s.plane i j = (1 / 4 : ℝ) * Tria.plane ((a, b, c) : Tria d) i j := by
    intro s hs i j
    simp only [List.mem_cons, List.not_mem_nil, or_false] at hs
    rcases hs with rfl | rfl | rfl | rfl <;>
    · simp only [Tria.plane, Pi.sub_apply, Pi.add_apply, Pi.smul_apply, smul_eq_mul]
      ring
  refine ⟨?_, fun s hs => ⟨1 / 4, by norm_num, hpl s hs⟩, ?_⟩
  · ext x
    simp only [List.mem_cons, List.not_mem_nil, or_false, Set.mem_iUnion, exists_prop, exists_eq_or_imp, exists_eq_left, mem_hull]
    constructor
    · rintro (⟨α, β, γ, ha, hb, hc, hs, rfl⟩ | ⟨α, β, γ, ha, hb, hc, hs, rfl⟩ | ⟨α, β, γ, ha, hb, hc, hs, rfl⟩ | ⟨α, β, γ, ha, hb, hc, hs, rfl⟩)
      · exact ⟨(α + γ) / 2, (α + β) / 2, (β + γ) / 2, by positivity, by positivity, by positivity, by linarith, by module⟩
      · exact ⟨(α + β) / 2 + γ, α / 2, β / 2, by positivity, by positivity, by positivity, by linarith, by module⟩
      · exact ⟨β / 2, (α + β) / 2 + γ, α / 2, by positivity, by positivity, by positivity, by linarith, by module⟩
      · exact ⟨α / 2, β / 2, (α + β) / 2 + γ, by positivity, by positivity, by positivity, by linarith, by module⟩
    · rintro ⟨α, β, γ, ha, hb, hc, hs, rfl⟩
      by_cases h1 : 1 / 2 ≤ α
      · refine Or.inr (Or.inl ⟨2 * β, 2 * γ, 2 * α - 1, by linarith, by linarith, by linarith, by linarith, ?_⟩)
        have e1 : α = 1 - β - γ := by linarith
        subst e1
        module
      by_cases h2 : 1 / 2 ≤ β
      · refine Or.inr (Or.inr (Or.inl ⟨2 * γ, 2 * α, 2 * β - 1, by linarith, by linarith, by linarith, by linarith, ?_⟩))
        have e1 : β = 1 - α - γ := by linarith
        subst e1
        module
      by_cases h3 : 1 / 2 ≤ γ
      · refine Or.inr (Or.inr (Or.inr ⟨2 * α, 2 * β, 2 * γ - 1, by linarith, by linarith, by linarith, by linarith, ?_⟩))
        have e1 : γ = 1 - α - β := by linarith
        subst e1
        module
      · push Not at h1 h2 h3
        refine Or.inl ⟨1 - 2 * γ, 1 - 2 * α, 1 - 2 * β, by linarith, by linarith, by linarith, by linarith, ?_⟩
        have e1 : α = 1 - β - γ := by linarith
        subst e1
        module
  · simp only [List.map_cons, List.map_nil, List.sum_cons, List.sum_nil]
    rw [area_of_plane (by norm_num) (hpl _ (by simp)), area_of_plane (by norm_num) (hpl ((1 / 2 : ℝ) • (a + b), (1 / 2 : ℝ) • (a + c), a) (by simp)),
      area_of_plane (by norm_num) (hpl ((1 / 2 : ℝ) • (b + c), (1 / 2 : ℝ) • (a + b), b) (by simp)),
      area_of_plane (by norm_num) (hpl ((1 / 2 : ℝ) • (a + c), (1 / 2 : ℝ) • (b + c), c) (by simp))]
    ring

theorem divides_self (t : Tria d) : Divides t [t] := ⟨by simp, fun s hs => ⟨1, one_pos, by simp at hs; simp [hs]⟩, by simp⟩

/-- Subdividing the parts again. -/
theorem divides_trans {t : Tria d} {g : List (Tria d)} (h : Divides t g) {G : List (List (Tria d))} (hG : List.Forall₂ Divides g G) :
    Divides t G.flatten := by
  obtain ⟨h1, h2, h3⟩ := h
  have key : (⋃ s ∈ G.flatten, s.hull) = (⋃ s ∈ g, s.hull) ∧ (∀ s ∈ G.flatten, ∃ u ∈ g, ∃ r : ℝ, 0 < r ∧ ∀ i j, s.plane i j = r * u.plane i j) ∧
      (G.flatten.map Tria.area).sum = (g.map Tria.area).sum := by
    clear h1 h2 h3
    induction hG with
    | nil => simp
    | @cons u l g G hu hG ih =>
      obtain ⟨i1, i2, i3⟩ := ih
      refine ⟨?_, ?_, ?_⟩
      · rw [List.flatten_cons]
        simp only [List.mem_append, List.mem_cons]
        rw [Set.iUnion_congr (fun s => Set.iUnion_or ..), Set.iUnion_union_distrib, hu.1, i1]
        rw [Set.iUnion_congr (fun s => Set.iUnion_or ..), Set.iUnion_union_distrib]
        simp
      · intro s hs
        rw [List.flatten_cons, List.mem_append] at hs
        rcases hs with hs | hs
        · exact ⟨u, by simp, hu.2.1 s hs⟩
        · obtain ⟨w, hw, hr⟩ := i2 s hs
          exact ⟨w, by simp [hw], hr⟩
      · rw [List.flatten_cons, List.map_append, List.sum_append, hu.2.2, i3, List.map_cons, List.sum_cons]
  refine ⟨key.1.trans h1, fun s hs => ?_, key.2.2.trans h3⟩
  obtain ⟨u, hu, r, hr, hp⟩ := key.2.1 s hs
  obtain ⟨r', hr', hp'⟩ := h2 u hu
  exact ⟨r * r', mul_pos hr hr', fun i j => by rw [hp, hp', mul_assoc]⟩

theorem sub_refl (T : List (Tria d)) : IsSubdivision T T :=
  ⟨T.map fun t => [t], [], by rw [List.append_nil, ← List.flatMap_def, List.flatMap_singleton'], by rw [List.forall₂_map_right_iff, List.forall₂_same]; exact fun t _ => divides_self t, by simp⟩

theorem forall₂_append_split {α β : Type} {R : α → β → Prop} {l₁ l₂ : List α} {u : List β} (h : List.Forall₂ R (l₁ ++ l₂) u) :
    ∃ u₁ u₂, u = u₁ ++ u₂ ∧ List.Forall₂ R l₁ u₁ ∧ List.Forall₂ R l₂ u₂ := by
  induction l₁ generalizing u with
  | nil => exact ⟨[], u, rfl, .nil, h⟩
  | cons a l ih =>
    cases h with
    | cons hab ht =>
      obtain ⟨u₁, u₂, rfl, h1, h2⟩ := ih ht
      exact ⟨_ :: u₁, u₂, rfl, .cons hab h1, h2⟩

/-- Regrouping the subdivisions of subdivisions. -/
theorem regroup {T : List (Tria d)} {G : List (List (Tria d))} (h : List.Forall₂ Divides T G) {H : List (List (Tria d))}
    (hH : List.Forall₂ Divides G.flatten H) : ∃ K, List.Forall₂ Divides T K ∧ K.flatten = H.flatten := by
  induction h generalizing H with
  | nil => cases hH; exact ⟨[], .nil, rfl⟩
  | cons hg hG ih =>
    rw [List.flatten_cons] at hH
    obtain ⟨H1, H2, rfl, h1, h2⟩ := forall₂_append_split hH
    obtain ⟨K, hK, hK'⟩ := ih h2
    exact ⟨H1.flatten :: K, .cons (divides_trans hg h1) hK, by rw [List.flatten_cons, List.flatten_append, hK']⟩

theorem forall₂_mem_right {α β : Type} {R : α → β → Prop} {l : List α} {u : List β} (h : List.Forall₂ R l u) {b : β} (hb : b ∈ u) :
    ∃ a ∈ l, R a b := by
  induction h with
  | nil => simp at hb
  | cons hab _ ih =>
    rcases List.mem_cons.mp hb with rfl | hb
    · exact ⟨_, by simp, hab⟩
    · obtain ⟨a, ha, hr⟩ := ih hb
      exact ⟨a, by simp [ha], hr⟩

theorem forall₂_mem_left {α β : Type} {R : α → β → Prop} {l : List α} {u : List β} (h : List.Forall₂ R l u) {a : α} (ha : a ∈ l) :
    ∃ b ∈ u, R a b := by
  induction h with
  | nil => simp at ha
  | cons hab _ ih =>
    rcases List.mem_cons.mp ha with rfl | ha
    · exact ⟨_, by simp, hab⟩
    · obtain ⟨b, hb, hr⟩ := ih ha
      exact ⟨b, by simp [hb], hr⟩

theorem divides_hull {t s : Tria d} {g : List (Tria d)} (h : Divides t g) (hs : s ∈ g) : s.hull ⊆ t.hull := by
  rw [← h.1]
  exact Set.subset_biUnion_of_mem (u := fun s : Tria d => s.hull) hs

theorem sub_hull {T T' : List (Tria d)} (h : IsSubdivision T T') {s : Tria d} (hs : s ∈ T') : ∃ t ∈ T, s.hull ⊆ t.hull := by
  obtain ⟨G, F, hp, hG, hF⟩ := h
  have := hp.mem_iff.mp hs
  rcases List.mem_append.mp this with hs | hs
  · obtain ⟨g, hg, hsg⟩ := List.mem_flatten.mp hs
    obtain ⟨t, ht, hd⟩ := forall₂_mem_right hG hg
    exact ⟨t, ht, divides_hull hd hsg⟩
  · exact (hF s hs).2.2

theorem sub_perm {T U T' : List (Tria d)} (hp : T.Perm U) (h : IsSubdivision U T') : IsSubdivision T T' := by
  obtain ⟨G, F, hG0, hG, hF⟩ := h
  obtain ⟨G', hG', hGp⟩ := List.perm_comp_forall₂ hp hG
  refine ⟨G', F, hG0.trans (List.Perm.append_right _ hGp.flatten.symm), hG', fun s hs => ?_⟩
  obtain ⟨h1, h2, t, ht, h3⟩ := hF s hs
  exact ⟨h1, h2, t, hp.mem_iff.mpr ht, h3⟩

theorem sub_trans {T T' T'' : List (Tria d)} (h : IsSubdivision T T') (h' : IsSubdivision T' T'') : IsSubdivision T T'' := by
  obtain ⟨G, F, hp, hG, hF⟩ := id h
  obtain ⟨G', F', hp', hG', hF'⟩ := h'
  obtain ⟨G2, hG2, hG2p⟩ := List.perm_comp_forall₂ hp.symm hG'
  obtain ⟨H, K, rfl, hH, hK⟩ := forall₂_append_split hG2
  obtain ⟨H', hH', he⟩ := regroup hG hH
  refine ⟨H', K.flatten ++ F', ?_, hH', fun s hs => ?_⟩
  · refine hp'.trans ?_
    have := hG2p.flatten
    rw [List.flatten_append, ← he] at this
    rw [← List.append_assoc]
    exact List.Perm.append_right _ this.symm
  · rcases List.mem_append.mp hs with hs | hs
    · obtain ⟨g, hg, hsg⟩ := List.mem_flatten.mp hs
      obtain ⟨u, hu, hd⟩ := forall₂_mem_right hK hg
      obtain ⟨h1, h2, t, ht, h3⟩ := hF u hu
      obtain ⟨r, hr, hpl⟩ := hd.2.1 s hsg
      refine ⟨fun i j => by rw [hpl, h1, mul_zero], by rw [area_of_plane hr.le hpl, h2, mul_zero], t, ht, (divides_hull hd hsg).trans h3⟩
    · obtain ⟨h1, h2, t, ht, h3⟩ := hF' s hs
      obtain ⟨t', ht', h4⟩ := sub_hull h ht
      exact ⟨h1, h2, t', ht', h3.trans h4⟩

/-- The union and the total area. -/
theorem sub_total {T T' : List (Tria d)} (h : IsSubdivision T T') :
    (⋃ s ∈ T', s.hull) = (⋃ t ∈ T, t.hull) ∧ (T'.map Tria.area).sum = (T.map Tria.area).sum := by
  constructor
  · apply Set.Subset.antisymm
    · refine Set.iUnion₂_subset fun s hs => ?_
      obtain ⟨t, ht, hst⟩ := sub_hull h hs
      exact hst.trans (Set.subset_biUnion_of_mem (u := fun t : Tria d => t.hull) ht)
    · obtain ⟨G, F, hp, hG, hF⟩ := h
      refine Set.iUnion₂_subset fun t ht => ?_
      obtain ⟨g, hg, hd⟩ := forall₂_mem_left hG ht
      rw [← hd.1]
      refine Set.iUnion₂_subset fun s hs => ?_
      exact Set.subset_biUnion_of_mem (u := fun t : Tria d => t.hull) (hp.mem_iff.mpr (List.mem_append_left _ (List.mem_flatten.mpr ⟨g, hg, hs⟩)))
  · obtain ⟨G, F, hp, hG, hF⟩ := h
    have h0 : (F.map Tria.area).sum = 0 := by
      rw [List.map_congr_left (g := fun _ => (0 : ℝ)) fun s hs => (hF s hs).2.1]
      simp
    rw [(hp.map _).sum_eq, List.map_append, List.sum_append, h0, add_zero]
    clear hp hF h0
    induction hG with
    | nil => simp
    | cons hd _ ih => rw [List.flatten_cons, List.map_append, List.sum_append, hd.2.2, ih, List.map_cons, List.sum_cons]

/-- The triangle with the middle of a side as a corner. -/
theorem flat_mid (a b : Fin d → ℝ) : (∀ i j, Tria.plane (((1 / 2 : ℝ) • (a + b), a, b) : Tria d) i j = 0) ∧
    Tria.area (((1 / 2 : ℝ) • (a + b), a, b) : Tria d) = 0 := by
  have h : ∀ i j, Tria.plane (((1 / 2 : ℝ) • (a + b), a, b) : Tria d) i j = 0 := by
    intro i j
    simp only [Tria.plane, Pi.sub_apply, Pi.add_apply, Pi.smul_apply, smul_eq_mul]
    ring
  exact ⟨h, by rw [area_plane]; simp only [h]; simp⟩

/-- It lies in every triangle with this side. -/
theorem flat_hull (t : Tria d) (a b : Fin d → ℝ) (ha : a = t.1 ∨ a = t.2.1 ∨ a = t.2.2) (hb : b = t.1 ∨ b = t.2.1 ∨ b = t.2.2) :
    Tria.hull (((1 / 2 : ℝ) • (a + b), a, b) : Tria d) ⊆ t.hull := by
  have h1 : a ∈ t.hull := subset_convexHull ℝ _ (by rcases ha with rfl | rfl | rfl <;> simp)
  have h2 : b ∈ t.hull := subset_convexHull ℝ _ (by rcases hb with rfl | rfl | rfl <;> simp)
  refine convexHull_min ?_ (convex_convexHull ℝ _)
  rintro x (rfl | rfl | rfl)
  · rw [smul_add]
    exact convex_convexHull ℝ _ h1 h2 (by norm_num) (by norm_num) (by norm_num)
  · exact h1
  · exact h2

end Ellipy.Tri
