import Mathlib.Analysis.Convex.Caratheodory
import Mathlib.Analysis.Convex.Topology
import Mathlib.Analysis.LocallyConvex.Separation
import Mathlib.LinearAlgebra.AffineSpace.FiniteDimensional
import Mathlib.LinearAlgebra.Matrix.DotProduct
import Mathlib.Topology.Connected.Clopen
import Verif.Base.Hull

/-! Facts about convex hulls of finitely many points, and satisfiability of the contract `Hull`. -/

namespace Ellipy
open Matrix

theorem mem_hull_range {d : ℕ} {E : Type} [AddCommGroup E] [Module ℝ E] (z : Fin d → E) (x : E) :
    x ∈ convexHull ℝ (Set.range z) ↔ ∃ w : Fin d → ℝ, (∀ i, 0 ≤ w i) ∧ ∑ i, w i = 1 ∧ ∑ i, w i • z i = x := by
  constructor
  · intro hx
    have hc : Convex ℝ {x : E | ∃ w : Fin d → ℝ, (∀ i, 0 ≤ w i) ∧ ∑ i, w i = 1 ∧ ∑ i, w i • z i = x} := by
      rintro _ ⟨w, hw, hw1, rfl⟩ _ ⟨v, hv, hv1, rfl⟩ a b ha hb hab
      refine ⟨fun i => a * w i + b * v i, fun i => add_nonneg (mul_nonneg ha (hw i)) (mul_nonneg hb (hv i)), ?_, ?_⟩
      · rw [Finset.sum_add_distrib, ← Finset.mul_sum, ← Finset.mul_sum, hw1, hv1, mul_one, mul_one, hab]
      · rw [Finset.smul_sum, Finset.smul_sum, ← Finset.sum_add_distrib]
        refine Finset.sum_congr rfl (fun i _ => ?_)
        rw [add_smul, mul_smul, mul_smul]
    refine convexHull_min ?_ hc hx
    rintro _ ⟨i, rfl⟩
    classical
    refine ⟨fun j => if j = i then 1 else 0, fun j => ?_, by simp, by simp⟩
    show 0 ≤ if j = i then (1 : ℝ) else 0
    split_ifs <;> norm_num
  · rintro ⟨w, hw, hw1, rfl⟩
    exact mem_convexHull_of_exists_fintype w z hw hw1 (fun i => ⟨i, rfl⟩) rfl

/-- A continuous functional on `Fin d → ℝ` is a dot product. -/
theorem functional_dot {d : ℕ} (f : (Fin d → ℝ) →ₗ[ℝ] ℝ) (x : Fin d → ℝ) : f x = (fun i => f (Pi.single i 1)) ⬝ᵥ x := by
  conv_lhs => rw [pi_eq_sum_univ' x]
  rw [map_sum]
  unfold dotProduct
  refine Finset.sum_congr rfl (fun i _ => ?_)
  rw [map_smul, smul_eq_mul, mul_comm]

/-- A boundary point of a convex set with interior points has a supporting functional. -/
theorem support_at {d : ℕ} {S : Set (Fin d → ℝ)} (hS : Convex ℝ S) (hi : (interior S).Nonempty) {x : Fin d → ℝ} (hx : x ∈ frontier S) :
    ∃ v : Fin d → ℝ, (∀ a ∈ interior S, v ⬝ᵥ a < v ⬝ᵥ x) ∧ ∀ a ∈ S, v ⬝ᵥ a ≤ v ⬝ᵥ x := by
  obtain ⟨f, hf⟩ := geometric_hahn_banach_open_point hS.interior isOpen_interior hx.2
  have hd := functional_dot (f : (Fin d → ℝ) →ₗ[ℝ] ℝ)
  refine ⟨fun i => f (Pi.single i 1), fun a ha => ?_, fun a ha => ?_⟩
  · have := hf a ha
    rwa [← ContinuousLinearMap.coe_coe, hd a, hd x] at this
  · have e1 : f a = (fun i => f (Pi.single i 1)) ⬝ᵥ a := hd a
    have e2 : f x = (fun i => f (Pi.single i 1)) ⬝ᵥ x := hd x
    rw [← e1, ← e2]
    have hc : a ∈ closure (interior S) := by
      rw [hS.closure_interior_eq_closure_of_nonempty_interior hi]
      exact subset_closure ha
    have hcl : IsClosed {y | f y ≤ f x} := isClosed_le f.continuous continuous_const
    exact closure_minimal (fun y hy => (hf y hy).le) hcl hc

/-- If a convex combination reaches the largest value then all its points with positive weight do. -/
theorem all_max {ι : Type*} [Fintype ι] {w g : ι → ℝ} {c : ℝ} (hw : ∀ i, 0 < w i) (h1 : ∑ i, w i = 1) (hle : ∀ i, g i ≤ c)
    (hs : ∑ i, w i * g i = c) (i : ι) : g i = c := by
  have h : ∑ i, w i * (c - g i) = 0 := by
    simp only [mul_sub]
    rw [Finset.sum_sub_distrib, ← Finset.sum_mul, h1, hs, one_mul, sub_self]
  rw [Finset.sum_eq_zero_iff_of_nonneg (fun i _ => mul_nonneg (hw i).le (sub_nonneg.mpr (hle i)))] at h
  have := h i (Finset.mem_univ i)
  rcases mul_eq_zero.mp this with h | h
  · exact absurd h (hw i).ne'
  · linarith

theorem dot_sum {d : ℕ} {ι : Type*} [Fintype ι] (v : Fin d → ℝ) (w : ι → ℝ) (z : ι → Fin d → ℝ) :
    v ⬝ᵥ ∑ i, w i • z i = ∑ i, w i * (v ⬝ᵥ z i) := by
  rw [dotProduct_sum]
  exact Finset.sum_congr rfl (fun i _ => by rw [dotProduct_smul, smul_eq_mul])

namespace Hull

variable {d : ℕ}

/-- Every facet has an outer normal, scaled to value one, when the origin is inside. -/
theorem normal (H : Hull d) (hd : 0 < d) {pts : List (Fin d → ℝ)} {fs : List (Fin d → ℕ)} (h : H.simplices pts = .ok fs)
    (h0 : (0 : Fin d → ℝ) ∈ interior (convexHull ℝ {x | x ∈ pts})) {f : Fin d → ℕ} (hf : f ∈ fs) :
    ∃ v : Fin d → ℝ, (∀ i, v ⬝ᵥ pts.getD (f i) 0 = 1) ∧ ∀ p ∈ pts, v ⬝ᵥ p ≤ 1 := by
  set S := convexHull ℝ {x | x ∈ pts} with hS
  have hmem : ∀ i, pts.getD (f i) 0 ∈ {x | x ∈ pts} := by
    intro i
    have := H.bound pts fs h f hf i
    rw [List.getD_eq_getElem?_getD, List.getElem?_eq_getElem this]
    exact List.getElem_mem _
  have hd' : (0 : ℝ) < d := Nat.cast_pos.mpr hd
  have hb : ∑ i, (fun _ : Fin d => (1 : ℝ) / d) i • pts.getD (f i) 0 ∈ frontier S := by
    rw [H.facets pts fs h]
    refine Set.mem_biUnion hf ?_
    rw [mem_hull_range]
    refine ⟨fun _ => 1 / d, fun _ => by positivity, ?_, rfl⟩
    rw [Finset.sum_const, Finset.card_univ, Fintype.card_fin, nsmul_eq_mul]
    field_simp
  obtain ⟨v, hv1, hv2⟩ := support_at (convex_convexHull ℝ _) ⟨0, h0⟩ hb
  set x := ∑ i, (fun _ : Fin d => (1 : ℝ) / d) i • pts.getD (f i) 0 with hx
  have hc : 0 < v ⬝ᵥ x := by
    have := hv1 0 h0
    rwa [dotProduct_zero] at this
  have hall := all_max (w := fun _ : Fin d => (1 : ℝ) / d) (g := fun i => v ⬝ᵥ pts.getD (f i) 0) (c := v ⬝ᵥ x) (fun _ => by positivity)
    (by rw [Finset.sum_const, Finset.card_univ, Fintype.card_fin, nsmul_eq_mul]; field_simp)
    (fun i => hv2 _ (subset_convexHull ℝ _ (hmem i))) (by rw [hx, dot_sum])
  refine ⟨(v ⬝ᵥ x)⁻¹ • v, fun i => ?_, fun p hp => ?_⟩
  · rw [smul_dotProduct, hall i, smul_eq_mul, inv_mul_cancel₀ hc.ne']
  · rw [smul_dotProduct, smul_eq_mul, inv_mul_le_iff₀ hc, mul_one]
    exact hv2 p (subset_convexHull ℝ _ hp)

/-- Every vector lies in the cone of some facet, when the origin is inside. -/
theorem cone (H : Hull d) {pts : List (Fin d → ℝ)} {fs : List (Fin d → ℕ)} (h : H.simplices pts = .ok fs)
    (h0 : (0 : Fin d → ℝ) ∈ interior (convexHull ℝ {x | x ∈ pts})) {x : Fin d → ℝ} (hx : x ≠ 0) :
    ∃ f ∈ fs, ∃ w : Fin d → ℝ, (∀ i, 0 ≤ w i) ∧ x = ∑ i, w i • pts.getD (f i) 0 := by
  set S := convexHull ℝ {x | x ∈ pts} with hS
  have hfin : {x | x ∈ pts}.Finite := pts.finite_toSet
  have hbd : Bornology.IsBounded S := (hfin.isCompact_convexHull (𝕜 := ℝ)).isBounded
  -- the ray leaves the hull
  obtain ⟨T, hT0, hT⟩ : ∃ T : ℝ, 0 < T ∧ T • x ∉ S := by
    obtain ⟨R, hR⟩ := hbd.subset_closedBall 0
    have hxn : 0 < ‖x‖ := norm_pos_iff.mpr hx
    refine ⟨(|R| + 1) / ‖x‖, by positivity, fun hm => ?_⟩
    have := hR hm
    rw [mem_closedBall_zero_iff, norm_smul, Real.norm_eq_abs, abs_of_pos (by positivity), div_mul_cancel₀ _ hxn.ne'] at this
    have := le_abs_self R
    linarith
  have hfr : ∃ t : ℝ, 0 ≤ t ∧ t • x ∈ frontier S := by
    by_contra hno
    push Not at hno
    have hcont : Continuous (fun t : ℝ => t • x) := by fun_prop
    have hpre : IsPreconnected (Set.Icc (0 : ℝ) T) := isPreconnected_Icc
    have := hpre.subset_or_subset (u := (fun t : ℝ => t • x) ⁻¹' interior S) (v := (fun t : ℝ => t • x) ⁻¹' (closure S)ᶜ)
      (isOpen_interior.preimage hcont) (isClosed_closure.isOpen_compl.preimage hcont)
      (Set.disjoint_left.mpr fun t ht ht' => ht' (subset_closure (interior_subset ht)))
      (fun t ht => by
        by_cases hti : t • x ∈ interior S
        · exact Or.inl hti
        · refine Or.inr (fun hc => hno t ht.1 ⟨hc, hti⟩))
    rcases this with h1 | h1
    · exact hT (interior_subset (h1 ⟨hT0.le, le_refl _⟩))
    · have := h1 (⟨le_refl _, hT0.le⟩ : (0 : ℝ) ∈ Set.Icc 0 T)
      refine this (subset_closure (interior_subset ?_))
      simpa using h0
  obtain ⟨t, ht, htf⟩ := hfr
  have htpos : 0 < t := by
    rcases ht.lt_or_eq with h1 | h1
    · exact h1
    · rw [← h1, zero_smul] at htf
      exact absurd h0 htf.2
  rw [H.facets pts fs h] at htf
  obtain ⟨f, hf, hm⟩ := Set.mem_iUnion₂.mp htf
  obtain ⟨w, hw, -, hsum⟩ := (mem_hull_range _ _).mp hm
  refine ⟨f, hf, fun i => t⁻¹ * w i, fun i => mul_nonneg (inv_nonneg.mpr ht) (hw i), ?_⟩
  have : x = t⁻¹ • (t • x) := by rw [smul_smul, inv_mul_cancel₀ htpos.ne', one_smul]
  rw [this, ← hsum, Finset.smul_sum]
  exact Finset.sum_congr rfl (fun i _ => by rw [smul_smul])

end Hull

/-- Every boundary point of the hull lies in a simplex with `d` vertices inside the boundary. -/
theorem frontier_simplex {d : ℕ} (pts : List (Fin d → ℝ)) (hi : (interior (convexHull ℝ {x | x ∈ pts})).Nonempty) {x : Fin d → ℝ}
    (hx : x ∈ frontier (convexHull ℝ {x | x ∈ pts})) :
    ∃ f : Fin d → Fin pts.length, x ∈ convexHull ℝ (Set.range fun i => pts.get (f i)) ∧
      convexHull ℝ (Set.range fun i => pts.get (f i)) ⊆ frontier (convexHull ℝ {x | x ∈ pts}) := by
  set S := convexHull ℝ {x | x ∈ pts} with hS
  have hcl : IsClosed S := (pts.finite_toSet.isCompact_convexHull (𝕜 := ℝ)).isClosed
  have hxS : x ∈ S := hcl.closure_eq ▸ hx.1
  obtain ⟨v, hv1, hv2⟩ := support_at (convex_convexHull ℝ _) hi hx
  obtain ⟨ι, _, z, w, hz, hind, hw, hw1, hsum⟩ := eq_pos_convex_span_of_mem_convexHull hxS
  have hzS : ∀ i, v ⬝ᵥ z i ≤ v ⬝ᵥ x := fun i => hv2 _ (subset_convexHull ℝ _ (hz ⟨i, rfl⟩))
  have hmax : ∀ i, v ⬝ᵥ z i = v ⬝ᵥ x := all_max hw hw1 hzS (by rw [← dot_sum, hsum])
  -- all vertices lie in a hyperplane
  have hcard : Fintype.card ι ≤ d := by
    have hne : Nonempty ι := by
      by_contra hne
      rw [not_nonempty_iff] at hne
      rw [Fintype.sum_empty] at hw1
      exact zero_ne_one hw1
    let φ : (Fin d → ℝ) →ₗ[ℝ] ℝ := LinearMap.mk ⟨fun y => v ⬝ᵥ y, fun a b => dotProduct_add _ _ _⟩ (fun c y => by
      simp only [dotProduct_smul]; rfl)
    have hφ : ∀ y, φ y = v ⬝ᵥ y := fun y => rfl
    have hφ0 : φ ≠ 0 := by
      intro h0
      obtain ⟨a, ha⟩ := hi
      have := hv1 a ha
      rw [← hφ, ← hφ, h0] at this
      simp at this
    have hsub : vectorSpan ℝ (Set.range z) ≤ LinearMap.ker φ := by
      refine Submodule.span_le.mpr ?_
      rintro _ ⟨_, ⟨i, rfl⟩, _, ⟨j, rfl⟩, rfl⟩
      show φ (z i - z j) = 0
      rw [map_sub, hφ, hφ, hmax i, hmax j, sub_self]
    have h1 := Submodule.finrank_mono hsub
    have h2 := LinearMap.finrank_range_add_finrank_ker φ
    rw [Module.finrank_fin_fun] at h2
    have h3 : Module.finrank ℝ (LinearMap.range φ) = 1 := by
      rw [LinearMap.range_eq_top.mpr (LinearMap.surjective hφ0)]
      simp
    obtain ⟨n, hn⟩ : ∃ n, Fintype.card ι = n + 1 := ⟨Fintype.card ι - 1, by have := Fintype.card_pos (α := ι); omega⟩
    have h4 := hind.finrank_vectorSpan hn
    omega
  have hne : Nonempty ι := by
    by_contra hne
    rw [not_nonempty_iff] at hne
    rw [Fintype.sum_empty] at hw1
    exact zero_ne_one hw1
  -- an enumeration of the vertices by `Fin d`
  obtain ⟨g, hg⟩ : ∃ g : Fin d → ι, Function.Surjective g := by
    let e := Fintype.equivFin ι
    refine ⟨fun j => if h : j.val < Fintype.card ι then e.symm ⟨j, h⟩ else Classical.arbitrary ι, fun i => ?_⟩
    refine ⟨⟨(e i).val, lt_of_lt_of_le (e i).isLt hcard⟩, ?_⟩
    simp
  have hpt : ∀ i, ∃ k : Fin pts.length, pts.get k = z i := fun i => List.mem_iff_get.mp (hz ⟨i, rfl⟩)
  choose k hk using hpt
  have hrange : (Set.range fun i => pts.get (k (g i))) = Set.range z := by
    ext y
    simp only [hk, Set.mem_range]
    constructor
    · rintro ⟨i, rfl⟩; exact ⟨g i, rfl⟩
    · rintro ⟨i, rfl⟩
      obtain ⟨j, rfl⟩ := hg i
      exact ⟨j, rfl⟩
  refine ⟨fun i => k (g i), ?_, ?_⟩
  · rw [hrange, ← hsum]
    exact mem_convexHull_of_exists_fintype w z (fun i => (hw i).le) hw1 (fun i => ⟨i, rfl⟩) rfl
  · rw [hrange]
    intro y hy
    have hyS : y ∈ S := convexHull_mono (fun a ha => hz ha) hy
    have hyv : v ⬝ᵥ y = v ⬝ᵥ x := by
      have hc : Convex ℝ {y : Fin d → ℝ | v ⬝ᵥ y = v ⬝ᵥ x} := by
        intro a ha b hb p q _ _ hpq
        show v ⬝ᵥ (p • a + q • b) = _
        rw [dotProduct_add, dotProduct_smul, dotProduct_smul, ha, hb, smul_eq_mul, smul_eq_mul, ← add_mul, hpq, one_mul]
      exact convexHull_min (by rintro _ ⟨i, rfl⟩; exact hmax i) hc hy
    refine ⟨subset_closure hyS, fun hyi => ?_⟩
    have := hv1 y hyi
    rw [hyv] at this
    exact lt_irrefl _ this

/-- The contract of `ConvexHull` can be met. -/
theorem nonempty_hull (d : ℕ) : Nonempty (Hull d) := by
  classical
  let F : List (Fin d → ℝ) → List (Fin d → ℕ) := fun pts =>
    ((Finset.univ : Finset (Fin d → Fin pts.length)).filter (fun f =>
      convexHull ℝ (Set.range fun i => pts.get (f i)) ⊆ frontier (convexHull ℝ {x | x ∈ pts}))).toList.map (fun f i => (f i).val)
  have hF : ∀ pts f, f ∈ F pts ↔ ∃ g : Fin d → Fin pts.length,
      convexHull ℝ (Set.range fun i => pts.get (g i)) ⊆ frontier (convexHull ℝ {x | x ∈ pts}) ∧ f = fun i => (g i).val := by
    intro pts f
    simp only [F, List.mem_map, Finset.mem_toList, Finset.mem_filter, Finset.mem_univ, true_and]
    constructor
    · rintro ⟨g, h, rfl⟩; exact ⟨g, h, rfl⟩
    · rintro ⟨g, h, rfl⟩; exact ⟨g, h, rfl⟩
  have hget : ∀ (pts : List (Fin d → ℝ)) (g : Fin d → Fin pts.length) i, pts.getD (g i).val 0 = pts.get (g i) := by
    intro pts g i
    rw [List.getD_eq_getElem?_getD, List.getElem?_eq_getElem (g i).isLt]
    rfl
  refine ⟨⟨fun pts => if interior (convexHull ℝ {x | x ∈ pts}) = ∅ then .error .pyValueError else .ok (F pts), ?_, ?_, ?_⟩⟩
  · intro pts
    by_cases h : interior (convexHull ℝ {x | x ∈ pts}) = ∅
    · rw [if_pos h]; exact iff_of_true ⟨_, rfl⟩ h
    · rw [if_neg h]; exact iff_of_false (by rintro ⟨e, he⟩; cases he) h
  · intro pts fs h f hf i
    by_cases hi : interior (convexHull ℝ {x | x ∈ pts}) = ∅
    · rw [if_pos hi] at h; cases h
    · rw [if_neg hi] at h
      injection h with h
      rw [← h] at hf
      obtain ⟨g, -, rfl⟩ := (hF pts f).mp hf
      exact (g i).isLt
  · intro pts fs h
    by_cases hi : interior (convexHull ℝ {x | x ∈ pts}) = ∅
    · rw [if_pos hi] at h; cases h
    · rw [if_neg hi] at h
      injection h with h
      rw [← h]
      ext x
      rw [Set.mem_iUnion₂]
      constructor
      · intro hx
        obtain ⟨g, hg, hsub⟩ := frontier_simplex pts (Set.nonempty_iff_ne_empty.mpr hi) hx
        refine ⟨_, (hF pts _).mpr ⟨g, hsub, rfl⟩, ?_⟩
        simp only [hget]
        exact hg
      · rintro ⟨f, hf, hx⟩
        obtain ⟨g, hsub, rfl⟩ := (hF pts f).mp hf
        simp only [hget] at hx
        exact hsub hx

/-- A convex set that contains small multiples of the coordinate vectors and of their opposites contains the origin inside. -/
theorem interior_cross {d : ℕ} {C : Set (Fin d → ℝ)} (hC : Convex ℝ C) {ε : ℝ} (hε : 0 < ε) (h0 : (0 : Fin d → ℝ) ∈ C)
    (h : ∀ i, Pi.single i ε ∈ C ∧ Pi.single i (-ε) ∈ C) : (0 : Fin d → ℝ) ∈ interior C := by
  rcases Nat.eq_zero_or_pos d with rfl | hd
  · have : C = Set.univ := by
      ext x
      rw [Subsingleton.elim x 0]
      exact iff_of_true h0 (Set.mem_univ _)
    rw [this, interior_univ]
    exact Set.mem_univ _
  have hd' : (0 : ℝ) < d := by exact_mod_cast hd
  rw [mem_interior_iff_mem_nhds, Metric.mem_nhds_iff]
  refine ⟨ε / d, div_pos hε hd', fun x hx => ?_⟩
  have hxi : ∀ i, |d * x i| ≤ ε := by
    intro i
    have h1 := norm_le_pi_norm x i
    rw [mem_ball_zero_iff] at hx
    rw [abs_mul, abs_of_pos hd']
    have h2 : |x i| ≤ ε / d := h1.trans hx.le
    calc (d : ℝ) * |x i| ≤ d * (ε / d) := mul_le_mul_of_nonneg_left h2 hd'.le
      _ = ε := by field_simp
  have hy : ∀ i, Pi.single i (d * x i) ∈ C := by
    intro i
    obtain ⟨h1, h2⟩ := abs_le.mp (hxi i)
    have := hC (h i).1 (h i).2 (a := (ε + d * x i) / (2 * ε)) (b := (ε - d * x i) / (2 * ε))
      (div_nonneg (by linarith) (by linarith)) (div_nonneg (by linarith) (by linarith)) (by field_simp; ring)
    rw [← Pi.single_smul, ← Pi.single_smul, ← Pi.single_add] at this
    have e : ((ε + d * x i) / (2 * ε)) • ε + ((ε - d * x i) / (2 * ε)) • (-ε) = d * x i := by
      rw [smul_eq_mul, smul_eq_mul]; field_simp; ring
    rwa [e] at this
  have hsum := hC.sum_mem (t := Finset.univ) (w := fun _ : Fin d => (1 : ℝ) / d) (z := fun i => Pi.single i (d * x i))
    (fun i _ => by positivity) (by simp [hd'.ne']) (fun i _ => hy i)
  have e : ∑ i, ((1 : ℝ) / d) • (Pi.single i (d * x i) : Fin d → ℝ) = x := by
    funext j
    rw [Finset.sum_apply, Finset.sum_eq_single j]
    · rw [Pi.smul_apply, Pi.single_eq_same, smul_eq_mul]; field_simp
    · intro i _ hij
      rw [Pi.smul_apply, Pi.single_eq_of_ne (Ne.symm hij), smul_zero]
    · intro hj; exact absurd (Finset.mem_univ j) hj
  rwa [e] at hsum

/-- A point of a set with a non-zero outer normal is on its boundary. -/
theorem frontier_of_max {d : ℕ} {S : Set (Fin d → ℝ)} {q v : Fin d → ℝ} (hq : q ∈ S) (hv : v ≠ 0) (h : ∀ x ∈ S, v ⬝ᵥ x ≤ v ⬝ᵥ q) :
    q ∈ frontier S := by
  refine ⟨subset_closure hq, fun hint => hv ?_⟩
  have hcont : Filter.Tendsto (fun t : ℝ => q + t • v) (nhds 0) (nhds q) := by
    have : Continuous (fun t : ℝ => q + t • v) := by fun_prop
    have h := this.tendsto 0
    rwa [zero_smul, add_zero] at h
  obtain ⟨ε, hε, hball⟩ := Metric.eventually_nhds_iff.mp (hcont.eventually (mem_interior_iff_mem_nhds.mp hint))
  have h1 := h _ (hball (y := ε / 2) (by rw [Real.dist_eq, sub_zero, abs_of_pos] <;> linarith))
  rw [dotProduct_add, dotProduct_smul, smul_eq_mul] at h1
  have h2 : 0 ≤ v ⬝ᵥ v := Finset.sum_nonneg (fun i _ => mul_self_nonneg _)
  exact dotProduct_self_eq_zero.mp (by nlinarith)

namespace Hull
variable {d : ℕ}

/-- A boundary point of the hull lies in some row. -/
theorem row_of (H : Hull d) {pts : List (Fin d → ℝ)} {fs : List (Fin d → ℕ)} (h : H.simplices pts = .ok fs) {q v : Fin d → ℝ}
    (hq : q ∈ convexHull ℝ {x | x ∈ pts}) (hv : v ≠ 0) (hmax : ∀ p ∈ pts, v ⬝ᵥ p ≤ v ⬝ᵥ q) :
    ∃ f ∈ fs, ∃ w : Fin d → ℝ, (∀ i, 0 ≤ w i) ∧ ∑ i, w i = 1 ∧ ∑ i, w i • pts.getD (f i) 0 = q := by
  have hc : convexHull ℝ {x | x ∈ pts} ⊆ {x | v ⬝ᵥ x ≤ v ⬝ᵥ q} := by
    refine convexHull_min hmax ?_
    intro x hx y hy a b ha hb hab
    show v ⬝ᵥ (a • x + b • y) ≤ v ⬝ᵥ q
    rw [dotProduct_add, dotProduct_smul, dotProduct_smul, smul_eq_mul, smul_eq_mul]
    have h1 := mul_le_mul_of_nonneg_left hx ha
    have h2 := mul_le_mul_of_nonneg_left hy hb
    have h3 : a * (v ⬝ᵥ q) + b * (v ⬝ᵥ q) = v ⬝ᵥ q := by rw [← add_mul, hab, one_mul]
    linarith
  have hf := frontier_of_max hq hv hc
  rw [H.facets pts fs h] at hf
  obtain ⟨f, hfs, hqf⟩ := Set.mem_iUnion₂.mp hf
  exact ⟨f, hfs, (mem_hull_range _ _).mp hqf⟩

/-- Another valid hull routine: the numbers within every row are permuted. -/
def reorder (H : Hull d) (σ : List (Fin d → ℝ) → (Fin d → ℕ) → Equiv.Perm (Fin d)) : Hull d where
  simplices pts := (H.simplices pts).map (List.map (fun f => f ∘ σ pts f))
  raises_iff pts := by
    rw [← H.raises_iff]
    cases h : H.simplices pts with
    | error e => exact iff_of_true ⟨e, rfl⟩ ⟨e, rfl⟩
    | ok fs => exact iff_of_false (by rintro ⟨e, he⟩; cases he) (by rintro ⟨e, he⟩; cases he)
  bound pts gs hg f hf i := by
    cases h : H.simplices pts with
    | error e => rw [h] at hg; cases hg
    | ok fs =>
      rw [h] at hg
      injection hg with hg
      subst hg
      obtain ⟨f', hf', rfl⟩ := List.mem_map.mp hf
      exact H.bound pts fs h f' hf' _
  facets pts gs hg := by
    cases h : H.simplices pts with
    | error e => rw [h] at hg; cases hg
    | ok fs =>
      rw [h] at hg
      injection hg with hg
      subst hg
      rw [H.facets pts fs h]
      have hr : ∀ f : Fin d → ℕ, (Set.range fun i => pts.getD ((f ∘ σ pts f) i) 0) = Set.range fun i => pts.getD (f i) 0 := by
        intro f
        exact (σ pts f).surjective.range_comp (fun i => pts.getD (f i) 0)
      ext x
      simp only [Set.mem_iUnion, List.mem_map, exists_prop]
      constructor
      · rintro ⟨f, hf, hx⟩
        exact ⟨_, ⟨f, hf, rfl⟩, by rw [hr]; exact hx⟩
      · rintro ⟨_, ⟨f, hf, rfl⟩, hx⟩
        exact ⟨f, hf, by rw [hr] at hx; exact hx⟩

end Hull

end Ellipy
