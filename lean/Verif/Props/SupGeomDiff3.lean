import Verif.Proofs.SupGeomDiff

/-! Property theorem C71 (`sup_geom_diff_3d`). -/

namespace Ellipy.Sup
open Matrix Ellipy.LA Ellipy.Ell

/-- What a value found for a triangle means: the ray meets the plane of the triangle there, at a point whose barycentric coordinates are
at least `-absTol3`. -/
theorem hit_spec {x p q r : Fin 3 → ℝ} {t : ℝ} (h : hit x p q r = some t) :
    0 < t ∧ ∃ u v : ℝ, -absTol3 ≤ u ∧ -absTol3 ≤ v ∧ u + v ≤ 1 + absTol3 ∧ t • x = (1 - u - v) • p + u • q + v • r := by
  unfold hit at h
  simp only at h
  set det := (q - p) ⬝ᵥ x ⨯₃ (r - p) with hdet
  by_cases h1 : absTol3 < |det|
  swap
  · rw [if_neg h1] at h; cases h
  rw [if_pos h1] at h
  by_cases h2 : -absTol3 ≤ 1 / det * (-p ⬝ᵥ x ⨯₃ (r - p))
  swap
  · rw [if_neg h2] at h; cases h
  rw [if_pos h2] at h
  by_cases h3 : -absTol3 ≤ 1 / det * (x ⬝ᵥ (-p) ⨯₃ (q - p)) ∧
      1 / det * (-p ⬝ᵥ x ⨯₃ (r - p)) + 1 / det * (x ⬝ᵥ (-p) ⨯₃ (q - p)) ≤ 1 + absTol3
  swap
  · rw [if_neg h3] at h; cases h
  rw [if_pos h3] at h
  by_cases h4 : 0 < 1 / det * ((r - p) ⬝ᵥ (-p) ⨯₃ (q - p))
  swap
  · rw [if_neg h4] at h; cases h
  rw [if_pos h4] at h
  injection h with h
  subst h
  refine ⟨h4, _, _, h2, h3.1, h3.2, ?_⟩
  have hd : det ≠ 0 := by
    intro h0
    rw [h0, abs_zero] at h1
    have : (0 : ℝ) < absTol3 := by unfold absTol3; norm_num
    linarith
  have key : ∀ i, ((r - p) ⬝ᵥ (-p) ⨯₃ (q - p)) * x i =
      det * p i + (-p ⬝ᵥ x ⨯₃ (r - p)) * (q i - p i) + (x ⬝ᵥ (-p) ⨯₃ (q - p)) * (r i - p i) := by
    intro i
    rw [hdet]
    fin_cases i <;> simp [cross_apply, dotProduct, Fin.sum_univ_three] <;> ring
  funext i
  have := key i
  simp only [Pi.smul_apply, Pi.add_apply, smul_eq_mul]
  generalize (r - p) ⬝ᵥ (-p) ⨯₃ (q - p) = T at *
  generalize -p ⬝ᵥ x ⨯₃ (r - p) = U at *
  generalize x ⬝ᵥ (-p) ⨯₃ (q - p) = V at *
  field_simp
  linarith

/-- A direction in the cone of a triangle that is not too thin is found. -/
theorem hit_of_cone {x p q r n : Fin 3 → ℝ} (hp : n ⬝ᵥ p = 1) (hq : n ⬝ᵥ q = 1) (hr : n ⬝ᵥ r = 1) {a b c : ℝ} (ha : 0 ≤ a) (hb : 0 ≤ b)
    (hc : 0 ≤ c) (hx : x = a • p + b • q + c • r) (hdet : absTol3 < |(q - p) ⬝ᵥ x ⨯₃ (r - p)|) : ∃ t, hit x p q r = some t := by
  have hτ : (0 : ℝ) < absTol3 := by unfold absTol3; norm_num
  unfold hit
  simp only
  set det := (q - p) ⬝ᵥ x ⨯₃ (r - p) with hd
  have hne : det ≠ 0 := by intro h0; rw [h0, abs_zero] at hdet; linarith
  set k := a + b + c with hk
  have hD : det = -k * (p ⬝ᵥ q ⨯₃ r) := by
    rw [hd, hx, hk]
    simp [cross_apply, dotProduct, Fin.sum_univ_three]; ring
  have hk0 : 0 ≤ k := by linarith
  have hkne : k ≠ 0 := by intro h0; rw [h0] at hD; exact hne (by rw [hD]; ring)
  have hkp : 0 < k := lt_of_le_of_ne hk0 (Ne.symm hkne)
  have hW : p ⬝ᵥ q ⨯₃ r ≠ 0 := by intro h0; rw [h0] at hD; exact hne (by rw [hD]; ring)
  have hu : 1 / det * (-p ⬝ᵥ x ⨯₃ (r - p)) = b / k := by
    have : -p ⬝ᵥ x ⨯₃ (r - p) = -b * (p ⬝ᵥ q ⨯₃ r) := by
      rw [hx]; simp [cross_apply, dotProduct, Fin.sum_univ_three]; ring
    rw [this, hD]; field_simp
  have hv : 1 / det * (x ⬝ᵥ (-p) ⨯₃ (q - p)) = c / k := by
    have : x ⬝ᵥ (-p) ⨯₃ (q - p) = -c * (p ⬝ᵥ q ⨯₃ r) := by
      rw [hx]; simp [cross_apply, dotProduct, Fin.sum_univ_three]; ring
    rw [this, hD]; field_simp
  have ht : 1 / det * ((r - p) ⬝ᵥ (-p) ⨯₃ (q - p)) = 1 / k := by
    have : (r - p) ⬝ᵥ (-p) ⨯₃ (q - p) = -(p ⬝ᵥ q ⨯₃ r) := by
      simp [cross_apply, dotProduct, Fin.sum_univ_three]; ring
    rw [this, hD]; field_simp
  rw [hu, hv, ht, if_pos hdet]
  have h1 : 0 ≤ b / k := div_nonneg hb hk0
  have h2 : 0 ≤ c / k := div_nonneg hc hk0
  have h3 : b / k + c / k ≤ 1 := by rw [← add_div, div_le_one hkp]; linarith
  rw [if_pos (by linarith), if_pos ⟨by linarith, by linarith⟩, if_pos (one_div_pos.mpr hkp)]
  exact ⟨_, rfl⟩

theorem foldl_getD {α : Type} (g : α → Option ℝ) : ∀ (fs : List α) (t0 : ℝ),
    (∃ f ∈ fs, g f = some (fs.foldl (fun t f => (g f).getD t) t0)) ∨ (fs.foldl (fun t f => (g f).getD t) t0 = t0 ∧ ∀ f ∈ fs, g f = none) := by
  intro fs
  induction fs with
  | nil => intro t0; exact Or.inr ⟨rfl, fun f hf => by cases hf⟩
  | cons a fs ih =>
    intro t0
    rw [List.foldl_cons]
    rcases ih ((g a).getD t0) with ⟨f, hf, h⟩ | ⟨h, hno⟩
    · exact Or.inl ⟨f, by simp [hf], h⟩
    · rw [h]
      cases ha : g a with
      | some t => exact Or.inl ⟨a, by simp, by rw [ha]; rfl⟩
      | none =>
        refine Or.inr ⟨rfl, fun f hf => ?_⟩
        rcases List.mem_cons.mp hf with rfl | hf
        · exact ha
        · exact hno f hf

/-- **C71** (part): for directions around the origin and positive differences of the support values the call returns one entry for each
direction.  Every entry is either `inf` or a number that does not exceed the support value of the difference and is below it by a factor of
at most `1 + 3 (1 + c) / 100000`, where `c` bounds the support values of the opposite directions (relative to the differences of the support
values).  The entry is a number when the direction is in the cone of a triangle `p`, `q`, `r` of `simplices` with
`|det(l / ρ, q - p, r - p)| > 1 / 100000`.  Without this condition see `C71_violated_scale`. -/
theorem C71_partial (H : Hull 3) (l : List (Fin 3 → ℝ)) (r1 r2 : List ℝ) (B : Set (Fin 3 → ℝ))
    (h1 : r1.length = l.length) (hB : List.Forall₂ (fun c ρ => IsLUB ((fun b => c ⬝ᵥ b) '' B) ρ) l r2)
    (hpos : List.Forall₂ (· < ·) r2 r1) (hz : ∀ c ∈ l, c ≠ 0) (h0 : (0 : Fin 3 → ℝ) ∈ interior (convexHull ℝ {x | x ∈ l})) :
    ∃ vals, supGeomDiff3 H (Arr.vec r1) (Arr.vec r2) (colsArr l) = .ok vals ∧ vals.length = l.length ∧
      ∀ i (hi : i < l.length), ∃ h, IsSupport (GeomDiff (Poly l r1) B) l[i] h ∧
        (vals[i]? = some .pinf ∨ ∃ e, vals[i]? = some (.fin e) ∧ 0 < e ∧ e ≤ h ∧
          ∀ c, (∀ p ∈ polarPts l r1 r2, ∀ y ∈ GeomDiff (Poly l r1) B, -(p ⬝ᵥ y) ≤ c) → h ≤ e * (1 + 3 * (1 + c) / 100000)) ∧
        ∀ fs, H.simplices (polarPts l r1 r2) = .ok fs → ∀ f ∈ fs, ∀ a b c : ℝ, 0 ≤ a → 0 ≤ b → 0 ≤ c →
          (polarPts l r1 r2).getD i 0 = a • (polarPts l r1 r2).getD (f 0) 0 + b • (polarPts l r1 r2).getD (f 1) 0 +
            c • (polarPts l r1 r2).getD (f 2) 0 →
          1 / 100000 < |(of ![(polarPts l r1 r2).getD i 0, (polarPts l r1 r2).getD (f 1) 0 - (polarPts l r1 r2).getD (f 0) 0,
            (polarPts l r1 r2).getD (f 2) 0 - (polarPts l r1 r2).getD (f 0) 0]).det| → vals[i]? ≠ some .pinf := by
  obtain ⟨hl2, hposg⟩ := List.forall₂_iff_get.mp hpos
  have h2 : r2.length = l.length := hl2.trans h1
  rw [polarPts_eq]
  set rho := List.zipWith (· - ·) r1 r2 with hrho
  have hr : rho.length = l.length := by rw [hrho, List.length_zipWith, h1, h2, Nat.min_self]
  have hp : ∀ x ∈ rho, 0 < x := by
    intro x hx
    obtain ⟨i, hi, rfl⟩ := List.getElem_of_mem hx
    have hi' : i < l.length := by rwa [hr] at hi
    have := hposg i (h2.symm ▸ hi') (h1.symm ▸ hi')
    simp only [List.get_eq_getElem] at this
    show 0 < (List.zipWith (· - ·) r1 r2)[i]
    rw [List.getElem_zipWith]
    linarith
  have hn : l.length ≠ 1 := by
    intro hn
    obtain ⟨p, rfl⟩ := List.length_eq_one_iff.mp hn
    have hzz := interior_subset h0
    have hset : {x : Fin 3 → ℝ | x ∈ [p]} = {p} := by ext x; simp
    rw [hset, convexHull_singleton] at hzz
    exact hz p (by simp) (Set.mem_singleton_iff.mp hzz).symm
  have hargs := diffArgs_vec (d := 3) ", " l r1 r2 h1 h2 hn hp
  set s := scaled l rho with hs
  have hsl : s.length = l.length := scaled_length hr
  have h0s : (0 : Fin 3 → ℝ) ∈ interior (convexHull ℝ {x | x ∈ s}) := interior_scaled hr hp h0
  have hD := mem_geomDiff h1 hB
  unfold supGeomDiff3
  rw [hargs]
  simp only
  rw [← hrho, ← hs]
  cases hfs : H.simplices s with
  | error e =>
    exfalso
    have := (H.raises_iff s).mp ⟨e, hfs⟩
    rw [this] at h0s
    exact h0s
  | ok fs =>
    simp only
    refine ⟨_, rfl, by rw [List.length_zipWith, hr, hsl, Nat.min_self], fun i hi => ?_⟩
    have hsi : i < s.length := hsl ▸ hi
    have hri : i < rho.length := hr.symm ▸ hi
    have hrpos : 0 < rho[i] := hp _ (List.getElem_mem _)
    have hsne : s[i] ≠ 0 := by
      rw [show s[i] = (rho[i])⁻¹ • l[i] from scaled_get hr hi]
      exact smul_ne_zero (inv_ne_zero hrpos.ne') (hz _ (List.getElem_mem _))
    have hval : ∀ m f, f ∈ fs → (hmf : m < l.length) → ∀ (w : Fin 3 → ℝ), (∀ i, 0 ≤ w i) → s[m] = ∑ i, w i • s.getD (f i) 0 → ∀ v : Fin 3 → ℝ,
        (∀ i, v ⬝ᵥ s.getD (f i) 0 = 1) → (∀ p ∈ s, v ⬝ᵥ p ≤ 1) → IsSupport (GeomDiff (Poly l r1) B) l[m] (rho[m] * (v ⬝ᵥ s[m])) := by
      intro m f hf hm w hw hsum v hv1 hv2
      refine facet_support hr hp hD hv2 hm hw (z := fun i => s.getD (f i) 0) (fun i => ?_) hv1 hsum
      have hb := H.bound s fs hfs f hf i
      show s.getD (f i) 0 ∈ s
      rw [getD_get hb]
      exact List.getElem_mem _
    obtain ⟨f0, hf0, w0, hw0, hsum0⟩ := H.cone hfs h0s hsne
    obtain ⟨v0, hv0, hv0'⟩ := H.normal (by norm_num) hfs h0s hf0
    have hsup := hval i f0 hf0 hi w0 hw0 hsum0 v0 hv0 hv0'
    refine ⟨_, hsup, ?_, ?_⟩
    · have hget : (List.zipWith (fun r x => quot r (dist s fs x)) rho s)[i]? = some (quot rho[i] (dist s fs s[i])) := by
        rw [List.getElem?_eq_getElem (by rw [List.length_zipWith]; omega), List.getElem_zipWith]
      rw [hget]
      rcases foldl_getD (fun f : Fin 3 → ℕ => hit s[i] (s.getD (f 0) 0) (s.getD (f 1) 0) (s.getD (f 2) 0)) fs 0 with ⟨f, hf, hh⟩ | ⟨hh, -⟩
      · have hdist : hit s[i] (s.getD (f 0) 0) (s.getD (f 1) 0) (s.getD (f 2) 0) = some (dist s fs s[i]) := hh
        right
        obtain ⟨ht, u, v, hu, hv, huv, heq⟩ := hit_spec hdist
        set t := dist s fs s[i] with htd
        obtain ⟨n, hn1, hn2⟩ := H.normal (by norm_num) hfs h0s hf
        have hnx : t * (n ⬝ᵥ s[i]) = 1 := by
          have := congrArg (fun y => n ⬝ᵥ y) heq
          simp only [dotProduct_smul, dotProduct_add, hn1, smul_eq_mul, mul_one] at this
          linarith
        refine ⟨rho[i] / t, by unfold quot; rw [if_neg ht.ne'], div_pos hrpos ht, ?_, fun c hc => ?_⟩
        · have hmem : n ∈ GeomDiff (Poly l r1) B := (hD n).mpr ((mem_polar hr hp n).mpr (fun p hp' => by rw [dotProduct_comm]; exact hn2 p hp'))
          have := hsup.2 ⟨n, hmem, rfl⟩
          have e : l[i] ⬝ᵥ n = rho[i] / t := by
            have e1 : s[i] = (rho[i])⁻¹ • l[i] := scaled_get hr hi
            rw [e1, dotProduct_smul, smul_eq_mul, dotProduct_comm] at hnx
            rw [eq_div_iff ht.ne']
            field_simp at hnx
            linarith
          simp only [e] at this
          exact this
        · obtain ⟨y, hy, hye⟩ := hsup.1
          have hyp := (mem_polar hr hp y).mp ((hD y).mp hy)
          have hmem : ∀ k, s.getD (f k) 0 ∈ s := by
            intro k
            rw [getD_get (H.bound s fs hfs f hf k)]
            exact List.getElem_mem _
          have hle : ∀ k, s.getD (f k) 0 ⬝ᵥ y ≤ 1 := fun k => hyp _ (hmem k)
          have hge : ∀ k, -(s.getD (f k) 0 ⬝ᵥ y) ≤ c := fun k => hc _ (hmem k) y hy
          have hty : t * (s[i] ⬝ᵥ y) = (1 - u - v) * (s.getD (f 0) 0 ⬝ᵥ y) + u * (s.getD (f 1) 0 ⬝ᵥ y) + v * (s.getD (f 2) 0 ⬝ᵥ y) := by
            have := congrArg (fun z => z ⬝ᵥ y) heq
            simpa only [smul_dotProduct, add_dotProduct, smul_eq_mul] using this
          have hτ : absTol3 = 1 / 100000 := rfl
          rw [hτ] at hu hv huv
          have a0 := mul_le_mul_of_nonneg_left (hle 0) (show 0 ≤ 1 - u - v + 1 / 100000 by linarith)
          have a1 := mul_le_mul_of_nonneg_left (hle 1) (show 0 ≤ u + 1 / 100000 by linarith)
          have a2 := mul_le_mul_of_nonneg_left (hle 2) (show 0 ≤ v + 1 / 100000 by linarith)
          have g0 := hge 0
          have g1 := hge 1
          have g2 := hge 2
          have hbound : t * (s[i] ⬝ᵥ y) ≤ 1 + 3 * (1 + c) / 100000 := by rw [hty]; linarith
          have hh : rho[i] * (v0 ⬝ᵥ s[i]) = rho[i] * (s[i] ⬝ᵥ y) := by
            rw [← hye]
            show l[i] ⬝ᵥ y = _
            rw [show s[i] = (rho[i])⁻¹ • l[i] from scaled_get hr hi, smul_dotProduct, smul_eq_mul, ← mul_assoc, mul_inv_cancel₀ hrpos.ne', one_mul]
          rw [hh, div_mul_eq_mul_div, le_div_iff₀ ht, mul_assoc]
          refine mul_le_mul_of_nonneg_left ?_ hrpos.le
          rw [mul_comm]
          exact hbound
      · left
        have hdist : dist s fs s[i] = 0 := hh
        rw [hdist]
        unfold quot
        rw [if_pos rfl]
    · intro fs' hfs' f hf a b c ha hb hc hcone hdet
      injection hfs' with hfs'
      subst hfs'
      obtain ⟨n, hn1, -⟩ := H.normal (by norm_num) hfs h0s hf
      rw [getD_get hsi] at hcone hdet
      have hdet' : absTol3 < |(s.getD (f 1) 0 - s.getD (f 0) 0) ⬝ᵥ s[i] ⨯₃ (s.getD (f 2) 0 - s.getD (f 0) 0)| := by
        have e : (of ![s[i], s.getD (f 1) 0 - s.getD (f 0) 0, s.getD (f 2) 0 - s.getD (f 0) 0]).det =
            -((s.getD (f 1) 0 - s.getD (f 0) 0) ⬝ᵥ s[i] ⨯₃ (s.getD (f 2) 0 - s.getD (f 0) 0)) := by
          rw [det_fin_three]
          simp [cross_apply, dotProduct, Fin.sum_univ_three]
          ring
        rw [e, abs_neg] at hdet
        exact hdet
      obtain ⟨t, ht⟩ := hit_of_cone (hn1 0) (hn1 1) (hn1 2) ha hb hc hcone hdet'
      have hget : (List.zipWith (fun r x => quot r (dist s fs x)) rho s)[i]? = some (quot rho[i] (dist s fs s[i])) := by
        rw [List.getElem?_eq_getElem (by rw [List.length_zipWith]; omega), List.getElem_zipWith]
      rw [hget]
      rcases foldl_getD (fun f : Fin 3 → ℕ => hit s[i] (s.getD (f 0) 0) (s.getD (f 1) 0) (s.getD (f 2) 0)) fs 0 with ⟨g, hg, hh⟩ | ⟨-, hno⟩
      · have hdist : hit s[i] (s.getD (g 0) 0) (s.getD (g 1) 0) (s.getD (g 2) 0) = some (dist s fs s[i]) := hh
        have hpos' := (hit_spec hdist).1
        unfold quot
        rw [if_neg hpos'.ne']
        intro hcon
        injection hcon with hcon
        cases hcon
      · have : hit s[i] (s.getD (f 0) 0) (s.getD (f 1) 0) (s.getD (f 2) 0) = none := hno f hf
        rw [ht] at this
        cases this

/-- **C71** (part): when all triangles are thick enough, all entries are numbers within the tolerance.  The condition is on the volume
of the triangle with the origin, `|det(p, q, r)| / 6`, and the ratio of the support value of the difference to the difference of the support
values. -/
theorem C71_thick_partial (H : Hull 3) (l : List (Fin 3 → ℝ)) (r1 r2 : List ℝ) (B : Set (Fin 3 → ℝ))
    (h1 : r1.length = l.length) (hB : List.Forall₂ (fun c ρ => IsLUB ((fun b => c ⬝ᵥ b) '' B) ρ) l r2)
    (hpos : List.Forall₂ (· < ·) r2 r1) (hz : ∀ c ∈ l, c ≠ 0) (h0 : (0 : Fin 3 → ℝ) ∈ interior (convexHull ℝ {x | x ∈ l}))
    (hthick : ∀ fs, H.simplices (polarPts l r1 r2) = .ok fs → ∀ f ∈ fs, ∀ i (_ : i < l.length) h,
      IsSupport (GeomDiff (Poly l r1) B) l[i] h →
      1 / 100000 < |(of fun k => (polarPts l r1 r2).getD (f k) 0).det| * (h / (r1[i] - r2.getD i 0))) :
    ∃ vals : List ℝ, supGeomDiff3 H (Arr.vec r1) (Arr.vec r2) (colsArr l) = .ok (vals.map .fin) ∧
      List.Forall₂ (fun c e => ∃ h, IsSupport (GeomDiff (Poly l r1) B) c h ∧ e ≤ h ∧
        ∀ c, (∀ p ∈ polarPts l r1 r2, ∀ y ∈ GeomDiff (Poly l r1) B, -(p ⬝ᵥ y) ≤ c) → h ≤ e * (1 + 3 * (1 + c) / 100000)) l vals := by
  obtain ⟨vals, hok, hlen, hall⟩ := C71_partial H l r1 r2 B h1 hB hpos hz h0
  have hl2 := hpos.length_eq
  have h2 : r2.length = l.length := hl2.trans h1
  have hr : (List.zipWith (· - ·) r1 r2).length = l.length := by rw [List.length_zipWith, h1, h2, Nat.min_self]
  have hp : ∀ x ∈ List.zipWith (· - ·) r1 r2, 0 < x := by
    intro x hx
    obtain ⟨i, hi, rfl⟩ := List.getElem_of_mem hx
    have hi' : i < l.length := by rwa [hr] at hi
    have := (List.forall₂_iff_get.mp hpos).2 i (h2.symm ▸ hi') (h1.symm ▸ hi')
    simp only [List.get_eq_getElem] at this
    rw [List.getElem_zipWith]
    linarith
  have h0s := interior_scaled hr hp h0
  have hfin : ∀ i (hi : i < l.length), ∃ e, vals[i]? = some (.fin e) ∧ ∃ h, IsSupport (GeomDiff (Poly l r1) B) l[i] h ∧ e ≤ h ∧
      ∀ c, (∀ p ∈ polarPts l r1 r2, ∀ y ∈ GeomDiff (Poly l r1) B, -(p ⬝ᵥ y) ≤ c) → h ≤ e * (1 + 3 * (1 + c) / 100000) := by
    intro i hi
    obtain ⟨h, hs, hor, hne⟩ := hall i hi
    rcases hor with hinf | ⟨e, he, -, hle, hge⟩
    swap
    · exact ⟨e, he, h, hs, hle, hge⟩
    exfalso
    have hsl : (polarPts l r1 r2).length = l.length := by rw [polarPts_eq]; exact scaled_length hr
    have hsi : i < (polarPts l r1 r2).length := hsl.symm ▸ hi
    rw [← polarPts_eq] at h0s
    have hrpos : 0 < r1[i] - r2[i] := by
      have := hp (List.zipWith (· - ·) r1 r2)[i] (List.getElem_mem _)
      rwa [List.getElem_zipWith] at this
    have hget : (polarPts l r1 r2)[i] = (r1[i] - r2[i])⁻¹ • l[i] := by
      have := scaled_get hr hi
      rw [List.getElem_zipWith] at this
      simp only [polarPts_eq, this]
    cases hfs : H.simplices (polarPts l r1 r2) with
    | error e =>
      have := (H.raises_iff _).mp ⟨e, hfs⟩
      rw [this] at h0s
      exact h0s
    | ok fs =>
      have hsne : (polarPts l r1 r2)[i] ≠ 0 := by
        rw [hget]
        exact smul_ne_zero (inv_ne_zero hrpos.ne') (hz _ (List.getElem_mem _))
      obtain ⟨f, hf, w, hw, hsum⟩ := H.cone hfs h0s hsne
      obtain ⟨n, hn1, hn2⟩ := H.normal (by norm_num) hfs h0s hf
      rw [Fin.sum_univ_three] at hsum
      have hthk := hthick fs hfs f hf i hi h hs
      refine hne fs hfs f hf (w 0) (w 1) (w 2) (hw 0) (hw 1) (hw 2) (by rw [getD_get hsi]; exact hsum) ?_ hinf
      -- the support value is the sum of the weights
      have hsup : IsSupport (GeomDiff (Poly l r1) B) l[i] ((r1[i] - r2[i]) * (w 0 + w 1 + w 2)) := by
        have hD := mem_geomDiff h1 hB
        have hfs2 := hfs
        have hv2' := hn2
        rw [polarPts_eq] at hv2'
        have hsum3 : (scaled l (List.zipWith (· - ·) r1 r2))[i]'((scaled_length hr).symm ▸ hi) = ∑ k, w k • (polarPts l r1 r2).getD (f k) 0 := by
          rw [Fin.sum_univ_three, ← hsum]
          simp only [polarPts_eq]
        have := facet_support hr hp hD hv2' hi hw (z := fun k => (polarPts l r1 r2).getD (f k) 0) (fun k => by
          show (polarPts l r1 r2).getD (f k) 0 ∈ _
          rw [getD_get (H.bound _ fs hfs f hf k), ← polarPts_eq]
          exact List.getElem_mem _) hn1 hsum3
        rw [hsum3, Fin.sum_univ_three, dotProduct_add, dotProduct_add, dotProduct_smul, dotProduct_smul, dotProduct_smul, hn1, hn1, hn1,
          List.getElem_zipWith] at this
        simpa only [smul_eq_mul, mul_one] using this
      have hheq : h = (r1[i] - r2[i]) * (w 0 + w 1 + w 2) := hs.unique hsup
      rw [getD_get (h2.symm ▸ hi), hheq, mul_div_cancel_left₀ _ hrpos.ne'] at hthk
      have hnn : 0 ≤ w 0 + w 1 + w 2 := add_nonneg (add_nonneg (hw 0) (hw 1)) (hw 2)
      refine lt_of_lt_of_eq hthk ?_
      rw [← abs_of_nonneg hnn, ← abs_mul]
      congr 1
      rw [getD_get hsi, hsum, det_fin_three, det_fin_three]
      simp only [of_apply, cons_val_zero, cons_val_one, cons_val_two, Pi.add_apply, Pi.smul_apply, Pi.sub_apply, smul_eq_mul, head_cons, tail_cons]
      simp
      ring
  choose! e he hh using hfin
  refine ⟨(List.range l.length).map e, ?_, ?_⟩
  · rw [hok]
    congr 1
    refine List.ext_getElem? (fun i => ?_)
    by_cases hi : i < l.length
    · rw [he i hi, List.getElem?_map, List.getElem?_map, List.getElem?_range hi]
      rfl
    · rw [List.getElem?_eq_none (by omega), List.getElem?_eq_none (by simp; omega)]
  · refine List.forall₂_iff_get.mpr ⟨by simp, fun i hi hi' => ?_⟩
    simp only [List.get_eq_getElem, List.getElem_map, List.getElem_range]
    exact hh i hi

/-- **C71**: arguments other than a matrix with three rows and two vectors of as many (not one) numbers, the second one smaller in every
place, are rejected. -/
theorem C71_rejects (H : Hull 3) (r1 r2 l : Arr ℝ)
    (h : ¬ ∃ n ≠ 1, l.shape = [3, n] ∧ r1.data.length = n ∧ r2.data.length = n ∧ VecShape r1.shape n ∧ VecShape r2.shape n ∧
      List.Forall₂ (· < ·) r2.data r1.data) : Raises (supGeomDiff3 H r1 r2 l) := by
  unfold supGeomDiff3
  cases hd : diffArgs 3 ", " r1 r2 l with
  | error e => exact ⟨e, rfl⟩
  | ok p =>
    exfalso
    obtain ⟨n, hn, a1, a2, a3, a4, a5, a6, -⟩ := (diffArgs_ok_iff 3 ", " r1 r2 l p.1 p.2).mp hd
    refine h ⟨n, hn, a1, a2, a3, a4, a5, List.forall₂_iff_get.mpr ⟨a3.trans a2.symm, fun i h1 h2 => ?_⟩⟩
    have hi : i < (List.zipWith (· - ·) r1.data r2.data).length := by rw [List.length_zipWith]; omega
    have := a6 _ (List.getElem_mem hi)
    rw [List.getElem_zipWith] at this
    simp only [List.get_eq_getElem]
    linarith

/-! ### Large sets -/

theorem third (a b c : ℝ) : (![a, b, c] : Fin 3 → ℝ) 2 = c := rfl

/-- The six directions `±e₁`, `±e₂`, `±e₃`. -/
def axes3 : List (Fin 3 → ℝ) := [![1, 0, 0], ![-1, 0, 0], ![0, 1, 0], ![0, -1, 0], ![0, 0, 1], ![0, 0, -1]]

theorem axes3_interior : (0 : Fin 3 → ℝ) ∈ interior (convexHull ℝ {x | x ∈ axes3}) := by
  have hm : ∀ x ∈ axes3, x ∈ convexHull ℝ {x | x ∈ axes3} := fun x hx => subset_convexHull ℝ _ hx
  refine interior_cross (convex_convexHull ℝ _) one_pos ?_ (fun i => ?_)
  · have := (convex_convexHull ℝ {x | x ∈ axes3}) (hm ![1, 0, 0] (by simp [axes3])) (hm ![-1, 0, 0] (by simp [axes3])) (a := 1 / 2) (b := 1 / 2)
      (by norm_num) (by norm_num) (by norm_num)
    convert this using 1
    ext i; fin_cases i <;> simp
  · have e : ∀ (v w : Fin 3 → ℝ), v ∈ axes3 → v = w → w ∈ convexHull ℝ {x | x ∈ axes3} := fun v w h h' => h' ▸ hm v h
    fin_cases i
    · exact ⟨e ![1, 0, 0] _ (by simp [axes3]) (by ext i; fin_cases i <;> simp), e ![-1, 0, 0] _ (by simp [axes3]) (by ext i; fin_cases i <;> simp)⟩
    · exact ⟨e ![0, 1, 0] _ (by simp [axes3]) (by ext i; fin_cases i <;> simp), e ![0, -1, 0] _ (by simp [axes3]) (by ext i; fin_cases i <;> simp)⟩
    · exact ⟨e ![0, 0, 1] _ (by simp [axes3]) (by ext i; fin_cases i <;> simp), e ![0, 0, -1] _ (by simp [axes3]) (by ext i; fin_cases i <;> simp)⟩

theorem hit_small {x p q r : Fin 3 → ℝ} (hx : ∀ i, |x i| ≤ 1 / 1000) (hp : ∀ i, |p i| ≤ 1 / 1000) (hq : ∀ i, |q i| ≤ 1 / 1000)
    (hr : ∀ i, |r i| ≤ 1 / 1000) : hit x p q r = none := by
  unfold hit
  simp only
  rw [if_neg]
  rw [not_lt]
  have hd : ∀ a b : Fin 3 → ℝ, (∀ i, |a i| ≤ 1 / 1000) → (∀ i, |b i| ≤ 1 / 1000) → ∀ i, |(a - b) i| ≤ 2 / 1000 := by
    intro a b ha hb i
    have h1 := abs_sub (a i) (b i)
    have h2 := ha i
    have h3 := hb i
    show |a i - b i| ≤ _
    linarith
  have h1 := hd q p hq hp
  have h2 := hd r p hr hp
  generalize q - p = a at *
  generalize r - p = b at *
  have hm : ∀ i j k, |a i * (x j * b k)| ≤ 4 / 1000000000 := by
    intro i j k
    rw [abs_mul, abs_mul]
    calc |a i| * (|x j| * |b k|) ≤ 2 / 1000 * (1 / 1000 * (2 / 1000)) :=
          mul_le_mul (h1 i) (mul_le_mul (hx j) (h2 k) (abs_nonneg _) (by norm_num)) (mul_nonneg (abs_nonneg _) (abs_nonneg _)) (by norm_num)
      _ = 4 / 1000000000 := by norm_num
  have e : a ⬝ᵥ x ⨯₃ b = a 0 * (x 1 * b 2) - a 0 * (x 2 * b 1) + (a 1 * (x 2 * b 0) - a 1 * (x 0 * b 2)) + (a 2 * (x 0 * b 1) - a 2 * (x 1 * b 0)) := by
    simp [cross_apply, dotProduct, Fin.sum_univ_three]; ring
  rw [e]
  have b1 := abs_le.mp (hm 0 1 2)
  have b2 := abs_le.mp (hm 0 2 1)
  have b3 := abs_le.mp (hm 1 2 0)
  have b4 := abs_le.mp (hm 1 0 2)
  have b5 := abs_le.mp (hm 2 0 1)
  have b6 := abs_le.mp (hm 2 1 0)
  unfold absTol3
  rw [abs_le]
  constructor <;> linarith

/-- **C71 fails** for large sets: the absolute tolerance on the determinant drops all triangles of the polar polytope of the cube
`|x_i| ≤ 1000` (minus the point `0`), and for every hull routine all six entries are `inf` instead of `1000`. -/
theorem C71_violated_scale (H : Hull 3) :
    (0 : Fin 3 → ℝ) ∈ interior (convexHull ℝ {x | x ∈ axes3}) ∧
    supGeomDiff3 H (Arr.vec (List.replicate 6 1000)) (Arr.vec (List.replicate 6 0)) (colsArr axes3) = .ok (List.replicate 6 .pinf) ∧
    ∀ c ∈ axes3, IsSupport (GeomDiff (Poly axes3 (List.replicate 6 1000)) {0}) c 1000 := by
  refine ⟨axes3_interior, ?_, ?_⟩
  · have hargs := diffArgs_vec (d := 3) ", " axes3 (List.replicate 6 1000) (List.replicate 6 0) rfl rfl (by simp [axes3]) (by simp [List.replicate])
    have hrho : List.zipWith (· - ·) (List.replicate 6 (1000 : ℝ)) (List.replicate 6 0) = List.replicate 6 1000 := by simp
    have h0s := interior_scaled (l := axes3) (rho := List.replicate 6 1000) rfl (by simp [List.replicate]) axes3_interior
    unfold supGeomDiff3
    rw [hargs]
    simp only
    rw [hrho]
    set s := scaled axes3 (List.replicate 6 1000) with hs
    have hsmall : ∀ p ∈ s, ∀ i, |p i| ≤ 1 / 1000 := by
      intro p hp i
      simp only [hs, scaled, axes3, List.replicate, List.zipWith_cons_cons, List.zipWith_nil_left, List.mem_cons, List.not_mem_nil, or_false] at hp
      rcases hp with rfl | rfl | rfl | rfl | rfl | rfl <;> fin_cases i <;> norm_num [abs_of_nonneg, abs_of_neg]
    cases hfs : H.simplices s with
    | error e =>
      exfalso
      have := (H.raises_iff s).mp ⟨e, hfs⟩
      rw [this] at h0s
      exact h0s
    | ok fs =>
      simp only
      congr 1
      have hz : ∀ p ∈ s, quot 1000 (dist s fs p) = .pinf := by
        intro p hp
        rcases foldl_getD (fun f : Fin 3 → ℕ => hit p (s.getD (f 0) 0) (s.getD (f 1) 0) (s.getD (f 2) 0)) fs 0 with ⟨f, hf, hh⟩ | ⟨hh, -⟩
        · exfalso
          have hm : ∀ k, s.getD (f k) 0 ∈ s := by
            intro k
            rw [getD_get (H.bound s fs hfs f hf k)]
            exact List.getElem_mem _
          have hh : hit p (s.getD (f 0) 0) (s.getD (f 1) 0) (s.getD (f 2) 0) = some _ := hh
          rw [hit_small (hsmall p hp) (hsmall _ (hm 0)) (hsmall _ (hm 1)) (hsmall _ (hm 2))] at hh
          cases hh
        · have hdist : dist s fs p = 0 := hh
          rw [hdist]
          unfold quot
          rw [if_pos rfl]
      have hl : s.length = 6 := rfl
      refine List.ext_getElem (by simp [hl]) (fun i h1 h2 => ?_)
      have hi : i < 6 := by simpa using h2
      rw [List.getElem_zipWith, List.getElem_replicate, List.getElem_replicate]
      exact hz _ (List.getElem_mem _)
  · have hmem : ∀ x : Fin 3 → ℝ, x ∈ GeomDiff (Poly axes3 (List.replicate 6 1000)) {0} ↔
        List.Forall₂ (fun c ρ => c ⬝ᵥ x ≤ ρ) axes3 (List.replicate 6 1000) := by
      intro x
      constructor
      · intro h
        have := h 0 rfl
        rwa [add_zero] at this
      · rintro h _ rfl
        rw [add_zero]
        exact h
    have hbox : ∀ x : Fin 3 → ℝ, x ∈ GeomDiff (Poly axes3 (List.replicate 6 1000)) {0} ↔ ∀ c ∈ axes3, c ⬝ᵥ x ≤ 1000 := by
      intro x
      rw [hmem]
      simp [axes3, List.replicate]
    intro c hc
    refine ⟨⟨(1000 : ℝ) • c, (hbox _).mpr (fun d hd => ?_), ?_⟩, ?_⟩
    · simp only [axes3, List.mem_cons, List.not_mem_nil, or_false] at hc hd
      rcases hc with rfl | rfl | rfl | rfl | rfl | rfl <;> rcases hd with rfl | rfl | rfl | rfl | rfl | rfl <;>
        norm_num [dotProduct, Fin.sum_univ_three, third]
    · simp only [axes3, List.mem_cons, List.not_mem_nil, or_false] at hc
      rcases hc with rfl | rfl | rfl | rfl | rfl | rfl <;> norm_num [dotProduct, Fin.sum_univ_three, third]
    · rintro _ ⟨x, hx, rfl⟩
      exact (hbox x).mp hx c hc

/-- The cube `|x_i| ≤ 2` minus the cube `|x_i| ≤ 1` satisfies the conditions of `C71_partial`, and the first entry is a number for every
hull routine. -/
example (H : Hull 3) : ∃ vals, supGeomDiff3 H (Arr.vec (List.replicate 6 2)) (Arr.vec (List.replicate 6 1)) (colsArr axes3) = .ok vals ∧
    ∃ e, vals[0]? = some (.fin e) ∧ 0 < e ∧ ∃ h, IsSupport (GeomDiff (Poly axes3 (List.replicate 6 2)) {b | ∀ i, |b i| ≤ 1}) ![1, 0, 0] h ∧ e ≤ h := by
  have hB : List.Forall₂ (fun c ρ => IsLUB ((fun b => c ⬝ᵥ b) '' {b : Fin 3 → ℝ | ∀ i, |b i| ≤ 1}) ρ) axes3 (List.replicate 6 1) := by
    have hlub : ∀ (c : Fin 3 → ℝ), (∀ x : Fin 3 → ℝ, (∀ i, |x i| ≤ 1) → c ⬝ᵥ x ≤ 1) → (∀ i, |c i| ≤ 1) → c ⬝ᵥ c = 1 →
        IsLUB ((fun b => c ⬝ᵥ b) '' {b : Fin 3 → ℝ | ∀ i, |b i| ≤ 1}) 1 := by
      intro c h1 h2 h3
      refine ⟨?_, fun y hy => ?_⟩
      · rintro _ ⟨x, hx, rfl⟩
        exact h1 x hx
      · rw [← h3]
        exact hy ⟨c, h2, rfl⟩
    have hx : ∀ x : Fin 3 → ℝ, (∀ i, |x i| ≤ 1) → (-1 ≤ x 0 ∧ x 0 ≤ 1) ∧ (-1 ≤ x 1 ∧ x 1 ≤ 1) ∧ -1 ≤ x 2 ∧ x 2 ≤ 1 :=
      fun x h => ⟨abs_le.mp (h 0), abs_le.mp (h 1), abs_le.mp (h 2)⟩
    have hall : ∀ c ∈ axes3, IsLUB ((fun b => c ⬝ᵥ b) '' {b : Fin 3 → ℝ | ∀ i, |b i| ≤ 1}) 1 := by
      intro c hc
      simp only [axes3, List.mem_cons, List.not_mem_nil, or_false] at hc
      rcases hc with rfl | rfl | rfl | rfl | rfl | rfl <;>
        exact hlub _ (fun x h => by have := hx x h; simp [dotProduct, Fin.sum_univ_three]; linarith) (fun i => by fin_cases i <;> simp)
          (by simp [dotProduct, Fin.sum_univ_three])
    refine List.forall₂_iff_get.mpr ⟨rfl, fun i hi hi' => ?_⟩
    rw [List.get_eq_getElem, List.get_eq_getElem, List.getElem_replicate]
    exact hall _ (List.getElem_mem _)
  obtain ⟨vals, hok, -, hall⟩ := C71_partial H axes3 (List.replicate 6 2) (List.replicate 6 1) {b | ∀ i, |b i| ≤ 1} rfl hB
    (by refine List.forall₂_iff_get.mpr ⟨rfl, fun i hi hi' => ?_⟩
        rw [List.get_eq_getElem, List.get_eq_getElem, List.getElem_replicate, List.getElem_replicate]; norm_num)
    (by intro c hc h0
        subst h0
        simp only [axes3, List.mem_cons, List.not_mem_nil, or_false] at hc
        rcases hc with h | h | h | h | h | h
        · simpa using congrFun h 0
        · simpa using congrFun h 0
        · simpa using congrFun h 1
        · simpa using congrFun h 1
        · simpa using congrFun h 2
        · simpa using congrFun h 2) axes3_interior
  refine ⟨vals, hok, ?_⟩
  obtain ⟨h, hs, hor, hfin⟩ := hall 0 (by simp [axes3])
  rcases hor with hinf | ⟨e, he, hp, hle, -⟩
  swap
  · exact ⟨e, he, hp, h, hs, hle⟩
  exfalso
  have hpts : polarPts axes3 (List.replicate 6 2) (List.replicate 6 1) = axes3 := by
    unfold polarPts axes3
    simp only [List.replicate, List.zipWith_cons_cons, List.zipWith_nil_left]
    norm_num
  rw [hpts] at hfin
  cases hfs : H.simplices axes3 with
  | error e =>
    have := (H.raises_iff _).mp ⟨e, hfs⟩
    have h0 := axes3_interior
    rw [this] at h0
    exact h0
  | ok fs =>
    have hq : (![1 / 3, 1 / 3, 1 / 3] : Fin 3 → ℝ) ∈ convexHull ℝ {x | x ∈ axes3} := by
      refine mem_convexHull_of_exists_fintype (fun _ : Fin 3 => (1 : ℝ) / 3) (![![1, 0, 0], ![0, 1, 0], ![0, 0, 1]] : Fin 3 → Fin 3 → ℝ)
        (fun i => by norm_num) (by norm_num [Fin.sum_univ_three]) (fun i => by fin_cases i <;> simp [axes3]) ?_
      rw [Fin.sum_univ_three]
      ext i; fin_cases i <;> simp
    obtain ⟨f, hf, w, hw, hw1, hsum⟩ := H.row_of hfs hq (v := ![1, 1, 1]) (by intro h; have := congrFun h 0; simp at this) (by
      intro p hp
      simp only [axes3, List.mem_cons, List.not_mem_nil, or_false] at hp
      rcases hp with rfl | rfl | rfl | rfl | rfl | rfl <;> norm_num [dotProduct, Fin.sum_univ_three, third])
    -- every coordinate is positive at some vertex
    have hv : ∀ j : Fin 3, ∃ k, f k = 2 * j.val := by
      intro j
      by_contra hno
      push Not at hno
      have hle : ∀ k, (axes3.getD (f k) 0) j ≤ 0 := by
        intro k
        have hb : f k < 6 := H.bound axes3 fs hfs f hf k
        have hk := hno k
        generalize f k = a at *
        interval_cases a <;> fin_cases j <;> simp [axes3] at hk ⊢
      have hj := congrFun hsum j
      rw [Finset.sum_apply] at hj
      have : ∑ k, (w k • axes3.getD (f k) 0) j ≤ 0 := Finset.sum_nonpos (fun k _ => by
        rw [Pi.smul_apply, smul_eq_mul]
        exact mul_nonpos_of_nonneg_of_nonpos (hw k) (hle k))
      rw [hj] at this
      fin_cases j <;> norm_num at this
    obtain ⟨k0, hk0⟩ := hv 0
    obtain ⟨k1, hk1⟩ := hv 1
    obtain ⟨k2, hk2⟩ := hv 2
    have hf' : f = fun k => f k := rfl
    refine hfin fs hfs f hf (if k0 = 0 then 1 else 0) (if k0 = 1 then 1 else 0) (if k0 = 2 then 1 else 0) (by split <;> norm_num)
      (by split <;> norm_num) (by split <;> norm_num) ?_ ?_ hinf
    · fin_cases k0 <;> simp at hk0 <;> simp [hk0]
    · fin_cases k0 <;> fin_cases k1 <;> fin_cases k2 <;> simp at hk0 hk1 hk2 <;> first | omega | skip
      all_goals (clear hall hfin hok hB; simp [hk0, hk1, hk2, det_fin_three, axes3, third] <;> norm_num)

end Ellipy.Sup
