import Verif.Proofs.SupGeomDiff2

/-! Property theorem C70 (`sup_geom_diff_2d`). -/

namespace Ellipy.Sup
open Matrix Ellipy.LA Ellipy.Ell

theorem scaled_polar {l : List (Fin 2 → ℝ)} {rho : List ℝ} (h : rho.length = l.length) (hp : ∀ x ∈ rho, 0 < x) (hc : Ccw l) :
    ∃ θ r, Polar (scaled l rho) θ r := by
  obtain ⟨θ, r, h1, h2⟩ := hc
  refine ⟨θ, fun i => (rho.getD i 0)⁻¹ * r i, fun i hi => ?_, fun i j hij hj => ?_⟩
  · have hi' : i < l.length := by rwa [scaled_length h] at hi
    obtain ⟨hr, hl⟩ := h1 i hi'
    have e : rho.getD i 0 = rho[i] := by rw [List.getD_eq_getElem?_getD, List.getElem?_eq_getElem (h.symm ▸ hi')]; rfl
    refine ⟨by rw [e]; exact mul_pos (inv_pos.mpr (hp _ (List.getElem_mem _))) hr, ?_⟩
    rw [scaled_get h hi', hl, e]
    ext k
    fin_cases k <;> simp <;> ring
  · exact h2 i j hij (by rwa [scaled_length h] at hj)

/-- **C70** (part): for directions listed counterclockwise around the origin, positive differences of the support values, and a first
direction whose inequality does not follow from the others, the call returns the support values of the difference, provided the rows of
`simplices` list every edge counterclockwise (edges between neighbouring directions `i`, `i + 1` may be listed either way, and rows with two equal numbers are allowed).
Without the last two conditions the call may raise, see `C70_violated_wrap` and `C70_violated_order`. -/
theorem C70_partial (H : Hull 2) (L : Lstsq) (l : List (Fin 2 → ℝ)) (r1 r2 : List ℝ) (B : Set (Fin 2 → ℝ))
    (h1 : r1.length = l.length) (hB : List.Forall₂ (fun c ρ => IsLUB ((fun b => c ⬝ᵥ b) '' B) ρ) l r2)
    (hpos : List.Forall₂ (· < ·) r2 r1) (hccw : Ccw l) (h0 : (0 : Fin 2 → ℝ) ∈ interior (convexHull ℝ {x | x ∈ l}))
    (hfirst : ∃ x : Fin 2 → ℝ, r1.getD 0 0 - r2.getD 0 0 < l.getD 0 0 ⬝ᵥ x ∧
      ∀ i, 0 < i → i < l.length → l.getD i 0 ⬝ᵥ x ≤ r1.getD i 0 - r2.getD i 0)
    (hrows : ∀ fs, H.simplices (polarPts l r1 r2) = .ok fs → ∀ f ∈ fs, f 0 = f 1 ∨
      Turn ((polarPts l r1 r2).getD (f 0) 0) ((polarPts l r1 r2).getD (f 1) 0) ∨
      (f 0 = f 1 + 1 ∧ Turn ((polarPts l r1 r2).getD (f 1) 0) ((polarPts l r1 r2).getD (f 0) 0))) :
    ∃ vals : List ℝ, supGeomDiff2 H L (Arr.vec r1) (Arr.vec r2) (colsArr l) = .ok (vals.map .fin) ∧
      List.Forall₂ (fun c h => IsSupport (GeomDiff (Poly l r1) B) c h) l vals := by
  obtain ⟨hl2, hposg⟩ := List.forall₂_iff_get.mp hpos
  have h2 : r2.length = l.length := hl2.trans h1
  set rho := List.zipWith (· - ·) r1 r2 with hrho
  have hr : rho.length = l.length := by rw [hrho, List.length_zipWith, h1, h2, Nat.min_self]
  have hp : ∀ x ∈ rho, 0 < x := by
    intro x hx
    obtain ⟨i, hi, rfl⟩ := List.getElem_of_mem hx
    have hi' : i < l.length := by rwa [hr] at hi
    have := hposg i (h2.symm ▸ hi') (h1.symm ▸ hi')
    simp only [List.get_eq_getElem] at this
    show 0 < (List.zipWith (· - ·) r1 r2)[i]
    rw [List.getElem_zipWith]
    linarith
  have hn : l.length ≠ 1 := by
    intro hn
    obtain ⟨p, rfl⟩ := List.length_eq_one_iff.mp hn
    have hz := interior_subset h0
    have hset : {x : Fin 2 → ℝ | x ∈ [p]} = {p} := by ext x; simp
    rw [hset, convexHull_singleton] at hz
    have := not_half (v := ![1, 0]) h0 (fun q hq => by
      rw [List.mem_singleton.mp hq, ← Set.mem_singleton_iff.mp hz, dotProduct_zero])
    have := congrFun this 0
    simp at this
  have hargs := diffArgs_vec (d := 2) "," l r1 r2 h1 h2 hn hp
  rw [polarPts_eq, ← hrho] at hrows
  set s := scaled l rho with hs
  have hsl : s.length = l.length := scaled_length hr
  have h0s : (0 : Fin 2 → ℝ) ∈ interior (convexHull ℝ {x | x ∈ s}) := interior_scaled hr hp h0
  obtain ⟨θ, r, hpol⟩ := scaled_polar hr hp hccw
  rw [← hs] at hpol
  have hD := mem_geomDiff h1 hB
  unfold supGeomDiff2
  rw [hargs]
  simp only
  rw [← hrho, ← hs]
  cases hfs : H.simplices s with
  | error e =>
    exfalso
    have := (H.raises_iff s).mp ⟨e, hfs⟩
    rw [this] at h0s
    exact h0s
  | ok fs =>
    simp only
    -- the first direction is not strictly inside the cone of an edge
    have hno : ∀ f ∈ fs, ∀ hl : 0 < s.length, ¬ (0 < cr (s.getD (f 0) 0) (s.getD (f 1) 0) ∧ (0 : ℝ) < cr (s.getD (f 0) 0) s[0] ∧
        (0 : ℝ) < cr s[0] (s.getD (f 1) 0) ∧ f 0 ≠ 0 ∧ f 1 ≠ 0) := by
      rintro f hf hl ⟨g1, g2, g3, g4, g5⟩
      obtain ⟨x, hx0, hx⟩ := hfirst
      obtain ⟨v, hv1, hv2⟩ := H.normal (by norm_num) hfs h0s hf
      have hc := cone_coeff (c := s[0]) g1.ne'
      have hl' : 0 < l.length := hsl ▸ hl
      have hge : ∀ i, i < l.length → rho.getD i 0 = r1.getD i 0 - r2.getD i 0 := by
        intro i hi
        rw [getD_get (hr.symm ▸ hi), getD_get (h1.symm ▸ hi), getD_get (h2.symm ▸ hi)]
        exact List.getElem_zipWith ..
      have hrp : ∀ i, i < l.length → 0 < rho.getD i 0 := fun i hi => by
        rw [getD_get (hr.symm ▸ hi)]; exact hp _ (List.getElem_mem _)
      have hsd : ∀ i, i < l.length → s.getD i 0 ⬝ᵥ x = (l.getD i 0 ⬝ᵥ x) / rho.getD i 0 := by
        intro i hi
        rw [getD_get (hsl.symm ▸ hi), getD_get hi, getD_get (hr.symm ▸ hi)]
        rw [show s[i] = (rho[i])⁻¹ • l[i] from scaled_get hr hi, smul_dotProduct, smul_eq_mul, div_eq_inv_mul]
      have hle : ∀ i, f i ≠ 0 → s.getD (f i) 0 ⬝ᵥ x ≤ 1 := by
        intro i hi
        have hb : f i < l.length := hsl ▸ H.bound s fs hfs f hf i
        rw [hsd _ hb, div_le_one (hrp _ hb), hge _ hb]
        exact hx _ (Nat.pos_of_ne_zero hi) hb
      have hgt : (1 : ℝ) < s[0] ⬝ᵥ x := by
        have := hsd 0 hl'
        rw [getD_get hl] at this
        rw [this, one_lt_div (hrp 0 hl'), hge 0 hl']
        exact hx0
      have hv0 : v ⬝ᵥ s[0] ≤ 1 := hv2 _ (List.getElem_mem _)
      have c1 := div_pos g3 g1
      have c2 := div_pos g2 g1
      rw [hc, dotProduct_add, dotProduct_smul, dotProduct_smul, hv1, hv1, smul_eq_mul, smul_eq_mul, mul_one, mul_one] at hv0
      rw [hc, add_dotProduct, smul_dotProduct, smul_dotProduct, smul_eq_mul, smul_eq_mul] at hgt
      have m1 := mul_le_mul_of_nonneg_left (hle 0 g4) c1.le
      have m2 := mul_le_mul_of_nonneg_left (hle 1 g5) c2.le
      linarith
    -- the two ends of a row listed counterclockwise
    have hcase : ∀ f ∈ fs, 0 < cr (s.getD (f 0) 0) (s.getD (f 1) 0) → f 0 < f 1 ∨ (f 1 = 0 ∧ 1 < f 0) := by
      intro f hf hcr
      have b0 := H.bound s fs hfs f hf 0
      have b1 := H.bound s fs hfs f hf 1
      have hcr' := hcr
      rw [getD_get b0, getD_get b1, hpol.cr b0 b1] at hcr
      have hsin : 0 < Real.sin (θ (f 1) - θ (f 0)) := pos_of_mul_pos_right hcr (mul_pos (hpol.form _ b0).1 (hpol.form _ b1).1).le
      rcases Nat.lt_trichotomy (f 0) (f 1) with h | h | h
      · exact Or.inl h
      · rw [h, sub_self, Real.sin_zero] at hsin
        exact absurd hsin (lt_irrefl 0)
      · right
        have g1 := hpol.mono _ _ h b0
        have hβ : θ (f 1) - θ (f 0) + 2 * Real.pi < Real.pi :=
          pos_lt_pi (by rw [Real.sin_add_two_pi]; exact hsin) (by linarith)
        by_cases hz : f 1 = 0
        · refine ⟨hz, ?_⟩
          by_contra h3
          have h4 : f 0 = 1 := by omega
          -- all directions are in the cone of this edge
          obtain ⟨v, hv1, hv2⟩ := H.normal (by norm_num) hfs h0s hf
          have hall : ∀ p ∈ s, 0 ≤ v ⬝ᵥ p := by
            intro p hpm
            obtain ⟨m, hm, rfl⟩ := List.getElem_of_mem hpm
            by_cases e0 : m = f 0
            · subst e0; have := hv1 0; rw [getD_get b0] at this; rw [this]; exact zero_le_one
            by_cases e1 : m = f 1
            · subst e1; have := hv1 1; rw [getD_get b1] at this; rw [this]; exact zero_le_one
            have hb := (hpol.between b0 b1 hm (Or.inr ⟨hz, h⟩) (by rw [getD_get b0, getD_get b1] at hcr'; exact hcr')).1
              ⟨by omega, by rw [if_neg (by omega)]; exact hm⟩
            rw [getD_get b0, getD_get b1] at hcr'
            rw [cone_coeff (c := s[m]) hcr'.ne', dotProduct_add, dotProduct_smul, dotProduct_smul]
            have e := hv1 0
            have e' := hv1 1
            rw [getD_get b0] at e
            rw [getD_get b1] at e'
            rw [e, e', smul_eq_mul, smul_eq_mul, mul_one, mul_one]
            exact (add_pos (div_pos hb.2 hcr') (div_pos hb.1 hcr')).le
          have := not_half h0s hall
          have e := hv1 0
          rw [this, zero_dotProduct] at e
          exact zero_ne_one e
        · exfalso
          have hl : 0 < s.length := by omega
          have g2 := hpol.mono 0 _ (Nat.pos_of_ne_zero hz) b1
          have g3 := hpol.mono 0 (f 0) (by omega) b0
          refine hno f hf hl ⟨hcr', ?_, ?_, by omega, hz⟩
          · rw [getD_get b0, hpol.cr b0 hl]
            refine mul_pos (mul_pos (hpol.form _ b0).1 (hpol.form _ hl).1) ?_
            rw [← Real.sin_add_two_pi]
            exact Real.sin_pos_of_pos_of_lt_pi (by linarith) (by linarith)
          · rw [getD_get b1, hpol.cr hl b1]
            refine mul_pos (mul_pos (hpol.form _ hl).1 (hpol.form _ b1).1) ?_
            exact Real.sin_pos_of_pos_of_lt_pi (by linarith) (by linarith)
    have hval : ∀ (v : Fin 2 → ℝ) f, f ∈ fs → (∀ i, v ⬝ᵥ s.getD (f i) 0 = 1) → (∀ p ∈ s, v ⬝ᵥ p ≤ 1) → ∀ m (hm : m < l.length)
        (w : Fin 2 → ℝ), (∀ i, 0 ≤ w i) → s[m] = ∑ i, w i • s.getD (f i) 0 →
        IsSupport (GeomDiff (Poly l r1) B) l[m] (rho[m] * (v ⬝ᵥ s[m])) := by
      intro v f hf hv1 hv2 m hm w hw hsum
      refine facet_support hr hp hD hv2 hm hw (z := fun i => s.getD (f i) 0) (fun i => ?_) hv1 hsum
      have hb := H.bound s fs hfs f hf i
      show s.getD (f i) 0 ∈ s
      rw [getD_get hb]
      exact List.getElem_mem _
    obtain ⟨w, hw, hinv⟩ := runFaces_ok L s
      (fun m x => 0 < x ∧ ∀ hm : m < l.length, IsSupport (GeomDiff (Poly l r1) B) l[m] (rho[m] / x))
      (fun f m => 0 < cr (s.getD (f 0) 0) (s.getD (f 1) 0) ∧ Between s.length (f 0) (f 1) m) fs (fun _ => 1) (by
      intro f hf w
      have b0 := H.bound s fs hfs f hf 0
      have b1 := H.bound s fs hfs f hf 1
      rcases hrows fs hfs f hf with heq | hcr | ⟨hadj, hcr⟩
      · unfold faceStep
        simp only
        rw [if_neg (show ¬ ((f 1 : ℤ) - f 0 < -1) by omega), if_neg (by omega)]
        refine ⟨w, rfl, fun m hm => absurd hm.1 ?_, fun m _ => rfl⟩
        rw [heq]
        unfold cr
        linarith
      · have hcr : 0 < cr (s.getD (f 0) 0) (s.getD (f 1) 0) := hcr
        have hcs := hcase f hf hcr
        obtain ⟨v, hv1, hv2⟩ := H.normal (by norm_num) hfs h0s hf
        have hset : ∀ m, f 0 < m → m < (if f 0 < f 1 then f 1 else s.length) → ∃ h : m < s.length,
            0 ≤ L.sol (of fun i j => (![s.getD (f 0) 0 - s.getD (f 1) 0, s[m]] : Fin 2 → Fin 2 → ℝ) j i) (colMat (s.getD (f 0) 0)) 1 0 ∧
            (0 < L.sol (of fun i j => (![s.getD (f 0) 0 - s.getD (f 1) 0, s[m]] : Fin 2 → Fin 2 → ℝ) j i) (colMat (s.getD (f 0) 0)) 1 0 ∧
            ∀ hm : m < l.length, IsSupport (GeomDiff (Poly l r1) B) l[m] (rho[m] /
              L.sol (of fun i j => (![s.getD (f 0) 0 - s.getD (f 1) 0, s[m]] : Fin 2 → Fin 2 → ℝ) j i) (colMat (s.getD (f 0) 0)) 1 0)) := by
          intro m g1 g2
          have hm : m < s.length := by
            by_cases h : f 0 < f 1
            · rw [if_pos h] at g2; omega
            · rw [if_neg h] at g2; exact g2
          refine ⟨hm, ?_⟩
          have hb := (hpol.between b0 b1 hm (hcs.imp id (fun h => ⟨h.1, by omega⟩)) (by rwa [getD_get b0, getD_get b1] at hcr)).1 ⟨g1, g2⟩
          have hb' : 0 < cr (s.getD (f 0) 0) s[m] ∧ 0 < cr s[m] (s.getD (f 1) 0) := by
            rw [getD_get b0, getD_get b1]; exact hb
          obtain ⟨e1, e2⟩ := edge_sol L hcr hb'.1 hb'.2 (hv1 0) (hv1 1)
          rw [e2]
          refine ⟨(inv_pos.mpr e1).le, inv_pos.mpr e1, fun hml => ?_⟩
          rw [div_inv_eq_mul]
          refine hval v f hf hv1 hv2 m hml ![cr s[m] (s.getD (f 1) 0) / cr (s.getD (f 0) 0) (s.getD (f 1) 0),
            cr (s.getD (f 0) 0) s[m] / cr (s.getD (f 0) 0) (s.getD (f 1) 0)] (fun i => ?_) ?_
          · fin_cases i
            · exact (div_pos hb'.2 hcr).le
            · exact (div_pos hb'.1 hcr).le
          · rw [Fin.sum_univ_two]
            exact cone_coeff hcr.ne'
        unfold faceStep
        simp only
        rcases hcs with h | ⟨h, h'⟩
        · rw [if_neg (show ¬ ((f 1 : ℤ) - f 0 < -1) by omega)]
          rw [if_pos h] at hset
          by_cases hlen : (1 : ℤ) < (f 1 : ℤ) - f 0
          · rw [if_pos hlen]
            obtain ⟨w', k1, k2, k3⟩ := walk_ok L s (s.getD (f 0) 0) (s.getD (f 0) 0 - s.getD (f 1) 0)
              (fun m x => 0 < x ∧ ∀ hm : m < l.length, IsSupport (GeomDiff (Poly l r1) B) l[m] (rho[m] / x))
              ((f 1 : ℤ) - f 0 - 1).toNat (f 0) w (fun m hm1 hm2 => hset m hm1 (by omega))
            refine ⟨w', k1, fun m hm => k2 m hm.2.1 ?_, fun m hm => k3 m (fun hh => hm ⟨hcr, hh.1, ?_⟩)⟩
            · have := hm.2.2; rw [if_pos h] at this; omega
            · rw [if_pos h]; omega
          · rw [if_neg hlen]
            refine ⟨w, rfl, fun m hm => ?_, fun m _ => rfl⟩
            have := hm.2
            unfold Between at this
            rw [if_pos h] at this
            omega
        · rw [if_pos (show ((f 1 : ℤ) - f 0 < -1) by omega)]
          rw [if_neg (by omega)] at hset
          by_cases hlen : (1 : ℤ) < (s.length : ℤ) + ((f 1 : ℤ) - f 0)
          · rw [if_pos hlen]
            obtain ⟨w', k1, k2, k3⟩ := walk_ok L s (s.getD (f 0) 0) (s.getD (f 0) 0 - s.getD (f 1) 0)
              (fun m x => 0 < x ∧ ∀ hm : m < l.length, IsSupport (GeomDiff (Poly l r1) B) l[m] (rho[m] / x))
              ((s.length : ℤ) + ((f 1 : ℤ) - f 0) - 1).toNat (f 0) w (fun m hm1 hm2 => hset m hm1 (by omega))
            refine ⟨w', k1, fun m hm => k2 m hm.2.1 ?_, fun m hm => k3 m (fun hh => hm ⟨hcr, hh.1, ?_⟩)⟩
            · have := hm.2.2; rw [if_neg (by omega)] at this; omega
            · rw [if_neg (by omega)]; omega
          · rw [if_neg hlen]
            refine ⟨w, rfl, fun m hm => ?_, fun m _ => rfl⟩
            have := hm.2
            unfold Between at this
            rw [if_neg (by omega)] at this
            omega
      · have hcr : 0 < cr (s.getD (f 1) 0) (s.getD (f 0) 0) := hcr
        have hneg : ¬ 0 < cr (s.getD (f 0) 0) (s.getD (f 1) 0) := by
          unfold cr at hcr ⊢
          linarith
        unfold faceStep
        simp only
        rw [if_neg (show ¬ ((f 1 : ℤ) - f 0 < -1) by omega), if_neg (by omega)]
        exact ⟨w, rfl, fun m hm => absurd hm.1 hneg, fun m _ => rfl⟩)
    rw [hw]
    simp only
    have hall : ∀ m (hm : m < l.length), 0 < w m ∧ IsSupport (GeomDiff (Poly l r1) B) l[m] (rho[m] / w m) := by
      intro m hm
      rcases hinv m with h | ⟨hw1, hnw⟩
      · exact ⟨h.1, h.2 hm⟩
      · rw [hw1]
        refine ⟨one_pos, ?_⟩
        have hms : m < s.length := hsl ▸ hm
        have hne : s[m] ≠ 0 := by
          obtain ⟨g1, g2⟩ := hpol.form m hms
          intro hz
          rw [hz] at g2
          have e0 := congrFun g2 0
          have e1 := congrFun g2 1
          simp only [Pi.zero_apply, cons_val_zero, cons_val_one] at e0 e1
          have hcs := Real.sin_sq_add_cos_sq (θ m)
          have hc0 : Real.cos (θ m) = 0 := by rcases mul_eq_zero.mp e0.symm with h | h; exact absurd h g1.ne'; exact h
          have hs0 : Real.sin (θ m) = 0 := by rcases mul_eq_zero.mp e1.symm with h | h; exact absurd h g1.ne'; exact h
          rw [hc0, hs0] at hcs
          norm_num at hcs
        obtain ⟨f, hf, c, hc, hsum⟩ := H.cone hfs h0s hne
        obtain ⟨v, hv1, hv2⟩ := H.normal (by norm_num) hfs h0s hf
        have hsup := hval v f hf hv1 hv2 m hm c hc hsum
        have b0 := H.bound s fs hfs f hf 0
        have b1 := H.bound s fs hfs f hf 1
        have hsum2 : s[m] = c 0 • s.getD (f 0) 0 + c 1 • s.getD (f 1) 0 := by rw [hsum, Fin.sum_univ_two]
        have hend : m = f 0 ∨ m = f 1 := by
          by_contra hno
          push Not at hno
          have hx1 : cr (s.getD (f 0) 0) s[m] = c 1 * cr (s.getD (f 0) 0) (s.getD (f 1) 0) := by
            rw [hsum2]; simp [cr]; ring
          have hx2 : cr s[m] (s.getD (f 1) 0) = c 0 * cr (s.getD (f 0) 0) (s.getD (f 1) 0) := by
            rw [hsum2]; simp [cr]; ring
          rcases hrows fs hfs f hf with heq | hcr | ⟨hadj, hcr⟩
          · rw [← heq, ← add_smul, getD_get b0] at hsum2
            exact hno.1 (hpol.inj hms b0 (add_nonneg (hc 0) (hc 1)) hsum2)
          · have hcr : 0 < cr (s.getD (f 0) 0) (s.getD (f 1) 0) := hcr
            have hnb : ¬ Between s.length (f 0) (f 1) m := fun hb => hnw f hf ⟨hcr, hb⟩
            have hb := (hpol.between b0 b1 hms ((hcase f hf hcr).imp id (fun h => ⟨h.1, by omega⟩))
              (by rwa [getD_get b0, getD_get b1] at hcr)).2 hnb hno.1 hno.2
            have p1 := mul_nonneg (hc 1) hcr.le
            have p2 := mul_nonneg (hc 0) hcr.le
            rw [← hx1, getD_get b0] at p1
            rw [← hx2, getD_get b1] at p2
            rcases hb with hb | hb <;> linarith
          · have hcr : 0 < cr (s.getD (f 1) 0) (s.getD (f 0) 0) := hcr
            have hnb : ¬ Between s.length (f 1) (f 0) m := by
              unfold Between
              rw [if_pos (by omega)]
              omega
            have hb := (hpol.between b1 b0 hms (Or.inl (by omega))
              (by rwa [getD_get b0, getD_get b1] at hcr)).2 hnb hno.2 hno.1
            have hy1 : cr (s.getD (f 1) 0) s[m] = c 0 * cr (s.getD (f 1) 0) (s.getD (f 0) 0) := by
              rw [hsum2]; simp [cr]; ring
            have hy2 : cr s[m] (s.getD (f 0) 0) = c 1 * cr (s.getD (f 1) 0) (s.getD (f 0) 0) := by
              rw [hsum2]; simp [cr]; ring
            have p1 := mul_nonneg (hc 0) hcr.le
            have p2 := mul_nonneg (hc 1) hcr.le
            rw [← hy1, getD_get b1] at p1
            rw [← hy2, getD_get b0] at p2
            rcases hb with hb | hb <;> linarith
        have hv : v ⬝ᵥ s[m] = 1 := by
          rcases hend with e | e
          · have := hv1 0; rw [getD_get b0] at this; subst e; exact this
          · have := hv1 1; rw [getD_get b1] at this; subst e; exact this
        rw [hv] at hsup
        rw [div_one, ← mul_one rho[m]]
        exact hsup
    refine ⟨(List.range s.length).map (fun m => rho.getD m 0 / w m), ?_, ?_⟩
    · rw [List.map_map]
      congr 1
      refine List.map_congr_left (fun m hm => ?_)
      have hm' : m < l.length := hsl ▸ List.mem_range.mp hm
      simp only [Function.comp_apply, quot]
      rw [if_neg (hall m hm').1.ne']
    · refine List.forall₂_iff_get.mpr ⟨by simp [hsl], fun i hi hi' => ?_⟩
      simp only [List.get_eq_getElem, List.getElem_map, List.getElem_range]
      rw [getD_get (hr.symm ▸ hi)]
      exact (hall i hi).2

/-- **C70**: arguments other than a matrix with two rows and two vectors of as many (not one) numbers, the second one smaller in every
place, are rejected; so are directions whose scaled points all lie on one line. -/
theorem C70_rejects (H : Hull 2) (L : Lstsq) (r1 r2 l : Arr ℝ)
    (h : ¬ ∃ n ≠ 1, l.shape = [2, n] ∧ r1.data.length = n ∧ r2.data.length = n ∧ VecShape r1.shape n ∧ VecShape r2.shape n ∧
      List.Forall₂ (· < ·) r2.data r1.data) : Raises (supGeomDiff2 H L r1 r2 l) := by
  unfold supGeomDiff2
  cases hd : diffArgs 2 "," r1 r2 l with
  | error e => exact ⟨e, rfl⟩
  | ok p =>
    exfalso
    obtain ⟨n, hn, a1, a2, a3, a4, a5, a6, -⟩ := (diffArgs_ok_iff 2 "," r1 r2 l p.1 p.2).mp hd
    refine h ⟨n, hn, a1, a2, a3, a4, a5, List.forall₂_iff_get.mpr ⟨a3.trans a2.symm, fun i h1 h2 => ?_⟩⟩
    have hi : i < (List.zipWith (· - ·) r1.data r2.data).length := by rw [List.length_zipWith]; omega
    have := a6 _ (List.getElem_mem hi)
    rw [List.getElem_zipWith] at this
    simp only [List.get_eq_getElem]
    linarith

theorem C70_flat (H : Hull 2) (L : Lstsq) (l : List (Fin 2 → ℝ)) (r1 r2 : List ℝ)
    (hflat : interior (convexHull ℝ {x | x ∈ polarPts l r1 r2}) = ∅) :
    Raises (supGeomDiff2 H L (Arr.vec r1) (Arr.vec r2) (colsArr l)) := by
  unfold supGeomDiff2
  cases hd : diffArgs 2 "," (Arr.vec r1) (Arr.vec r2) (colsArr l) with
  | error e => exact ⟨e, rfl⟩
  | ok p =>
    obtain ⟨n, hn, a1, -, -, -, -, -, a7, a8⟩ := (diffArgs_ok_iff 2 "," (Arr.vec r1) (Arr.vec r2) (colsArr l) p.1 p.2).mp hd
    obtain ⟨cols, rho⟩ := p
    simp only at a7 a8
    have hnl : n = l.length := by
      have : (colsArr l).shape = [2, l.length] := rfl
      rw [this] at a1
      injection a1 with _ a1
      injection a1 with a1 _
      exact a1.symm
    subst hnl
    rw [columns_colsArr] at a7
    subst a7 a8
    rw [polarPts_eq] at hflat
    obtain ⟨e, he⟩ := (H.raises_iff _).mpr hflat
    simp only
    refine ⟨e, ?_⟩
    show (match H.simplices (scaled cols (List.zipWith (· - ·) r1 r2)) with | .error e => _ | .ok fs => _) = _
    rw [he]

/-! ### Why the last two conditions of `C70_partial` are needed -/

/-- The five directions `(1,1)`, `±e₁`, `±e₂`, counterclockwise from the first one. -/
def wrapDirs : List (Fin 2 → ℝ) := [![1, 1], ![0, 1], ![-1, 0], ![0, -1], ![1, 0]]

theorem wrapDirs_ccw : Ccw wrapDirs := by
  have hp := Real.pi_pos
  have h3 : Real.cos (3 * Real.pi / 2) = 0 ∧ Real.sin (3 * Real.pi / 2) = -1 := by
    have : 3 * Real.pi / 2 = Real.pi / 2 + Real.pi := by ring
    rw [this, Real.cos_add_pi, Real.sin_add_pi, Real.cos_pi_div_two, Real.sin_pi_div_two, neg_zero]
    exact ⟨rfl, rfl⟩
  refine ⟨fun i => ([Real.pi / 4, Real.pi / 2, Real.pi, 3 * Real.pi / 2, 2 * Real.pi] : List ℝ).getD i 0,
    fun i => ([√2, 1, 1, 1, 1] : List ℝ).getD i 0, fun i hi => ?_, fun i j hij hj => ?_⟩
  · have hi : i < 5 := hi
    have hs : √2 * (√2 / 2) = (1 : ℝ) := by
      rw [mul_div_assoc', Real.mul_self_sqrt (by norm_num)]; norm_num
    interval_cases i
    · refine ⟨by simp, ?_⟩
      show ![1, 1] = ![√2 * Real.cos (Real.pi / 4), √2 * Real.sin (Real.pi / 4)]
      rw [Real.cos_pi_div_four, Real.sin_pi_div_four, hs]
    · refine ⟨by simp, ?_⟩
      show ![0, 1] = ![1 * Real.cos (Real.pi / 2), 1 * Real.sin (Real.pi / 2)]
      simp
    · refine ⟨by simp, ?_⟩
      show ![-1, 0] = ![1 * Real.cos Real.pi, 1 * Real.sin Real.pi]
      simp
    · refine ⟨by simp, ?_⟩
      show ![0, -1] = ![1 * Real.cos (3 * Real.pi / 2), 1 * Real.sin (3 * Real.pi / 2)]
      rw [h3.1, h3.2]; simp
    · refine ⟨by simp, ?_⟩
      show ![1, 0] = ![1 * Real.cos (2 * Real.pi), 1 * Real.sin (2 * Real.pi)]
      simp
  · have hj : j < 5 := hj
    interval_cases j <;> interval_cases i <;> simp <;> constructor <;> linarith

theorem interior_axes {C : Set (Fin 2 → ℝ)} (hC : Convex ℝ C) (h1 : ![1, 0] ∈ C) (h2 : ![0, 1] ∈ C) (h3 : ![-1, 0] ∈ C) (h4 : ![0, -1] ∈ C) :
    (0 : Fin 2 → ℝ) ∈ interior C := by
  have e1 : (Pi.single 0 1 : Fin 2 → ℝ) = ![1, 0] := by ext i; fin_cases i <;> simp
  have e2 : (Pi.single 1 1 : Fin 2 → ℝ) = ![0, 1] := by ext i; fin_cases i <;> simp
  have e3 : (Pi.single 0 (-1) : Fin 2 → ℝ) = ![-1, 0] := by ext i; fin_cases i <;> simp
  have e4 : (Pi.single 1 (-1) : Fin 2 → ℝ) = ![0, -1] := by ext i; fin_cases i <;> simp
  refine interior_cross hC one_pos ?_ (fun i => ?_)
  · have := hC h1 h3 (a := 1 / 2) (b := 1 / 2) (by norm_num) (by norm_num) (by norm_num)
    convert this using 1
    ext i; fin_cases i <;> simp
  · fin_cases i
    · exact ⟨by rw [← e1] at h1; exact h1, by rw [← e3] at h3; exact h3⟩
    · exact ⟨by rw [← e2] at h2; exact h2, by rw [← e4] at h4; exact h4⟩

theorem wrapDirs_interior : (0 : Fin 2 → ℝ) ∈ interior (convexHull ℝ {x | x ∈ wrapDirs}) := by
  have hm : ∀ x ∈ wrapDirs, x ∈ convexHull ℝ {x | x ∈ wrapDirs} := fun x hx => subset_convexHull ℝ _ hx
  exact interior_axes (convex_convexHull ℝ _) (hm _ (by simp [wrapDirs])) (hm _ (by simp [wrapDirs])) (hm _ (by simp [wrapDirs]))
    (hm _ (by simp [wrapDirs]))

/-- The support values of the point set `{0}`. -/
theorem lub_zero (l : List (Fin 2 → ℝ)) :
    List.Forall₂ (fun c ρ => IsLUB ((fun b => c ⬝ᵥ b) '' {(0 : Fin 2 → ℝ)}) ρ) l (l.map fun _ => 0) := by
  rw [List.forall₂_map_right_iff]
  refine List.forall₂_same.mpr (fun c _ => ?_)
  rw [Set.image_singleton, dotProduct_zero]
  exact isLUB_singleton

/-- **C70 fails** when the inequality of the first direction follows from the others: for the square `|x₁|, |x₂| ≤ 1` with the superfluous
inequality `x₁ + x₂ ≤ 10` in the first place, minus the point `0`, the call raises for every hull routine and every solver, although the
directions are in order around the origin and the difference is the square.  The edge between the directions `4` and `1` passes over the end
of the list, and the test `ind_dir > n_dirs` lets the index `5` through (or, when the row is listed as `1, 4`, a negative value is found). -/
theorem C70_violated_wrap (H : Hull 2) (L : Lstsq) :
    Ccw wrapDirs ∧ (0 : Fin 2 → ℝ) ∈ interior (convexHull ℝ {x | x ∈ wrapDirs}) ∧
    List.Forall₂ (fun c ρ => IsLUB ((fun b => c ⬝ᵥ b) '' {(0 : Fin 2 → ℝ)}) ρ) wrapDirs [0, 0, 0, 0, 0] ∧
    List.Forall₂ (· < ·) [0, 0, 0, 0, 0] ([10, 1, 1, 1, 1] : List ℝ) ∧
    Raises (supGeomDiff2 H L (Arr.vec [10, 1, 1, 1, 1]) (Arr.vec [0, 0, 0, 0, 0]) (colsArr wrapDirs)) := by
  refine ⟨wrapDirs_ccw, wrapDirs_interior, lub_zero wrapDirs, by simp, ?_⟩
  have hargs := diffArgs_vec (d := 2) "," wrapDirs [10, 1, 1, 1, 1] [0, 0, 0, 0, 0] rfl rfl (by simp [wrapDirs]) (by simp)
  unfold supGeomDiff2
  rw [hargs]
  simp only
  have hs : scaled wrapDirs (List.zipWith (· - ·) ([10, 1, 1, 1, 1] : List ℝ) [0, 0, 0, 0, 0]) =
      [![1 / 10, 1 / 10], ![0, 1], ![-1, 0], ![0, -1], ![1, 0]] := by
    simp only [scaled, wrapDirs, List.zipWith_cons_cons, List.zipWith_nil_left]
    congr 1
    · ext i; fin_cases i <;> norm_num
    congr 1
    · ext i; fin_cases i <;> norm_num
    congr 1
    · ext i; fin_cases i <;> norm_num
    congr 1
    · ext i; fin_cases i <;> norm_num
    congr 1
    ext i; fin_cases i <;> norm_num
  rw [hs]
  set s : List (Fin 2 → ℝ) := [![1 / 10, 1 / 10], ![0, 1], ![-1, 0], ![0, -1], ![1, 0]] with hsd
  cases hfs : H.simplices s with
  | error e => exact ⟨e, rfl⟩
  | ok fs =>
    simp only
    have hq : (![1 / 2, 1 / 2] : Fin 2 → ℝ) ∈ convexHull ℝ {x | x ∈ s} := by
      have := (convex_convexHull ℝ {x | x ∈ s}) (subset_convexHull ℝ _ (show (![0, 1] : Fin 2 → ℝ) ∈ {x | x ∈ s} by simp [hsd]))
        (subset_convexHull ℝ _ (show (![1, 0] : Fin 2 → ℝ) ∈ {x | x ∈ s} by simp [hsd])) (a := 1 / 2) (b := 1 / 2) (by norm_num) (by norm_num)
        (by norm_num)
      convert this using 1
      ext i; fin_cases i <;> simp
    obtain ⟨f, hf, w, hw, hw1, hsum⟩ := H.row_of hfs hq (v := ![1, 1]) (by intro h; have := congrFun h 0; simp at this) (by
      intro p hp
      simp only [hsd, List.mem_cons, List.not_mem_nil, or_false] at hp
      rcases hp with rfl | rfl | rfl | rfl | rfl <;> norm_num [dotProduct, Fin.sum_univ_two])
    have b0 : f 0 < 5 := H.bound s fs hfs f hf 0
    have b1 : f 1 < 5 := H.bound s fs hfs f hf 1
    rw [Fin.sum_univ_two] at hw1 hsum
    have e0 := congrFun hsum 0
    have e1 := congrFun hsum 1
    have w0 := hw 0
    have w1 := hw 1
    have hrow : (f 0 = 1 ∧ f 1 = 4) ∨ (f 0 = 4 ∧ f 1 = 1) := by
      generalize f 0 = a at *
      generalize f 1 = b at *
      clear hf hfs
      interval_cases a <;> interval_cases b <;> simp [hsd] at e0 e1 ⊢ <;> linarith
    have hst : ∀ w, Raises (faceStep L s f w) := by
      intro w
      unfold faceStep
      rcases hrow with ⟨r0, r1⟩ | ⟨r0, r1⟩
      · rw [r0, r1]
        simp only
        norm_num
        show Raises (walk L s ![0, 1] (![0, 1] - ![1, 0]) 2 1 w)
        unfold walk
        have h2 : (if s.length < 1 + 1 then 0 else 1 + 1) = 2 := by simp [hsd]
        have hi : pyIndex s 2 = .ok ![-1, 0] := rfl
        simp only [h2, hi]
        have hl := lstsq_two L (a := ![0, 1] - ![1, 0]) (b := ![0, 1]) (c := ![-1, 0]) (y0 := 1) (y1 := -1) (fun i => by
          fin_cases i <;> norm_num)
        have l0 := hl 0
        have l1 := hl 1
        generalize L.sol (of fun i j => (![![0, 1] - ![1, 0], ![-1, 0]] : Fin 2 → Fin 2 → ℝ) j i) (colMat ![0, 1]) = X at *
        simp at l0 l1
        rw [if_pos (by linarith)]
        exact ⟨_, rfl⟩
      · rw [r0, r1]
        simp only
        have hlen : s.length = 5 := by simp [hsd]
        rw [hlen]
        norm_num
        unfold walk
        rw [hlen]
        have hi : pyIndex s 5 = .error .indexError := rfl
        simp only [Nat.reduceAdd, lt_irrefl, if_false, hi]
        exact ⟨_, rfl⟩
    obtain ⟨e, he⟩ := runFaces_raises L s hst fs (fun _ => 1) hf
    rw [he]
    exact ⟨e, rfl⟩

/-- The four directions `±e₁`, `±e₂`, counterclockwise. -/
def axisDirs : List (Fin 2 → ℝ) := [![1, 0], ![0, 1], ![-1, 0], ![0, -1]]

theorem axisDirs_ccw : Ccw axisDirs := by
  have hp := Real.pi_pos
  have h3 : Real.cos (3 * Real.pi / 2) = 0 ∧ Real.sin (3 * Real.pi / 2) = -1 := by
    have : 3 * Real.pi / 2 = Real.pi / 2 + Real.pi := by ring
    rw [this, Real.cos_add_pi, Real.sin_add_pi, Real.cos_pi_div_two, Real.sin_pi_div_two, neg_zero]
    exact ⟨rfl, rfl⟩
  refine ⟨fun i => ([0, Real.pi / 2, Real.pi, 3 * Real.pi / 2] : List ℝ).getD i 0, fun _ => 1, fun i hi => ?_, fun i j hij hj => ?_⟩
  · have hi : i < 4 := hi
    refine ⟨one_pos, ?_⟩
    interval_cases i
    · show ![1, 0] = ![1 * Real.cos 0, 1 * Real.sin 0]
      simp
    · show ![0, 1] = ![1 * Real.cos (Real.pi / 2), 1 * Real.sin (Real.pi / 2)]
      simp
    · show ![-1, 0] = ![1 * Real.cos Real.pi, 1 * Real.sin Real.pi]
      simp
    · show ![0, -1] = ![1 * Real.cos (3 * Real.pi / 2), 1 * Real.sin (3 * Real.pi / 2)]
      rw [h3.1, h3.2]; simp
  · have hj : j < 4 := hj
    interval_cases j <;> interval_cases i <;> simp <;> first | linarith | (constructor <;> linarith)

theorem axisDirs_interior : (0 : Fin 2 → ℝ) ∈ interior (convexHull ℝ {x | x ∈ axisDirs}) := by
  have hm : ∀ x ∈ axisDirs, x ∈ convexHull ℝ {x | x ∈ axisDirs} := fun x hx => subset_convexHull ℝ _ hx
  exact interior_axes (convex_convexHull ℝ _) (hm _ (by simp [axisDirs])) (hm _ (by simp [axisDirs])) (hm _ (by simp [axisDirs]))
    (hm _ (by simp [axisDirs]))

/-- The hull routine that sorts the two numbers of every row. -/
def sortedHull (H : Hull 2) : Hull 2 := H.reorder (fun _ f => if f 1 < f 0 then Equiv.swap 0 1 else Equiv.refl _)

/-- **C70 fails** also without superfluous inequalities when the rows are not listed counterclockwise: `scipy` does not promise any order
within the rows, and with the routine that sorts the two numbers of every row the call raises for the square `|x₁|, |x₂| ≤ 1` minus the
point `0`, every least squares solver. -/
theorem C70_violated_order (H : Hull 2) (L : Lstsq) :
    Ccw axisDirs ∧ (0 : Fin 2 → ℝ) ∈ interior (convexHull ℝ {x | x ∈ axisDirs}) ∧
    List.Forall₂ (fun c ρ => IsLUB ((fun b => c ⬝ᵥ b) '' {(0 : Fin 2 → ℝ)}) ρ) axisDirs [0, 0, 0, 0] ∧
    List.Forall₂ (· < ·) [0, 0, 0, 0] ([1, 1, 1, 1] : List ℝ) ∧
    Raises (supGeomDiff2 (sortedHull H) L (Arr.vec [1, 1, 1, 1]) (Arr.vec [0, 0, 0, 0]) (colsArr axisDirs)) := by
  refine ⟨axisDirs_ccw, axisDirs_interior, lub_zero axisDirs, by simp, ?_⟩
  have hargs := diffArgs_vec (d := 2) "," axisDirs [1, 1, 1, 1] [0, 0, 0, 0] rfl rfl (by simp [axisDirs]) (by simp)
  unfold supGeomDiff2
  rw [hargs]
  simp only
  have hs : scaled axisDirs (List.zipWith (· - ·) ([1, 1, 1, 1] : List ℝ) [0, 0, 0, 0]) = [![1, 0], ![0, 1], ![-1, 0], ![0, -1]] := by
    simp only [scaled, axisDirs, List.zipWith_cons_cons, List.zipWith_nil_left]
    congr 1
    · ext i; fin_cases i <;> norm_num
    congr 1
    · ext i; fin_cases i <;> norm_num
    congr 1
    · ext i; fin_cases i <;> norm_num
    congr 1
    ext i; fin_cases i <;> norm_num
  rw [hs]
  set s : List (Fin 2 → ℝ) := [![1, 0], ![0, 1], ![-1, 0], ![0, -1]] with hsd
  cases hfs : (sortedHull H).simplices s with
  | error e => exact ⟨e, rfl⟩
  | ok fs =>
    simp only
    have hq : (![1 / 2, -1 / 2] : Fin 2 → ℝ) ∈ convexHull ℝ {x | x ∈ s} := by
      have := (convex_convexHull ℝ {x | x ∈ s}) (subset_convexHull ℝ _ (show (![0, -1] : Fin 2 → ℝ) ∈ {x | x ∈ s} by simp [hsd]))
        (subset_convexHull ℝ _ (show (![1, 0] : Fin 2 → ℝ) ∈ {x | x ∈ s} by simp [hsd])) (a := 1 / 2) (b := 1 / 2) (by norm_num) (by norm_num)
        (by norm_num)
      convert this using 1
      ext i; fin_cases i <;> norm_num
    obtain ⟨f, hf, w, hw, hw1, hsum⟩ := (sortedHull H).row_of hfs hq (v := ![1, -1]) (by intro h; have := congrFun h 0; simp at this) (by
      intro p hp
      simp only [hsd, List.mem_cons, List.not_mem_nil, or_false] at hp
      rcases hp with rfl | rfl | rfl | rfl <;> norm_num [dotProduct, Fin.sum_univ_two])
    have b0 : f 0 < 4 := (sortedHull H).bound s fs hfs f hf 0
    have b1 : f 1 < 4 := (sortedHull H).bound s fs hfs f hf 1
    have hsorted : f 0 ≤ f 1 := by
      have hfs' : (H.simplices s).map (List.map (fun f => f ∘ (if f 1 < f 0 then Equiv.swap 0 1 else Equiv.refl (Fin 2) : Equiv.Perm (Fin 2)))) = .ok fs := hfs
      cases hH : H.simplices s with
      | error e => rw [hH] at hfs'; cases hfs'
      | ok gs =>
        rw [hH] at hfs'
        injection hfs' with hfs'
        rw [← hfs'] at hf
        obtain ⟨g, -, rfl⟩ := List.mem_map.mp hf
        by_cases hlt : g 1 < g 0
        · simp only [Function.comp_apply, if_pos hlt, Equiv.swap_apply_left, Equiv.swap_apply_right]
          exact hlt.le
        · simp only [Function.comp_apply, if_neg hlt, Equiv.refl_apply]
          omega
    rw [Fin.sum_univ_two] at hw1 hsum
    have e0 := congrFun hsum 0
    have e1 := congrFun hsum 1
    have w0 := hw 0
    have w1 := hw 1
    have hrow : f 0 = 0 ∧ f 1 = 3 := by
      generalize f 0 = a at *
      generalize f 1 = b at *
      clear hf hfs
      interval_cases b <;> interval_cases a <;> simp [hsd] at e0 e1 ⊢ <;> linarith
    have hst : ∀ w, Raises (faceStep L s f w) := by
      intro w
      unfold faceStep
      rw [hrow.1, hrow.2]
      simp only
      norm_num
      show Raises (walk L s ![1, 0] (![1, 0] - ![0, -1]) 2 0 w)
      unfold walk
      have h2 : (if s.length < 0 + 1 then 0 else 0 + 1) = 1 := by simp [hsd]
      have hi : pyIndex s 1 = .ok ![0, 1] := rfl
      simp only [h2, hi]
      have hl := lstsq_two L (a := ![1, 0] - ![0, -1]) (b := ![1, 0]) (c := ![0, 1]) (y0 := 1) (y1 := -1) (fun i => by
        fin_cases i <;> norm_num)
      have l0 := hl 0
      have l1 := hl 1
      generalize L.sol (of fun i j => (![![1, 0] - ![0, -1], ![0, 1]] : Fin 2 → Fin 2 → ℝ) j i) (colMat ![1, 0]) = X at *
      simp at l0 l1
      rw [if_pos (by linarith)]
      exact ⟨_, rfl⟩
    obtain ⟨e, he⟩ := runFaces_raises L s hst fs (fun _ => 1) hf
    rw [he]
    exact ⟨e, rfl⟩

/-! ### A hull routine that meets the condition on the rows -/

open Classical in
/-- The hull routine that lists every row counterclockwise. -/
noncomputable def ccwHull (H : Hull 2) : Hull 2 :=
  H.reorder (fun pts f => if Turn (pts.getD (f 1) 0) (pts.getD (f 0) 0) then Equiv.swap 0 1 else Equiv.refl _)

/-- With the rows listed counterclockwise the condition on the rows in `C70_partial` holds for all directions in order around the origin. -/
theorem ccwHull_rows (H : Hull 2) (l : List (Fin 2 → ℝ)) (r1 r2 : List ℝ) (h1 : r1.length = l.length)
    (hpos : List.Forall₂ (· < ·) r2 r1) (hccw : Ccw l) (h0 : (0 : Fin 2 → ℝ) ∈ interior (convexHull ℝ {x | x ∈ l})) :
    ∀ fs, (ccwHull H).simplices (polarPts l r1 r2) = .ok fs → ∀ f ∈ fs, f 0 = f 1 ∨
      Turn ((polarPts l r1 r2).getD (f 0) 0) ((polarPts l r1 r2).getD (f 1) 0) := by
  classical
  obtain ⟨hl2, hposg⟩ := List.forall₂_iff_get.mp hpos
  have h2 : r2.length = l.length := hl2.trans h1
  have hr : (List.zipWith (· - ·) r1 r2).length = l.length := by rw [List.length_zipWith, h1, h2, Nat.min_self]
  have hp : ∀ x ∈ List.zipWith (· - ·) r1 r2, 0 < x := by
    intro x hx
    obtain ⟨i, hi, rfl⟩ := List.getElem_of_mem hx
    have hi' : i < l.length := by rwa [hr] at hi
    have := hposg i (h2.symm ▸ hi') (h1.symm ▸ hi')
    simp only [List.get_eq_getElem] at this
    rw [List.getElem_zipWith]
    linarith
  rw [polarPts_eq]
  have h0s := interior_scaled hr hp h0
  obtain ⟨θ, r, hpol⟩ := scaled_polar hr hp hccw
  set s := scaled l (List.zipWith (· - ·) r1 r2) with hs
  intro fs hfs f hf
  by_cases heq : f 0 = f 1
  · exact Or.inl heq
  right
  have b0 := (ccwHull H).bound s fs hfs f hf 0
  have b1 := (ccwHull H).bound s fs hfs f hf 1
  obtain ⟨v, hv1, -⟩ := (ccwHull H).normal (by norm_num) hfs h0s hf
  have hne : cr (s.getD (f 0) 0) (s.getD (f 1) 0) ≠ 0 := by
    intro hz
    apply heq
    have hv0 := hv1 0
    have hv1' := hv1 1
    -- parallel vectors on one line that misses the origin are equal
    have hsame : s[f 0] = (1 : ℝ) • s[f 1] := by
      rw [getD_get b0] at hv0 hz
      rw [getD_get b1] at hv1' hz
      unfold cr at hz
      rw [dotProduct, Fin.sum_univ_two] at hv0 hv1'
      rw [one_smul]
      ext i
      fin_cases i
      · show s[f 0] 0 = s[f 1] 0
        linear_combination (-s[f 0] 0) * hv1' + s[f 1] 0 * hv0 + v 1 * hz
      · show s[f 0] 1 = s[f 1] 1
        linear_combination (-s[f 0] 1) * hv1' + s[f 1] 1 * hv0 - v 0 * hz
    exact hpol.inj b0 b1 zero_le_one hsame
  have hfs' : (H.simplices s).map (List.map (fun f => f ∘ (if Turn (s.getD (f 1) 0) (s.getD (f 0) 0) then Equiv.swap 0 1
      else Equiv.refl (Fin 2) : Equiv.Perm (Fin 2)))) = .ok fs := hfs
  cases hH : H.simplices s with
  | error e => rw [hH] at hfs'; cases hfs'
  | ok gs =>
    rw [hH] at hfs'
    injection hfs' with hfs'
    rw [← hfs'] at hf
    obtain ⟨g, -, rfl⟩ := List.mem_map.mp hf
    by_cases ht : Turn (s.getD (g 1) 0) (s.getD (g 0) 0)
    · simp only [Function.comp_apply, if_pos ht, Equiv.swap_apply_left, Equiv.swap_apply_right]
      exact ht
    · simp only [Function.comp_apply, if_neg ht, Equiv.refl_apply] at hne ⊢
      unfold Turn at ht ⊢
      unfold cr at hne
      rcases lt_or_gt_of_ne hne with h | h
      · exact absurd (by linarith) ht
      · exact h

/-- **C70** for a hull routine that lists the rows counterclockwise: only the condition on the first direction is left. -/
theorem C70_ccw_partial (H : Hull 2) (L : Lstsq) (l : List (Fin 2 → ℝ)) (r1 r2 : List ℝ) (B : Set (Fin 2 → ℝ))
    (h1 : r1.length = l.length) (hB : List.Forall₂ (fun c ρ => IsLUB ((fun b => c ⬝ᵥ b) '' B) ρ) l r2)
    (hpos : List.Forall₂ (· < ·) r2 r1) (hccw : Ccw l) (h0 : (0 : Fin 2 → ℝ) ∈ interior (convexHull ℝ {x | x ∈ l}))
    (hfirst : ∃ x : Fin 2 → ℝ, r1.getD 0 0 - r2.getD 0 0 < l.getD 0 0 ⬝ᵥ x ∧
      ∀ i, 0 < i → i < l.length → l.getD i 0 ⬝ᵥ x ≤ r1.getD i 0 - r2.getD i 0) :
    ∃ vals : List ℝ, supGeomDiff2 (ccwHull H) L (Arr.vec r1) (Arr.vec r2) (colsArr l) = .ok (vals.map .fin) ∧
      List.Forall₂ (fun c h => IsSupport (GeomDiff (Poly l r1) B) c h) l vals :=
  C70_partial (ccwHull H) L l r1 r2 B h1 hB hpos hccw h0 hfirst
    (fun fs hfs f hf => (ccwHull_rows H l r1 r2 h1 hpos hccw h0 fs hfs f hf).imp id Or.inl)

/-- The five directions `±e₁`, `(1,1)`, `±e₂`, the superfluous one in the second place. -/
def midDirs : List (Fin 2 → ℝ) := [![1, 0], ![1, 1], ![0, 1], ![-1, 0], ![0, -1]]

theorem midDirs_ccw : Ccw midDirs := by
  have hp := Real.pi_pos
  have h3 : Real.cos (3 * Real.pi / 2) = 0 ∧ Real.sin (3 * Real.pi / 2) = -1 := by
    have : 3 * Real.pi / 2 = Real.pi / 2 + Real.pi := by ring
    rw [this, Real.cos_add_pi, Real.sin_add_pi, Real.cos_pi_div_two, Real.sin_pi_div_two, neg_zero]
    exact ⟨rfl, rfl⟩
  refine ⟨fun i => ([0, Real.pi / 4, Real.pi / 2, Real.pi, 3 * Real.pi / 2] : List ℝ).getD i 0,
    fun i => ([1, √2, 1, 1, 1] : List ℝ).getD i 0, fun i hi => ?_, fun i j hij hj => ?_⟩
  · have hi : i < 5 := hi
    have hs : √2 * (√2 / 2) = (1 : ℝ) := by
      rw [mul_div_assoc', Real.mul_self_sqrt (by norm_num)]; norm_num
    interval_cases i
    · refine ⟨by simp, ?_⟩
      show ![1, 0] = ![1 * Real.cos 0, 1 * Real.sin 0]
      simp
    · refine ⟨by simp, ?_⟩
      show ![1, 1] = ![√2 * Real.cos (Real.pi / 4), √2 * Real.sin (Real.pi / 4)]
      rw [Real.cos_pi_div_four, Real.sin_pi_div_four, hs]
    · refine ⟨by simp, ?_⟩
      show ![0, 1] = ![1 * Real.cos (Real.pi / 2), 1 * Real.sin (Real.pi / 2)]
      simp
    · refine ⟨by simp, ?_⟩
      show ![-1, 0] = ![1 * Real.cos Real.pi, 1 * Real.sin Real.pi]
      simp
    · refine ⟨by simp, ?_⟩
      show ![0, -1] = ![1 * Real.cos (3 * Real.pi / 2), 1 * Real.sin (3 * Real.pi / 2)]
      rw [h3.1, h3.2]; simp
  · have hj : j < 5 := hj
    interval_cases j <;> interval_cases i <;> simp <;> first | linarith | (constructor <;> linarith)

/-- The hypotheses of `C70_partial` can be met with a superfluous direction: the square `|x₁|, |x₂| ≤ 2` with `x₁ + x₂ ≤ 11` in the
second place, minus the unit box. -/
example : ∃ (H : Hull 2) (L : Lstsq) (vals : List ℝ), supGeomDiff2 H L (Arr.vec [2, 12, 2, 2, 2]) (Arr.vec [1, 2, 1, 1, 1]) (colsArr midDirs) =
    .ok (vals.map .fin) ∧
    List.Forall₂ (fun c h => IsSupport (GeomDiff (Poly midDirs [2, 12, 2, 2, 2]) {b | ∀ i, |b i| ≤ 1}) c h) midDirs vals := by
  obtain ⟨H⟩ := nonempty_hull 2
  obtain ⟨L⟩ := nonempty_lstsq
  refine ⟨ccwHull H, L, C70_ccw_partial H L midDirs [2, 12, 2, 2, 2] [1, 2, 1, 1, 1] {b | ∀ i, |b i| ≤ 1} rfl ?_ ?_ midDirs_ccw ?_ ?_⟩
  · have hlub : ∀ (c b : Fin 2 → ℝ) (ρ : ℝ), (∀ x : Fin 2 → ℝ, (∀ i, |x i| ≤ 1) → c ⬝ᵥ x ≤ ρ) → (∀ i, |b i| ≤ 1) → c ⬝ᵥ b = ρ →
        IsLUB ((fun b => c ⬝ᵥ b) '' {b : Fin 2 → ℝ | ∀ i, |b i| ≤ 1}) ρ := by
      intro c b ρ h1 h2 h3
      refine ⟨?_, fun y hy => ?_⟩
      · rintro _ ⟨x, hx, rfl⟩
        exact h1 x hx
      · rw [← h3]
        exact hy ⟨b, h2, rfl⟩
    have hx : ∀ x : Fin 2 → ℝ, (∀ i, |x i| ≤ 1) → (-1 ≤ x 0 ∧ x 0 ≤ 1) ∧ -1 ≤ x 1 ∧ x 1 ≤ 1 := fun x h => ⟨abs_le.mp (h 0), abs_le.mp (h 1)⟩
    refine .cons (hlub _ ![1, 0] _ ?_ ?_ ?_) (.cons (hlub _ ![1, 1] _ ?_ ?_ ?_) (.cons (hlub _ ![0, 1] _ ?_ ?_ ?_)
      (.cons (hlub _ ![-1, 0] _ ?_ ?_ ?_) (.cons (hlub _ ![0, -1] _ ?_ ?_ ?_) .nil)))) <;>
    first
    | (intro x h; have := hx x h; simp only [dotProduct, Fin.sum_univ_two, cons_val_zero, cons_val_one]; linarith)
    | (intro i; fin_cases i <;> simp)
    | (simp [dotProduct, Fin.sum_univ_two] <;> norm_num)
  · refine .cons ?_ (.cons ?_ (.cons ?_ (.cons ?_ (.cons ?_ .nil)))) <;> norm_num
  · have hm : ∀ x ∈ midDirs, x ∈ convexHull ℝ {x | x ∈ midDirs} := fun x hx => subset_convexHull ℝ _ hx
    exact interior_axes (convex_convexHull ℝ _) (hm _ (by simp [midDirs])) (hm _ (by simp [midDirs])) (hm _ (by simp [midDirs]))
      (hm _ (by simp [midDirs]))
  · refine ⟨![2, 0], by norm_num [midDirs], fun i h0 hi => ?_⟩
    have hi : i < 5 := hi
    interval_cases i <;> norm_num [midDirs]

end Ellipy.Sup
