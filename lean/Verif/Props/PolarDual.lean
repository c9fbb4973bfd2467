import Mathlib.LinearAlgebra.Matrix.SchurComplement
import Verif.Props.PolarTwice
import Verif.Props.Rho
import Verif.Props.Volume

/-! Property theorems C102: `polar` together with `rho`, inclusion and `volume`. -/

namespace Ellipy.Ell
open Matrix Ellipy.LA

theorem ell_bipolar {n : ℕ} (e : EllN n) (he : e.NonDeg) (h0 : OriginInside e.set) : polarSet (polarSet e.set) = e.set := by
  obtain ⟨ε, hε, h⟩ := h0
  exact polar_polar (ell_convex he.psd.2) (ell_compact he.psd.2).isClosed (h 0 (by rw [dotProduct_zero]; exact hε.le))

/-- `polar` in closed form. -/
theorem polar_value (E : Eigh) (L : Lstsq) (p : PropVals) (hp : p.ok) {n : ℕ} (hn : n ≠ 0) (e : EllN n) (he : e.NonDeg)
    (h0 : OriginInside e.set) : polar E L p (Arr.vec [e.obj]) = .ok (Arr.vec [(⟨polC e, polQ e, p⟩ : EllN n).obj]) ∧
      (⟨polC e, polQ e, p⟩ : EllN n).set = polarSet e.set := by
  have hk := k_lt_one he h0
  refine ⟨?_, pol_set he hk⟩
  rw [polar_one E L p hn he, polarRobust_eq E L p hn he, if_neg (by linarith), ellMake_row_psd E hn _ hp (polQ_psd he hk)]
  rfl

/-- **C102**, `rho` of the polar decides membership: a point lies in the ellipsoid exactly if the support value of the polar in the
direction of the point is at most one. -/
theorem C102_rho (E : Eigh) (L : Lstsq) (p : PropVals) (hp : p.ok) {n k : ℕ} (hn : n ≠ 0) (e : EllN n) (he : e.NonDeg)
    (h0 : OriginInside e.set) (d : Arr ℝ) (rest : List ℕ) (hrest : rest ≠ []) (X : Fin k → Fin n → ℝ) (hd : IsDirs d rest X) :
    ∃ r s b, polar E L p (Arr.vec [e.obj]) = .ok r ∧ rho r d = .ok (s, b) ∧ s.data.length = k ∧
      ∀ j : Fin k, ∃ v, s.data[j.val]? = some v ∧ (v ≤ 1 ↔ X j ∈ e.set) := by
  have hk := k_lt_one he h0
  obtain ⟨h1, hset⟩ := polar_value E L p hp hn e he h0
  set r : EllN n := ⟨polC e, polQ e, p⟩
  have hr : r.PSD := ⟨hp, polQ_psd he hk⟩
  obtain ⟨s, b, h2, ⟨hlen, -, hv⟩, -⟩ := C40_one_ell (Arr.vec [r.obj]) r rfl hr d rest hrest X hd
  refine ⟨_, s, b, h1, h2, hlen, fun j => ?_⟩
  obtain ⟨v, -, g1, g2, -⟩ := hv j
  refine ⟨v, g1, ?_⟩
  rw [← ell_bipolar e he h0, ← hset]
  constructor
  · intro hv1 y hy
    exact (g2.2 ⟨y, hy, rfl⟩).trans hv1
  · intro hx
    obtain ⟨y, hy, hyv⟩ := g2.1
    rw [← hyv]
    exact hx y hy

/-- **C102**, `polar` reverses inclusion. -/
theorem C102_inclusion (E : Eigh) (L : Lstsq) (p : PropVals) (hp : p.ok) {n : ℕ} (hn : n ≠ 0) (e f : EllN n) (he : e.NonDeg) (hf : f.NonDeg)
    (h0 : OriginInside e.set) (h1 : OriginInside f.set) :
    ∃ r s : EllN n, polar E L p (Arr.vec [e.obj]) = .ok (Arr.vec [r.obj]) ∧ polar E L p (Arr.vec [f.obj]) = .ok (Arr.vec [s.obj]) ∧
      (r.set ⊆ s.set ↔ f.set ⊆ e.set) := by
  obtain ⟨r, hr, -, hrs⟩ := C46_partial E L p hp hn e he h0
  obtain ⟨s, hs, -, hss⟩ := C46_partial E L p hp hn f hf h1
  refine ⟨r, s, hr, hs, ?_⟩
  rw [hrs, hss]
  constructor
  · intro h
    rw [← ell_bipolar e he h0, ← ell_bipolar f hf h1]
    intro x hx l hl
    exact hx l (h hl)
  · intro h l hl x hx
    exact hl x (h hx)

theorem psd_det_nonneg {n : ℕ} {Q : Matrix (Fin n) (Fin n) ℝ} (hQ : IsPSD Q) : 0 ≤ Q.det := by
  obtain ⟨S, -, rfl⟩ := exists_root hQ
  rw [det_mul]
  exact mul_self_nonneg _

theorem polQ_det {n : ℕ} {e : EllN n} (he : e.NonDeg) (hk : 1 - e.k ≠ 0) : (polQ e).det * ((1 - e.k) ^ (n + 1) * e.Q.det) = 1 := by
  have hu : IsUnit e.Q.det := isUnit_iff_ne_zero.mpr he.det
  have h1 := congrArg det (polQ_mul he hk)
  rw [det_mul, det_smul, Fintype.card_fin, det_one] at h1
  have h2 : (auxM e).det = e.Q.det * (1 - e.k) := by
    have : auxM e = e.Q + replicateCol Unit (-e.c) * replicateRow Unit e.c := by
      rw [auxM, sub_eq_add_neg]
      congr 1
      ext i j
      simp [vecMulVec_apply, mul_apply]
    rw [this, det_add_replicateCol_mul_replicateRow hu]
    congr 1
    rw [det_unique, Matrix.add_apply, one_apply_eq, Matrix.mul_assoc, ← replicateCol_mulVec, replicateRow_mul_replicateCol_apply, mulVec_neg, dotProduct_neg,
      ← sub_eq_add_neg]
    rfl
  rw [h2] at h1
  calc (polQ e).det * ((1 - e.k) ^ (n + 1) * e.Q.det) = (polQ e).det * ((1 - e.k) ^ n * (e.Q.det * (1 - e.k))) := by ring
    _ = 1 := h1

/-- **C102**, `volume`: the product of the volumes of an ellipsoid and its polar is at least the squared volume of the unit ball, and it
is equal to it exactly for ellipsoids with the centre at the origin. (The polar must not count as flat.) -/
theorem C102_volume (E : Eigh) (L : Lstsq) (p : PropVals) (hp : p.ok) {n : ℕ} (hn : n ≠ 0) (e : EllN n) (he : e.NonDeg)
    (h0 : OriginInside e.set) : ∃ r : EllN n, polar E L p (Arr.vec [e.obj]) = .ok (Arr.vec [r.obj]) ∧
      ((∀ x : Fin n → ℝ, x ≠ 0 → p.absTol * (x ⬝ᵥ x) < x ⬝ᵥ r.Q *ᵥ x) →
        ∃ v w : VolEntry, Ell.volume E [e.obj, r.obj] = .ok [v, w] ∧
          (MeasureTheory.volume {u : Fin n → ℝ | u ⬝ᵥ u ≤ 1}).toReal ^ 2 ≤ v.val * w.val ∧
          (v.val * w.val = (MeasureTheory.volume {u : Fin n → ℝ | u ⬝ᵥ u ≤ 1}).toReal ^ 2 ↔ e.c = 0)) := by
  have hk := k_lt_one he h0
  have hu : IsUnit e.Q.det := isUnit_iff_ne_zero.mpr he.det
  refine ⟨⟨polC e, polQ e, p⟩, (polar_value E L p hp hn e he h0).1, fun hnd => ?_⟩
  obtain ⟨vs, h1, h2⟩ := C32 E [e.obj, (⟨polC e, polQ e, p⟩ : EllN n).obj] (by
    intro x hx
    simp only [List.mem_cons, List.not_mem_nil, or_false] at hx
    rcases hx with rfl | rfl
    · exact ⟨hn, he.psd.2, he.1.1.le⟩
    · exact ⟨hn, polQ_psd he hk, hp.1.le⟩)
  match vs, h2 with
  | [v, w], .cons hv (.cons hw .nil) =>
    obtain ⟨m1, p1, -⟩ := hv.1 he.2.2
    obtain ⟨m2, p2, -⟩ := hw.1 hnd
    have m1 : MeasureTheory.volume (Ell e.c e.Q) = ENNReal.ofReal v.val := m1
    have m2 : MeasureTheory.volume (Ell (polC e) (polQ e)) = ENNReal.ofReal w.val := m2
    rw [ell_volume_eq hn _ he.psd.2] at m1
    rw [ell_volume_eq hn _ (polQ_psd he hk)] at m2
    rw [unit_ball_volume n hn]
    have hom : 0 < Real.sqrt Real.pi ^ n / Real.Gamma (n / 2 + 1) :=
      div_pos (pow_pos (Real.sqrt_pos.2 Real.pi_pos) _) (Real.Gamma_pos_of_pos (by positivity))
    set om := Real.sqrt Real.pi ^ n / Real.Gamma (n / 2 + 1)
    rw [ENNReal.toReal_ofReal hom.le]
    rw [ENNReal.ofReal_eq_ofReal_iff (mul_nonneg hom.le (Real.sqrt_nonneg _)) p1.le] at m1
    rw [ENNReal.ofReal_eq_ofReal_iff (mul_nonneg hom.le (Real.sqrt_nonneg _)) p2.le] at m2
    have hd := polQ_det he (by linarith)
    have hk1 : 0 < 1 - e.k := by linarith
    have hk0 : 0 ≤ e.k := by
      by_cases hc : e.c = 0
      · rw [EllN.k, hc, zero_dotProduct]
      · exact (he.inv_pos hc).le
    -- the product of the determinants
    set t := Real.sqrt (polQ e).det * Real.sqrt e.Q.det with ht
    have hd1 : 0 ≤ (polQ e).det := psd_det_nonneg (polQ_psd he hk)
    have hd2 : 0 ≤ e.Q.det := psd_det_nonneg he.psd.2
    have ht2 : t ^ 2 * (1 - e.k) ^ (n + 1) = 1 := by
      rw [ht, mul_pow, Real.sq_sqrt hd1, Real.sq_sqrt hd2]
      linarith
    have ht0 : 0 ≤ t := mul_nonneg (Real.sqrt_nonneg _) (Real.sqrt_nonneg _)
    have hvw : v.val * w.val = om ^ 2 * t := by rw [← m1, ← m2, ht]; ring
    have hp1 : (1 - e.k) ^ (n + 1) ≤ 1 := pow_le_one₀ hk1.le (by linarith)
    have ht1 : 1 ≤ t := by
      by_contra hlt
      push Not at hlt
      have := pow_lt_one₀ ht0 hlt two_ne_zero
      nlinarith [pow_pos hk1 (n + 1)]
    refine ⟨v, w, h1, ?_, ?_⟩
    · rw [hvw]
      nlinarith [pow_pos hom 2]
    · rw [hvw]
      constructor
      · intro heq
        have ht1 : t = 1 := by
          have : om ^ 2 * (t - 1) = 0 := by linarith
          rcases mul_eq_zero.1 this with h | h
          · exact absurd h (pow_pos hom 2).ne'
          · linarith
        rw [ht1, one_pow, one_mul, pow_eq_one_iff_of_nonneg hk1.le (by omega)] at ht2
        by_contra hc
        have : 0 < e.k := he.inv_pos hc
        linarith
      · intro hc
        have hk0 : e.k = 0 := by rw [EllN.k, hc, zero_dotProduct]
        rw [hk0, sub_zero, one_pow, mul_one] at ht2
        rw [(pow_eq_one_iff_of_nonneg ht0 two_ne_zero).1 ht2, mul_one]

/-- The theorems apply to the disc of radius 1 around `(1/2, 0)`: it contains `(1, 0)` and does not contain `(-1, 0)`, as the support values
of its polar say. -/
example (E : Eigh) (L : Lstsq) : ∃ r s b v w, polar E L stdProps (Arr.vec [discN.obj]) = .ok r ∧
    rho r ⟨[2, 2], [1, -1, 0, 0], rfl⟩ = .ok (s, b) ∧ s.data = [v, w] ∧ v ≤ 1 ∧ 1 < w := by
  have hd : IsDirs (⟨[2, 2], [1, -1, 0, 0], rfl⟩ : Arr ℝ) [2] ![![1, 0], ![-1, 0]] := by
    refine ⟨rfl, rfl, fun j i => ?_⟩
    fin_cases j <;> fin_cases i <;> rfl
  have hmem : ∀ t : ℝ, (![t, 0] : Fin 2 → ℝ) ∈ discN.set ↔ (t - 1 / 2) ^ 2 ≤ 1 := by
    intro t
    have : IsUnit discN.Q.det := isUnit_iff_ne_zero.mpr discN_nonDeg.det
    rw [EllN.set, mem_ell_inv discN_nonDeg.psd.2 this]
    have e1 : discN.Q⁻¹ = 1 := inv_one
    have e2 : discN.c = ![1 / 2, 0] := rfl
    rw [e1, e2, one_mulVec]
    simp [dotProduct, Fin.sum_univ_two, sq]
  obtain ⟨r, s, b, h1, h2, hlen, h3⟩ := C102_rho E L stdProps stdProps_ok two_ne_zero discN discN_nonDeg discN_inside _ [2] (by simp) _ hd
  obtain ⟨v, g1, g2⟩ := h3 0
  obtain ⟨w, g3, g4⟩ := h3 1
  have g2 : v ≤ 1 ↔ ![1, 0] ∈ discN.set := g2
  have g4 : w ≤ 1 ↔ ![-1, 0] ∈ discN.set := g4
  rw [hmem] at g2 g4
  refine ⟨r, s, b, v, w, h1, h2, ?_, g2.2 (by norm_num), ?_⟩
  · match hs : s.data, hlen with
    | [x, y], _ =>
      rw [hs] at g1 g3
      simp only [Fin.val_zero, Fin.val_one, List.getElem?_cons_zero, List.getElem?_cons_succ, Option.some.injEq] at g1 g3
      rw [g1, g3]
  · by_contra h
    exact absurd (g4.1 (not_lt.1 h)) (by norm_num)

end Ellipy.Ell
