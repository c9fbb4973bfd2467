import Verif.Props.CalcDiff
import Verif.Props.HyperplaneLaws
import Verif.Proofs.Support

/-! Property theorems C158 (`rho` of ellipsoids against `Hyperplane.contains` and `Hyperplane.is_parallel`). -/

namespace Ellipy.Hyp
open Ellipy.Ell Matrix

/-- The hyperplanes with given normals and shifts. -/
def planes {n k : ℕ} (ls : Fin k → Fin n → ℝ) (s : Arr ℝ) (t : Tols) : Arr HypObj :=
  ⟨[k], List.ofFn fun j : Fin k => ⟨n, ls j, s.data.getD j 0, t.absTol, t.relTol⟩, by simp⟩

private theorem planes_mem {n k : ℕ} {ls : Fin k → Fin n → ℝ} {s : Arr ℝ} {t : Tols} {h : HypObj} (hh : h ∈ (planes ls s t).data) :
    ∃ j : Fin k, h = ⟨n, ls j, s.data.getD j 0, t.absTol, t.relTol⟩ := by
  simp only [planes, List.mem_ofFn] at hh
  obtain ⟨j, rfl⟩ := hh
  exact ⟨j, rfl⟩

private theorem not_negl {n : ℕ} {l : Fin n → ℝ} {s a r : ℝ} (h : n = 1 → ∃ i, a < |l i|) : ¬ Negligible ⟨n, l, s, a, r⟩ := by
  rintro ⟨h1, h2, -⟩
  obtain ⟨i, hi⟩ := h h1
  exact absurd (h2 i) (not_le.mpr hi)

/-- **C158**, touching: `contains` says that the hyperplanes with the directions as normals and the values of `rho` as shifts contain the points of `rho`,
one by one. -/
theorem C158_touch {n k : ℕ} (hn : n ≠ 0) (hk : 2 ≤ k) (e : EllN n) (he : e.PSD) (d : Arr ℝ) (ls : Fin k → Fin n → ℝ) (hd : IsDirs d [k] ls) (t : Tols)
    (ht : t.ok) (hl : ∀ j, n = 1 → ∃ i, t.absTol < |ls j i|) :
    ∃ s b r, rho (Arr.scalar e.obj) d = .ok (s, b) ∧ contains (planes ls s t) b = .ok r ∧ r.shape = [k] ∧ ∀ j : Fin k, r.data[j.val]? = some true := by
  obtain ⟨s, b, hr, ⟨hs, hb, hj⟩, hbs, -⟩ := C40_one_ell (Arr.scalar e.obj) e rfl he d [k] (by simp) ls hd
  have hprod : [k].foldr (· * ·) 1 = k := by simp
  have hf : Fits (planes ls s t) b n [k] := by
    refine ⟨hbs.trans hd.1, hn, fun v hv => ?_, ?_, fun h hh => ?_⟩
    · obtain ⟨q, hq, rfl⟩ := List.getElem_of_mem hv
      have hk0 : 0 < k := by omega
      have hq' : q < n * k := hb ▸ hq
      obtain ⟨-, x, -, -, -, -, hx⟩ := hj ⟨q % k, Nat.mod_lt _ hk0⟩
      have h1 := hx ⟨q / k, Nat.div_lt_of_lt_mul (lt_of_lt_of_eq hq' (mul_comm n k))⟩
      simp only at h1
      rw [show q / k * k + q % k = q by rw [mul_comm]; exact Nat.div_add_mod q k, List.getElem?_eq_getElem hq] at h1
      rw [Option.some.inj h1]
      rfl
    · intro h
      have := congrArg List.length h
      simp only [planes, List.length_ofFn, List.length_nil] at this
      omega
    · obtain ⟨j, rfl⟩ := planes_mem hh
      exact ⟨rfl, not_negl (hl j)⟩
  obtain ⟨r, hc, hrs, hrj⟩ := C51_pairs hf (by rw [hprod]; exact hk) (by rw [hprod]; simp [planes])
  refine ⟨s, b, r, hr, hc, hrs, fun j => ?_⟩
  have hlen : r.data.length = k := by rw [r.len, hrs, hprod]
  have hj' : j.val < r.data.length := by rw [hlen]; exact j.2
  have h1 : (planes ls s t).data[j.val]? = some ⟨n, ls j, s.data.getD j 0, t.absTol, t.relTol⟩ := by simp [planes]
  have h2 := hrj j _ _ h1 (List.getElem?_eq_getElem hj')
  rw [List.getElem?_eq_getElem hj']
  refine congrArg some (h2.mpr ?_)
  obtain ⟨v, x, hv, -, -, hdot, hx⟩ := hj j
  have hp : point n ([k].foldr (· * ·) 1) b.data j = fun i => .fin (x i) := by
    funext i
    unfold point
    rw [hprod, List.getD_eq_getElem?_getD, hx i]
    rfl
  show OnPlane ⟨n, ls j, s.data.getD j 0, t.absTol, t.relTol⟩ (point n ([k].foldr (· * ·) 1) b.data j)
  rw [hp]
  refine (onPlane_fin (h := ⟨n, ls j, s.data.getD j 0, t.absTol, t.relTol⟩)).mpr ?_
  have hsd : s.data.getD j 0 = v := by
    rw [List.getD_eq_getElem?_getD, hv]
    rfl
  show |ls j ⬝ᵥ x - s.data.getD j 0| < t.absTol
  rw [hsd, hdot, sub_self, abs_zero]
  exact ht.1

/-- **C158**, opposite directions: `is_parallel` says that the two touching hyperplanes of opposite directions are parallel. -/
theorem C158_opposite {n k : ℕ} (ls : Fin k → Fin n → ℝ) (hl : ∀ j, ls j ≠ 0) (s s' : Arr ℝ) (t t' : Tols) (ht : t.ok) :
    ∃ r, isParallel (planes ls s t) (planes (fun j => -ls j) s' t') = .ok r ∧ r.shape = [k] ∧ ∀ b ∈ r.data, b = true := by
  obtain ⟨r, hr, hrs, hrb⟩ := C52_arrays (a := planes ls s t) (b := planes (fun j => -ls j) s' t') rfl (fun h hh => by
    obtain ⟨j, rfl⟩ := planes_mem hh
    show n ≠ 0
    rintro rfl
    exact hl j (Subsingleton.elim _ _))
  refine ⟨r, hr, hrs, fun b hb => ?_⟩
  obtain ⟨q, hq, rfl⟩ := List.getElem_of_mem hb
  have hlen := hrb.length_eq
  have hz := hrb.get (i := q) (by rw [hlen]; exact hq) hq
  have hqk : q < k := by
    have : r.data.length = k := by rw [r.len, hrs]; simp [planes]
    omega
  simp only [List.get_eq_getElem, List.getElem_zip] at hz
  have h1 : (planes ls s t).data[q]'(by simpa [planes] using hqk) = ⟨n, ls ⟨q, hqk⟩, s.data.getD q 0, t.absTol, t.relTol⟩ := by simp [planes]
  have h2 : (planes (fun j => -ls j) s' t').data[q]'(by simpa [planes] using hqk) = ⟨n, -ls ⟨q, hqk⟩, s'.data.getD q 0, t'.absTol, t'.relTol⟩ := by simp [planes]
  rw [h1, h2] at hz
  have h3 : ∃ i, ls ⟨q, hqk⟩ i ≠ 0 := by
    by_contra hcon
    push Not at hcon
    exact hl _ (funext hcon)
  rw [C52_partial (h := ⟨n, ls ⟨q, hqk⟩, s.data.getD q 0, t.absTol, t.relTol⟩) (g := ⟨n, -ls ⟨q, hqk⟩, s'.data.getD q 0, t'.absTol, t'.relTol⟩) h3
    ⟨rfl, -1, by norm_num, fun i => by simp⟩ ht.1] at hz
  exact (Except.ok.inj hz).symm

/-- The call of `rho` for a direction and its opposite. -/
private theorem rho_two {n : ℕ} {e : EllN n} (he : e.PSD) (l : Fin n → ℝ) {d : Arr ℝ} (hd : IsDirs d [2] ![l, -l]) :
    ∃ s b u v, rho (Arr.scalar e.obj) d = .ok (s, b) ∧ s.data = [u, v] ∧ IsSupport e.set l u ∧ IsSupport e.set (-l) v := by
  obtain ⟨s, b, hr, ⟨hs, -, hj⟩, -, -⟩ := C40_one_ell (Arr.scalar e.obj) e rfl he d [2] (by simp) _ hd
  obtain ⟨u, v, huv⟩ := List.length_eq_two.mp hs
  obtain ⟨u', -, hu, h1, -⟩ := hj 0
  obtain ⟨v', -, hv, h2, -⟩ := hj 1
  rw [huv] at hu hv
  simp only [Fin.val_zero, Fin.val_one, List.getElem?_cons_zero, List.getElem?_cons_succ, Option.some.injEq] at hu hv
  subst hu hv
  exact ⟨s, b, u, v, hr, huv, h1, h2⟩

/-- **C158**, meeting: some point of the ellipsoid is on a hyperplane, as `contains` sees it, exactly if the shift is between the values of `rho` in the
direction of the normal and, negated, in the opposite direction, up to the tolerance. -/
theorem C158_meet {n : ℕ} (hn : n ≠ 0) (e : EllN n) (he : e.PSD) (l : Fin n → ℝ) (σ : ℝ) (t : Tols) (ht : t.ok) (hl : n = 1 → ∃ i, t.absTol < |l i|)
    (d : Arr ℝ) (hd : IsDirs d [2] ![l, -l]) :
    ∃ s b u v, rho (Arr.scalar e.obj) d = .ok (s, b) ∧ s.data = [u, v] ∧
      ((∃ x ∈ e.set, Says ⟨n, l, σ, t.absTol, t.relTol⟩ x true) ↔ -v - t.absTol < σ ∧ σ < u + t.absTol) := by
  obtain ⟨s, b, u, v, hr, huv, ⟨⟨x, hx, hxu⟩, hu⟩, ⟨⟨y, hy, hyv⟩, hv⟩⟩ := rho_two he l hd
  refine ⟨s, b, u, v, hr, huv, ?_⟩
  have hN : ¬ Negligible ⟨n, l, σ, t.absTol, t.relTol⟩ := not_negl hl
  have hsays : ∀ z : Fin n → ℝ, Says ⟨n, l, σ, t.absTol, t.relTol⟩ z true ↔ |l ⬝ᵥ z - σ| < t.absTol := fun z => says_true_iff (h := ⟨n, l, σ, t.absTol, t.relTol⟩) hn hN z
  simp only at hxu hyv
  rw [neg_dotProduct] at hyv
  constructor
  · rintro ⟨z, hz, hzs⟩
    rw [hsays, abs_lt] at hzs
    have h1 : l ⬝ᵥ z ≤ u := hu ⟨z, hz, rfl⟩
    have h2 : -l ⬝ᵥ z ≤ v := hv ⟨z, hz, rfl⟩
    rw [neg_dotProduct] at h2
    constructor <;> linarith [hzs.1, hzs.2]
  · rintro ⟨h1, h2⟩
    have hvu : -v ≤ u := by
      have : l ⬝ᵥ y ≤ u := hu ⟨y, hy, rfl⟩
      linarith
    have hw : ∃ w, -v ≤ w ∧ w ≤ u ∧ |w - σ| < t.absTol := by
      have htp := ht.1
      rcases le_total σ (-v) with h3 | h3
      · exact ⟨-v, le_refl _, hvu, by rw [abs_lt]; constructor <;> linarith⟩
      · rcases le_total σ u with h4 | h4
        · exact ⟨σ, h3, h4, by rw [sub_self, abs_zero]; exact htp⟩
        · exact ⟨u, hvu, le_refl _, by rw [abs_lt]; constructor <;> linarith⟩
    obtain ⟨w, hw1, hw2, hw3⟩ := hw
    have hz : ∃ z ∈ e.set, l ⬝ᵥ z = w := by
      rcases eq_or_lt_of_le hvu with h3 | h3
      · exact ⟨x, hx, by linarith⟩
      · have hpos : 0 < u + v := by linarith
        have hconv := ell_convex (c := e.c) he.2
        refine ⟨((w + v) / (u + v)) • x + ((u - w) / (u + v)) • y, hconv hx hy (div_nonneg (by linarith) hpos.le) (div_nonneg (by linarith) hpos.le)
          (by rw [← add_div, div_eq_one_iff_eq hpos.ne']; ring), ?_⟩
        rw [dotProduct_add, dotProduct_smul, dotProduct_smul, hxu, show l ⬝ᵥ y = -v by linarith]
        simp only [smul_eq_mul]
        field_simp
        ring
    obtain ⟨z, hz1, hz2⟩ := hz
    exact ⟨z, hz1, by rw [hsays, hz2]; exact hw3⟩

/-- **C158**, separation: two ellipsoids have no common point exactly if in some direction the value of `rho` of the first plus the value of `rho` of the
second in the opposite direction is negative. -/
theorem C158_separate {n : ℕ} (e f : EllN n) (he : e.PSD) (hf : f.PSD) :
    (∀ x, ¬ (x ∈ e.set ∧ x ∈ f.set)) ↔ ∃ (l : Fin n → ℝ) (d : Arr ℝ) (s s' : Arr ℝ) (b b' : Arr (XF ℝ)) (u v u' v' : ℝ), IsDirs d [2] ![l, -l] ∧
      rho (Arr.scalar e.obj) d = .ok (s, b) ∧ rho (Arr.scalar f.obj) d = .ok (s', b') ∧ s.data = [u, v] ∧ s'.data = [u', v'] ∧ u + v' < 0 := by
  constructor
  · intro h
    have hcon : Disjoint e.set f.set := Set.disjoint_left.mpr fun x hx hy => h x ⟨hx, hy⟩
    obtain ⟨g, p, q, hp, hpq, hq⟩ := geometric_hahn_banach_compact_closed (ell_convex (c := e.c) he.2) (ell_compact (c := e.c) he.2) (ell_convex (c := f.c) hf.2)
      (ell_compact (c := f.c) hf.2).isClosed hcon
    have hd : ∀ y, g y = (fun i => g (Pi.single i 1)) ⬝ᵥ y := fun y => functional_dot (g : (Fin n → ℝ) →ₗ[ℝ] ℝ) y
    set l : Fin n → ℝ := fun i => g (Pi.single i 1) with hl
    obtain ⟨s, b, u, v, hr, huv, ⟨⟨x, hx, hxu⟩, -⟩, -⟩ := rho_two he l (dirsArr_is ![l, -l])
    obtain ⟨s', b', u', v', hr', huv', -, ⟨⟨y, hy, hyv⟩, -⟩⟩ := rho_two hf l (dirsArr_is ![l, -l])
    refine ⟨l, _, s, s', b, b', u, v, u', v', dirsArr_is _, hr, hr', huv, huv', ?_⟩
    have h1 := hp x hx
    have h2 := hq y hy
    rw [hd] at h1 h2
    simp only at hxu hyv
    rw [neg_dotProduct] at hyv
    linarith
  · rintro ⟨l, d, s, s', b, b', u, v, u', v', hd, hr, hr', huv, huv', hlt⟩ x ⟨hx, hy⟩
    obtain ⟨s1, b1, u1, v1, hr1, huv1, ⟨-, hu⟩, -⟩ := rho_two he l hd
    obtain ⟨s2, b2, u2, v2, hr2, huv2, -, ⟨-, hv⟩⟩ := rho_two hf l hd
    rw [hr] at hr1
    rw [hr'] at hr2
    cases hr1
    cases hr2
    rw [huv] at huv1
    rw [huv'] at huv2
    cases huv1
    cases huv2
    have h1 : l ⬝ᵥ x ≤ u := hu ⟨x, hx, rfl⟩
    have h2 : -l ⬝ᵥ x ≤ v' := hv ⟨x, hy, rfl⟩
    rw [neg_dotProduct] at h2
    linarith

/-- **C158**, the hyperplane between: if the sum of these values is below minus twice the tolerance, `contains` says of no point of the two ellipsoids that
it is on the hyperplane half-way. -/
theorem C158_between {n : ℕ} (hn : n ≠ 0) (e f : EllN n) (he : e.PSD) (hf : f.PSD) (l : Fin n → ℝ) (t : Tols) (hl : n = 1 → ∃ i, t.absTol < |l i|)
    (d : Arr ℝ) (hd : IsDirs d [2] ![l, -l]) :
    ∃ s b s' b' u v u' v', rho (Arr.scalar e.obj) d = .ok (s, b) ∧ rho (Arr.scalar f.obj) d = .ok (s', b') ∧ s.data = [u, v] ∧ s'.data = [u', v'] ∧
      (u + v' ≤ -2 * t.absTol → ∀ x ∈ e.set ∪ f.set, Says ⟨n, l, (u - v') / 2, t.absTol, t.relTol⟩ x false) := by
  obtain ⟨s, b, u, v, hr, huv, ⟨-, hu⟩, -⟩ := rho_two he l hd
  obtain ⟨s', b', u', v', hr', huv', -, ⟨-, hv⟩⟩ := rho_two hf l hd
  refine ⟨s, b, s', b', u, v, u', v', hr, hr', huv, huv', fun hlt x hx => ?_⟩
  refine (says_false_iff (h := ⟨n, l, (u - v') / 2, t.absTol, t.relTol⟩) hn (not_negl hl) x).mpr ?_
  show t.absTol ≤ |l ⬝ᵥ x - (u - v') / 2|
  rcases hx with hx | hx
  · have h1 : l ⬝ᵥ x ≤ u := hu ⟨x, hx, rfl⟩
    rw [le_abs]
    right
    linarith
  · have h2 : -l ⬝ᵥ x ≤ v' := hv ⟨x, hx, rfl⟩
    rw [neg_dotProduct] at h2
    rw [le_abs]
    left
    linarith

/-! The unit disc and its touching lines. -/

private noncomputable def exDisc : EllN 2 := ⟨0, 1, ⟨1, 1, 1, 1⟩⟩

private theorem exDisc_psd : exDisc.PSD := by
  refine ⟨⟨one_pos, one_pos, ⟨1, by norm_num [exDisc]⟩, ⟨1, by norm_num [exDisc]⟩⟩, transpose_one, fun x => ?_⟩
  show 0 ≤ x ⬝ᵥ (1 : Matrix (Fin 2) (Fin 2) ℝ) *ᵥ x
  rw [one_mulVec]
  exact Finset.sum_nonneg fun i _ => mul_self_nonneg _

example : ∃ s b r, rho (Arr.scalar exDisc.obj) (dirsArr ![![1, 0], ![3, 4]]) = .ok (s, b) ∧ contains (planes ![![1, 0], ![3, 4]] s ⟨1, 1⟩) b = .ok r ∧
    r.data[1]? = some true := by
  obtain ⟨s, b, r, h1, h2, -, h3⟩ := C158_touch (by norm_num) (by norm_num) exDisc exDisc_psd _ _ (dirsArr_is ![![1, 0], ![3, 4]]) ⟨1, 1⟩ ⟨one_pos, one_pos⟩
    (fun j h => absurd h (by norm_num))
  exact ⟨s, b, r, h1, h2, h3 1⟩

example : ∃ r, isParallel (planes ![(![1, 0] : Fin 2 → ℝ)] (Arr.vec [1]) ⟨1, 1⟩) (planes (fun j => -(![(![1, 0] : Fin 2 → ℝ)] j)) (Arr.vec [1]) ⟨1, 1⟩) = .ok r ∧
    ∀ b ∈ r.data, b = true := by
  obtain ⟨r, h1, -, h2⟩ := C158_opposite ![(![1, 0] : Fin 2 → ℝ)] (fun j h => by
    have := congrFun h 0
    fin_cases j
    simp at this) (Arr.vec [1]) (Arr.vec [1]) ⟨1, 1⟩ ⟨1, 1⟩ ⟨one_pos, one_pos⟩
  exact ⟨r, h1, h2⟩

example : ∃ s b u v, rho (Arr.scalar exDisc.obj) (dirsArr ![![3, 4], -![3, 4]]) = .ok (s, b) ∧ s.data = [u, v] ∧
    ((∃ x ∈ exDisc.set, Says ⟨2, ![3, 4], 2, 1, 1⟩ x true) ↔ -v - 1 < 2 ∧ 2 < u + 1) :=
  C158_meet (by norm_num) exDisc exDisc_psd ![3, 4] 2 ⟨1, 1⟩ ⟨one_pos, one_pos⟩ (fun h => absurd h (by norm_num)) _ (dirsArr_is _)

private noncomputable def exFar : EllN 2 := ⟨![9, 0], 1, ⟨1, 1, 1, 1⟩⟩

private theorem exFar_psd : exFar.PSD := ⟨⟨one_pos, one_pos, ⟨1, by norm_num [exFar]⟩, ⟨1, by norm_num [exFar]⟩⟩, exDisc_psd.2⟩

example : (∀ x, ¬ (x ∈ exDisc.set ∧ x ∈ exFar.set)) ↔ ∃ (l : Fin 2 → ℝ) (d : Arr ℝ) (s s' : Arr ℝ) (b b' : Arr (XF ℝ)) (u v u' v' : ℝ),
    IsDirs d [2] ![l, -l] ∧ rho (Arr.scalar exDisc.obj) d = .ok (s, b) ∧ rho (Arr.scalar exFar.obj) d = .ok (s', b') ∧ s.data = [u, v] ∧
      s'.data = [u', v'] ∧ u + v' < 0 := C158_separate exDisc exFar exDisc_psd exFar_psd

example : ∃ s b s' b' u v u' v', rho (Arr.scalar exDisc.obj) (dirsArr ![![1, 0], -![1, 0]]) = .ok (s, b) ∧
    rho (Arr.scalar exFar.obj) (dirsArr ![![1, 0], -![1, 0]]) = .ok (s', b') ∧ s.data = [u, v] ∧ s'.data = [u', v'] ∧
      (u + v' ≤ -2 * 1 → ∀ x ∈ exDisc.set ∪ exFar.set, Says ⟨2, ![1, 0], (u - v') / 2, 1, 1⟩ x false) :=
  C158_between (by norm_num) exDisc exFar exDisc_psd exFar_psd ![1, 0] ⟨1, 1⟩ (fun h => absurd h (by norm_num)) _ (dirsArr_is _)

end Ellipy.Hyp
