import Verif.Proofs.Support
import Verif.Props.Polar

/-! Property theorems C90: the polar of the polar. -/

namespace Ellipy.Ell
open Matrix Ellipy.LA

/-- The set determines the centre and the matrix. -/
theorem ell_inj {n : ℕ} {c c' : Fin n → ℝ} {Q Q' : Matrix (Fin n) (Fin n) ℝ} (hQ : IsPSD Q) (hQ' : IsPSD Q')
    (h : Ell c Q = Ell c' Q') : c = c' ∧ Q = Q' := by
  have hs : ∀ l : Fin n → ℝ, l ⬝ᵥ c + Real.sqrt (l ⬝ᵥ Q *ᵥ l) = l ⬝ᵥ c' + Real.sqrt (l ⬝ᵥ Q' *ᵥ l) := by
    intro l
    have h1 := ell_support (c := c) hQ l
    rw [h] at h1
    exact IsGreatest.unique h1 (ell_support hQ' l)
  have hc : ∀ l : Fin n → ℝ, l ⬝ᵥ c = l ⬝ᵥ c' ∧ l ⬝ᵥ Q *ᵥ l = l ⬝ᵥ Q' *ᵥ l := by
    intro l
    have h1 := hs l
    have h2 := hs (-l)
    simp only [neg_dotProduct, mulVec_neg, dotProduct_neg, neg_neg] at h2
    have h3 : Real.sqrt (l ⬝ᵥ Q *ᵥ l) = Real.sqrt (l ⬝ᵥ Q' *ᵥ l) := by linarith
    exact ⟨by linarith, (Real.sqrt_inj (hQ.2 l) (hQ'.2 l)).mp h3⟩
  constructor
  · funext i
    have := (hc (Pi.single i 1)).1
    rwa [single_one_dotProduct, single_one_dotProduct] at this
  · have hb : ∀ x y : Fin n → ℝ, x ⬝ᵥ Q *ᵥ y = x ⬝ᵥ Q' *ᵥ y := by
      intro x y
      have h1 := (hc (x + y)).2
      have h2 := (hc x).2
      have h3 := (hc y).2
      rw [mulVec_add, mulVec_add, add_dotProduct, add_dotProduct, dotProduct_add, dotProduct_add, dotProduct_add, dotProduct_add] at h1
      have e1 : y ⬝ᵥ Q *ᵥ x = x ⬝ᵥ Q *ᵥ y := by rw [symm_dot hQ.1, dotProduct_comm]
      have e2 : y ⬝ᵥ Q' *ᵥ x = x ⬝ᵥ Q' *ᵥ y := by rw [symm_dot hQ'.1, dotProduct_comm]
      linarith
    ext i j
    have := hb (Pi.single i 1) (Pi.single j 1)
    rw [single_one_dotProduct, single_one_dotProduct] at this
    simpa using this

/-- The bipolar of a closed convex set with the origin inside. -/
theorem polar_polar {n : ℕ} {X : Set (Fin n → ℝ)} (hc : Convex ℝ X) (hcl : IsClosed X) (h0 : (0 : Fin n → ℝ) ∈ X) :
    polarSet (polarSet X) = X := by
  ext x
  constructor
  · intro hx
    by_contra hn
    obtain ⟨f, u, h1, h2⟩ := geometric_hahn_banach_closed_point hc hcl hn
    have hd : ∀ y, f y = (fun i => f (Pi.single i 1)) ⬝ᵥ y := fun y => functional_dot (f : (Fin n → ℝ) →ₗ[ℝ] ℝ) y
    have hu : 0 < u := by
      have := h1 0 h0
      rwa [map_zero] at this
    have h3 := hx ((1 / u) • fun i => f (Pi.single i 1)) (by
      intro y hy
      rw [smul_dotProduct, ← hd y, smul_eq_mul, one_div, inv_mul_le_iff₀ hu, mul_one]
      exact (h1 y hy).le)
    rw [dotProduct_smul, dotProduct_comm, ← hd x, smul_eq_mul, one_div, inv_mul_le_iff₀ hu, mul_one] at h3
    linarith
  · intro hx l hl
    rw [dotProduct_comm]
    exact hl x hx

/-- The polar of a bounded set contains a ball about the origin. -/
theorem polar_inside {n : ℕ} {X : Set (Fin n → ℝ)} {R : ℝ} (hR : 0 < R) (h : ∀ x ∈ X, x ⬝ᵥ x ≤ R ^ 2) :
    ∀ l : Fin n → ℝ, l ⬝ᵥ l ≤ 1 / R ^ 2 → l ∈ polarSet X := by
  intro l hl x hx
  have h1 := dot_sq_le_mul l x
  have h2 : (l ⬝ᵥ l) * (x ⬝ᵥ x) ≤ 1 / R ^ 2 * R ^ 2 := mul_le_mul hl (h x hx) (dot_self_nonneg x) (by positivity)
  rw [one_div, inv_mul_cancel₀ (by positivity)] at h2
  exact (abs_le.mp ((sq_le_one_iff_abs_le_one _).mp (h1.trans h2))).2

theorem ell_bounded {n : ℕ} {c : Fin n → ℝ} {Q : Matrix (Fin n) (Fin n) ℝ} (hQ : IsPSD Q) : ∃ R : ℝ, 0 < R ∧ ∀ x ∈ Ell c Q, x ⬝ᵥ x ≤ R ^ 2 := by
  have hc : ContinuousOn (fun x : Fin n → ℝ => x ⬝ᵥ x) (Ell c Q) := by
    refine Continuous.continuousOn ?_
    unfold dotProduct
    fun_prop
  obtain ⟨M, hM⟩ := ((ell_compact (c := c) hQ).image_of_continuousOn hc).bddAbove
  refine ⟨max M 1, by positivity, fun x hx => ?_⟩
  have h1 : x ⬝ᵥ x ≤ M := hM ⟨x, hx, rfl⟩
  have h2 : (1 : ℝ) ≤ max M 1 := le_max_right _ _
  have h3 : M ≤ max M 1 := le_max_left _ _
  nlinarith

/-- **C90**: `polar` undoes itself.  For a nondegenerate ellipsoid with the origin inside the second call returns the original centre
and matrix, unless the polar counts as degenerate, and then it raises. -/
theorem C90 (E : Eigh) (L : Lstsq) (p : PropVals) (hp : p.ok) {n : ℕ} (hn : n ≠ 0) (e : EllN n) (he : e.NonDeg)
    (h0 : OriginInside e.set) : ∃ r : EllN n, polar E L p (Arr.vec [e.obj]) = .ok (Arr.vec [r.obj]) ∧
      ((∀ x : Fin n → ℝ, x ≠ 0 → p.absTol * (x ⬝ᵥ x) < x ⬝ᵥ r.Q *ᵥ x) →
        polar E L p (Arr.vec [r.obj]) = .ok (Arr.vec [(⟨e.c, e.Q, p⟩ : EllN n).obj])) ∧
      ((∃ x : Fin n → ℝ, x ≠ 0 ∧ x ⬝ᵥ r.Q *ᵥ x ≤ p.absTol * (x ⬝ᵥ x)) → Raises (polar E L p (Arr.vec [r.obj]))) := by
  have hk := k_lt_one he h0
  have hset := pol_set he hk
  have hpsd := polQ_psd he hk
  refine ⟨⟨polC e, polQ e, p⟩, ?_, fun hnd => ?_, ?_⟩
  · rw [polar_one E L p hn he, polarRobust_eq E L p hn he, if_neg (by linarith), ellMake_row_psd E hn _ hp hpsd]
    rfl
  · have hr : (⟨polC e, polQ e, p⟩ : EllN n).NonDeg := ⟨hp, hpsd.1, hnd⟩
    obtain ⟨R, hR, hb⟩ := ell_bounded (c := e.c) he.psd.2
    have hin : OriginInside (⟨polC e, polQ e, p⟩ : EllN n).set := by
      refine ⟨1 / R ^ 2, by positivity, fun x hx => ?_⟩
      show x ∈ Ell (polC e) (polQ e)
      rw [hset]
      exact polar_inside hR hb x hx
    have hk' := k_lt_one hr hin
    have h1 := pol_set hr hk'
    have hp2 := polQ_psd hr hk'
    have h3 : (⟨polC e, polQ e, p⟩ : EllN n).set = polarSet e.set := hset
    rw [h3, polar_polar (X := e.set) (ell_convex he.psd.2) (ell_compact he.psd.2).isClosed (by
      obtain ⟨ε, hε, h⟩ := h0
      exact h 0 (by simpa using hε.le))] at h1
    obtain ⟨e1, e2⟩ := ell_inj hp2 he.psd.2 h1
    rw [polar_one E L p hn hr, polarRobust_eq E L p hn hr, if_neg (by linarith), ellMake_row_psd E hn _ hp hp2, e1, e2]
    rfl
  · rintro ⟨x, hx, hle⟩
    unfold polar
    cases hd : isDegenerate E (Arr.vec [(⟨polC e, polQ e, p⟩ : EllN n).obj]).data with
    | error y => exact ⟨y, rfl⟩
    | ok ds =>
      simp only
      rw [if_pos]
      · exact ⟨_, rfl⟩
      have hpos := C20_pos_def E (polQ e) p.absTol hp.1.le hn hpsd.1
      have hf : isMatPosDef E (polQ e) p.absTol false ≠ .ok true := fun h => absurd (hpos.mp h x hx) (not_lt.mpr hle)
      unfold isDegenerate at hd
      split_ifs at hd
      · cases hd
      have hobj : isMatPosDef E (⟨polC e, polQ e, p⟩ : EllN n).obj.Q (⟨polC e, polQ e, p⟩ : EllN n).obj.absTol false =
        isMatPosDef E (polQ e) p.absTol false := rfl
      simp only [Arr.vec, pyMap, hobj] at hd
      cases hb : isMatPosDef E (polQ e) p.absTol false with
      | error y => rw [hb] at hd; cases hd
      | ok b =>
        rw [hb] at hd hf
        cases b
        · injection hd with hd
          rw [← hd]; simp
        · exact absurd rfl hf

/-- **C90** for ellipsoids that are not too large: if all points are at distance at most `R` from the origin and the tolerance is less
than `1 / R²`, both calls succeed and the second one returns the original centre and matrix. -/
theorem C90_bounded (E : Eigh) (L : Lstsq) (p : PropVals) (hp : p.ok) {n : ℕ} (hn : n ≠ 0) (e : EllN n) (he : e.NonDeg)
    (h0 : OriginInside e.set) {R : ℝ} (hR : 0 < R) (hb : ∀ x ∈ e.set, x ⬝ᵥ x ≤ R ^ 2) (ht : p.absTol < 1 / R ^ 2) :
    ∃ r : EllN n, polar E L p (Arr.vec [e.obj]) = .ok (Arr.vec [r.obj]) ∧ r.set = polarSet e.set ∧
      polar E L p (Arr.vec [r.obj]) = .ok (Arr.vec [(⟨e.c, e.Q, p⟩ : EllN n).obj]) := by
  have hk := k_lt_one he h0
  obtain ⟨r, h1, h2, -⟩ := C90 E L p hp hn e he h0
  obtain ⟨r', h1', -, hset⟩ := C46_partial E L p hp hn e he h0
  have hr : r' = r := by
    rw [h1] at h1'
    simp only [Arr.vec, Except.ok.injEq, Arr.mk.injEq, List.cons.injEq, and_true, true_and] at h1'
    exact (EllN.obj_inj h1'.2).symm
  subst hr
  refine ⟨r', h1, hset, h2 (fun x hx => ?_)⟩
  have hpsd : IsPSD r'.Q := by
    have h3 := h1
    rw [polar_one E L p hn he, polarRobust_eq E L p hn he, if_neg (by linarith), ellMake_row_psd E hn _ hp (polQ_psd he hk)] at h3
    simp only [Arr.vec, Except.ok.injEq, Arr.mk.injEq, List.cons.injEq, and_true, true_and] at h3
    have h4 : (⟨polC e, polQ e, p⟩ : EllN n) = r' := EllN.obj_inj h3.2
    rw [← h4]
    exact polQ_psd he hk
  have hxx := dot_self_pos hx
  set s := Real.sqrt (x ⬝ᵥ x) with hs
  have hs0 : 0 < s := Real.sqrt_pos.mpr hxx
  have hss : s * s = x ⬝ᵥ x := Real.mul_self_sqrt hxx.le
  have key : ∀ ε : ℝ, ε ^ 2 = 1 → ε * (x ⬝ᵥ r'.c) + Real.sqrt (x ⬝ᵥ r'.Q *ᵥ x) ≥ s / R := by
    intro ε hε
    have hm : ((ε / (s * R)) • x) ∈ r'.set := by
      rw [hset]
      refine polar_inside hR hb _ ?_
      rw [smul_dotProduct, dotProduct_smul, smul_eq_mul, smul_eq_mul, ← hss]
      refine le_of_eq ?_
      field_simp
      rw [hε]
    have h3 := (mem_ell_sqrt hpsd _).mp hm (ε • x)
    rw [dotProduct_smul, smul_dotProduct, smul_dotProduct, mulVec_smul, smul_dotProduct, dotProduct_smul, smul_eq_mul, smul_eq_mul,
      smul_eq_mul, smul_eq_mul, smul_eq_mul, ← hss, ← mul_assoc ε ε, show ε * ε = 1 by rw [← hε, pow_two], one_mul] at h3
    have h4 : ε / (s * R) * (ε * (s * s)) = s / R := by
      field_simp
      rw [hε]
    linarith
  have k1 := key 1 (by norm_num)
  have k2 := key (-1) (by norm_num)
  have k3 : s / R ≤ Real.sqrt (x ⬝ᵥ r'.Q *ᵥ x) := by linarith
  have k4 : (s / R) ^ 2 ≤ x ⬝ᵥ r'.Q *ᵥ x := by
    have := pow_le_pow_left₀ (by positivity) k3 2
    rwa [Real.sq_sqrt (hpsd.2 x)] at this
  have k5 : (s / R) ^ 2 = 1 / R ^ 2 * (x ⬝ᵥ x) := by rw [div_pow, ← hss]; ring
  have k6 := mul_lt_mul_of_pos_right ht hxx
  linarith

/-- A concrete case: the disc of radius 1 around `(1/2, 0)`. -/
example (E : Eigh) (L : Lstsq) : ∃ r : EllN 2, polar E L stdProps (Arr.vec [discN.obj]) = .ok (Arr.vec [r.obj]) ∧
    r.set = polarSet discN.set ∧ polar E L stdProps (Arr.vec [r.obj]) = .ok (Arr.vec [discN.obj]) := by
  refine C90_bounded E L stdProps stdProps_ok (by decide) discN discN_nonDeg discN_inside (R := 2) (by norm_num) (fun x hx => ?_)
    (by norm_num [stdProps])
  have h := (mem_ell_sqrt discN_nonDeg.psd.2 x).mp hx x
  have h1 : x ⬝ᵥ discN.Q *ᵥ x = x ⬝ᵥ x := by
    show x ⬝ᵥ (1 : Matrix (Fin 2) (Fin 2) ℝ) *ᵥ x = _
    rw [one_mulVec]
  have h2 : x ⬝ᵥ discN.c = x 0 / 2 := by
    show x ⬝ᵥ ![1 / 2, 0] = _
    simp [dotProduct, Fin.sum_univ_two]
    ring
  rw [h1, h2] at h
  have h3 : x 0 ≤ Real.sqrt (x ⬝ᵥ x) := by
    refine Real.le_sqrt_of_sq_le ?_
    simp only [dotProduct, Fin.sum_univ_two]
    nlinarith [sq_nonneg (x 1)]
  have h4 : Real.sqrt (x ⬝ᵥ x) ^ 2 = x ⬝ᵥ x := Real.sq_sqrt (dot_self_nonneg x)
  nlinarith [Real.sqrt_nonneg (x ⬝ᵥ x)]

end Ellipy.Ell
