import Verif.Props.Polar

/-! Property theorem C46 (`polar`), continued: exactly when the call raises and when the result is the polar set. -/

namespace Ellipy.Ell
open Matrix Ellipy.LA

theorem k_of_zero_mem {n : ℕ} {e : EllN n} (he : e.NonDeg) : (0 : Fin n → ℝ) ∈ e.set ↔ e.k ≤ 1 := by
  rw [EllN.set, mem_ell_inv he.psd.2 (isUnit_iff_ne_zero.mpr he.det), zero_sub, mulVec_neg, neg_dotProduct_neg]; rfl

private theorem inside_iff {n : ℕ} {e : EllN n} (he : e.NonDeg) : OriginInside e.set ↔ e.k < 1 :=
  ⟨k_lt_one he, fun h => by_contra fun h0 => absurd (k_interior he h0) (not_le.mpr h)⟩

private theorem make_iff (E : Eigh) {n : ℕ} (hn : n ≠ 0) (c : Fin n → ℝ) {Q : Matrix (Fin n) (Fin n) ℝ} (hs : Qᵀ = Q) {p : PropVals} (hp : p.ok) :
    (ellMake E [.arr (encRow c), .arr (encMat Q)] p = .ok ⟨n, c, Q, p.absTol, p.relTol, p.n2d, p.n3d⟩ ∧
      ∀ v : Fin n → ℝ, -p.absTol * (v ⬝ᵥ v) ≤ v ⬝ᵥ Q *ᵥ v) ∨
    (Raises (ellMake E [.arr (encRow c), .arr (encMat Q)] p) ∧ ∃ v : Fin n → ℝ, v ⬝ᵥ Q *ᵥ v < -p.absTol * (v ⬝ᵥ v)) := by
  by_cases h : ∃ v : Fin n → ℝ, v ⬝ᵥ Q *ᵥ v < -p.absTol * (v ⬝ᵥ v)
  · exact Or.inr ⟨ellMake_raises E _ hs h.choose_spec, h⟩
  · push Not at h
    refine Or.inl ⟨?_, h⟩
    unfold ellMake
    rw [if_neg (not_not.mpr hp), C33]
    refine ⟨n, c, Q, rfl, Or.inr (Or.inr ⟨_, _, _, rfl, encRow_good hn c hp.1, encMat_good hp.1 (symmWithin_of_symm hs hp.1.le) fun v => ?_⟩)⟩
    rw [lowerSym_of_symm hs]
    exact h v

/-- **C46**: for one non-degenerate ellipsoid, exactly when `polar` raises: the origin is a boundary point, or it is outside and the formula for the polar
gives a matrix that is negative by more than the tolerance. -/
theorem C46_raises_iff (E : Eigh) (L : Lstsq) (p : PropVals) (hp : p.ok) {n : ℕ} (hn : n ≠ 0) (e : EllN n) (he : e.NonDeg) :
    Raises (polar E L p (Arr.vec [e.obj])) ↔ ¬ OriginInside e.set ∧ ((0 : Fin n → ℝ) ∈ e.set ∨ ∃ x : Fin n → ℝ,
      (x ⬝ᵥ e.Q⁻¹ *ᵥ x) / (1 - e.c ⬝ᵥ e.Q⁻¹ *ᵥ e.c) + (x ⬝ᵥ e.Q⁻¹ *ᵥ e.c / (1 - e.c ⬝ᵥ e.Q⁻¹ *ᵥ e.c)) ^ 2 < -p.absTol * (x ⬝ᵥ x)) := by
  have hq : ∀ x : Fin n → ℝ, x ⬝ᵥ polQ e *ᵥ x =
      (x ⬝ᵥ e.Q⁻¹ *ᵥ x) / (1 - e.c ⬝ᵥ e.Q⁻¹ *ᵥ e.c) + (x ⬝ᵥ e.Q⁻¹ *ᵥ e.c / (1 - e.c ⬝ᵥ e.Q⁻¹ *ᵥ e.c)) ^ 2 := by
    intro x
    rw [polQ_quad, polC, smul_dotProduct, smul_eq_mul, dotProduct_comm _ x]
    show 1 / (1 - e.k) * _ + _ = _ / (1 - e.k) + (_ / (1 - e.k)) ^ 2
    ring
  rw [inside_iff he, k_of_zero_mem he, polar_one E L p hn he, polarRobust_eq E L p hn he]
  simp only [← hq]
  by_cases hk1 : 1 - e.k = 0
  · rw [if_pos hk1]
    exact ⟨fun _ => ⟨by linarith, Or.inl (by linarith)⟩, fun _ => ⟨_, rfl⟩⟩
  rw [if_neg hk1]
  rcases make_iff E hn (polC e) (polQ_symm he) hp with ⟨h1, h2⟩ | ⟨⟨x, h1⟩, h2⟩
  · rw [h1]
    refine ⟨fun h => ?_, ?_⟩
    · obtain ⟨_, h⟩ := h
      cases h
    rintro ⟨h3, h4 | ⟨x, h4⟩⟩
    · exact absurd (by linarith) hk1
    · exact absurd (h2 x) (not_le.mpr h4)
  · rw [h1]
    refine ⟨fun _ => ⟨fun h3 => ?_, Or.inr h2⟩, fun _ => ⟨_, rfl⟩⟩
    obtain ⟨v, hv⟩ := h2
    have := (polQ_psd he h3).2 v
    have h5 := mul_nonneg hp.1.le (dot_self_nonneg v)
    linarith

/-- **C46**: whatever `polar` returns for one non-degenerate ellipsoid, it is the polar set exactly if the origin is an interior point. -/
theorem C46_iff (E : Eigh) (L : Lstsq) (p : PropVals) (hp : p.ok) {n : ℕ} (hn : n ≠ 0) (e : EllN n) (he : e.NonDeg) (r : EllN n)
    (h : polar E L p (Arr.vec [e.obj]) = .ok (Arr.vec [r.obj])) : r.set = polarSet e.set ↔ OriginInside e.set := by
  constructor
  · intro heq
    by_contra h0
    have hk := k_interior he h0
    -- the polar contains a ray
    have hk0 : 0 < e.k := by linarith
    set w := -(e.Q⁻¹ *ᵥ e.c) with hw
    have hray : ∀ t : ℝ, 0 ≤ t → t • w ∈ polarSet e.set := by
      intro t ht x hx
      have h1 := (mem_ell_inv he.psd.2 (isUnit_iff_ne_zero.mpr he.det) x).mp hx
      rw [mulVec_sub, sub_dotProduct, dotProduct_sub, dotProduct_sub] at h1
      have h2 : e.c ⬝ᵥ e.Q⁻¹ *ᵥ x = x ⬝ᵥ e.Q⁻¹ *ᵥ e.c := by rw [symm_dot (inv_symm he.2.1), dotProduct_comm]
      have h3 : 0 ≤ x ⬝ᵥ e.Q⁻¹ *ᵥ x := by
        by_cases hx0 : x = 0
        · rw [hx0, zero_dotProduct]
        · exact (he.inv_pos hx0).le
      have h4 : w ⬝ᵥ x = -(x ⬝ᵥ e.Q⁻¹ *ᵥ e.c) := by rw [hw, neg_dotProduct, dotProduct_comm]
      rw [smul_dotProduct, smul_eq_mul, h4]
      rw [h2] at h1
      unfold EllN.k at hk
      have h5 : 0 ≤ x ⬝ᵥ e.Q⁻¹ *ᵥ e.c := by linarith
      nlinarith [mul_nonneg ht h5]
    have hpsd : IsPSD r.Q := by
      have h1 := hray 0 le_rfl
      rw [← heq] at h1
      obtain ⟨S, hS, hSS, -⟩ := h1
      refine ⟨by rw [← hSS, transpose_mul, hS.1], fun x => ?_⟩
      rw [← hSS, ← mulVec_mulVec, symm_dot hS.1]
      exact dot_self_nonneg _
    have hw0 : 0 < w ⬝ᵥ w := by
      refine dot_self_pos fun h1 => ?_
      have : e.k = 0 := by
        have h2 : e.Q⁻¹ *ᵥ e.c = 0 := by rw [hw] at h1; exact neg_eq_zero.mp h1
        rw [EllN.k, h2, dotProduct_zero]
      linarith
    set M := w ⬝ᵥ r.c + Real.sqrt (w ⬝ᵥ r.Q *ᵥ w) with hM
    have h1 := hray ((|M| + 1) / (w ⬝ᵥ w)) (by positivity)
    rw [← heq] at h1
    have h2 := (mem_ell_sqrt hpsd _).mp h1 w
    rw [dotProduct_smul, smul_eq_mul, div_mul_cancel₀ _ hw0.ne'] at h2
    have := le_abs_self M
    linarith
  · intro h0
    obtain ⟨r', h1, -, h2⟩ := C46_partial E L p hp hn e he h0
    rw [h] at h1
    have h3 : r.obj = r'.obj := by
      have := congrArg (fun a => a.data.head?) (Except.ok.inj h1)
      exact Option.some.inj this
    have h4 : r.c = r'.c ∧ r.Q = r'.Q := by
      simp only [EllN.obj, EllObj.mk.injEq, heq_eq_eq, true_and] at h3
      exact ⟨h3.1, h3.2.1⟩
    rw [← h2, EllN.set, EllN.set, h4.1, h4.2]

/-- **C46** fails for every interval of the line that does not contain the origin: `polar` returns the interval of the reciprocals, which is not the polar. -/
theorem C46_line_violated (E : Eigh) (L : Lstsq) (p : PropVals) (hp : p.ok) (e : EllN 1) (he : e.NonDeg) (h0 : (0 : Fin 1 → ℝ) ∉ e.set) :
    ∃ r : EllN 1, polar E L p (Arr.vec [e.obj]) = .ok (Arr.vec [r.obj]) ∧ r.set = (fun x i => (x i)⁻¹) '' e.set ∧ r.set ≠ polarSet e.set := by
  have hk : 1 < e.k := by rw [k_of_zero_mem he] at h0; exact not_le.mp h0
  set q := e.Q 0 0 with hq
  set c := e.c 0 with hc
  have hq0 : 0 < q := by
    have := he.pos (x := fun _ => 1) (fun h => by simpa using congrFun h 0)
    simpa [dotProduct, mulVec] using this
  have hQ : e.Q = of fun _ _ => q := by ext i j; rw [Subsingleton.elim i 0, Subsingleton.elim j 0]; rfl
  have hinv : e.Q⁻¹ = of fun _ _ => q⁻¹ := by
    refine inv_eq_right_inv ?_
    ext i j
    rw [hQ, Matrix.mul_apply, Subsingleton.elim i 0, Subsingleton.elim j 0]
    simp [hq0.ne']
  have hkc : e.k = c ^ 2 / q := by
    rw [EllN.k, hinv]
    simp only [dotProduct, mulVec, Fin.sum_univ_one, of_apply]
    rw [← hc]; field_simp
  have hcq : q < c ^ 2 := by rw [hkc, lt_div_iff₀ hq0] at hk; linarith
  have hne : 1 - e.k ≠ 0 := by linarith
  have hpc : polC e = fun _ => c / (c ^ 2 - q) := by
    funext i
    rw [polC, hkc, hinv, Pi.smul_apply, smul_eq_mul]
    simp only [mulVec, dotProduct, Fin.sum_univ_one, of_apply]
    rw [← hc]
    have h1 : q - c ^ 2 ≠ 0 := by linarith
    have h2 : c ^ 2 - q ≠ 0 := by linarith
    field_simp
    ring
  have hpq : polQ e = of fun _ _ => q / (c ^ 2 - q) ^ 2 := by
    ext i j
    rw [polQ, hpc, hkc, hinv, Matrix.add_apply, Matrix.smul_apply, vecMulVec_apply, of_apply, of_apply, smul_eq_mul]
    have h1 : q - c ^ 2 ≠ 0 := by linarith
    have h2 : c ^ 2 - q ≠ 0 := by linarith
    field_simp
    ring
  have hd : 0 < c ^ 2 - q := by linarith
  have hpos : 0 < q / (c ^ 2 - q) ^ 2 := by positivity
  have hpsd : IsPSD (polQ e) := by
    refine ⟨polQ_symm he, fun x => ?_⟩
    rw [hpq]
    simp only [dotProduct, mulVec, Fin.sum_univ_one, of_apply]
    nlinarith [mul_nonneg hpos.le (mul_self_nonneg (x 0))]
  have hrun : polar E L p (Arr.vec [e.obj]) = .ok (Arr.vec [(⟨polC e, polQ e, p⟩ : EllN 1).obj]) := by
    rw [polar_one E L p one_ne_zero he, polarRobust_eq E L p one_ne_zero he, if_neg hne, ellMake_row_psd E one_ne_zero _ hp hpsd]
    rfl
  have hmem : ∀ x : Fin 1 → ℝ, x ∈ e.set ↔ (x 0 - c) ^ 2 ≤ q := by
    intro x
    rw [EllN.set, mem_ell_inv he.psd.2 (isUnit_iff_ne_zero.mpr he.det), hinv]
    simp only [dotProduct, mulVec, Fin.sum_univ_one, of_apply, Pi.sub_apply]
    rw [← hc, ← mul_assoc, mul_comm (x 0 - c) q⁻¹, mul_assoc, inv_mul_le_iff₀ hq0, mul_one, sq]
  have hmem' : ∀ x : Fin 1 → ℝ, x ∈ Ell (polC e) (polQ e) ↔ (x 0 - c / (c ^ 2 - q)) ^ 2 ≤ q / (c ^ 2 - q) ^ 2 := by
    intro x
    have hu : IsUnit (polQ e).det := by rw [hpq, det_fin_one]; exact isUnit_iff_ne_zero.mpr hpos.ne'
    have hinv' : (polQ e)⁻¹ = of fun _ _ => (q / (c ^ 2 - q) ^ 2)⁻¹ := by
      refine inv_eq_right_inv ?_
      ext i j
      rw [hpq, Matrix.mul_apply, Subsingleton.elim i 0, Subsingleton.elim j 0]
      simp only [Fin.sum_univ_one, of_apply, mul_inv_cancel₀ hpos.ne', one_apply_eq]
    rw [mem_ell_inv hpsd hu, hinv', hpc]
    simp only [dotProduct, mulVec, Fin.sum_univ_one, of_apply, Pi.sub_apply]
    rw [← mul_assoc, mul_comm (x 0 - _) (_)⁻¹, mul_assoc, inv_mul_le_iff₀ hpos, mul_one, ← sq]
  -- `y` is in the result exactly if `1 / y` is in the interval
  have key : ∀ y : ℝ, (y - c / (c ^ 2 - q)) ^ 2 ≤ q / (c ^ 2 - q) ^ 2 ↔ y ^ 2 * (c ^ 2 - q) - 2 * c * y + 1 ≤ 0 := by
    intro y
    have h2 : c ^ 2 - q ≠ 0 := hd.ne'
    have : (y - c / (c ^ 2 - q)) ^ 2 - q / (c ^ 2 - q) ^ 2 = (y ^ 2 * (c ^ 2 - q) - 2 * c * y + 1) / (c ^ 2 - q) := by
      field_simp
      ring
    rw [← sub_nonpos, this, div_nonpos_iff]
    constructor
    · rintro (⟨-, h⟩ | ⟨h, -⟩)
      · linarith
      · exact h
    · exact fun h => Or.inr ⟨h, hd.le⟩
  refine ⟨⟨polC e, polQ e, p⟩, hrun, ?_, fun heq => ?_⟩
  · ext y
    show y ∈ Ell (polC e) (polQ e) ↔ _
    rw [hmem', key]
    constructor
    · intro h
      have hy : y 0 ≠ 0 := by intro h1; rw [h1] at h; norm_num at h
      refine ⟨fun i => (y i)⁻¹, (hmem _).mpr ?_, by funext i; exact inv_inv _⟩
      have hy2 : 0 < y 0 ^ 2 := by positivity
      refine le_of_mul_le_mul_left ?_ hy2
      have : y 0 ^ 2 * ((y 0)⁻¹ - c) ^ 2 = (1 - c * y 0) ^ 2 := by field_simp
      show y 0 ^ 2 * ((y 0)⁻¹ - c) ^ 2 ≤ _
      rw [this]; nlinarith
    · rintro ⟨x, hx, rfl⟩
      have hx := (hmem x).mp hx
      have hx0 : x 0 ≠ 0 := by intro h1; rw [h1] at hx; nlinarith
      show (x 0)⁻¹ ^ 2 * (c ^ 2 - q) - 2 * c * (x 0)⁻¹ + 1 ≤ 0
      have : (x 0)⁻¹ ^ 2 * (c ^ 2 - q) - 2 * c * (x 0)⁻¹ + 1 = ((x 0 - c) ^ 2 - q) / x 0 ^ 2 := by
        field_simp
        ring
      rw [this]
      exact div_nonpos_of_nonpos_of_nonneg (by linarith) (by positivity)
  · exact absurd (k_lt_one he ((C46_iff E L p hp one_ne_zero e he _ hrun).mp heq)) (by linarith)

/-- The disc of radius 1 about `(3, 0)`: the call raises. -/
example (E : Eigh) (L : Lstsq) : Raises (polar E L stdProps (Arr.vec [(⟨![3, 0], 1, stdProps⟩ : EllN 2).obj])) := by
  have he : (⟨![3, 0], 1, stdProps⟩ : EllN 2).NonDeg := by
    refine ⟨stdProps_ok, transpose_one, fun x hx => ?_⟩
    have := dot_self_pos hx
    show (1 / 10 ^ 7 : ℝ) * _ < x ⬝ᵥ (1 : Matrix (Fin 2) (Fin 2) ℝ) *ᵥ x
    rw [one_mulVec]; linarith
  have hk : (⟨![3, 0], 1, stdProps⟩ : EllN 2).k = 9 := by
    show ![3, 0] ⬝ᵥ (1 : Matrix (Fin 2) (Fin 2) ℝ)⁻¹ *ᵥ ![3, 0] = (9 : ℝ)
    rw [inv_one, one_mulVec]; simp [dotProduct]; norm_num
  refine (C46_raises_iff E L stdProps stdProps_ok (by norm_num) _ he).mpr ⟨?_, Or.inr ⟨![0, 1], ?_⟩⟩
  · rw [inside_iff he, hk]; norm_num
  · show _ / (1 - (⟨![3, 0], 1, stdProps⟩ : EllN 2).k) + (_ / (1 - (⟨![3, 0], 1, stdProps⟩ : EllN 2).k)) ^ 2 < -(1 / 10 ^ 7) * _
    rw [hk]
    simp only [inv_one, one_mulVec, dotProduct, Fin.sum_univ_two, cons_val_zero, cons_val_one]
    norm_num

/-- The interval `[-3, -1]`: `polar` returns the interval `[-1, -1/3]`. -/
example (E : Eigh) (L : Lstsq) : ∃ r : EllN 1, polar E L stdProps (Arr.vec [(⟨fun _ => -2, 1, stdProps⟩ : EllN 1).obj]) = .ok (Arr.vec [r.obj]) ∧
    r.set = {x | -1 ≤ x 0 ∧ x 0 ≤ -(1 / 3)} ∧ r.set ≠ polarSet (EllN.set ⟨fun _ => -2, 1, stdProps⟩) := by
  have he : (⟨fun _ => -2, 1, stdProps⟩ : EllN 1).NonDeg := by
    refine ⟨stdProps_ok, transpose_one, fun x hx => ?_⟩
    have := dot_self_pos hx
    show (1 / 10 ^ 7 : ℝ) * _ < x ⬝ᵥ (1 : Matrix (Fin 1) (Fin 1) ℝ) *ᵥ x
    rw [one_mulVec]; linarith
  have hset : ∀ x : Fin 1 → ℝ, x ∈ EllN.set ⟨fun _ => -2, 1, stdProps⟩ ↔ (x 0 + 2) * (x 0 + 2) ≤ 1 := by
    intro x
    rw [EllN.set, mem_ell_inv he.psd.2 (isUnit_iff_ne_zero.mpr he.det)]
    show (x - fun _ => -2) ⬝ᵥ (1 : Matrix (Fin 1) (Fin 1) ℝ)⁻¹ *ᵥ (x - fun _ => -2) ≤ 1 ↔ _
    rw [inv_one, one_mulVec]
    simp only [dotProduct, Fin.sum_univ_one, Pi.sub_apply, sub_neg_eq_add]
  obtain ⟨r, h1, h2, h3⟩ := C46_line_violated E L stdProps stdProps_ok _ he (by rw [hset]; norm_num)
  refine ⟨r, h1, ?_, h3⟩
  rw [h2]
  ext y
  constructor
  · rintro ⟨x, hx, rfl⟩
    have hx := (hset x).mp hx
    have h4 : x 0 ≤ -1 := by nlinarith
    have h5 : -3 ≤ x 0 := by nlinarith
    have h6 : x 0 < 0 := by linarith
    constructor
    · show -1 ≤ (x 0)⁻¹
      rw [← one_div, le_div_iff_of_neg h6]; linarith
    · show (x 0)⁻¹ ≤ -(1 / 3)
      rw [← one_div, div_le_iff_of_neg h6]; linarith
  · rintro ⟨h4, h5⟩
    have h6 : y 0 < 0 := by linarith
    refine ⟨fun i => (y i)⁻¹, (hset _).mpr ?_, by funext i; exact inv_inv _⟩
    have h7 : (y 0)⁻¹ ≤ -1 := by rw [← one_div, div_le_iff_of_neg h6]; linarith
    have h8 : -3 ≤ (y 0)⁻¹ := by rw [← one_div, le_div_iff_of_neg h6]; linarith
    show ((y 0)⁻¹ + 2) * ((y 0)⁻¹ + 2) ≤ 1
    nlinarith

end Ellipy.Ell
