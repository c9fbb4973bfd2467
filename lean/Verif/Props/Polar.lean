import Mathlib.Tactic.FinCases
import Verif.Model.Polar
import Verif.Spec.Polar
import Verif.Props.Minksum

/-! Property theorem C46 (`polar`). -/

namespace Ellipy.Ell
open Matrix Ellipy.LA

theorem EllN.NonDeg.det {n : ℕ} {e : EllN n} (h : e.NonDeg) : e.Q.det ≠ 0 := by
  intro h0
  obtain ⟨v, hv, h1⟩ := exists_mulVec_eq_zero_iff.mpr h0
  have := h.pos hv
  rw [h1, dotProduct_zero] at this
  exact lt_irrefl _ this

theorem inv_symm {n : ℕ} {Q : Matrix (Fin n) (Fin n) ℝ} (h : Qᵀ = Q) : Q⁻¹ᵀ = Q⁻¹ := by rw [transpose_nonsing_inv, h]

/-- The inverse of the matrix is positive definite. -/
theorem EllN.NonDeg.inv_pos {n : ℕ} {e : EllN n} (h : e.NonDeg) {x : Fin n → ℝ} (hx : x ≠ 0) : 0 < x ⬝ᵥ e.Q⁻¹ *ᵥ x := by
  have hu : IsUnit e.Q.det := isUnit_iff_ne_zero.mpr h.det
  have hy : e.Q⁻¹ *ᵥ x ≠ 0 := by
    intro h0
    apply hx
    have := congrArg (fun v => e.Q *ᵥ v) h0
    simpa [mulVec_mulVec, mul_nonsing_inv _ hu] using this
  have h1 := h.pos hy
  rw [mulVec_mulVec, mul_nonsing_inv _ hu, one_mulVec] at h1
  rwa [dotProduct_comm]

/-- The Cauchy–Schwarz inequality for a matrix and its inverse. -/
theorem EllN.NonDeg.cauchy {n : ℕ} {e : EllN n} (he : e.NonDeg) (l x : Fin n → ℝ) :
    (l ⬝ᵥ x) ^ 2 ≤ (l ⬝ᵥ e.Q *ᵥ l) * (x ⬝ᵥ e.Q⁻¹ *ᵥ x) := by
  have hu : IsUnit e.Q.det := isUnit_iff_ne_zero.mpr he.det
  obtain ⟨S, hS, hSS⟩ := exists_root he.psd.2
  have e0 : S *ᵥ (S *ᵥ (e.Q⁻¹ *ᵥ x)) = x := by
    rw [mulVec_mulVec, hSS, mulVec_mulVec, mul_nonsing_inv _ hu, one_mulVec]
  have e1 : l ⬝ᵥ x = (S *ᵥ l) ⬝ᵥ (S *ᵥ (e.Q⁻¹ *ᵥ x)) := by
    rw [← symm_dot hS.1, e0]
  have e2 := dot_sq_le_mul (S *ᵥ l) (S *ᵥ (e.Q⁻¹ *ᵥ x))
  rw [← e1, root_dot hS hSS, root_dot hS hSS, mulVec_mulVec x e.Q, mul_nonsing_inv _ hu, one_mulVec, dotProduct_comm (e.Q⁻¹ *ᵥ x) x] at e2
  exact e2

theorem encRow_good {n : ℕ} (hn : n ≠ 0) (c : Fin n → ℝ) {tol : ℝ} (ht : 0 < tol) : GoodCenter tol (encRow c) c := by
  refine ⟨ht, 0, ⟨?_, ?_, fun i => ?_⟩, Or.inl rfl⟩
  · simp [encRow, List.max?]; omega
  · simp [encRow]
  · simp [encRow]

theorem ellMake_row_psd (E : Eigh) {n : ℕ} (hn : n ≠ 0) (c : Fin n → ℝ) {Q : Matrix (Fin n) (Fin n) ℝ} {p : PropVals} (hp : p.ok)
    (hQ : IsPSD Q) : ellMake E [.arr (encRow c), .arr (encMat Q)] p = .ok ⟨n, c, Q, p.absTol, p.relTol, p.n2d, p.n3d⟩ := by
  unfold ellMake
  rw [if_neg (not_not.mpr hp), C33]
  have hv := valid_of_psd (t1 := p.absTol) (t2 := p.relTol) (n2 := p.n2d) (n3 := p.n3d) c hQ hp
  exact ⟨n, c, Q, rfl, Or.inr (Or.inr ⟨_, _, _, rfl, encRow_good hn c hp.1, encMat_good hp.1 hv.symm hv.eig⟩)⟩

theorem isMat_unique {n m : ℕ} {Q X Y : Matrix (Fin n) (Fin n) ℝ} (h : IsMat (encMat Q) X Y) : X = Q := by
  ext i j
  have h1 := h.2 i j
  rw [(encMat_isMat Q).2 i j] at h1
  simp only [Option.some.injEq, CX.mk.injEq, XF.fin.injEq] at h1
  exact h1.1.symm

/-- The constructor refuses a matrix with a vector on which it is too negative. -/
theorem ellMake_raises (E : Eigh) (arg : RawArg) {n : ℕ} {Q : Matrix (Fin n) (Fin n) ℝ} (hs : Qᵀ = Q) {p : PropVals} {v : Fin n → ℝ}
    (hv : v ⬝ᵥ Q *ᵥ v < -p.absTol * (v ⬝ᵥ v)) : Raises (ellMake E [arg, .arr (encMat Q)] p) := by
  unfold ellMake
  by_cases hp : p.ok
  swap
  · rw [if_pos hp]; exact ⟨_, rfl⟩
  rw [if_neg (not_not.mpr hp)]
  cases h : ellNew E [arg, .arr (encMat Q)] p.absTol p.relTol p.n2d p.n3d with
  | error x => exact ⟨x, rfl⟩
  | ok e =>
    exfalso
    obtain ⟨m, x, X, -, ⟨h0, -⟩ | ⟨a, h0, -⟩ | ⟨b, a, rest, h0, -, hg⟩⟩ := (C33 E _ _ _ _ _ e).mp h
    · cases h0
    · cases h0
    · injection h0 with _ h0
      injection h0 with h0 _
      injection h0 with h0
      subst h0
      obtain ⟨ht, Y, hm, -, -, h2⟩ := hg
      have hmn : m = n := by
        have := hm.1
        simp only [encMat, List.cons.injEq] at this
        exact this.1.symm
      subst hmn
      obtain rfl := isMat_unique (m := m) hm
      have := h2 v
      rw [lowerSym_of_symm hs] at this
      linarith

/-- The number `⟨c, Q⁻¹ c⟩`, which is less than 1 exactly if the origin is an interior point. -/
noncomputable def EllN.k {n : ℕ} (e : EllN n) : ℝ := e.c ⬝ᵥ e.Q⁻¹ *ᵥ e.c

theorem k_lt_one {n : ℕ} {e : EllN n} (he : e.NonDeg) (h0 : OriginInside e.set) : e.k < 1 := by
  obtain ⟨ε, hε, h⟩ := h0
  by_cases hc : e.c = 0
  · rw [EllN.k, hc, zero_dotProduct]; exact one_pos
  have hcc := dot_self_pos hc
  set t := Real.sqrt (ε / (e.c ⬝ᵥ e.c)) with ht
  have ht0 : 0 < t := Real.sqrt_pos.mpr (div_pos hε hcc)
  have h1 := h (-t • e.c) (by
    rw [smul_dotProduct, dotProduct_smul, smul_eq_mul, smul_eq_mul]
    have : t ^ 2 = ε / (e.c ⬝ᵥ e.c) := Real.sq_sqrt (div_pos hε hcc).le
    have h2 : -t * (-t * (e.c ⬝ᵥ e.c)) = t ^ 2 * (e.c ⬝ᵥ e.c) := by ring
    rw [h2, this, div_mul_cancel₀ _ hcc.ne'])
  have h2 := (mem_ell_inv he.psd.2 (isUnit_iff_ne_zero.mpr he.det) _).mp h1
  have h3 : -t • e.c - e.c = -(1 + t) • e.c := by rw [neg_smul, neg_smul, add_smul, one_smul]; abel
  rw [h3, mulVec_smul, smul_dotProduct, dotProduct_smul, smul_eq_mul, smul_eq_mul] at h2
  have hk := he.inv_pos hc
  unfold EllN.k
  nlinarith [mul_pos ht0 hk, mul_pos (mul_pos ht0 ht0) hk]

theorem k_interior {n : ℕ} {e : EllN n} (he : e.NonDeg) (hk : ¬ OriginInside e.set) : 1 ≤ e.k := by
  by_contra hlt
  push Not at hlt
  apply hk
  -- a ball of radius `r` with `tol (1 - √k)²` inside
  have hu : IsUnit e.Q.det := isUnit_iff_ne_zero.mpr he.det
  have ht : 0 < e.props.absTol := he.1.1
  have hk0 : 0 ≤ e.k := by
    by_cases hc : e.c = 0
    · rw [EllN.k, hc, zero_dotProduct]
    · exact (he.inv_pos hc).le
  set r := 1 - Real.sqrt e.k with hr
  have hr0 : 0 < r := by
    have : Real.sqrt e.k < 1 := by rw [Real.sqrt_lt' one_pos]; simpa using hlt
    linarith
  refine ⟨e.props.absTol * r ^ 2, by positivity, fun x hx => ?_⟩
  rw [EllN.set, mem_ell_sqrt he.psd.2]
  intro l
  by_cases hl : l = 0
  · subst hl; simp
  set q := l ⬝ᵥ e.Q *ᵥ l with hq
  have hq0 : 0 < q := he.pos hl
  have h1 : (l ⬝ᵥ x) ^ 2 ≤ q * r ^ 2 := by
    have h2 := dot_sq_le_mul l x
    have h3 := he.2.2 l hl
    have h4 := dot_self_nonneg l
    calc (l ⬝ᵥ x) ^ 2 ≤ (l ⬝ᵥ l) * (x ⬝ᵥ x) := h2
      _ ≤ (l ⬝ᵥ l) * (e.props.absTol * r ^ 2) := mul_le_mul_of_nonneg_left hx h4
      _ = (e.props.absTol * (l ⬝ᵥ l)) * r ^ 2 := by ring
      _ ≤ q * r ^ 2 := mul_le_mul_of_nonneg_right h3.le (sq_nonneg r)
  have h2 : (l ⬝ᵥ e.c) ^ 2 ≤ q * e.k := he.cauchy l e.c
  have h3 : |l ⬝ᵥ x| ≤ Real.sqrt q * r := by
    rw [← Real.sqrt_sq hr0.le, ← Real.sqrt_mul hq0.le, ← Real.sqrt_sq_eq_abs]
    exact Real.sqrt_le_sqrt h1
  have h4 : |l ⬝ᵥ e.c| ≤ Real.sqrt q * Real.sqrt e.k := by
    rw [← Real.sqrt_mul hq0.le, ← Real.sqrt_sq_eq_abs]
    exact Real.sqrt_le_sqrt h2
  have h5 := (abs_le.mp h3).2
  have h6 := (abs_le.mp h4).1
  rw [hr] at h5
  linarith [mul_sub (Real.sqrt q) 1 (Real.sqrt e.k)]

theorem quadMat_inv (L : Lstsq) {n : ℕ} (hn : n ≠ 0) {R : Matrix (Fin n) (Fin n) ℝ} (hd : R.det ≠ 0) (v : Fin n → ℝ) (mode : String)
    (hm : mode = "inv" ∨ mode = "invadv") :
    quadMat L (matR R) (vecR v) (Arr.scalar 0) mode = .ok (oneByOne (v ⬝ᵥ R⁻¹ *ᵥ v)) := by
  have hu : IsUnit R.det := isUnit_iff_ne_zero.mpr hd
  have hc0 : IsCenterArr (Arr.scalar (0 : ℝ)) (0 : Fin n → ℝ) := Or.inr (Or.inl ⟨rfl, rfl⟩)
  obtain ⟨z, hz, h⟩ := C62_inv L hn _ _ _ R v 0 (matR_square hn R) (vecR_vec v) hc0 hd mode hm
  rw [sub_zero] at hz h
  have : z = R⁻¹ *ᵥ v := by rw [← hz, mulVec_mulVec, nonsing_inv_mul _ hu, one_mulVec]
  rw [h, this]

/-- The data of the polar. -/
noncomputable def polC {n : ℕ} (e : EllN n) : Fin n → ℝ := (-1 / (1 - e.k)) • (e.Q⁻¹ *ᵥ e.c)

noncomputable def polQ {n : ℕ} (e : EllN n) : Matrix (Fin n) (Fin n) ℝ := (1 / (1 - e.k)) • e.Q⁻¹ + vecMulVec (polC e) (polC e)

theorem polarRobust_eq (E : Eigh) (L : Lstsq) (p : PropVals) {n : ℕ} (hn : n ≠ 0) {e : EllN n} (he : e.NonDeg) :
    polarRobust E L p e.obj = if 1 - e.k = 0 then throwErr "wrongInput:center_vec"
      else ellMake E [.arr (encRow (polC e)), .arr (encMat (polQ e))] p := by
  have hd := he.det
  unfold polarRobust
  have h1 : npInv e.obj.Q = .ok e.Q⁻¹ := npInv_unit hd
  have h2 : quadMat L (matR e.obj.Q) (vecR e.obj.c) (Arr.scalar 0) "inv" = .ok (oneByOne e.k) := quadMat_inv L hn hd e.c "inv" (Or.inl rfl)
  simp only [h1, h2]
  show (if 1 - e.k = 0 then _ else _) = _
  by_cases hk : 1 - e.k = 0
  · rw [if_pos hk, if_pos hk]
  · rw [if_neg hk, if_neg hk]
    have h3 : (fun i => -L.sol e.Q (colMat e.c) i 0 / (1 - e.k)) = polC e := by
      funext i
      rw [lstsq_unit L hd, polC, Pi.smul_apply, smul_eq_mul, ← mulCol]
      ring
    have h4 : (1 / 2 : ℝ) • (e.Q⁻¹ + e.Q⁻¹ᵀ) = e.Q⁻¹ := by
      rw [inv_symm he.2.1, ← two_smul ℝ e.Q⁻¹, smul_smul]; norm_num
    have h5 : ∀ (q : Fin n → ℝ), q = polC e → ellMake E [.arr (encRow q), .arr (encMat ((1 / (1 - e.k)) • ((1 / 2 : ℝ) • (e.Q⁻¹ + e.Q⁻¹ᵀ)) +
        vecMulVec q q))] p = ellMake E [.arr (encRow (polC e)), .arr (encMat (polQ e))] p := by
      rintro _ rfl
      rw [h4]; rfl
    exact h5 _ h3

/-- The matrix `Q - c cᵀ`. -/
noncomputable def auxM {n : ℕ} (e : EllN n) : Matrix (Fin n) (Fin n) ℝ := e.Q - vecMulVec e.c e.c

theorem polQ_mul {n : ℕ} {e : EllN n} (he : e.NonDeg) (hk : 1 - e.k ≠ 0) : polQ e * ((1 - e.k) • auxM e) = 1 := by
  have hu : IsUnit e.Q.det := isUnit_iff_ne_zero.mpr he.det
  have hsy := inv_symm he.2.1
  have h1 : e.Q⁻¹ * vecMulVec e.c e.c = vecMulVec (e.Q⁻¹ *ᵥ e.c) e.c := mul_vecMulVec' _ _ _
  have h2 : vecMulVec (e.Q⁻¹ *ᵥ e.c) (e.Q⁻¹ *ᵥ e.c) * e.Q = vecMulVec (e.Q⁻¹ *ᵥ e.c) e.c := by
    rw [vecMulVec_mul'', he.2.1, mulVec_mulVec, mul_nonsing_inv _ hu, one_mulVec]
  have h3 : vecMulVec (e.Q⁻¹ *ᵥ e.c) (e.Q⁻¹ *ᵥ e.c) * vecMulVec e.c e.c = e.k • vecMulVec (e.Q⁻¹ *ᵥ e.c) e.c := by
    rw [vecMulVec_mul', dotProduct_comm]; rfl
  have h4 : vecMulVec (polC e) (polC e) = (1 / (1 - e.k) ^ 2) • vecMulVec (e.Q⁻¹ *ᵥ e.c) (e.Q⁻¹ *ᵥ e.c) := by
    ext i j
    simp only [polC, vecMulVec_apply, Pi.smul_apply, Matrix.smul_apply, smul_eq_mul]
    field_simp
  rw [polQ, h4, auxM, Matrix.mul_smul, Matrix.add_mul, Matrix.smul_mul, Matrix.smul_mul, Matrix.mul_sub, Matrix.mul_sub, h1, h2, h3,
    nonsing_inv_mul _ hu]
  ext i j
  simp only [Matrix.smul_apply, Matrix.add_apply, Matrix.sub_apply, smul_eq_mul]
  field_simp
  ring

theorem polQ_symm {n : ℕ} {e : EllN n} (he : e.NonDeg) : (polQ e)ᵀ = polQ e := by
  rw [polQ, transpose_add, transpose_smul, inv_symm he.2.1, transpose_vecMulVec]

theorem polQ_quad {n : ℕ} (e : EllN n) (x : Fin n → ℝ) :
    x ⬝ᵥ polQ e *ᵥ x = 1 / (1 - e.k) * (x ⬝ᵥ e.Q⁻¹ *ᵥ x) + (polC e ⬝ᵥ x) ^ 2 := by
  rw [polQ, add_mulVec, dotProduct_add, smul_mulVec, dotProduct_smul, smul_eq_mul, vecMulVec_mulVec', dotProduct_smul, smul_eq_mul,
    dotProduct_comm x (polC e)]
  ring

theorem polQ_psd {n : ℕ} {e : EllN n} (he : e.NonDeg) (hk : e.k < 1) : IsPSD (polQ e) := by
  refine ⟨polQ_symm he, fun x => ?_⟩
  rw [polQ_quad]
  by_cases hx : x = 0
  · subst hx; simp
  · have h1 := he.inv_pos hx
    have h2 : 0 < 1 - e.k := by linarith
    positivity

/-- The formula gives the polar set. -/
theorem pol_set {n : ℕ} {e : EllN n} (he : e.NonDeg) (hk : e.k < 1) : Ell (polC e) (polQ e) = polarSet e.set := by
  have hu : IsUnit e.Q.det := isUnit_iff_ne_zero.mpr he.det
  have hk' : 1 - e.k ≠ 0 := by linarith
  have h1 : 0 < 1 - e.k := by linarith
  have hPA := polQ_mul he hk'
  have hPu : IsUnit (polQ e).det := by
    have := congrArg det hPA
    rw [det_mul, det_one] at this
    exact IsUnit.of_mul_eq_one _ this
  have hinv : (polQ e)⁻¹ = (1 - e.k) • auxM e := inv_eq_right_inv hPA
  have hAc : auxM e *ᵥ polC e = - e.c := by
    have h2 : auxM e *ᵥ (e.Q⁻¹ *ᵥ e.c) = (1 - e.k) • e.c := by
      rw [auxM, sub_mulVec, mulVec_mulVec, mul_nonsing_inv _ hu, one_mulVec, vecMulVec_mulVec', sub_smul, one_smul]; rfl
    rw [polC, mulVec_smul, h2, smul_smul]
    have : -1 / (1 - e.k) * (1 - e.k) = -1 := by field_simp
    rw [this, neg_one_smul]
  have hAs : (auxM e)ᵀ = auxM e := by rw [auxM, transpose_sub, he.2.1, transpose_vecMulVec]
  have hcc : polC e ⬝ᵥ e.c = - (e.k / (1 - e.k)) := by
    rw [polC, smul_dotProduct, dotProduct_comm, smul_eq_mul]
    show -1 / (1 - e.k) * e.k = _
    ring
  ext l
  rw [mem_ell_inv (polQ_psd he hk) hPu, hinv]
  have hq : (l - polC e) ⬝ᵥ ((1 - e.k) • auxM e) *ᵥ (l - polC e) =
      (1 - e.k) * (l ⬝ᵥ e.Q *ᵥ l - (l ⬝ᵥ e.c) ^ 2 + 2 * (l ⬝ᵥ e.c)) + e.k := by
    have e1 : l ⬝ᵥ auxM e *ᵥ l = l ⬝ᵥ e.Q *ᵥ l - (l ⬝ᵥ e.c) ^ 2 := by
      rw [auxM, sub_mulVec, dotProduct_sub, vecMulVec_mulVec', dotProduct_smul, smul_eq_mul, dotProduct_comm e.c l]; ring
    have e2 : polC e ⬝ᵥ auxM e *ᵥ l = - (l ⬝ᵥ e.c) := by
      rw [symm_dot hAs, hAc, neg_dotProduct, dotProduct_comm]
    rw [smul_mulVec, dotProduct_smul, smul_eq_mul, mulVec_sub, hAc, sub_dotProduct, dotProduct_sub, dotProduct_sub, e1, e2,
      dotProduct_neg, dotProduct_neg, hcc]
    field_simp
    ring
  rw [hq]
  have hset : l ∈ polarSet e.set ↔ l ⬝ᵥ e.c + Real.sqrt (l ⬝ᵥ e.Q *ᵥ l) ≤ 1 := by
    have hs := ell_support (c := e.c) he.psd.2 l
    constructor
    · intro h
      obtain ⟨⟨x, hx, hxe⟩, -⟩ := hs
      rw [← hxe]; exact h x hx
    · intro h x hx
      exact le_trans (hs.2 ⟨x, hx, rfl⟩) h
  rw [hset]
  have hCS : (l ⬝ᵥ e.c) ^ 2 ≤ (l ⬝ᵥ e.Q *ᵥ l) * e.k := he.cauchy l e.c
  have hq0 : 0 ≤ l ⬝ᵥ e.Q *ᵥ l := he.psd.2.2 l
  set q := l ⬝ᵥ e.Q *ᵥ l
  set t := l ⬝ᵥ e.c
  constructor
  · intro h
    have h2 : q ≤ (1 - t) ^ 2 := by
      have : (1 - e.k) * (q - t ^ 2 + 2 * t) ≤ (1 - e.k) * 1 := by linarith
      have := le_of_mul_le_mul_left this h1
      nlinarith
    have h3 : t ≤ 1 := by
      by_contra hlt
      push Not at hlt
      nlinarith
    have := Real.sqrt_le_sqrt h2
    rw [Real.sqrt_sq (by linarith)] at this
    linarith
  · intro h
    have h2 : Real.sqrt q ≤ 1 - t := by linarith
    have h3 : q ≤ (1 - t) ^ 2 := by
      rw [← Real.sq_sqrt hq0]
      exact pow_le_pow_left₀ (Real.sqrt_nonneg _) h2 2
    have : (1 - e.k) * (q - t ^ 2 + 2 * t) ≤ (1 - e.k) * 1 := mul_le_mul_of_nonneg_left (by nlinarith) h1.le
    linarith

theorem isDegenerate_nonDeg (E : Eigh) {n : ℕ} (hn : n ≠ 0) {e : EllN n} (he : e.NonDeg) : isDegenerate E [e.obj] = .ok [false] := by
  have ht : 0 < e.props.absTol := he.1.1
  unfold isDegenerate
  rw [if_neg]
  · have hd : isMatPosDef E e.obj.Q e.obj.absTol false = .ok true := (C20_pos_def E e.Q _ ht.le hn he.2.1).mpr he.2.2
    simp only [pyMap, hd]
    rfl
  · rintro ⟨x, hx, h0⟩
    rw [List.mem_singleton] at hx
    subst hx
    exact hn h0

theorem polar_one (E : Eigh) (L : Lstsq) (p : PropVals) {n : ℕ} (hn : n ≠ 0) {e : EllN n} (he : e.NonDeg) :
    polar E L p (Arr.vec [e.obj]) = match polarRobust E L p e.obj with
      | .error x => .error x
      | .ok r => .ok (Arr.vec [r]) := by
  unfold polar
  have : isDegenerate E (Arr.vec [e.obj]).data = .ok [false] := isDegenerate_nonDeg E hn he
  rw [this]
  simp only [List.mem_singleton]
  rw [if_neg (by decide)]
  rfl

/-- **C46** (partial): for an array with one non-degenerate ellipsoid that has the origin in its interior, `polar` returns the polar
set.  Missing: arrays with more elements, see `C46_array_violated`, and the ellipsoids without the origin, see `C46_outside_partial`
and `C46_outside_violated`. -/
theorem C46_partial (E : Eigh) (L : Lstsq) (p : PropVals) (hp : p.ok) {n : ℕ} (hn : n ≠ 0) (e : EllN n) (he : e.NonDeg)
    (h0 : OriginInside e.set) : ∃ r : EllN n, polar E L p (Arr.vec [e.obj]) = .ok (Arr.vec [r.obj]) ∧ r.props = p ∧
      r.set = polarSet e.set := by
  have hk := k_lt_one he h0
  refine ⟨⟨polC e, polQ e, p⟩, ?_, rfl, pol_set he hk⟩
  rw [polar_one E L p hn he, polarRobust_eq E L p hn he, if_neg (by linarith), ellMake_row_psd E hn _ hp (polQ_psd he hk)]
  rfl

theorem exists_orth {n : ℕ} (hn : 2 ≤ n) (w : Fin n → ℝ) : ∃ v : Fin n → ℝ, v ≠ 0 ∧ w ⬝ᵥ v = 0 := by
  have hne : Nontrivial (Fin n) := Fin.nontrivial_iff_two_le.mpr hn
  by_cases hw : w = 0
  · refine ⟨fun _ => 1, fun h => ?_, by rw [hw, zero_dotProduct]⟩
    have := congrFun h ⟨0, by omega⟩
    norm_num at this
  · obtain ⟨i, hi⟩ : ∃ i, w i ≠ 0 := by
      by_contra h; push Not at h; exact hw (funext h)
    obtain ⟨j, hj⟩ := exists_ne i
    refine ⟨w j • Pi.single i 1 - w i • Pi.single j 1, fun h => ?_, ?_⟩
    · have := congrFun h j
      simp [hj] at this
      exact hi this
    · rw [dotProduct_sub, dotProduct_smul, dotProduct_smul, dotProduct_single_one, dotProduct_single_one]
      simp only [smul_eq_mul]; ring

/-- **C46**, errors (partial): the call raises if the origin is a boundary point, or if it is outside, the dimension is at least two
and the ellipsoid is not huge.  Missing: intervals of the line and huge ellipsoids, see `C46_outside_violated`. -/
theorem C46_outside_partial (E : Eigh) (L : Lstsq) (p : PropVals) {n : ℕ} (hn : n ≠ 0) (e : EllN n) (he : e.NonDeg)
    (h0 : ¬ OriginInside e.set) (h1 : (0 : Fin n → ℝ) ∈ e.set ∨
      (2 ≤ n ∧ ∀ x : Fin n → ℝ, x ≠ 0 → (e.c ⬝ᵥ e.Q⁻¹ *ᵥ e.c - 1) * p.absTol * (x ⬝ᵥ e.Q *ᵥ x) < x ⬝ᵥ x)) :
    Raises (polar E L p (Arr.vec [e.obj])) := by
  have hu : IsUnit e.Q.det := isUnit_iff_ne_zero.mpr he.det
  have hk := k_interior he h0
  rw [polar_one E L p hn he, polarRobust_eq E L p hn he]
  by_cases hk1 : 1 - e.k = 0
  · rw [if_pos hk1]; exact ⟨_, rfl⟩
  rw [if_neg hk1]
  have hk2 : 1 < e.k := lt_of_le_of_ne hk (fun h => hk1 (by rw [← h]; ring))
  rcases h1 with h1 | ⟨hn2, h1⟩
  · rw [EllN.set, mem_ell_inv he.psd.2 hu, zero_sub, mulVec_neg, neg_dotProduct_neg] at h1
    exact absurd h1 (not_le.mpr hk2)
  · obtain ⟨v, hv, horth⟩ := exists_orth hn2 (polC e)
    have hr : Raises (ellMake E [.arr (encRow (polC e)), .arr (encMat (polQ e))] p) := by
      refine ellMake_raises E _ (polQ_symm he) (v := v) ?_
      rw [polQ_quad, horth]
      have h2 := he.inv_pos hv
      have hvv := dot_self_pos hv
      have hq := he.pos hv
      have hCS : (v ⬝ᵥ v) ^ 2 ≤ (v ⬝ᵥ e.Q *ᵥ v) * (v ⬝ᵥ e.Q⁻¹ *ᵥ v) := he.cauchy v v
      have h3 : (e.k - 1) * p.absTol * (v ⬝ᵥ e.Q *ᵥ v) < v ⬝ᵥ v := h1 v hv
      have h4 : (e.k - 1) * p.absTol * (v ⬝ᵥ v) < v ⬝ᵥ e.Q⁻¹ *ᵥ v := by
        have : (e.k - 1) * p.absTol * (v ⬝ᵥ v) * (v ⬝ᵥ e.Q *ᵥ v) < (v ⬝ᵥ e.Q⁻¹ *ᵥ v) * (v ⬝ᵥ e.Q *ᵥ v) := by nlinarith
        exact lt_of_mul_lt_mul_right this hq.le
      have hk3 : 0 < e.k - 1 := by linarith
      have h5 : 1 / (1 - e.k) * (v ⬝ᵥ e.Q⁻¹ *ᵥ v) = - ((v ⬝ᵥ e.Q⁻¹ *ᵥ v) / (e.k - 1)) := by
        have : 1 - e.k = -(e.k - 1) := by ring
        rw [this, one_div, inv_neg]; ring
      rw [h5]
      have h6 : p.absTol * (v ⬝ᵥ v) < (v ⬝ᵥ e.Q⁻¹ *ᵥ v) / (e.k - 1) := by
        rw [lt_div_iff₀ hk3]; linarith
      linarith
    obtain ⟨x, hx⟩ := hr
    rw [hx]; exact ⟨x, rfl⟩

/-- **C46** fails for arrays: two or more ellipsoids always raise. -/
theorem C46_array_violated (E : Eigh) (L : Lstsq) (p : PropVals) (a : Arr EllObj) (ha : 2 ≤ a.data.length) : Raises (polar E L p a) := by
  unfold polar
  cases h : isDegenerate E a.data with
  | error x => exact ⟨x, rfl⟩
  | ok ds =>
    simp only
    by_cases hd : true ∈ ds
    · rw [if_pos hd]; exact ⟨_, rfl⟩
    rw [if_neg hd]
    match hdat : a.data, ha with
    | e :: e' :: rest, _ =>
      match hsh : a.shape with
      | [] => exact ⟨_, rfl⟩
      | [_] =>
        simp only
        cases polarRobust E L p e with
        | error x => exact ⟨x, rfl⟩
        | ok r =>
          simp only
          cases polarRobust E L p e' with
          | error x => exact ⟨x, rfl⟩
          | ok r => exact ⟨_, rfl⟩
      | _ :: _ :: _ => exact ⟨_, rfl⟩

/-- **C46**: a degenerate ellipsoid in the array raises. -/
theorem C46_degenerate (E : Eigh) (L : Lstsq) (p : PropVals) (a : Arr EllObj) (n : ℕ) (e : EllN n) (ht : 0 ≤ e.props.absTol)
    (he : e.obj ∈ a.data) (hs : e.Qᵀ = e.Q) (hd : ∃ x : Fin n → ℝ, x ≠ 0 ∧ x ⬝ᵥ e.Q *ᵥ x ≤ e.props.absTol * (x ⬝ᵥ x)) :
    Raises (polar E L p a) := by
  unfold polar
  cases h : isDegenerate E a.data with
  | error x => exact ⟨x, rfl⟩
  | ok ds =>
    simp only
    have : true ∈ ds := by
      unfold isDegenerate at h
      by_cases hne : anyEmpty a.data
      · rw [if_pos hne] at h; cases h
      rw [if_neg hne] at h
      cases hm : pyMap (fun e => isMatPosDef E e.Q e.absTol false) a.data with
      | error x => rw [hm] at h; cases h
      | ok bs =>
        rw [hm] at h
        injection h with h
        subst h
        have hF := (pyMap_ok_iff _ _ _).mp hm
        obtain ⟨b, hb, hbe⟩ := forall₂_right hF.flip e.obj he
        rw [List.mem_map]
        refine ⟨b, hb, ?_⟩
        cases b with
        | false => rfl
        | true =>
          obtain ⟨x, hx, hle⟩ := hd
          have hn : n ≠ 0 := by rintro rfl; exact hx (Subsingleton.elim _ _)
          have := (C20_pos_def E e.Q _ ht hn hs).mp hbe x hx
          exact absurd this (not_lt.mpr hle)
    rw [if_pos this]; exact ⟨_, rfl⟩

/-- **C46** fails on the line: the interval `[2, 4]` has an unbounded polar, but `polar` returns `[1/4, 1/2]`. -/
theorem C46_outside_violated (E : Eigh) (L : Lstsq) (p : PropVals) (hp : p.ok) : ∃ e r : EllN 1, e.NonDeg ∧
    polar E L p (Arr.vec [e.obj]) = .ok (Arr.vec [r.obj]) ∧ r.set ≠ polarSet e.set ∧ ¬ OriginInside e.set := by
  let q : PropVals := ⟨1 / 10, 1, 200, 200⟩
  have hq : q.ok := ⟨by norm_num [q], by norm_num [q], ⟨200, by norm_num [q]⟩, ⟨200, by norm_num [q]⟩⟩
  let e : EllN 1 := ⟨fun _ => 3, 1, q⟩
  have he : e.NonDeg := by
    refine ⟨hq, transpose_one, fun x hx => ?_⟩
    have := dot_self_pos hx
    show (1 / 10 : ℝ) * _ < x ⬝ᵥ (1 : Matrix (Fin 1) (Fin 1) ℝ) *ᵥ x
    rw [one_mulVec]; linarith
  have hk : e.k = 9 := by
    show (fun _ => (3 : ℝ)) ⬝ᵥ (1 : Matrix (Fin 1) (Fin 1) ℝ)⁻¹ *ᵥ (fun _ => 3) = 9
    rw [inv_one, one_mulVec]; simp [dotProduct]; norm_num
  have hc : polC e = fun _ => 3 / 8 := by
    funext i
    rw [polC, hk]
    show -1 / (1 - 9) * ((1 : Matrix (Fin 1) (Fin 1) ℝ)⁻¹ *ᵥ (fun _ => (3 : ℝ))) i = 3 / 8
    rw [inv_one, one_mulVec]; norm_num
  have hP : polQ e = (1 / 64 : ℝ) • 1 := by
    rw [polQ, hk, hc]
    ext i j
    show (1 / (1 - 9) : ℝ) * (1 : Matrix (Fin 1) (Fin 1) ℝ)⁻¹ i j + 3 / 8 * (3 / 8) = _
    rw [inv_one, Subsingleton.elim i j]; simp; norm_num
  have hpsd : IsPSD (polQ e) := by
    rw [hP]
    refine ⟨by rw [transpose_smul, transpose_one], fun x => ?_⟩
    rw [smul_mulVec, one_mulVec, dotProduct_smul]
    have := dot_self_nonneg x
    simp only [smul_eq_mul]; positivity
  have h8 : ¬ OriginInside e.set := fun h => by have := k_lt_one he h; rw [hk] at this; norm_num at this
  refine ⟨e, ⟨polC e, polQ e, p⟩, he, ?_, ?_, h8⟩
  · rw [polar_one E L p one_ne_zero he, polarRobust_eq E L p one_ne_zero he, if_neg (by rw [hk]; norm_num),
      ellMake_row_psd E one_ne_zero _ hp hpsd]
    rfl
  · intro heq
    -- `-10` is in the polar but not in the result
    have hin : (fun _ => (-10 : ℝ)) ∈ polarSet e.set := by
      intro x hx
      have hx' := (mem_ell_inv he.psd.2 (isUnit_iff_ne_zero.mpr he.det) x).mp hx
      have h1 : (x - fun _ => 3) ⬝ᵥ (1 : Matrix (Fin 1) (Fin 1) ℝ)⁻¹ *ᵥ (x - fun _ => 3) ≤ 1 := hx'
      rw [inv_one, one_mulVec] at h1
      simp only [dotProduct, Fin.sum_univ_one, Pi.sub_apply] at h1 ⊢
      nlinarith
    rw [← heq] at hin
    have h2 := (mem_ell_support hpsd _).mp hin (fun _ => 1)
    rw [hP, hc, smul_mulVec, one_mulVec] at h2
    simp [dotProduct] at h2
    norm_num at h2

/-- The eigenvectors and eigenvalues restore a symmetric matrix. -/
theorem eigh_restore (E : Eigh) {n : ℕ} {A : Matrix (Fin n) (Fin n) ℝ} (hA : Aᵀ = A) :
    E.vecs A * diagonal (E.vals A) * (E.vecs A)ᵀ = A := by
  rw [← E.spec, lowerSym_of_symm hA, Matrix.mul_assoc, mul_eq_one_comm.mp (E.orth A), Matrix.mul_one]

theorem half_symm {n : ℕ} {A : Matrix (Fin n) (Fin n) ℝ} (hA : Aᵀ = A) : (1 / 2 : ℝ) • (A + Aᵀ) = A := by
  rw [hA, ← two_smul ℝ A, smul_smul]; norm_num

theorem polarPlain_obj (E : Eigh) (L : Lstsq) (p : PropVals) (o : EllObj) (hn : o.n ≠ 0) {k : ℝ}
    (h2 : quadMat L (matR o.Q) (vecR o.c) (Arr.scalar 0) "invadv" = .ok (oneByOne k)) (hk : k < 1)
    {B : Matrix (Fin o.n) (Fin o.n) ℝ} (hs : Bᵀ = B) (h1 : npInv (o.Q - of fun _ _ => o.c ⬝ᵥ o.c) = .ok B) :
    polarPlain E L p o = ellMake E [.arr (encVec (-(B *ᵥ o.c))), .arr (encMat ((1 + o.c ⬝ᵥ B *ᵥ o.c) • B))] p := by
  unfold polarPlain
  have h4 : E.vecs ((1 / 2 : ℝ) • (B + Bᵀ)) * diagonal (E.vals ((1 / 2 : ℝ) • (B + Bᵀ))) * (E.vecs ((1 / 2 : ℝ) • (B + Bᵀ)))ᵀ = B := by
    rw [half_symm hs, eigh_restore E hs]
  have h5 : (0.5 : ℝ) • (B + Bᵀ) = B := by
    rw [hs, ← two_smul ℝ B, smul_smul]; norm_num
  have hk' : (oneByOne k).data.getD 0 0 < 1 := hk
  have h6 := quadMat_plain L hn B o.c
  simp only [h2, h1, h4, h5, h6]
  rw [if_pos hk']
  rfl

/-- The other method, evaluated. -/
theorem polarPlain_eq (E : Eigh) (L : Lstsq) (p : PropVals) {n : ℕ} (hn : n ≠ 0) {e : EllN n} (he : e.NonDeg) (hk : e.k < 1)
    {B : Matrix (Fin n) (Fin n) ℝ} (hs : Bᵀ = B) (hB : (e.Q - of fun _ _ => e.c ⬝ᵥ e.c) * B = 1) :
    polarPlain E L p e.obj = ellMake E [.arr (encVec (-(B *ᵥ e.c))), .arr (encMat ((1 + e.c ⬝ᵥ B *ᵥ e.c) • B))] p := by
  have hd : (e.Q - of fun _ _ => e.c ⬝ᵥ e.c).det ≠ 0 := by
    intro h0
    have := congrArg det hB
    rw [det_mul, det_one, h0, zero_mul] at this
    exact zero_ne_one this
  have h1 : npInv (e.Q - of fun _ _ => e.c ⬝ᵥ e.c) = .ok B := by
    rw [← inv_eq_right_inv hB]; exact npInv_unit hd
  exact polarPlain_obj E L p e.obj hn (quadMat_inv L hn he.det e.c "invadv" (Or.inr rfl)) hk hs h1

/-- **C46**, the other method (partial): it is right for ellipsoids with the centre at the origin.  Missing: see
`C46_plain_violated`. -/
theorem C46_plain_partial (E : Eigh) (L : Lstsq) (p : PropVals) (hp : p.ok) {n : ℕ} (hn : n ≠ 0) (e : EllN n) (he : e.NonDeg)
    (h0 : e.c = 0) : ∃ r : EllN n, polarPlain E L p e.obj = .ok r.obj ∧ r.props = p ∧ r.set = polarSet e.set := by
  have hu : IsUnit e.Q.det := isUnit_iff_ne_zero.mpr he.det
  have hk0 : e.k = 0 := by rw [EllN.k, h0, zero_dotProduct]
  have hk : e.k < 1 := by rw [hk0]; exact one_pos
  have hB : (e.Q - of fun _ _ => e.c ⬝ᵥ e.c) * e.Q⁻¹ = 1 := by
    have : (of fun _ _ => e.c ⬝ᵥ e.c : Matrix (Fin n) (Fin n) ℝ) = 0 := by ext i j; simp [h0]
    rw [this, sub_zero, mul_nonsing_inv _ hu]
  have hc : polC e = 0 := by rw [polC, h0, mulVec_zero, smul_zero]
  have hQ : polQ e = e.Q⁻¹ := by
    rw [polQ, hc, hk0]; ext i j; simp [vecMulVec_apply]
  refine ⟨⟨polC e, polQ e, p⟩, ?_, rfl, pol_set he hk⟩
  rw [polarPlain_eq E L p hn he hk (inv_symm he.2.1) hB]
  have h1 : -(e.Q⁻¹ *ᵥ e.c) = polC e := by rw [h0, hc, mulVec_zero, neg_zero]
  have h2 : (1 + e.c ⬝ᵥ e.Q⁻¹ *ᵥ e.c) • e.Q⁻¹ = polQ e := by rw [hQ, h0, zero_dotProduct, add_zero, one_smul]
  rw [h1, h2, ellMake_psd E _ hp (polQ_psd he hk)]
  rfl

/-- A disc whose centre is not the origin. -/
noncomputable def discN : EllN 2 := ⟨![1 / 2, 0], 1, stdProps⟩

theorem discN_nonDeg : discN.NonDeg := by
  refine ⟨stdProps_ok, transpose_one, fun x hx => ?_⟩
  have := dot_self_pos hx
  show stdProps.absTol * _ < x ⬝ᵥ (1 : Matrix (Fin 2) (Fin 2) ℝ) *ᵥ x
  rw [one_mulVec]
  have h : stdProps.absTol < 1 := by norm_num [stdProps]
  nlinarith

theorem discN_k : discN.k = 1 / 4 := by
  show ![(1 / 2 : ℝ), 0] ⬝ᵥ (1 : Matrix (Fin 2) (Fin 2) ℝ)⁻¹ *ᵥ ![1 / 2, 0] = 1 / 4
  rw [inv_one, one_mulVec]; simp [dotProduct, Fin.sum_univ_two]; norm_num

theorem discN_inside : OriginInside discN.set := by
  by_contra h
  have := k_interior discN_nonDeg h
  rw [discN_k] at this
  norm_num at this

/-- **C46** fails for the other method: the disc of radius 1 around `(1/2, 0)`. -/
theorem C46_plain_violated (E : Eigh) (L : Lstsq) (p : PropVals) (hp : p.ok) : ∃ e r : EllN 2, e.NonDeg ∧ OriginInside e.set ∧
    polarPlain E L p e.obj = .ok r.obj ∧ r.set ≠ polarSet e.set := by
  let B : Matrix (Fin 2) (Fin 2) ℝ := !![3 / 2, 1 / 2; 1 / 2, 3 / 2]
  have hs : Bᵀ = B := by ext i j; fin_cases i <;> fin_cases j <;> rfl
  have hB : (discN.Q - of fun _ _ => discN.c ⬝ᵥ discN.c) * B = 1 := by
    show ((1 : Matrix (Fin 2) (Fin 2) ℝ) - of fun _ _ => ![(1 / 2 : ℝ), 0] ⬝ᵥ ![1 / 2, 0]) * B = 1
    ext i j
    fin_cases i <;> fin_cases j <;> simp [B, Matrix.mul_apply, Fin.sum_univ_two, dotProduct] <;> norm_num
  have hc : -(B *ᵥ discN.c) = ![-3 / 4, -1 / 4] := by
    show -(B *ᵥ ![(1 / 2 : ℝ), 0]) = _
    ext i; fin_cases i <;> simp [B, mulVec, dotProduct, Fin.sum_univ_two] <;> norm_num
  have hq : 1 + discN.c ⬝ᵥ B *ᵥ discN.c = 11 / 8 := by
    show 1 + ![(1 / 2 : ℝ), 0] ⬝ᵥ B *ᵥ ![1 / 2, 0] = _
    simp [B, mulVec, dotProduct, Fin.sum_univ_two]; norm_num
  have hpsd : IsPSD ((11 / 8 : ℝ) • B) := by
    refine ⟨by rw [transpose_smul, hs], fun x => ?_⟩
    rw [smul_mulVec, dotProduct_smul, smul_eq_mul]
    simp [B, mulVec, dotProduct, Fin.sum_univ_two]
    nlinarith [sq_nonneg (x 0 + x 1), sq_nonneg (x 0), sq_nonneg (x 1)]
  refine ⟨discN, ⟨![-3 / 4, -1 / 4], (11 / 8 : ℝ) • B, p⟩, discN_nonDeg, discN_inside, ?_, ?_⟩
  · rw [polarPlain_eq E L p two_ne_zero discN_nonDeg (by rw [discN_k]; norm_num) hs hB, hc, hq, ellMake_psd E _ hp hpsd]
    rfl
  · intro heq
    obtain ⟨⟨l, hl, hle⟩, -⟩ := ell_support (c := ![-3 / 4, -1 / 4]) hpsd ![1 / 2, -1]
    have h1 : l ∈ polarSet discN.set := by rw [← heq]; exact hl
    have hx : ![(1 / 2 : ℝ), -1] ∈ discN.set := by
      rw [EllN.set, mem_ell_inv discN_nonDeg.psd.2 (isUnit_iff_ne_zero.mpr discN_nonDeg.det)]
      show (![(1 / 2 : ℝ), -1] - ![1 / 2, 0]) ⬝ᵥ (1 : Matrix (Fin 2) (Fin 2) ℝ)⁻¹ *ᵥ (![(1 / 2 : ℝ), -1] - ![1 / 2, 0]) ≤ 1
      rw [inv_one, one_mulVec]; simp [dotProduct, Fin.sum_univ_two]
    have h2 := h1 _ hx
    have h3 : ![(1 / 2 : ℝ), -1] ⬝ᵥ ((11 / 8 : ℝ) • B) *ᵥ ![1 / 2, -1] = (11 / 8) ^ 2 := by
      simp [B, mulVec, dotProduct, Fin.sum_univ_two]; norm_num
    rw [h3, Real.sqrt_sq (by norm_num)] at hle
    have h4 : ![(1 / 2 : ℝ), -1] ⬝ᵥ ![-3 / 4, -1 / 4] = -1 / 8 := by simp [dotProduct, Fin.sum_univ_two]; norm_num
    have hle' : ![(1 / 2 : ℝ), -1] ⬝ᵥ l = ![(1 / 2 : ℝ), -1] ⬝ᵥ ![-3 / 4, -1 / 4] + 11 / 8 := hle
    rw [dotProduct_comm, h4] at hle'
    rw [hle'] at h2
    norm_num at h2

/-- The hypotheses of `C46_partial` hold for a disc whose centre is not the origin. -/
example (E : Eigh) (L : Lstsq) : ∃ r : EllN 2, polar E L stdProps (Arr.vec [discN.obj]) = .ok (Arr.vec [r.obj]) ∧
    r.set = polarSet discN.set := by
  obtain ⟨r, h1, -, h2⟩ := C46_partial E L stdProps stdProps_ok two_ne_zero discN discN_nonDeg discN_inside
  exact ⟨r, h1, h2⟩

/-- The hypotheses of `C46_outside_partial`: a disc of radius 1 around `(2, 0)`. -/
example (E : Eigh) (L : Lstsq) : Raises (polar E L stdProps (Arr.vec [(⟨![2, 0], 1, stdProps⟩ : EllN 2).obj])) := by
  have he : (⟨![2, 0], 1, stdProps⟩ : EllN 2).NonDeg := discN_nonDeg
  have hk : ![(2 : ℝ), 0] ⬝ᵥ (1 : Matrix (Fin 2) (Fin 2) ℝ)⁻¹ *ᵥ ![2, 0] = 4 := by
    rw [inv_one, one_mulVec]; simp [dotProduct, Fin.sum_univ_two]; norm_num
  refine C46_outside_partial E L stdProps two_ne_zero _ he (fun h => ?_) (Or.inr ⟨le_rfl, fun x hx => ?_⟩)
  · have := k_lt_one he h
    rw [EllN.k] at this
    simp only [hk] at this
    norm_num at this
  · simp only [hk, one_mulVec]
    have := dot_self_pos hx
    have h : stdProps.absTol ≤ 1 / 10 := by norm_num [stdProps]
    nlinarith

end Ellipy.Ell
