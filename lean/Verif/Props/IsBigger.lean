import Verif.Spec.Constants
import Mathlib.Tactic.FinCases
import Mathlib.LinearAlgebra.Matrix.Trace
import Verif.Model.IsBigger
import Verif.Spec.IsBigger
import Verif.Props.IsInternal
import Verif.Props.Core

/-! Property theorem C42 (`is_bigger`). -/

namespace Ellipy.Ell
open Matrix Ellipy.LA Ellipy.Core

theorem matRank_le (S : Svd) {n : ℕ} (hn : n ≠ 0) (Q : Matrix (Fin n) (Fin n) ℝ) : ∃ r, matRank S Q = .ok r ∧ r ≤ n := by
  unfold matRank
  rw [dif_neg hn]
  exact ⟨_, rfl, le_trans (Finset.card_le_univ _) (by simp)⟩

/-- The singular value as the value of the quadratic form at a unit vector. -/
theorem svd_value (S : Svd) {n : ℕ} {Q : Matrix (Fin n) (Fin n) ℝ} (hQ : IsPSD Q) (i : Fin n) :
    ∃ u : Fin n → ℝ, u ⬝ᵥ u = 1 ∧ u ⬝ᵥ Q *ᵥ u = singVals S Q i := by
  have hd := psd_svd S hQ
  have hUU := S.U_orth Q
  set U := S.U Q
  refine ⟨U *ᵥ Pi.single i 1, ?_, ?_⟩
  · rw [dotProduct_mulVec, ← mulVec_transpose, mulVec_mulVec, hUU, one_mulVec]; simp
  · conv_lhs => rw [hd]
    rw [quad_conj, mulVec_mulVec, hUU, one_mulVec, quad_diag, Finset.sum_eq_single i]
    · simp [singVals]
    · intro j _ hj; simp [Pi.single_eq_of_ne hj]
    · intro h; exact absurd (Finset.mem_univ _) h

theorem matRank_full (S : Svd) {n : ℕ} (hn : n ≠ 0) {Q : Matrix (Fin n) (Fin n) ℝ} (hQ : IsPSD Q) (hw : WellCond Q machEps) :
    matRank S Q = .ok n := by
  unfold matRank
  rw [dif_neg hn]
  have : ∀ i ∈ (Finset.univ : Finset (Fin n)), singVals S Q ⟨0, by omega⟩ * n * eps64 < singVals S Q i := by
    intro i _
    obtain ⟨u, hu, hu2⟩ := svd_value S hQ i
    obtain ⟨w, hw1, hw2⟩ := svd_value S hQ ⟨0, by omega⟩
    have := hw u w hu hw1
    rwa [hu2, hw2] at this
  rw [Finset.filter_true_of_mem this, Finset.card_fin]

/-- The squares of the support functions. -/
theorem inside_iff {n : ℕ} (e f : EllN n) (he : IsPSD e.Q) (hf : IsPSD f.Q) : InsideEnlarged e f ↔
    ∀ l : Fin n → ℝ, l ≠ 0 → l ⬝ᵥ f.Q *ᵥ l < (1 + e.props.absTol) * (l ⬝ᵥ e.Q *ᵥ l) := by
  have hs : ∀ {Q : Matrix (Fin n) (Fin n) ℝ} (hQ : IsPSD Q) (l : Fin n → ℝ) (r : ℝ), IsSupport (Ell 0 Q) l r ↔ r = Real.sqrt (l ⬝ᵥ Q *ᵥ l) := by
    intro Q hQ l r
    have h := ell_support (c := 0) hQ l
    rw [dotProduct_zero, zero_add] at h
    exact ⟨fun h' => h'.unique h, fun h' => h' ▸ h⟩
  unfold InsideEnlarged
  refine forall_congr' fun l => forall_congr' fun _ => ?_
  constructor
  · intro h
    have := h _ ((hs hf l _).mpr rfl) _ ((hs he l _).mpr rfl)
    rwa [Real.sq_sqrt (hf.2 l), Real.sq_sqrt (he.2 l)] at this
  · intro h r hr R hR
    rw [(hs hf l r).mp hr, (hs he l R).mp hR, Real.sq_sqrt (hf.2 l), Real.sq_sqrt (he.2 l)]
    exact h

/-- The two forms in the coordinates of the simultaneous diagonalisation. -/
theorem simDiag_iff {n : ℕ} {A B T : Matrix (Fin n) (Fin n) ℝ} {d : Fin n → ℝ} (hA : T * A * Tᵀ = 1) (hd : ∀ i, 0 ≤ d i)
    (hB : T * B * Tᵀ = diagonal d) (t : ℝ) :
    (∀ i, |(T * B * Tᵀ) i i| < t) ↔ ∀ l : Fin n → ℝ, l ≠ 0 → l ⬝ᵥ B *ᵥ l < t * (l ⬝ᵥ A *ᵥ l) := by
  have hTu : IsUnit (Tᵀ).det := by
    rw [det_transpose]
    have := congrArg det hA
    rw [det_mul, det_mul, det_one, mul_assoc] at this
    exact IsUnit.of_mul_eq_one _ this
  have hqB : ∀ y : Fin n → ℝ, (Tᵀ *ᵥ y) ⬝ᵥ B *ᵥ (Tᵀ *ᵥ y) = ∑ i, d i * y i ^ 2 := by
    intro y; rw [← quad_conj, hB, quad_diag]
  have hqA : ∀ y : Fin n → ℝ, (Tᵀ *ᵥ y) ⬝ᵥ A *ᵥ (Tᵀ *ᵥ y) = ∑ i, y i ^ 2 := by
    intro y; rw [← quad_conj, hA, one_mulVec, dotProduct]; exact Finset.sum_congr rfl (fun i _ => by ring)
  constructor
  · intro h l hl
    set y := (Tᵀ)⁻¹ *ᵥ l with hy
    have hly : l = Tᵀ *ᵥ y := by rw [hy, mulVec_mulVec, mul_nonsing_inv _ hTu, one_mulVec]
    have hy0 : y ≠ 0 := by intro h0; apply hl; rw [hly, h0, mulVec_zero]
    rw [hly, hqB, hqA, Finset.mul_sum]
    obtain ⟨j, hj⟩ : ∃ j, y j ≠ 0 := by by_contra h'; push Not at h'; exact hy0 (funext h')
    have hi : ∀ i, d i < t := by
      intro i
      have := h i
      rw [hB, diagonal_apply_eq, abs_of_nonneg (hd i)] at this
      exact this
    refine Finset.sum_lt_sum (fun i _ => mul_le_mul_of_nonneg_right (hi i).le (sq_nonneg _)) ⟨j, Finset.mem_univ j, ?_⟩
    exact mul_lt_mul_of_pos_right (hi j) (by positivity)
  · intro h i
    rw [hB, diagonal_apply_eq, abs_of_nonneg (hd i)]
    have hne : Tᵀ *ᵥ (Pi.single i 1) ≠ 0 := by
      intro h0
      have h1 := congrArg (fun v => (Tᵀ)⁻¹ *ᵥ v) h0
      simp only [mulVec_mulVec, nonsing_inv_mul _ hTu, one_mulVec, mulVec_zero] at h1
      have := congrFun h1 i
      simp at this
    have := h _ hne
    rw [hqB, hqA, Finset.sum_eq_single i, Finset.sum_eq_single i] at this
    · simpa using this
    · intro j _ hj; simp [Pi.single_eq_of_ne hj]
    · intro h; exact absurd (Finset.mem_univ _) h
    · intro j _ hj; simp [Pi.single_eq_of_ne hj]
    · intro h; exact absurd (Finset.mem_univ _) h

/-- The last steps, for a regularised matrix `R`. -/
theorem isBigger_val (E : Eigh) (G : Eig) (S : Svd) (L : Lstsq) (e f : EllObj) {re rf : ℕ} (h1 : matRank S e.Q = .ok re)
    (h2 : matRank S f.Q = .ok rf) (hn : e.n = f.n) (hr : rf ≤ re) {R T : Matrix (Fin e.n) (Fin e.n) ℝ} (hR : regShape E G e.n e = .ok R)
    (hT : ellSimDiag E S L R (shapeAs e.n f) (min e.absTol f.absTol) = .ok T) :
    ∃ b, isBigger E G S L e (Arr.vec [f]) = .ok b ∧ (b = true ↔ ∀ i, |(T * shapeAs e.n f * Tᵀ) i i| < 1 + e.absTol) := by
  unfold isBigger
  have hd : (Arr.vec [f]).data = [f] := rfl
  simp only [hd, h1, h2]
  rw [if_neg (not_not.mpr hn), if_neg (not_lt.mpr hr), hR]
  simp only [hT]
  exact ⟨_, rfl, decide_eq_true_iff⟩

theorem isBigger_err (E : Eigh) (G : Eig) (S : Svd) (L : Lstsq) (e f : EllObj) {re rf : ℕ} (h1 : matRank S e.Q = .ok re)
    (h2 : matRank S f.Q = .ok rf) (hn : e.n = f.n) (hr : rf ≤ re) {R : Matrix (Fin e.n) (Fin e.n) ℝ} (hR : regShape E G e.n e = .ok R)
    {x : Exc} (hT : ellSimDiag E S L R (shapeAs e.n f) (min e.absTol f.absTol) = .error x) :
    isBigger E G S L e (Arr.vec [f]) = .error x := by
  unfold isBigger
  have hd : (Arr.vec [f]).data = [f] := rfl
  simp only [hd, h1, h2]
  rw [if_neg (not_not.mpr hn), if_neg (not_lt.mpr hr), hR]
  simp only [hT]

theorem isBigger_rank (E : Eigh) (G : Eig) (S : Svd) (L : Lstsq) (e f : EllObj) {re rf : ℕ} (h1 : matRank S e.Q = .ok re)
    (h2 : matRank S f.Q = .ok rf) (hn : e.n = f.n) (hr : re < rf) : isBigger E G S L e (Arr.vec [f]) = .ok false := by
  unfold isBigger
  have hd : (Arr.vec [f]).data = [f] := rfl
  simp only [hd, h1, h2]
  rw [if_neg (not_not.mpr hn), if_pos hr]

/-- The verdict once the ranks have been compared. -/
theorem isBigger_of (E : Eigh) (G : Eig) (S : Svd) (L : Lstsq) {n : ℕ} (hn : n ≠ 0) (e f : EllN n) (he : e.NonDeg) (hf : f.PSD)
    {re rf : ℕ} (h1 : matRank S e.Q = .ok re) (h2 : matRank S f.Q = .ok rf) :
    ∃ b, isBigger E G S L e.obj (Arr.vec [f.obj]) = .ok b ∧ (b = true ↔ rf ≤ re ∧ InsideEnlarged e f) := by
  by_cases hr : re < rf
  · exact ⟨false, isBigger_rank E G S L e.obj f.obj h1 h2 rfl hr, by simp; omega⟩
  have ht : 0 ≤ min e.props.absTol f.props.absTol := le_min he.1.1.le hf.1.1.le
  obtain ⟨T, hT, hA, d, hd0, -, hB⟩ := C29 E S L hn e.Q f.Q _ ht he.2.1 (fun x hx => lt_of_le_of_lt
    (mul_le_mul_of_nonneg_right (min_le_left _ _) (dot_self_nonneg x)) (he.2.2 x hx)) hf.2
  have h4 : shapeAs n f.obj = f.Q := shapeAs_self f
  have h5 : ellSimDiag E S L e.Q (shapeAs n f.obj) (min e.props.absTol f.props.absTol) = .ok T := by rw [h4]; exact hT
  obtain ⟨b, hb, hbi⟩ := isBigger_val E G S L e.obj f.obj h1 h2 rfl (not_lt.mp hr) (regShape_nonDeg E G hn he) h5
  refine ⟨b, hb, hbi.trans ?_⟩
  rw [inside_iff e f he.psd.2 hf.2, ← simDiag_iff hA hd0 hB]
  show (∀ i : Fin n, |(T * shapeAs n f.obj * Tᵀ) i i| < 1 + e.props.absTol) ↔ _
  rw [h4]
  exact ⟨fun h => ⟨not_lt.mp hr, h⟩, fun h => h.2⟩

/-- **C42** (partial): for a non-degenerate and not extremely prolate first ellipsoid the result says whether the second one is inside.
Missing: the condition on the ratio of the axes, see `C42_violated`. -/
theorem C42_partial (E : Eigh) (G : Eig) (S : Svd) (L : Lstsq) {n : ℕ} (hn : n ≠ 0) (e f : EllN n) (he : e.NonDeg) (hf : f.PSD)
    (hw : WellCond e.Q machEps) :
    ∃ b, isBigger E G S L e.obj (Arr.vec [f.obj]) = .ok b ∧ (b = true ↔ InsideEnlarged e f) := by
  obtain ⟨rf, h2, hle⟩ := matRank_le S hn f.Q
  obtain ⟨b, hb, hbi⟩ := isBigger_of E G S L hn e f he hf (matRank_full S hn he.psd.2 hw) h2
  exact ⟨b, hb, hbi.trans ⟨fun h => h.2, fun h => ⟨hle, h⟩⟩⟩

/-- **C42**, one direction without the condition on the axes: the answer `True` is always right. -/
theorem C42_sound (E : Eigh) (G : Eig) (S : Svd) (L : Lstsq) {n : ℕ} (hn : n ≠ 0) (e f : EllN n) (he : e.NonDeg) (hf : f.PSD) :
    ∃ b, isBigger E G S L e.obj (Arr.vec [f.obj]) = .ok b ∧ (b = true → InsideEnlarged e f) := by
  obtain ⟨re, h1, -⟩ := matRank_le S hn e.Q
  obtain ⟨rf, h2, -⟩ := matRank_le S hn f.Q
  obtain ⟨b, hb, hbi⟩ := isBigger_of E G S L hn e f he hf h1 h2
  exact ⟨b, hb, fun h => (hbi.mp h).2⟩

/-- **C42**, wrong arguments: another number of ellipsoids, or ellipsoids of different dimensions. -/
theorem C42_raises (E : Eigh) (G : Eig) (S : Svd) (L : Lstsq) (e : EllObj) (a : Arr EllObj)
    (h : a.data.length ≠ 1 ∨ (∃ f, a.data = [f] ∧ (e.n ≠ f.n ∨ e.n = 0))) : Raises (isBigger E G S L e a) := by
  unfold isBigger
  rcases h with h | ⟨f, hf, h⟩
  · split
    · rename_i f hf; rw [hf] at h; exact absurd rfl h
    · exact ⟨_, rfl⟩
  · rw [hf]
    simp only
    cases h1 : matRank S e.Q with
    | error x => exact ⟨x, rfl⟩
    | ok re =>
      simp only []
      cases h2 : matRank S f.Q with
      | error x => exact ⟨x, rfl⟩
      | ok rf =>
        simp only []
        rcases h with h | h
        · rw [if_pos h]; exact ⟨_, rfl⟩
        · unfold matRank at h1; rw [dif_pos h] at h1; cases h1

/-- The two singular values of a diagonal matrix of order two. -/
theorem svd_two (S : Svd) {a b : ℝ} (ha : 0 ≤ a) (hb : 0 ≤ b) :
    singVals S (diagonal ![a, b]) 0 + singVals S (diagonal ![a, b]) 1 = a + b ∧ singVals S (diagonal ![a, b]) 0 * singVals S (diagonal ![a, b]) 1 = a * b ∧
      singVals S (diagonal ![a, b]) 1 ≤ singVals S (diagonal ![a, b]) 0 ∧ 0 ≤ singVals S (diagonal ![a, b]) 1 := by
  have hQ : IsPSD (diagonal ![a, b]) := by
    refine ⟨diagonal_transpose _, fun x => ?_⟩
    rw [quad_diag, Fin.sum_univ_two]
    simp only [cons_val_zero, cons_val_one]
    positivity
  have hd := psd_svd S hQ
  have hUU := S.U_orth (diagonal ![a, b])
  have hs : (fun i : Fin 2 => S.s (diagonal ![a, b]) ⟨i.val, by omega⟩) = ![singVals S (diagonal ![a, b]) 0, singVals S (diagonal ![a, b]) 1] := by
    funext i; fin_cases i <;> rfl
  rw [hs] at hd
  refine ⟨?_, ?_, S.s_anti _ (by simp [Fin.le_def]), S.s_nonneg _ _⟩
  · have h1 := congrArg trace hd
    rw [trace_mul_comm, ← Matrix.mul_assoc, hUU, Matrix.one_mul, trace_diagonal, trace_diagonal, Fin.sum_univ_two, Fin.sum_univ_two] at h1
    simpa using h1.symm
  · have h1 := congrArg det hd
    have h2 := congrArg det hUU
    rw [det_mul, det_transpose, det_one] at h2
    rw [det_mul, det_mul, det_transpose, det_diagonal, det_diagonal, Fin.prod_univ_two, Fin.prod_univ_two] at h1
    simp only [cons_val_zero, cons_val_one] at h1
    have h3 : (S.U (diagonal ![a, b])).det * (singVals S (diagonal ![a, b]) 0 * singVals S (diagonal ![a, b]) 1) * (S.U (diagonal ![a, b])).det =
        singVals S (diagonal ![a, b]) 0 * singVals S (diagonal ![a, b]) 1 * ((S.U (diagonal ![a, b])).det * (S.U (diagonal ![a, b])).det) := by ring
    rw [h3, h2, mul_one] at h1
    exact h1.symm

theorem nonDeg_diag {a b : ℝ} (c : Fin 2 → ℝ) (p : PropVals) (hp : p.ok) (ha : p.absTol < a) (hb : p.absTol < b) :
    (⟨c, diagonal ![a, b], p⟩ : EllN 2).NonDeg := by
  refine ⟨hp, diagonal_transpose _, fun x hx => ?_⟩
  have h0 := dot_self_pos hx
  show p.absTol * (x ⬝ᵥ x) < x ⬝ᵥ diagonal ![a, b] *ᵥ x
  rw [quad_diag, Fin.sum_univ_two]
  simp only [dotProduct, Fin.sum_univ_two, cons_val_zero, cons_val_one] at h0 ⊢
  have h1 : x 0 ≠ 0 ∨ x 1 ≠ 0 := by
    by_contra h
    push Not at h
    rw [h.1, h.2] at h0
    norm_num at h0
  rcases h1 with h | h
  · have : 0 < x 0 ^ 2 := by positivity
    nlinarith [sq_nonneg (x 1)]
  · have : 0 < x 1 ^ 2 := by positivity
    nlinarith [sq_nonneg (x 0)]

/-- **C42** fails for extremely prolate ellipsoids: the ellipse with the squared semiaxes `10¹¹` and `10⁻⁶` contains the disc with the
squared radius `5·10⁻⁷`, but the comparison of the numerical ranks gives `False`. -/
theorem C42_violated (E : Eigh) (G : Eig) (S : Svd) (L : Lstsq) : ∃ e f : EllN 2, e.NonDeg ∧ f.NonDeg ∧ e.props = stdProps ∧
    f.props = stdProps ∧ isBigger E G S L e.obj (Arr.vec [f.obj]) = .ok false ∧ InsideEnlarged e f ∧ f.set ⊆ e.set := by
  have ht : stdProps.absTol = 1 / 10 ^ 7 := rfl
  let e : EllN 2 := ⟨0, diagonal ![10 ^ 11, 1 / 10 ^ 6], stdProps⟩
  let f : EllN 2 := ⟨0, diagonal ![5 / 10 ^ 7, 5 / 10 ^ 7], stdProps⟩
  have he : e.NonDeg := nonDeg_diag _ _ stdProps_ok (by rw [ht]; norm_num) (by rw [ht]; norm_num)
  have hf : f.NonDeg := nonDeg_diag _ _ stdProps_ok (by rw [ht]; norm_num) (by rw [ht]; norm_num)
  have hle : ∀ l : Fin 2 → ℝ, l ⬝ᵥ f.Q *ᵥ l ≤ l ⬝ᵥ e.Q *ᵥ l := by
    intro l
    show l ⬝ᵥ diagonal ![5 / 10 ^ 7, 5 / 10 ^ 7] *ᵥ l ≤ l ⬝ᵥ diagonal ![10 ^ 11, 1 / 10 ^ 6] *ᵥ l
    rw [quad_diag, quad_diag, Fin.sum_univ_two, Fin.sum_univ_two]
    simp only [cons_val_zero, cons_val_one]
    nlinarith [sq_nonneg (l 0), sq_nonneg (l 1)]
  have hin : InsideEnlarged e f := by
    rw [inside_iff e f he.psd.2 hf.psd.2]
    intro l hl
    have h1 := he.pos hl
    have h2 := hle l
    have h3 : 0 < e.props.absTol := he.1.1
    nlinarith
  have hre : ∃ r, matRank S e.Q = .ok r ∧ r ≤ 1 := by
    obtain ⟨h1, h2, h3, h4⟩ := svd_two S (a := 10 ^ 11) (b := 1 / 10 ^ 6) (by norm_num) (by norm_num)
    unfold matRank
    rw [dif_neg two_ne_zero]
    refine ⟨_, rfl, ?_⟩
    refine le_trans (Finset.card_le_card (t := {0}) ?_) (by simp)
    intro i hi
    rw [Finset.mem_filter] at hi
    rw [Finset.mem_singleton]
    have hi2 := hi.2
    fin_cases i
    · rfl
    · exfalso
      have h5 : singVals S (diagonal ![10 ^ 11, 1 / 10 ^ 6]) 0 * (2 : ℕ) * eps64 < singVals S (diagonal ![(10 : ℝ) ^ 11, 1 / 10 ^ 6]) 1 := hi2
      unfold eps64 at h5
      set s0 := singVals S (diagonal ![(10 : ℝ) ^ 11, 1 / 10 ^ 6]) 0
      set s1 := singVals S (diagonal ![(10 : ℝ) ^ 11, 1 / 10 ^ 6]) 1
      have h6 : (10 : ℝ) ^ 11 / 2 ≤ s0 := by linarith
      have h7 : s1 ≤ 2 / 10 ^ 6 := by
        by_contra h
        push Not at h
        have : (10 : ℝ) ^ 11 / 2 * (2 / 10 ^ 6) < s0 * s1 := by
          calc (10 : ℝ) ^ 11 / 2 * (2 / 10 ^ 6) < 10 ^ 11 / 2 * s1 := mul_lt_mul_of_pos_left h (by norm_num)
            _ ≤ s0 * s1 := mul_le_mul_of_nonneg_right h6 h4
        rw [h2] at this
        norm_num at this
      push_cast at h5
      have : (10 : ℝ) ^ 11 / 2 * 2 * (1 / 2 ^ 52) ≤ s0 * 2 * (1 / 2 ^ 52) := by
        have : (0 : ℝ) ≤ 2 * (1 / 2 ^ 52) := by norm_num
        nlinarith
      have h8 := lt_of_le_of_lt this (lt_of_lt_of_le h5 h7)
      norm_num at h8
  have hrf : matRank S f.Q = .ok 2 := by
    refine matRank_full S two_ne_zero hf.psd.2 (fun x y hx hy => ?_)
    show (y ⬝ᵥ diagonal ![5 / 10 ^ 7, 5 / 10 ^ 7] *ᵥ y) * (2 : ℕ) * eps64 < x ⬝ᵥ diagonal ![5 / 10 ^ 7, 5 / 10 ^ 7] *ᵥ x
    rw [quad_diag, quad_diag]
    simp only [dotProduct, Fin.sum_univ_two, cons_val_zero, cons_val_one] at hx hy ⊢
    have e1 : (5 / 10 ^ 7 * y 0 ^ 2 + 5 / 10 ^ 7 * y 1 ^ 2 : ℝ) = 5 / 10 ^ 7 := by nlinarith
    have e2 : (5 / 10 ^ 7 * x 0 ^ 2 + 5 / 10 ^ 7 * x 1 ^ 2 : ℝ) = 5 / 10 ^ 7 := by nlinarith
    rw [e1, e2]
    unfold eps64
    norm_num
  obtain ⟨r, hr, hr1⟩ := hre
  obtain ⟨b, hb, hbi⟩ := isBigger_of E G S L two_ne_zero e f he hf.psd hr hrf
  refine ⟨e, f, he, hf, rfl, rfl, ?_, hin, ?_⟩
  · rw [hb]
    cases b with
    | false => rfl
    | true => exact absurd (hbi.mp rfl).1 (by omega)
  · intro x hx
    rw [EllN.set, mem_ell_sqrt he.psd.2]
    intro l
    have := (mem_ell_sqrt hf.psd.2 x).mp hx l
    have h5 := Real.sqrt_le_sqrt (hle l)
    exact le_trans this (add_le_add_right h5 _)

/-- **C42** for a degenerate first ellipsoid: with orthonormal eigenvectors the regularisation in lines 400-405 is useless, the call
raises unless the ranks already decide (or the second tolerance is smaller). -/
theorem C42_degenerate (E : Eigh) (G : Eig) (S : Svd) (L : Lstsq) {n : ℕ} (hn : n ≠ 0) (e f : EllN n) (he : e.PSD)
    (hdeg : ¬ e.NonDeg) (ht : e.props.absTol ≤ f.props.absTol) (ho : (G.vecs e.Q)ᵀ * G.vecs e.Q = 1) :
    Raises (isBigger E G S L e.obj (Arr.vec [f.obj])) ∨ isBigger E G S L e.obj (Arr.vec [f.obj]) = .ok false := by
  have ht0 : 0 < e.props.absTol := he.1.1
  -- a unit vector that is fixed by the regularised matrix up to the factor `tol`
  have hreg : ∃ R, regShape E G n e.obj = .ok R ∧ Rᵀ = R ∧ ∃ v : Fin n → ℝ, v ≠ 0 ∧ v ⬝ᵥ R *ᵥ v ≤ e.props.absTol * (v ⬝ᵥ v) := by
    have hne : ¬ anyEmpty [e.obj] := by
      rintro ⟨x, hx, h0⟩
      rw [List.mem_singleton] at hx
      subst hx
      exact hn h0
    have hpd : isMatPosDef E e.obj.Q e.obj.absTol false = .ok false := by
      have hno : ¬ Raises (isMatPosDef E e.obj.Q e.obj.absTol false) := by
        rw [C20_raises_iff]
        push Not
        exact ⟨ht0.le, symmWithin_of_symm he.2.1 ht0.le, hn⟩
      cases hd : isMatPosDef E e.obj.Q e.obj.absTol false with
      | error x => exact absurd ⟨x, hd⟩ hno
      | ok b =>
        cases b with
        | false => rfl
        | true => exact absurd ⟨he.1, he.2.1, (C20_pos_def E e.Q _ ht0.le hn he.2.1).mp hd⟩ hdeg
    have hmap : pyMap (fun e => isMatPosDef E e.Q e.absTol false) [e.obj] = .ok [false] := by simp only [pyMap, hpd]
    have hsh : regShape E G n e.obj = regPosDefMat G e.Q e.props.absTol := by
      unfold regShape isDegenerate
      rw [if_neg hne]
      simp only [hmap, List.map_cons, List.map_nil]
      rw [if_pos (by decide), shapeAs_self]
      rfl
    have hno : ¬ Raises (regPosDefMat G e.Q e.props.absTol) := by
      rw [C22_raises_iff]
      push Not
      exact ⟨ht0, he.2.1⟩
    cases hr : regPosDefMat G e.Q e.props.absTol with
    | error x => exact absurd ⟨x, hr⟩ hno
    | ok R =>
      refine ⟨R, by rw [hsh, hr], (C22_above G _ _ _ hr).1, ?_⟩
      obtain ⟨-, -, hRv⟩ := reg_val G hr
      -- some eigenvalue does not exceed the tolerance
      obtain ⟨i, hi⟩ : ∃ i, G.vals e.Q i ≤ e.props.absTol := by
        by_contra hall
        push Not at hall
        apply hdeg
        refine ⟨he.1, he.2.1, fun x hx => ?_⟩
        have hdec : e.Q = G.vecs e.Q * diagonal (G.vals e.Q) * (G.vecs e.Q)ᵀ := by
          rw [← G.spec e.Q he.2.1, Matrix.mul_assoc, mul_eq_one_comm.mp ho, Matrix.mul_one]
        have hq : x ⬝ᵥ e.Q *ᵥ x = ∑ i, G.vals e.Q i * ((G.vecs e.Q)ᵀ *ᵥ x) i ^ 2 := by
          conv_lhs => rw [hdec]
          rw [quad_conj, quad_diag]
        have hxx : x ⬝ᵥ x = ∑ i, ((G.vecs e.Q)ᵀ *ᵥ x) i ^ 2 := by
          have : x ⬝ᵥ x = ((G.vecs e.Q)ᵀ *ᵥ x) ⬝ᵥ ((G.vecs e.Q)ᵀ *ᵥ x) := by
            rw [dotProduct_mulVec, vecMul_transpose, mulVec_mulVec, mul_eq_one_comm.mp ho, one_mulVec]
          rw [this, dotProduct]; exact Finset.sum_congr rfl (fun i _ => by ring)
        have hy : (G.vecs e.Q)ᵀ *ᵥ x ≠ 0 := by
          intro h0
          have := dot_self_pos hx
          rw [hxx, h0] at this
          simp at this
        obtain ⟨j, hj⟩ : ∃ j, ((G.vecs e.Q)ᵀ *ᵥ x) j ≠ 0 := by by_contra h'; push Not at h'; exact hy (funext h')
        rw [hq, hxx, Finset.mul_sum]
        refine Finset.sum_lt_sum (fun i _ => mul_le_mul_of_nonneg_right (hall i).le (sq_nonneg _)) ⟨j, Finset.mem_univ j, ?_⟩
        exact mul_lt_mul_of_pos_right (hall j) (by positivity)
      have hcol : (G.vecs e.Q)ᵀ *ᵥ (G.vecs e.Q *ᵥ Pi.single i 1) = Pi.single i 1 := by rw [mulVec_mulVec, ho, one_mulVec]
      refine ⟨G.vecs e.Q *ᵥ Pi.single i 1, fun h0 => ?_, ?_⟩
      · rw [h0, mulVec_zero] at hcol
        have := congrFun hcol i
        simp at this
      · have hdec : e.Q = G.vecs e.Q * diagonal (G.vals e.Q) * (G.vecs e.Q)ᵀ := by
          rw [← G.spec e.Q he.2.1, Matrix.mul_assoc, mul_eq_one_comm.mp ho, Matrix.mul_one]
        set v := G.vecs e.Q *ᵥ Pi.single i 1 with hv
        have hvv : v ⬝ᵥ v = 1 := by
          rw [hv, dotProduct_mulVec, ← mulVec_transpose, hcol]; simp
        have h1 : v ⬝ᵥ e.Q *ᵥ v = G.vals e.Q i := by
          conv_lhs => rw [hdec]
          rw [quad_conj, hcol, quad_diag, Finset.sum_eq_single i]
          · simp
          · intro j _ hj; simp [Pi.single_eq_of_ne hj]
          · intro h; exact absurd (Finset.mem_univ _) h
        have h2 : v ⬝ᵥ (G.vecs e.Q * diagonal (fun i => max 0 (e.props.absTol - G.vals e.Q i)) * (G.vecs e.Q)ᵀ) *ᵥ v =
            e.props.absTol - G.vals e.Q i := by
          rw [quad_conj, hcol, quad_diag, Finset.sum_eq_single i]
          · simp only [Pi.single_eq_same, one_pow, mul_one]; exact max_eq_right (by linarith)
          · intro j _ hj; simp [Pi.single_eq_of_ne hj]
          · intro h; exact absurd (Finset.mem_univ _) h
        rw [hRv, add_mulVec, dotProduct_add, h1, h2, hvv]
        linarith
  obtain ⟨R, hR, hRs, v, hv, hvR⟩ := hreg
  obtain ⟨re, h1, -⟩ := matRank_le S hn e.Q
  obtain ⟨rf, h2, -⟩ := matRank_le S hn f.Q
  by_cases hr : re < rf
  · exact Or.inr (isBigger_rank E G S L e.obj f.obj h1 h2 rfl hr)
  left
  have hraise : Raises (ellSimDiag E S L R (shapeAs n f.obj) (min e.props.absTol f.props.absTol)) := by
    rw [C29_raises_iff]
    rintro ⟨-, -, -, h4, -⟩
    have h5 := h4 v hv
    rw [lowerSym_of_symm hRs, min_eq_left ht] at h5
    exact absurd hvR (not_le.mpr h5)
  obtain ⟨x, hx⟩ := hraise
  exact ⟨x, isBigger_err E G S L e.obj f.obj h1 h2 rfl (not_lt.mp hr) hR hx⟩

/-- A disc of radius 1 and the disc of radius 1/2. -/
example (E : Eigh) (G : Eig) (S : Svd) (L : Lstsq) :
    isBigger E G S L discN.obj (Arr.vec [(⟨0, diagonal ![1 / 4, 1 / 4], stdProps⟩ : EllN 2).obj]) = .ok true := by
  have ht : stdProps.absTol = 1 / 10 ^ 7 := rfl
  have hf : (⟨0, diagonal ![1 / 4, 1 / 4], stdProps⟩ : EllN 2).NonDeg :=
    nonDeg_diag _ _ stdProps_ok (by rw [ht]; norm_num) (by rw [ht]; norm_num)
  have hw : WellCond discN.Q machEps := by
    intro x y hx hy
    show (y ⬝ᵥ (1 : Matrix (Fin 2) (Fin 2) ℝ) *ᵥ y) * (2 : ℕ) * eps64 < x ⬝ᵥ (1 : Matrix (Fin 2) (Fin 2) ℝ) *ᵥ x
    rw [one_mulVec, one_mulVec, hx, hy]
    unfold eps64
    norm_num
  obtain ⟨b, hb, hbi⟩ := C42_partial E G S L two_ne_zero discN _ discN_nonDeg hf.psd hw
  rw [hb, hbi.mpr]
  rw [inside_iff _ _ discN_nonDeg.psd.2 hf.psd.2]
  intro l hl
  have h0 := dot_self_pos hl
  show l ⬝ᵥ diagonal ![1 / 4, 1 / 4] *ᵥ l < (1 + stdProps.absTol) * (l ⬝ᵥ (1 : Matrix (Fin 2) (Fin 2) ℝ) *ᵥ l)
  rw [one_mulVec, quad_diag, Fin.sum_univ_two]
  simp only [dotProduct, Fin.sum_univ_two, cons_val_zero, cons_val_one] at h0 ⊢
  rw [ht]
  nlinarith

end Ellipy.Ell
