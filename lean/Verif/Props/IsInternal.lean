import Mathlib.Tactic.FinCases
import Verif.Model.IsInternal
import Verif.Spec.IsInternal
import Verif.Props.Polar
import Verif.Props.Hyperplane

/-! Property theorem C41 (`is_internal`). -/

namespace Ellipy.Ell
open Matrix Ellipy.LA

/-- Positive definite matrices. -/
theorem pd_det {n : ℕ} {R : Matrix (Fin n) (Fin n) ℝ} (h : ∀ x : Fin n → ℝ, x ≠ 0 → 0 < x ⬝ᵥ R *ᵥ x) : R.det ≠ 0 := by
  intro h0
  obtain ⟨v, hv, h1⟩ := exists_mulVec_eq_zero_iff.mpr h0
  have := h v hv
  rw [h1, dotProduct_zero] at this
  exact lt_irrefl _ this

theorem pd_psd {n : ℕ} {R : Matrix (Fin n) (Fin n) ℝ} (hs : Rᵀ = R) (h : ∀ x : Fin n → ℝ, x ≠ 0 → 0 < x ⬝ᵥ R *ᵥ x) : IsPSD R := by
  refine ⟨hs, fun x => ?_⟩
  by_cases hx : x = 0
  · subst hx; simp
  · exact (h x hx).le

theorem pd_inv_nonneg {n : ℕ} {R : Matrix (Fin n) (Fin n) ℝ} (hs : Rᵀ = R) (h : ∀ x : Fin n → ℝ, x ≠ 0 → 0 < x ⬝ᵥ R *ᵥ x)
    (x : Fin n → ℝ) : 0 ≤ x ⬝ᵥ R⁻¹ *ᵥ x := by
  have hu : IsUnit R.det := isUnit_iff_ne_zero.mpr (pd_det h)
  have h1 := (pd_psd hs h).2 (R⁻¹ *ᵥ x)
  rwa [mulVec_mulVec, mul_nonsing_inv _ hu, one_mulVec, dotProduct_comm] at h1

/-- The regularised matrix of a nonnegative one is positive definite. -/
theorem reg_pos (G : Eig) {n : ℕ} {Q R : Matrix (Fin n) (Fin n) ℝ} {tol : ℝ} (hQ : IsPSD Q) (h : regPosDefMat G Q tol = .ok R)
    {x : Fin n → ℝ} (hx : x ≠ 0) : 0 < x ⬝ᵥ R *ᵥ x := by
  obtain ⟨ht, hs, rfl⟩ := reg_val G h
  set V := G.vecs Q with hV
  set d := G.vals Q with hd
  set g : Fin n → ℝ := fun i => max 0 (tol - d i) with hg
  set y := Vᵀ *ᵥ x with hy
  have e1 : x ⬝ᵥ (Q + V * diagonal g * Vᵀ) *ᵥ x = x ⬝ᵥ Q *ᵥ x + ∑ i, g i * y i ^ 2 := by
    rw [add_mulVec, dotProduct_add]
    congr 1
    rw [← mulVec_mulVec, ← mulVec_mulVec, ← hy, dotProduct_mulVec, ← mulVec_transpose, ← hy, dotProduct]
    refine Finset.sum_congr rfl (fun i _ => ?_)
    rw [mulVec_diagonal]; ring
  have h1 := hQ.2 x
  have hterm : ∀ i, 0 ≤ g i * y i ^ 2 := fun i => mul_nonneg (le_max_left _ _) (sq_nonneg _)
  have h2 : 0 ≤ ∑ i, g i * y i ^ 2 := Finset.sum_nonneg (fun i _ => hterm i)
  rw [e1]
  by_contra hle
  push Not at hle
  have hq0 : x ⬝ᵥ Q *ᵥ x = 0 := by linarith
  have hs0 : ∑ i, g i * y i ^ 2 = 0 := by linarith
  have hQx : Q *ᵥ x = 0 := psd_null hQ hq0
  have hzero : ∀ i, g i * y i ^ 2 = 0 := fun i => (Finset.sum_eq_zero_iff_of_nonneg (fun i _ => hterm i)).mp hs0 i (Finset.mem_univ i)
  have hdy : ∀ i, d i * y i = 0 := by
    have e2 : Vᵀ *ᵥ (Q *ᵥ x) = diagonal d *ᵥ y := by
      rw [hy, mulVec_mulVec, mulVec_mulVec]
      congr 1
      have := congrArg transpose (G.spec Q hs)
      rwa [transpose_mul, transpose_mul, diagonal_transpose, hs] at this
    intro i
    have := congrFun e2 i
    rw [hQx, mulVec_zero, mulVec_diagonal] at this
    exact this.symm
  have hy0 : y = 0 := by
    funext i
    rcases mul_eq_zero.mp (hdy i) with hz | hz
    · have h3 := hzero i
      have h4 : g i = tol := by show max 0 (tol - d i) = tol; rw [hz, sub_zero, max_eq_right ht.le]
      rw [h4] at h3
      rcases mul_eq_zero.mp h3 with h5 | h5
      · exact absurd h5 ht.ne'
      · exact pow_eq_zero_iff two_ne_zero |>.mp h5
    · exact hz
  apply hx
  have hu : IsUnit (Vᵀ).det := by rw [det_transpose]; exact G.basis Q hs
  have : (Vᵀ)⁻¹ *ᵥ y = x := by rw [hy, mulVec_mulVec, nonsing_inv_mul _ hu, one_mulVec]
  rw [← this, hy0, mulVec_zero]

theorem regShape_pos (E : Eigh) (G : Eig) {n : ℕ} (hn : n ≠ 0) {e : EllN n} (he : e.PSD) :
    ∃ R, regShape E G n e.obj = .ok R ∧ Rᵀ = R ∧ (∀ x : Fin n → ℝ, x ⬝ᵥ e.Q *ᵥ x ≤ x ⬝ᵥ R *ᵥ x) ∧
      ∀ x : Fin n → ℝ, x ≠ 0 → 0 < x ⬝ᵥ R *ᵥ x := by
  obtain ⟨R, h1, h2, h3⟩ := regShape_psd E G hn he
  refine ⟨R, h1, h2, h3, fun x hx => ?_⟩
  have ht : 0 < e.props.absTol := he.1.1
  unfold regShape at h1
  cases hd : isDegenerate E [e.obj] with
  | error y => rw [hd] at h1; cases h1
  | ok ds =>
    rw [hd] at h1
    simp only [shapeAs_self] at h1
    by_cases hb : ds = [true]
    · rw [if_pos hb] at h1
      exact reg_pos G he.2 h1 hx
    · rw [if_neg hb] at h1
      injection h1 with h1
      subst h1
      unfold isDegenerate at hd
      by_cases hne : anyEmpty [e.obj]
      · rw [if_pos hne] at hd; cases hd
      rw [if_neg hne] at hd
      cases hm : isMatPosDef E e.obj.Q e.obj.absTol false with
      | error y => simp only [pyMap, hm] at hd; cases hd
      | ok b =>
        simp only [pyMap, hm] at hd
        injection hd with hd
        have hbt : b = true := by
          cases b with
          | true => rfl
          | false => exact absurd hd.symm hb
        subst hbt
        have h4 := (C20_pos_def E e.Q _ ht.le hn he.2.1).mp hm x hx
        have h5 := dot_self_pos hx
        exact lt_trans (mul_pos ht h5) h4

/-- What one ellipsoid contributes, for the matrix `R` that is used in place of the shape. -/
theorem singleInternal_of (E : Eigh) (G : Eig) {n : ℕ} (x : Fin n → ℝ) (e : EllN n) (ht : 0 < e.props.absTol)
    {R : Matrix (Fin n) (Fin n) ℝ} (hR : regShape E G n e.obj = .ok R) (hs : Rᵀ = R)
    (hpd : ∀ x : Fin n → ℝ, x ≠ 0 → 0 < x ⬝ᵥ R *ᵥ x) :
    ∃ b, singleInternal E G x e.obj = .ok b ∧ (b = true ↔ ∃ s : ℝ, 0 < s ∧ s < 1 + e.props.absTol ∧ x ∈ Ell e.c (s ^ 2 • R)) := by
  unfold singleInternal
  rw [hR]
  simp only [invSq_unit (pd_det hpd), centerAs_self]
  refine ⟨_, rfl, ?_⟩
  have hq := pd_inv_nonneg hs hpd (x - e.c)
  rw [decide_eq_true_iff]
  set q := (x - e.c) ⬝ᵥ R⁻¹ *ᵥ (x - e.c) with hqd
  have hmem : ∀ s : ℝ, 0 < s → (x ∈ Ell e.c (s ^ 2 • R) ↔ q ≤ s ^ 2) := by
    intro s hs0
    have hs2 : 0 < s ^ 2 := by positivity
    have hp : ∀ x : Fin n → ℝ, x ≠ 0 → 0 < x ⬝ᵥ (s ^ 2 • R) *ᵥ x := by
      intro x hx
      rw [smul_mulVec, dotProduct_smul, smul_eq_mul]
      exact mul_pos hs2 (hpd x hx)
    have hd := pd_det hp
    rw [mem_ell_inv (pd_psd (by rw [transpose_smul, hs]) hp) (isUnit_iff_ne_zero.mpr hd)]
    have hinv : (s ^ 2 • R)⁻¹ = (s ^ 2)⁻¹ • R⁻¹ := by
      refine inv_eq_right_inv ?_
      rw [Matrix.smul_mul, Matrix.mul_smul, smul_smul, mul_inv_cancel₀ hs2.ne', one_smul,
        mul_nonsing_inv _ (isUnit_iff_ne_zero.mpr (pd_det hpd))]
    rw [hinv, smul_mulVec, dotProduct_smul, smul_eq_mul, ← hqd, inv_mul_le_iff₀ hs2, mul_one]
  have hr := Real.sqrt_nonneg q
  show (0 ≤ q ∧ (Real.sqrt q < 1 ∨ |Real.sqrt q - 1| < e.props.absTol)) ↔ _
  constructor
  · rintro ⟨-, h⟩
    have h1 : Real.sqrt q < 1 + e.props.absTol := by
      rcases h with h | h
      · linarith
      · have := (abs_lt.mp h).2; linarith
    refine ⟨(Real.sqrt q + (1 + e.props.absTol)) / 2, by linarith, by linarith, (hmem _ (by linarith)).mpr ?_⟩
    calc q = Real.sqrt q ^ 2 := (Real.sq_sqrt hq).symm
      _ ≤ _ := pow_le_pow_left₀ hr (by linarith) 2
  · rintro ⟨s, hs0, hs1, hx⟩
    refine ⟨hq, ?_⟩
    have h1 : Real.sqrt q ≤ s := by
      rw [← Real.sqrt_sq hs0.le]; exact Real.sqrt_le_sqrt ((hmem s hs0).mp hx)
    by_cases h2 : Real.sqrt q < 1
    · exact Or.inl h2
    · refine Or.inr (abs_lt.mpr ⟨by push Not at h2; linarith, by linarith⟩)

theorem singleInternal_nonDeg (E : Eigh) (G : Eig) {n : ℕ} (hn : n ≠ 0) (x : Fin n → ℝ) {e : EllN n} (he : e.NonDeg) :
    ∃ b, singleInternal E G x e.obj = .ok b ∧ (b = true ↔ e.Near x) :=
  singleInternal_of E G x e he.1.1 (regShape_nonDeg E G hn he) he.2.1 (fun _ h => he.pos h)

theorem singleInternal_psd (E : Eigh) (G : Eig) {n : ℕ} (hn : n ≠ 0) (x : Fin n → ℝ) {e : EllN n} (he : e.PSD) :
    ∃ b, singleInternal E G x e.obj = .ok b ∧ (x ∈ e.set → b = true) := by
  obtain ⟨R, h1, h2, h3, h4⟩ := regShape_pos E G hn he
  obtain ⟨b, hb, hbi⟩ := singleInternal_of E G x e he.1.1 h1 h2 h4
  refine ⟨b, hb, fun hx => hbi.mpr ⟨1, one_pos, by have := he.1.1; linarith, ?_⟩⟩
  rw [one_pow, one_smul, mem_ell_sqrt (pd_psd h2 h4)]
  intro l
  have := (mem_ell_sqrt he.2 x).mp hx l
  have h5 := Real.sqrt_le_sqrt (h3 l)
  linarith

/-- The verdict for one point. -/
theorem internalVec_of (E : Eigh) (G : Eig) {n : ℕ} (a : Arr EllObj) (es : List (EllN n)) (ha : a.data = es.map EllN.obj)
    (hcol : IsColumn a) (x : Fin n → ℝ) (mode : String) (f : EllN n → Bool)
    (hf : ∀ e ∈ es, singleInternal E G x e.obj = .ok (f e)) :
    internalVec E G a x mode = .ok (if mode = "u" then es.any f else es.all f) := by
  obtain ⟨r, s, rest, hsh, hr⟩ := hcol
  unfold internalVec
  rw [hsh]
  simp only
  rw [if_pos hr]
  have : pyMap (singleInternal E G x) a.data = .ok (es.map f) := by
    rw [pyMap_ok_iff, ha]
    rw [List.forall₂_map_left_iff, List.forall₂_map_right_iff]
    exact List.forall₂_same.mpr hf
  rw [this]
  simp only [List.any_map, List.all_map, Function.comp_def, id]

/-- The tests pass. -/
theorem isInternal_eq (E : Eigh) (G : Eig) {n k : ℕ} (hn : n ≠ 0) (a : Arr EllObj) (es : List (EllN n)) (ha : a.data = es.map EllN.obj)
    (hne : es ≠ []) (x : Arr ℝ) (hx : x.shape = [n, k]) (mode : Option String) (hm : mode.getD "u" = "u" ∨ mode.getD "u" = "i") :
    isInternal E G a x mode = match pyMap (fun j => internalVec E G a (fun i : Fin n => x.data.getD (i.val * k + j) 0) (mode.getD "u"))
      (List.range k) with
    | .error y => .error y
    | .ok bs => reshape bs [k, 1] := by
  unfold isInternal
  have h0 : a.data ≠ [] := by rw [ha]; simpa using hne
  have h1 : ¬ anyEmpty a.data := by
    rintro ⟨e, he, h⟩
    rw [ha, List.mem_map] at he
    obtain ⟨e', -, rfl⟩ := he
    exact hn h
  have h2 : ∀ e ∈ a.data, e.n = n := by
    intro e he
    rw [ha, List.mem_map] at he
    obtain ⟨e', -, rfl⟩ := he
    rfl
  rw [if_neg h0, if_neg h1, if_neg (not_not.mpr hm), hx]
  simp only
  rw [if_neg (not_not.mpr h2)]
  rfl

/-- The verdicts of a call that succeeds. -/
theorem isInternal_of (E : Eigh) (G : Eig) {n k : ℕ} (hn : n ≠ 0) (a : Arr EllObj) (es : List (EllN n)) (ha : a.data = es.map EllN.obj)
    (hne : es ≠ []) (hcol : IsColumn a) (x : Arr ℝ) (X : Fin k → Fin n → ℝ) (hx : IsPoints x X) (mode : Option String)
    (hm : mode.getD "u" = "u" ∨ mode.getD "u" = "i") (f : Fin k → EllN n → Bool)
    (hf : ∀ j, ∀ e ∈ es, singleInternal E G (X j) e.obj = .ok (f j e)) :
    isInternal E G a x mode = .ok ⟨[k, 1], List.ofFn (fun j => if mode.getD "u" = "u" then es.any (f j) else es.all (f j)), by simp⟩ := by
  rw [isInternal_eq E G hn a es ha hne x hx.1 mode hm]
  have h3 : pyMap (fun j => internalVec E G a (fun i : Fin n => x.data.getD (i.val * k + j) 0) (mode.getD "u")) (List.range k) =
      .ok (List.ofFn (fun j => if mode.getD "u" = "u" then es.any (f j) else es.all (f j))) := by
    rw [pyMap_ok_iff, List.forall₂_iff_get]
    refine ⟨by simp, fun i h1 h2 => ?_⟩
    have hi : i < k := by simpa using h1
    have hcolumn : (fun i' : Fin n => x.data.getD (i'.val * k + i) 0) = X ⟨i, hi⟩ := by
      funext i'
      have := hx.2 ⟨i, hi⟩ i'
      rw [List.getD_eq_getElem?_getD, this]; rfl
    simp only [List.get_eq_getElem, List.getElem_range, List.getElem_ofFn, hcolumn]
    exact internalVec_of E G a es ha hcol _ _ _ (hf _)
  rw [h3]
  exact Ellipy.Hyp.reshape_ok _

/-- **C41** (partial): for a column of non-degenerate ellipsoids, each point gets the verdict whether it is, up to the tolerance of the
ellipsoid, in one of the ellipsoids (mode `u`) or in all of them (mode `i`).  Missing: other shapes of the array, see
`C41_violated`. -/
theorem C41_partial (E : Eigh) (G : Eig) {n k : ℕ} (hn : n ≠ 0) (a : Arr EllObj) (es : List (EllN n)) (ha : a.data = es.map EllN.obj)
    (hne : es ≠ []) (hnd : ∀ e ∈ es, e.NonDeg) (hcol : IsColumn a) (x : Arr ℝ) (X : Fin k → Fin n → ℝ) (hx : IsPoints x X) :
    (∃ r, isInternal E G a x (some "u") = .ok r ∧ r.shape = [k, 1] ∧
      ∀ j : Fin k, ∃ b, r.data[j.val]? = some b ∧ (b = true ↔ ∃ e ∈ es, e.Near (X j))) ∧
    (∃ r, isInternal E G a x (some "i") = .ok r ∧ r.shape = [k, 1] ∧
      ∀ j : Fin k, ∃ b, r.data[j.val]? = some b ∧ (b = true ↔ ∀ e ∈ es, e.Near (X j))) := by
  classical
  have hf : ∀ j, ∀ e ∈ es, singleInternal E G (X j) e.obj = .ok (decide (e.Near (X j))) := by
    intro j e he
    obtain ⟨b, hb, hbi⟩ := singleInternal_nonDeg E G hn (X j) (hnd e he)
    rw [hb]
    congr 1
    by_cases h : e.Near (X j)
    · rw [decide_eq_true h]; exact hbi.mpr h
    · rw [decide_eq_false h]
      cases b with
      | false => rfl
      | true => exact absurd (hbi.mp rfl) h
  constructor
  · refine ⟨_, isInternal_of E G hn a es ha hne hcol x X hx (some "u") (Or.inl rfl) _ hf, rfl, fun j => ⟨es.any fun e => decide (e.Near (X j)), ?_, ?_⟩⟩
    · simp
    · rw [List.any_eq_true]
      simp only [decide_eq_true_iff]
  · refine ⟨_, isInternal_of E G hn a es ha hne hcol x X hx (some "i") (Or.inr rfl) _ hf, rfl, fun j => ⟨es.all fun e => decide (e.Near (X j)), ?_, ?_⟩⟩
    · simp
    · rw [List.all_eq_true]
      simp only [decide_eq_true_iff]

/-- **C41** for ellipsoids that may be flat: no point of the union or the intersection is missed. -/
theorem C41_flat (E : Eigh) (G : Eig) {n k : ℕ} (hn : n ≠ 0) (a : Arr EllObj) (es : List (EllN n)) (ha : a.data = es.map EllN.obj)
    (hne : es ≠ []) (hnd : ∀ e ∈ es, e.PSD) (hcol : IsColumn a) (x : Arr ℝ) (X : Fin k → Fin n → ℝ) (hx : IsPoints x X) :
    (∃ r, isInternal E G a x (some "u") = .ok r ∧ r.shape = [k, 1] ∧ ∀ j : Fin k, (∃ e ∈ es, X j ∈ e.set) → r.data[j.val]? = some true) ∧
    (∃ r, isInternal E G a x (some "i") = .ok r ∧ r.shape = [k, 1] ∧ ∀ j : Fin k, (∀ e ∈ es, X j ∈ e.set) → r.data[j.val]? = some true) := by
  classical
  have hex : ∀ (j : Fin k) (e : EllN n), ∃ b, e ∈ es → singleInternal E G (X j) e.obj = .ok b ∧ (X j ∈ e.set → b = true) := by
    intro j e
    by_cases he : e ∈ es
    · obtain ⟨b, hb⟩ := singleInternal_psd E G hn (X j) (hnd e he)
      exact ⟨b, fun _ => hb⟩
    · exact ⟨true, fun h => absurd h he⟩
  choose f hf using hex
  constructor
  · refine ⟨_, isInternal_of E G hn a es ha hne hcol x X hx (some "u") (Or.inl rfl) f (fun j e he => (hf j e he).1), rfl, fun j h => ?_⟩
    obtain ⟨e, he, hxe⟩ := h
    have : es.any (f j) = true := List.any_eq_true.mpr ⟨e, he, (hf j e he).2 hxe⟩
    simp [this]
  · refine ⟨_, isInternal_of E G hn a es ha hne hcol x X hx (some "i") (Or.inr rfl) f (fun j e he => (hf j e he).1), rfl, fun j h => ?_⟩
    have : es.all (f j) = true := List.all_eq_true.mpr (fun e he => (hf j e he).2 (h e he))
    simp [this]

/-- **C41** fails for every array that is not one column, in particular for a plain list of ellipsoids: the call raises. -/
theorem C41_violated (E : Eigh) (G : Eig) (a : Arr EllObj) (hcol : ¬ IsColumn a) (x : Arr ℝ) (m k : ℕ) (hx : x.shape = [m, k])
    (hk : 0 < k) (mode : Option String) : Raises (isInternal E G a x mode) := by
  have hv : ∀ (x : Fin m → ℝ) (md : String), Raises (internalVec E G a x md) := by
    intro x md
    unfold internalVec
    match hsh : a.shape with
    | [] => exact ⟨_, rfl⟩
    | [_] => exact ⟨_, rfl⟩
    | r :: s :: rest =>
      simp only
      rw [if_neg (fun h => hcol ⟨r, s, rest, hsh, h⟩)]
      exact ⟨_, rfl⟩
  unfold isInternal
  by_cases h0 : a.data = []
  · rw [if_pos h0]; exact ⟨_, rfl⟩
  rw [if_neg h0]
  by_cases h1 : anyEmpty a.data
  · rw [if_pos h1]; exact ⟨_, rfl⟩
  rw [if_neg h1]
  simp only
  by_cases h2 : ¬ (mode.getD "u" = "u" ∨ mode.getD "u" = "i")
  · rw [if_pos h2]; exact ⟨_, rfl⟩
  rw [if_neg h2, hx]
  simp only
  by_cases h3 : ¬ ∀ e ∈ a.data, e.n = m
  · rw [if_pos h3]; exact ⟨_, rfl⟩
  rw [if_neg h3]
  obtain ⟨y, hy⟩ := (pyMap_raises (fun j => internalVec E G a (fun i : Fin m => x.data.getD (i.val * k + j) 0) (mode.getD "u")) (List.range k)).mpr
    ⟨0, List.mem_range.mpr hk, hv _ _⟩
  rw [hy]
  exact ⟨y, rfl⟩

/-- **C41**, wrong arguments: the call raises for an array without ellipsoids, for empty ellipsoids, for another mode and for points of
another dimension. -/
theorem C41_raises (E : Eigh) (G : Eig) (a : Arr EllObj) (x : Arr ℝ) (mode : Option String)
    (h : a.data = [] ∨ (∃ e ∈ a.data, e.n = 0) ∨ (∃ s, mode = some s ∧ s ≠ "u" ∧ s ≠ "i") ∨ (∀ m k, x.shape ≠ [m, k]) ∨
      ∃ m k, x.shape = [m, k] ∧ ∃ e ∈ a.data, e.n ≠ m) : Raises (isInternal E G a x mode) := by
  unfold isInternal
  by_cases h0 : a.data = []
  · rw [if_pos h0]; exact ⟨_, rfl⟩
  rw [if_neg h0]
  by_cases h1 : anyEmpty a.data
  · rw [if_pos h1]; exact ⟨_, rfl⟩
  rw [if_neg h1]
  simp only
  by_cases h2 : ¬ (mode.getD "u" = "u" ∨ mode.getD "u" = "i")
  · rw [if_pos h2]; exact ⟨_, rfl⟩
  rw [if_neg h2]
  rcases h with h | h | ⟨s, rfl, hs1, hs2⟩ | h | ⟨m, k, hx, e, he, hne⟩
  · exact absurd h h0
  · exact absurd h h1
  · exact absurd h2 (not_not.mpr (fun h => h.elim hs1 hs2))
  · split
    · rename_i m k hx; exact absurd hx (h m k)
    · exact ⟨_, rfl⟩
  · rw [hx]
    simp only
    rw [if_pos (fun h => hne (h e he))]
    exact ⟨_, rfl⟩

/-- A column of two discs and two points. -/
example (E : Eigh) (G : Eig) : ∃ r, isInternal E G ⟨[2, 1], [discN.obj, discN.obj], rfl⟩ ⟨[2, 2], [0, 1, 0, 1], rfl⟩ (some "u") = .ok r ∧
    r.shape = [2, 1] := by
  obtain ⟨⟨r, h1, h2, -⟩, -⟩ := C41_partial E G (k := 2) two_ne_zero ⟨[2, 1], [discN.obj, discN.obj], rfl⟩ [discN, discN] rfl (by simp)
    (by intro e he; simp only [List.mem_cons, List.not_mem_nil, or_false, or_self] at he; subst he; exact discN_nonDeg)
    ⟨2, 1, [], rfl, rfl⟩ ⟨[2, 2], [0, 1, 0, 1], rfl⟩ ![![0, 0], ![1, 1]] ⟨rfl, by intro j i; fin_cases j <;> fin_cases i <;> rfl⟩
  exact ⟨r, h1, h2⟩

/-- A plain list of one disc. -/
example (E : Eigh) (G : Eig) : Raises (isInternal E G (Arr.vec [discN.obj]) ⟨[2, 1], [0, 0], rfl⟩ (some "u")) :=
  C41_violated E G _ (by rintro ⟨r, s, rest, h, -⟩; cases h) _ 2 1 rfl one_pos _

end Ellipy.Ell
