import Verif.Spec.HyperplaneCtor
import Verif.Props.EllCtor
import Verif.Props.Hyperplane

/-! Property theorems C91 (constructor of `Hyperplane` and `from_rep_mat`). -/

namespace Ellipy.Hyp
open Ellipy.Ell

theorem eps_eq : eps = roundUnit := by unfold eps roundUnit; rw [inv_pow, one_div]

/-- The two setters of vectors differ in their messages only. -/
theorem setNormal_center (arg : RawArg) (l : List ℝ) : setNormal arg = .ok l ↔ setCenterVec arg eps = .ok l := by
  unfold setNormal setCenterVec throwErr
  cases arg with
  | notArr => simp
  | arr a =>
    simp only
    cases tryTreatAsReal a eps with
    | error e => simp
    | ok re =>
      simp only
      cases a.shape.max? with
      | none => simp
      | some mx =>
        simp only
        by_cases h1 : re.length ≠ mx
        · rw [if_pos h1, if_pos h1]; simp
        · rw [if_neg h1, if_neg h1]
          by_cases h2 : ¬ ∀ x ∈ re, x.isFinite = true
          · rw [if_pos h2, if_pos h2]; simp
          · rw [if_neg h2, if_neg h2]

theorem finite_fin {x : XF ℝ} (h : x.isFinite = true) : x = .fin x.toK := by
  cases x <;> simp_all [XF.isFinite, XF.toK]

theorem ltX_one (x : XF ℝ) : ltX (normInf [[x]]) eps ↔ ∃ y, x = .fin y ∧ |y| < eps := by
  classical
  unfold normInf
  cases x with
  | fin v =>
    simp only [List.mem_singleton, exists_eq_left, XF.isNan, XF.isFinite]
    simp [ltX, XF.toK]
  | nan => simp [XF.isNan, ltX]
  | pinf => simp [XF.isNan, XF.isFinite, ltX]
  | ninf => simp [XF.isNan, XF.isFinite, ltX]

theorem setShift_iff (arg : ShiftArg) (s : ℝ) : setShift arg = .ok s ↔ GoodShift s arg := by
  have fin_out : ∀ (x : XF ℝ), (if x.isFinite = true then (.ok x.toK : Py ℝ) else throwErr "wrongInput:shift") = .ok s ↔ x = .fin s := by
    intro x
    unfold throwErr
    cases x <;> simp [XF.isFinite, XF.toK]
  cases arg with
  | notNum => simp [setShift, GoodShift, throwErr]
  | scal z =>
    obtain ⟨re, im⟩ := z
    simp only [setShift, tryTreatAsRealScal, GoodShift, if_neg (not_not.2 eps_pos), CX.mk.injEq, ← eps_eq]
    by_cases h0 : im = .fin 0
    · rw [if_pos h0]
      simp only [fin_out]
      constructor
      · intro h; exact ⟨0, ⟨h, h0⟩, by simpa using eps_pos⟩
      · rintro ⟨y, ⟨h, -⟩, -⟩; exact h
    · rw [if_neg h0]
      by_cases h1 : ltX (normInf [[im]]) eps
      · rw [if_pos h1]
        simp only [fin_out]
        obtain ⟨y, hy, hy'⟩ := (ltX_one im).1 h1
        constructor
        · intro h; exact ⟨y, ⟨h, hy⟩, hy'⟩
        · rintro ⟨y, ⟨h, -⟩, -⟩; exact h
      · rw [if_neg h1]
        simp only [throwErr]
        refine iff_of_false (by simp) ?_
        rintro ⟨y, ⟨-, h⟩, h'⟩
        exact h1 ((ltX_one im).2 ⟨y, h, h'⟩)
  | arr a =>
    simp only [setShift, GoodShift, ← eps_eq]
    constructor
    · intro h
      cases hr : tryTreatAsReal a eps with
      | error e => rw [hr] at h; cases h
      | ok re =>
        rw [hr] at h
        obtain ⟨-, hre, hc⟩ := treat_real_other hr
        match re, h with
        | [], h => simp [throwErr] at h
        | x :: y :: t, h => simp [throwErr] at h
        | [x], h =>
          have hx : x = .fin s := (fin_out x).1 h
          subst hx
          obtain ⟨z, hz⟩ : ∃ z, a.data = [z] := by
            have := congrArg List.length hre
            rw [List.length_map] at this
            exact List.length_eq_one_iff.1 this.symm
          rw [hz] at hre
          obtain ⟨zr, zi⟩ := z
          simp only [List.map_cons, List.map_nil, List.cons.injEq, and_true] at hre
          subst hre
          have hlen := a.len
          rw [hz] at hlen
          rcases hc with h0 | ⟨k, hk⟩ | ⟨m, n, hmn⟩
          · have : zi = .fin 0 := h0 _ (by rw [hz]; exact List.mem_singleton.2 rfl)
            subst this
            exact ⟨0, hz, .inl rfl⟩
          · rw [hk] at hlen
            have hk1 : k = 1 := by simpa using hlen.symm
            subst hk1
            obtain ⟨-, -, y, h1, h2⟩ := (treat_real_one hk eps _).1 hr
            obtain ⟨x, h3⟩ := h1 0
            rw [hz] at h3
            simp at h3
            exact ⟨y 0, by rw [hz, h3.2], .inr ⟨.inl hk, h2 0⟩⟩
          · rw [hmn] at hlen
            have hlen : 1 = m * n := by simpa using hlen
            have hm : m = 1 := Nat.eq_one_of_mul_eq_one_right hlen.symm
            have hn : n = 1 := Nat.eq_one_of_mul_eq_one_left hlen.symm
            subst hm hn
            obtain ⟨-, -, Y, h1, h2⟩ := (treat_real_two hmn eps _).1 hr
            obtain ⟨x, h3⟩ := h1 0 0
            rw [hz] at h3
            simp at h3
            refine ⟨Y 0 0, by rw [hz, h3.2], .inr ⟨.inr hmn, ?_⟩⟩
            simpa using h2 0
    · rintro ⟨y, hz, hc⟩
      have hr : tryTreatAsReal a eps = .ok [.fin s] := by
        rcases hc with rfl | ⟨hs | hs, hy⟩
        · rw [treat_real_zero eps_pos (by rw [hz]; simp), hz]; rfl
        · refine (treat_real_one hs eps _).2 ⟨eps_pos, by rw [hz]; rfl, fun _ => y, fun i => ⟨.fin s, ?_⟩, fun _ => hy⟩
          rw [hz, Subsingleton.elim i 0]; rfl
        · refine (treat_real_two hs eps _).2 ⟨eps_pos, by rw [hz]; rfl, fun _ _ => y, fun i j => ⟨.fin s, ?_⟩, fun _ => by simpa using hy⟩
          rw [hz, Subsingleton.elim i 0, Subsingleton.elim j 0]; rfl
      rw [hr]
      rfl

/-- **C91.**  The constructor of `Hyperplane` succeeds exactly for positive tolerances, a vector of finite numbers as the normal (of any shape with at most
one dimension different from 1) and one finite number as the shift, imaginary parts below the rounding unit being ignored; the object consists of exactly
these data. -/
theorem C91 (nrm : RawArg) (shift : ShiftArg) (t : Tols) (h : HypObj) :
    hypNew nrm shift t = .ok h ↔ 0 < t.absTol ∧ 0 < t.relTol ∧ ∃ (a : Arr CX) (n : ℕ) (x : Fin n → ℝ) (s : ℝ), nrm = .arr a ∧
      GoodCenter roundUnit a x ∧ GoodShift s shift ∧ h = ⟨n, x, s, t.absTol, t.relTol⟩ := by
  unfold hypNew
  by_cases ht : t.ok
  swap
  · rw [if_pos ht]
    refine iff_of_false (by simp [throwErr]) ?_
    rintro ⟨h1, h2, -⟩
    exact ht ⟨h1, h2⟩
  rw [if_neg (not_not.2 ht)]
  constructor
  · intro hh
    cases hn : setNormal nrm with
    | error e => rw [hn] at hh; cases hh
    | ok l =>
      rw [hn] at hh
      simp only at hh
      cases hs : setShift shift with
      | error e => rw [hs] at hh; cases hh
      | ok s =>
        rw [hs] at hh
        injection hh with hh
        cases nrm with
        | notArr => simp [setNormal, throwErr] at hn
        | arr a =>
          have h1 := (setNormal_center _ _).1 hn
          rw [← List.ofFn_get l, C33_center, eps_eq] at h1
          exact ⟨ht.1, ht.2, a, l.length, l.get, s, rfl, h1, (setShift_iff _ _).1 hs, hh.symm⟩
  · rintro ⟨-, -, a, n, x, s, rfl, h1, h2, rfl⟩
    rw [← eps_eq, ← C33_center, ← setNormal_center] at h1
    rw [h1, (setShift_iff _ _).2 h2]
    simp only
    rw [mk_ofList rfl]

/-- **C91**, `from_rep_mat`: for arguments that the constructor accepts and a non-empty list of non-negative numbers the result has this shape, and each of
its entries has the normal, the shift and the absolute tolerance given; the relative tolerance is the current setting of the library. -/
theorem C91_from_rep_mat {dflt : Tols} (hd : dflt.ok) (nrm : RawArg) (shift : ShiftArg) (shape : List ℤ) (t : Tols) {h : HypObj}
    (hh : hypNew nrm shift t = .ok h) (hne : shape ≠ []) (hpos : ∀ k ∈ shape, 0 ≤ k) :
    ∃ r, fromRepMat dflt nrm shift shape t = .ok r ∧ r.shape.map Int.ofNat = shape ∧
      ∀ c ∈ r.data, c = { h with relTol := dflt.relTol } := by
  have ht : h.tols.ok := by
    obtain ⟨h1, h2, a, n, x, s, -, -, -, rfl⟩ := (C91 _ _ _ _).1 hh
    exact ⟨h1, h2⟩
  obtain ⟨r, h1, h2, h3⟩ := C37_hyp_rep_mat_partial hd ht hne hpos
  refine ⟨r, by unfold fromRepMat; rw [hh]; exact h1, h2, fun c hc => ?_⟩
  obtain ⟨e, h4, h5, h6, h7⟩ := h3 c hc
  obtain ⟨n, x, s, ta, tr⟩ := c
  obtain ⟨n', x', s', ta', tr'⟩ := h
  obtain rfl : n = n' := e
  simp only at h4 h5 h6 h7
  subst h5 h6 h7
  congr 1
  funext i
  exact h4 i

/-- **C91**, the calls that raise. -/
theorem C91_raises_iff (dflt : Tols) (hd : dflt.ok) (nrm : RawArg) (shift : ShiftArg) (shape : List ℤ) (t : Tols) :
    Raises (fromRepMat dflt nrm shift shape t) ↔ Raises (hypNew nrm shift t) ∨ shape = [] ∨ ∃ k ∈ shape, k < 0 := by
  cases hh : hypNew nrm shift t with
  | error e => exact iff_of_true ⟨e, by unfold fromRepMat; rw [hh]⟩ (.inl ⟨e, rfl⟩)
  | ok h =>
    by_cases hne : shape = []
    · refine iff_of_true ?_ (.inr (.inl hne))
      unfold fromRepMat repMat
      rw [hh]
      simp only [if_pos hne]
      exact ⟨_, rfl⟩
    by_cases hpos : ∀ k ∈ shape, 0 ≤ k
    · obtain ⟨r, h1, -⟩ := C91_from_rep_mat hd nrm shift shape t hh hne hpos
      refine iff_of_false (by rw [h1]; rintro ⟨e, he⟩; cases he) ?_
      rintro (⟨e, he⟩ | h2 | ⟨k, hk, hk'⟩)
      · cases he
      · exact hne h2
      · exact absurd (hpos k hk) (by omega)
    · refine iff_of_true ?_ (.inr (.inr (by push Not at hpos; exact hpos)))
      unfold fromRepMat repMat
      rw [hh]
      simp only [if_neg hne, if_pos hpos]
      exact ⟨_, rfl⟩

/-- The line `3 x₀ + 4 x₁ = 5` with the normal given as a row and the shift as a complex number with a negligible imaginary part. -/
example : hypNew (.arr ⟨[1, 2], [⟨.fin 3, .fin 0⟩, ⟨.fin 4, .fin 0⟩], rfl⟩) (.scal ⟨.fin 5, .fin (1 / 2 ^ 60)⟩) ⟨1 / 10, 1 / 100⟩ =
    .ok ⟨2, ![3, 4], 5, 1 / 10, 1 / 100⟩ := by
  rw [C91]
  refine ⟨by norm_num, by norm_num, _, 2, ![3, 4], 5, rfl, ⟨by unfold roundUnit; norm_num, 0, ⟨rfl, rfl, ?_⟩, .inl rfl⟩,
    ⟨_, rfl, by unfold roundUnit; norm_num⟩, rfl⟩
  intro i; fin_cases i <;> rfl

/-- Six copies of it in two rows. -/
example : ∃ r, fromRepMat ⟨1 / 10, 1 / 3⟩ (.arr (encVec ![3, 4])) (.scal ⟨.fin 5, .fin 0⟩) [2, 3] ⟨1 / 10, 1 / 100⟩ = .ok r ∧
    r.shape.map Int.ofNat = [2, 3] ∧ ∀ c ∈ r.data, c = ⟨2, ![3, 4], 5, 1 / 10, 1 / 3⟩ :=
  C91_from_rep_mat (dflt := ⟨1 / 10, 1 / 3⟩) ⟨by norm_num, by norm_num⟩ _ _ _ _ (hypNew_real ![3, 4] 5 ⟨by norm_num, by norm_num⟩) (by simp) (by simp)

end Ellipy.Hyp
