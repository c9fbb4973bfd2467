import Verif.Spec.EllCtor
import Verif.Proofs.Ell

/-! Property theorem C33 (constructor of `Ellipsoid`). -/

namespace Ellipy.Ell
open Matrix Ellipy.LA

theorem foldr_max_lt (l : List ℝ) (tol : ℝ) (ht : 0 < tol) : l.foldr max 0 < tol ↔ ∀ x ∈ l, x < tol := by
  induction l with
  | nil => simp [ht]
  | cons x xs ih => simp [ih]

theorem normInf_lt (m n : ℕ) (ims : List (XF ℝ)) (tol : ℝ) (ht : 0 < tol) : ltX (normInf (rowsOf m n ims)) tol ↔
    ∃ Y : Fin m → Fin n → ℝ, (∀ i j, ims.getD (i.val * n + j.val) .nan = .fin (Y i j)) ∧ ∀ i, ∑ j, |Y i j| < tol := by
  have hmem : ∀ P : XF ℝ → Prop, (∃ r ∈ rowsOf m n ims, ∃ x ∈ r, P x) ↔
      ∃ (i : Fin m) (j : Fin n), P (ims.getD (i.val * n + j.val) .nan) := by
    intro P
    constructor
    · rintro ⟨r, hr, x, hx, hp⟩
      obtain ⟨i, rfl⟩ := List.mem_ofFn.mp hr
      obtain ⟨j, rfl⟩ := List.mem_ofFn.mp hx
      exact ⟨i, j, hp⟩
    · rintro ⟨i, j, hp⟩
      exact ⟨_, List.mem_ofFn.mpr ⟨i, rfl⟩, _, List.mem_ofFn.mpr ⟨j, rfl⟩, hp⟩
  unfold normInf
  by_cases h1 : ∃ r ∈ rowsOf m n ims, ∃ x ∈ r, x.isNan = true
  · rw [if_pos h1]
    refine iff_of_false (fun h => h) ?_
    rintro ⟨Y, hY, -⟩
    obtain ⟨i, j, hp⟩ := (hmem _).mp h1
    rw [hY] at hp
    cases hp
  rw [if_neg h1]
  by_cases h2 : ∃ r ∈ rowsOf m n ims, ∃ x ∈ r, x.isFinite = false
  · rw [if_pos h2]
    refine iff_of_false (fun h => h) ?_
    rintro ⟨Y, hY, -⟩
    obtain ⟨i, j, hp⟩ := (hmem _).mp h2
    rw [hY] at hp
    cases hp
  rw [if_neg h2]
  have hfin : ∀ (i : Fin m) (j : Fin n), ∃ y, ims.getD (i.val * n + j.val) .nan = .fin y := by
    intro i j
    have := fun h => h2 ((hmem _).mpr ⟨i, j, h⟩)
    cases hx : ims.getD (i.val * n + j.val) XF.nan with
    | fin y => exact ⟨y, rfl⟩
    | nan => rw [hx] at this; exact absurd rfl this
    | pinf => rw [hx] at this; exact absurd rfl this
    | ninf => rw [hx] at this; exact absurd rfl this
  choose Y hY using hfin
  show _ < tol ↔ _
  rw [foldr_max_lt _ _ ht]
  have hrow : ∀ i : Fin m, ((List.ofFn (fun j : Fin n => ims.getD (i.val * n + j.val) .nan)).map (fun x => |x.toK|)).sum =
      ∑ j, |Y i j| := by
    intro i
    rw [List.map_ofFn, List.sum_ofFn]
    exact Finset.sum_congr rfl (fun j _ => by rw [Function.comp, hY]; rfl)
  constructor
  · intro h
    refine ⟨Y, hY, fun i => ?_⟩
    rw [← hrow i]
    exact h _ (List.mem_map.mpr ⟨_, List.mem_ofFn.mpr ⟨i, rfl⟩, rfl⟩)
  · rintro ⟨Y', hY', hlt⟩ x hx
    obtain ⟨r, hr, rfl⟩ := List.mem_map.mp hx
    obtain ⟨i, rfl⟩ := List.mem_ofFn.mp hr
    rw [hrow i]
    have : Y' = Y := by
      funext i j
      have := hY' i j
      rw [hY] at this
      injection this with this
      exact this.symm
    rw [← this]
    exact hlt i

theorem idx_lt {m n : ℕ} (i : Fin m) (j : Fin n) : i.val * n + j.val < m * n := by
  have := i.2; have := j.2
  nlinarith

theorem getD_map_im {l : List CX} {k : ℕ} {y : ℝ} : (l.map CX.im).getD k .nan = .fin y ↔ ∃ x, l[k]? = some ⟨x, .fin y⟩ := by
  rw [List.getD_eq_getElem?_getD, List.getElem?_map]
  cases h : l[k]? with
  | none => simp
  | some z =>
    obtain ⟨x, w⟩ := z
    simp

theorem treat_real_two {a : Arr CX} {m n : ℕ} (hs : a.shape = [m, n]) (tol : ℝ) (re : List (XF ℝ)) :
    tryTreatAsReal a tol = .ok re ↔ 0 < tol ∧ re = a.data.map CX.re ∧ ∃ Y : Fin m → Fin n → ℝ,
      (∀ i j, ∃ x, a.data[i.val * n + j.val]? = some ⟨x, .fin (Y i j)⟩) ∧ ∀ i, ∑ j, |Y i j| < tol := by
  unfold tryTreatAsReal throwErr
  by_cases ht : 0 < tol
  swap
  · rw [if_pos ht]; simp [ht]
  rw [if_neg (not_not.mpr ht)]
  by_cases h0 : ∀ z ∈ a.data, z.im = .fin 0
  · rw [if_pos h0]
    constructor
    · intro h
      injection h with h
      refine ⟨ht, h.symm, fun _ _ => 0, fun i j => ?_, fun i => by simpa using ht⟩
      have hlen : a.data.length = m * n := by rw [a.len, hs]; simp
      have hk := idx_lt i j
      rw [← hlen] at hk
      refine ⟨(a.data[i.val * n + j.val]).re, ?_⟩
      rw [List.getElem?_eq_getElem hk]
      congr 1
      have := h0 _ (List.getElem_mem hk)
      generalize a.data[i.val * n + j.val] = z at *
      cases z
      simp_all
    · rintro ⟨-, h, -⟩; rw [h]
  · rw [if_neg h0, hs]
    simp only
    have key := normInf_lt m n (a.data.map CX.im) tol ht
    simp only [getD_map_im] at key
    by_cases h1 : ltX (normInf (rowsOf m n (a.data.map CX.im))) tol
    · rw [if_pos h1]
      constructor
      · intro h
        injection h with h
        exact ⟨ht, h.symm, key.mp h1⟩
      · rintro ⟨-, h, -⟩; rw [h]
    · rw [if_neg h1]
      constructor
      · intro h; cases h
      · rintro ⟨-, -, h⟩; exact absurd (key.mpr h) h1

theorem matOf_eq {n : ℕ} {a : Arr CX} {X Y : Matrix (Fin n) (Fin n) ℝ} (h : IsMat a X Y) : matOf n (a.data.map CX.re) = X := by
  ext i j
  show ((a.data.map CX.re).getD (i.val * n + j.val) .nan).toK = X i j
  rw [List.getD_eq_getElem?_getD, List.getElem?_map, h.2 i j]
  rfl

/-- **C33** for the shape matrix: the setter accepts exactly the shape matrices and stores the real parts of their entries. -/
theorem C33_shape (E : Eigh) (a : Arr CX) (tol : ℝ) (n : ℕ) (X : Matrix (Fin n) (Fin n) ℝ) :
    setShapeMat E (.arr a) tol = .ok ⟨n, X⟩ ↔ GoodShape tol a X := by
  unfold setShapeMat throwErr
  constructor
  · intro h
    simp only at h
    split at h
    · rename_i m n' hs
      by_cases hmn : m ≠ n'
      · rw [if_pos hmn] at h; cases h
      rw [if_neg hmn] at h
      push Not at hmn
      subst hmn
      cases hr : tryTreatAsReal a tol with
      | error e => rw [hr] at h; cases h
      | ok re =>
        obtain ⟨ht, hre, Y, hY, hsum⟩ := (treat_real_two hs tol re).mp hr
        rw [hr] at h
        simp only at h
        by_cases h0 : m * m = 0
        · rw [if_pos h0] at h
          injection h with h
          have hm : m = 0 := by simpa using h0
          obtain ⟨rfl, h⟩ := Sigma.mk.inj h
          subst hm
          refine ⟨ht, 0, ⟨hs, fun i => i.elim0⟩, fun i => i.elim0, fun i => i.elim0, fun v => ?_⟩
          simp [dotProduct]
        rw [if_neg h0] at h
        by_cases hf : ∀ x ∈ re, x.isFinite = true
        swap
        · rw [if_pos hf] at h; cases h
        rw [if_neg (not_not.mpr hf)] at h
        have hX : ∀ i j : Fin m, ∃ x, a.data[i.val * m + j.val]? = some ⟨.fin x, .fin (Y i j)⟩ := by
          intro i j
          obtain ⟨x, hx⟩ := hY i j
          have := hf x (by rw [hre]; exact List.mem_map.mpr ⟨_, List.mem_of_getElem? hx, rfl⟩)
          cases x with
          | fin v => exact ⟨v, hx⟩
          | nan => cases this
          | pinf => cases this
          | ninf => cases this
        choose X' hX' using hX
        have hM : IsMat a (of X') (of Y) := ⟨hs, hX'⟩
        rw [hre, matOf_eq hM] at h
        have hm : m ≠ 0 := by rintro rfl; exact h0 rfl
        by_cases hsw : SymmWithin (of X') tol
        swap
        · rw [isMatSymm_of_not_within ht.le hsw] at h; cases h
        rw [isMatSymm_of_within ht.le hsw] at h
        simp only at h
        cases hp : isMatPosDef E (of X') tol true with
        | error e => rw [hp] at h; cases h
        | ok b =>
          rw [hp] at h
          cases b with
          | false => cases h
          | true =>
            injection h with h
            obtain ⟨rfl, h⟩ := Sigma.mk.inj h
            have h := eq_of_heq h
            subst h
            exact ⟨ht, of Y, hM, hsum, hsw, ((C20_nearly E _ tol ht.le hm hsw).2).mp hp⟩
    · cases h
  · rintro ⟨ht, Y, hM, hsum, hsw, hpsd⟩
    simp only [hM.1]
    rw [if_neg (not_not.mpr rfl)]
    have hr : tryTreatAsReal a tol = .ok (a.data.map CX.re) :=
      (treat_real_two hM.1 tol _).mpr ⟨ht, rfl, Y, fun i j => ⟨_, hM.2 i j⟩, hsum⟩
    rw [hr]
    simp only
    rw [matOf_eq hM]
    by_cases h0 : n * n = 0
    · rw [if_pos h0]
    rw [if_neg h0]
    have hn : n ≠ 0 := by rintro rfl; exact h0 rfl
    rw [if_neg, isMatSymm_of_within ht.le hsw]
    · simp only
      rw [((C20_nearly E X tol ht.le hn hsw).2).mpr hpsd]
    · refine not_not.mpr (fun x hx => ?_)
      obtain ⟨z, hz, rfl⟩ := List.mem_map.mp hx
      obtain ⟨k, hk⟩ := List.mem_iff_getElem?.mp hz
      have hlen : a.data.length = n * n := by rw [a.len, hM.1]; simp
      have hkl : k < n * n := by
        rw [← hlen]
        by_contra hge
        rw [List.getElem?_eq_none (not_lt.mp hge)] at hk
        cases hk
      have hpos : 0 < n := Nat.pos_of_ne_zero hn
      have := hM.2 ⟨k / n, (Nat.div_lt_iff_lt_mul hpos).mpr hkl⟩ ⟨k % n, Nat.mod_lt _ hpos⟩
      simp only [Nat.div_add_mod'] at this
      rw [hk] at this
      injection this with this
      rw [this]
      rfl

/-- What the setter of the shape matrix accepts. -/
theorem C33_shape_raises (E : Eigh) (arg : RawArg) (tol : ℝ) :
    Raises (setShapeMat E arg tol) ↔ ¬ ∃ a n, ∃ X : Matrix (Fin n) (Fin n) ℝ, arg = .arr a ∧ GoodShape tol a X := by
  cases arg with
  | notArr =>
    refine iff_of_true ⟨_, rfl⟩ ?_
    rintro ⟨a, n, X, h, -⟩; cases h
  | arr a =>
    cases h : setShapeMat E (.arr a) tol with
    | error e =>
      refine iff_of_true ⟨e, rfl⟩ ?_
      rintro ⟨a', n, X, h', hg⟩
      injection h' with h'
      subst h'
      rw [(C33_shape E _ tol n X).mpr hg] at h
      cases h
    | ok r =>
      obtain ⟨n, X⟩ := r
      refine iff_of_false (by rintro ⟨e, he⟩; cases he) (not_not.mpr ⟨a, n, X, rfl, (C33_shape E a tol n X).mp h⟩)

theorem treat_real_one {a : Arr CX} {k : ℕ} (hs : a.shape = [k]) (tol : ℝ) (re : List (XF ℝ)) :
    tryTreatAsReal a tol = .ok re ↔ 0 < tol ∧ re = a.data.map CX.re ∧ ∃ y : Fin k → ℝ,
      (∀ i : Fin k, ∃ x, a.data[i.val]? = some ⟨x, .fin (y i)⟩) ∧ ∀ i, |y i| < tol := by
  unfold tryTreatAsReal throwErr
  by_cases ht : 0 < tol
  swap
  · rw [if_pos ht]; simp [ht]
  rw [if_neg (not_not.mpr ht)]
  by_cases h0 : ∀ z ∈ a.data, z.im = .fin 0
  · rw [if_pos h0]
    constructor
    · intro h
      injection h with h
      refine ⟨ht, h.symm, fun _ => 0, fun i => ?_, fun i => by simpa using ht⟩
      have hlen : a.data.length = k := by rw [a.len, hs]; simp
      have hk : i.val < a.data.length := lt_of_lt_of_eq i.2 hlen.symm
      refine ⟨(a.data[i.val]).re, ?_⟩
      rw [List.getElem?_eq_getElem hk]
      congr 1
      have := h0 _ (List.getElem_mem hk)
      generalize a.data[i.val] = z at *
      cases z
      simp_all
    · rintro ⟨-, h, -⟩; rw [h]
  · rw [if_neg h0, hs]
    simp only
    have key := normInf_lt k 1 (a.data.map CX.im) tol ht
    simp only [getD_map_im, mul_one, Finset.univ_unique, Finset.sum_singleton] at key
    have key : ltX (normInf (rowsOf k 1 (a.data.map CX.im))) tol ↔ ∃ y : Fin k → ℝ,
        (∀ i : Fin k, ∃ x, a.data[i.val]? = some ⟨x, .fin (y i)⟩) ∧ ∀ i, |y i| < tol := by
      rw [key]
      constructor
      · rintro ⟨Y, h1, h2⟩; exact ⟨fun i => Y i 0, fun i => h1 i 0, fun i => h2 i⟩
      · rintro ⟨y, h1, h2⟩
        refine ⟨fun i _ => y i, fun i j => ?_, fun i => h2 i⟩
        have : j.val = 0 := by omega
        rw [this]; exact h1 i
    by_cases h1 : ltX (normInf (rowsOf k 1 (a.data.map CX.im))) tol
    · rw [if_pos h1]
      constructor
      · intro h
        injection h with h
        exact ⟨ht, h.symm, key.mp h1⟩
      · rintro ⟨-, h, -⟩; rw [h]
    · rw [if_neg h1]
      constructor
      · intro h; cases h
      · rintro ⟨-, -, h⟩; exact absurd (key.mpr h) h1

theorem treat_real_zero {a : Arr CX} {tol : ℝ} (ht : 0 < tol) (h0 : ∀ z ∈ a.data, z.im = .fin 0) :
    tryTreatAsReal a tol = .ok (a.data.map CX.re) := by
  unfold tryTreatAsReal
  rw [if_neg (not_not.mpr ht), if_pos h0]

theorem treat_real_other {a : Arr CX} {tol : ℝ} {re : List (XF ℝ)} (h : tryTreatAsReal a tol = .ok re) :
    0 < tol ∧ re = a.data.map CX.re ∧ ((∀ z ∈ a.data, z.im = .fin 0) ∨ (∃ k, a.shape = [k]) ∨ ∃ m n, a.shape = [m, n]) := by
  unfold tryTreatAsReal throwErr at h
  by_cases ht : 0 < tol
  swap
  · rw [if_pos ht] at h; cases h
  rw [if_neg (not_not.mpr ht)] at h
  by_cases h0 : ∀ z ∈ a.data, z.im = .fin 0
  · rw [if_pos h0] at h
    injection h with h
    exact ⟨ht, h.symm, Or.inl h0⟩
  rw [if_neg h0] at h
  split at h
  · rename_i k hs
    split_ifs at h
    injection h with h
    exact ⟨ht, h.symm, Or.inr (Or.inl ⟨k, hs⟩)⟩
  · rename_i m n hs
    split_ifs at h
    injection h with h
    exact ⟨ht, h.symm, Or.inr (Or.inr ⟨m, n, hs⟩)⟩
  · cases h

/-- **C33** for the centre. -/
theorem C33_center (a : Arr CX) (tol : ℝ) (n : ℕ) (x : Fin n → ℝ) :
    setCenterVec (.arr a) tol = .ok (List.ofFn x) ↔ GoodCenter tol a x := by
  unfold setCenterVec throwErr
  simp only
  constructor
  · intro h
    cases hr : tryTreatAsReal a tol with
    | error e => rw [hr] at h; cases h
    | ok re =>
      rw [hr] at h
      simp only at h
      obtain ⟨ht, hre, hcase⟩ := treat_real_other hr
      cases hmx : a.shape.max? with
      | none => rw [hmx] at h; cases h
      | some mx =>
        rw [hmx] at h
        simp only at h
        by_cases hl : re.length ≠ mx
        · rw [if_pos hl] at h; cases h
        rw [if_neg hl] at h
        push Not at hl
        by_cases hf : ∀ z ∈ re, z.isFinite = true
        swap
        · rw [if_pos hf] at h; cases h
        rw [if_neg (not_not.mpr hf)] at h
        injection h with h
        have hlen : a.data.length = n := by
          have := congrArg List.length h
          rw [hre] at this
          simpa using this
        have hmxn : mx = n := by rw [← hl, hre, List.length_map, hlen]
        subst hmxn
        have hx : ∀ i : Fin mx, ∃ z, a.data[i.val]? = some ⟨.fin (x i), z⟩ := by
          intro i
          have hk : i.val < a.data.length := by rw [hlen]; exact i.2
          have h1 : (re.map XF.toK)[i.val]? = some (x i) := by rw [h]; simp
          rw [hre, List.map_map, List.getElem?_map, List.getElem?_eq_getElem hk] at h1
          have h2 := hf (a.data[i.val]).re (by rw [hre]; exact List.mem_map.mpr ⟨_, List.getElem_mem hk, rfl⟩)
          refine ⟨(a.data[i.val]).im, ?_⟩
          rw [List.getElem?_eq_getElem hk]
          congr 1
          generalize a.data[i.val] = z at *
          obtain ⟨zr, zi⟩ := z
          simp only at h2 ⊢
          cases zr with
          | fin v =>
            simp only [Option.map_some, Function.comp, XF.toK, Option.some.injEq] at h1
            rw [h1]
          | nan => cases h2
          | pinf => cases h2
          | ninf => cases h2
        have fin : ∀ y : Fin mx → ℝ, (∀ i : Fin mx, ∃ z, a.data[i.val]? = some ⟨z, .fin (y i)⟩) → IsVector a x y := by
          intro y hy
          refine ⟨hmx, hlen, fun i => ?_⟩
          obtain ⟨z, hz⟩ := hx i
          obtain ⟨w, hw⟩ := hy i
          rw [hz] at hw ⊢
          injection hw with hw
          rw [CX.mk.injEq] at hw
          rw [hw.2]
        refine ⟨ht, ?_⟩
        rcases hcase with h0 | ⟨k, hs⟩ | ⟨m, n', hs⟩
        · refine ⟨0, fin 0 (fun i => ?_), Or.inl rfl⟩
          obtain ⟨z, hz⟩ := hx i
          refine ⟨.fin (x i), ?_⟩
          have := h0 _ (List.mem_of_getElem? hz)
          simp only at this
          rw [hz, this]; rfl
        · obtain ⟨-, -, y, hy, hlt⟩ := (treat_real_one hs tol re).mp hr
          have hk : k = mx := by rw [hs] at hmx; simpa using hmx
          subst hk
          exact ⟨y, fin y hy, Or.inr (Or.inl ⟨Or.inl hs, hlt⟩)⟩
        · obtain ⟨-, -, Y, hY, hlt⟩ := (treat_real_two hs tol re).mp hr
          have hprod : m * n' = mx := by rw [← hlen, a.len, hs]; simp
          have hmax : max m n' = mx := by rw [hs] at hmx; simpa [List.max?] using hmx
          by_cases hz : mx = 0
          · subst hz
            exact ⟨0, fin 0 (fun i => i.elim0), Or.inl rfl⟩
          have hm : 0 < m := by rcases Nat.eq_zero_or_pos m with h | h; · rw [h] at hprod; omega
                                · exact h
          have hn : 0 < n' := by rcases Nat.eq_zero_or_pos n' with h | h; · rw [h] at hprod; omega
                                 · exact h
          have hone : m = 1 ∨ n' = 1 := by
            by_contra hno
            push Not at hno
            have h1 : 2 ≤ m := by omega
            have h2 : 2 ≤ n' := by omega
            rcases le_total m n' with h | h
            · rw [max_eq_right h] at hmax; nlinarith
            · rw [max_eq_left h] at hmax; nlinarith
          rcases hone with h1 | h1
          · subst h1
            have hn' : n' = mx := by omega
            subst hn'
            refine ⟨fun i => Y 0 i, fin _ (fun i => ?_), Or.inr (Or.inr ⟨hs, hlt 0⟩)⟩
            have := hY 0 i
            simpa using this
          · subst h1
            have hn' : m = mx := by omega
            subst hn'
            refine ⟨fun i => Y i 0, fin _ (fun i => ?_), Or.inr (Or.inl ⟨Or.inr hs, fun i => ?_⟩)⟩
            · have := hY i 0
              simpa using this
            · have := hlt i
              simpa using this
  · rintro ⟨ht, y, ⟨hmx, hlen, hd⟩, hc⟩
    have hr : tryTreatAsReal a tol = .ok (a.data.map CX.re) := by
      rcases hc with h0 | ⟨hs | hs, hlt⟩ | ⟨hs, hlt⟩
      · refine treat_real_zero ht (fun z hz => ?_)
        obtain ⟨k, hk⟩ := List.mem_iff_getElem?.mp hz
        have hkl : k < n := by
          rw [← hlen]
          by_contra hge
          rw [List.getElem?_eq_none (not_lt.mp hge)] at hk
          cases hk
        have := hd ⟨k, hkl⟩
        simp only at this
        rw [hk] at this
        injection this with this
        rw [this, h0]; rfl
      · exact (treat_real_one hs tol _).mpr ⟨ht, rfl, y, fun i => ⟨_, hd i⟩, hlt⟩
      · refine (treat_real_two hs tol _).mpr ⟨ht, rfl, fun i _ => y i, fun i j => ⟨.fin (x i), ?_⟩, fun i => by simpa using hlt i⟩
        · have : j.val = 0 := by omega
          rw [this, mul_one, add_zero]; exact hd i
      · refine (treat_real_two hs tol _).mpr ⟨ht, rfl, fun _ j => y j, fun i j => ⟨.fin (x j), ?_⟩, fun i => hlt⟩
        · have : i.val = 0 := by omega
          rw [this, zero_mul, zero_add]; exact hd j
    have hre : a.data.map CX.re = List.ofFn (fun i => XF.fin (x i)) := by
      refine List.ext_getElem? (fun k => ?_)
      rw [List.getElem?_map]
      by_cases hk : k < n
      · have := hd ⟨k, hk⟩
        simp only at this
        rw [this]
        simp [hk]
      · rw [List.getElem?_eq_none (by rw [hlen]; omega), List.getElem?_eq_none (by simp; omega)]
        rfl
    rw [hr]
    simp only
    rw [hmx]
    simp only
    rw [if_neg (by simp [hlen]), if_neg, hre, List.map_ofFn]
    · rfl
    · refine not_not.mpr (fun z hz => ?_)
      rw [hre] at hz
      obtain ⟨i, rfl⟩ := List.mem_ofFn.mp hz
      rfl

/-- **C33**: the constructor succeeds exactly with no arguments, with a shape matrix, or with a centre and a shape matrix of the same
dimension (further arguments are ignored), and the object consists of exactly these data. -/
theorem C33 (E : Eigh) (args : List RawArg) (absTol relTol n2d n3d : ℝ) (e : EllObj) :
    ellNew E args absTol relTol n2d n3d = .ok e ↔ ∃ n, ∃ (x : Fin n → ℝ) (X : Matrix (Fin n) (Fin n) ℝ),
      e = ⟨n, x, X, absTol, relTol, n2d, n3d⟩ ∧
      ((args = [] ∧ n = 0) ∨
       (∃ a, args = [.arr a] ∧ x = 0 ∧ GoodShape absTol a X) ∨
       (∃ b a rest, args = .arr b :: .arr a :: rest ∧ GoodCenter absTol b x ∧ GoodShape absTol a X)) := by
  constructor
  · intro h
    match args, h with
    | [], h =>
      injection h with h
      exact ⟨0, _, _, h.symm, Or.inl ⟨rfl, rfl⟩⟩
    | [.notArr], h => cases h
    | [.arr a], h =>
      simp only [ellNew] at h
      cases hs : setShapeMat E (.arr a) absTol with
      | error x => rw [hs] at h; cases h
      | ok r =>
        obtain ⟨n, X⟩ := r
        rw [hs] at h
        injection h with h
        exact ⟨n, _, X, h.symm, Or.inr (Or.inl ⟨a, rfl, rfl, (C33_shape E a absTol n X).mp hs⟩)⟩
    | .notArr :: q :: rest, h => cases h
    | .arr b :: q :: rest, h =>
      simp only [ellNew] at h
      cases hc : setCenterVec (.arr b) absTol with
      | error x => rw [hc] at h; cases h
      | ok cs =>
        rw [hc] at h
        simp only at h
        cases hs : setShapeMat E q absTol with
        | error x => rw [hs] at h; cases h
        | ok r =>
          obtain ⟨n, X⟩ := r
          rw [hs] at h
          simp only at h
          by_cases hl : cs.length ≠ n
          · rw [if_pos hl] at h; cases h
          rw [if_neg hl] at h
          push Not at hl
          injection h with h
          cases q with
          | notArr => cases hs
          | arr a =>
            have hcs : cs = List.ofFn (fun i : Fin n => cs.getD i 0) := by
              subst hl
              refine List.ext_getElem? (fun k => ?_)
              by_cases hk : k < cs.length
              · simp [hk, List.getD_eq_getElem?_getD]
              · rw [List.getElem?_eq_none (by omega), List.getElem?_eq_none (by simp; omega)]
            rw [hcs] at hc
            exact ⟨n, _, X, h.symm, Or.inr (Or.inr ⟨b, a, rest, rfl, (C33_center b absTol n _).mp hc,
              (C33_shape E a absTol n X).mp hs⟩)⟩
  · rintro ⟨n, x, X, rfl, ⟨rfl, rfl⟩ | ⟨a, rfl, rfl, hg⟩ | ⟨b, a, rest, rfl, hc, hg⟩⟩
    · have h1 : x = fun _ => 0 := by funext i; exact i.elim0
      have h2 : X = 0 := by ext i; exact i.elim0
      rw [h1, h2]
      rfl
    · simp only [ellNew, (C33_shape E a absTol n X).mpr hg]
      rfl
    · simp only [ellNew, (C33_center b absTol n x).mpr hc, (C33_shape E a absTol n X).mpr hg]
      rw [if_neg (by simp)]
      congr 2
      funext i
      simp [List.getD_eq_getElem?_getD]

/-- A built object keeps the invariant the other theorems use: its shape matrix is symmetric within the tolerance and, if it is symmetric
and the tolerance is disregarded, positive semidefinite; objects without data are empty. -/
theorem C33_invariant (E : Eigh) (args : List RawArg) (absTol relTol n2d n3d : ℝ) (e : EllObj)
    (h : ellNew E args absTol relTol n2d n3d = .ok e) :
    SymmWithin e.Q e.absTol ∧ (∀ v : Fin e.n → ℝ, -e.absTol * (v ⬝ᵥ v) ≤ v ⬝ᵥ lowerSym e.Q *ᵥ v) ∧ (args ≠ [] → 0 < e.absTol) := by
  obtain ⟨n, x, X, rfl, ⟨rfl, rfl⟩ | ⟨a, rfl, rfl, hg⟩ | ⟨b, a, rest, rfl, hc, hg⟩⟩ := (C33 E args absTol relTol n2d n3d e).mp h
  · refine ⟨fun i => i.elim0, fun v => ?_, fun h => absurd rfl h⟩
    simp [dotProduct]
  · obtain ⟨ht, Y, -, -, h1, h2⟩ := hg
    exact ⟨h1, h2, fun _ => ht⟩
  · obtain ⟨ht, Y, -, -, h1, h2⟩ := hg
    exact ⟨h1, h2, fun _ => ht⟩

/-- A complex `2 × 2` matrix with a tiny imaginary part and the centre `(1, 2)` given as a column. -/
example (E : Eigh) : ellNew E [.arr ⟨[2, 1], [⟨.fin 1, .fin 0⟩, ⟨.fin 2, .fin 0⟩], rfl⟩,
    .arr ⟨[2, 2], [⟨.fin 4, .fin (1 / 100)⟩, ⟨.fin 0, .fin 0⟩, ⟨.fin 0, .fin 0⟩, ⟨.fin 1, .fin 0⟩], rfl⟩] (1 / 10) 0 200 200 =
      .ok ⟨2, ![1, 2], !![4, 0; 0, 1], 1 / 10, 0, 200, 200⟩ := by
  rw [C33]
  refine ⟨2, _, _, rfl, Or.inr (Or.inr ⟨_, _, [], rfl, ⟨by norm_num, 0, ⟨rfl, rfl, ?_⟩, Or.inl rfl⟩, by norm_num,
    !![1 / 100, 0; 0, 0], ⟨rfl, ?_⟩, ?_, ?_, ?_⟩)⟩
  · intro i; fin_cases i <;> rfl
  · intro i j; fin_cases i <;> fin_cases j <;> rfl
  · intro i; fin_cases i <;> norm_num [Fin.sum_univ_two]
  · intro i j; fin_cases i <;> fin_cases j <;> norm_num
  · intro v
    rw [lowerSym_of_symm (by ext i j; fin_cases i <;> fin_cases j <;> rfl)]
    simp only [dotProduct, mulVec, Fin.sum_univ_two]
    simp
    nlinarith [sq_nonneg (v 0), sq_nonneg (v 1)]

end Ellipy.Ell
