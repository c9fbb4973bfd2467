import Mathlib.Tactic.FinCases
import Verif.Proofs.Minksum

/-! Property theorems C43–C45 (external and internal approximations of a Minkowski sum). -/

namespace Ellipy.Ell
open Matrix Ellipy.LA

/-! ### C43 -/

/-- The terms of the external approximation for ellipsoids with a nonnegative matrix. -/
theorem eaTerms (E : Eigh) (G : Eig) (L : Lstsq) {n : ℕ} (hn : n ≠ 0) (v : Fin n → ℝ) (es : List (EllN n)) (hes : ∀ e ∈ es, e.PSD) :
    ∃ ts, pyMap (eaTerm E G L v) (es.map EllN.obj) = .ok ts ∧
      List.Forall₂ (fun e t => (t.1ᵀ = t.1 ∧ ∀ x : Fin n → ℝ, x ⬝ᵥ e.Q *ᵥ x ≤ x ⬝ᵥ t.1 *ᵥ x) ∧ t.2 = v ⬝ᵥ t.1 *ᵥ v ∧
        (e.NonDeg → t.1 = e.Q)) es ts := by
  induction es with
  | nil => exact ⟨[], rfl, .nil⟩
  | cons e es ih =>
    obtain ⟨ts, h1, h2⟩ := ih (fun x hx => hes x (by simp [hx]))
    obtain ⟨R, hR, hs, hge⟩ := regShape_psd E G hn (hes e (by simp))
    refine ⟨(R, v ⬝ᵥ R *ᵥ v) :: ts, ?_, .cons ⟨⟨hs, hge⟩, rfl, fun hd => ?_⟩ h2⟩
    · rw [List.map_cons]
      simp only [pyMap, eaTerm_of E G L hn v hR, h1]
    · rw [regShape_nonDeg E G hn hd] at hR
      injection hR with hR
      exact hR.symm

/-- What one direction gives: the call either fails because a quadratic form is not positive, or returns an ellipsoid with the sum of
the centres that contains the sum. -/
theorem eaDir_spec (E : Eigh) (G : Eig) (L : Lstsq) {p : PropVals} (hp : p.ok) {n : ℕ} (hn : n ≠ 0) (v : Fin n → ℝ) (es : List (EllN n))
    (hes : ∀ e ∈ es, e.PSD) :
    (Raises (eaDir E G L p (es.map EllN.obj) (es.map EllN.c).sum v) ∧ ¬ ∀ e ∈ es, 0 < v ⬝ᵥ e.Q *ᵥ v) ∨
    ∃ Q' : Matrix (Fin n) (Fin n) ℝ, eaDir E G L p (es.map EllN.obj) (es.map EllN.c).sum v =
        .ok ⟨n, (es.map EllN.c).sum, Q', p.absTol, p.relTol, p.n2d, p.n3d⟩ ∧
      IsPSD Q' ∧ minkSum (es.map EllN.set) ⊆ Ell (es.map EllN.c).sum Q' ∧
      ((∀ e ∈ es, e.NonDeg) → Real.sqrt (v ⬝ᵥ Q' *ᵥ v) = (es.map (fun e => Real.sqrt (v ⬝ᵥ e.Q *ᵥ v))).sum) := by
  obtain ⟨ts, h1, h2⟩ := eaTerms E G L hn v es hes
  unfold eaDir
  rw [h1]
  simp only
  by_cases hbad : ∃ t ∈ ts, ¬ 0 < t.2
  · rw [if_pos hbad]
    refine Or.inl ⟨⟨_, rfl⟩, fun hall => ?_⟩
    obtain ⟨t, ht, h0⟩ := hbad
    obtain ⟨e, he, ⟨-, h3⟩, h4, -⟩ := forall₂_right h2 t ht
    exact h0 (h4 ▸ lt_of_lt_of_le (hall e he) (h3 v))
  · rw [if_neg hbad]
    right
    push Not at hbad
    have hsym : ∀ t ∈ ts, t.1ᵀ = t.1 := fun t ht => by
      obtain ⟨e, -, h, -⟩ := forall₂_right h2 t ht
      exact h.1
    have hF : List.Forall₂ (fun e t => (∀ x : Fin n → ℝ, x ⬝ᵥ e.Q *ᵥ x ≤ x ⬝ᵥ t.1 *ᵥ x) ∧ 0 < t.2) es ts := by
      clear h1 hsym hes
      induction h2 with
      | nil => exact .nil
      | cons h _ ih => exact .cons ⟨h.1.2, hbad _ (by simp)⟩ (ih (fun t ht => hbad t (by simp [ht])))
    set s := (ts.map (fun t => Real.sqrt t.2)).sum with hs
    set S := (ts.map (fun t => (1 / Real.sqrt t.2) • t.1)).sum with hS
    have hq : ∀ e ∈ es, IsPSD e.Q := fun e he => (hes e he).2
    have hs0 : 0 ≤ s := list_sum_pos ts _ (fun t _ => Real.sqrt_nonneg _)
    have hcent : List.Forall₂ (fun y X => y ∈ X) (es.map EllN.c) (es.map EllN.set) := by
      rw [List.forall₂_map_left_iff, List.forall₂_map_right_iff, List.forall₂_same]
      exact fun e he => center_mem (hq e he)
    have hpsd : IsPSD (s • S) := by
      refine ⟨by rw [transpose_smul, (ea_quad v ts s S hS hsym).2.1], fun m => ?_⟩
      rw [(ea_quad m ts s S hS hsym).2.2]
      exact mul_nonneg hs0 (ea_inequality m es ts _ hq hF hcent).2
    refine ⟨s • S, ?_, hpsd, ?_, ?_⟩
    · rw [(ea_quad v ts s S hS hsym).1]
      exact ellMake_psd E _ hp hpsd
    · rintro x ⟨xs, hxs, rfl⟩
      rw [mem_ell_support hpsd]
      intro m
      rw [dotProduct_sub, (ea_quad m ts s S hS hsym).2.2]
      exact (ea_inequality m es ts xs hq hF hxs).1
    · intro hnd
      have e1 : ts.map (fun t => 1 / Real.sqrt t.2 * (v ⬝ᵥ t.1 *ᵥ v)) = ts.map (fun t => Real.sqrt t.2) ∧
          ts.map (fun t => Real.sqrt t.2) = es.map (fun e => Real.sqrt (v ⬝ᵥ e.Q *ᵥ v)) := by
        clear h1 hsym hes hF hs hS hpsd hcent hq hs0
        clear s S
        induction h2 with
        | nil => exact ⟨rfl, rfl⟩
        | @cons e t _ _ h _ ih =>
          obtain ⟨i1, i2⟩ := ih (fun t ht => hbad t (by simp [ht])) (fun t ht => hnd t (by simp [ht]))
          have h0 := hbad t (by simp)
          have h3 := Real.sqrt_pos.mpr h0
          simp only [List.map_cons]
          have h4 := h.2.2 (hnd e (by simp))
          rw [i1, i2, ← h.2.1, ← h4, ← h.2.1]
          refine ⟨?_, rfl⟩
          congr 1
          rw [one_div, inv_mul_eq_div, Real.div_sqrt]
      rw [(ea_quad v ts s S hS hsym).2.2, e1.1, ← hs, Real.sqrt_mul_self hs0, hs, e1.2]

theorem minkCheck_ok {n : ℕ} (hn : n ≠ 0) (es : List (EllN n)) (h2 : es ≠ []) : minkCheck (es.map EllN.obj) n = .ok () := by
  unfold minkCheck
  rw [if_neg (by simpa using h2), if_neg, if_neg]
  · rw [not_not]; intro e he
    obtain ⟨x, -, rfl⟩ := List.mem_map.mp he; rfl
  · rintro ⟨e, he, h0⟩
    obtain ⟨x, -, rfl⟩ := List.mem_map.mp he
    exact hn h0

theorem minksumEa_many (E : Eigh) (G : Eig) (L : Lstsq) (p : PropVals) {n k : ℕ} (hn : n ≠ 0) (es : List (EllN n)) (h2 : 2 ≤ es.length)
    (M : Matrix (Fin n) (Fin k) ℝ) : minksumEa E G L p (es.map EllN.obj) M =
      match pyMap (fun j => eaDir E G L p (es.map EllN.obj) (es.map EllN.c).sum (fun i => M i j)) (List.finRange k) with
      | .error x => .error x
      | .ok rs => .ok (Arr.vec rs) := by
  unfold minksumEa
  rw [minkCheck_ok hn es (by rintro rfl; simp at h2), centSum_self]
  match es, h2 with
  | _ :: _ :: _, _ => rfl

/-- **C43**: for at least two non-degenerate ellipsoids and non-zero directions there is one result for each direction; it has the sum
of the centres as centre and the current settings as properties, contains the Minkowski sum, and has the same support value in the
direction. -/
theorem C43 (E : Eigh) (G : Eig) (L : Lstsq) (p : PropVals) (hp : p.ok) {n k : ℕ} (hn : n ≠ 0) (es : List (EllN n)) (h2 : 2 ≤ es.length)
    (hes : ∀ e ∈ es, e.NonDeg) (M : Matrix (Fin n) (Fin k) ℝ) (hM : ∀ j, (fun i => M i j) ≠ 0) :
    ∃ Qs : Fin k → Matrix (Fin n) (Fin n) ℝ,
      minksumEa E G L p (es.map EllN.obj) M =
        .ok (Arr.vec (List.ofFn fun j => ⟨n, (es.map EllN.c).sum, Qs j, p.absTol, p.relTol, p.n2d, p.n3d⟩)) ∧
      ∀ j, IsPSD (Qs j) ∧ minkSum (es.map EllN.set) ⊆ Ell (es.map EllN.c).sum (Qs j) ∧
        ∃ r, IsSupport (minkSum (es.map EllN.set)) (fun i => M i j) r ∧
          IsSupport (Ell (es.map EllN.c).sum (Qs j)) (fun i => M i j) r := by
  have hpsd : ∀ e ∈ es, e.PSD := fun e he => (hes e he).psd
  have key : ∀ j : Fin k, ∃ Q' : Matrix (Fin n) (Fin n) ℝ, eaDir E G L p (es.map EllN.obj) (es.map EllN.c).sum (fun i => M i j) =
        .ok ⟨n, (es.map EllN.c).sum, Q', p.absTol, p.relTol, p.n2d, p.n3d⟩ ∧
      IsPSD Q' ∧ minkSum (es.map EllN.set) ⊆ Ell (es.map EllN.c).sum Q' ∧
      ((∀ e ∈ es, e.NonDeg) → Real.sqrt ((fun i => M i j) ⬝ᵥ Q' *ᵥ (fun i => M i j)) =
        (es.map (fun e => Real.sqrt ((fun i => M i j) ⬝ᵥ e.Q *ᵥ (fun i => M i j)))).sum) := by
    intro j
    rcases eaDir_spec E G L hp hn (fun i => M i j) es hpsd with ⟨-, hbad⟩ | h
    · exact absurd (fun e he => (hes e he).pos (hM j)) hbad
    · exact h
  choose Qs h1 h2' h3 h4 using key
  refine ⟨Qs, ?_, fun j => ⟨h2' j, h3 j, _, minkSum_support _ es (fun e he => (hpsd e he).2), ?_⟩⟩
  · rw [minksumEa_many E G L p hn es h2 M, pyMap_ok (fun j _ => h1 j), List.ofFn_eq_map]
  · rw [← h4 j hes]
    exact ell_support (h2' j) _

/-- **C43** for flat ellipsoids (which are regularised): whatever is returned contains the Minkowski sum and has the sum of the centres
as centre. -/
theorem C43_flat (E : Eigh) (G : Eig) (L : Lstsq) (p : PropVals) (hp : p.ok) {n k : ℕ} (hn : n ≠ 0) (es : List (EllN n))
    (h2 : 2 ≤ es.length) (hes : ∀ e ∈ es, e.PSD) (M : Matrix (Fin n) (Fin k) ℝ) (r : Arr EllObj)
    (hr : minksumEa E G L p (es.map EllN.obj) M = .ok r) :
    r.shape = [k] ∧ ∀ e ∈ r.data, ∃ Q' : Matrix (Fin n) (Fin n) ℝ, e = ⟨n, (es.map EllN.c).sum, Q', p.absTol, p.relTol, p.n2d, p.n3d⟩ ∧
      IsPSD Q' ∧ minkSum (es.map EllN.set) ⊆ Ell (es.map EllN.c).sum Q' := by
  rw [minksumEa_many E G L p hn es h2 M] at hr
  cases hm : pyMap (fun j => eaDir E G L p (es.map EllN.obj) (es.map EllN.c).sum (fun i => M i j)) (List.finRange k) with
  | error x => rw [hm] at hr; cases hr
  | ok rs =>
    rw [hm] at hr
    injection hr with hr
    subst hr
    have hF := (pyMap_ok_iff _ _ _).mp hm
    refine ⟨by show [rs.length] = [k]; rw [← hF.length_eq, List.length_finRange], fun e he => ?_⟩
    obtain ⟨j, -, hj⟩ := forall₂_right hF e he
    rcases eaDir_spec E G L hp hn (fun i => M i j) es hes with ⟨⟨x, hx⟩, -⟩ | ⟨Q', h1, h2, h3, -⟩
    · rw [hj] at hx; cases hx
    · rw [hj] at h1
      injection h1 with h1
      exact ⟨Q', h1, h2, h3⟩

theorem copyVal_ok (E : Eigh) {n : ℕ} {e : EllN n} (he : e.PSD) : copyVal E e.obj = .ok e.obj := ellMake_psd E e.c he.1 he.2

theorem minkCopies_ok (E : Eigh) {n : ℕ} {e : EllN n} (he : e.PSD) (k : ℕ) :
    ∃ r, minkCopies E e.obj k = .ok r ∧ r.data = List.replicate k e.obj ∧ r.shape = if k = 1 then [] else [k] := by
  unfold minkCopies
  rw [pyMap_ok (g := fun _ => e.obj) (fun _ _ => copyVal_ok E he), List.map_replicate]
  simp only [reshape]
  rw [dif_pos (by by_cases h : k = 1 <;> simp [h])]
  exact ⟨_, rfl, rfl, rfl⟩

/-- **C43**, **C44**: for a single ellipsoid both methods return copies of it. -/
theorem C43_one (E : Eigh) (G : Eig) (L : Lstsq) (p : PropVals) {n k : ℕ} (hn : n ≠ 0) (e : EllN n) (he : e.PSD)
    (M : Matrix (Fin n) (Fin k) ℝ) :
    (∃ r, minksumEa E G L p [e.obj] M = .ok r ∧ r.data = List.replicate k e.obj) ∧
    ∃ r, minksumIa E G p [e.obj] M = .ok r ∧ r.data = List.replicate k e.obj := by
  have h1 := minkCheck_ok hn [e] (by simp)
  rw [List.map_cons, List.map_nil] at h1
  obtain ⟨r, hr, hd, -⟩ := minkCopies_ok E he k
  constructor
  · unfold minksumEa; rw [h1]; exact ⟨r, hr, hd⟩
  · unfold minksumIa; rw [h1]; exact ⟨r, hr, hd⟩

theorem minkCheck_raises (l : List EllObj) (n : ℕ) : Raises (minkCheck l n) ↔ l = [] ∨ (∃ e ∈ l, e.n = 0) ∨ ∃ e ∈ l, e.n ≠ n := by
  unfold minkCheck
  by_cases h1 : l = []
  · rw [if_pos h1]; exact iff_of_true ⟨_, rfl⟩ (Or.inl h1)
  rw [if_neg h1]
  by_cases h2 : anyEmpty l
  · rw [if_pos h2]; exact iff_of_true ⟨_, rfl⟩ (Or.inr (Or.inl h2))
  rw [if_neg h2]
  by_cases h3 : ∀ e ∈ l, e.n = n
  · rw [if_neg (not_not.mpr h3)]
    refine iff_of_false (by rintro ⟨e, he⟩; cases he) ?_
    rintro (h | h | ⟨e, he, h⟩)
    · exact h1 h
    · exact h2 h
    · exact h (h3 e he)
  · rw [if_pos h3]
    push Not at h3
    exact iff_of_true ⟨_, rfl⟩ (Or.inr (Or.inr h3))

theorem quad_zero {n : ℕ} (Q : Matrix (Fin n) (Fin n) ℝ) : (0 : Fin n → ℝ) ⬝ᵥ Q *ᵥ 0 = 0 := by rw [zero_dotProduct]

/-- **C43**: what `minksum_ea` rejects, for non-degenerate ellipsoids. -/
theorem C43_raises_iff (E : Eigh) (G : Eig) (L : Lstsq) (p : PropVals) (hp : p.ok) {n k : ℕ} (l : List EllObj)
    (hl : ∀ e ∈ l, ∃ x : EllN e.n, x.obj = e ∧ x.NonDeg) (M : Matrix (Fin n) (Fin k) ℝ) :
    Raises (minksumEa E G L p l M) ↔ l = [] ∨ (∃ e ∈ l, e.n = 0) ∨ (∃ e ∈ l, e.n ≠ n) ∨ (2 ≤ l.length ∧ ∃ j, ∀ i, M i j = 0) := by
  by_cases hc : Raises (minkCheck l n)
  · refine iff_of_true ?_ ?_
    · obtain ⟨x, hx⟩ := hc
      unfold minksumEa; rw [hx]; exact ⟨x, rfl⟩
    · rcases (minkCheck_raises l n).mp hc with h | h | h
      · exact Or.inl h
      · exact Or.inr (Or.inl h)
      · exact Or.inr (Or.inr (Or.inl h))
  rw [minkCheck_raises] at hc
  push Not at hc
  obtain ⟨h1, h2, h3⟩ := hc
  have hn : n ≠ 0 := by
    obtain ⟨e, he⟩ := List.exists_mem_of_ne_nil l h1
    rw [← h3 e he]; exact h2 e he
  obtain ⟨es, rfl⟩ := exists_ellN l h3
  have hes : ∀ e ∈ es, e.NonDeg := by
    intro e he
    obtain ⟨x, hx, hnd⟩ := hl e.obj (List.mem_map_of_mem he)
    have : x = e := EllN.obj_inj hx
    exact this ▸ hnd
  have hrest : (es.map EllN.obj = [] ∨ (∃ e ∈ es.map EllN.obj, e.n = 0) ∨ (∃ e ∈ es.map EllN.obj, e.n ≠ n) ∨
      (2 ≤ (es.map EllN.obj).length ∧ ∃ j, ∀ i, M i j = 0)) ↔ (2 ≤ es.length ∧ ∃ j, ∀ i, M i j = 0) := by
    rw [List.length_map]
    constructor
    · rintro (h | ⟨e, he, h⟩ | ⟨e, he, h⟩ | h)
      · exact absurd h h1
      · exact absurd h (h2 e he)
      · exact absurd (h3 e he) h
      · exact h
    · exact fun h => Or.inr (Or.inr (Or.inr h))
  rw [hrest]
  match es, h1, hes with
  | [e], _, hes =>
    obtain ⟨⟨r, hr, -⟩, -⟩ := C43_one E G L p hn e (hes e (by simp)).psd M
    refine iff_of_false ?_ (by rintro ⟨h, -⟩; simp at h)
    rintro ⟨x, hx⟩
    rw [List.map_cons, List.map_nil, hr] at hx; cases hx
  | e1 :: e2 :: es, _, hes =>
    have hlen : 2 ≤ (e1 :: e2 :: es).length := by simp
    generalize hg : e1 :: e2 :: es = fs at *
    constructor
    · rintro ⟨x, hx⟩
      refine ⟨hlen, ?_⟩
      by_contra hz
      push Not at hz
      obtain ⟨Qs, h, -⟩ := C43 E G L p hp hn fs hlen hes M (fun j h0 => by
        obtain ⟨i, hi⟩ := hz j
        exact hi (congrFun h0 i))
      rw [h] at hx; cases hx
    · rintro ⟨-, j, hj⟩
      rw [minksumEa_many E G L p hn fs hlen M]
      have hraise : Raises (pyMap (fun j => eaDir E G L p (fs.map EllN.obj) (fs.map EllN.c).sum (fun i => M i j)) (List.finRange k)) := by
        rw [pyMap_raises]
        refine ⟨j, List.mem_finRange j, ?_⟩
        have h0 : (fun i => M i j) = 0 := funext hj
        rw [h0]
        have hpsd : ∀ e ∈ fs, e.PSD := fun e he => (hes e he).psd
        obtain ⟨ts, t1, t2⟩ := eaTerms E G L hn 0 fs hpsd
        unfold eaDir
        rw [t1]
        simp only
        rw [if_pos]
        · exact ⟨_, rfl⟩
        · subst hg
          cases t2 with
          | @cons _ t _ _ h _ => exact ⟨t, by simp, by rw [h.2.1, quad_zero]; exact lt_irrefl _⟩
      obtain ⟨x, hx⟩ := hraise
      rw [hx]; exact ⟨x, rfl⟩

/-! ### C44 -/

theorem minTol_pos {n : ℕ} (es : List (EllN n)) (hne : es ≠ []) (h : ∀ e ∈ es, e.NonDeg) :
    0 < minTol ((es.map EllN.obj).map EllObj.absTol) := by
  have h1 := (minTol_isLeast (l := (es.map EllN.obj).map EllObj.absTol) (by simpa using hne)).1
  obtain ⟨o, ho, h2⟩ := List.mem_map.mp h1
  obtain ⟨e, he, rfl⟩ := List.mem_map.mp ho
  rw [← h2]
  exact (h e he).1.1

theorem iaTerms_ok (E : Eigh) (G : Eig) {n k : ℕ} (hn : n ≠ 0) (es : List (EllN n)) (hes : ∀ e ∈ es, e.NonDeg)
    (M src : Matrix (Fin n) (Fin k) ℝ) (hM : ∀ j, (fun i => M i j) ≠ 0) (hsrc : ∀ j, (fun i => src i j) ≠ 0) :
    ∃ ts, pyMap (iaTerm E G M src) (es.map EllN.obj) = .ok ts ∧ List.Forall₂ (IaSpec M src) es ts := by
  induction es with
  | nil => exact ⟨[], rfl, .nil⟩
  | cons e es ih =>
    obtain ⟨ts, h1, h2⟩ := ih (fun x hx => hes x (by simp [hx]))
    obtain ⟨S, hS, hSS⟩ := exists_root (hes e (by simp)).psd.2
    have key : ∀ j, ∃ O, orthTransl (S *ᵥ fun i => M i j) (fun i => src i j) = .ok O := by
      intro j
      cases ho : orthTransl (S *ᵥ fun i => M i j) (fun i => src i j) with
      | ok O => exact ⟨O, rfl⟩
      | error x =>
        rcases (C24_raises_iff _ _).mp ⟨x, ho⟩ with h | h
        · exact absurd h (root_ne_zero (hes e (by simp)) hS hSS (hM j))
        · exact absurd h (hsrc j)
    choose O hO using key
    have hspec : IaSpec M src e (S, O) := ⟨hS, hSS, hO⟩
    refine ⟨(S, O) :: ts, ?_, .cons hspec h2⟩
    rw [List.map_cons]
    simp only [pyMap, (iaTerm_iff E G hn M src (hes e (by simp)) _).mpr hspec, h1]

theorem minksumIa_many (E : Eigh) (G : Eig) (p : PropVals) {n k : ℕ} (hn : n ≠ 0) (e e' : EllN n) (es : List (EllN n))
    (hes : ∀ x ∈ e :: e' :: es, x.NonDeg) (M : Matrix (Fin n) (Fin k) ℝ) :
    ∃ S0, IsPSD S0 ∧ S0 * S0 = e.Q ∧ minksumIa E G p ((e :: e' :: es).map EllN.obj) M =
      match pyMap (iaTerm E G M (S0 * M)) ((e :: e' :: es).map EllN.obj) with
      | .error x => .error x
      | .ok ts =>
        match pyMap (iaDir E p ((e :: e' :: es).map EllN.c).sum ts) (List.finRange k) with
        | .error x => .error x
        | .ok rs => .ok (Arr.vec rs) := by
  obtain ⟨S0, hS0, h1, h2, -⟩ := C21_root E e.Q _ (minTol_pos (e :: e' :: es) (by simp) hes).le (hes e (by simp)).psd.2
  refine ⟨S0, h1, h2, ?_⟩
  unfold minksumIa
  rw [minkCheck_ok hn _ (by simp), centSum_self]
  rw [← shapeAs_self e] at hS0
  simp only [List.map_cons] at hS0 ⊢
  simp only [hS0]
  rfl

/-- The result of `minksum_ia` for non-degenerate ellipsoids. -/
theorem minksumIa_form (E : Eigh) (G : Eig) (p : PropVals) (hp : p.ok) {n k : ℕ} (hn : n ≠ 0) (e e' : EllN n) (es : List (EllN n))
    (hes : ∀ x ∈ e :: e' :: es, x.NonDeg) (M : Matrix (Fin n) (Fin k) ℝ) (hM : ∀ j, (fun i => M i j) ≠ 0) :
    ∃ S0 ts, IsPSD S0 ∧ S0 * S0 = e.Q ∧ List.Forall₂ (IaSpec M (S0 * M)) (e :: e' :: es) ts ∧
      minksumIa E G p ((e :: e' :: es).map EllN.obj) M = .ok (Arr.vec (List.ofFn fun j =>
        ⟨n, ((e :: e' :: es).map EllN.c).sum, ((ts.map (fun t => t.2 j * t.1)).sum)ᵀ * (ts.map (fun t => t.2 j * t.1)).sum,
          p.absTol, p.relTol, p.n2d, p.n3d⟩)) := by
  obtain ⟨S0, h1, h2, heq⟩ := minksumIa_many E G p hn e e' es hes M
  obtain ⟨ts, h3, h4⟩ := iaTerms_ok E G hn (e :: e' :: es) hes M (S0 * M) hM
    (fun j => by rw [col_mul]; exact root_ne_zero (hes e (by simp)) h1 h2 (hM j))
  refine ⟨S0, ts, h1, h2, h4, ?_⟩
  rw [heq, h3]
  simp only
  have hd : ∀ j ∈ List.finRange k, iaDir E p ((e :: e' :: es).map EllN.c).sum ts j =
      .ok ⟨n, ((e :: e' :: es).map EllN.c).sum, ((ts.map (fun t => t.2 j * t.1)).sum)ᵀ * (ts.map (fun t => t.2 j * t.1)).sum,
          p.absTol, p.relTol, p.n2d, p.n3d⟩ := by
    intro j _
    unfold iaDir
    refine ellMake_psd E _ hp ?_
    have := psd_factor ((ts.map (fun t => t.2 j * t.1)).sum)ᵀ
    rwa [transpose_transpose] at this
  rw [pyMap_ok hd, List.ofFn_eq_map]

/-- **C44**: for at least two non-degenerate ellipsoids and non-zero directions there is one result for each direction; it has the sum
of the centres as centre and lies inside the Minkowski sum.  In the direction it reaches as far as the Minkowski sum up to the relative
error `10⁻¹⁴` (`C44_touch_partial` tells when it touches). -/
theorem C44 (E : Eigh) (G : Eig) (p : PropVals) (hp : p.ok) {n k : ℕ} (hn : n ≠ 0) (es : List (EllN n)) (h2 : 2 ≤ es.length)
    (hes : ∀ e ∈ es, e.NonDeg) (M : Matrix (Fin n) (Fin k) ℝ) (hM : ∀ j, (fun i => M i j) ≠ 0) :
    ∃ Qs : Fin k → Matrix (Fin n) (Fin n) ℝ,
      minksumIa E G p (es.map EllN.obj) M =
        .ok (Arr.vec (List.ofFn fun j => ⟨n, (es.map EllN.c).sum, Qs j, p.absTol, p.relTol, p.n2d, p.n3d⟩)) ∧
      ∀ j, IsPSD (Qs j) ∧ Ell (es.map EllN.c).sum (Qs j) ⊆ minkSum (es.map EllN.set) ∧
        ∃ r w w', IsSupport (minkSum (es.map EllN.set)) (fun i => M i j) (r + w) ∧
          IsSupport (Ell (es.map EllN.c).sum (Qs j)) (fun i => M i j) (r + w') ∧ r = (fun i => M i j) ⬝ᵥ (es.map EllN.c).sum ∧
          (1 - 1 / 10 ^ 14) * w ≤ w' ∧ w' ≤ w := by
  obtain ⟨e, e', es, rfl⟩ : ∃ e e' es', es = e :: e' :: es' := by
    match es, h2 with
    | e :: e' :: es', _ => exact ⟨e, e', es', rfl⟩
  obtain ⟨S0, ts, h1, h2, h3, h4⟩ := minksumIa_form E G p hp hn e e' es hes M hM
  refine ⟨_, h4, fun j => ?_⟩
  set T := (ts.map (fun t => t.2 j * t.1)).sum with hT
  have hpsd : IsPSD (Tᵀ * T) := by
    have := psd_factor Tᵀ
    rwa [transpose_transpose] at this
  have hin : Ell ((e :: e' :: es).map EllN.c).sum (Tᵀ * T) ⊆ minkSum ((e :: e' :: es).map EllN.set) := by
    intro x hx
    obtain ⟨u, hu, rfl⟩ := (mem_ell_factor (M := Tᵀ) (by rw [transpose_transpose]) x).mp hx
    exact ia_inside M _ _ ts h3 j u hu
  have s1 := minkSum_support (fun i => M i j) (e :: e' :: es) (fun x hx => (hes x hx).psd.2)
  have s2 := ell_support (c := ((e :: e' :: es).map EllN.c).sum) hpsd (fun i => M i j)
  refine ⟨hpsd, hin, _, _, _, s1, s2, rfl, ?_, ?_⟩
  · refine le_trans (ia_towards M _ _ ts h3 j) ?_
    have hne : (fun i => (S0 * M) i j) ≠ 0 := by
      rw [col_mul]; exact root_ne_zero (hes e (by simp)) h1 h2 (hM j)
    have hq : (fun i => M i j) ⬝ᵥ (Tᵀ * T) *ᵥ (fun i => M i j) = (T *ᵥ fun i => M i j) ⬝ᵥ (T *ᵥ fun i => M i j) := by
      rw [← mulVec_mulVec, dotProduct_mulVec, vecMul_transpose]
    rw [hq]
    apply Real.le_sqrt_of_sq_le
    have := dot_sq_le_mul (dir (fun i => (S0 * M) i j)) (T *ᵥ fun i => M i j)
    rwa [dir_dot hne, one_mul] at this
  · obtain ⟨⟨x, hx, hxe⟩, -⟩ := s2
    have := s1.2 ⟨x, hin hx, hxe⟩
    linarith

/-- **C44** (touching): when the images of the direction under the roots of the shape matrices are not nearly parallel without being
parallel, the support values in the direction agree.  Missing: the directions where some image is at an angle with
`0 < sin ≤ 10⁻⁷` to the image under the root of the first matrix, see `C44_touch_violated`. -/
theorem C44_touch_partial (E : Eigh) (G : Eig) (p : PropVals) (hp : p.ok) {n k : ℕ} (hn : n ≠ 0) (e : EllN n) (es : List (EllN n))
    (h2 : es ≠ []) (hes : ∀ x ∈ e :: es, x.NonDeg) (M : Matrix (Fin n) (Fin k) ℝ) (hM : ∀ j, (fun i => M i j) ≠ 0)
    (hap : ∀ x ∈ es, ∀ S S0, IsPSD S → S * S = x.Q → IsPSD S0 → S0 * S0 = e.Q → ∀ j,
      Apart (S *ᵥ fun i => M i j) (S0 *ᵥ fun i => M i j)) :
    ∃ Qs : Fin k → Matrix (Fin n) (Fin n) ℝ,
      minksumIa E G p ((e :: es).map EllN.obj) M =
        .ok (Arr.vec (List.ofFn fun j => ⟨n, ((e :: es).map EllN.c).sum, Qs j, p.absTol, p.relTol, p.n2d, p.n3d⟩)) ∧
      ∀ j, ∃ r, IsSupport (minkSum ((e :: es).map EllN.set)) (fun i => M i j) r ∧
          IsSupport (Ell ((e :: es).map EllN.c).sum (Qs j)) (fun i => M i j) r := by
  obtain ⟨e', es, rfl⟩ := List.exists_cons_of_ne_nil h2
  obtain ⟨S0, ts, h1, h2, h3, h4⟩ := minksumIa_form E G p hp hn e e' es hes M hM
  refine ⟨_, h4, fun j => ?_⟩
  have hne : S0 *ᵥ (fun i => M i j) ≠ 0 := root_ne_zero (hes e (by simp)) h1 h2 (hM j)
  have hex := ia_exact M (S0 * M) _ ts h3 j (fun x hx S hS hSS => by
    rw [col_mul]
    rcases List.mem_cons.mp hx with rfl | hx
    · obtain rfl := psd_root_unique hS h1 (hSS.trans h2.symm)
      left
      rw [sinSq, dir_dot hne]; norm_num
    · exact hap x hx S S0 hS hSS h1 h2 j)
  set T := (ts.map (fun t => t.2 j * t.1)).sum with hT
  have hpsd : IsPSD (Tᵀ * T) := by
    have := psd_factor Tᵀ
    rwa [transpose_transpose] at this
  refine ⟨_, minkSum_support (fun i => M i j) (e :: e' :: es) (fun x hx => (hes x hx).psd.2), ?_⟩
  have s2 := ell_support (c := ((e :: e' :: es).map EllN.c).sum) hpsd (fun i => M i j)
  have hq : (fun i => M i j) ⬝ᵥ (Tᵀ * T) *ᵥ (fun i => M i j) = (T *ᵥ fun i => M i j) ⬝ᵥ (T *ᵥ fun i => M i j) := by
    rw [← mulVec_mulVec, dotProduct_mulVec, vecMul_transpose]
  rw [hq, hex, smul_dotProduct, dotProduct_smul, smul_eq_mul, smul_eq_mul, col_mul, dir_dot hne, mul_one, Real.sqrt_mul_self] at s2
  · exact s2
  · exact list_sum_pos _ _ (fun _ _ => Real.sqrt_nonneg _)

/-- **C44**: what `minksum_ia` rejects, for non-degenerate ellipsoids. -/
theorem C44_raises_iff (E : Eigh) (G : Eig) (p : PropVals) (hp : p.ok) {n k : ℕ} (l : List EllObj)
    (hl : ∀ e ∈ l, ∃ x : EllN e.n, x.obj = e ∧ x.NonDeg) (M : Matrix (Fin n) (Fin k) ℝ) :
    Raises (minksumIa E G p l M) ↔ l = [] ∨ (∃ e ∈ l, e.n = 0) ∨ (∃ e ∈ l, e.n ≠ n) ∨ (2 ≤ l.length ∧ ∃ j, ∀ i, M i j = 0) := by
  by_cases hc : Raises (minkCheck l n)
  · refine iff_of_true ?_ ?_
    · obtain ⟨x, hx⟩ := hc
      unfold minksumIa; rw [hx]; exact ⟨x, rfl⟩
    · rcases (minkCheck_raises l n).mp hc with h | h | h
      · exact Or.inl h
      · exact Or.inr (Or.inl h)
      · exact Or.inr (Or.inr (Or.inl h))
  rw [minkCheck_raises] at hc
  push Not at hc
  obtain ⟨h1, h2, h3⟩ := hc
  have hn : n ≠ 0 := by
    obtain ⟨e, he⟩ := List.exists_mem_of_ne_nil l h1
    rw [← h3 e he]; exact h2 e he
  obtain ⟨es, rfl⟩ := exists_ellN l h3
  have hes : ∀ e ∈ es, e.NonDeg := by
    intro e he
    obtain ⟨x, hx, hnd⟩ := hl e.obj (List.mem_map_of_mem he)
    have : x = e := EllN.obj_inj hx
    exact this ▸ hnd
  have hrest : (es.map EllN.obj = [] ∨ (∃ e ∈ es.map EllN.obj, e.n = 0) ∨ (∃ e ∈ es.map EllN.obj, e.n ≠ n) ∨
      (2 ≤ (es.map EllN.obj).length ∧ ∃ j, ∀ i, M i j = 0)) ↔ (2 ≤ es.length ∧ ∃ j, ∀ i, M i j = 0) := by
    rw [List.length_map]
    constructor
    · rintro (h | ⟨e, he, h⟩ | ⟨e, he, h⟩ | h)
      · exact absurd h h1
      · exact absurd h (h2 e he)
      · exact absurd (h3 e he) h
      · exact h
    · exact fun h => Or.inr (Or.inr (Or.inr h))
  rw [hrest]
  match es, h1, hes with
  | [e], _, hes =>
    obtain ⟨L⟩ := nonempty_lstsq
    obtain ⟨-, r, hr, -⟩ := C43_one E G L p hn e (hes e (by simp)).psd M
    refine iff_of_false ?_ (by rintro ⟨h, -⟩; simp at h)
    rintro ⟨x, hx⟩
    rw [List.map_cons, List.map_nil, hr] at hx; cases hx
  | e1 :: e2 :: es, _, hes =>
    constructor
    · rintro ⟨x, hx⟩
      refine ⟨by simp, ?_⟩
      by_contra hz
      push Not at hz
      obtain ⟨Qs, h, -⟩ := C44 E G p hp hn (e1 :: e2 :: es) (by simp) hes M (fun j h0 => by
        obtain ⟨i, hi⟩ := hz j
        exact hi (congrFun h0 i))
      rw [h] at hx; cases hx
    · rintro ⟨-, j, hj⟩
      obtain ⟨S0, s1, s2, heq⟩ := minksumIa_many E G p hn e1 e2 es hes M
      rw [heq]
      have hraise : Raises (pyMap (iaTerm E G M (S0 * M)) ((e1 :: e2 :: es).map EllN.obj)) := by
        rw [pyMap_raises]
        refine ⟨e1.obj, by simp, ?_⟩
        cases ht : iaTerm E G M (S0 * M) e1.obj with
        | error x => exact ⟨x, rfl⟩
        | ok t =>
          have hs := (iaTerm_iff E G hn M (S0 * M) (hes e1 (by simp)) t).mp ht
          have h0 : (fun i => M i j) = 0 := funext hj
          have := (orthTransl_branches (hs.2.2 j)).1
          rw [h0, mulVec_zero] at this
          exact absurd rfl this
      obtain ⟨x, hx⟩ := hraise
      rw [hx]; exact ⟨x, rfl⟩

/-! ### C45 -/

/-- **C45**: every internal approximation lies inside every external approximation, and both have the sum of the centres as centre;
the directions of the two need not agree. -/
theorem C45 (E : Eigh) (G : Eig) (L : Lstsq) (p : PropVals) (hp : p.ok) {n k k' : ℕ} (hn : n ≠ 0) (es : List (EllN n))
    (hes : ∀ e ∈ es, e.NonDeg) (M : Matrix (Fin n) (Fin k) ℝ) (M' : Matrix (Fin n) (Fin k') ℝ) (ri re : Arr EllObj)
    (hi : minksumIa E G p (es.map EllN.obj) M = .ok ri) (he : minksumEa E G L p (es.map EllN.obj) M' = .ok re) :
    ∀ x ∈ ri.data, ∀ y ∈ re.data, ∃ x' y' : EllN n, x = x'.obj ∧ y = y'.obj ∧ x'.c = (es.map EllN.c).sum ∧ y'.c = (es.map EllN.c).sum ∧
      x'.set ⊆ y'.set := by
  intro x hx y hy
  have hwrap : ∀ l : List EllObj, l = es.map EllN.obj → ∀ e ∈ l, ∃ x : EllN e.n, x.obj = e ∧ x.NonDeg := by
    rintro _ rfl e he
    obtain ⟨x, hx, rfl⟩ := List.mem_map.mp he
    exact ⟨x, rfl, hes x hx⟩
  have hni : ¬ Raises (minksumIa E G p (es.map EllN.obj) M) := by rintro ⟨e, h⟩; rw [hi] at h; cases h
  have hne : ¬ Raises (minksumEa E G L p (es.map EllN.obj) M') := by rintro ⟨e, h⟩; rw [he] at h; cases h
  rw [C44_raises_iff E G p hp _ (hwrap _ rfl)] at hni
  rw [C43_raises_iff E G L p hp _ (hwrap _ rfl)] at hne
  push Not at hni hne
  match es, hes, hi, he, hni, hne with
  | [], _, _, _, hni, _ => exact absurd rfl hni.1
  | [e], hes, hi, he, _, _ =>
    obtain ⟨⟨r, hr, hrd⟩, r', hr', hrd'⟩ := And.intro (C43_one E G L p hn e (hes e (by simp)).psd M').1
      (C43_one E G L p hn e (hes e (by simp)).psd M).2
    rw [List.map_cons, List.map_nil] at hi he
    rw [hr] at he; rw [hr'] at hi
    injection he with he; injection hi with hi
    subst he; subst hi
    rw [hrd'] at hx; rw [hrd] at hy
    refine ⟨e, e, List.eq_of_mem_replicate hx, List.eq_of_mem_replicate hy, by simp, by simp, subset_rfl⟩
  | e1 :: e2 :: es, hes, hi, he, hni, hne =>
    have h2 : 2 ≤ (e1 :: e2 :: es).length := by simp
    have hz : ∀ {m : ℕ} (N : Matrix (Fin n) (Fin m) ℝ), (∀ j, ∃ i, N i j ≠ 0) → ∀ j, (fun i => N i j) ≠ 0 := by
      intro m N h j h0
      obtain ⟨i, hi⟩ := h j
      exact hi (congrFun h0 i)
    obtain ⟨Qi, hqi, hspi⟩ := C44 E G p hp hn _ h2 hes M (hz M (hni.2.2.2 (by simp)))
    obtain ⟨Qe, hqe, hspe⟩ := C43 E G L p hp hn _ h2 hes M' (hz M' (hne.2.2.2 (by simp)))
    rw [hqi] at hi; rw [hqe] at he
    injection he with he; injection hi with hi
    subst he; subst hi
    obtain ⟨j, rfl⟩ := List.mem_ofFn.mp hx
    obtain ⟨j', rfl⟩ := List.mem_ofFn.mp hy
    exact ⟨⟨_, Qi j, p⟩, ⟨_, Qe j', p⟩, rfl, rfl, rfl, rfl, (hspi j).2.1.trans (hspe j').2.1⟩

/-! ### Examples -/

/-- A symmetric matrix with the eigenvalues `a ± b`. -/
theorem psd_two {a b : ℝ} (h : |b| ≤ a) : IsPSD !![a, b; b, a] := by
  refine ⟨by ext i j; fin_cases i <;> fin_cases j <;> rfl, fun x => ?_⟩
  simp only [dotProduct, mulVec, Fin.sum_univ_two, of_apply, cons_val_zero, cons_val_one]
  have := abs_le.mp h
  nlinarith [mul_nonneg (by linarith : (0 : ℝ) ≤ a + b) (sq_nonneg (x 0 + x 1)), mul_nonneg (by linarith : (0 : ℝ) ≤ a - b) (sq_nonneg (x 0 - x 1))]

theorem nonDeg_two {a b : ℝ} (c : Fin 2 → ℝ) (p : PropVals) (hp : p.ok) (h1 : p.absTol < a + b) (h2 : p.absTol < a - b) :
    (⟨c, !![a, b; b, a], p⟩ : EllN 2).NonDeg := by
  refine ⟨hp, by ext i j; fin_cases i <;> fin_cases j <;> rfl, fun x hx => ?_⟩
  have h0 := dot_self_pos hx
  simp only [dotProduct, mulVec, Fin.sum_univ_two, of_apply, cons_val_zero, cons_val_one] at h0 ⊢
  have e1 : x 0 * (a * x 0 + b * x 1) + x 1 * (b * x 0 + a * x 1) - p.absTol * (x 0 * x 0 + x 1 * x 1) =
      (a + b - p.absTol) * ((x 0 + x 1) ^ 2 / 2) + (a - b - p.absTol) * ((x 0 - x 1) ^ 2 / 2) := by ring
  rcases eq_or_ne (x 0 + x 1) 0 with h | h
  · have h3 : 0 < (x 0 - x 1) ^ 2 := by nlinarith
    have : 0 < (a - b - p.absTol) * ((x 0 - x 1) ^ 2 / 2) := mul_pos (by linarith) (by linarith)
    have : 0 ≤ (a + b - p.absTol) * ((x 0 + x 1) ^ 2 / 2) := mul_nonneg (by linarith) (by positivity)
    linarith
  · have : 0 < (a + b - p.absTol) * ((x 0 + x 1) ^ 2 / 2) := mul_pos (by linarith) (by positivity)
    have : 0 ≤ (a - b - p.absTol) * ((x 0 - x 1) ^ 2 / 2) := mul_nonneg (by linarith) (by positivity)
    linarith

/-- The default properties. -/
noncomputable def stdProps : PropVals := ⟨1 / 10 ^ 7, 1 / 10 ^ 5, 200, 200⟩

theorem stdProps_ok : stdProps.ok := by
  refine ⟨?_, ?_, ⟨200, ?_⟩, ⟨200, ?_⟩⟩ <;> (show _; unfold stdProps; norm_num)

/-- Two ellipses with the tilted matrix `[[2, 1], [1, 2]]` and the unit circle at `(1, 1)`; two directions. -/
example (E : Eigh) (G : Eig) (L : Lstsq) : ∃ r, minksumEa E G L stdProps
    [⟨2, ![0, 0], !![2, 1; 1, 2], 1 / 10 ^ 7, 1 / 10 ^ 5, 200, 200⟩, ⟨2, ![1, 1], !![1, 0; 0, 1], 1 / 10 ^ 7, 1 / 10 ^ 5, 200, 200⟩]
    (!![1, 0; 0, 1] : Matrix (Fin 2) (Fin 2) ℝ) = .ok r := by
  have h1 : (⟨![0, 0], !![2, 1; 1, 2], stdProps⟩ : EllN 2).NonDeg := by
    refine nonDeg_two _ _ stdProps_ok ?_ ?_ <;> (unfold stdProps; norm_num)
  have h2 : (⟨![1, 1], !![1, 0; 0, 1], stdProps⟩ : EllN 2).NonDeg := by
    refine nonDeg_two _ _ stdProps_ok ?_ ?_ <;> (unfold stdProps; norm_num)
  obtain ⟨Qs, h, -⟩ := C43 E G L stdProps stdProps_ok two_ne_zero [_, _] (by simp) (by
      intro e he
      rcases List.mem_cons.mp he with rfl | he
      · exact h1
      · rw [List.mem_singleton] at he; subst he; exact h2) (!![1, 0; 0, 1] : Matrix (Fin 2) (Fin 2) ℝ) (by
      intro j h
      have := congrFun h j
      fin_cases j <;> simp at this)
  exact ⟨_, h⟩

theorem near_circle : ((1 - (1 / 10 ^ 8 : ℝ) ^ 2) / (1 + (1 / 10 ^ 8) ^ 2)) ^ 2 + (2 * (1 / 10 ^ 8) / (1 + (1 / 10 ^ 8) ^ 2)) ^ 2 = (1 : ℝ) := by
  norm_num

/-- **C44** fails for two nearly equal ellipses: the result does not touch the Minkowski sum in the direction. -/
theorem C44_touch_violated (E : Eigh) (G : Eig) (p : PropVals) (hp : p.ok) : ∃ (es : List (EllN 2)) (l : Fin 2 → ℝ)
    (Q' : Matrix (Fin 2) (Fin 2) ℝ) (r r' : ℝ), 2 ≤ es.length ∧ (∀ e ∈ es, e.NonDeg) ∧ l ≠ 0 ∧
      minksumIa E G p (es.map EllN.obj) (of fun i (_ : Fin 1) => l i) =
        .ok (Arr.vec [⟨2, (es.map EllN.c).sum, Q', p.absTol, p.relTol, p.n2d, p.n3d⟩]) ∧
      IsSupport (minkSum (es.map EllN.set)) l r ∧ IsSupport (Ell (es.map EllN.c).sum Q') l r' ∧ r' < r := by
  set a : ℝ := (1 - (1 / 10 ^ 8 : ℝ) ^ 2) / (1 + (1 / 10 ^ 8) ^ 2) with ha
  set b : ℝ := 2 * (1 / 10 ^ 8) / (1 + (1 / 10 ^ 8) ^ 2) with hb
  have hab : a ^ 2 + b ^ 2 = 1 := near_circle
  have ha1 : 9 / 10 < a := by rw [ha]; norm_num
  have hb1 : 0 < b := by rw [hb]; norm_num
  have hb2 : b ≤ 1 / 10 ^ 7 := by rw [hb]; norm_num
  let S : Matrix (Fin 2) (Fin 2) ℝ := !![a, b; b, a]
  have hS : IsPSD S := psd_two (by rw [abs_of_pos hb1]; exact hb2.trans (le_trans (by norm_num) ha1.le))
  have hSS : S * S = !![1, 2 * a * b; 2 * a * b, 1] := by
    ext i j
    fin_cases i <;> fin_cases j <;> simp [S, Matrix.mul_apply, Fin.sum_univ_two] <;> nlinarith
  let q : PropVals := ⟨1 / 10, 1, 200, 200⟩
  have hq : q.ok := ⟨by norm_num [q], by norm_num [q], ⟨200, by norm_num [q]⟩, ⟨200, by norm_num [q]⟩⟩
  have hsmall : 0 < 2 * a * b ∧ 2 * a * b < 1 / 10 := by
    have ha2 : a ≤ 1 := by nlinarith
    constructor
    · positivity
    · nlinarith [show (1 / 10 ^ 7 : ℝ) < 1 / 20 by norm_num]
  let e : EllN 2 := ⟨0, !![1, 0; 0, 1], q⟩
  let e' : EllN 2 := ⟨0, !![1, 2 * a * b; 2 * a * b, 1], q⟩
  have he : e.NonDeg := nonDeg_two _ _ hq (by norm_num [q]) (by norm_num [q])
  have he' : e'.NonDeg := nonDeg_two _ _ hq (by show (1 / 10 : ℝ) < _; linarith) (by show (1 / 10 : ℝ) < _; linarith)
  have hes : ∀ x ∈ [e, e'], x.NonDeg := by
    intro x hx
    rcases List.mem_cons.mp hx with rfl | hx
    · exact he
    · rw [List.mem_singleton] at hx; subst hx; exact he'
  let l : Fin 2 → ℝ := ![1, 0]
  have hl : l ≠ 0 := fun h => by have := congrFun h 0; simp [l] at this
  obtain ⟨S0, ts, h1, h2, h3, h4⟩ := minksumIa_form E G p hp two_ne_zero e e' [] hes (of fun i (_ : Fin 1) => l i) (fun _ => hl)
  have hone : (!![1, 0; 0, 1] : Matrix (Fin 2) (Fin 2) ℝ) = 1 := by ext i j; fin_cases i <;> fin_cases j <;> rfl
  have hS0 : S0 = 1 := psd_root_unique h1 psd_one (by rw [h2, one_mul]; exact hone)
  subst hS0
  obtain ⟨t, t', rfl⟩ : ∃ t t', ts = [t, t'] := by
    cases h3 with
    | cons _ h => cases h with
      | cons _ h => cases h; exact ⟨_, _, rfl⟩
  rw [List.forall₂_cons, List.forall₂_cons] at h3
  obtain ⟨⟨u1, u2, u3⟩, ⟨v1, v2, v3⟩, -⟩ := h3
  have ht1 : t.1 = 1 := psd_root_unique u1 psd_one (by rw [u2, one_mul]; exact hone)
  have ht1' : t'.1 = S := psd_root_unique v1 hS (by rw [v2, hSS])
  set T := ([t, t'].map (fun t => t.2 0 * t.1)).sum with hT
  have hcol : (fun i => ((1 : Matrix (Fin 2) (Fin 2) ℝ) * of fun i (_ : Fin 1) => l i) i 0) = l := by rw [col_mul, one_mulVec]; rfl
  have w1 := u3 0
  have w2 := v3 0
  have hcol' : (fun i => (of fun i (_ : Fin 1) => l i : Matrix (Fin 2) (Fin 1) ℝ) i 0) = l := rfl
  rw [hcol, hcol', ht1, one_mulVec] at w1
  rw [hcol, hcol', ht1'] at w2
  have hll : l ⬝ᵥ l = 1 := by simp [l, dotProduct, Fin.sum_univ_two]
  have hdl : dir l = l := by rw [dir, hll, Real.sqrt_one, div_one, one_smul]
  have hSl : S *ᵥ l = ![a, b] := by
    funext i; fin_cases i <;> simp [S, l, mulVec, dotProduct, Fin.sum_univ_two]
  have hds : dir (![a, b] : Fin 2 → ℝ) = ![a, b] := by
    have : (![a, b] : Fin 2 → ℝ) ⬝ᵥ ![a, b] = 1 := by simp [dotProduct, Fin.sum_univ_two]; nlinarith
    rw [dir, this, Real.sqrt_one, div_one, one_smul]
  have hc : dir (![a, b] : Fin 2 → ℝ) ⬝ᵥ dir l = a := by rw [hds, hdl]; simp [l, dotProduct, Fin.sum_univ_two]
  rw [hSl] at w2
  have hTl1 : t.2 0 *ᵥ l = l := by
    obtain ⟨O, hO, hf⟩ := orthTransl_spec hl hl (Or.inl (by rw [sinSq, dir_dot hl]; norm_num))
    rw [w1] at hO
    injection hO with hO
    rw [hO]
    have : O *ᵥ dir l = dir l := hf.2
    rwa [hdl] at this
  have hne : (![a, b] : Fin 2 → ℝ) ≠ 0 := fun h => by have := congrFun h 1; simp at this; linarith
  have hTl2 : t'.2 0 *ᵥ ![a, b] = ![a ^ 2, b] := by
    rw [orthTransl_eq hne hl, if_neg] at w2
    · injection w2 with w2
      rw [← w2, planeRot_zero_mulVec, hc, hdl]
      funext i
      fin_cases i <;> simp [l, dotProduct, Fin.sum_univ_two]
      ring
    · rw [not_lt, sinSq, hc]
      have : 1 - a ^ 2 = b ^ 2 := by linarith
      rw [this, Real.sqrt_sq hb1.le]
      exact hb2
  have hTl : T *ᵥ l = ![1 + a ^ 2, b] := by
    rw [hT]
    simp only [List.map_cons, List.map_nil, List.sum_cons, List.sum_nil, add_zero]
    rw [ht1, ht1', mul_one, add_mulVec, hTl1, ← mulVec_mulVec, hSl, hTl2]
    funext i
    fin_cases i <;> simp [l]
  have hpsd : IsPSD (Tᵀ * T) := by
    have := psd_factor Tᵀ
    rwa [transpose_transpose] at this
  refine ⟨[e, e'], l, Tᵀ * T, _, _, by simp, hes, hl, ?_, minkSum_support l [e, e'] (fun x hx => (hes x hx).psd.2), ell_support hpsd l, ?_⟩
  · rw [h4]; rfl
  · have e1 : l ⬝ᵥ (Tᵀ * T) *ᵥ l = (T *ᵥ l) ⬝ᵥ (T *ᵥ l) := by
      rw [← mulVec_mulVec, dotProduct_mulVec, vecMul_transpose]
    have e2 : l ⬝ᵥ e.Q *ᵥ l = 1 := by simp [e, l, dotProduct, mulVec, Fin.sum_univ_two]
    have e3 : l ⬝ᵥ e'.Q *ᵥ l = 1 := by simp [e', l, dotProduct, mulVec, Fin.sum_univ_two]
    have e4 : ([e, e'].map (fun e => Real.sqrt (l ⬝ᵥ e.Q *ᵥ l))).sum = 2 := by
      simp only [List.map_cons, List.map_nil, List.sum_cons, List.sum_nil, e2, e3, Real.sqrt_one]; norm_num
    rw [e4, e1, hTl]
    have e5 : (![1 + a ^ 2, b] : Fin 2 → ℝ) ⬝ᵥ ![1 + a ^ 2, b] = (1 + a ^ 2) ^ 2 + b ^ 2 := by
      simp [dotProduct, Fin.sum_univ_two]; ring
    rw [e5]
    have e6 : Real.sqrt ((1 + a ^ 2) ^ 2 + b ^ 2) < 2 := by
      rw [Real.sqrt_lt' (by norm_num)]
      nlinarith [sq_nonneg a, mul_pos hb1 hb1]
    linarith

end Ellipy.Ell
