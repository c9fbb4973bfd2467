import Verif.Props.AbsRelNumbers

/-! Property theorems C144: laws of `abs_rel_compare` across calls. -/

set_option linter.unusedSectionVars false

namespace Ellipy
variable {K : Type _} [Field K] [LinearOrder K] [IsStrictOrderedRing K]

/-- The comparison returns and its verdict is *equal*. -/
def SaysEqual (l r : NArr K) (absTol : XF K) (relTol : Option (XF K)) : Prop :=
  ∃ res, absRelCompare l r absTol relTol (fun x => |x|) = .ok res ∧ res.isEqual = true

private theorem says_iff {l r : NArr K} {absTol : XF K} {relTol : Option (XF K)} (h : GoodArgs l r absTol relTol) :
    SaysEqual l r absTol relTol ↔ List.Forall₂ (EntryClose absTol relTol) l.data r.data := by
  obtain ⟨res, h1, h2⟩ := C06_verdict l r absTol relTol h
  constructor
  · rintro ⟨res', e1, e2⟩
    rw [h1] at e1
    cases e1
    exact h2.1 e2
  · intro h3
    exact ⟨res, h1, h2.2 h3⟩

private theorem GoodArgs.len {l r : NArr K} {absTol : XF K} {relTol : Option (XF K)} (h : GoodArgs l r absTol relTol) :
    l.data.length = r.data.length := by rw [l.len, r.len, h.1]

private theorem forall₂_zip {R : XF K → XF K → Prop} {a b : List (XF K)} (h : a.length = b.length) : List.Forall₂ R a b ↔ ∀ p ∈ a.zip b, R p.1 p.2 := by
  rw [List.forall₂_iff_zip]
  constructor
  · rintro ⟨-, h2⟩ ⟨x, y⟩ hp
    exact h2 hp
  · intro h2
    exact ⟨h, fun hp => h2 _ hp⟩

/-- **C144.** With zero tolerances the verdict is *equal* exactly for the same entries (nan counts as equal to nan). -/
theorem C144_zero (l r : NArr K) (relTol : Option (XF K)) (hr : relTol = none ∨ relTol = some (.fin 0)) (h : GoodArgs l r (.fin 0) relTol) :
    SaysEqual l r (.fin 0) relTol ↔ l.data = r.data := by
  rw [says_iff h]
  constructor
  · intro h1
    rw [← List.forall₂_eq_eq_eq]
    refine h1.imp (fun x y hc => ?_)
    cases x <;> cases y <;> simp only [EntryClose] at hc ⊢
    rename_i x y
    congr 1
    rcases hc with hc | ⟨rt, h2, h3, h4⟩
    · have hc : |x - y| ≤ 0 := hc
      exact sub_eq_zero.1 (abs_nonpos_iff.1 hc)
    · rcases hr with rfl | rfl
      · cases h2
      · cases h2
        have h3 : 0 < |x| + |y| := h3
        have h4 : |x - y| / ((|x| + |y|) / 2) ≤ 0 := h4
        rw [div_le_iff₀ (by linarith), zero_mul] at h4
        exact sub_eq_zero.1 (abs_nonpos_iff.1 h4)
  · intro h1
    rw [h1]
    exact List.forall₂_same.2 (fun x _ => EntryClose.refl (show ValidTol (XF.fin (0 : K)) from le_rfl) _ _)

/-- **C144.** A zero relative tolerance is as good as none. -/
theorem C144_rel_zero (l r : NArr K) (absTol : XF K) (h : GoodArgs l r absTol none) :
    SaysEqual l r absTol (some (.fin 0)) ↔ SaysEqual l r absTol none := by
  have h' : GoodArgs l r absTol (some (.fin 0)) := ⟨h.1, h.2.1, h.2.2.1, h.2.2.2.1, h.2.2.2.2.1, fun t ht => by cases ht; exact le_rfl⟩
  rw [says_iff h, says_iff h']
  constructor
  · intro h1
    refine h1.imp (fun x y hc => ?_)
    cases x <;> cases y <;> simp only [EntryClose] at hc ⊢
    rename_i x y
    left
    rcases hc with hc | ⟨rt, h2, h3, h4⟩
    · exact hc
    · cases h2
      have h4 : |x - y| / ((|x| + |y|) / 2) ≤ 0 := h4
      have h5 : |x - y| = 0 := by
        rcases (add_nonneg (abs_nonneg x) (abs_nonneg y)).eq_or_lt with h6 | h6
        · exact le_antisymm ((abs_sub x y).trans h6.symm.le) (abs_nonneg _)
        · rw [div_le_iff₀ (by linarith), zero_mul] at h4
          exact le_antisymm h4 (abs_nonneg _)
      rw [h5]
      have hv := h.2.2.2.2.1
      cases absTol <;> simp_all [ValidTol, Within]
  · intro h1
    have ht : TolLE absTol absTol := by
      have hv := h.2.2.2.2.1
      cases absTol <;> simp_all [ValidTol, TolLE]
    have hr : RelTolLE none (some (.fin (0 : K))) := trivial
    exact h1.imp (fun x y hc => EntryClose.mono h.2.2.2.2.1 ht hr hc)

/-- **C144.** Two is the largest relative difference: with a relative tolerance of two or more the verdict only depends on the places of nan and of the
infinities; with less there are numbers that differ. -/
theorem C144_two (t : K) : (2 ≤ t → ∀ (l r : NArr K) (absTol : XF K), GoodArgs l r absTol (some (.fin t)) →
      (SaysEqual l r absTol (some (.fin t)) ↔ SameSpecials l.data r.data)) ∧
    (0 ≤ t → t < 2 → ∀ a : K, 0 ≤ a → ∃ x y : K, ∀ l r : NArr K, l.data = [.fin x] → r.data = [.fin y] → GoodArgs l r (.fin a) (some (.fin t)) →
      ¬ SaysEqual l r (.fin a) (some (.fin t))) := by
  constructor
  · intro ht l r absTol h
    rw [says_iff h, forall₂_zip h.len]
    refine forall₂_congr (fun p _ => ?_)
    obtain ⟨x, y⟩ := p
    constructor
    · intro hc
      cases x <;> cases y <;> simp_all [EntryClose]
    · intro hs
      have hs : (∃ x' y', (x, y) = (XF.fin x', XF.fin y')) ∨ (x, y) = (.nan, .nan) ∨ (x, y) = (.pinf, .pinf) ∨ (x, y) = (.ninf, .ninf) := hs
      rcases hs with ⟨x, y, he⟩ | he | he | he
      all_goals (rw [Prod.mk.injEq] at he; obtain ⟨rfl, rfl⟩ := he)
      all_goals try trivial
      by_cases hw : Within |x - y| absTol
      · exact Or.inl hw
      · right
        have h3 := abs_sub x y
        refine ⟨_, rfl, ?_, ?_⟩
        · have hv := h.2.2.2.2.1
          cases absTol <;> simp_all [ValidTol, Within, Exceeds]
          exact hw.trans_le h3
        · show |x - y| / ((|x| + |y|) / 2) ≤ t
          rcases (add_nonneg (abs_nonneg x) (abs_nonneg y)).eq_or_lt with h6 | h6
          · rw [← h6, zero_div, div_zero]
            linarith
          · rw [div_le_iff₀ (by linarith)]
            nlinarith
  · intro ht0 ht a ha
    refine ⟨a + 1, -(a + 1), fun l r hl hr h => ?_⟩
    rw [says_iff h, hl, hr, List.forall₂_cons]
    rintro ⟨hc | ⟨rt, h2, -, h4⟩, -⟩
    · have hc : |a + 1 - -(a + 1)| ≤ a := hc
      have := (le_abs_self _).trans hc
      linarith
    · cases h2
      have h4 : |a + 1 - -(a + 1)| / ((|a + 1| + |(-(a + 1))|) / 2) ≤ t := h4
      have p1 : 0 < a + 1 := by linarith
      have p2 : 0 < a + 1 - -(a + 1) := by linarith
      rw [abs_neg, abs_of_pos p1, abs_of_pos p2, div_le_iff₀ (by linarith)] at h4
      nlinarith

/-- **C144.** Without a relative tolerance the returned number is the least tolerance with the verdict *equal*, whatever the tolerance of the call. -/
theorem C144_least (l r : NArr K) (a : XF K) (h : GoodArgs l r a none) (hs : SameSpecials l.data r.data) (hne : l.data ≠ []) :
    ∃ res m, absRelCompare l r a none (fun x => |x|) = .ok res ∧ res.absDiff = some (.fin m) ∧ 0 ≤ m ∧
      ∀ t, 0 ≤ t → (SaysEqual l r (.fin t) none ↔ m ≤ t) := by
  obtain ⟨res, h1, -⟩ := C06_verdict l r a none h
  obtain ⟨⟨m, h2, h3⟩, -⟩ := C95_numbers l r a none h res h1 hs hne
  have hm0 : 0 ≤ m := h3.2 (Set.mem_insert _ _)
  refine ⟨res, m, h1, h2, hm0, fun t ht => ?_⟩
  have h' : GoodArgs l r (.fin t) none := ⟨h.1, h.2.1, h.2.2.1, h.2.2.2.1, ht, fun t ht => by cases ht⟩
  rw [says_iff h', forall₂_zip h.len]
  constructor
  · intro h4
    rcases h3.1 with h5 | ⟨⟨x, y⟩, hp, h5⟩
    · rw [h5]; exact ht
    · rcases h4 _ hp with h6 | ⟨rt, h6, -⟩
      · rw [← h5]; exact h6
      · cases h6
  · rintro h4 ⟨x, y⟩ hp
    rcases hs _ hp with ⟨x', y', he⟩ | he | he | he
    all_goals (rw [Prod.mk.injEq] at he; obtain ⟨rfl, rfl⟩ := he)
    · exact Or.inl ((h3.2 (Set.mem_insert_of_mem _ ⟨(x', y'), hp, rfl⟩)).trans h4)
    all_goals trivial

/-- **C144.** The verdict and the numbers depend only on which entries stand at the same place, not on the places or the shape: rearranging both arrays in
the same way keeps them. -/
theorem C144_rearrange (l r l' r' : NArr K) (absTol : XF K) (relTol : Option (XF K)) (h : GoodArgs l r absTol relTol) (h' : GoodArgs l' r' absTol relTol)
    (hz : ∀ p, p ∈ l.data.zip r.data ↔ p ∈ l'.data.zip r'.data) :
    ∃ res res', absRelCompare l r absTol relTol (fun x => |x|) = .ok res ∧ absRelCompare l' r' absTol relTol (fun x => |x|) = .ok res' ∧
      res.isEqual = res'.isEqual ∧ res.absDiff = res'.absDiff ∧ res.isRelTriggered = res'.isRelTriggered ∧ res.relDiff = res'.relDiff ∧
      res.absMRelDiff = res'.absMRelDiff := by
  obtain ⟨res, h1, h2⟩ := C06_verdict l r absTol relTol h
  obtain ⟨res', h1', h2'⟩ := C06_verdict l' r' absTol relTol h'
  refine ⟨res, res', h1, h1', ?_, ?_⟩
  · rw [Bool.eq_iff_iff, h2, h2', forall₂_zip h.len, forall₂_zip h'.len]
    exact forall_congr' (fun p => by rw [hz p])
  have hss : SameSpecials l.data r.data ↔ SameSpecials l'.data r'.data := forall_congr' (fun p => by rw [hz p])
  have hfin : finPairs l.data r.data = finPairs l'.data r'.data := by ext p; exact hz _
  have hfar : farPairs absTol l.data r.data = farPairs absTol l'.data r'.data := by unfold farPairs; rw [hfin]
  by_cases hs : SameSpecials l.data r.data
  · have hs' := hss.1 hs
    by_cases hne : l.data = []
    · have hne' : l'.data = [] := by
        by_contra hc
        obtain ⟨x, t, hx⟩ := List.exists_cons_of_ne_nil hc
        have hlen := h'.len
        rw [hx] at hlen
        obtain ⟨y, s, hy⟩ := List.exists_cons_of_length_eq_add_one hlen.symm
        have := (hz (x, y)).2 (by rw [hx, hy]; simp)
        rw [hne] at this
        simp at this
      obtain ⟨a1, a2, a3, a4⟩ := C95_empty l r absTol relTol h res h1 hne
      obtain ⟨b1, b2, b3, b4⟩ := C95_empty l' r' absTol relTol h' res' h1' hne'
      exact ⟨a1.trans b1.symm, a2.trans b2.symm, a3.trans b3.symm, a4.trans b4.symm⟩
    · have hne' : l'.data ≠ [] := by
        intro hc
        obtain ⟨x, t, hx⟩ := List.exists_cons_of_ne_nil hne
        have hlen := h.len
        rw [hx] at hlen
        obtain ⟨y, s, hy⟩ := List.exists_cons_of_length_eq_add_one hlen.symm
        have := (hz (x, y)).1 (by rw [hx, hy]; simp)
        rw [hc] at this
        simp at this
      obtain ⟨⟨m, a1, a2⟩, a3, a4, a5⟩ := C95_numbers l r absTol relTol h res h1 hs hne
      obtain ⟨⟨m', b1, b2⟩, b3, b4, b5⟩ := C95_numbers l' r' absTol relTol h' res' h1' hs' hne'
      rw [← hfar] at b3 b4
      rw [← hfin] at b2
      have ht : res.isRelTriggered = res'.isRelTriggered := by rw [Bool.eq_iff_iff, a3, b3]
      refine ⟨by rw [a1, b1, a2.unique b2], ht, ?_⟩
      cases hh : res.isRelTriggered with
      | true =>
        obtain ⟨q, m, c1, c2, c3, c4⟩ := a4 hh
        obtain ⟨q', m', d1, d2, d3, d4⟩ := b4 (ht ▸ hh)
        have hq := c3.unique d3
        subst hq
        exact ⟨by rw [c1, d1], by rw [c2, d2, c4.unique d4]⟩
      | false =>
        obtain ⟨c1, c2⟩ := a5 hh
        obtain ⟨d1, d2⟩ := b5 (ht ▸ hh)
        exact ⟨by rw [c1, d1], by rw [c2, d2]⟩
  · obtain ⟨a1, a2, a3, a4⟩ := C95_specials l r absTol relTol h res h1 hs
    obtain ⟨b1, b2, b3, b4⟩ := C95_specials l' r' absTol relTol h' res' h1' (fun hc => hs (hss.2 hc))
    exact ⟨a1.trans b1.symm, a2.trans b2.symm, a3.trans b3.symm, a4.trans b4.symm⟩

/-- **C144.** Arrays put together from pieces are equal exactly if all the pieces are. -/
theorem C144_pieces (l r l1 r1 l2 r2 : NArr K) (absTol : XF K) (relTol : Option (XF K)) (h : GoodArgs l r absTol relTol)
    (h1 : GoodArgs l1 r1 absTol relTol) (h2 : GoodArgs l2 r2 absTol relTol) (hl : l.data = l1.data ++ l2.data) (hr : r.data = r1.data ++ r2.data) :
    SaysEqual l r absTol relTol ↔ SaysEqual l1 r1 absTol relTol ∧ SaysEqual l2 r2 absTol relTol := by
  rw [says_iff h, says_iff h1, says_iff h2, forall₂_zip h.len, forall₂_zip h1.len, forall₂_zip h2.len, hl, hr, List.zip_append h1.len]
  simp only [List.mem_append, or_imp, forall_and]

/-- The entry in another unit: multiplied by `c`; for a negative `c` the infinities change places. -/
def XF.scale (c : K) : XF K → XF K
  | .fin x => .fin (c * x)
  | .nan => .nan
  | .pinf => if 0 < c then .pinf else .ninf
  | .ninf => if 0 < c then .ninf else .pinf

/-- **C144.** In other units, or with all signs changed, the verdict is the same; the absolute tolerance is converted too, the relative one is not. -/
theorem C144_units (l r l' r' : NArr K) (c : K) (hc : c ≠ 0) (absTol : XF K) (relTol : Option (XF K)) (h : GoodArgs l r absTol relTol)
    (h' : GoodArgs l' r' (absTol.scale |c|) relTol) (hl : l'.data = l.data.map (XF.scale c)) (hr : r'.data = r.data.map (XF.scale c)) :
    SaysEqual l' r' (absTol.scale |c|) relTol ↔ SaysEqual l r absTol relTol := by
  rw [says_iff h, says_iff h', hl, hr, List.forall₂_map_left_iff, List.forall₂_map_right_iff, forall₂_zip h.len, forall₂_zip h.len]
  refine forall₂_congr (fun p hp => ?_)
  clear hp
  obtain ⟨x, y⟩ := p
  have hc0 : 0 < |c| := abs_pos.2 hc
  have hv := h.2.2.2.2.1
  have hw : ∀ z : K, Within (|c| * z) (absTol.scale |c|) ↔ Within z absTol := by
    intro z
    cases absTol <;> simp [XF.scale, Within, hc]
    all_goals exact absurd hv id
  have hx : ∀ z : K, Exceeds (|c| * z) (absTol.scale |c|) ↔ Exceeds z absTol := by
    intro z
    cases absTol <;> simp [XF.scale, Exceeds, hc]
    all_goals exact absurd hv id
  generalize absTol.scale |c| = a' at hw hx
  have hsgn : (0 < c) ∨ ¬ (0 < c) := em _
  cases x <;> cases y
  case fin.fin x y =>
    have e1 : |c * x - c * y| = |c| * |x - y| := by rw [← mul_sub, abs_mul]
    have e2 : |c * x| + |c * y| = |c| * (|x| + |y|) := by rw [abs_mul, abs_mul, mul_add]
    have e3 : |c| * |x - y| / (|c| * (|x| + |y|) / 2) = |x - y| / ((|x| + |y|) / 2) := by
      rw [mul_div_assoc |c| (|x| + |y|) 2, mul_div_mul_left _ _ hc0.ne']
    simp only [XF.scale, EntryClose]
    rw [e1, e2, e3, hw, hx]
  all_goals rcases hsgn with hsgn | hsgn <;> simp [XF.scale, EntryClose, hsgn]

/-- Meets the hypotheses of the theorems above: `100, nan, 1` and `101, nan, 1`; in cents `10000` and `10100`. The returned number of the absolute
comparison is `1`, the least tolerance with the verdict *equal*. -/
example : SaysEqual (⟨.f, [3], [.fin 100, .nan, .fin 1], rfl⟩ : NArr ℚ) ⟨.f, [3], [.fin 101, .nan, .fin 1], rfl⟩ (.fin 1) none ∧
    ¬ SaysEqual (⟨.f, [3], [.fin 100, .nan, .fin 1], rfl⟩ : NArr ℚ) ⟨.f, [3], [.fin 101, .nan, .fin 1], rfl⟩ (.fin (1 / 2)) none ∧
    SaysEqual (⟨.f, [3], [.fin 10000, .nan, .fin 100], rfl⟩ : NArr ℚ) ⟨.f, [3], [.fin 10100, .nan, .fin 100], rfl⟩ (.fin 100) none := by
  have good : ∀ (l r : NArr ℚ) (t : ℚ), l.shape = r.shape → l.kind = .f → r.kind = .f → 0 ≤ t → GoodArgs l r (.fin t) none :=
    fun l r t h1 h2 h3 h4 => ⟨h1, by rw [h2]; decide, by rw [h3]; decide, by rw [h2, h3]; decide, h4, fun t ht => by cases ht⟩
  have g1 := good ⟨.f, [3], [.fin 100, .nan, .fin 1], rfl⟩ ⟨.f, [3], [.fin 101, .nan, .fin 1], rfl⟩ 1 rfl rfl rfl (by norm_num)
  have g2 := good ⟨.f, [3], [.fin 100, .nan, .fin 1], rfl⟩ ⟨.f, [3], [.fin 101, .nan, .fin 1], rfl⟩ (1 / 2) rfl rfl rfl (by norm_num)
  have g3 := good ⟨.f, [3], [.fin 10000, .nan, .fin 100], rfl⟩ ⟨.f, [3], [.fin 10100, .nan, .fin 100], rfl⟩ 100 rfl rfl rfl (by norm_num)
  have y1 : SaysEqual (⟨.f, [3], [.fin 100, .nan, .fin 1], rfl⟩ : NArr ℚ) ⟨.f, [3], [.fin 101, .nan, .fin 1], rfl⟩ (.fin 1) none := by
    rw [says_iff g1]
    simp [EntryClose, Within]
    norm_num
  refine ⟨y1, ?_, ?_⟩
  · rw [says_iff g2]
    simp [EntryClose, Within]
    norm_num
  · have hs : (XF.fin (1 : ℚ)).scale |(100 : ℚ)| = .fin 100 := by simp [XF.scale]
    have := (C144_units _ _ ⟨.f, [3], [.fin 10000, .nan, .fin 100], rfl⟩ ⟨.f, [3], [.fin 10100, .nan, .fin 100], rfl⟩ 100 (by norm_num) _ _ g1
      (by rw [hs]; exact g3) (by simp [XF.scale]; norm_num) (by simp [XF.scale]; norm_num)).2 y1
    rwa [hs] at this

end Ellipy
