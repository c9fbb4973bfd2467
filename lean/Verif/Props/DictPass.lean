import Verif.Proofs.DictPass
import Verif.Props.IsEqual

/-! Property theorems C117 (when comparisons say yes, and how the verdicts depend on the tolerances). -/

set_option linter.unusedSectionVars false

namespace Ellipy
variable {K : Type} [Field K] [LinearOrder K] [IsStrictOrderedRing K]
variable {lk : List (PyVal K) → Kind} {fmt : Fmt K} {absTol : XF K} {relTol : Option (XF K)}

theorem entries_length {x : PyVal K} (hx : WF x) {tag : String} {a : List Nat × List (PyVal K)} (h : asDictArr tag x = .ok a) :
    (entries x).length = (entriesShape x).prod := by
  cases hx with
  | scal | str | none => cases h
  | arr b hb =>
    simp only [asDictArr] at h
    split_ifs at h with he
    · have hl := b.len
      rw [List.isEmpty_iff.1 he] at hl
      simpa [entries, entriesShape] using hl
    · cases h
  | list l hl => simp [entries, entriesShape]
  | oarr l hl hl' =>
    simp only [asDictArr] at h
    split_ifs at h with hh
    · cases l with
      | nil => simp [entries, entriesShape]
      | cons y l =>
        exfalso
        have := hl' y List.mem_cons_self
        cases y <;> simp [PyVal.isDict, PyVal.ty] at hh this
    · cases h
  | dict => simp [entries, entriesShape]
  | darr sh ds h1 h2 h3 => simpa [entries, entriesShape] using h2

/-- **C117** (exact verdict). `dict_compare` calls two arguments equal exactly when both consist of dictionaries, have the same shape, and every dictionary passes the
comparison with its counterpart. -/
theorem C117_exact (ha : ValidTol absTol) (hr : ∀ t, relTol = some t → ValidTol t) {x y : PyVal K} (hx : WF x) (hy : WF y) :
    (∃ s, dictCompare lk fmt absTol relTol x y = .ok (true, s)) ↔
      Comparable x ∧ Comparable y ∧ entriesShape x = entriesShape y ∧
      ∀ (i : Nat) e e', (entries x)[i]? = some e → (entries y)[i]? = some e' → Passes absTol relTol lk e e' := by
  constructor
  · rintro ⟨s, h⟩
    have hax : ∃ a, asDictArr "wrongInput:dict_x" x = .ok a := by
      unfold dictCompare at h
      cases h1 : asDictArr "wrongInput:dict_x" x with
      | error => rw [h1] at h; cases h
      | ok a => exact ⟨a, rfl⟩
    obtain ⟨ax, hax⟩ := hax
    have hay : ∃ a, asDictArr "wrongInput:dict_y" y = .ok a := by
      unfold dictCompare at h
      rw [hax] at h
      cases h1 : asDictArr "wrongInput:dict_y" y with
      | error => rw [h1] at h; cases h
      | ok a => exact ⟨a, rfl⟩
    obtain ⟨ay, hay⟩ := hay
    rcases dC_ok hx hy h with ⟨_, hr'⟩ | ⟨hs, rs, hrs, hne, hr'⟩
    · cases hr'
    have hlen : (entries x).length = (entries y).length := by rw [entries_length hx hax, entries_length hy hay, hs]
    obtain ⟨hl, hj⟩ := cA_ok _ _ _ hrs
    rw [← hlen, min_self] at hl
    have hdict : ∀ (i : Nat) (e e' : PyVal K), (entries x)[i]? = some e → (entries y)[i]? = some e' →
        ∃ d d' r, e = .dict d ∧ e' = .dict d' ∧ rs[i]? = some r ∧ compScalar lk fmt absTol relTol d d' = .ok r := by
      intro i e e' he he'
      have hi : i < rs.length := by rw [hl]; exact (List.getElem?_eq_some_iff.1 he).1
      obtain ⟨d, d', h1, h2, h3⟩ := hj i e e' rs[i] he he' (List.getElem?_eq_getElem hi)
      exact ⟨d, d', rs[i], h1, h2, List.getElem?_eq_getElem hi, h3⟩
    have hnex : entries x ≠ [] := by
      intro he
      rw [he] at hl
      exact hne (List.length_eq_zero_iff.1 hl)
    refine ⟨⟨hnex, ?_⟩, ⟨?_, ?_⟩, hs, ?_⟩
    · intro e he
      obtain ⟨i, hi, rfl⟩ := List.getElem_of_mem he
      obtain ⟨d, d', r, h1, -⟩ := hdict i _ _ (List.getElem?_eq_getElem hi) (List.getElem?_eq_getElem (hlen ▸ hi))
      rw [h1]; rfl
    · intro he
      rw [he] at hlen
      exact hnex (List.length_eq_zero_iff.1 hlen)
    · intro e he
      obtain ⟨i, hi, rfl⟩ := List.getElem_of_mem he
      obtain ⟨d, d', r, -, h1, -⟩ := hdict i _ _ (List.getElem?_eq_getElem (hlen ▸ hi)) (List.getElem?_eq_getElem hi)
      rw [h1]; rfl
    · intro i e e' he he'
      obtain ⟨d, d', r, rfl, rfl, h3, h4⟩ := hdict i e e' he he'
      have hall : rs.all (fun r => r.1) = true := (congrArg Prod.fst hr').symm
      have h5 : r.1 = true := List.all_eq_true.1 hall _ (List.mem_of_getElem? h3)
      refine (compFun_passes (lk := lk) (fmt := fmt) _ (wf_entries hx _ (List.mem_of_getElem? he)) _
        (wf_entries hy _ (List.mem_of_getElem? he')) (joinReports [r]) ?_).1
      rw [compFun_dict, h4]
      simp [Except.bind, h5]
  · rintro ⟨hcx, hcy, hs, h⟩
    have hlen : (entries x).length = (entries y).length := by
      rw [entries_length hx (asDictArr_of_comparable (tag := "") hcx), entries_length hy (asDictArr_of_comparable (tag := "") hcy), hs]
    obtain ⟨rs, h1, h2, h3⟩ := cA_of_all (lk := lk) (fmt := fmt) (absTol := absTol) (relTol := relTol)
      (entries x) (entries y) (fun i e e' he he' => by
        have hA := h i e e' he he'
        have hm := List.mem_of_getElem? he
        have hm' := List.mem_of_getElem? he'
        have ht := hcx.2 e hm
        have ht' := hcy.2 e' hm'
        have hw := wf_entries hx e hm
        have hw' := wf_entries hy e' hm'
        cases e <;> simp only [PyVal.ty, reduceCtorEq] at ht
        cases e' <;> simp only [PyVal.ty, reduceCtorEq] at ht'
        refine ⟨_, _, rfl, rfl, ?_⟩
        have := compFun_of_passes (lk := lk) (fmt := fmt) ha hr _ hw _ hw' hA
        rw [compFun_dict] at this
        rename_i d d'
        cases hc : compScalar lk fmt absTol relTol d d' with
        | error => rw [hc] at this; cases this
        | ok r =>
          rw [hc] at this
          simp only [Except.bind, Except.ok.injEq, Prod.mk.injEq] at this
          have h2 := (compScalar_report hc).2 this.1
          rw [← this.1, ← h2])
    refine ⟨"", ?_⟩
    unfold dictCompare
    rw [asDictArr_of_comparable hcx, asDictArr_of_comparable hcy]
    change (if _ then _ else _) = _
    rw [if_neg (not_not.2 hs), h1]
    change (if _ then _ else _) = _
    have hne : rs ≠ [] := by
      intro he
      rw [he, hlen, min_self] at h2
      exact hcy.1 (List.length_eq_zero_iff.1 h2.symm)
    rw [if_neg (by simpa using hne)]
    have hall : rs.all (fun r => r.1) = true := by
      rw [List.all_eq_true]; intro r hr; rw [h3 r hr]
    rw [hall, (joinReports_empty (fun r hr => by rw [h3 r hr]; simp)).2 hall]

/-- **C117** (monotone). What is equal stays equal when the tolerances grow (or a relative tolerance is added). -/
theorem C117_mono {a a' : XF K} {r r' : Option (XF K)} (ha : ValidTol a) (hr : ∀ t, r = some t → ValidTol t) (ha' : ValidTol a')
    (hr' : ∀ t, r' = some t → ValidTol t) (hle : TolLE a a') (hrle : RelTolLE r r') {x y : PyVal K} (hx : WF x) (hy : WF y)
    (h : ∃ s, dictCompare lk fmt a r x y = .ok (true, s)) : ∃ s, dictCompare lk fmt a' r' x y = .ok (true, s) := by
  obtain ⟨h1, h2, h3, h4⟩ := (C117_exact ha hr hx hy).1 h
  exact (C117_exact ha' hr' hx hy).2 ⟨h1, h2, h3, fun i e e' he he' =>
    passes_weaken (fun x y hc => hc.mono ha hle hrle) (h4 i e e' he he')⟩

/-- **C117** (tolerances add). If `x` equals `y` up to `s` and `y` equals `z` up to `t` then `x` equals `z` up to `s + t`; in particular exact equality is
transitive. -/
theorem C117_trans {s t : K} (hs : 0 ≤ s) (ht : 0 ≤ t) {x y z : PyVal K} (hx : WF x) (hy : WF y) (hz : WF z)
    (h1 : ∃ m, dictCompare lk fmt (.fin s) none x y = .ok (true, m)) (h2 : ∃ m, dictCompare lk fmt (.fin t) none y z = .ok (true, m)) :
    ∃ m, dictCompare lk fmt (.fin (s + t)) none x z = .ok (true, m) := by
  have hn : ∀ u : XF K, (none : Option (XF K)) = some u → ValidTol u := by intro u hu; cases hu
  obtain ⟨a1, a2, a3, a4⟩ := (C117_exact (show ValidTol (.fin s) from hs) hn hx hy).1 h1
  obtain ⟨b1, b2, b3, b4⟩ := (C117_exact (show ValidTol (.fin t) from ht) hn hy hz).1 h2
  refine (C117_exact (show ValidTol (.fin (s + t)) from add_nonneg hs ht) hn hx hz).2 ⟨a1, b2, a3.trans b3, fun i e e' he he' => ?_⟩
  have hlen : (entries x).length = (entries y).length := by
    rw [entries_length hx (asDictArr_of_comparable (tag := "") a1), entries_length hy (asDictArr_of_comparable (tag := "") a2), a3]
  have hi : i < (entries y).length := hlen ▸ (List.getElem?_eq_some_iff.1 he).1
  exact passes_trans (a4 i e _ he (List.getElem?_eq_getElem hi)) (b4 i _ e' (List.getElem?_eq_getElem hi) he')

/-- **C117** (arrays of numbers). The same for `abs_rel_compare` without a relative tolerance. -/
theorem C117_abs_triangle (l m r : NArr K) (s t : K) (h1 : GoodArgs l m (.fin s) none) (h2 : GoodArgs m r (.fin t) none)
    (h3 : ¬ (l.kind = .b ∧ r.kind = .b))
    (e1 : ∃ res, absRelCompare l m (.fin s) none (fun x => |x|) = .ok res ∧ res.isEqual = true)
    (e2 : ∃ res, absRelCompare m r (.fin t) none (fun x => |x|) = .ok res ∧ res.isEqual = true) :
    ∃ res, absRelCompare l r (.fin (s + t)) none (fun x => |x|) = .ok res ∧ res.isEqual = true := by
  have hg : GoodArgs l r (.fin (s + t)) none :=
    ⟨h1.1.trans h2.1, h1.2.1, h2.2.2.1, h3, add_nonneg (a := s) (b := t) h1.2.2.2.2.1 h2.2.2.2.2.1, by intro u hu; cases hu⟩
  obtain ⟨r1, a1, b1⟩ := C06_verdict l m _ _ h1
  obtain ⟨r2, a2, b2⟩ := C06_verdict m r _ _ h2
  obtain ⟨r3, a3, b3⟩ := C06_verdict l r _ _ hg
  obtain ⟨_, c1, d1⟩ := e1
  obtain ⟨_, c2, d2⟩ := e2
  rw [a1] at c1; cases c1
  rw [a2] at c2; cases c2
  exact ⟨r3, a3, b3.2 (forall₂_close_trans (b1.1 d1) (b2.1 d2))⟩

open Ell in
/-- **C117** (ellipsoids). Two ellipsoids that are equal stay equal when both their tolerances are enlarged. -/
theorem C117_ellipsoids {lk : List (PyVal ℝ) → Kind} {fmt : Fmt ℝ} (E : LA.Eigh) {n : ℕ} {c d : Fin n → ℝ} {Q R : Matrix (Fin n) (Fin n) ℝ}
    {a b a' b' r s r' s' k1 k2 k3 k4 k1' k2' k3' k4' : ℝ}
    (he : PropVals.ok ⟨a, r, k1, k2⟩) (hf : PropVals.ok ⟨b, s, k3, k4⟩) (he' : PropVals.ok ⟨a', r', k1', k2'⟩) (hf' : PropVals.ok ⟨b', s', k3', k4'⟩)
    (hq : LA.IsPSD Q) (hq' : LA.IsPSD R) (h1 : a ≤ a') (h2 : b ≤ b') (h3 : r ≤ r') (h4 : s ≤ s')
    (h : eqOp lk fmt (ellClass E) ⟨n, c, Q, a, r, k1, k2⟩ ⟨n, d, R, b, s, k3, k4⟩ = .ok true) :
    eqOp lk fmt (ellClass E) ⟨n, c, Q, a', r', k1', k2'⟩ ⟨n, d, R, b', s', k3', k4'⟩ = .ok true := by
  obtain ⟨v, hv, hiff⟩ := C48_scalar (lk := lk) (fmt := fmt) E (e := ⟨n, c, Q, a, r, k1, k2⟩) (f := ⟨n, d, R, b, s, k3, k4⟩) he hf hq hq'
  obtain ⟨v', hv', hiff'⟩ := C48_scalar (lk := lk) (fmt := fmt) E (e := ⟨n, c, Q, a', r', k1', k2'⟩) (f := ⟨n, d, R, b', s', k3', k4'⟩) he' hf' hq hq'
  rw [h] at hv
  cases hv
  have hm : ∀ x y, EntryClose (.fin (min a b)) (some (.fin (min r s))) x y → EntryClose (.fin (min a' b')) (some (.fin (min r' s'))) x y :=
    fun x y hc => hc.mono (a := .fin (min a b)) (a' := .fin (min a' b')) (rel := some (.fin (min r s))) (rel' := some (.fin (min r' s')))
      (show 0 ≤ min a b from le_min he.1.le hf.1.le) (show min a b ≤ min a' b' from min_le_min h1 h2)
      (show min r s ≤ min r' s' from min_le_min h3 h4)
  obtain ⟨hn, hc, P, S, p1, p2, p3, p4, p5⟩ := hiff.1 rfl
  rw [hv']
  exact congrArg _ (hiff'.2 ⟨hn, fun i => hm _ _ (hc i), P, S, p1, p2, p3, p4, fun i j => hm _ _ (p5 i j)⟩)

/-- `{'a': [v], 'b': 'u'}`. -/
def cell (v : ℚ) : PyVal ℚ := .dict [("a", .list [.scal .pyFloat (.fin v)]), ("b", .str "u")]

theorem wf_cell (v : ℚ) : WF (cell v) := by
  refine .dict _ (by simp only [keys, List.map_cons, List.map_nil, List.pairwise_cons, List.mem_singleton, forall_eq, List.not_mem_nil, false_imp_iff, implies_true, List.Pairwise.nil, and_true]; rw [String.lt_iff_toList_lt]; decide) ?_
  intro p hp
  simp only [List.mem_cons, List.not_mem_nil, or_false] at hp
  rcases hp with rfl | rfl
  · exact .list _ (by intro x hx; rw [List.mem_singleton.1 hx]; exact .scal _ _)
  · exact .str _

/-- The comparison of two such dictionaries, by `C117_exact`. -/
theorem cell_iff (lk : List (PyVal ℚ) → Kind) (fmt : Fmt ℚ) (hlk : ∀ l l', lk l = lk l') (t : ℚ) (ht : 0 ≤ t) (v w : ℚ) :
    (∃ s, dictCompare lk fmt (.fin t) none (cell v) (cell w) = .ok (true, s)) ↔ |v - w| ≤ t := by
  rw [C117_exact (show ValidTol (.fin t) from ht) (by intro u hu; cases hu) (wf_cell v) (wf_cell w)]
  constructor
  · rintro ⟨-, -, -, h⟩
    have h0 := h 0 _ _ rfl rfl
    cases h0 with | dict _ _ _ h0 =>
    have h1 := h0 "a" _ _ (List.mem_cons_self) (List.mem_cons_self)
    cases h1 with | list _ _ _ _ h1 =>
    have h2 := h1 0 _ _ rfl rfl
    cases h2 with | scal _ _ _ _ _ h2 =>
    simpa [EntryClose, Within] using h2
  · intro h
    refine ⟨⟨by simp [cell, entries], by simp [cell, entries, PyVal.ty]⟩, ⟨by simp [cell, entries], by simp [cell, entries, PyVal.ty]⟩, rfl, ?_⟩
    intro i e e' he he'
    have hi : i = 0 := by
      have := (List.getElem?_eq_some_iff.1 he).1
      simpa [cell, entries] using this
    subst hi
    cases he; cases he'
    refine .dict _ _ (by intro k; simp [keys]) ?_
    intro k p q hp hq
    simp only [List.mem_cons, Prod.mk.injEq, List.not_mem_nil, or_false] at hp hq
    rcases hp with ⟨rfl, rfl⟩ | ⟨rfl, rfl⟩
    · rcases hq with ⟨-, rfl⟩ | ⟨h, -⟩
      · refine .list _ _ (hlk _ _) le_rfl ?_
        intro j a b ha hb
        have hj : j = 0 := by
          have := (List.getElem?_eq_some_iff.1 ha).1
          simpa using this
        subst hj
        cases ha; cases hb
        exact .scal _ _ _ (by decide) (by decide) (.inl h)
      · exact absurd h (by decide)
    · rcases hq with ⟨h, -⟩ | ⟨-, rfl⟩
      · exact absurd h (by decide)
      · exact .str _

/-- A concrete case of all three theorems: 0, 1 and 3 under the tolerances 1, 2 and 3; the sum 3 of the tolerances is needed. -/
example (fmt : Fmt ℚ) :
    (∃ s, dictCompare (fun _ => .f) fmt (.fin 1) none (cell 0) (cell 1) = .ok (true, s)) ∧
    (∃ s, dictCompare (fun _ => .f) fmt (.fin 2) none (cell 0) (cell 1) = .ok (true, s)) ∧
    (∃ s, dictCompare (fun _ => .f) fmt (.fin (1 + 2)) none (cell 0) (cell 3) = .ok (true, s)) ∧
    ¬ ∃ s, dictCompare (fun _ => .f) fmt (.fin 2) none (cell 0) (cell 3) = .ok (true, s) := by
  have h1 := (cell_iff (fun _ => .f) fmt (fun _ _ => rfl) 1 (by norm_num) 0 1).2 (by norm_num)
  have h2 := (cell_iff (fun _ => .f) fmt (fun _ _ => rfl) 2 (by norm_num) 1 3).2 (by norm_num)
  refine ⟨h1, ?_, ?_, ?_⟩
  · exact C117_mono (a := .fin 1) (a' := .fin 2) (r := none) (r' := none) (show (0 : ℚ) ≤ 1 by norm_num) (by intro u hu; cases hu) (show (0 : ℚ) ≤ 2 by norm_num) (by intro u hu; cases hu)
      (show (1 : ℚ) ≤ 2 by norm_num) trivial (wf_cell 0) (wf_cell 1) h1
  · exact C117_trans (by norm_num) (by norm_num) (wf_cell 0) (wf_cell 1) (wf_cell 3) h1 h2
  · rw [cell_iff _ fmt (fun _ _ => rfl) 2 (by norm_num)]
    norm_num

end Ellipy
