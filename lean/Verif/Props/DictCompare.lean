import Verif.Proofs.DictCompare

/-! Property theorems C08–C10 (`dict_compare`). -/

set_option linter.unusedSectionVars false

namespace Ellipy
variable {K : Type} [Field K] [LinearOrder K] [IsStrictOrderedRing K]
variable {lk : List (PyVal K) → Kind} {fmt : Fmt K} {absTol : XF K} {relTol : Option (XF K)}

local notation "cS" => compScalar lk fmt absTol relTol
local notation "cF" => compFun lk fmt absTol relTol
local notation "cA" => compVecAny lk fmt absTol relTol
local notation "dC" => dictCompare lk fmt absTol relTol

private theorem cA_nil (ys : List (PyVal K)) : cA [] ys = .ok [] := by cases ys <;> rfl
private theorem cA_cons_nil (x : PyVal K) (xs) : cA (x :: xs) [] = .ok [] := rfl

/-- One comparison of the comprehension. -/
private def one (lk : List (PyVal K) → Kind) (fmt : Fmt K) (absTol : XF K) (relTol : Option (XF K))
    (x y : PyVal K) : Py (Bool × List String) :=
  match x, y with
  | .dict d, .dict d' => compScalar lk fmt absTol relTol d d'
  | _, _ => throwErr "wrongInput"

private theorem cA_cons (x y : PyVal K) (xs ys) : cA (x :: xs) (y :: ys) =
    (one lk fmt absTol relTol x y).bind (fun r => (cA xs ys).bind (fun rest => .ok (r :: rest))) := by
  cases x <;> cases y <;> rfl

private theorem one_ok {x y : PyVal K} {r} (h : one lk fmt absTol relTol x y = .ok r) :
    ∃ d d', x = .dict d ∧ y = .dict d' ∧ cS d d' = .ok r := by
  unfold one at h
  split at h
  · exact ⟨_, _, rfl, rfl, h⟩
  · cases h

theorem cA_ok : ∀ (xs ys : List (PyVal K)) (rs : List (Bool × List String)) (_ : cA xs ys = .ok rs),
    rs.length = min xs.length ys.length ∧
    ∀ (j : Nat) x y r, xs[j]? = some x → ys[j]? = some y → rs[j]? = some r →
      ∃ d d', x = .dict d ∧ y = .dict d' ∧ cS d d' = .ok r
  | [], ys, rs, h => by rw [cA_nil] at h; cases h; simp
  | x :: xs, [], rs, h => by rw [cA_cons_nil] at h; cases h; simp
  | x :: xs, y :: ys, rs, h => by
    rw [cA_cons] at h
    cases h1 : one lk fmt absTol relTol x y with
    | error e => rw [h1] at h; cases h
    | ok r =>
      rw [h1] at h
      cases h2 : cA xs ys with
      | error e => rw [h2] at h; cases h
      | ok rest =>
        rw [h2] at h
        cases h
        obtain ⟨hl, ih⟩ := cA_ok xs ys rest h2
        refine ⟨by simp [hl], ?_⟩
        intro j
        cases j with
        | zero =>
          intro a b c ha hb hc
          simp only [List.getElem?_cons_zero, Option.some.injEq] at ha hb hc
          subst ha; subst hb; subst hc
          exact one_ok h1
        | succ j => simpa using ih j

theorem cA_of_all : ∀ (xs ys : List (PyVal K))
    (_ : ∀ (j : Nat) x y, xs[j]? = some x → ys[j]? = some y →
      ∃ d d', x = .dict d ∧ y = .dict d' ∧ cS d d' = .ok (true, [])),
    ∃ rs, cA xs ys = .ok rs ∧ rs.length = min xs.length ys.length ∧ ∀ r ∈ rs, r = (true, [])
  | [], ys, _ => ⟨[], cA_nil ys, by simp, by simp⟩
  | x :: xs, [], _ => ⟨[], cA_cons_nil x xs, by simp, by simp⟩
  | x :: xs, y :: ys, h => by
    obtain ⟨rs, h1, h2, h3⟩ := cA_of_all xs ys (fun j => by simpa using h (j + 1))
    obtain ⟨d, d', rfl, rfl, hc⟩ := h 0 x y rfl rfl
    refine ⟨(true, []) :: rs, ?_, by simp [h2], by simpa using h3⟩
    rw [cA_cons, h1]
    show (cS d d').bind _ = _
    rw [hc]; rfl

private theorem cA_symm : ∀ (xs ys : List (PyVal K))
    (_ : ∀ (j : Nat) d d', xs[j]? = some (.dict d) → ys[j]? = some (.dict d') →
      (cS d d').map Prod.fst = (cS d' d).map Prod.fst),
    (cA xs ys).map (List.map Prod.fst) = (cA ys xs).map (List.map Prod.fst)
  | [], ys, _ => by cases ys <;> rfl
  | x :: xs, [], _ => rfl
  | x :: xs, y :: ys, h => by
    have ih := cA_symm xs ys (fun j => by simpa using h (j + 1))
    have h0 : (one lk fmt absTol relTol x y).map Prod.fst = (one lk fmt absTol relTol y x).map Prod.fst := by
      cases x <;> cases y <;> first | rfl | exact h 0 _ _ rfl rfl
    rw [cA_cons, cA_cons]
    cases h1 : one lk fmt absTol relTol x y <;> cases h2 : one lk fmt absTol relTol y x <;>
      rw [h1, h2] at h0 <;> simp only [Except.map, Except.ok.injEq, Except.error.injEq, reduceCtorEq] at h0
    · subst h0; rfl
    · cases h3 : cA xs ys <;> cases h4 : cA ys xs <;>
        rw [h3, h4] at ih <;> simp only [Except.map, Except.ok.injEq, Except.error.injEq, reduceCtorEq] at ih
      · subst ih; rfl
      · simp [Except.bind, Except.map, h0, ih]

theorem asDictArr_eq {tag : String} {x : PyVal K} (hx : WF x) {a} (h : asDictArr tag x = .ok a) :
    a = (entriesShape x, entries x) := by
  cases hx with
  | scal | str | none => cases h
  | arr b hb =>
    simp only [asDictArr] at h
    split_ifs at h
    · cases h; rfl
    · cases h
  | list l hl =>
    simp only [asDictArr] at h
    split_ifs at h
    · cases h; rfl
    · cases h
  | oarr l hl hl' =>
    simp only [asDictArr] at h
    split_ifs at h with hh
    · cases l with
      | nil => cases h; rfl
      | cons y l =>
        exfalso
        have := hl' y List.mem_cons_self
        cases y <;> simp [PyVal.isDict, PyVal.ty] at hh this
    · cases h
  | dict => cases h; rfl
  | darr => cases h; rfl

private theorem asDictArr_raises (tag tag' : String) (x : PyVal K) (h : ∀ a, asDictArr tag x ≠ .ok a) :
    ∀ a, asDictArr tag' x ≠ .ok a := by
  intro a ha
  apply h a
  cases x <;> simp only [asDictArr] at ha ⊢ <;> first | exact ha | cases ha | (split_ifs at ha ⊢ <;> first | exact ha | cases ha)

theorem asDictArr_of_comparable {tag : String} {x : PyVal K} (hx : Comparable x) :
    asDictArr tag x = .ok (entriesShape x, entries x) := by
  obtain ⟨h1, h2⟩ := hx
  cases x with
  | list l =>
    cases l with
    | nil => simp [entries] at h1
    | cons y l =>
      have := h2 y List.mem_cons_self
      have hd : y.isDict = true := by cases y <;> simp [PyVal.ty, PyVal.isDict] at this ⊢
      simp [asDictArr, hd, entries, entriesShape]
  | dict | darr => rfl
  | _ => simp [entries] at h1

theorem wf_entries {x : PyVal K} (hx : WF x) : ∀ e ∈ entries x, WF e := by
  cases hx with
  | list l hl => exact hl
  | dict d h1 h2 => simpa [entries] using WF.dict d h1 h2
  | darr sh ds h1 h2 h3 => simpa [entries] using h3
  | _ => simp [entries]

theorem dC_ok {x y : PyVal K} (hx : WF x) (hy : WF y) {r} (h : dC x y = .ok r) :
    (entriesShape x ≠ entriesShape y ∧ r = (false, "sizes are different")) ∨
    (entriesShape x = entriesShape y ∧ ∃ rs, cA (entries x) (entries y) = .ok rs ∧ rs ≠ [] ∧
      r = (rs.all (fun r => r.1), joinReports rs)) := by
  unfold dictCompare at h
  cases ha : asDictArr "wrongInput:dict_x" x with
  | error => rw [ha] at h; cases h
  | ok a =>
  cases hb : asDictArr "wrongInput:dict_y" y with
  | error => rw [ha, hb] at h; cases h
  | ok b =>
  have h1 := asDictArr_eq hx ha
  have h2 := asDictArr_eq hy hb
  subst h1; subst h2
  rw [ha, hb] at h
  change (if _ then _ else _) = _ at h
  by_cases hs : entriesShape x = entriesShape y
  · right
    rw [if_neg (not_not.2 hs)] at h
    refine ⟨hs, ?_⟩
    cases hc : cA (entries x) (entries y) with
    | error => rw [hc] at h; cases h
    | ok rs =>
      rw [hc] at h
      change (if _ then _ else _) = _ at h
      split_ifs at h with he
      cases h
      exact ⟨rs, rfl, by simpa using he, rfl⟩
  · left
    rw [if_pos hs] at h
    cases h
    exact ⟨hs, rfl⟩

/-- Structural agreement of a value with itself. -/
private theorem Agree.refl {R : List (PyVal K) → List (PyVal K) → Prop} (hR : ∀ l, R l l) (ha : ValidTol absTol) :
    ∀ x : PyVal K, WF x → Agree absTol relTol R x x := by
  intro x
  induction x using PyVal.induction with
  | scal t x => intro _; exact .scal _ _ _ (EntryClose.refl ha _ _)
  | str s => intro _; exact .str s
  | none => intro _; exact .none
  | arr a => intro _; exact .arr _ _ rfl rfl (List.forall₂_same.2 fun x _ => EntryClose.refl ha _ _)
  | list l ih =>
    rintro (_ | _ | _ | _ | ⟨_, hl⟩)
    refine .list _ _ (hR _) fun i x y hx hy => ?_
    rw [hx, Option.some.injEq] at hy; subst hy
    exact ih x (List.mem_of_getElem? hx) (hl x (List.mem_of_getElem? hx))
  | oarr l ih =>
    intro h
    cases h with
    | oarr _ hl _ =>
    refine .oarr _ _ (hR _) fun i x y hx hy => ?_
    rw [hx, Option.some.injEq] at hy; subst hy
    exact ih x (List.mem_of_getElem? hx) (hl x (List.mem_of_getElem? hx))
  | dict d ih =>
    intro h
    cases h with
    | dict _ hs hd =>
    refine .dict _ _ (fun _ => Iff.rfl) fun k v w hv hw => ?_
    have hn := nodup_of_sorted hs
    have := (fieldGet_of_mem hn hv).symm.trans (fieldGet_of_mem hn hw)
    rw [Option.some.injEq] at this; subst this
    exact ih _ hv (hd _ hv)
  | darr sh ds ih =>
    intro h
    cases h with
    | darr _ _ h1 h2 h3 =>
    refine .darr _ _ _ rfl fun i x y hx hy => ?_
    rw [hx, Option.some.injEq] at hy; subst hy
    exact ih x (List.mem_of_getElem? hx) (h3 x (List.mem_of_getElem? hx))

private theorem cS_of_agree (ha : ValidTol absTol) (hr : ∀ t, relTol = some t → ValidTol t)
    {d d' : List (String × PyVal K)} (hd : WF (.dict d)) (hb : NoBool (.dict d)) (hd' : WF (.dict d'))
    (h : Agree absTol relTol (fun l l' => l.length = l'.length ∧ lk l = lk l') (.dict d) (.dict d')) :
    cS d d' = .ok (true, []) := by
  have := compFun_complete (lk := lk) (fmt := fmt) ha hr _ hd hb _ hd' h
  rw [compFun_dict] at this
  cases hc : cS d d' with
  | error => rw [hc] at this; cases this
  | ok r =>
    rw [hc] at this
    simp only [Except.bind, Except.ok.injEq, Prod.mk.injEq] at this
    have h2 := (compScalar_report hc).2 this.1
    rw [← this.1, ← h2]

/-- **C09** (completeness, every depth). Comparable structures without boolean leaves that agree — the
same keys, shapes, list lengths, leaf types and close leaves — are called equal with an empty report.
`lk l = lk l'` says that `np.asarray` gives corresponding lists the same kind. -/
theorem C09_complete (ha : ValidTol absTol) (hr : ∀ t, relTol = some t → ValidTol t) {x y : PyVal K}
    (hx : WF x) (hy : WF y) (hcx : Comparable x) (hcy : Comparable y) (hb : ∀ e ∈ entries x, NoBool e)
    (hs : entriesShape x = entriesShape y) (hl : (entries x).length = (entries y).length)
    (h : ∀ (i : Nat) e e', (entries x)[i]? = some e → (entries y)[i]? = some e' →
      Agree absTol relTol (fun l l' => SameLen l l' ∧ lk l = lk l') e e') :
    dC x y = .ok (true, "") := by
  obtain ⟨rs, h1, h2, h3⟩ := cA_of_all (lk := lk) (fmt := fmt) (absTol := absTol) (relTol := relTol)
    (entries x) (entries y) (fun i e e' he he' => by
      have hA := h i e e' he he'
      have hm := List.mem_of_getElem? he
      have hm' := List.mem_of_getElem? he'
      have ht := hcx.2 e hm
      have ht' := hcy.2 e' hm'
      have hw := wf_entries hx e hm
      have hw' := wf_entries hy e' hm'
      have hbe := hb e hm
      cases e <;> simp only [PyVal.ty, reduceCtorEq] at ht
      cases e' <;> simp only [PyVal.ty, reduceCtorEq] at ht'
      exact ⟨_, _, rfl, rfl, cS_of_agree ha hr hw hbe hw' hA⟩)
  unfold dictCompare
  rw [asDictArr_of_comparable hcx, asDictArr_of_comparable hcy]
  change (if _ then _ else _) = _
  rw [if_neg (not_not.2 hs), h1]
  change (if _ then _ else _) = _
  have hne : rs ≠ [] := by
    intro he
    rw [he, hl] at h2
    have : entries y ≠ [] := hcy.1
    rw [min_self] at h2
    exact this (List.length_eq_zero_iff.1 h2.symm)
  rw [if_neg (by simpa using hne)]
  have hall : rs.all (fun r => r.1) = true := by
    rw [List.all_eq_true]; intro r hr; rw [h3 r hr]
  rw [hall, (joinReports_empty (fun r hr => by rw [h3 r hr]; simp)).2 hall]

/-- **C08** (the part that holds). A proper argument of `dict_compare` — a dictionary, a list or an
array of dictionaries of any depth — without boolean leaves is equal to itself, with an empty report.
Missing from the full claim: boolean leaves and empty lists of dictionaries, see `C08_violated`. -/
theorem C08_refl_partial (ha : ValidTol absTol) (hr : ∀ t, relTol = some t → ValidTol t) {x : PyVal K}
    (hx : WF x) (hc : Comparable x) (hb : ∀ e ∈ entries x, NoBool e) : dC x x = .ok (true, "") := by
  refine C09_complete ha hr hx hx hc hc hb rfl rfl fun i e e' he he' => ?_
  rw [he, Option.some.injEq] at he'; subst he'
  exact Agree.refl (fun l => ⟨rfl, rfl⟩) ha e (wf_entries hx e (List.mem_of_getElem? he))

/-- **C08** (reports). Whenever `dict_compare` returns, the report is empty exactly when the verdict is
equal. -/
theorem C08_report {x y : PyVal K} (hx : WF x) (hy : WF y) {r : Bool × String} (h : dC x y = .ok r) :
    r.2 = "" ↔ r.1 = true := by
  rcases dC_ok hx hy h with ⟨_, rfl⟩ | ⟨_, rs, hrs, _, rfl⟩
  · simp
  · apply joinReports_empty
    intro r hr
    obtain ⟨hl, hj⟩ := cA_ok _ _ _ hrs
    obtain ⟨j, hjl, rfl⟩ := List.getElem_of_mem hr
    rw [hl] at hjl
    obtain ⟨d, d', _, _, hc⟩ := hj j (entries x)[j] (entries y)[j] rs[j]
      (List.getElem?_eq_getElem _) (List.getElem?_eq_getElem _) (List.getElem?_eq_getElem _)
    exact compScalar_report hc

/-- **C09** (the part that holds). If `dict_compare` says equal then the arguments have the same shape and
every pair of corresponding dictionaries agrees at every level: same keys, same array shapes, same leaf
types, close leaves, and every list is at most as long as its counterpart.  Missing from the full claim:
equality of the list lengths, which fails (`C09_violated`). -/
theorem C09_sound_partial {x y : PyVal K} (hx : WF x) (hy : WF y) {s : String} (h : dC x y = .ok (true, s)) :
    entriesShape x = entriesShape y ∧
    ∀ (i : Nat) e e', (entries x)[i]? = some e → (entries y)[i]? = some e' → Agree absTol relTol NotLonger e e' := by
  rcases dC_ok hx hy h with ⟨_, hr⟩ | ⟨hs, rs, hrs, hne, hr⟩
  · cases hr
  refine ⟨hs, fun i e e' he he' => ?_⟩
  obtain ⟨hl, hj⟩ := cA_ok _ _ _ hrs
  have hi : i < rs.length := by
    rw [hl, lt_min_iff]
    exact ⟨(List.getElem?_eq_some_iff.1 he).1, (List.getElem?_eq_some_iff.1 he').1⟩
  obtain ⟨d, d', rfl, rfl, hc⟩ := hj i e e' rs[i] he he' (List.getElem?_eq_getElem hi)
  have hall : rs.all (fun r => r.1) = true := by
    have := congrArg Prod.fst hr; exact this.symm
  have h1 : (rs[i]).1 = true := List.all_eq_true.1 hall _ (List.getElem_mem hi)
  refine (compFun_sound (lk := lk) (fmt := fmt) _ (wf_entries hx _ (List.mem_of_getElem? he)) _
    (wf_entries hy _ (List.mem_of_getElem? he')) (joinReports [rs[i]]) ?_).1
  rw [compFun_dict, hc]
  simp [Except.bind, h1]

/-- **C10** (the part that holds). When the lists standing at the same place in both arguments have the
same lengths, both orders give the same verdict, or both raise.  Missing: lists of unequal length, see
`C10_violated`. -/
theorem C10_symm_partial {x y : PyVal K} (hx : WF x) (hy : WF y)
    (hal : ∀ (i : Nat) e e', (entries x)[i]? = some e → (entries y)[i]? = some e' → Aligned e e') :
    (dC x y).toOption.map Prod.fst = (dC y x).toOption.map Prod.fst := by
  have key : (cA (entries x) (entries y)).map (List.map Prod.fst) =
      (cA (entries y) (entries x)).map (List.map Prod.fst) := by
    refine cA_symm _ _ fun j d d' hd hd' => ?_
    rw [← compFun_dict_map, ← compFun_dict_map]
    exact compFun_symm _ (wf_entries hx _ (List.mem_of_getElem? hd)) _
      (wf_entries hy _ (List.mem_of_getElem? hd')) (hal j _ _ hd hd')
  have hor : ∀ {α : Type} (p : Py α), (∃ a, p = .ok a) ∨ ∃ e, p = .error e := by
    intro α p; cases p
    · exact .inr ⟨_, rfl⟩
    · exact .inl ⟨_, rfl⟩
  have hbad : ∀ tag tag' (z : PyVal K), (∃ e, asDictArr tag z = .error e) → ∃ e, asDictArr tag' z = .error e := by
    rintro tag tag' z ⟨e, he⟩
    rcases hor (asDictArr tag' z) with ⟨a, ha⟩ | h
    · exact absurd ha (asDictArr_raises tag tag' z (fun a h => by rw [he] at h; cases h) a)
    · exact h
  have hgood : ∀ tag tag' (z : PyVal K), WF z → (∃ a, asDictArr tag z = .ok a) →
      asDictArr tag' z = .ok (entriesShape z, entries z) := by
    rintro tag tag' z hz ⟨a, ha⟩
    rcases hor (asDictArr tag' z) with ⟨b, hb⟩ | h
    · rw [hb, asDictArr_eq hz hb]
    · obtain ⟨e, he⟩ := hbad tag' tag z h
      rw [he] at ha; cases ha
  unfold dictCompare
  rcases hor (asDictArr "wrongInput:dict_x" x) with hX | hX
  swap
  · obtain ⟨e', he'⟩ := hbad _ "wrongInput:dict_y" x hX
    obtain ⟨e, he⟩ := hX
    rw [he, he']
    rcases hor (asDictArr "wrongInput:dict_x" y) with ⟨a, ha⟩ | ⟨e, he⟩
    · rw [ha]; rfl
    · rw [he]; rfl
  rcases hor (asDictArr "wrongInput:dict_y" y) with hY | hY
  swap
  · obtain ⟨e', he'⟩ := hbad _ "wrongInput:dict_x" y hY
    obtain ⟨e, he⟩ := hY
    rw [he, he']
    rcases hor (asDictArr "wrongInput:dict_x" x) with ⟨a, ha⟩ | ⟨e, he⟩
    · rw [ha]; rfl
    · rw [he]; rfl
  rw [hgood _ "wrongInput:dict_x" x hx hX, hgood _ "wrongInput:dict_y" x hx hX,
    hgood _ "wrongInput:dict_x" y hy hY, hgood _ "wrongInput:dict_y" y hy hY]
  change (if _ then _ else _ : Py _).toOption.map _ = (if _ then _ else _ : Py _).toOption.map _
  by_cases hs : entriesShape x = entriesShape y
  swap
  · rw [if_pos hs, if_pos (fun h => hs h.symm)]
  rw [if_neg (not_not.2 hs), if_neg (not_not.2 hs.symm)]
  cases h1 : cA (entries x) (entries y) <;> cases h2 : cA (entries y) (entries x) <;>
    rw [h1, h2] at key <;> simp only [Except.map, Except.ok.injEq, Except.error.injEq, reduceCtorEq] at key
  · subst key; rfl
  · rename_i rs rs'
    change (if _ then _ else _ : Py _).toOption.map _ = (if _ then _ else _ : Py _).toOption.map _
    have hlen : rs.length = rs'.length := by simpa using congrArg List.length key
    have hemp : rs.isEmpty = rs'.isEmpty := by
      cases rs <;> cases rs' <;> simp at hlen ⊢
    rw [hemp]
    cases rs'.isEmpty
    · have hall : rs.all (fun r => r.1) = rs'.all (fun r => r.1) := by
        have e : ∀ l : List (Bool × List String), l.all (fun r => r.1) = (l.map Prod.fst).all id := by
          intro l; rw [List.all_map]; rfl
        rw [e, e, key]
      simp [Except.toOption, hall]
    · rfl

/-! Counterexamples and instances. -/

/-- Kinds of the lists below are irrelevant: any oracle that treats all lists alike. -/
def lk0 : List (PyVal ℚ) → Kind := fun _ => .i
def fmt0 : Fmt ℚ := fun _ => "difference"
def int0 (n : ℚ) : PyVal ℚ := .scal .pyInt (.fin n)

/-- `{'a': [1, 2]}` and `{'a': [1, 2, 3]}`. -/
def short0 : PyVal ℚ := .dict [("a", .list [int0 1, int0 2])]
def long0 : PyVal ℚ := .dict [("a", .list [int0 1, int0 2, int0 3])]

theorem wf_short0 : WF short0 := by
  refine .dict _ (by simp [keys]) ?_
  simp only [List.mem_singleton, forall_eq]
  refine .list _ ?_
  simp only [List.mem_cons, List.not_mem_nil, or_false, forall_eq_or_imp, forall_eq]
  exact ⟨.scal _ _, .scal _ _⟩

theorem wf_long0 : WF long0 := by
  refine .dict _ (by simp [keys]) ?_
  simp only [List.mem_singleton, forall_eq]
  refine .list _ ?_
  simp only [List.mem_cons, List.not_mem_nil, or_false, forall_eq_or_imp, forall_eq]
  exact ⟨.scal _ _, .scal _ _, .scal _ _⟩

theorem int0_refl (n : ℚ) : compFun lk0 fmt0 (.fin 0) none (int0 n) (int0 n) = .ok (true, "") :=
  compFun_complete (by simp [ValidTol]) (by simp) _ (.scal _ _) (.scal _ _ (by simp [STy.kind])) _ (.scal _ _)
    (.scal _ _ _ (EntryClose.refl (by simp [ValidTol]) _ _))

theorem list_short_long : compFun lk0 fmt0 (.fin 0) none (.list [int0 1, int0 2])
    (.list [int0 1, int0 2, int0 3]) = .ok (true, "") := by
  rw [compFun, if_neg (by simp [PyVal.ty, PyVal.kindOf, lk0]), compList_cons_cons, int0_refl]
  simp only [Except.bind, Bool.not_true, Bool.false_eq_true, if_false]
  rw [compList_cons_cons, int0_refl]
  simp only [Except.bind, Bool.not_true, Bool.false_eq_true, if_false]
  rw [compList_nil]

theorem list_long_short : compFun lk0 fmt0 (.fin 0) none (.list [int0 1, int0 2, int0 3])
    (.list [int0 1, int0 2]) = .error .indexError := by
  rw [compFun, if_neg (by simp [PyVal.ty, PyVal.kindOf, lk0]), compList_cons_cons, int0_refl]
  simp only [Except.bind, Bool.not_true, Bool.false_eq_true, if_false]
  rw [compList_cons_cons, int0_refl]
  simp only [Except.bind, Bool.not_true, Bool.false_eq_true, if_false]
  rw [compList_cons_nil]

theorem single_field (v w : PyVal ℚ) {r} (h : compFun lk0 fmt0 (.fin 0) none v w = r) :
    dictCompare lk0 fmt0 (.fin 0) none (.dict [("a", v)]) (.dict [("a", w)]) =
      r.bind (fun r => .ok (r.1, joinReports [(r.1, if r.1 then [] else
          ["." ++ "a" ++ (if v.ty = .dict then "" else "--> ") ++ r.2])])) := by
  have hs : compScalar lk0 fmt0 (.fin 0) none [("a", v)] [("a", w)] =
      r.bind (fun r => .ok (r.1, if r.1 then [] else
          ["." ++ "a" ++ (if v.ty = .dict then "" else "--> ") ++ r.2])) := by
    rw [compScalar_eq, if_pos (by simp [sameKeys]), compFields_cons (w := w) (by simp [fieldGet]), h, compFields_nil]
    cases r
    · rfl
    · simp [Except.bind]
  have : ∀ a b, compVecAny lk0 fmt0 (.fin 0) none [PyVal.dict a] [PyVal.dict b] =
      (compScalar lk0 fmt0 (.fin 0) none a b).bind (fun r => .ok [r]) := fun a b => rfl
  have hd : dictCompare lk0 fmt0 (.fin 0) none (.dict [("a", v)]) (.dict [("a", w)]) =
      (compVecAny lk0 fmt0 (.fin 0) none [PyVal.dict [("a", v)]] [PyVal.dict [("a", w)]]).bind (fun rs =>
        if rs.isEmpty then .error .pyValueError else .ok (rs.all (fun r => r.1), joinReports rs)) := rfl
  rw [hd, this, hs]
  cases r
  · rfl
  · simp [Except.bind]

theorem compare_short_long : dictCompare lk0 fmt0 (.fin 0) none short0 long0 = .ok (true, "") := by
  rw [short0, long0, single_field _ _ list_short_long]
  simp only [Except.bind, if_true]
  rw [(joinReports_empty (by simp)).2 (by simp)]

theorem compare_long_short : dictCompare lk0 fmt0 (.fin 0) none long0 short0 = .error .indexError := by
  rw [short0, long0, single_field _ _ list_long_short]; rfl

/-- **C08** fails: a dictionary with a boolean leaf compared with itself raises `TypeError`, and the
empty list of dictionaries compared with itself raises `ValueError`. -/
theorem C08_violated :
    (∃ x : PyVal ℚ, WF x ∧ Comparable x ∧ dictCompare lk0 fmt0 (.fin 0) none x x = .error .typeError) ∧
    ∃ x : PyVal ℚ, WF x ∧ dictCompare lk0 fmt0 (.fin 0) none x x = .error .pyValueError := by
  refine ⟨⟨.dict [("a", .scal .pyBool (.fin 1))], ?_, ?_, ?_⟩, .list [], .list _ (by simp), ?_⟩
  · refine .dict _ (by simp [keys]) ?_
    simp only [List.mem_singleton, forall_eq]
    exact .scal _ _
  · simp [Comparable, entries, PyVal.ty]
  · rw [single_field _ _ (r := .error .typeError)]
    · rfl
    · rw [compFun, if_neg (by simp), numComp, if_neg (by simp [scalArr])]
      simp [absRelCompare, scalArr, STy.kind, Kind.isNumeric, tolOk, specialsReport, XF.isNan, XF.isPInf, XF.isNInf,
        XF.isFinite]
      rfl
  · rfl

/-- **C09** fails: `dict_compare({'a': [1, 2]}, {'a': [1, 2, 3]})` answers *equal*. -/
theorem C09_violated : ∃ (x y : PyVal ℚ), WF x ∧ WF y ∧ Comparable x ∧ Comparable y ∧
    dictCompare lk0 fmt0 (.fin 0) none x y = .ok (true, "") ∧
    ¬ Agree (.fin 0) none SameLen x y := by
  refine ⟨short0, long0, wf_short0, wf_long0, ?_, ?_, compare_short_long, ?_⟩
  · simp [Comparable, entries, short0, PyVal.ty]
  · simp [Comparable, entries, long0, PyVal.ty]
  · intro h
    cases h with
    | dict _ _ h1 h2 =>
      have := h2 "a" _ _ List.mem_cons_self List.mem_cons_self
      cases this with
      | list _ _ hl _ => simp [SameLen] at hl

/-- **C10** fails on the same pair: one order answers *equal*, the other raises `IndexError`. -/
theorem C10_violated : ∃ (x y : PyVal ℚ), WF x ∧ WF y ∧ Comparable x ∧ Comparable y ∧
    dictCompare lk0 fmt0 (.fin 0) none x y = .ok (true, "") ∧
    dictCompare lk0 fmt0 (.fin 0) none y x = .error .indexError := by
  refine ⟨short0, long0, wf_short0, wf_long0, ?_, ?_, compare_short_long, compare_long_short⟩
  · simp [Comparable, entries, short0, PyVal.ty]
  · simp [Comparable, entries, long0, PyVal.ty]

theorem noBool_short0 : NoBool short0 := by
  refine .dict _ ?_
  simp only [List.mem_singleton, forall_eq]
  refine .list _ ?_
  simp only [List.mem_cons, List.not_mem_nil, or_false, forall_eq_or_imp, forall_eq]
  exact ⟨.scal _ _ (by simp [STy.kind]), .scal _ _ (by simp [STy.kind])⟩

/-- `C08_refl_partial` and `C09_complete` apply to `{'a': [1, 2]}`. -/
example : dictCompare lk0 fmt0 (.fin 0) none short0 short0 = .ok (true, "") :=
  C08_refl_partial (by simp [ValidTol]) (by simp) wf_short0 (by simp [Comparable, entries, short0, PyVal.ty])
    (by simpa [entries, short0] using noBool_short0)

/-- `C08_report` and `C09_sound_partial` apply to a comparison that succeeds. -/
example : ("" = "" ↔ true = true) ∧ entriesShape short0 = entriesShape long0 :=
  ⟨C08_report wf_short0 wf_long0 compare_short_long, (C09_sound_partial wf_short0 wf_long0 compare_short_long).1⟩

/-- `C10_symm_partial` applies to `{'a': [1, 2]}` against `{'a': [1, 5]}`. -/
example : (dictCompare lk0 fmt0 (.fin 0) none short0 (.dict [("a", .list [int0 1, int0 5])])).toOption.map Prod.fst =
    (dictCompare lk0 fmt0 (.fin 0) none (.dict [("a", .list [int0 1, int0 5])]) short0).toOption.map Prod.fst := by
  refine C10_symm_partial wf_short0 ?_ ?_
  · refine .dict _ (by simp [keys]) ?_
    simp only [List.mem_singleton, forall_eq]
    refine .list _ ?_
    simp only [List.mem_cons, List.not_mem_nil, or_false, forall_eq_or_imp, forall_eq]
    exact ⟨.scal _ _, .scal _ _⟩
  · intro i e e' he he'
    have h0 : i = 0 := by
      by_contra hne
      obtain ⟨j, rfl⟩ := Nat.exists_eq_succ_of_ne_zero hne
      simp [entries, short0] at he
    subst h0
    simp only [entries, short0, List.getElem?_cons_zero, Option.some.injEq] at he he'
    subst he; subst he'
    refine .dict _ _ ?_
    intro k v w hv hw
    simp only [List.mem_singleton, Prod.mk.injEq] at hv hw
    obtain ⟨-, rfl⟩ := hv
    obtain ⟨-, rfl⟩ := hw
    refine .list _ _ rfl ?_
    intro i x y hx _
    have hm := List.mem_of_getElem? hx
    simp only [List.mem_cons, List.not_mem_nil, or_false] at hm
    rcases hm with rfl | rfl <;> exact .leaf _ _ (by simp [int0]) (by simp [int0]) (by simp [int0]) (by simp [int0])

end Ellipy
