import Verif.Props.DictCompare

/-! Property theorems C97: the report of `dict_compare`. -/

set_option linter.unusedSectionVars false

namespace Ellipy
variable {K : Type} [Field K] [LinearOrder K] [IsStrictOrderedRing K]
variable {lk : List (PyVal K) → Kind} {fmt : Fmt K} {absTol : XF K} {relTol : Option (XF K)}

local notation "cS" => compScalar lk fmt absTol relTol
local notation "cF" => compFun lk fmt absTol relTol
local notation "cFs" => compFields lk fmt absTol relTol
local notation "cA" => compVecAny lk fmt absTol relTol
local notation "dC" => dictCompare lk fmt absTol relTol

/-- One dictionary against one dictionary. -/
private theorem dC_dict (d d' : List (String × PyVal K)) :
    dC (.dict d) (.dict d') = (cS d d').bind (fun r => .ok (r.1, joinReports [r])) := by
  have : dC (.dict d) (.dict d') = ((cS d d').bind (fun r => .ok [r])).bind (fun rs =>
      if rs.isEmpty then .error .pyValueError else .ok (rs.all (fun r => r.1), joinReports rs)) := rfl
  rw [this]
  cases cS d d' with
  | error => rfl
  | ok r => simp [Except.bind]

private theorem join_one (r : Bool × List String) (h : r.2 = [] ↔ r.1 = true) :
    joinReports [r] = "\n".intercalate (r.2.map ("(0)" ++ ·)) := by
  obtain ⟨b, l⟩ := r
  cases b
  · simp [joinReports]; rfl
  · have : l = [] := h.2 rfl
    subst this; rfl

/-- The comparison of two dictionaries with one key. -/
private theorem dC_single (k : String) (v w : PyVal K) :
    dC (.dict [(k, v)]) (.dict [(k, w)]) =
      (cF v w).bind (fun r => .ok (r.1, if r.1 then "" else
        "(0)" ++ ("." ++ k ++ (if v.ty = .dict then "" else "--> ") ++ r.2))) := by
  rw [dC_dict, compScalar_eq, if_pos (by simp [sameKeys]), compFields_cons (w := w) (by simp [fieldGet]),
    compFields_nil]
  cases cF v w with
  | error => rfl
  | ok r =>
    obtain ⟨b, s⟩ := r
    cases b
    · simp [Except.bind, join_one]
    · simp [Except.bind, join_one]

private theorem lit_key (a b : String) : "(0)" ++ ("Field names are different, left-right:" ++ a ++ ", right-left: " ++ b) =
    "(0)Field names are different, left-right:" ++ a ++ ", right-left: " ++ b := by
  rw [show "(0)Field names are different, left-right:" = "(0)" ++ "Field names are different, left-right:" from by simp]
  simp only [String.append_assoc]

/-- **C97** (different keys). Two dictionaries that do not have the same keys are called different, and the
report lists, each in increasing order, the keys of the first that the second does not have and the keys of
the second that the first does not have. -/
theorem C97_keys {d d' : List (String × PyVal K)} (hd : WF (.dict d)) (hd' : WF (.dict d'))
    (hk : ¬ ∀ k, k ∈ keys d ↔ k ∈ keys d') :
    ∃ l r : List String, l.Pairwise (· < ·) ∧ r.Pairwise (· < ·) ∧
      (∀ k, k ∈ l ↔ k ∈ keys d ∧ k ∉ keys d') ∧ (∀ k, k ∈ r ↔ k ∈ keys d' ∧ k ∉ keys d) ∧
      dC (.dict d) (.dict d') = .ok (false, "(0)Field names are different, left-right:" ++ "|".intercalate l ++
        ", right-left: " ++ "|".intercalate r) := by
  cases hd with
  | dict _ hs _ =>
  cases hd' with
  | dict _ hs' _ =>
  refine ⟨(keys d).filter (fun k => decide (k ∉ keys d')), (keys d').filter (fun k => decide (k ∉ keys d)),
    hs.filter _, hs'.filter _, by simp, by simp, ?_⟩
  rw [dC_dict, compScalar_eq, if_neg (fun h => hk ((sameKeys_iff _ _).1 h))]
  simp only [Except.bind, Except.ok.injEq, Prod.mk.injEq, true_and]
  rw [join_one _ (by simp)]
  show "\n".intercalate ["(0)" ++ (_ ++ "|".intercalate _ ++ _ ++ "|".intercalate _)] = _
  rw [String.intercalate_singleton]
  exact lit_key _ _

private theorem cFs_fields (d' : List (String × PyVal K)) :
    ∀ (d : List (String × PyVal K)) (_ : ∀ p ∈ d, ∃ w, fieldGet d' p.1 = some w) (r : Bool × List String)
    (_ : cFs d d' = .ok r),
    ∃ parts : List (Bool × String),
      List.Forall₂ (fun p part => ∃ w, (p.1, w) ∈ d' ∧ dC (.dict [p]) (.dict [(p.1, w)]) = .ok part) d parts ∧
      r.1 = parts.all (fun q => q.1) ∧
      r.2.map ("(0)" ++ ·) = (parts.filter (fun q => !q.1)).map Prod.snd
  | [], _, r, h => by
    rw [compFields_nil] at h; cases h
    exact ⟨[], .nil, rfl, rfl⟩
  | (k, v) :: xs, hw, r, h => by
    obtain ⟨w, hkw⟩ := hw (k, v) List.mem_cons_self
    rw [compFields_cons hkw] at h
    have h1 := dC_single (lk := lk) (fmt := fmt) (absTol := absTol) (relTol := relTol) k v w
    cases hc : cF v w with
    | error e => rw [hc] at h; cases h
    | ok q =>
    rw [hc] at h h1
    cases hr : cFs xs d' with
    | error e => rw [hr] at h; cases h
    | ok rest =>
    rw [hr] at h
    obtain ⟨parts, p1, p2, p3⟩ := cFs_fields d' xs (fun p hp => hw p (List.mem_cons_of_mem _ hp)) rest hr
    cases h
    refine ⟨_ :: parts, .cons ⟨w, fieldGet_mem hkw, h1⟩ p1, ?_, ?_⟩
    · simp [p2]
    · obtain ⟨b, s⟩ := q
      cases b
      · simp [← p3]
      · simp [← p3]

private theorem fieldGet_of_keys {d d' : List (String × PyVal K)} (hd' : WF (.dict d'))
    (hk : ∀ k, k ∈ keys d ↔ k ∈ keys d') : ∀ p ∈ d, ∃ w, fieldGet d' p.1 = some w := by
  cases hd' with
  | dict _ hs' _ =>
  intro p hp
  obtain ⟨q, hq, he⟩ := List.mem_map.1 ((hk p.1).1 (List.mem_map_of_mem hp))
  refine ⟨q.2, ?_⟩
  rw [← he]
  exact fieldGet_of_mem (nodup_of_sorted hs') hq

/-- **C97** (same keys). The comparison of two dictionaries with the same keys is put together from the
comparisons of the one-key dictionaries `{k: x[k]}` and `{k: y[k]}`, taken in increasing order of the keys:
it answers *equal* exactly if they all do, and its report consists of the reports of those that do not, one
per line. -/
theorem C97_fields {d d' : List (String × PyVal K)} (hd : WF (.dict d)) (hd' : WF (.dict d'))
    (hk : ∀ k, k ∈ keys d ↔ k ∈ keys d') {res : Bool × String} (h : dC (.dict d) (.dict d') = .ok res) :
    (d.map Prod.fst).Pairwise (· < ·) ∧ ∃ parts : List (Bool × String),
      List.Forall₂ (fun p part => ∃ w, (p.1, w) ∈ d' ∧ dC (.dict [p]) (.dict [(p.1, w)]) = .ok part) d parts ∧
      res.1 = parts.all (fun q => q.1) ∧
      res.2 = "\n".intercalate ((parts.filter (fun q => !q.1)).map Prod.snd) := by
  refine ⟨by cases hd with | dict _ hs _ => exact hs, ?_⟩
  rw [dC_dict, compScalar_eq, if_pos ((sameKeys_iff _ _).2 hk)] at h
  cases hr : cFs d d' with
  | error e => rw [hr] at h; cases h
  | ok r =>
  rw [hr] at h
  obtain ⟨parts, p1, p2, p3⟩ := cFs_fields (lk := lk) (fmt := fmt) (absTol := absTol) (relTol := relTol) d' d
    (fieldGet_of_keys hd' hk) r hr
  cases h
  refine ⟨parts, p1, p2, ?_⟩
  show joinReports [r] = _
  rw [join_one _ (compFields_report d' d r hr), p3]

private theorem cFs_raises (d' : List (String × PyVal K)) :
    ∀ (d : List (String × PyVal K)) (_ : ∀ p ∈ d, ∃ w, fieldGet d' p.1 = some w),
    (∃ e, cFs d d' = .error e) ↔ ∃ p ∈ d, ∃ w, fieldGet d' p.1 = some w ∧ ∃ e, cF p.2 w = .error e
  | [], _ => by rw [compFields_nil]; simp
  | (k, v) :: xs, hw => by
    obtain ⟨w, hkw⟩ := hw (k, v) List.mem_cons_self
    have ih := cFs_raises d' xs (fun p hp => hw p (List.mem_cons_of_mem _ hp))
    rw [compFields_cons hkw]
    simp only [List.mem_cons, exists_eq_or_imp, hkw, Option.some.injEq, exists_eq_left']
    rw [← ih]
    cases hc : cF v w with
    | error e => simp [Except.bind]
    | ok q =>
      cases hr : cFs xs d' with
      | error e => simp [Except.bind]
      | ok rest => simp [Except.bind]

/-- **C97** (errors). Comparing two dictionaries raises exactly if they have the same keys and the comparison
of the one-key dictionaries raises for one of them. -/
theorem C97_raises_iff {d d' : List (String × PyVal K)} (hd' : WF (.dict d')) :
    (∃ e, dC (.dict d) (.dict d') = .error e) ↔ (∀ k, k ∈ keys d ↔ k ∈ keys d') ∧
      ∃ k v w, (k, v) ∈ d ∧ (k, w) ∈ d' ∧ ∃ e, dC (.dict [(k, v)]) (.dict [(k, w)]) = .error e := by
  rw [dC_dict, compScalar_eq]
  by_cases hk : ∀ k, k ∈ keys d ↔ k ∈ keys d'
  swap
  · rw [if_neg (fun h => hk ((sameKeys_iff _ _).1 h))]
    simp [Except.bind, hk]
  rw [if_pos ((sameKeys_iff _ _).2 hk)]
  have hbind : ∀ {α β : Type} (x : Py α) (f : α → β),
      (∃ e, x.bind (fun r => (.ok (f r) : Py β)) = .error e) ↔ ∃ e, x = .error e := by
    intro α β x f; cases x <;> simp [Except.bind]
  rw [hbind, cFs_raises d' d (fieldGet_of_keys hd' hk)]
  simp only [dC_single, hbind]
  cases hd' with
  | dict _ hs' _ =>
  constructor
  · rintro ⟨p, hp, w, hw, e⟩
    exact ⟨hk, p.1, p.2, w, hp, fieldGet_mem hw, e⟩
  · rintro ⟨-, k, v, w, hv, hw, e⟩
    exact ⟨(k, v), hv, w, fieldGet_of_mem (nodup_of_sorted hs') hw, e⟩

private theorem zipIdx_reports (rs : List (Bool × List String)) (h : ∀ r ∈ rs, r.2 = [] ↔ r.1 = true) :
    joinReports rs = "\n".intercalate
      ((rs.zipIdx.map (fun p => p.1.2.map (fun s => "(" ++ toString p.2 ++ ")" ++ s))).flatten) := by
  unfold joinReports
  congr 2
  refine List.map_congr_left fun p hp => ?_
  have hp1 : p.1 ∈ rs := by
    obtain ⟨a, i⟩ := p
    rw [List.mk_mem_zipIdx_iff_getElem?] at hp
    exact List.mem_of_getElem? hp
  by_cases hb : p.1.1 = true
  · rw [if_pos hb, (h _ hp1).2 hb]; rfl
  · rw [if_neg hb]

private theorem cA_dicts : ∀ (ds ds' : List (List (String × PyVal K))) (rs : List (Bool × List String))
    (_ : ds.length = ds'.length) (_ : cA (ds.map .dict) (ds'.map .dict) = .ok rs),
    List.Forall₂ (fun p r => cS p.1 p.2 = .ok r) (ds.zip ds') rs
  | [], [], rs, _, h => by cases h; exact .nil
  | [], _ :: _, rs, hl, h => by simp at hl
  | _ :: _, [], rs, hl, h => by simp at hl
  | x :: xs, y :: ys, rs, hl, h => by
    change (cS x y).bind (fun r => (cA (xs.map .dict) (ys.map .dict)).bind (fun rest => .ok (r :: rest))) = _ at h
    cases hc : cS x y with
    | error e => rw [hc] at h; cases h
    | ok r =>
    rw [hc] at h
    cases hr : cA (xs.map .dict) (ys.map .dict) with
    | error e => rw [hr] at h; cases h
    | ok rest =>
    rw [hr] at h
    cases h
    exact .cons hc (cA_dicts xs ys rest (by simpa using hl) hr)

/-- **C97** (arrays). The comparison of two arrays of dictionaries of the same shape is put together from the
comparisons of the corresponding dictionaries: it answers *equal* exactly if they all do, and its report
consists of the lines of their reports in order, marked with the position `(i)` instead of `(0)`. -/
theorem C97_array {sh : List Nat} {ds ds' : List (List (String × PyVal K))} (hx : WF (.darr sh ds))
    (hy : WF (.darr sh ds')) {res : Bool × String} (h : dC (.darr sh ds) (.darr sh ds') = .ok res) :
    ∃ parts : List (Bool × List String),
      List.Forall₂ (fun p part => dC (.dict p.1) (.dict p.2) =
        .ok (part.1, "\n".intercalate (part.2.map ("(0)" ++ ·)))) (ds.zip ds') parts ∧
      res.1 = parts.all (fun q => q.1) ∧
      res.2 = "\n".intercalate ((parts.zipIdx.map fun p =>
        p.1.2.map fun s => "(" ++ toString p.2 ++ ")" ++ s).flatten) := by
  have hl : ds.length = ds'.length := by
    cases hx with
    | darr _ _ _ h1 _ =>
    cases hy with
    | darr _ _ _ h2 _ => rw [h1, h2]
  have hdef : dC (.darr sh ds) (.darr sh ds') = (cA (ds.map .dict) (ds'.map .dict)).bind (fun rs =>
      if rs.isEmpty then .error .pyValueError else .ok (rs.all (fun r => r.1), joinReports rs)) := by
    unfold dictCompare
    simp only [asDictArr]
    exact if_neg (by simp)
  rw [hdef] at h
  cases hr : cA (ds.map .dict) (ds'.map .dict) with
  | error e => rw [hr] at h; cases h
  | ok rs =>
  rw [hr] at h
  change (if _ then _ else _) = _ at h
  split_ifs at h
  cases h
  have hf := cA_dicts (lk := lk) (fmt := fmt) (absTol := absTol) (relTol := relTol) ds ds' rs hl hr
  refine ⟨rs, ?_, rfl, ?_⟩
  · refine hf.imp fun p r hp => ?_
    rw [dC_dict, hp]
    simp only [Except.bind]
    rw [join_one _ (compScalar_report hp)]
  · refine zipIdx_reports rs fun r hr => ?_
    obtain ⟨j, hj, rfl⟩ := List.getElem_of_mem hr
    have hj' : j < (ds.zip ds').length := by rw [hf.length_eq]; exact hj
    exact compScalar_report (hf.get hj' hj)

/-- **C97** (one key). A one-key comparison that answers *different* reports the key first: the report starts
with `(0).key`, followed by `--> ` unless the value is a dictionary itself. -/
theorem C97_field {k : String} {v w : PyVal K} (hv : WF v) {s : String}
    (h : dC (.dict [(k, v)]) (.dict [(k, w)]) = .ok (false, s)) :
    ∃ t, t ≠ "" ∧ s = "(0)." ++ k ++ (if v.ty = .dict then "" else "--> ") ++ t := by
  rw [dC_single] at h
  cases hc : cF v w with
  | error e => rw [hc] at h; cases h
  | ok q =>
  rw [hc] at h
  obtain ⟨b, t⟩ := q
  cases b
  · simp only [Except.bind, Except.ok.injEq, Prod.mk.injEq, true_and] at h
    subst h
    refine ⟨t, ?_, ?_⟩
    · intro ht
      have := (compFun_report hv hc).1 ht
      cases this
    · simp [← String.append_assoc]
  · simp [Except.bind] at h

/-! Instances: `{'a': 1, 'b': 'u', 'c': 's'}` against `{'a': 1, 'b': 'v', 'c': 2}`. -/

def repX : List (String × PyVal ℚ) := [("a", int0 1), ("b", .str "u"), ("c", .str "s")]
def repY : List (String × PyVal ℚ) := [("a", int0 1), ("b", .str "v"), ("c", int0 2)]

private theorem lt_ab : "a" < "b" := by rw [String.lt_iff_toList_lt]; decide
private theorem lt_ac : "a" < "c" := by rw [String.lt_iff_toList_lt]; decide
private theorem lt_bc : "b" < "c" := by rw [String.lt_iff_toList_lt]; decide

theorem wf_repX : WF (.dict repX) := by
  refine .dict _ (by
    simp only [keys, repX, List.map_cons, List.map_nil, List.pairwise_cons, List.mem_cons, List.not_mem_nil, or_false,
      forall_eq_or_imp, forall_eq, IsEmpty.forall_iff, implies_true, List.Pairwise.nil, and_true]
    exact ⟨⟨lt_ab, lt_ac⟩, lt_bc⟩) ?_
  simp only [repX, List.mem_cons, List.not_mem_nil, or_false, forall_eq_or_imp, forall_eq]
  exact ⟨.scal _ _, .str _, .str _⟩

theorem wf_repY : WF (.dict repY) := by
  refine .dict _ (by
    simp only [keys, repY, List.map_cons, List.map_nil, List.pairwise_cons, List.mem_cons, List.not_mem_nil, or_false,
      forall_eq_or_imp, forall_eq, IsEmpty.forall_iff, implies_true, List.Pairwise.nil, and_true]
    exact ⟨⟨lt_ab, lt_ac⟩, lt_bc⟩) ?_
  simp only [repY, List.mem_cons, List.not_mem_nil, or_false, forall_eq_or_imp, forall_eq]
  exact ⟨.scal _ _, .str _, .scal _ _⟩

theorem compare_rep : dictCompare lk0 fmt0 (.fin 0) none (.dict repX) (.dict repY) =
    .ok (false, "(0).b--> values are different\n(0).c--> Different types") := by
  rw [dC_dict, compScalar_eq, if_pos (by simp [sameKeys, repX, repY]), repX,
    compFields_cons (w := int0 1) (by simp [fieldGet, repY]), int0_refl,
    compFields_cons (w := .str "v") (by simp [fieldGet, repY]), compFun_str,
    compFields_cons (w := int0 2) (by simp [fieldGet, repY]), compFun_types (by simp [PyVal.ty, int0]),
    compFields_nil]
  simp [Except.bind, join_one, PyVal.ty]

/-- `C97_fields` and `C97_field` apply: the two lines are the reports about `b` and `c`. -/
example : ∃ parts : List (Bool × String), parts.length = 3 ∧
    "(0).b--> values are different\n(0).c--> Different types" =
      "\n".intercalate ((parts.filter (fun q => !q.1)).map Prod.snd) := by
  obtain ⟨-, parts, h1, -, h2⟩ := C97_fields wf_repX wf_repY (by simp [keys, repX, repY]) compare_rep
  exact ⟨parts, by rw [← h1.length_eq]; rfl, h2⟩

/-- `C97_keys` applies: only the first dictionary has the key `c`. -/
example : ∃ l r : List String, "c" ∈ l ∧ r = [] ∧
    dictCompare lk0 fmt0 (.fin 0) none (.dict repX) (.dict [("a", int0 1), ("b", .str "v")]) =
      .ok (false, "(0)Field names are different, left-right:" ++ "|".intercalate l ++
        ", right-left: " ++ "|".intercalate r) := by
  obtain ⟨l, r, -, -, hl, hr, h⟩ := C97_keys (lk := lk0) (fmt := fmt0) (absTol := .fin 0) (relTol := none) wf_repX
    (d' := [("a", int0 1), ("b", .str "v")])
    (.dict _ (by simpa [keys] using lt_ab) (by
      simp only [List.mem_cons, List.not_mem_nil, or_false, forall_eq_or_imp, forall_eq]
      exact ⟨.scal _ _, .str _⟩))
    (fun h => by simpa [keys, repX] using h "c")
  refine ⟨l, r, (hl "c").2 (by simp [keys, repX]), ?_, h⟩
  rw [List.eq_nil_iff_forall_not_mem]
  intro k hk
  have := (hr k).1 hk
  simp only [keys, repX, List.map_cons, List.map_nil, List.mem_cons, List.not_mem_nil, or_false, not_or] at this
  tauto

/-- `C97_raises_iff` applies to `{'a': [1, 2, 3]}` against `{'a': [1, 2]}`. -/
example : ∃ k v w, (k, v) ∈ [("a", PyVal.list [int0 1, int0 2, int0 3])] ∧ (k, w) ∈ [("a", PyVal.list [int0 1, int0 2])] ∧
    ∃ e, dictCompare lk0 fmt0 (.fin 0) none (.dict [(k, v)]) (.dict [(k, w)]) = .error e :=
  (C97_raises_iff wf_short0).1 ⟨_, compare_long_short⟩ |>.2

/-- `C97_array` applies to arrays of two dictionaries that differ in the second. -/
example : ∃ parts : List (Bool × List String), parts.length = 2 ∧ ∃ res,
    dictCompare lk0 fmt0 (.fin 0) none (.darr [2] [repY, repX]) (.darr [2] [repY, repY]) = .ok res ∧ res.1 = parts.all (fun q => q.1) := by
  have hX : WF (.darr [2] [repY, repX]) := .darr _ _ (by simp) (by simp) (by
    simp only [List.mem_cons, List.not_mem_nil, or_false, forall_eq_or_imp, forall_eq]; exact ⟨wf_repY, wf_repX⟩)
  have hY : WF (.darr [2] [repY, repY]) := .darr _ _ (by simp) (by simp) (by
    simp only [List.mem_cons, List.not_mem_nil, or_false, forall_eq_or_imp, forall_eq]; exact ⟨wf_repY, wf_repY⟩)
  have h : ∃ res, dictCompare lk0 fmt0 (.fin 0) none (.darr [2] [repY, repX]) (.darr [2] [repY, repY]) = .ok res := by
    have h1 : ∃ r, compScalar lk0 fmt0 (.fin 0) none repX repY = .ok r := by
      have := compare_rep
      rw [dC_dict] at this
      cases hc : compScalar lk0 fmt0 (.fin 0) none repX repY with
      | error => rw [hc] at this; cases this
      | ok r => exact ⟨r, rfl⟩
    have h2 : ∃ r, compScalar lk0 fmt0 (.fin 0) none repY repY = .ok r := by
      have : dictCompare lk0 fmt0 (.fin 0) none (.dict repY) (.dict repY) = .ok (true, "") := by
        refine C08_refl_partial (by simp [ValidTol]) (by simp) wf_repY (by simp [Comparable, entries, PyVal.ty]) ?_
        simp only [entries, List.mem_singleton, forall_eq]
        refine .dict _ ?_
        simp only [repY, List.mem_cons, List.not_mem_nil, or_false, forall_eq_or_imp, forall_eq]
        exact ⟨.scal _ _ (by simp [STy.kind]), .str _, .scal _ _ (by simp [STy.kind])⟩
      rw [dC_dict] at this
      cases hc : compScalar lk0 fmt0 (.fin 0) none repY repY with
      | error => rw [hc] at this; cases this
      | ok r => exact ⟨r, rfl⟩
    obtain ⟨r1, h1⟩ := h1
    obtain ⟨r2, h2⟩ := h2
    have : dictCompare lk0 fmt0 (.fin 0) none (.darr [2] [repY, repX]) (.darr [2] [repY, repY]) =
      ((compScalar lk0 fmt0 (.fin 0) none repY repY).bind fun r => ((compScalar lk0 fmt0 (.fin 0) none repX repY).bind
        fun r' => .ok [r']).bind fun rest => .ok (r :: rest)).bind (fun rs =>
      if rs.isEmpty then .error .pyValueError else .ok (rs.all (fun r => r.1), joinReports rs)) := rfl
    rw [this, h1, h2]
    exact ⟨_, rfl⟩
  obtain ⟨res, h⟩ := h
  obtain ⟨parts, h1, h2, -⟩ := C97_array hX hY h
  exact ⟨parts, by rw [← h1.length_eq]; rfl, res, h, h2⟩

end Ellipy
