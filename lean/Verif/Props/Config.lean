import Verif.Proofs.ParseProp

/-! Property theorems C01–C04 (settings store and `parse_prop`). -/

namespace Ellipy.Config

/-- **C01.** For every history of API calls in which the user does not write into the repository
object behind the setters' back (writes to any *other* dictionary, snapshots included, are allowed),
every getter returns the last value stored for its own option since the last `init`, else the
documented default. -/
theorem C01_last_write_wins (hist : List Op)
    (hw : AllOps (fun s op => op.WellFormed s ∧ op.NoBackdoor s) imported hist) (g : Getter) :
    get (run imported hist) g = .ok (lastStored g hist.reverse) :=
  (get_run hist hw g).2.2

/-- **C01** (repository replaced): right after `set_conf_repo_mgr(d)` every getter reads `d`, whatever
happened before. -/
theorem C01_set_conf_repo_mgr (s : State) (a : Nat) (d : Dict) (hd : s.dict a = some d) (g : Getter) :
    get (setConfRepoMgr s (some a)) g =
      match dictGet d g.optName with | some v => .ok v | none => .error .keyError := by
  simp [get, getOption, setConfRepoMgr, State.dict] at hd ⊢
  simp [hd, dictIndex]
  cases dictGet d g.optName <;> rfl

/-- **C01** (any repository): from *any* state with a repository, a setter call changes exactly the
observing getter. -/
theorem C01_setter_effect (s : State) (hs : ∀ a, s.conf = some a → a < s.heap.length) (hc : s.conf ≠ none)
    (k : Setter) (v : Val) (g : Getter) :
    get (set s k v).1 g = if observes g k then .ok v else get s g := by
  have := get_step (s := s) hs hc (op := .set k v) trivial g
  simpa [step] using this

/-- **C01** (repository replaced, then anything): after any history at all, `set_conf_repo_mgr(d)` and further calls that do not bypass the
setters, every getter returns the last value stored for its option since the replacement, else the value that `d` had at the replacement (and raises
`KeyError` if it had none), and the default after a later `init`. -/
theorem C01_after_replacement (before after : List Op) (a : Nat) (d : Dict)
    (hb : AllOps (fun s op => op.WellFormed s) imported before) (hd : (run imported before).dict a = some d)
    (ha : AllOps (fun s op => op.WellFormed s ∧ op.NoBackdoor s) (setConfRepoMgr (run imported before) (some a)) after) (g : Getter) :
    get (run imported (before ++ .setConfRepoMgr (some a) :: after)) g =
      match storedSince g after.reverse with
      | some v => .ok v
      | none => match dictGet d g.optName with | some v => .ok v | none => .error .keyError := by
  have hlt : a < (run imported before).heap.length := by
    have : (run imported before).heap[a]? = some d := hd
    by_contra h
    rw [List.getElem?_eq_none (by omega)] at this
    cases this
  have hv : (setConfRepoMgr (run imported before) (some a)).Valid := by
    intro b hb'
    have : a = b := Option.some.inj hb'
    subst this
    exact hlt
  have h1 := (get_run_since hv (by simp [setConfRepoMgr]) after ha g).2.2
  rw [C01_set_conf_repo_mgr _ a d hd g] at h1
  rw [run_append]
  exact h1

/-- **C01** (no repository): after `set_conf_repo_mgr(None)` every getter and setter raises until `init` or `get_conf_repo_mgr` creates a new
repository with the defaults. -/
theorem C01_no_repository (s : State) (g : Getter) (k : Setter) (v : Val) :
    Raises (get (setConfRepoMgr s none) g) ∧ Raises (set (setConfRepoMgr s none) k v).2 ∧
    get (step (setConfRepoMgr s none) .getConfRepoMgr) g = .ok (docDefault g) ∧
    get (step (setConfRepoMgr s none) .init) g = .ok (docDefault g) := by
  refine ⟨⟨_, rfl⟩, ⟨_, rfl⟩, ?_, get_init _ _⟩
  exact get_init (setConfRepoMgr s none) g

/-- A concrete case of `C01_after_replacement`: a partial dictionary becomes the repository, one option is stored. -/
example : get (run imported ([.set .absTol (.float (.fin 2)), .newDict [("abs_tol", .none), ("version", .str "x")]] ++
      .setConfRepoMgr (some 1) :: [.set .relTol (.float (.fin 7)), .getPropDict])) .absTol = .ok .none ∧
    get (run imported ([.set .absTol (.float (.fin 2)), .newDict [("abs_tol", .none), ("version", .str "x")]] ++
      .setConfRepoMgr (some 1) :: [.set .relTol (.float (.fin 7)), .getPropDict])) .relTol = .ok (.float (.fin 7)) ∧
    get (run imported ([.set .absTol (.float (.fin 2)), .newDict [("abs_tol", .none), ("version", .str "x")]] ++
      .setConfRepoMgr (some 1) :: [.set .relTol (.float (.fin 7)), .getPropDict])) .isVerbose = .error .keyError := by
  refine ⟨?_, ?_, ?_⟩ <;>
  · refine (C01_after_replacement [.set .absTol (.float (.fin 2)), .newDict [("abs_tol", .none), ("version", .str "x")]]
      [.set .relTol (.float (.fin 7)), .getPropDict] 1 [("abs_tol", .none), ("version", .str "x")] ⟨trivial, trivial, trivial⟩ rfl
      ⟨⟨trivial, trivial⟩, ⟨trivial, trivial⟩, trivial⟩ _).trans ?_
    rfl

/-- Non-vacuity of C01: a history with sets, a re-initialisation, snapshots and a write to a snapshot. -/
example : AllOps (fun s op => op.WellFormed s ∧ op.NoBackdoor s) imported
    [.set .absTol (.float (.fin 2)), .getPropDict, .write 1 "abs_tol" .none, .init,
     .set .nPlot2dPoints (.int 7), .get .absTol] := by
  refine ⟨⟨trivial, trivial⟩, ⟨trivial, trivial⟩, ⟨?_, ?_⟩, ⟨trivial, trivial⟩, ⟨trivial, trivial⟩,
    ⟨trivial, trivial⟩, trivial⟩
  · show 1 < (step (step imported _) .getPropDict).heap.length; decide
  · show (step (step imported _) .getPropDict).conf ≠ some 1
    decide
example : lastStored .absTol [.get .absTol, .set .nPlot2dPoints (.int 7), .set .absTol (.float (.fin 3)),
    .init, .set .absTol (.float (.fin 2))] = .float (.fin 3) := by decide
example : get (run imported [.set .absTol (.float (.fin 2)), .set .relTol (.float (.fin 5)), .init,
    .set .nPlot2dPoints (.int 7)]) .nPlot2dPoints = .ok (.int 7) := by decide

/-- **C02** (snapshot is a faithful new object, and stays constant). `get_prop_dict()` returns a
dictionary object that did not exist before and is not the repository, with the repository's
contents; whatever configuration calls, and writes to other dictionaries, follow, its contents never
change. -/
theorem C02_snapshot_isolated (s : State) (hs : ∀ a, s.conf = some a → a < s.heap.length)
    (c : Nat) (hc : s.conf = some c) :
    ∃ a, (getPropDict s).2 = .ok a ∧ s.heap.length ≤ a ∧ (getPropDict s).1.dict a = s.dict c ∧
      ∀ ops, AllOps (fun s op => op.WellFormed s ∧ op.Avoids a) (getPropDict s).1 ops →
        (run (getPropDict s).1 ops).dict a = s.dict c := by
  obtain ⟨d, hd⟩ := dict_isSome (hs c hc)
  have hgp : getPropDict s = ((alloc s d).1, .ok (alloc s d).2) := by simp [getPropDict, hc, hd]
  refine ⟨(alloc s d).2, by rw [hgp], by simp, by rw [hgp, hd]; exact dict_alloc_new s d, ?_⟩
  intro ops hops
  rw [hgp] at hops ⊢
  have hv : (alloc s d).1.Valid := by
    intro b hb
    have := hs b hb
    simp only [heap_length_alloc]; omega
  have hne : (alloc s d).1.conf ≠ some (alloc s d).2 := by
    simp only [conf_alloc, alloc_snd]
    intro h
    have := hs _ h
    omega
  rw [run_keeps hv (by simp) hne ops hops, dict_alloc_new, hd]

/-- **C02** (writes to a snapshot, or to any dictionary that is not the repository, are invisible to
every getter). -/
theorem C02_writes_elsewhere_invisible (s : State) (a : Nat) (ha : s.conf ≠ some a) (k : String) (v : Val)
    (g : Getter) : get (step s (.write a k v)) g = get s g := by
  refine getOption_congr (s := s) (s' := update s a (fun d => dictSet d k v)) rfl
    (fun b hb' => dict_update_ne _ _ ?_) _
  intro h; subst h; exact ha hb'

/-- **C02** (sharing). `get_conf_repo_mgr()` returns the repository object itself, and
`set_conf_repo_mgr(d)` installs the very object `d`: a write through that reference is seen by the
getter of the option, until `init` replaces the repository by a new object. -/
theorem C02_repository_shared (s : State) (hs : ∀ a, s.conf = some a → a < s.heap.length) (c : Nat)
    (hc : s.conf = some c) (v : Val) (g : Getter) :
    getConfRepoMgr s = (s, .ok c) ∧
    get (step s (.write c g.optName v)) g = .ok v ∧
    get (init (step s (.write c g.optName v))) g = .ok (docDefault g) := by
  obtain ⟨d, hd⟩ := dict_isSome (hs c hc)
  refine ⟨by simp [getConfRepoMgr, hc], ?_, get_init _ _⟩
  simp only [step, get]
  rw [getOption_eq (a := c) (d := dictSet d g.optName v) (by simpa using hc) (by simp [hd])]
  simp [dictIndex, dictGet_dictSet]

/-- Non-vacuity of C02: the imported state has a repository, and a long avoiding sequence exists. -/
example : (∀ a, imported.conf = some a → a < imported.heap.length) ∧ imported.conf = some 0 :=
  ⟨imported_valid, rfl⟩
example : AllOps (fun s op => op.WellFormed s ∧ op.Avoids 1) (getPropDict imported).1
    [.set .absTol (.float (.fin 2)), .init, .newDict [], .setConfRepoMgr (some 0), .set .relTol .none] := by
  refine ⟨⟨trivial, trivial⟩, ⟨trivial, trivial⟩, ⟨trivial, trivial⟩, ⟨?_, ?_⟩, ⟨trivial, trivial⟩, trivial⟩
  · show 0 < _; decide
  · show (0:Nat) ≠ 1; decide

/-- **C03** (success). If every requested name is known and every wanted value (the caller's own one
if given and not already consumed, else the global one) exists and is admissible, `parse_prop`
returns these values in request order and a new dictionary holding exactly the caller's other
entries, in their order. -/
theorem C03_parse_ok (s : State) (args c : Nat) (d glob : Dict) (names : List String) (vals : List Val)
    (hc : s.conf = some c) (hg : s.dict c = some glob) (ha : s.dict args = some d)
    (hk : ∀ n ∈ names, KnownName n)
    (hlen : vals.length = names.length)
    (hv : ∀ i (h : i < names.length) (h' : i < vals.length),
      wanted d glob (names.take i) names[i] = some vals[i] ∧ Admissible names[i] vals[i]) :
    ∃ s' b, parseProp s args (some names) = (s', .ok (vals, b)) ∧ s.heap.length ≤ b ∧
      s'.dict b = some (d.filter (fun p => decide (p.1 ∉ names))) := by
  obtain ⟨checks, h1, h2, h3⟩ := selectChecks_known names hk
  refine (parseProp_core h1 h2 h3 hc hg ha).1 vals ((served_iff _ _ _ _ _).2 ⟨hlen, ?_⟩)
  simpa using hv

/-- **C03** (failure). In all other cases — an unknown name, a wanted value that is missing or not
admissible — `parse_prop` raises. -/
theorem C03_parse_raises (s : State) (args c : Nat) (d glob : Dict) (names : List String)
    (hc : s.conf = some c) (hg : s.dict c = some glob) (ha : s.dict args = some d)
    (hbad : (∃ n ∈ names, ¬ KnownName n) ∨
      ∃ i, ∃ h : i < names.length, ∀ v, wanted d glob (names.take i) names[i] = some v →
        ¬ Admissible names[i] v) :
    Raises (parseProp s args (some names)).2 := by
  by_cases hk : ∀ n ∈ names, n ∈ propNameList
  · obtain ⟨checks, h1, h2, h3⟩ := selectChecks_known names hk
    refine (parseProp_core h1 h2 h3 hc hg ha).2 ?_
    rintro ⟨vals, hs⟩
    rw [served_iff] at hs
    rcases hbad with ⟨n, hn, hn'⟩ | ⟨i, hi, h⟩
    · exact hn' (hk n hn)
    · have := hs.2 i hi (by omega)
      exact h _ (by simpa using this.1) this.2
  · unfold parseProp
    rw [selectChecks_unknown names hk]
    exact ⟨_, rfl⟩

/-- **C03** (frame). Whatever the outcome, `parse_prop` changes no existing dictionary — neither the
caller's `args` nor the settings. -/
theorem C03_parse_frame (s : State) (args : Nat) (needed : Option (List String)) :
    (parseProp s args needed).1.conf = s.conf ∧
    ∀ a, a < s.heap.length → (parseProp s args needed).1.dict a = s.dict a :=
  ⟨(parseProp_frame s args needed).1, (parseProp_frame s args needed).2.2⟩

/-- Non-vacuity of C03 (mixed explicit/global values, extra entry kept, repeated name). -/
example : let d : Dict := [("x", .none), ("rel_tol", .float (.fin 3))]
    let names := ["abs_tol", "rel_tol", "rel_tol"]
    let vals : List Val := [.float (.fin (1/1000000)), .float (.fin 3), .float (.fin (1/100000))]
    (∀ n ∈ names, KnownName n) ∧ ∀ i (h : i < names.length) (h' : i < vals.length),
      wanted d defaultDict (names.take i) names[i] = some vals[i] ∧ Admissible names[i] vals[i] := by
  refine ⟨by unfold KnownName; decide, ?_⟩
  intro i h h'
  have h3 : i < 3 := h
  interval_cases i
  · exact ⟨by rfl, Or.inr (Or.inr (Or.inl ⟨by simp, .inr ⟨_, by norm_num, rfl⟩⟩))⟩
  · exact ⟨by rfl, Or.inr (Or.inr (Or.inl ⟨by simp, .inr ⟨_, by norm_num, rfl⟩⟩))⟩
  · exact ⟨by rfl, Or.inr (Or.inr (Or.inl ⟨by simp, .inr ⟨_, by norm_num, rfl⟩⟩))⟩

/-- **C04 is violated.** With the library's default settings, `parse_prop(args)` without a name list
raises for *every* `args` that does not itself override `is_ode_norm_control`: the default of that
option is the string `'on'` while only booleans are accepted.  In particular `parse_prop({})` raises. -/
theorem C04_violated (s : State) (args c : Nat) (d : Dict) (hc : s.conf = some c)
    (hg : s.dict c = some docSettings) (ha : s.dict args = some d)
    (hno : dictGet d "is_ode_norm_control" = none) :
    Raises (parseProp s args none).2 := by
  change s.dict c = some defaultDict at hg
  refine (parseProp_core (needed := none) (names := propNameList) (checks := propCheckFuncList) rfl rfl
    checks_correct hc hg ha).2 ?_
  rintro ⟨vals, hs⟩
  rw [served_iff] at hs
  obtain ⟨h1, h2⟩ := hs
  have h6 := h2 6 (by decide) (by rw [h1]; decide)
  have hw : wanted d defaultDict ([] ++ propNameList.take 6) propNameList[6] = some (.str "on") := by
    unfold wanted
    simp [propNameList, hno]
    decide
  have e : vals[6]'(by rw [h1]; decide) = .str "on" := by
    have := h6.1; rw [hw] at this; exact (Option.some.inj this).symm
  have h := h6.2
  rw [e] at h
  simp [Admissible, propNameList] at h

/-- Witness for `C04_violated`: the freshly imported library and an empty argument dictionary. -/
example : Raises (parseProp (alloc imported []).1 (alloc imported []).2 none).2 :=
  C04_violated _ _ 0 [] rfl rfl (dict_alloc_new _ _) rfl

/-- **C04, partial.** What does hold: with default settings the call succeeds when the caller passes a
boolean `is_ode_norm_control` and only admissible values otherwise; it returns one admissible value per known
property.  Missing: success without that override (false, see `C04_violated`). -/
theorem C04_parse_all_partial (s : State) (args c : Nat) (d : Dict) (b : Bool) (hc : s.conf = some c)
    (hg : s.dict c = some docSettings) (ha : s.dict args = some d)
    (hb : dictGet d "is_ode_norm_control" = some (.bool b))
    (hadm : ∀ n v, KnownName n → dictGet d n = some v → Admissible n v) :
    ∃ s' vals r, parseProp s args none = (s', .ok (vals, r)) ∧ vals.length = 11 ∧
      ∀ i (h : i < docNames.length) (h' : i < vals.length),
        Admissible docNames[i] vals[i] ∧
        some vals[i] = (dictGet d docNames[i]).or (dictGet docSettings docNames[i]) := by
  change s.dict c = some defaultDict at hg
  change ∃ s' vals r, parseProp s args none = (s', .ok (vals, r)) ∧ vals.length = 11 ∧
      ∀ i (h : i < propNameList.length) (h' : i < vals.length),
        Admissible propNameList[i] vals[i] ∧
        some vals[i] = (dictGet d propNameList[i]).or (dictGet defaultDict propNameList[i])
  let f : String → Val := fun n => ((dictGet d n).or (dictGet defaultDict n)).getD .none
  have hnotin : ∀ i (h : i < propNameList.length), propNameList[i] ∉ propNameList.take i := by
    intro i h hm
    have hnd : propNameList.Nodup := by decide
    obtain ⟨j, hj, he⟩ := List.getElem_of_mem hm
    rw [List.getElem_take] at he
    have hj' : j < i := by simp at hj; omega
    have := (List.Nodup.getElem_inj_iff hnd).1 he
    omega
  have hserved : Served d defaultDict [] propNameList (propNameList.map f) := by
    rw [served_iff]
    refine ⟨by simp, ?_⟩
    intro i h h'
    have hnot := hnotin i h
    rw [List.getElem_map]
    unfold wanted
    rw [if_neg (by simpa using hnot)]
    simp only [f]
    have hkn : KnownName propNameList[i] := List.getElem_mem h
    cases hd : dictGet d propNameList[i] with
    | some v => exact ⟨rfl, hadm _ _ hkn hd⟩
    | none =>
      have hi : i < 11 := h
      simp only [Option.none_or]
      interval_cases i
      all_goals first
        | exact ⟨rfl, Or.inl ⟨rfl, _, rfl⟩⟩
        | exact ⟨rfl, Or.inr (Or.inl ⟨by simp [propNameList], _, rfl⟩)⟩
        | exact ⟨rfl, Or.inr (Or.inr (Or.inl ⟨by simp [propNameList], Or.inr ⟨_, by norm_num, rfl⟩⟩))⟩
        | exact ⟨rfl, Or.inr (Or.inr (Or.inr (Or.inl ⟨rfl, Or.inl rfl⟩)))⟩
        | exact ⟨rfl, Or.inr (Or.inr (Or.inr (Or.inr ⟨by simp [propNameList], Or.inl ⟨_, rfl⟩⟩)))⟩
        | exact absurd (hb.symm.trans (show dictGet d "is_ode_norm_control" = none from hd)) (by simp)
  obtain ⟨s', r, h1, h2, h3⟩ := (parseProp_core (needed := none) (names := propNameList) (checks := propCheckFuncList) rfl rfl
    checks_correct hc hg ha).1 _ hserved
  refine ⟨s', _, r, h1, by simp [propNameList], ?_⟩
  intro i h h'
  have := ((served_iff _ _ _ _ _).1 hserved).2 i h h'
  refine ⟨this.2, ?_⟩
  have hw := this.1
  unfold wanted at hw
  rw [if_neg (by simpa using hnotin i h)] at hw
  rw [← hw]
  cases dictGet d propNameList[i] <;> rfl

/-- Non-vacuity of the partial theorem. -/
example : let d : Dict := [("is_ode_norm_control", .bool true), ("abs_tol", .float (.fin 2))]
    dictGet d "is_ode_norm_control" = some (.bool true) ∧
    ∀ n v, KnownName n → dictGet d n = some v → Admissible n v := by
  refine ⟨by decide, ?_⟩
  intro n v hn hv
  simp only [dictGet_cons, dictGet_nil] at hv
  split_ifs at hv with h1 h2
  · subst h1; cases hv; exact Or.inr (Or.inl ⟨by decide, _, rfl⟩)
  · subst h2; cases hv; exact Or.inr (Or.inr (Or.inl ⟨by decide, Or.inr ⟨_, by norm_num, rfl⟩⟩))

end Ellipy.Config
