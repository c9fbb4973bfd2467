import Verif.Props.Config
import Verif.Spec.Session

/-! Helper lemmas for C116. -/

namespace Ellipy.Session
open Ellipy.Config Ellipy.Ell Ellipy.Hyp

theorem ellConstruct_state (E : LA.Eigh) (s : State) (args : List RawArg) (kw : Dict) :
    (ellConstruct E s args kw).1 = Config.step (Config.step s (.newDict kw))
      (.parseProp s.heap.length (some ["abs_tol", "rel_tol", "n_plot_2d_points", "n_plot_3d_points"])) := by
  unfold ellConstruct
  simp only [alloc_snd, Config.step]
  generalize parseProp (alloc s kw).1 s.heap.length _ = r
  obtain ⟨s', r⟩ := r
  match r with
  | .error e => rfl
  | .ok (vals, b) =>
    match vals with
    | [] => rfl
    | [_] => rfl
    | [_, _] => rfl
    | [_, _, _] => rfl
    | _ :: _ :: _ :: _ :: _ :: _ => rfl
    | [v0, v1, v2, v3] =>
      dsimp only
      match numOf v0, numOf v1, numOf v2, numOf v3 with
      | none, _, _, _ => rfl
      | some _, none, _, _ => rfl
      | some _, some _, none, _ => rfl
      | some _, some _, some _, none => rfl
      | some x0, some x1, some x2, some x3 =>
        dsimp only
        cases ellNew E args x0 x1 x2 x3 <;> rfl

theorem hypConstruct_state (s : State) (nrm : RawArg) (shift : ShiftArg) (kw : Dict) :
    (hypConstruct s nrm shift kw).1 = Config.step (Config.step s (.newDict kw)) (.parseProp s.heap.length (some ["abs_tol", "rel_tol"])) := by
  unfold hypConstruct
  simp only [alloc_snd, Config.step]
  generalize parseProp (alloc s kw).1 s.heap.length _ = r
  obtain ⟨s', r⟩ := r
  match r with
  | .error e => rfl
  | .ok (vals, b) =>
    match vals with
    | [] => rfl
    | [_] => rfl
    | _ :: _ :: _ :: _ => rfl
    | [v0, v1] =>
      dsimp only
      match numOf v0, numOf v1 with
      | none, _ => rfl
      | some _, none => rfl
      | some x0, some x1 =>
        dsimp only
        cases hypNew nrm shift ⟨x0, x1⟩ <;> rfl

theorem act_conf_ell (E : LA.Eigh) (s : Sess) (args : List RawArg) (kw : Dict) :
    (act E s (.ell args kw)).conf = (ellConstruct E s.conf args kw).1 := by
  simp only [act]
  rcases ellConstruct E s.conf args kw with ⟨c, _ | _ | _⟩ <;> rfl

theorem act_conf_hyp (E : LA.Eigh) (s : Sess) (nrm : RawArg) (shift : ShiftArg) (kw : Dict) :
    (act E s (.hyp nrm shift kw)).conf = (hypConstruct s.conf nrm shift kw).1 := by
  simp only [act]
  rcases hypConstruct s.conf nrm shift kw with ⟨c, _ | _ | _⟩ <;> rfl

theorem make_frame {s : State} (hs : s.Valid) (hc : s.conf ≠ none) (kw : Dict) (names : Option (List String)) :
    let s' := Config.step (Config.step s (.newDict kw)) (.parseProp s.heap.length names)
    s'.Valid ∧ s'.conf ≠ none ∧ s'.conf = s.conf ∧ (∀ g, get s' g = get s g) ∧ ∀ a, a < s.heap.length → s'.dict a = s.dict a := by
  have h1 : (Config.step s (.newDict kw)).Valid := step_valid hs trivial
  have h2 : (Config.step s (.newDict kw)).conf ≠ none := step_conf_some hc trivial
  have hl : (Config.step s (.newDict kw)).heap.length = s.heap.length + 1 := by simp [Config.step, heap_length_alloc]
  have hf := parseProp_frame (Config.step s (.newDict kw)) s.heap.length names
  refine ⟨step_valid h1 (show s.heap.length < _ by omega), step_conf_some h2 trivial, hf.1, fun g => ?_, fun a ha => ?_⟩
  · exact (get_step h1 h2 (op := .parseProp s.heap.length names) trivial g).trans (get_step hs hc (op := .newDict kw) trivial g)
  · exact (hf.2.2 a (by omega)).trans (dict_alloc_old s kw ha)

theorem play_append (E : LA.Eigh) (l₁ l₂ : List Act) : play E (l₁ ++ l₂) = l₂.foldl (act E) (play E l₁) := by
  simp [play, List.foldl_append]

theorem confOps_append (l₁ l₂ : List Act) : confOps (l₁ ++ l₂) = confOps l₁ ++ confOps l₂ := by
  induction l₁ with
  | nil => rfl
  | cons a t ih => cases a <;> simp [confOps, ih]

theorem Regular.prefix {E : LA.Eigh} {l₁ l₂ : List Act} (h : Regular E (l₁ ++ l₂)) : Regular E l₁ := by
  intro b op a e
  exact h b op (a ++ l₂) (by rw [e]; simp)

/-- The getters during a session. -/
theorem get_play (E : LA.Eigh) (acts : List Act) (h : Regular E acts) :
    (play E acts).conf.Valid ∧ (play E acts).conf.conf ≠ none ∧
    ∀ g, get (play E acts).conf g = .ok (lastStored g (confOps acts).reverse) := by
  induction acts using List.reverseRecOn with
  | nil => exact ⟨imported_valid, imported_conf, fun g => get_init _ g⟩
  | append_singleton l a ih =>
    obtain ⟨hv, hc, hg⟩ := ih h.prefix
    rw [play_append, confOps_append]
    show (act E (play E l) a).conf.Valid ∧ (act E (play E l) a).conf.conf ≠ none ∧ ∀ g, get (act E (play E l) a).conf g = _
    cases a with
    | conf op =>
      obtain ⟨w, b⟩ := h l op [] rfl
      refine ⟨step_valid hv w, step_conf_some hc b, fun g => ?_⟩
      show get (Config.step (play E l).conf op) g = _
      rw [get_step hv hc b, List.reverse_append]
      cases op <;> simp [lastStored, hg, confOps]
      split <;> simp_all
    | ell args kw =>
      rw [act_conf_ell, ellConstruct_state]
      obtain ⟨a1, a2, -, a3, -⟩ := make_frame hv hc kw (some ["abs_tol", "rel_tol", "n_plot_2d_points", "n_plot_3d_points"])
      refine ⟨a1, a2, fun g => ?_⟩
      rw [a3, hg]; simp [confOps]
    | hyp nrm shift kw =>
      rw [act_conf_hyp, hypConstruct_state]
      obtain ⟨a1, a2, -, a3, -⟩ := make_frame hv hc kw (some ["abs_tol", "rel_tol"])
      refine ⟨a1, a2, fun g => ?_⟩
      rw [a3, hg]; simp [confOps]

/-- Objects are only ever appended. -/
theorem objs_prefix (E : LA.Eigh) (s : Sess) (acts : List Act) :
    s.ells <+: (acts.foldl (act E) s).ells ∧ s.hyps <+: (acts.foldl (act E) s).hyps := by
  induction acts generalizing s with
  | nil => exact ⟨List.prefix_rfl, List.prefix_rfl⟩
  | cons a t ih =>
    have h := ih (act E s a)
    have : s.ells <+: (act E s a).ells ∧ s.hyps <+: (act E s a).hyps := by
      cases a with
      | conf op => exact ⟨List.prefix_rfl, List.prefix_rfl⟩
      | ell args kw =>
        simp only [act]
        rcases ellConstruct E s.conf args kw with ⟨c, _ | _ | e⟩
        · exact ⟨List.prefix_rfl, List.prefix_rfl⟩
        · exact ⟨List.prefix_rfl, List.prefix_rfl⟩
        · exact ⟨List.prefix_append _ _, List.prefix_rfl⟩
      | hyp nrm shift kw =>
        simp only [act]
        rcases hypConstruct s.conf nrm shift kw with ⟨c, _ | _ | e⟩
        · exact ⟨List.prefix_rfl, List.prefix_rfl⟩
        · exact ⟨List.prefix_rfl, List.prefix_rfl⟩
        · exact ⟨List.prefix_rfl, List.prefix_append _ _⟩
    exact ⟨this.1.trans h.1, this.2.trans h.2⟩

theorem conf_of_get {s : State} {g : Getter} {v : Val} (h : get s g = .ok v) :
    ∃ c glob, s.conf = some c ∧ s.dict c = some glob ∧ dictGet glob g.optName = some v := by
  unfold Config.get getOption at h
  split at h
  · cases h
  · rename_i a ha
    split at h
    · cases h
    · rename_i d hd
      refine ⟨a, d, ha, hd, ?_⟩
      unfold dictIndex at h
      split at h
      · rename_i w hw
        cases h
        exact hw
      · cases h

theorem wanted_kwOr {kw glob : Dict} {earlier : List String} {name : String} {v : Val} (h : name ∉ earlier)
    (hg : dictGet glob name = some v) : wanted kw glob earlier name = some (kwOr kw name v) := by
  unfold wanted kwOr
  rw [if_neg h]
  cases dictGet kw name <;> simp [hg]

theorem stands_num {v : Val} {x : ℝ} : Stands v x ↔ numOf v = some x := by
  constructor
  · rintro (_ | _ | _ | _) <;> simp [numOf]
  · intro h
    cases v with
    | int i => cases h; exact .int i
    | bool b =>
      cases b
      · have : x = 0 := by simpa [numOf, eq_comm] using h
        rw [this]; exact .fls
      · have : x = 1 := by simpa [numOf, eq_comm] using h
        rw [this]; exact .tru
    | float y =>
      cases y with
      | fin q => cases h; exact .float q
      | _ => cases h
    | _ => cases h

/-- The answer of `parse_prop` on fresh keyword arguments, for the four properties of an ellipsoid. -/
theorem parse_four {s : State} (hs : s.Valid) {va vr v2 v3 : Val} (ha : get s .absTol = .ok va) (hr : get s .relTol = .ok vr)
    (h2 : get s .nPlot2dPoints = .ok v2) (h3 : get s .nPlot3dPoints = .ok v3) (kw : Dict) :
    (Admissible "abs_tol" (kwOr kw "abs_tol" va) → Admissible "rel_tol" (kwOr kw "rel_tol" vr) →
      Admissible "n_plot_2d_points" (kwOr kw "n_plot_2d_points" v2) → Admissible "n_plot_3d_points" (kwOr kw "n_plot_3d_points" v3) →
      ∃ s' b, parseProp (alloc s kw).1 (alloc s kw).2 (some ["abs_tol", "rel_tol", "n_plot_2d_points", "n_plot_3d_points"]) =
        (s', .ok ([kwOr kw "abs_tol" va, kwOr kw "rel_tol" vr, kwOr kw "n_plot_2d_points" v2, kwOr kw "n_plot_3d_points" v3], b))) ∧
    (¬ (Admissible "abs_tol" (kwOr kw "abs_tol" va) ∧ Admissible "rel_tol" (kwOr kw "rel_tol" vr) ∧
      Admissible "n_plot_2d_points" (kwOr kw "n_plot_2d_points" v2) ∧ Admissible "n_plot_3d_points" (kwOr kw "n_plot_3d_points" v3)) →
      Raises (parseProp (alloc s kw).1 (alloc s kw).2 (some ["abs_tol", "rel_tol", "n_plot_2d_points", "n_plot_3d_points"])).2) := by
  obtain ⟨c, glob, hc, hd, ga⟩ := conf_of_get ha
  have key : ∀ g v, get s g = .ok v → dictGet glob g.optName = some v := by
    intro g v h
    obtain ⟨c', glob', hc', hd', h'⟩ := conf_of_get h
    have : c = c' := Option.some.inj (hc.symm.trans hc')
    subst this
    have : glob = glob' := Option.some.inj (hd.symm.trans hd')
    subst this
    exact h'
  have gr := key _ _ hr
  have g2 := key _ _ h2
  have g3 := key _ _ h3
  have hd' : (alloc s kw).1.dict c = some glob := (dict_alloc_old s kw (hs c hc)).trans hd
  have w0 : wanted kw glob [] "abs_tol" = _ := wanted_kwOr (by decide) ga
  have w1 : wanted kw glob ["abs_tol"] "rel_tol" = _ := wanted_kwOr (by decide) gr
  have w2 : wanted kw glob ["abs_tol", "rel_tol"] "n_plot_2d_points" = _ := wanted_kwOr (by decide) g2
  have w3 : wanted kw glob ["abs_tol", "rel_tol", "n_plot_2d_points"] "n_plot_3d_points" = _ := wanted_kwOr (by decide) g3
  constructor
  · intro a0 a1 a2 a3
    obtain ⟨s', b, h, -, -⟩ := C03_parse_ok (alloc s kw).1 (alloc s kw).2 c kw glob
      ["abs_tol", "rel_tol", "n_plot_2d_points", "n_plot_3d_points"]
      [kwOr kw "abs_tol" va, kwOr kw "rel_tol" vr, kwOr kw "n_plot_2d_points" v2, kwOr kw "n_plot_3d_points" v3]
      hc hd' (dict_alloc_new s kw) (by unfold KnownName; decide) rfl (by
        intro i h h'
        have h4 : i < 4 := h
        interval_cases i
        · exact ⟨w0, a0⟩
        · exact ⟨w1, a1⟩
        · exact ⟨w2, a2⟩
        · exact ⟨w3, a3⟩)
    exact ⟨s', b, h⟩
  · intro hn
    refine C03_parse_raises (alloc s kw).1 (alloc s kw).2 c kw glob _ hc hd' (dict_alloc_new s kw) (.inr ?_)
    by_cases a0 : Admissible "abs_tol" (kwOr kw "abs_tol" va)
    · by_cases a1 : Admissible "rel_tol" (kwOr kw "rel_tol" vr)
      · by_cases a2 : Admissible "n_plot_2d_points" (kwOr kw "n_plot_2d_points" v2)
        · refine ⟨3, by decide, fun v hv => ?_⟩
          cases w3.symm.trans hv
          exact fun a3 => hn ⟨a0, a1, a2, a3⟩
        · refine ⟨2, by decide, fun v hv => ?_⟩
          cases w2.symm.trans hv
          exact a2
      · refine ⟨1, by decide, fun v hv => ?_⟩
        cases w1.symm.trans hv
        exact a1
    · refine ⟨0, by decide, fun v hv => ?_⟩
      cases w0.symm.trans hv
      exact a0

/-- The same for the two properties of a hyperplane. -/
theorem parse_two {s : State} (hs : s.Valid) {va vr : Val} (ha : get s .absTol = .ok va) (hr : get s .relTol = .ok vr) (kw : Dict) :
    (Admissible "abs_tol" (kwOr kw "abs_tol" va) → Admissible "rel_tol" (kwOr kw "rel_tol" vr) →
      ∃ s' b, parseProp (alloc s kw).1 (alloc s kw).2 (some ["abs_tol", "rel_tol"]) =
        (s', .ok ([kwOr kw "abs_tol" va, kwOr kw "rel_tol" vr], b))) ∧
    (¬ (Admissible "abs_tol" (kwOr kw "abs_tol" va) ∧ Admissible "rel_tol" (kwOr kw "rel_tol" vr)) →
      Raises (parseProp (alloc s kw).1 (alloc s kw).2 (some ["abs_tol", "rel_tol"])).2) := by
  obtain ⟨c, glob, hc, hd, ga⟩ := conf_of_get ha
  obtain ⟨c', glob', hc', hd', gr⟩ := conf_of_get hr
  have : c = c' := Option.some.inj (hc.symm.trans hc')
  subst this
  have : glob = glob' := Option.some.inj (hd.symm.trans hd')
  subst this
  have hd' : (alloc s kw).1.dict c = some glob := (dict_alloc_old s kw (hs c hc)).trans hd
  have w0 : wanted kw glob [] "abs_tol" = _ := wanted_kwOr (by decide) ga
  have w1 : wanted kw glob ["abs_tol"] "rel_tol" = _ := wanted_kwOr (by decide) gr
  constructor
  · intro a0 a1
    obtain ⟨s', b, h, -, -⟩ := C03_parse_ok (alloc s kw).1 (alloc s kw).2 c kw glob
      ["abs_tol", "rel_tol"] [kwOr kw "abs_tol" va, kwOr kw "rel_tol" vr]
      hc hd' (dict_alloc_new s kw) (by unfold KnownName; decide) rfl (by
        intro i h h'
        have h4 : i < 2 := h
        interval_cases i
        · exact ⟨w0, a0⟩
        · exact ⟨w1, a1⟩)
    exact ⟨s', b, h⟩
  · intro hn
    refine C03_parse_raises (alloc s kw).1 (alloc s kw).2 c kw glob _ hc hd' (dict_alloc_new s kw) (.inr ?_)
    by_cases a0 : Admissible "abs_tol" (kwOr kw "abs_tol" va)
    · refine ⟨1, by decide, fun v hv => ?_⟩
      cases w1.symm.trans hv
      exact fun a1 => hn ⟨a0, a1⟩
    · refine ⟨0, by decide, fun v hv => ?_⟩
      cases w0.symm.trans hv
      exact a0

/-- The loop of `parse_prop` reads the keyword arguments only at the wanted names. -/
theorem parseLoop_congr (pre : Dict) (names : List String) : ∀ (checks : List (Val → Bool)) (d d' : Dict) (acc : List Val),
    (∀ n ∈ names, dictGet d n = dictGet d' n) →
    (parseLoop pre names checks d acc).map Prod.fst = (parseLoop pre names checks d' acc).map Prod.fst := by
  induction names with
  | nil => intro checks d d' acc _; rfl
  | cons n t ih =>
    intro checks d d' acc h
    have hn : dictGet d n = dictGet d' n := h n (by simp)
    have ht : ∀ m ∈ t, dictGet d m = dictGet d' m := fun m hm => h m (by simp [hm])
    have hdel : ∀ m ∈ t, dictGet (dictDel d n) m = dictGet (dictDel d' n) m := by
      intro m hm
      rw [dictGet_dictDel, dictGet_dictDel, ht m hm]
    unfold parseLoop
    cases pyIndex checks 0 with
    | error e => rfl
    | ok check =>
      show Except.map Prod.fst (do
        let (val, args') ← (match dictGet d n with
          | some v => .ok (v, dictDel d n)
          | none => do let v ← dictIndex pre n; .ok (v, d) : Py (Val × Dict))
        if (!check val) = true then throwErr "wrongInput" else parseLoop pre t checks.tail args' (acc ++ [val])) = Except.map Prod.fst (do
        let (val, args') ← (match dictGet d' n with
          | some v => .ok (v, dictDel d' n)
          | none => do let v ← dictIndex pre n; .ok (v, d') : Py (Val × Dict))
        if (!check val) = true then throwErr "wrongInput" else parseLoop pre t checks.tail args' (acc ++ [val]))
      rw [← hn]
      cases dictGet d n with
      | some v =>
        show Except.map Prod.fst (if (!check v) = true then throwErr "wrongInput" else parseLoop pre t checks.tail (dictDel d n) (acc ++ [v])) =
          Except.map Prod.fst (if (!check v) = true then throwErr "wrongInput" else parseLoop pre t checks.tail (dictDel d' n) (acc ++ [v]))
        split
        · rfl
        · exact ih _ _ _ _ hdel
      | none =>
        cases dictIndex pre n with
        | error e => rfl
        | ok v =>
          show Except.map Prod.fst (if (!check v) = true then throwErr "wrongInput" else parseLoop pre t checks.tail d (acc ++ [v])) =
            Except.map Prod.fst (if (!check v) = true then throwErr "wrongInput" else parseLoop pre t checks.tail d' (acc ++ [v]))
          split
          · rfl
          · exact ih _ _ _ _ ht

/-- So do the values that `parse_prop` answers. -/
theorem parseProp_congr {s : State} (hs : s.Valid) (kw kw' : Dict) (names : List String)
    (h : ∀ n ∈ names, dictGet kw n = dictGet kw' n) :
    (parseProp (alloc s kw).1 (alloc s kw).2 (some names)).2.map Prod.fst =
      (parseProp (alloc s kw').1 (alloc s kw').2 (some names)).2.map Prod.fst := by
  unfold parseProp
  cases hsel : selectChecks (some names) with
  | error e => rfl
  | ok p =>
    obtain ⟨nm, checks⟩ := p
    have hnm : nm = names := by
      unfold selectChecks at hsel
      dsimp only at hsel
      cases hm : isMember names propNameList with
      | error e => rw [hm] at hsel; cases hsel
      | ok q =>
        obtain ⟨it, ind⟩ := q
        rw [hm] at hsel
        change (if (!it.all id) = true then throwErr "wrongInput" else do
          let checks ← npTake propCheckFuncList ind
          .ok (names, checks) : Py _) = _ at hsel
        split at hsel
        · cases hsel
        · cases hk : npTake propCheckFuncList ind with
          | error e => rw [hk] at hsel; cases hsel
          | ok c => rw [hk] at hsel; cases hsel; rfl
    subst hnm
    cases hc : s.conf with
    | none =>
      have e : ∀ d, getPropDict (alloc s d).1 = ((alloc s d).1, .error .attributeError) := by
        intro d; simp [getPropDict, alloc, hc]
      rw [e, e]
    | some c =>
      obtain ⟨glob, hg⟩ := dict_isSome (hs c hc)
      have e : ∀ d, getPropDict (alloc s d).1 = ((alloc (alloc s d).1 glob).1, .ok (s.heap.length + 1)) := by
        intro d
        have h1 : (alloc s d).1.conf = some c := hc
        have h2 : (alloc s d).1.dict c = some glob := (dict_alloc_old s d (hs c hc)).trans hg
        unfold getPropDict
        rw [h1]
        dsimp only
        rw [h2]
        simp
      have d1 : ∀ d, (alloc (alloc s d).1 glob).1.dict (alloc s d).2 = some d := by
        intro d
        rw [dict_alloc_old _ _ (by simp), dict_alloc_new]
      have d2 : ∀ d, (alloc (alloc s d).1 glob).1.dict (s.heap.length + 1) = some glob := by
        intro d
        have := dict_alloc_new (alloc s d).1 glob
        simpa using this
      rw [e, e]
      dsimp only
      rw [d1, d1, d2, d2]
      dsimp only
      have hl := parseLoop_congr glob nm checks kw kw' [] h
      cases h1 : parseLoop glob nm checks kw [] with
      | error x =>
        cases h2 : parseLoop glob nm checks kw' [] with
        | error y => rw [h1, h2] at hl; cases hl; rfl
        | ok y => rw [h1, h2] at hl; cases hl
      | ok x =>
        obtain ⟨x1, x2⟩ := x
        cases h2 : parseLoop glob nm checks kw' [] with
        | error y => rw [h1, h2] at hl; cases hl
        | ok y =>
          obtain ⟨y1, y2⟩ := y
          rw [h1, h2] at hl
          cases hl
          rfl

end Ellipy.Session
