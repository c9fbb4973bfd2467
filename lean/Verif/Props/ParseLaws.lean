import Verif.Proofs.ParseProp
import Verif.Props.Config

/-! Property theorems C137: laws of `parse_prop` across calls. -/

namespace Ellipy.Config

/-- The call returns the values `vals`, and the returned dictionary holds `rest`. -/
def Yields (s : State) (args : Nat) (names : List String) (vals : List Val) (rest : Dict) : Prop :=
  ∃ s' b, parseProp s args (some names) = (s', .ok (vals, b)) ∧ s'.dict b = some rest

private theorem served_unique {args glob : Dict} {names seen : List String} {vals vals' : List Val} (h : Served args glob seen names vals)
    (h' : Served args glob seen names vals') : vals = vals' := by
  induction names generalizing seen vals vals' with
  | nil => simp only [Served] at h h'; rw [h, h']
  | cons n ns ih =>
    cases vals with
    | nil => exact h.elim
    | cons v vs =>
      cases vals' with
      | nil => exact h'.elim
      | cons v' vs' =>
        obtain ⟨h1, -, h3⟩ := h
        obtain ⟨h1', -, h3'⟩ := h'
        rw [h1] at h1'
        rw [Option.some.inj h1', ih h3 h3']

private theorem parse_ok_iff {s : State} {args c : Nat} {d glob : Dict} (hc : s.conf = some c) (hg : s.dict c = some glob) (ha : s.dict args = some d)
    (names : List String) :
    (∀ vals, (∀ n ∈ names, KnownName n) → Served d glob [] names vals →
      ∃ s' b, parseProp s args (some names) = (s', .ok (vals, b)) ∧ s'.conf = some c ∧ s'.dict c = some glob ∧
        s'.dict b = some (d.filter (fun p => decide (p.1 ∉ names)))) ∧
    ∀ s' vals b, parseProp s args (some names) = (s', .ok (vals, b)) → (∀ n ∈ names, KnownName n) ∧ Served d glob [] names vals ∧
      s'.conf = some c ∧ s'.dict c = some glob ∧ s'.dict b = some (d.filter (fun p => decide (p.1 ∉ names))) := by
  have hclt : c < s.heap.length := by
    by_contra h; simp [State.dict, List.getElem?_eq_none (not_lt.1 h)] at hg
  have hfr := C03_parse_frame s args (some names)
  have hcf : ∀ s' r, parseProp s args (some names) = (s', r) → s'.conf = some c ∧ s'.dict c = some glob := by
    intro s' r h
    rw [h] at hfr
    exact ⟨hfr.1.trans hc, (hfr.2 c hclt).trans hg⟩
  constructor
  · intro vals hk hs
    obtain ⟨checks, h1, h2, h3⟩ := selectChecks_known names hk
    obtain ⟨s', b, e, -, e'⟩ := (parseProp_core h1 h2 h3 hc hg ha).1 vals hs
    exact ⟨s', b, e, (hcf _ _ e).1, (hcf _ _ e).2, e'⟩
  · intro s' vals b e
    by_cases hk : ∀ n ∈ names, n ∈ propNameList
    · obtain ⟨checks, h1, h2, h3⟩ := selectChecks_known names hk
      have core := parseProp_core h1 h2 h3 hc hg ha
      by_cases hs : ∃ vals, Served d glob [] names vals
      · obtain ⟨vals', hs⟩ := hs
        obtain ⟨s'', b', e1, -, e2⟩ := core.1 vals' hs
        rw [e] at e1
        obtain ⟨rfl, e3⟩ := Prod.mk.inj e1
        obtain ⟨rfl, rfl⟩ := Prod.mk.inj (Except.ok.inj e3)
        exact ⟨hk, hs, (hcf _ _ e).1, (hcf _ _ e).2, e2⟩
      · obtain ⟨x, hx⟩ := core.2 hs
        rw [e] at hx
        exact absurd hx (by simp)
    · unfold parseProp at e
      rw [selectChecks_unknown names hk] at e
      simp at e

private theorem yields_iff {s : State} {args c : Nat} {d glob : Dict} (hc : s.conf = some c) (hg : s.dict c = some glob) (ha : s.dict args = some d)
    (names : List String) (vals : List Val) (rest : Dict) :
    Yields s args names vals rest ↔ (∀ n ∈ names, KnownName n) ∧ Served d glob [] names vals ∧ rest = d.filter (fun p => decide (p.1 ∉ names)) := by
  obtain ⟨h1, h2⟩ := parse_ok_iff hc hg ha names
  constructor
  · rintro ⟨s', b, e, e'⟩
    obtain ⟨g1, g2, -, -, g5⟩ := h2 _ _ _ e
    rw [e'] at g5
    exact ⟨g1, g2, Option.some.inj g5⟩
  · rintro ⟨g1, g2, rfl⟩
    obtain ⟨s', b, e, -, -, e'⟩ := h1 vals g1 g2
    exact ⟨s', b, e, e'⟩

private theorem served_append {args glob : Dict} {n1 n2 seen : List String} {vals : List Val} :
    Served args glob seen (n1 ++ n2) vals ↔ ∃ v1 v2, vals = v1 ++ v2 ∧ Served args glob seen n1 v1 ∧ Served args glob (seen ++ n1) n2 v2 := by
  induction n1 generalizing seen vals with
  | nil => simp [Served]
  | cons n ns ih =>
    constructor
    · intro h
      cases vals with
      | nil => exact h.elim
      | cons v vs =>
        obtain ⟨h1, h2, h3⟩ := h
        obtain ⟨v1, v2, rfl, g1, g2⟩ := ih.1 h3
        exact ⟨v :: v1, v2, rfl, ⟨h1, h2, g1⟩, by simpa using g2⟩
    · rintro ⟨v1, v2, rfl, g1, g2⟩
      cases v1 with
      | nil => exact g1.elim
      | cons v vs =>
        obtain ⟨h1, h2, h3⟩ := g1
        exact ⟨h1, h2, ih.2 ⟨vs, v2, rfl, h3, by simpa using g2⟩⟩

private theorem wanted_filter (d glob : Dict) (seen seen' : List String) (n : String) :
    wanted (d.filter (fun p => decide (p.1 ∉ seen))) glob seen' n = wanted d glob (seen ++ seen') n := by
  unfold wanted
  rw [dictGet_filter d (fun x => decide (x ∉ seen)) n]
  by_cases h1 : n ∈ seen <;> by_cases h2 : n ∈ seen' <;> simp [h1, h2]

private theorem served_filter {d glob : Dict} {seen seen' names : List String} {vals : List Val} :
    Served (d.filter (fun p => decide (p.1 ∉ seen))) glob seen' names vals ↔ Served d glob (seen ++ seen') names vals := by
  induction names generalizing seen' vals with
  | nil => simp [Served]
  | cons n ns ih =>
    cases vals with
    | nil => simp [Served]
    | cons v vs => simp only [Served, wanted_filter, ih, List.append_assoc]

/-- The value of a property that is asked for once. -/
private theorem served_nodup {d glob : Dict} {seen names : List String} {vals : List Val} (hn : names.Nodup) (hd : ∀ n ∈ names, n ∉ seen) :
    Served d glob seen names vals ↔ List.Forall₂ (fun n v => (dictGet d n).or (dictGet glob n) = some v ∧ Admissible n v) names vals := by
  induction names generalizing seen vals with
  | nil => simp [Served]
  | cons n ns ih =>
    cases vals with
    | nil => simp [Served]
    | cons v vs =>
      rw [List.nodup_cons] at hn
      have e : wanted d glob seen n = (dictGet d n).or (dictGet glob n) := by
        unfold wanted
        rw [if_neg (hd n List.mem_cons_self)]
        cases dictGet d n <;> rfl
      simp only [Served, List.forall₂_cons, e, and_assoc]
      rw [ih hn.2 (fun m hm => ?_)]
      rw [List.mem_append, List.mem_singleton, not_or]
      exact ⟨hd m (List.mem_cons_of_mem _ hm), fun h => hn.1 (h ▸ hm)⟩

/-- **C137**: asking for two lists of names at once is the same as asking for the first and then, with what is left, for the second. -/
theorem C137_split (s : State) (args c : Nat) (d glob : Dict) (hc : s.conf = some c) (hg : s.dict c = some glob) (ha : s.dict args = some d)
    (n1 n2 : List String) (vals : List Val) (rest : Dict) :
    Yields s args (n1 ++ n2) vals rest ↔
      ∃ s1 b v1 v2, parseProp s args (some n1) = (s1, .ok (v1, b)) ∧ Yields s1 b n2 v2 rest ∧ vals = v1 ++ v2 := by
  obtain ⟨h1, h2⟩ := parse_ok_iff hc hg ha n1
  have hff : (d.filter (fun p => decide (p.1 ∉ n1))).filter (fun p => decide (p.1 ∉ n2)) = d.filter (fun p => decide (p.1 ∉ n1 ++ n2)) := by
    rw [List.filter_filter]
    apply List.filter_congr
    intro p _
    by_cases h1 : p.1 ∈ n1 <;> by_cases h2 : p.1 ∈ n2 <;> simp [h1, h2]
  rw [yields_iff hc hg ha, served_append]
  constructor
  · rintro ⟨hk, ⟨v1, v2, rfl, g1, g2⟩, rfl⟩
    obtain ⟨s1, b, e, e1, e2, e3⟩ := h1 v1 (fun n hn => hk n (List.mem_append_left _ hn)) g1
    refine ⟨s1, b, v1, v2, e, ?_, rfl⟩
    rw [yields_iff e1 e2 e3]
    refine ⟨fun n hn => hk n (List.mem_append_right _ hn), served_filter.2 (by simpa using g2), hff.symm⟩
  · rintro ⟨s1, b, v1, v2, e, hy, rfl⟩
    obtain ⟨g1, g2, g3, g4, g5⟩ := h2 _ _ _ e
    rw [yields_iff g3 g4 g5] at hy
    obtain ⟨k1, k2, rfl⟩ := hy
    refine ⟨fun n hn => ?_, ⟨v1, v2, rfl, g2, by simpa using served_filter.1 k2⟩, hff⟩
    rcases List.mem_append.1 hn with hn | hn
    · exact g1 n hn
    · exact k1 n hn

/-- **C137**: what is left holds none of the names asked for: asking for some of them again returns the global values and leaves the same. -/
theorem C137_again (s : State) (args c : Nat) (d glob : Dict) (hc : s.conf = some c) (hg : s.dict c = some glob) (ha : s.dict args = some d)
    (names names' : List String) (hsub : ∀ n ∈ names', n ∈ names) (s1 : State) (b : Nat) (vals : List Val)
    (h : parseProp s args (some names) = (s1, .ok (vals, b))) (rest : Dict) (hr : s1.dict b = some rest) (vals' : List Val) (rest' : Dict) :
    Yields s1 b names' vals' rest' ↔ rest' = rest ∧ List.Forall₂ (fun n v => dictGet glob n = some v ∧ Admissible n v) names' vals' := by
  obtain ⟨g1, -, g3, g4, g5⟩ := (parse_ok_iff hc hg ha names).2 _ _ _ h
  rw [hr] at g5
  obtain rfl := Option.some.inj g5
  have hff : (d.filter (fun p => decide (p.1 ∉ names))).filter (fun p => decide (p.1 ∉ names')) = d.filter (fun p => decide (p.1 ∉ names)) := by
    rw [List.filter_eq_self]
    intro p hp
    rw [List.mem_filter, decide_eq_true_eq] at hp
    exact decide_eq_true fun h => hp.2 (hsub _ h)
  have key : ∀ seen, Served (d.filter (fun p => decide (p.1 ∉ names))) glob seen names' vals' ↔
      List.Forall₂ (fun n v => dictGet glob n = some v ∧ Admissible n v) names' vals' := by
    clear hff
    induction names' generalizing vals' with
    | nil => intro seen; simp [Served]
    | cons n ns ih =>
      intro seen
      cases vals' with
      | nil => simp [Served]
      | cons v vs =>
        have e : wanted (d.filter (fun p => decide (p.1 ∉ names))) glob seen n = dictGet glob n := by
          rw [wanted_filter]
          unfold wanted
          rw [if_pos (List.mem_append_left _ (hsub n List.mem_cons_self))]
        simp only [Served, List.forall₂_cons, e, and_assoc]
        rw [ih (fun m hm => hsub m (List.mem_cons_of_mem _ hm)) vs (seen ++ [n])]
  rw [yields_iff g3 g4 hr, key, hff]
  constructor
  · rintro ⟨-, k2, rfl⟩; exact ⟨rfl, k2⟩
  · rintro ⟨rfl, k2⟩; exact ⟨fun n hn => g1 n (hsub n hn), k2, rfl⟩

/-- **C137**: the order of different names only orders the answers. -/
theorem C137_order (s : State) (args c : Nat) (d glob : Dict) (hc : s.conf = some c) (hg : s.dict c = some glob) (ha : s.dict args = some d)
    (names names' : List String) (hn : names.Nodup) (hp : names'.Perm names) (vals : List Val) (rest : Dict) (h : Yields s args names vals rest) :
    ∃ vals', Yields s args names' vals' rest ∧ vals'.length = names'.length ∧ (names'.zip vals').Perm (names.zip vals) := by
  rw [yields_iff hc hg ha, served_nodup hn (by simp)] at h
  obtain ⟨h1, h2, rfl⟩ := h
  let f : String → Val := fun n => ((dictGet d n).or (dictGet glob n)).getD .none
  have hf : vals = names.map f ∧ ∀ n ∈ names, (dictGet d n).or (dictGet glob n) = some (f n) ∧ Admissible n (f n) := by
    clear h1 hn hp
    induction h2 with
    | nil => exact ⟨rfl, by simp⟩
    | @cons n v ns vs hnv _ ih =>
      have e : f n = v := by simp only [f, hnv.1, Option.getD_some]
      refine ⟨by rw [List.map_cons, e, ← ih.1], ?_⟩
      rintro m hm
      rcases List.mem_cons.1 hm with rfl | hm
      · rw [e]; exact hnv
      · exact ih.2 m hm
  refine ⟨names'.map f, ?_, by simp, ?_⟩
  · rw [yields_iff hc hg ha, served_nodup (hp.nodup_iff.2 hn) (by simp), List.forall₂_map_right_iff, List.forall₂_same]
    refine ⟨fun n hn' => h1 n (hp.mem_iff.1 hn'), fun n hn' => hf.2 n (hp.mem_iff.1 hn'), ?_⟩
    apply List.filter_congr
    intro p _
    simp only [hp.mem_iff]
  · rw [hf.1]
    have e : ∀ l : List String, l.zip (l.map f) = l.map fun n => (n, f n) := by
      intro l
      induction l with
      | nil => rfl
      | cons x t ih => simp [ih]
    rw [e, e]
    exact hp.map _

/-- **C137**: only the entries with the names asked for matter for the answers. -/
theorem C137_others (s : State) (args args' c : Nat) (d d' glob : Dict) (hc : s.conf = some c) (hg : s.dict c = some glob) (ha : s.dict args = some d)
    (ha' : s.dict args' = some d') (names : List String) (hag : ∀ n ∈ names, dictGet d' n = dictGet d n) (vals : List Val) :
    (∃ rest, Yields s args names vals rest) ↔ ∃ rest, Yields s args' names vals rest := by
  have key : ∀ seen, Served d glob seen names vals ↔ Served d' glob seen names vals := by
    induction names generalizing vals with
    | nil => simp [Served]
    | cons n ns ih =>
      intro seen
      cases vals with
      | nil => simp [Served]
      | cons v vs =>
        have e : wanted d' glob seen n = wanted d glob seen n := by
          unfold wanted
          rw [hag n List.mem_cons_self]
        simp only [Served, e, ih (fun m hm => hag m (List.mem_cons_of_mem _ hm)) vs (seen ++ [n])]
  simp only [yields_iff hc hg ha, yields_iff hc hg ha', key]
  constructor
  · rintro ⟨_, h1, h2, -⟩; exact ⟨_, h1, h2, rfl⟩
  · rintro ⟨_, h1, h2, -⟩; exact ⟨_, h1, h2, rfl⟩

/-- **C137**: an argument and a setting are interchangeable: passing the value `v` for an option is the same as storing it with the setter first. -/
theorem C137_setting (s : State) (args args' c : Nat) (d d' glob : Dict) (hc : s.conf = some c) (hg : s.dict c = some glob) (ha : s.dict args = some d)
    (ha' : s.dict args' = some d') (hne : args ≠ c) (k : Setter) (v : Val) (hno : dictGet d k.optName = none) (hd' : d' = dictSet d k.optName v)
    (names : List String) (hn : names.Nodup) (hk : k.optName ∈ names) (vals : List Val) (rest : Dict) :
    Yields (set s k v).1 args names vals rest ↔ Yields s args' names vals rest := by
  subst hd'
  have hset : (set s k v).1 = update s c (fun d => dictSet d k.optName v) := by
    simp [set, setOption, hc]
  have h1 : (set s k v).1.conf = some c := by rw [hset]; exact hc
  have h2 : (set s k v).1.dict c = some (dictSet glob k.optName v) := by rw [hset, dict_update_self, hg]; rfl
  have h3 : (set s k v).1.dict args = some d := by rw [hset, dict_update_ne s _ hne, ha]
  rw [yields_iff h1 h2 h3, yields_iff hc hg ha', served_nodup hn (by simp), served_nodup hn (by simp)]
  have e1 : ∀ n, (dictGet d n).or (dictGet (dictSet glob k.optName v) n) = (dictGet (dictSet d k.optName v) n).or (dictGet glob n) := by
    intro n
    rw [dictGet_dictSet, dictGet_dictSet]
    by_cases h : n = k.optName
    · subst h; simp [hno]
    · simp [h, Ne.symm h]
  have e2 : ∀ d : Dict, (dictSet d k.optName v).filter (fun p => decide (p.1 ∉ names)) = d.filter (fun p => decide (p.1 ∉ names)) := by
    intro d
    induction d with
    | nil => simp [dictSet, hk]
    | cons p t ih =>
      obtain ⟨a, b⟩ := p
      rw [dictSet]
      split
      · next h => subst h; simp [hk]
      · simp only [List.filter_cons, ih]
  simp only [e1, e2]

/-- **C137**: the answers, passed on as arguments, give the same answers under any settings. -/
theorem C137_round (s : State) (args c : Nat) (d glob : Dict) (hc : s.conf = some c) (hg : s.dict c = some glob) (ha : s.dict args = some d)
    (names : List String) (hn : names.Nodup) (vals : List Val) (rest : Dict) (h : Yields s args names vals rest)
    (s' : State) (args' c' : Nat) (glob' : Dict) (hc' : s'.conf = some c') (hg' : s'.dict c' = some glob') (ha' : s'.dict args' = some (names.zip vals)) :
    Yields s' args' names vals [] := by
  rw [yields_iff hc hg ha, served_nodup hn (by simp)] at h
  obtain ⟨h1, h2, -⟩ := h
  rw [yields_iff hc' hg' ha', served_nodup hn (by simp)]
  have key : ∀ (pre : Dict) (names : List String) (vals : List Val), names.Nodup → (∀ n ∈ names, dictGet pre n = none) →
      List.Forall₂ (fun n v => (dictGet d n).or (dictGet glob n) = some v ∧ Admissible n v) names vals →
      List.Forall₂ (fun n v => (dictGet (pre ++ names.zip vals) n).or (dictGet glob' n) = some v ∧ Admissible n v) names vals := by
    intro pre names vals hn hpre h
    induction h generalizing pre with
    | nil => exact .nil
    | @cons n v ns vs hnv _ ih =>
      rw [List.nodup_cons] at hn
      have happ : ∀ (l : Dict) m, dictGet (pre ++ l) m = (dictGet pre m).or (dictGet l m) := by
        intro l m
        simp only [dictGet, List.find?_append]
        cases List.find? (fun p => p.1 == m) pre <;> rfl
      refine .cons ⟨?_, hnv.2⟩ ?_
      · rw [happ, hpre n List.mem_cons_self, List.zip_cons_cons, dictGet_cons]
        simp
      · have := ih (pre ++ [(n, v)]) hn.2 (fun m hm => by
          rw [happ, hpre m (List.mem_cons_of_mem _ hm), dictGet_cons]
          have : ¬ n = m := fun h => hn.1 (h ▸ hm)
          simp [this])
        rw [List.zip_cons_cons]
        simpa using this
  refine ⟨h1, by simpa using key [] names vals hn (by simp) h2, ?_⟩
  rw [eq_comm, List.filter_eq_nil_iff]
  rintro ⟨a, b⟩ hp
  simpa using (List.of_mem_zip hp).1

/-- **C137**: without an argument the answer is what the getter returns. -/
theorem C137_getter (s : State) (args c : Nat) (d glob : Dict) (hc : s.conf = some c) (hg : s.dict c = some glob) (ha : s.dict args = some d)
    (g : Getter) (hno : dictGet d g.optName = none) (v : Val) :
    Yields s args [g.optName] [v] d ↔ get s g = .ok v ∧ Admissible g.optName v := by
  rw [yields_iff hc hg ha, served_nodup (by simp) (by simp)]
  have e : d.filter (fun p => decide (p.1 ∉ [g.optName])) = d := by
    rw [List.filter_eq_self]
    intro p hp
    have : ¬ p.1 = g.optName := by
      intro h
      rw [dictGet, Option.map_eq_none_iff, List.find?_eq_none] at hno
      exact hno p hp (by simpa using h)
    simpa using this
  have hk : KnownName g.optName := by cases g <;> (unfold KnownName; decide)
  have eg : get s g = .ok v ↔ dictGet glob g.optName = some v := by
    rw [get, getOption_eq hc hg, dictIndex]
    cases dictGet glob g.optName <;> simp
  rw [eg, e]
  simp [hno, hk]

/-! ### Non-triviality -/

/-- Two arguments, one of them asked for: the other one is left and found by the second call. -/
private def st : State := (alloc imported [("rel_tol", .float (.fin 3)), ("n_plot_2d_points", .int 7)]).1

example : Yields st 1 (["rel_tol", "abs_tol"] ++ ["n_plot_2d_points"]) [.float (.fin 3), .float (.fin (1 / 1000000)), .int 7] [] := by
  rw [yields_iff (c := 0) (glob := defaultDict) rfl rfl rfl, served_nodup (by decide) (by simp)]
  refine ⟨by unfold KnownName; decide, .cons ⟨rfl, ?_⟩ (.cons ⟨rfl, ?_⟩ (.cons ⟨rfl, ?_⟩ .nil)), rfl⟩
  · exact .inr (.inr (.inl ⟨by simp, .inr ⟨_, by norm_num, rfl⟩⟩))
  · exact .inr (.inr (.inl ⟨by simp, .inr ⟨_, by norm_num, rfl⟩⟩))
  · exact .inr (.inr (.inr (.inr ⟨by simp, .inl ⟨_, rfl⟩⟩)))

example : dictGet [("rel_tol", Val.float (.fin 3)), ("n_plot_2d_points", .int 7)] (Setter.absTol).optName = none ∧
    (Setter.absTol).optName ∈ ["rel_tol", "abs_tol"] := by decide

end Ellipy.Config
