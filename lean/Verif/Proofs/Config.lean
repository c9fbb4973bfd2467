import Mathlib.Tactic.Linarith
import Mathlib.Data.List.Basic
import Mathlib.Data.List.Induction
import Verif.Spec.Config
import Verif.Proofs.IsMember

namespace Ellipy.Config

theorem dictGet_cons (p : String × Val) (d : Dict) (k : String) :
    dictGet (p :: d) k = if p.1 = k then some p.2 else dictGet d k := by
  unfold dictGet
  by_cases h : p.1 = k
  · simp [h]
  · simp [h, beq_eq_false_iff_ne.2 h]

@[simp] theorem dictGet_nil (k : String) : dictGet [] k = none := rfl

theorem dictGet_dictSet (d : Dict) (k : String) (v : Val) (k' : String) :
    dictGet (dictSet d k v) k' = if k = k' then some v else dictGet d k' := by
  induction d with
  | nil => simp [dictSet, dictGet_cons]
  | cons p t ih =>
    obtain ⟨k0, v0⟩ := p
    unfold dictSet
    by_cases h : k0 = k
    · subst h
      simp only [if_true, dictGet_cons]
      split <;> rfl
    · simp only [h, if_false, dictGet_cons, ih]
      by_cases h1 : k0 = k'
      · subst h1; simp [Ne.symm h]
      · simp [h1]

theorem dictGet_filter (d : Dict) (q : String → Bool) (k : String) :
    dictGet (d.filter (fun p => q p.1)) k = if q k then dictGet d k else none := by
  induction d with
  | nil => simp
  | cons p t ih =>
    simp only [List.filter_cons]
    by_cases hk : p.1 = k
    · subst hk
      cases hq : q p.1
      · simp [ih, hq]
      · simp [dictGet_cons]
    · cases hq : q p.1 <;> simp [dictGet_cons, hk, ih]

theorem dictGet_dictDel (d : Dict) (k k' : String) :
    dictGet (dictDel d k) k' = if k' = k then none else dictGet d k' := by
  have := dictGet_filter d (fun x => x != k) k'
  unfold dictDel
  rw [this]
  by_cases h : k' = k <;> simp [h]

theorem dictDel_of_get_none {d : Dict} {k : String} (h : dictGet d k = none) : dictDel d k = d := by
  unfold dictDel
  rw [List.filter_eq_self]
  intro p hp
  by_contra hc
  have hpk : p.1 = k := by simpa using hc
  unfold dictGet at h
  simp only [Option.map_eq_none_iff, List.find?_eq_none] at h
  exact h p hp (by simp [hpk])

/-! ### Heap -/

/-- The repository variable refers to an existing dictionary. -/
def State.Valid (s : State) : Prop := ∀ a, s.conf = some a → a < s.heap.length

@[simp] theorem dict_update_self (s : State) (a : Nat) (f : Dict → Dict) :
    (update s a f).dict a = (s.dict a).map f := by
  simp [update, State.dict]

theorem dict_update_ne (s : State) {a b : Nat} (f : Dict → Dict) (h : b ≠ a) :
    (update s a f).dict b = s.dict b := by
  simp [update, State.dict, Ne.symm h]

@[simp] theorem conf_update (s : State) (a : Nat) (f : Dict → Dict) : (update s a f).conf = s.conf := rfl
@[simp] theorem heap_length_update (s : State) (a : Nat) (f : Dict → Dict) :
    (update s a f).heap.length = s.heap.length := by simp [update]

theorem dict_alloc_old (s : State) (d : Dict) {a : Nat} (h : a < s.heap.length) :
    (alloc s d).1.dict a = s.dict a := by
  simp [alloc, State.dict, List.getElem?_append_left h]

@[simp] theorem dict_alloc_new (s : State) (d : Dict) : (alloc s d).1.dict (alloc s d).2 = some d := by
  simp [alloc, State.dict]

@[simp] theorem conf_alloc (s : State) (d : Dict) : (alloc s d).1.conf = s.conf := rfl
@[simp] theorem heap_length_alloc (s : State) (d : Dict) :
    (alloc s d).1.heap.length = s.heap.length + 1 := by simp [alloc]
@[simp] theorem alloc_snd (s : State) (d : Dict) : (alloc s d).2 = s.heap.length := rfl

theorem Valid.lt {s : State} (h : s.Valid) {a : Nat} (ha : s.conf = some a) : a < s.heap.length := h a ha

theorem dict_isSome {s : State} {a : Nat} (h : a < s.heap.length) : ∃ d, s.dict a = some d :=
  ⟨s.heap[a], by simp [State.dict, h]⟩

theorem getOption_eq {s : State} {a : Nat} {d : Dict} (hc : s.conf = some a) (hd : s.dict a = some d)
    (k : String) : getOption s k = dictIndex d k := by
  simp [getOption, hc, hd]

theorem getOption_congr {s s' : State} (hc : s'.conf = s.conf)
    (hd : ∀ a, s.conf = some a → s'.dict a = s.dict a) (k : String) :
    getOption s' k = getOption s k := by
  unfold getOption
  rw [hc]
  cases h : s.conf with
  | none => rfl
  | some a => simp only [hd a h]

/-! ### parse_prop leaves existing objects alone -/

theorem getPropDict_old {s : State} {a : Nat} (ha : a < s.heap.length) :
    (getPropDict s).1.dict a = s.dict a := by
  unfold getPropDict
  cases s.conf with
  | none => rfl
  | some c =>
    simp only
    cases s.dict c with
    | none => rfl
    | some d => exact dict_alloc_old s d ha

theorem getPropDict_conf (s : State) : (getPropDict s).1.conf = s.conf := by
  unfold getPropDict
  cases h : s.conf with
  | none => simp [h]
  | some c =>
    simp only
    cases s.dict c with
    | none => simp [h]
    | some d => simp [h]

theorem getPropDict_len (s : State) : s.heap.length ≤ (getPropDict s).1.heap.length := by
  unfold getPropDict
  cases s.conf with
  | none => simp
  | some c =>
    simp only
    cases s.dict c with
    | none => simp
    | some d => simp

theorem parseProp_frame (s : State) (args : Nat) (needed : Option (List String)) :
    (parseProp s args needed).1.conf = s.conf ∧ s.heap.length ≤ (parseProp s args needed).1.heap.length ∧
    ∀ a, a < s.heap.length → (parseProp s args needed).1.dict a = s.dict a := by
  unfold parseProp
  cases selectChecks needed with
  | error e => exact ⟨rfl, le_refl _, fun _ _ => rfl⟩
  | ok nc =>
    obtain ⟨names, checks⟩ := nc
    simp only
    have hc := getPropDict_conf s
    have hl := getPropDict_len s
    have ho := fun a (ha : a < s.heap.length) => getPropDict_old ha
    rcases hg : getPropDict s with ⟨s1, r⟩
    rw [hg] at hc hl ho
    cases r with
    | error e => exact ⟨hc, hl, ho⟩
    | ok pre =>
      simp only
      cases h1 : s1.dict args with
      | none => exact ⟨hc, hl, ho⟩
      | some d =>
        cases h2 : s1.dict pre with
        | none => exact ⟨hc, hl, ho⟩
        | some preD =>
          simp only
          have ho' : ∀ a, a < s.heap.length → (alloc s1 d).1.dict a = s.dict a := fun a ha => by
            rw [dict_alloc_old s1 d (lt_of_lt_of_le ha hl)]; exact ho a ha
          cases parseLoop preD names checks d [] with
          | error e => exact ⟨hc, by simp; simp at hl; omega, ho'⟩
          | ok p =>
            refine ⟨hc, by simp; simp at hl; omega, fun a ha => ?_⟩
            have : a ≠ (alloc s1 d).2 := by simp at hl ⊢; omega
            simp only
            rw [dict_update_ne _ _ this]
            exact ho' a ha

/-! ### One-step laws -/

theorem init_valid (s : State) : (init s).Valid := by
  intro a h
  simp only [init, alloc_snd, Option.some.injEq] at h
  subst h
  simp [init, alloc]

theorem init_conf (s : State) : (init s).conf = some s.heap.length := rfl

theorem init_dict (s : State) : (init s).dict s.heap.length = some defaultDict := by
  simp [init, alloc, State.dict]

theorem init_old (s : State) {a : Nat} (h : a < s.heap.length) : (init s).dict a = s.dict a := by
  simp [init, alloc, State.dict, List.getElem?_append_left h]

theorem init_len (s : State) : (init s).heap.length = s.heap.length + 1 := by simp [init, alloc]

theorem get_init (s : State) (g : Getter) : get (init s) g = .ok (docDefault g) := by
  unfold get
  rw [getOption_eq (init_conf s) (init_dict s)]
  cases g <;> rfl

theorem observes_iff (g : Getter) (k : Setter) : observes g k = true ↔ k.optName = g.optName := by
  cases g <;> cases k <;> decide

theorem step_valid {s : State} (hs : s.Valid) {op : Op} (hw : op.WellFormed s) : (step s op).Valid := by
  cases op with
  | init => exact init_valid s
  | set k v =>
    unfold step Config.set setOption
    cases h : s.conf with
    | none => simpa using hs
    | some a => intro b hb; simp at hb ⊢; exact hs b hb
  | get g => exact hs
  | getPropDict =>
    intro a ha
    simp only [step, getPropDict_conf] at ha ⊢
    exact lt_of_lt_of_le (hs a ha) (getPropDict_len s)
  | getConfRepoMgr =>
    unfold step Config.getConfRepoMgr
    cases h : s.conf with
    | none => exact init_valid s
    | some a => simpa using hs
  | setConfRepoMgr a =>
    intro b hb
    simp only [step, Config.setConfRepoMgr] at hb ⊢
    subst hb
    exact hw
  | parseProp a n =>
    intro b hb
    have hf := parseProp_frame s a n
    simp only [step] at hb ⊢
    rw [hf.1] at hb
    exact lt_of_lt_of_le (hs b hb) hf.2.1
  | newDict d =>
    intro b hb
    have := hs b hb
    simp only [step, heap_length_alloc]; omega
  | write a k v => intro b hb; simp only [step, heap_length_update]; exact hs b hb

theorem run_valid {s : State} (hs : s.Valid) (ops : List Op) (hw : AllOps (fun s op => op.WellFormed s) s ops) :
    (run s ops).Valid := by
  induction ops generalizing s with
  | nil => exact hs
  | cons op ops ih => exact ih (step_valid hs hw.1) hw.2

/-- The conf variable stays set as long as nobody replaces the repository by `None`. -/
theorem step_conf_some {s : State} (h : s.conf ≠ none) {op : Op} (hb : op.NoBackdoor s) :
    (step s op).conf ≠ none := by
  cases op with
  | init => simp [step, init]
  | set k v =>
    unfold step Config.set setOption
    cases hc : s.conf with
    | none => exact absurd hc h
    | some a => simp [hc]
  | get g => exact h
  | getPropDict => simpa [step, getPropDict_conf] using h
  | getConfRepoMgr =>
    unfold step Config.getConfRepoMgr
    cases hc : s.conf with
    | none => exact absurd hc h
    | some a => simp [hc]
  | setConfRepoMgr a => exact hb.elim
  | parseProp a n => simpa [step, (parseProp_frame s a n).1] using h
  | newDict d => exact h
  | write a k v => exact h

/-- What a getter returns after one operation. -/
theorem get_step {s : State} (hs : s.Valid) (hc : s.conf ≠ none) {op : Op} (hb : op.NoBackdoor s) (g : Getter) :
    get (step s op) g = match op with
      | .init => .ok (docDefault g)
      | .set k v => if observes g k then .ok v else get s g
      | _ => get s g := by
  obtain ⟨c, hc'⟩ := Option.ne_none_iff_exists'.1 hc
  have hlt := hs c hc'
  cases op with
  | init => exact get_init s g
  | set k v =>
    obtain ⟨d, hd⟩ := dict_isSome hlt
    have e1 : step s (.set k v) = update s c (fun d => dictSet d k.optName v) := by
      simp [step, Config.set, setOption, hc']
    simp only [e1, Config.get]
    rw [getOption_eq (a := c) (d := dictSet d k.optName v) (by simpa using hc') (by simp [hd]),
      getOption_eq hc' hd]
    unfold dictIndex
    rw [dictGet_dictSet]
    by_cases h : observes g k = true
    · simp [h, (observes_iff g k).1 h]
    · have : ¬ k.optName = g.optName := fun hh => h ((observes_iff g k).2 hh)
      simp [h, this]
  | get g' => rfl
  | getPropDict =>
    exact getOption_congr (getPropDict_conf s) (fun a ha => getPropDict_old (hs a ha)) _
  | getConfRepoMgr =>
    simp [step, Config.getConfRepoMgr, hc']
  | setConfRepoMgr a => exact hb.elim
  | parseProp a n =>
    have hf := parseProp_frame s a n
    exact getOption_congr hf.1 (fun b hb => hf.2.2 b (hs b hb)) _
  | newDict d => exact getOption_congr (s := s) (s' := (alloc s d).1) rfl (fun b hb => dict_alloc_old s d (hs b hb)) _
  | write a k v =>
    refine getOption_congr (s := s) (s' := update s a (fun d => dictSet d k v)) rfl (fun b hb' => dict_update_ne _ _ ?_) _
    intro h; subst h; exact hb hb'

theorem imported_valid : imported.Valid := init_valid _
theorem imported_conf : imported.conf ≠ none := by simp [imported, init]

theorem NoBackdoor.wf_setConf {s : State} {op : Op} (h : op.NoBackdoor s) : ∀ a, op ≠ .setConfRepoMgr a := by
  intro a e; subst e; exact h

theorem run_append (s : State) (l₁ l₂ : List Op) : run s (l₁ ++ l₂) = run (run s l₁) l₂ := by
  simp [run, List.foldl_append]

theorem AllOps_append (P : State → Op → Prop) (s : State) (l₁ l₂ : List Op) :
    AllOps P s (l₁ ++ l₂) ↔ AllOps P s l₁ ∧ AllOps P (run s l₁) l₂ := by
  induction l₁ generalizing s with
  | nil => simp [AllOps, run]
  | cons op l ih => simp [AllOps, ih, run, and_assoc]

/-- History theorem: getters refine the last-write-wins reading of the history. -/
theorem get_run (hist : List Op)
    (hw : AllOps (fun s op => op.WellFormed s ∧ op.NoBackdoor s) imported hist) (g : Getter) :
    (run imported hist).Valid ∧ (run imported hist).conf ≠ none ∧
    get (run imported hist) g = .ok (lastStored g hist.reverse) := by
  induction hist using List.reverseRecOn generalizing g with
  | nil => exact ⟨imported_valid, imported_conf, get_init _ g⟩
  | append_singleton l op ih =>
    rw [AllOps_append] at hw
    obtain ⟨hv, hc, hg⟩ := ih hw.1 g
    obtain ⟨⟨w, b⟩, -⟩ := hw.2
    rw [run_append]
    refine ⟨step_valid hv w, step_conf_some hc b, ?_⟩
    show get (step (run imported l) op) g = _
    rw [get_step hv hc b, List.reverse_append]
    cases op <;> simp [lastStored, hg]
    split <;> simp_all

/-- The same from any state with a repository. -/
theorem get_run_since {s : State} (hs : s.Valid) (hc : s.conf ≠ none) (hist : List Op)
    (hw : AllOps (fun s op => op.WellFormed s ∧ op.NoBackdoor s) s hist) (g : Getter) :
    (run s hist).Valid ∧ (run s hist).conf ≠ none ∧
    get (run s hist) g = match storedSince g hist.reverse with | some v => .ok v | none => get s g := by
  induction hist using List.reverseRecOn generalizing g with
  | nil => exact ⟨hs, hc, rfl⟩
  | append_singleton l op ih =>
    rw [AllOps_append] at hw
    obtain ⟨hv, hc, hg⟩ := ih hw.1 g
    obtain ⟨⟨w, b⟩, -⟩ := hw.2
    rw [run_append]
    refine ⟨step_valid hv w, step_conf_some hc b, ?_⟩
    show get (step (run s l) op) g = _
    rw [get_step hv hc b, List.reverse_append]
    cases op <;> simp [storedSince, hg]
    split <;> simp_all

/-! ### Snapshots -/

theorem step_keeps {s : State} {a : Nat} (hs : s.Valid) (ha : a < s.heap.length) (hne : s.conf ≠ some a)
    {op : Op} (hav : op.Avoids a) :
    (step s op).dict a = s.dict a ∧ (step s op).conf ≠ some a ∧ a < (step s op).heap.length := by
  cases op with
  | init =>
    refine ⟨init_old s ha, ?_, by simp [step, init_len]; omega⟩
    simp only [step, init_conf]; intro h; cases h; omega
  | set k v =>
    unfold step Config.set setOption
    cases hc : s.conf with
    | none => exact ⟨rfl, by simp [hc], ha⟩
    | some c =>
      refine ⟨dict_update_ne _ _ ?_, by simpa [hc] using hne, by simpa using ha⟩
      intro h; subst h; exact hne hc
  | get g => exact ⟨rfl, hne, ha⟩
  | getPropDict =>
    refine ⟨getPropDict_old ha, ?_, lt_of_lt_of_le ha (getPropDict_len s)⟩
    simpa [step, getPropDict_conf] using hne
  | getConfRepoMgr =>
    unfold step Config.getConfRepoMgr
    cases hc : s.conf with
    | none =>
      refine ⟨init_old s ha, ?_, by simp [init_len, init_conf]; omega⟩
      simp only [init_conf]; intro h; cases h; omega
    | some c => exact ⟨rfl, hne, ha⟩
  | setConfRepoMgr b =>
    refine ⟨rfl, ?_, ha⟩
    simp only [step, Config.setConfRepoMgr]
    intro h; subst h; exact hav rfl
  | parseProp b n =>
    have hf := parseProp_frame s b n
    exact ⟨hf.2.2 a ha, by simpa [step, hf.1] using hne, lt_of_lt_of_le ha hf.2.1⟩
  | newDict d =>
    exact ⟨dict_alloc_old s d ha, hne, by simp [step]; omega⟩
  | write b k v =>
    exact ⟨dict_update_ne _ _ (Ne.symm hav), hne, by simpa [step] using ha⟩

theorem run_keeps {s : State} {a : Nat} (hs : s.Valid) (ha : a < s.heap.length) (hne : s.conf ≠ some a)
    (ops : List Op) (hw : AllOps (fun s op => op.WellFormed s ∧ op.Avoids a) s ops) :
    (run s ops).dict a = s.dict a := by
  induction ops generalizing s with
  | nil => rfl
  | cons op ops ih =>
    obtain ⟨h1, h2, h3⟩ := step_keeps hs ha hne hw.1.2
    have := ih (step_valid hs hw.1.1) h3 h2 hw.2
    show (run (step s op) ops).dict a = _
    rw [this, h1]

end Ellipy.Config
