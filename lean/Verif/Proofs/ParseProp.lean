import Mathlib.Tactic.IntervalCases
import Verif.Proofs.Config

namespace Ellipy.Config

/-- Per-request correctness of a value list. -/
def Served (args glob : Dict) : List String → List String → List Val → Prop
  | _, [], vals => vals = []
  | _, _ :: _, [] => False
  | seen, n :: ns, v :: vs =>
      wanted args glob seen n = some v ∧ Admissible n v ∧ Served args glob (seen ++ [n]) ns vs

theorem served_iff (args glob : Dict) (seen names : List String) (vals : List Val) :
    Served args glob seen names vals ↔
      vals.length = names.length ∧ ∀ i (h : i < names.length) (h' : i < vals.length),
        wanted args glob (seen ++ names.take i) names[i] = some vals[i] ∧ Admissible names[i] vals[i] := by
  induction names generalizing seen vals with
  | nil => simp [Served]
  | cons n ns ih =>
    cases vals with
    | nil => simp [Served]
    | cons v vs =>
      simp only [Served, ih, List.length_cons, Nat.add_right_cancel_iff]
      constructor
      · rintro ⟨h1, h2, h3, h4⟩
        refine ⟨h3, ?_⟩
        intro i hi hi'
        cases i with
        | zero => simpa using ⟨h1, h2⟩
        | succ i =>
          have := h4 i (by omega) (by omega)
          simpa using this
      · rintro ⟨h1, h2⟩
        have h0 := h2 0 (by omega) (by omega)
        simp at h0
        refine ⟨h0.1, h0.2, h1, ?_⟩
        intro i hi hi'
        have := h2 (i+1) (by omega) (by omega)
        simpa using this

theorem parseLoop_spec (glob args0 : Dict) (names : List String) (checks : List (Val → Bool))
    (seen : List String) (acc : List Val)
    (hlen : checks.length = names.length)
    (hchk : ∀ i (h : i < names.length) (h' : i < checks.length) v, checks[i] v = true ↔ Admissible names[i] v) :
    let r := parseLoop glob names checks (args0.filter (fun p => decide (p.1 ∉ seen))) acc
    (∀ vals, Served args0 glob seen names vals →
      r = .ok (acc ++ vals, args0.filter (fun p => decide (p.1 ∉ seen ++ names)))) ∧
    ((¬ ∃ vals, Served args0 glob seen names vals) → Raises r) := by
  induction names generalizing seen acc checks with
  | nil =>
    refine ⟨?_, ?_⟩
    · intro vals hv
      simp only [Served] at hv
      subst hv
      simp [parseLoop]
    · intro h; exact absurd ⟨[], rfl⟩ h
  | cons n ns ih =>
    cases checks with
    | nil => simp at hlen
    | cons c cs =>
      have hlen' : cs.length = ns.length := by simpa using hlen
      have hc : ∀ v, c v = true ↔ Admissible n v := fun v =>
        hchk 0 (by simp) (by simp) v
      have hchk' : ∀ i (h : i < ns.length) (h' : i < cs.length) v, cs[i] v = true ↔ Admissible ns[i] v := by
        intro i h h' v
        exact hchk (i+1) (by simp; omega) (by simp; omega) v
      set a := args0.filter (fun p => decide (p.1 ∉ seen)) with ha
      have hga : dictGet a n = if n ∈ seen then none else dictGet args0 n := by
        rw [ha, dictGet_filter args0 (fun x => decide (x ∉ seen)) n]
        by_cases h : n ∈ seen <;> simp [h]
      have hw : wanted args0 glob seen n =
          (match dictGet a n with | some v => some v | none => dictGet glob n) := by
        rw [hga]; unfold wanted
        by_cases h : n ∈ seen
        · simp [h]
        · simp only [h, if_false]; rfl
      have hdel : dictDel a n = args0.filter (fun p => decide (p.1 ∉ seen ++ [n])) := by
        rw [ha, dictDel, List.filter_filter]
        apply List.filter_congr
        intro p _
        by_cases h1 : p.1 ∈ seen <;> by_cases h2 : p.1 = n <;> simp [h1, h2]
      have hstep : parseLoop glob (n :: ns) (c :: cs) a acc =
          match wanted args0 glob seen n with
          | none => .error .keyError
          | some v => if c v then parseLoop glob ns cs (dictDel a n) (acc ++ [v]) else .error (.valueError "wrongInput") := by
        rw [hw, parseLoop]
        cases h : dictGet a n with
        | some v =>
          cases hv : c v <;> simp [pyIndex, bind, Except.bind, hv, throwErr]
        | none =>
          have hself : dictDel a n = a := dictDel_of_get_none h
          cases h2 : dictGet glob n with
          | none => simp [pyIndex, bind, Except.bind, dictIndex, h2]
          | some v =>
            cases hv : c v <;> simp [pyIndex, bind, Except.bind, dictIndex, h2, hv, throwErr, hself]
      simp only [hstep]
      have hrec := fun acc => ih cs (seen ++ [n]) acc hlen' hchk'
      refine ⟨?_, ?_⟩
      · intro vals hv
        cases vals with
        | nil => exact hv.elim
        | cons v vs =>
          obtain ⟨h1, h2, h3⟩ := hv
          rw [h1]
          simp only [(hc v).2 h2, if_true, hdel]
          have := (hrec (acc ++ [v])).1 vs h3
          simpa [List.append_assoc] using this
      · intro hno
        cases h1 : wanted args0 glob seen n with
        | none => exact ⟨_, rfl⟩
        | some v =>
          by_cases h2 : c v = true
          · simp only [h2, if_true, hdel]
            apply (hrec (acc ++ [v])).2
            rintro ⟨vs, hvs⟩
            exact hno ⟨v :: vs, h1, (hc v).1 h2, hvs⟩
          · simp only [h2]
            exact ⟨_, rfl⟩

theorem chkTol_iff (v : Val) : chkTol v = true ↔ (v = .float .pinf ∨ ∃ x : ℚ, 0 < x ∧ v = .float (.fin x)) := by
  cases v with
  | float x => cases x <;> simp [chkTol]
  | _ => simp [chkTol]

theorem chkCount_iff (v : Val) : chkCount v = true ↔
    ((∃ i, v = .int i) ∨ (∃ b, v = .bool b) ∨ ∃ i : ℤ, v = .float (.fin (i : ℚ))) := by
  cases v with
  | float x =>
    cases x with
    | fin x =>
      simp only [chkCount, decide_eq_true_eq, reduceCtorEq, exists_false, false_or, Val.float.injEq, XF.fin.injEq]
      rw [Int.fract_eq_iff]
      constructor
      · rintro ⟨-, -, z, hz⟩; exact ⟨z, by simpa using hz⟩
      · rintro ⟨i, rfl⟩; exact ⟨le_refl _, by norm_num, i, by simp⟩
    | _ => simp [chkCount]
  | _ => simp [chkCount]

theorem chkBool_iff (v : Val) : chkBool v = true ↔ ∃ b, v = .bool b := by
  cases v <;> simp [chkBool]
theorem chkStr_iff (v : Val) : chkStr v = true ↔ ∃ b, v = .str b := by
  cases v <;> simp [chkStr]
theorem chkSolver_iff (v : Val) : chkSolver v = true ↔
    (v = .str "ode45" ∨ v = .str "ode23" ∨ v = .str "ode113") := by
  cases v <;> simp [chkSolver]

/-- The check function stored at the position of a name decides admissibility. -/
theorem checks_correct (i : Nat) (h : i < propNameList.length) (h' : i < propCheckFuncList.length) (v : Val) :
    propCheckFuncList[i] v = true ↔ Admissible propNameList[i] v := by
  have hi : i < 11 := by simpa [propNameList] using h
  interval_cases i <;>
    first
    | exact Iff.trans (chkStr_iff v) (by simp [propNameList, Admissible])
    | exact Iff.trans (chkBool_iff v) (by simp [propNameList, Admissible])
    | exact Iff.trans (chkTol_iff v) (by simp [propNameList, Admissible])
    | exact Iff.trans (chkSolver_iff v) (by simp [propNameList, Admissible])
    | exact Iff.trans (chkCount_iff v) (by simp [propNameList, Admissible])

theorem propNameList_length : propNameList.length = 11 := rfl
theorem propCheckFuncList_length : propCheckFuncList.length = 11 := rfl

theorem npTake_ok {β : Type _} (l : List β) (ind : List Nat) (h : ∀ i ∈ ind, i < l.length) :
    ∃ r, npTake l ind = .ok r ∧ r.length = ind.length ∧
      ∀ i (h1 : i < ind.length) (h2 : i < r.length), l[ind[i]]? = some r[i] := by
  unfold npTake
  induction ind with
  | nil => exact ⟨[], rfl, rfl, by simp⟩
  | cons i t ih =>
    obtain ⟨r, hr, hl, hf⟩ := ih (fun j hj => h j (List.mem_cons_of_mem _ hj))
    have hi : i < l.length := h i List.mem_cons_self
    refine ⟨l[i] :: r, ?_, by simp [hl], ?_⟩
    · rw [List.mapM_cons, hr]
      simp [pyIndex, hi, bind, Except.bind, pure, Except.pure]
    · intro j h1 h2
      cases j with
      | zero => simp [hi]
      | succ j => simpa using hf j (by simpa using h1) (by simpa using h2)

theorem selectChecks_known (names : List String) (hk : ∀ n ∈ names, n ∈ propNameList) :
    ∃ checks, selectChecks (some names) = .ok (names, checks) ∧ checks.length = names.length ∧
      ∀ i (h : i < names.length) (h' : i < checks.length) v, checks[i] v = true ↔ Admissible names[i] v := by
  unfold selectChecks
  simp only [isMember_eq, bind, Except.bind]
  have hall : (names.map (fun x => decide (x ∈ propNameList))).all id = true := by
    simpa using hk
  have hfil : names.filter (fun x => decide (x ∈ propNameList)) = names := by
    rw [List.filter_eq_self]; simpa using hk
  rw [hall, hfil]
  simp only [Bool.not_true, Bool.false_eq_true, if_false]
  obtain ⟨r, hr, hl, hf⟩ := npTake_ok propCheckFuncList (names.map (fun x => propNameList.idxOf x)) (by
    intro i hi
    obtain ⟨x, hx, rfl⟩ := List.mem_map.1 hi
    exact List.idxOf_lt_length_of_mem (hk x hx))
  refine ⟨r, by rw [hr], by simpa using hl, ?_⟩
  intro i h h' v
  have h1 := hf i (by simpa using h) h'
  simp only [List.getElem_map] at h1
  have hlt : propNameList.idxOf names[i] < propNameList.length :=
    List.idxOf_lt_length_of_mem (hk _ (List.getElem_mem h))
  have hlt' : propNameList.idxOf names[i] < propCheckFuncList.length := hlt
  rw [List.getElem?_eq_getElem hlt'] at h1
  have h2 := checks_correct _ hlt hlt' v
  rw [Option.some.injEq] at h1
  rw [h1] at h2
  have e : propNameList[propNameList.idxOf names[i]] = names[i] := List.getElem_idxOf hlt
  rw [h2, e]

theorem selectChecks_unknown (names : List String) (hk : ¬ ∀ n ∈ names, n ∈ propNameList) :
    selectChecks (some names) = .error (.valueError "wrongInput") := by
  unfold selectChecks
  simp only [isMember_eq, bind, Except.bind]
  have hall : (names.map (fun x => decide (x ∈ propNameList))).all id = false := by
    rw [Bool.eq_false_iff]; intro h; apply hk; simpa using h
  rw [hall]
  simp [throwErr]

/-- Core of C03/C04 for any selection of names with correct checks. -/
theorem parseProp_core {s : State} {args c : Nat} {d glob : Dict} {needed : Option (List String)}
    {names : List String} {checks : List (Val → Bool)}
    (hsel : selectChecks needed = .ok (names, checks))
    (hlen : checks.length = names.length)
    (hchk : ∀ i (h : i < names.length) (h' : i < checks.length) v, checks[i] v = true ↔ Admissible names[i] v)
    (hc : s.conf = some c) (hg : s.dict c = some glob) (ha : s.dict args = some d) :
    (∀ vals, Served d glob [] names vals →
      ∃ s' b, parseProp s args needed = (s', .ok (vals, b)) ∧ s.heap.length ≤ b ∧
        s'.dict b = some (d.filter (fun p => decide (p.1 ∉ names)))) ∧
    ((¬ ∃ vals, Served d glob [] names vals) → Raises (parseProp s args needed).2) := by
  have halt : args < s.heap.length := by
    by_contra h; simp [State.dict, List.getElem?_eq_none (not_lt.1 h)] at ha
  have hgp : getPropDict s = ((alloc s glob).1, .ok (alloc s glob).2) := by
    simp [getPropDict, hc, hg]
  have hloop := parseLoop_spec glob d names checks [] [] hlen hchk
  simp only [List.not_mem_nil, not_false_eq_true, decide_true, List.filter_true, List.nil_append] at hloop
  unfold parseProp
  simp only [hsel, hgp, dict_alloc_old s glob halt, ha, dict_alloc_new]
  refine ⟨?_, ?_⟩
  · intro vals hv
    rw [hloop.1 vals hv]
    refine ⟨_, _, rfl, ?_, ?_⟩
    · simp
    · simp [alloc, State.dict, update]
  · intro h
    obtain ⟨e, he⟩ := hloop.2 h
    rw [he]
    exact ⟨e, rfl⟩

end Ellipy.Config
