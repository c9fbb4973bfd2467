import Verif.Spec.Logging

/-! Property theorem C60 (`get_logger`). -/

namespace Ellipy.Log

/-- **C63**: the logger is named after the function that called `get_logger`. -/
theorem C63 (st : State) (f : Frame) (outer : List Frame) : getLogger st (f :: outer) = .ok (f.qualname, st ++ [f.qualname]) := by
  obtain ⟨m, s, c⟩ := f
  unfold getLogger callerName callerNameExt Frame.qualname
  simp only [show (2 + 1 - 1 : ℕ) = 2 from rfl, List.getElem?_cons_succ, List.getElem?_cons_zero]
  by_cases hc : c = "<module>"
  · cases m with
    | none => cases s <;> simp [hc]
    | some m => cases s <;> by_cases hm : m = [] <;> simp [hc, hm]
  · by_cases hc' : c = ""
    · subst hc'
      cases m with
      | none => cases s <;> simp
      | some m => cases s <;> by_cases hm : m = [] <;> simp [hm]
    · cases m with
      | none => cases s <;> simp [hc, hc']
      | some m => cases s <;> by_cases hm : m = [] <;> simp [hc, hc', hm]

theorem reach_state {hist : List (List Frame)} {st : State} (h : Reach hist st) (hne : ∀ s ∈ hist, s ≠ []) :
    st = hist.map (fun s => (s.head?.map Frame.qualname).getD []) := by
  induction h with
  | init => rfl
  | call hr hg ih =>
    rename_i hist st stack n st'
    have h1 : stack ≠ [] := hne stack (by simp)
    obtain ⟨f, outer, rfl⟩ : ∃ f o, stack = f :: o := by
      cases stack with
      | nil => exact absurd rfl h1
      | cons f o => exact ⟨f, o, rfl⟩
    rw [C63] at hg
    injection hg with hg
    injection hg with hn hst
    rw [← hst, ih (fun s hs => hne s (by simp [hs]))]
    simp

/-- **C60** (partial): a record is emitted once for every call of `get_logger` so far from the same function or from a function whose
dotted name is a prefix of its name.  Missing: this is one only if there was no other such call, see `C60_violated`. -/
theorem C60_partial (hist : List (List Frame)) (st : State) (h : Reach hist st) (hne : ∀ s ∈ hist, s ≠ []) (f : Frame)
    (outer : List Frame) : ∃ n st', getLogger st (f :: outer) = .ok (n, st') ∧
      emissions st' n = (hist.filter (fun s => ((s.head?.map Frame.qualname).getD []).isPrefixOf f.qualname)).length + 1 := by
  refine ⟨_, _, C63 st f outer, ?_⟩
  unfold emissions
  rw [reach_state h hne]
  simp [List.filter_map, Function.comp_def, List.isPrefixOf_iff_prefix]

/-- **C60**, the first call: a record is emitted exactly once. -/
theorem C60_once (hist : List (List Frame)) (st : State) (h : Reach hist st) (hne : ∀ s ∈ hist, s ≠ []) (f : Frame)
    (outer : List Frame) (hnew : ∀ g o, g :: o ∈ hist → ¬ g.qualname <+: f.qualname) :
    ∃ n st', getLogger st (f :: outer) = .ok (n, st') ∧ emissions st' n = 1 := by
  obtain ⟨n, st', h1, h2⟩ := C60_partial hist st h hne f outer
  refine ⟨n, st', h1, ?_⟩
  rw [h2, Nat.add_eq_right, List.length_eq_zero_iff, List.filter_eq_nil_iff]
  intro s hs
  obtain ⟨g, o, rfl⟩ : ∃ g o, s = g :: o := by
    cases s with
    | nil => exact absurd rfl (hne _ hs)
    | cons g o => exact ⟨g, o, rfl⟩
  simpa [List.isPrefixOf_iff_prefix] using hnew g o hs

/-- **C60** fails in general: after `k` earlier calls from the same function a record is emitted `k + 1` times. -/
theorem C60_violated (f : Frame) (outer : List Frame) (k : ℕ) : ∃ st n st', Reach (List.replicate k (f :: outer)) st ∧
    getLogger st (f :: outer) = .ok (n, st') ∧ emissions st' n = k + 1 := by
  have hr : ∀ k, ∃ st, Reach (List.replicate k (f :: outer)) st := by
    intro k
    induction k with
    | zero => exact ⟨[], .init⟩
    | succ k ih =>
      obtain ⟨st, h⟩ := ih
      exact ⟨st ++ [f.qualname], by rw [List.replicate_succ']; exact .call h (C63 st f outer)⟩
  obtain ⟨st, h⟩ := hr k
  have hne : ∀ s ∈ List.replicate k (f :: outer), s ≠ [] := by
    intro s hs; rw [List.eq_of_mem_replicate hs]; simp
  obtain ⟨n, st', h1, h2⟩ := C60_partial _ st h hne f outer
  refine ⟨st, n, st', h, h1, ?_⟩
  rw [h2, List.filter_eq_self.mpr]
  · simp
  · intro s hs; rw [List.eq_of_mem_replicate hs]; simp [List.isPrefixOf_iff_prefix]

/-- A call from a method after a call from another method of the class. -/
example : ∃ st n st', Reach [[⟨some ["ellipy", "e"], some "E", "minksum_ea"⟩]] st ∧
    getLogger st [⟨some ["ellipy", "e"], some "E", "minksum_ia"⟩] = .ok (n, st') ∧ emissions st' n = 1 := by
  have h : Reach ([] ++ [[⟨some ["ellipy", "e"], some "E", "minksum_ea"⟩]]) _ := .call .init (C63 [] _ [])
  obtain ⟨n, st', h1, h2⟩ := C60_once _ _ h (by simp) ⟨some ["ellipy", "e"], some "E", "minksum_ia"⟩ [] (by
    intro g o hg
    simp at hg
    obtain ⟨rfl, -⟩ := hg
    decide)
  exact ⟨_, n, st', h, h1, h2⟩

end Ellipy.Log
