import Verif.Props.IsMember

/-! Property theorems C143: laws of `is_member` across calls. -/

namespace Ellipy
variable {α : Type _} [LinearOrder α]

/-- **C143.** The first argument may be split: the results are put one after the other. -/
theorem C143_split (a a' b : List α) : ∃ f i f' i', isMember a b = .ok (f, i) ∧ isMember a' b = .ok (f', i') ∧
    isMember (a ++ a') b = .ok (f ++ f', i ++ i') := by
  refine ⟨_, _, _, _, isMember_eq a b, isMember_eq a' b, ?_⟩
  rw [isMember_eq, List.map_append, List.filter_append, List.map_append]

/-- **C143.** Values put behind the second argument add members and leave the old flags; if all elements were found already, nothing changes. -/
theorem C143_more (a b c : List α) : (∃ f i f' i' f'' i'', isMember a b = .ok (f, i) ∧ isMember a c = .ok (f', i') ∧
    isMember a (b ++ c) = .ok (f'', i'') ∧ f'' = List.zipWith (· || ·) f f') ∧
    ((∀ f i, isMember a b = .ok (f, i) → false ∉ f) → isMember a (b ++ c) = isMember a b) := by
  constructor
  · refine ⟨_, _, _, _, _, _, isMember_eq a b, isMember_eq a c, isMember_eq a _, ?_⟩
    rw [List.zipWith_map, List.zipWith_self]
    refine List.map_congr_left (fun x _ => ?_)
    simp
  · intro h
    have hm : ∀ x ∈ a, x ∈ b := by
      intro x hx
      by_contra hb
      exact h _ _ (isMember_eq a b) (List.mem_map.2 ⟨x, hx, by simpa using hb⟩)
    rw [isMember_eq, isMember_eq]
    congr 2
    · refine List.map_congr_left (fun x hx => ?_)
      simp [hm x hx]
    · rw [List.filter_eq_self.2 (fun x hx => by simp [hm x hx]), List.filter_eq_self.2 (fun x hx => by simp [hm x hx])]
      exact List.map_congr_left (fun x hx => List.idxOf_append_of_mem (hm x hx))

/-- **C143.** The flags depend only on the set of values of the second argument. -/
theorem C143_shuffle (a b b' : List α) (h : ∀ x ∈ a, x ∈ b ↔ x ∈ b') : ∃ f i i', isMember a b = .ok (f, i) ∧ isMember a b' = .ok (f, i') := by
  refine ⟨_, _, (a.filter (fun x => decide (x ∈ b'))).map (fun x => b'.idxOf x), isMember_eq a b, ?_⟩
  rw [isMember_eq]
  congr 2
  exact List.map_congr_left (fun x hx => by simp [h x hx])

/-- **C143.** A vector compared with itself: all flags are true; without repetitions the positions are `0, 1, …`. -/
theorem C143_self (a : List α) : ∃ i, isMember a a = .ok (List.replicate a.length true, i) ∧ i.length = a.length ∧
    (a.Nodup ↔ i = List.range a.length) := by
  refine ⟨a.map (fun x => a.idxOf x), ?_, by simp, ?_, ?_⟩
  · rw [isMember_eq, List.filter_eq_self.2 (fun x hx => by simpa using hx)]
    congr 2
    rw [List.eq_replicate_iff]
    simp
  · intro h
    refine List.ext_getElem (by simp) (fun i h1 h2 => ?_)
    simp only [List.getElem_map, List.getElem_range]
    exact List.Nodup.idxOf_getElem h i _
  · intro h
    have h1 : (a.map (fun x => a.idxOf x)).Nodup := by rw [h]; exact List.nodup_range
    exact List.Nodup.of_map _ h1

/-- **C143.** The positions lead back: reading the second argument there gives the members of the first in order, and asking again for these gives the
same positions. -/
theorem C143_back (a b : List α) : ∃ f i, isMember a b = .ok (f, i) ∧ i.map (fun k => b[k]?) = (npMask a f).map some ∧
    isMember (npMask a f) b = .ok (List.replicate i.length true, i) := by
  have hmask : npMask a (a.map (fun x => decide (x ∈ b))) = a.filter (fun x => decide (x ∈ b)) := by
    unfold npMask
    rw [List.zip_map_right, ← List.map_id a, List.zip_map_left]
    simp only [List.map_id]
    induction a with
    | nil => rfl
    | cons x t ih =>
      simp only [List.zip_cons_cons, List.map_cons, List.filter_cons] at ih ⊢
      by_cases hx : x ∈ b <;> simp [hx] at ih ⊢ <;> exact ih
  refine ⟨_, _, isMember_eq a b, ?_, ?_⟩
  · rw [hmask, List.map_map]
    refine List.map_congr_left (fun x hx => ?_)
    have hxb : x ∈ b := by simpa using (List.mem_filter.1 hx).2
    have hlt := List.idxOf_lt_length_of_mem hxb
    simp [hlt]
  · rw [hmask, isMember_eq]
    congr 2
    · rw [List.eq_replicate_iff]
      refine ⟨by simp, fun y hy => ?_⟩
      obtain ⟨x, hx, rfl⟩ := List.mem_map.1 hy
      exact (List.mem_filter.1 hx).2
    · rw [List.filter_eq_self.2 (fun x hx => (List.mem_filter.1 hx).2)]

/-- **C143.** Only the equality of the values counts, not their order: other names for the values, different for different values, change nothing. -/
theorem C143_rename {β : Type _} [LinearOrder β] (g : α → β) (a b : List α) (hg : ∀ x ∈ a ++ b, ∀ y ∈ a ++ b, g x = g y → x = y) :
    isMember (a.map g) (b.map g) = isMember a b := by
  have hm : ∀ x ∈ a, (g x ∈ b.map g ↔ x ∈ b) := by
    intro x hx
    constructor
    · intro h
      obtain ⟨y, hy, he⟩ := List.mem_map.1 h
      rwa [← hg y (List.mem_append_right _ hy) x (List.mem_append_left _ hx) he]
    · exact List.mem_map_of_mem
  rw [isMember_eq, isMember_eq, List.map_map, List.filter_map, List.map_map]
  congr 2
  · exact List.map_congr_left (fun x hx => by simp only [Function.comp]; rw [decide_eq_decide]; exact hm x hx)
  · rw [List.filter_congr (q := fun x => decide (x ∈ b)) (fun x hx => by simp only [Function.comp]; rw [decide_eq_decide]; exact hm x hx)]
    refine List.map_congr_left (fun x hx => ?_)
    have hxa := (List.mem_filter.1 hx).1
    simp only [Function.comp]
    have hsub : ∀ y ∈ b, g y = g x → y = x := fun y hy => hg y (List.mem_append_right _ hy) x (List.mem_append_left _ hxa)
    clear hx hm hg
    induction b with
    | nil => rfl
    | cons y t ih =>
      rw [List.map_cons, List.idxOf_cons, List.idxOf_cons, ih (fun z hz => hsub z (List.mem_cons_of_mem _ hz))]
      by_cases hyx : y = x
      · subst hyx
        rw [beq_self_eq_true, beq_self_eq_true]
      · have : ¬ g y = g x := fun h => hyx (hsub y List.mem_cons_self h)
        rw [beq_eq_false_iff_ne.2 hyx, beq_eq_false_iff_ne.2 this]

/-- Meets the hypotheses of the theorems above: the names `10 - x` reverse the order of the values and change nothing. -/
example : isMember ([5, 2, 9, 5].map (fun x : ℤ => 10 - x)) ([7, 5, 2, 5].map (fun x : ℤ => 10 - x)) = .ok ([true, true, false, true], [1, 2, 1]) := by
  rw [C143_rename (fun x : ℤ => 10 - x) _ _ (fun x _ y _ h => by simpa using h), isMember_eq]
  decide

end Ellipy
