import Verif.Proofs.IsMember

/-! Property theorem C05 (`is_member`). -/

namespace Ellipy
variable {α : Type _} [LinearOrder α]

/-- **C05.** `is_member(a, b)` never raises; it returns one flag per element of `a`, true exactly for
the elements occurring in `b`; and, for the members of `a` in order, the position of the *first*
occurrence in `b`. -/
theorem C05_is_member (a b : List α) :
    ∃ flags ind, isMember a b = .ok (flags, ind) ∧ flags.length = a.length ∧
      (∀ i (h : i < a.length) (h' : i < flags.length), flags[i] = true ↔ a[i] ∈ b) ∧
      List.Forall₂ (fun x k => b[k]? = some x ∧ ∀ k' < k, b[k']? ≠ some x)
        (a.filter (fun x => decide (x ∈ b))) ind := by
  refine ⟨_, _, isMember_eq a b, by simp, by simp, ?_⟩
  rw [List.forall₂_map_right_iff, List.forall₂_same]
  intro x hx
  have hxb : x ∈ b := by simpa using (List.mem_filter.1 hx).2
  have hlt := List.idxOf_lt_length_of_mem hxb
  refine ⟨by simp [hlt], ?_⟩
  intro k' hk' he
  obtain ⟨hk1, he⟩ := List.getElem?_eq_some_iff.1 he
  have hn := List.not_of_lt_findIdx (p := (· == x)) (xs := b) (i := k') (by simpa [List.idxOf] using hk')
  simp [he] at hn

/-- Non-trivial instance: duplicates on both sides, unsorted, one non-member. -/
example : isMember [5, 2, 9, 5] [7, 5, 2, 5] = .ok ([true, true, false, true], [1, 2, 1]) := by
  rw [isMember_eq]; decide

end Ellipy
