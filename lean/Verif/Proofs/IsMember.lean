import Mathlib.Data.List.Basic
import Mathlib.Data.List.Dedup
import Mathlib.Data.List.Sort
import Verif.Model.IsMember

namespace Ellipy
variable {α : Type _} [LinearOrder α]

theorem npUnique_perm (l : List α) : (npUnique l).Perm l.dedup := List.mergeSort_perm _ _

theorem mem_npUnique {l : List α} {x : α} : x ∈ npUnique l ↔ x ∈ l := by
  rw [(npUnique_perm l).mem_iff, List.mem_dedup]

theorem npUnique_nodup (l : List α) : (npUnique l).Nodup :=
  (npUnique_perm l).nodup_iff.2 (List.nodup_dedup l)

theorem npUnique_sorted (l : List α) : (npUnique l).Pairwise (· ≤ ·) := by
  have := List.pairwise_mergeSort (le := fun a b : α => decide (a ≤ b))
    (by intro a b c; simpa using le_trans) (by intro a b; simpa using le_total a b) l.dedup
  simpa [npUnique] using this

theorem npMask_map {β γ : Type _} (l : List β) (f : β → γ) (p : β → Bool) :
    npMask (l.map f) (l.map p) = (l.filter p).map f := by
  unfold npMask
  induction l with
  | nil => rfl
  | cons x t ih =>
    simp only [List.map_cons, List.zip_cons_cons, List.filter_cons]
    cases h : p x <;> simp_all

theorem npMask_isin (a b : List α) : npMask a (npIsin a b) = a.filter (fun x => decide (x ∈ b)) := by
  have := npMask_map a id (fun x => decide (x ∈ b))
  simpa [npIsin] using this

/-- Distinct values of a sub-collection are the distinct values of the whole filtered. -/
theorem npUnique_filter (c b : List α) (h : ∀ x ∈ c, x ∈ b) :
    (npUnique b).filter (fun x => decide (x ∈ npUnique c)) = npUnique c := by
  apply List.Perm.eq_of_pairwise (le := (· ≤ ·))
  · intro a b _ _ h1 h2; exact le_antisymm h1 h2
  · exact (npUnique_sorted b).sublist List.filter_sublist
  · exact npUnique_sorted c
  · rw [List.perm_ext_iff_of_nodup ((npUnique_nodup b).filter _) (npUnique_nodup c)]
    intro x
    simp only [List.mem_filter, decide_eq_true_eq, mem_npUnique]
    constructor
    · exact fun h => h.2
    · exact fun hx => ⟨h x hx, hx⟩

theorem npTake_map_idxOf {β : Type _} (u c : List α) (g : α → β) (h : ∀ x ∈ c, x ∈ u) :
    npTake (u.map g) (c.map (fun x => u.idxOf x)) = .ok (c.map g) := by
  unfold npTake
  induction c with
  | nil => rfl
  | cons x t ih =>
    have hx : u.idxOf x < u.length := List.idxOf_lt_length_of_mem (h x List.mem_cons_self)
    have := ih (fun j hj => h j (List.mem_cons_of_mem _ hj))
    rw [List.map_cons, List.mapM_cons, this]
    simp [pyIndex, hx, bind, Except.bind, pure, Except.pure]

theorem isMember_eq (a b : List α) :
    isMember a b = .ok (a.map (fun x => decide (x ∈ b)),
      (a.filter (fun x => decide (x ∈ b))).map (fun x => b.idxOf x)) := by
  unfold isMember
  simp only [npMask_isin]
  set c := a.filter (fun x => decide (x ∈ b)) with hc
  have hcb : ∀ x ∈ c, x ∈ b := by
    intro x hx; simpa [hc] using (List.mem_filter.1 hx).2
  have h1 : npMask (npUniqueIndex b) (npIsin (npUnique b) (npUnique c))
      = (npUnique c).map (fun u => b.idxOf u) := by
    have := npMask_map (npUnique b) (fun u => b.idxOf u) (fun x => decide (x ∈ npUnique c))
    rw [npUnique_filter c b hcb] at this
    exact this
  rw [h1]
  rw [npUniqueInverse, npTake_map_idxOf _ _ _ (fun x hx => mem_npUnique.2 hx)]
  rfl

end Ellipy
