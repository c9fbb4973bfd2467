import Mathlib.Tactic.Ring
import Mathlib.Data.List.Count
import Mathlib.Algebra.BigOperators.Group.List.Basic
import Mathlib.Data.Finset.Card
import Mathlib.Algebra.BigOperators.Fin
import Mathlib.Order.Interval.Finset.Nat
import Verif.Model.TriFaceEdge
import Verif.Spec.TriFaceEdge
import Verif.Proofs.IsMember

/-! Lemmas about the numpy routines used by `map_face_2_edge`. -/

namespace Ellipy.Tri

section
variable {α : Type} [LinearOrder α]

/-- The position of an entry of a list. -/
def posIn (l : List α) (x : α) : ℕ := l.idxOf x

theorem inverse_eq (l : List α) : npUniqueInverse l = l.map (posIn (npUnique l)) := rfl

theorem posIn_lt {l : List α} {x : α} (h : x ∈ l) : posIn l x < l.length := List.idxOf_lt_length_of_mem h

theorem getElem?_posIn {l : List α} {x : α} (h : x ∈ l) : l[posIn l x]? = some x := by
  rw [List.getElem?_eq_getElem (posIn_lt h)]
  exact congrArg some (List.getElem_idxOf (posIn_lt h))

theorem posIn_getElem {l : List α} (hl : l.Nodup) (j : ℕ) (hj : j < l.length) : posIn l l[j] = j := List.Nodup.idxOf_getElem hl j hj

end

theorem cumsum_get (l : List ℕ) (t : ℕ) (ht : t < l.length) : (npCumsum l).getD t 0 = (l.take (t + 1)).sum := by
  simp [npCumsum, List.getD_eq_getElem?_getD, ht]

theorem mem_cumsum (l : List ℕ) (x : ℕ) : x ∈ npCumsum l ↔ ∃ c < l.length, (l.take (c + 1)).sum = x := by
  simp [npCumsum]

/-- The sum of the first entries of a table of counts. -/
theorem count_sum (s : List ℕ) (c : ℕ) : ((List.range c).map (fun j => s.count j)).sum = s.countP (fun x => decide (x < c)) := by
  induction c with
  | zero => simp
  | succ c ih =>
    rw [List.range_succ, List.map_append, List.sum_append, ih]
    simp only [List.map_cons, List.map_nil, List.sum_cons, List.sum_nil, add_zero]
    clear ih
    induction s with
    | nil => simp
    | cons x s ih =>
      simp only [List.countP_cons, List.count_cons]
      by_cases h1 : x < c
      · have : x < c + 1 := by omega
        have h3 : ¬ (x = c) := by omega
        simp [h1, this, h3]; omega
      · by_cases h2 : x = c
        · subst h2; simp; omega
        · have : ¬ x < c + 1 := by omega
          simp [h1, this, h2]; omega

/-- In a sorted list the entries below `c` come first. -/
theorem sorted_lt (s : List ℕ) (hs : s.Pairwise (· ≤ ·)) (c t : ℕ) (ht : t < s.length) :
    s.countP (fun x => decide (x < c)) ≤ t ↔ c ≤ s[t] := by
  induction s generalizing t with
  | nil => simp at ht
  | cons x s ih =>
    rw [List.pairwise_cons] at hs
    rw [List.countP_cons]
    by_cases hx : x < c
    · cases t with
      | zero => simp [hx]
      | succ t =>
        have := ih hs.2 t (by simpa using ht)
        simp only [hx, decide_true, if_true, List.getElem_cons_succ]
        omega
    · have h0 : s.countP (fun x => decide (x < c)) = 0 := by
        rw [List.countP_eq_zero]
        intro y hy
        have := hs.1 y hy
        simp; omega
      rw [h0]
      simp only [hx, decide_false]
      constructor
      · intro _
        cases t with
        | zero => simp; omega
        | succ t =>
          have := hs.1 (s[t]'(by simpa using ht)) (List.getElem_mem _)
          simp; omega
      · intro _; simp

theorem foldr_max (s : List ℕ) (m : ℕ) (hcov : ∀ j, j ∈ s ↔ j < m) : s.foldr (fun x k => max (x + 1) k) 0 = m := by
  have h1 : ∀ (l : List ℕ) (k : ℕ), l.foldr (fun x k => max (x + 1) k) 0 ≤ k ↔ ∀ x ∈ l, x < k := by
    intro l k
    induction l with
    | nil => simp
    | cons a l ih => simp only [List.foldr_cons, max_le_iff, ih, List.forall_mem_cons, Nat.succ_le_iff, Nat.add_one_le_iff]
  apply le_antisymm
  · rw [h1]; intro x hx; exact (hcov x).mp hx
  · by_contra h
    push Not at h
    have h2 := (h1 s _).mp (le_refl _)
    exact absurd (h2 _ ((hcov _).mpr h)) (lt_irrefl _)

theorem bincount_eq (s : List ℕ) (m : ℕ) (hcov : ∀ j, j ∈ s ↔ j < m) : npBincount s = (List.range m).map (fun j => s.count j) := by
  unfold npBincount; rw [foldr_max s m hcov]

theorem take_range_map (f : ℕ → ℕ) (m c : ℕ) (h : c ≤ m) : ((List.range m).map f).take c = (List.range c).map f := by
  rw [← List.map_take, List.take_range, Nat.min_eq_left h]

/-- The runs of a sorted list of numbers: counting the starts of the runs gives the list back. -/
theorem runs (s : List ℕ) (m : ℕ) (hs : s.Pairwise (· ≤ ·)) (hcov : ∀ j, j ∈ s ↔ j < m) (t : ℕ) (ht : t < s.length) :
    (npBincount s).sum = s.length ∧
    ((npCumsum ((List.range (npBincount s).sum).map (fun i => if i = 0 ∨ i ∈ npCumsum (npBincount s).dropLast then 1 else 0))).map
      (fun c => c - 1)).getD t 0 = s.getD t 0 := by
  have hb := bincount_eq s m hcov
  have hsum : (npBincount s).sum = s.length := by
    rw [hb, count_sum, List.countP_eq_length]
    intro x hx; simpa using (hcov x).mp hx
  refine ⟨hsum, ?_⟩
  rw [hsum]
  set B : ℕ → ℕ := fun c => s.countP (fun x => decide (x < c)) with hB
  have hm : 0 < m := (hcov s[t]).mp (List.getElem_mem _) |>.trans_le' (Nat.zero_le _)
  have hBlt : ∀ c c', c < c' → c' ≤ m → B c < B c' := by
    intro c c' h1 h2
    have hc : c ∈ s := (hcov c).mpr (by omega)
    obtain ⟨i, hi, hic⟩ := List.getElem_of_mem hc
    have h3 := (sorted_lt s hs c i hi).mpr (by omega)
    have h4 := (sorted_lt s hs c' i hi).not.mpr (by omega)
    simp only [hB]; omega
  have hB0 : B 0 = 0 := by simp [hB]
  have hstart : ∀ i, (i = 0 ∨ i ∈ npCumsum (npBincount s).dropLast) ↔ ∃ c < m, B c = i := by
    intro i
    rw [mem_cumsum, hb]
    have hlen : ((List.range m).map (fun j => s.count j)).dropLast.length = m - 1 := by simp
    have hval : ∀ c < m - 1, (((List.range m).map (fun j => s.count j)).dropLast.take (c + 1)).sum = B (c + 1) := by
      intro c hc
      rw [List.dropLast_eq_take, List.take_take, List.length_map, List.length_range, Nat.min_eq_left (by omega),
        take_range_map _ _ _ (by omega), count_sum]
    rw [hlen]
    constructor
    · rintro (rfl | ⟨c, hc, rfl⟩)
      · exact ⟨0, hm, hB0⟩
      · exact ⟨c + 1, by omega, (hval c hc).symm⟩
    · rintro ⟨c, hc, rfl⟩
      cases c with
      | zero => exact Or.inl hB0
      | succ c => exact Or.inr ⟨c, by omega, hval c (by omega)⟩
  have hmarks : (List.range s.length).map (fun i => if i = 0 ∨ i ∈ npCumsum (npBincount s).dropLast then 1 else 0) =
      (List.range s.length).map (fun i => if ∃ c < m, B c = i then 1 else 0) := by
    refine List.map_congr_left (fun i _ => ?_)
    exact if_congr (hstart i) rfl rfl
  have hst : s[t] < m := (hcov _).mp (List.getElem_mem _)
  have key : (((List.range s.length).map (fun i => if ∃ c < m, B c = i then 1 else 0)).take (t + 1)).sum = s[t] + 1 := by
    rw [take_range_map _ _ _ (by omega)]
    have h1 : ((List.range (t + 1)).map (fun i => if ∃ c < m, B c = i then 1 else 0)).sum =
        ((Finset.range (t + 1)).filter (fun i => ∃ c < m, B c = i)).card := by
      rw [Finset.card_filter, Finset.sum_eq_multiset_sum, Finset.range_val, ← Multiset.coe_range, Multiset.map_coe, Multiset.sum_coe]
    rw [h1]
    have h2 : ((Finset.range (t + 1)).filter (fun i => ∃ c < m, B c = i)) = (Finset.range (s[t] + 1)).image B := by
      ext i
      simp only [Finset.mem_filter, Finset.mem_range, Finset.mem_image]
      constructor
      · rintro ⟨hi, c, hc, rfl⟩
        exact ⟨c, by have := (sorted_lt s hs c t ht).mp (by simp only [hB] at hi; omega); omega, rfl⟩
      · rintro ⟨c, hc, rfl⟩
        have := (sorted_lt s hs c t ht).mpr (by omega)
        exact ⟨by simp only [hB]; omega, c, by omega, rfl⟩
    rw [h2, Finset.card_image_of_injOn, Finset.card_range]
    intro a ha b hb' hab
    simp only [Finset.coe_range, Set.mem_Iio] at ha hb'
    rcases Nat.lt_trichotomy a b with h | h | h
    · exact absurd hab (hBlt a b h (by omega)).ne
    · exact h
    · exact absurd hab (hBlt b a h (by omega)).ne'
  rw [hmarks, List.getD_eq_getElem?_getD, List.getElem?_map]
  have hlen : t < (npCumsum ((List.range s.length).map (fun i => if ∃ c < m, B c = i then 1 else 0))).length := by
    simp [npCumsum, ht]
  have h3 := cumsum_get ((List.range s.length).map (fun i => if ∃ c < m, B c = i then 1 else 0)) t (by simp [ht])
  rw [List.getD_eq_getElem?_getD, List.getElem?_eq_getElem hlen] at h3
  rw [List.getElem?_eq_getElem hlen]
  simp only [Option.getD_some] at h3
  simp only [Option.map_some, Option.getD_some, h3, key]
  simp [List.getD_eq_getElem?_getD, ht]

end Ellipy.Tri
