import Verif.Proofs.SphereSep
import Verif.Proofs.SpherePart
import Verif.Spec.SpherePart

/-! The directions kept by `unique_directions`. -/

namespace Ellipy.Geom
open Ellipy.Tri
noncomputable section

/-- What `unique_directions` is applied to: different vectors, with each its opposite, different vectors being at least `tol` apart. -/
structure OppSym (tol : ℝ) (V : List (Fin 3 → ℝ)) : Prop where
  tpos : 0 < tol
  nodup : V.Nodup
  neg : ∀ v ∈ V, -v ∈ V
  ne : ∀ v ∈ V, v ≠ 0
  sep : ∀ i < V.length, ∀ j < V.length, i ≠ j → tol ^ 2 ≤ Tri.sq (V.getD j 0 - V.getD i 0)

theorem getD_mem {V : List (Fin 3 → ℝ)} {i : ℕ} (hi : i < V.length) : V.getD i 0 ∈ V := by
  rw [List.getD_eq_getElem?_getD, List.getElem?_eq_getElem hi]
  exact List.getElem_mem hi

theorem mem_getD {V : List (Fin 3 → ℝ)} {v : Fin 3 → ℝ} (hv : v ∈ V) : ∃ i < V.length, V.getD i 0 = v := by
  obtain ⟨i, hi, rfl⟩ := List.getElem_of_mem hv
  exact ⟨i, hi, by rw [List.getD_eq_getElem?_getD, List.getElem?_eq_getElem hi]; rfl⟩

theorem OppSym.inj {tol : ℝ} {V : List (Fin 3 → ℝ)} (h : OppSym tol V) {i j : ℕ} (hi : i < V.length) (hj : j < V.length) (he : V.getD i 0 = V.getD j 0) : i = j := by
  by_contra hne
  have h1 := h.sep i hi j hj hne
  rw [he, sub_self, Tri.sq_eq] at h1
  have := pow_pos h.tpos 2
  simp only [Pi.zero_apply, mul_zero, add_zero] at h1
  linarith

theorem OppSym.near {tol : ℝ} {V : List (Fin 3 → ℝ)} (h : OppSym tol V) {i j : ℕ} (hi : i < V.length) (hj : j < V.length) :
    nearOpp tol V i j ↔ V.getD j 0 = -V.getD i 0 := by
  have e : ∑ t, (V.getD j 0 t + V.getD i 0 t) * (V.getD j 0 t + V.getD i 0 t) = Tri.sq (V.getD j 0 - -V.getD i 0) := by
    unfold Tri.sq; simp only [Pi.sub_apply, Pi.neg_apply, sub_neg_eq_add]
  unfold nearOpp
  rw [e]
  constructor
  · intro hlt
    obtain ⟨s, hs, he⟩ := mem_getD (h.neg _ (getD_mem hi))
    by_contra hne
    have hsj : s ≠ j := by rintro rfl; exact hne he
    have h1 := h.sep s hs j hj hsj
    rw [he] at h1
    have h2 := Real.sqrt_le_sqrt h1
    rw [Real.sqrt_sq h.tpos.le] at h2
    linarith
  · intro he
    rw [he, sub_self, Tri.sq_eq]
    simp only [Pi.zero_apply, mul_zero, add_zero, Real.sqrt_zero]
    exact h.tpos

theorem OppSym.mark {tol : ℝ} {V : List (Fin 3 → ℝ)} (h : OppSym tol V) {i r : ℕ} (hi : i < V.length) :
    markAt tol V i = some r ↔ ∃ s, s < V.length ∧ i < s ∧ V.getD s 0 = -V.getD i 0 ∧ ((∑ t, V.getD i 0 t < 0 ∧ r = s) ∨ (0 ≤ ∑ t, V.getD i 0 t ∧ r = i)) := by
  classical
  unfold markAt
  rcases hf : (List.range' (i + 1) (V.length - i - 1)).find? (fun j => decide (nearOpp tol V i j)) with _ | j
  · simp only
    constructor
    · intro h'; cases h'
    · rintro ⟨s, hs, his, he, -⟩
      have := List.find?_eq_none.mp hf s (by rw [List.mem_range']; exact ⟨s - i - 1, by omega, by omega⟩)
      simp only [decide_eq_true_eq] at this
      exact absurd ((h.near hi hs).mpr he) this
  · have hp := List.find?_some hf
    have hm := List.mem_of_find?_eq_some hf
    simp only [decide_eq_true_eq] at hp
    rw [List.mem_range'] at hm
    obtain ⟨t, ht, hjt⟩ := hm
    have hj : j < V.length := by omega
    have hij : i < j := by omega
    have he := (h.near hi hj).mp hp
    simp only
    by_cases hs : ∑ t, V.getD i 0 t < 0
    · rw [if_pos hs]
      constructor
      · intro h'
        injection h' with h'
        exact ⟨j, hj, hij, he, Or.inl ⟨hs, h'.symm⟩⟩
      · rintro ⟨s, hsl, -, hse, ⟨-, rfl⟩ | ⟨h0, -⟩⟩
        · rw [h.inj hj hsl (he.trans hse.symm)]
        · linarith
    · rw [if_neg hs]
      constructor
      · intro h'
        injection h' with h'
        exact ⟨j, hj, hij, he, Or.inr ⟨not_lt.mp hs, h'.symm⟩⟩
      · rintro ⟨s, hsl, -, hse, ⟨h0, -⟩ | ⟨-, rfl⟩⟩
        · exact absurd h0 hs
        · rfl

/-- The row `r` is kept. -/
def Kept (V : List (Fin 3 → ℝ)) (r : ℕ) : Prop :=
  ∃ s < V.length, V.getD s 0 = -V.getD r 0 ∧ ((r < s ∧ 0 ≤ ∑ t, V.getD r 0 t) ∨ (s < r ∧ 0 < ∑ t, V.getD r 0 t))

/-- The places of the kept rows. -/
def keptIdx (V : List (Fin 3 → ℝ)) : List ℕ := open Classical in (List.range V.length).filter (fun r => decide (Kept V r))

theorem sum_neg' (v : Fin 3 → ℝ) : ∑ t, (-v) t = -∑ t, v t := by simp [Finset.sum_neg_distrib]

theorem OppSym.unique {tol : ℝ} {V : List (Fin 3 → ℝ)} (h : OppSym tol V) : uniqueDirections V tol = (keptIdx V).map (fun r => V.getD r 0) := by
  classical
  unfold uniqueDirections keptIdx
  congr 1
  refine List.filter_congr (fun r hr => ?_)
  have hr := List.mem_range.mp hr
  rw [Bool.eq_iff_iff, List.any_eq_true]
  simp only [decide_eq_true_eq, List.mem_range]
  constructor
  · rintro ⟨i, hi, hm⟩
    have hil : i < V.length := by omega
    obtain ⟨s, hs, his, he, ⟨h0, rfl⟩ | ⟨h0, rfl⟩⟩ := (h.mark hil).mp hm
    · exact ⟨i, hil, by rw [he, neg_neg], Or.inr ⟨his, by rw [he, sum_neg']; linarith⟩⟩
    · exact ⟨s, hs, he, Or.inl ⟨his, h0⟩⟩
  · rintro ⟨s, hs, he, ⟨hrs, h0⟩ | ⟨hsr, h0⟩⟩
    · exact ⟨r, by omega, (h.mark hr).mpr ⟨s, hs, hrs, he, Or.inr ⟨h0, rfl⟩⟩⟩
    · exact ⟨s, by omega, (h.mark hs).mpr ⟨r, hr, hsr, by rw [he, neg_neg], Or.inl ⟨by rw [he, sum_neg']; linarith, rfl⟩⟩⟩

theorem keptIdx_mem {V : List (Fin 3 → ℝ)} {r : ℕ} : r ∈ keptIdx V ↔ r < V.length ∧ Kept V r := by
  classical
  unfold keptIdx
  rw [List.mem_filter, List.mem_range, decide_eq_true_eq]

theorem keptIdx_lt (V : List (Fin 3 → ℝ)) : (keptIdx V).Pairwise (· < ·) := List.Pairwise.filter _ List.pairwise_lt_range

theorem OppSym.mem {tol : ℝ} {V : List (Fin 3 → ℝ)} (h : OppSym tol V) {r : ℕ} (hr : r < V.length) : V.getD r 0 ∈ uniqueDirections V tol ↔ Kept V r := by
  rw [h.unique, List.mem_map]
  constructor
  · rintro ⟨q, hq, he⟩
    obtain ⟨hql, hk⟩ := keptIdx_mem.mp hq
    rwa [← h.inj hql hr he]
  · intro hk
    exact ⟨r, keptIdx_mem.mpr ⟨hr, hk⟩, rfl⟩

theorem OppSym.kept_iff {tol : ℝ} {V : List (Fin 3 → ℝ)} (h : OppSym tol V) {r s : ℕ} (hr : r < V.length) (hs : s < V.length) (he : V.getD s 0 = -V.getD r 0) :
    Kept V r ↔ ¬ Kept V s := by
  have hrs : r ≠ s := by
    rintro rfl
    refine h.ne _ (getD_mem hr) ?_
    funext t
    have := congrFun he t
    rw [Pi.neg_apply] at this
    show V.getD r 0 t = 0
    linarith
  have hsum : ∑ t, V.getD s 0 t = -∑ t, V.getD r 0 t := by rw [he, sum_neg']
  constructor
  · rintro ⟨a, ha, hae, h1⟩ ⟨b, hb, hbe, h2⟩
    have ea : a = s := h.inj ha hs (hae.trans he.symm)
    have eb : b = r := h.inj hb hr (by rw [hbe, he, neg_neg])
    subst ea eb
    rcases h1 with ⟨h1, h3⟩ | ⟨h1, h3⟩ <;> rcases h2 with ⟨h2, h4⟩ | ⟨h2, h4⟩ <;> first | omega | linarith
  · intro hn
    refine ⟨s, hs, he, ?_⟩
    by_contra hc
    refine hn ⟨r, hr, by rw [he, neg_neg], ?_⟩
    rw [hsum]
    rcases lt_trichotomy (∑ t, V.getD r 0 t) 0 with h0 | h0 | h0
    · rcases lt_or_gt_of_ne hrs with h1 | h1
      · exact Or.inr ⟨h1, by linarith⟩
      · exact Or.inl ⟨h1, by linarith⟩
    · rcases lt_or_gt_of_ne hrs with h1 | h1
      · exact absurd (Or.inl ⟨h1, h0.ge⟩) hc
      · exact Or.inl ⟨h1, by linarith⟩
    · rcases lt_or_gt_of_ne hrs with h1 | h1
      · exact absurd (Or.inl ⟨h1, h0.le⟩) hc
      · exact absurd (Or.inr ⟨h1, h0⟩) hc

theorem OppSym.half {tol : ℝ} {V : List (Fin 3 → ℝ)} (h : OppSym tol V) : IsHalf V (uniqueDirections V tol) ∧ ∀ v ∈ uniqueDirections V tol, 0 ≤ ∑ t, v t := by
  refine ⟨⟨?_, fun v hv => ?_⟩, fun v hv => ?_⟩
  · have h1 : (keptIdx V).Sublist (List.range V.length) := List.filter_sublist
    have h2 := h1.map (fun r => V.getD r 0)
    rw [h.unique]
    have h3 : (List.range V.length).map (fun r => V.getD r 0) = V := by
      refine List.ext_getElem? (fun i => ?_)
      rw [List.getElem?_map]
      rcases lt_or_ge i V.length with hi | hi
      · rw [List.getElem?_range hi, Option.map_some, List.getD_eq_getElem?_getD, List.getElem?_eq_getElem hi]; rfl
      · rw [List.getElem?_eq_none (by simpa using hi), List.getElem?_eq_none hi]; rfl
    rwa [h3] at h2
  · obtain ⟨r, hr, rfl⟩ := mem_getD hv
    obtain ⟨s, hs, he⟩ := mem_getD (h.neg _ (getD_mem hr))
    rw [← he, h.mem hr, h.mem hs]
    exact h.kept_iff hr hs he
  · rw [h.unique, List.mem_map] at hv
    obtain ⟨r, hr, rfl⟩ := hv
    obtain ⟨-, s, -, -, h1 | h1⟩ := keptIdx_mem.mp hr
    · exact h1.2
    · exact h1.2.le

theorem half_length {V C : List (Fin 3 → ℝ)} (hn : V.Nodup) (hneg : ∀ v ∈ V, -v ∈ V) (h : IsHalf V C) : V.length = 2 * C.length := by
  have hC : C.Nodup := hn.sublist h.1
  have hp : V.Perm (C ++ C.map (fun v => -v)) := by
    refine (List.perm_ext_iff_of_nodup hn ?_).mpr (fun v => ?_)
    · refine List.Nodup.append hC (hC.map neg_injective) ?_
      intro v hv hv'
      obtain ⟨u, hu, rfl⟩ := List.mem_map.mp hv'
      have := (h.2 u (h.1.subset hu)).mp hu
      exact this hv
    · rw [List.mem_append, List.mem_map]
      constructor
      · intro hv
        by_cases hc : v ∈ C
        · exact Or.inl hc
        · have : -v ∈ C := by
            by_contra hc'
            exact hc ((h.2 v hv).mpr hc')
          exact Or.inr ⟨-v, this, neg_neg v⟩
      · rintro (hv | ⟨u, hu, rfl⟩)
        · exact h.1.subset hv
        · exact hneg u (h.1.subset hu)
  rw [hp.length_eq, List.length_append, List.length_map]
  ring

end
end Ellipy.Geom
