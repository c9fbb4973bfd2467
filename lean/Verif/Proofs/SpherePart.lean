import Mathlib.Algebra.Order.Star.Basic
import Verif.Model.SpherePart

/-! The loop of `sphere_part`. -/

namespace Ellipy.Geom
noncomputable section

theorem argmin_ok {d : List ℝ} (h : d ≠ []) : ∃ q, q < d.length ∧ argmin d = .ok q ∧ (∀ i < d.length, d.getD q 0 ≤ d.getD i 0) ∧
    ∀ j < q, d.getD q 0 < d.getD j 0 := by
  classical
  obtain ⟨x, hx, hmin⟩ : ∃ x ∈ d, ∀ y ∈ d, x ≤ y := by
    obtain ⟨x, hx, hm⟩ := Finset.exists_min_image d.toFinset id ((List.toFinset_nonempty_iff _).mpr h)
    exact ⟨x, List.mem_toFinset.mp hx, fun y hy => hm y (List.mem_toFinset.mpr hy)⟩
  unfold argmin
  rcases hf : d.findIdx? (fun x => decide (∀ y ∈ d, x ≤ y)) with _ | q
  · rw [List.findIdx?_eq_none_iff] at hf
    have := hf x hx
    simp only [decide_eq_false_iff_not] at this
    exact absurd hmin this
  · rw [List.findIdx?_eq_some_iff_getElem] at hf
    obtain ⟨hq, hp, hb⟩ := hf
    simp only [decide_eq_true_eq] at hp
    have gd : ∀ i (hi : i < d.length), d.getD i 0 = d[i] := fun i hi => by
      rw [List.getD_eq_getElem?_getD, List.getElem?_eq_getElem hi]; rfl
    refine ⟨q, hq, rfl, fun i hi => ?_, fun j hj => ?_⟩
    · rw [gd q hq, gd i hi]; exact hp _ (List.getElem_mem hi)
    · have hjl : j < d.length := by omega
      have := hb j hj
      simp only [decide_eq_true_eq, not_forall, not_le] at this
      obtain ⟨y, hy, hlt⟩ := this
      rw [gd q hq, gd j hjl]
      exact lt_of_le_of_lt (hp y hy) hlt

/-- The place of the smallest entry. -/
def amin (d : List ℝ) : ℕ := match argmin d with
  | .ok i => i
  | .error _ => 0

theorem amin_spec {d : List ℝ} (h : d ≠ []) : argmin d = .ok (amin d) ∧ amin d < d.length ∧ (∀ i < d.length, d.getD (amin d) 0 ≤ d.getD i 0) ∧
    ∀ j < amin d, d.getD (amin d) 0 < d.getD j 0 := by
  obtain ⟨q, h1, h2, h3, h4⟩ := argmin_ok h
  have : amin d = q := by unfold amin; rw [h2]
  rw [this]
  exact ⟨h2, h1, h3, h4⟩

/-- The distances after `k` choices. -/
def pst (d : List ℝ) : ℕ → List ℝ
  | 0 => d
  | k + 1 => (pst d k).set (amin (pst d k)) (2 * Real.pi)

/-- The choice number `k`. -/
def pk (d : List ℝ) (k : ℕ) : ℕ := amin (pst d k)

theorem pst_length (d : List ℝ) (k : ℕ) : (pst d k).length = d.length := by
  induction k with
  | zero => rfl
  | succ k ih => rw [pst, List.length_set, ih]

theorem pst_ne {d : List ℝ} (h : d ≠ []) (k : ℕ) : pst d k ≠ [] := by
  intro h0
  have := pst_length d k
  rw [h0] at this
  exact h (List.length_eq_zero_iff.mp this.symm)

/-- The distances used in the pass `t`. -/
def axisOf (dx dy dz : List ℝ) (t : ℕ) : List ℝ := if t % 3 = 1 then dx else if t % 3 = 2 then dy else dz

theorem pickLoop_eq (P : List (Fin 3 → ℝ)) {dx dy dz : List ℝ} (hx : dx ≠ []) (hy : dy ≠ []) (hz : dz ≠ []) (k i : ℕ) :
    pickLoop P k i (pst dx ((i + 1) / 3)) (pst dy (i / 3)) (pst dz ((i + 2) / 3)) =
      .ok ((List.range' i k).map (fun t => P.getD (pk (axisOf dx dy dz t) (t / 3)) 0)) := by
  induction k generalizing i with
  | zero => rfl
  | succ k ih =>
    have hi := ih (i + 1)
    rw [List.range'_succ, List.map_cons]
    simp only [pickLoop]
    by_cases h1 : i % 3 = 1
    · have e1 : (i + 1 + 1) / 3 = (i + 1) / 3 + 1 := by omega
      have e2 : (i + 1) / 3 = i / 3 := by omega
      have e3 : (i + 1 + 2) / 3 = (i + 2) / 3 := by omega
      rw [e1, e3, pst] at hi
      rw [if_pos h1, (amin_spec (pst_ne hx _)).1]
      simp only
      rw [show pst dy ((i + 1) / 3) = pst dy (i / 3) by rw [e2]] at hi
      rw [hi]
      simp only [axisOf, if_pos h1, pk, e2]
    · rw [if_neg h1]
      by_cases h2 : i % 3 = 2
      · have e1 : (i + 1 + 1) / 3 = (i + 1) / 3 := by omega
        have e2 : (i + 1) / 3 = i / 3 + 1 := by omega
        have e3 : (i + 1 + 2) / 3 = (i + 2) / 3 := by omega
        rw [e1, e3] at hi
        rw [show pst dy ((i + 1) / 3) = (pst dy (i / 3)).set (amin (pst dy (i / 3))) (2 * Real.pi) by rw [e2, pst]] at hi
        rw [if_pos h2, (amin_spec (pst_ne hy _)).1]
        simp only
        rw [hi]
        simp only [axisOf, if_neg h1, if_pos h2, pk]
      · have e1 : (i + 1 + 1) / 3 = (i + 1) / 3 := by omega
        have e2 : (i + 1) / 3 = i / 3 := by omega
        have e3 : (i + 1 + 2) / 3 = (i + 2) / 3 + 1 := by omega
        have e4 : (i + 2) / 3 = i / 3 := by omega
        rw [e1, e3, pst] at hi
        rw [show pst dy ((i + 1) / 3) = pst dy (i / 3) by rw [e2]] at hi
        rw [if_neg h2, (amin_spec (pst_ne hz _)).1]
        simp only
        rw [hi]
        simp only [axisOf, if_neg h1, if_neg h2, pk, e4]

/-- The distances after some choices: `2 π` at the chosen places. -/
theorem pst_get {d : List ℝ} (h : d ≠ []) (k i : ℕ) (hi : i < d.length) :
    (pst d k).getD i 0 = open Classical in if ∃ j < k, pk d j = i then 2 * Real.pi else d.getD i 0 := by
  classical
  induction k with
  | zero => simp [pst]
  | succ k ih =>
    have hs : (pst d (k + 1)).getD i 0 = if pk d k = i then 2 * Real.pi else (pst d k).getD i 0 := by
      rw [pst, List.getD_eq_getElem?_getD, List.getElem?_set]
      have hl : amin (pst d k) < (pst d k).length := (amin_spec (pst_ne h k)).2.1
      by_cases he : pk d k = i
      · have he' : amin (pst d k) = i := he
        rw [if_pos he, if_pos he', if_pos hl]; rfl
      · have he' : ¬ amin (pst d k) = i := he
        rw [if_neg he, if_neg he', List.getD_eq_getElem?_getD]
    rw [hs, ih]
    by_cases he : pk d k = i
    · rw [if_pos he, if_pos ⟨k, by omega, he⟩]
    · rw [if_neg he]
      by_cases hex : ∃ j < k, pk d j = i
      · rw [if_pos hex, if_pos]
        obtain ⟨j, hj, h'⟩ := hex
        exact ⟨j, by omega, h'⟩
      · rw [if_neg hex, if_neg]
        rintro ⟨j, hj, h'⟩
        rcases Nat.lt_succ_iff_lt_or_eq.mp hj with hj | rfl
        · exact hex ⟨j, hj, h'⟩
        · exact he h'

/-- A choice: a place not chosen before, with the smallest distance among these places, and the first such place. -/
theorem pk_spec {d : List ℝ} (hd : ∀ x ∈ d, x ≤ Real.pi) (k : ℕ) (hk : k < d.length) : pk d k < d.length ∧ (∀ j < k, pk d j ≠ pk d k) ∧
    ∀ i < d.length, (∀ j < k, pk d j ≠ i) → d.getD (pk d k) 0 < d.getD i 0 ∨ (d.getD (pk d k) 0 = d.getD i 0 ∧ pk d k ≤ i) := by
  classical
  have h : d ≠ [] := by rintro rfl; simp at hk
  have hpi : ∀ i < d.length, d.getD i 0 < 2 * Real.pi := by
    intro i hi
    have : d.getD i 0 ≤ Real.pi := by
      rw [List.getD_eq_getElem?_getD, List.getElem?_eq_getElem hi]
      exact hd _ (List.getElem_mem hi)
    have := Real.pi_pos
    linarith
  obtain ⟨-, h1, h2, h3⟩ := amin_spec (pst_ne h k)
  rw [pst_length] at h1 h2
  change pk d k < d.length at h1
  change ∀ i < d.length, (pst d k).getD (pk d k) 0 ≤ _ at h2
  change ∀ j < pk d k, (pst d k).getD (pk d k) 0 < _ at h3
  have hnew : ∀ j < k, pk d j ≠ pk d k := by
    by_contra hn
    have hex : ∃ j < k, pk d j = pk d k := by push Not at hn; exact hn
    obtain ⟨i, hi, hfree⟩ : ∃ i < d.length, ∀ j < k, pk d j ≠ i := by
      by_contra hno
      push Not at hno
      have hsub : Finset.range d.length ⊆ (Finset.range k).image (pk d) := by
        intro i hi
        obtain ⟨j, hj, he⟩ := hno i (Finset.mem_range.mp hi)
        exact Finset.mem_image.mpr ⟨j, Finset.mem_range.mpr hj, he⟩
      have := (Finset.card_le_card hsub).trans Finset.card_image_le
      simp only [Finset.card_range] at this
      omega
    have h4 := h2 i hi
    rw [pst_get h k _ h1, pst_get h k _ hi, if_pos hex, if_neg (by push Not; exact hfree)] at h4
    exact absurd (hpi i hi) (not_lt.mpr h4)
  have e1 : (pst d k).getD (pk d k) 0 = d.getD (pk d k) 0 := by
    rw [pst_get h k _ h1, if_neg (by push Not; exact hnew)]
  refine ⟨h1, hnew, fun i hi hfree => ?_⟩
  have e2 : (pst d k).getD i 0 = d.getD i 0 := by
    rw [pst_get h k _ hi, if_neg (by push Not; exact hfree)]
  rcases lt_or_ge i (pk d k) with hlt | hge
  · left
    have := h3 i hlt
    rwa [e1, e2] at this
  · have := h2 i hi
    rw [e1, e2] at this
    rcases this.lt_or_eq with h' | h'
    · exact Or.inl h'
    · exact Or.inr ⟨h', hge⟩

theorem pk_inj {d : List ℝ} (hd : ∀ x ∈ d, x ≤ Real.pi) {j k : ℕ} (hj : j < d.length) (hk : k < d.length) (h : pk d j = pk d k) : j = k := by
  rcases lt_trichotomy j k with hlt | rfl | hlt
  · exact absurd h ((pk_spec hd k hk).2.1 j hlt)
  · rfl
  · exact absurd h.symm ((pk_spec hd j hj).2.1 k hlt)

theorem pk_mono {d : List ℝ} (hd : ∀ x ∈ d, x ≤ Real.pi) {j k : ℕ} (hjk : j < k) (hk : k < d.length) : d.getD (pk d j) 0 ≤ d.getD (pk d k) 0 := by
  obtain ⟨h1, h2, -⟩ := pk_spec hd k hk
  rcases (pk_spec hd j (by omega)).2.2 (pk d k) h1 (fun t ht => h2 t (by omega)) with h | h
  · exact h.le
  · exact h.1.le

/-- A place with fewer than `K` places before it is among the first `K` choices. -/
theorem pk_mem {d : List ℝ} (hd : ∀ x ∈ d, x ≤ Real.pi) {i K : ℕ} (hi : i < d.length) (hK : K ≤ d.length) (S : Finset ℕ)
    (hS : ∀ j < d.length, j ≠ i → (d.getD j 0 < d.getD i 0 ∨ (d.getD j 0 = d.getD i 0 ∧ j < i)) → j ∈ S) (hc : S.card < K) : ∃ t < K, pk d t = i := by
  classical
  by_contra hno
  push Not at hno
  have hsub : (Finset.range K).image (pk d) ⊆ S := by
    intro p hp
    obtain ⟨t, ht, rfl⟩ := Finset.mem_image.mp hp
    have ht := Finset.mem_range.mp ht
    obtain ⟨h1, -, h3⟩ := pk_spec hd t (by omega)
    refine hS _ h1 (hno t ht) ?_
    rcases h3 i hi (fun j hj => hno j (by omega)) with h | h
    · exact Or.inl h
    · exact Or.inr ⟨h.1, lt_of_le_of_ne h.2 (hno t ht)⟩
  have h := Finset.card_le_card hsub
  rw [Finset.card_image_of_injOn, Finset.card_range] at h
  · omega
  · intro a ha b hb hab
    have ha := Finset.mem_range.mp ha
    have hb := Finset.mem_range.mp hb
    exact pk_inj hd (by omega) (by omega) hab

end
end Ellipy.Geom
