import Verif.Spec.TriClosed
import Verif.Props.TriShrink

/-! Property theorems C114: a closed surface stays closed. -/

namespace Ellipy.Tri

variable {d : ℕ}

/-- One if the numbers are equal. -/
private def eqN (x j : ℕ) : ℕ := if x = j then 1 else 0

private theorem eqN_ne {x j : ℕ} (h : x ≠ j) : eqN x j = 0 := if_neg h

private theorem slot_eq (k : ℕ) (e : ℕ × ℕ × ℕ) : slotCount k e = eqN e.1 k + eqN e.2.1 k + eqN e.2.2 k := rfl

private theorem zsum {α : Type} (c j : ℕ) : ∀ (l : List α) (s : ℕ),
    ((l.zipIdx s).map fun x => eqN (c + x.2) j).sum = if c + s ≤ j ∧ j < c + s + l.length then 1 else 0
  | [], s => by simp
  | a :: l, s => by
    rw [List.zipIdx_cons, List.map_cons, List.sum_cons, zsum c j l (s + 1), List.length_cons]
    unfold eqN
    simp only
    split_ifs <;> omega

private theorem sum_zero {α : Type} (l : List α) (f : α → ℕ) (h : ∀ x ∈ l, f x = 0) : (l.map f).sum = 0 := by
  rw [List.map_congr_left h]; simp

private theorem sum_zip {α : Type} (f : α → ℕ) (l : List α) : (l.zipIdx.map fun x => f x.1).sum = (l.map f).sum := by
  have : (l.zipIdx.map fun x : α × ℕ => f x.1) = (l.zipIdx.map Prod.fst).map f := by rw [List.map_map]; rfl
  rw [this, List.zipIdx_map_fst]

private theorem sum_range_eqN (p : ℕ → Bool) (g : ℕ → ℕ) (j k : ℕ) (hk : ∀ x, p x → (g x = j ↔ x = k)) : ∀ n,
    (((List.range n).filter p).map fun x => eqN (g x) j).sum = if k < n ∧ p k then 1 else 0
  | 0 => by simp
  | n + 1 => by
    rw [List.range_succ, List.filter_append, List.map_append, List.sum_append, sum_range_eqN p g j k hk n]
    cases hp : p n with
    | false =>
      simp only [List.filter_cons, hp, Bool.false_eq_true, if_false, List.filter_nil, List.map_nil, List.sum_nil, add_zero]
      by_cases hkn : k = n
      · subst hkn; simp [hp]
      · have : k < n + 1 ↔ k < n := by omega
        simp only [this]
    | true =>
      simp only [List.filter_cons, hp, if_true, List.filter_nil, List.map_cons, List.map_nil, List.sum_cons, List.sum_nil, add_zero]
      unfold eqN
      rw [if_congr (hk n hp) rfl rfl]
      by_cases hkn : n = k
      · subst hkn; simp [hp]
      · have : k < n + 1 ↔ k < n := by omega
        simp only [this, if_neg hkn, add_zero]

section
variable (maxLen : ℝ) (m : Mesh d)

private theorem indKept_lt {k : ℕ} (hk : k < m.edges.length) (h : eKept maxLen m k) : indKept maxLen m k < (edges0 maxLen m).length := by
  unfold indKept edges0
  rw [mask_length]
  have := cum_pos h
  have := cum_le (p := eKept maxLen m) hk
  omega

private theorem indKept_inj {k l : ℕ} (hk : eKept maxLen m k) (hl : eKept maxLen m l) : indKept maxLen m k = indKept maxLen m l ↔ k = l := by
  constructor
  · intro h
    unfold indKept at h
    have h1 := cum_pos hk
    have h2 := cum_pos hl
    exact cum_inj hk hl (by omega)
  · rintro rfl; rfl

private theorem half_eq {k : ℕ} (hk : k < m.edges.length) (h : e2part maxLen m k) (b : Bool) :
    ∃ r, r < (splitE maxLen m).length ∧ r = cumIdx (e2part maxLen m) k - 1 ∧ ePart maxLen m k - m.verts.length = r ∧
      halfE maxLen m k b = (edges0 maxLen m).length + 3 * (partF maxLen m).length + r + (if b then (splitE maxLen m).length else 0) := by
  obtain ⟨r, h1, -, h2, h3⟩ := split_place maxLen m k hk h
  refine ⟨r, h1, h3, by omega, ?_⟩
  unfold halfE
  rw [h2]
  omega

private theorem half_inj {k l : ℕ} (hk : k < m.edges.length) (h : e2part maxLen m k) (hl : l < m.edges.length) (h' : e2part maxLen m l) (b c : Bool) :
    halfE maxLen m k b = halfE maxLen m l c ↔ k = l ∧ b = c := by
  constructor
  · intro he
    obtain ⟨r, h1, h2, -, h3⟩ := half_eq maxLen m hk h b
    obtain ⟨r', h1', h2', -, h3'⟩ := half_eq maxLen m hl h' c
    rw [h3, h3'] at he
    have hp := cum_pos h
    have hp' := cum_pos h'
    cases b <;> cases c <;> simp only [if_true, Bool.false_eq_true, if_false] at he
    · exact ⟨cum_inj h h' (by omega), rfl⟩
    · omega
    · omega
    · exact ⟨cum_inj h h' (by omega), rfl⟩
  · rintro ⟨rfl, rfl⟩; rfl

end

/-- The uses of an edge by a list of faces. -/
private def uses (F : List Face) (k : ℕ) : ℕ := edgeUses (F.map Face.e) k

private theorem uses_eq (F : List Face) (k : ℕ) :
    uses F k = (F.map fun f => eqN f.e.1 k).sum + (F.map fun f => eqN f.e.2.1 k).sum + (F.map fun f => eqN f.e.2.2 k).sum := by
  unfold uses edgeUses
  rw [List.map_map, ← List.sum_map_add, ← List.sum_map_add]
  rfl

private theorem uses_append (F G : List Face) (k : ℕ) : uses (F ++ G) k = uses F k + uses G k := by
  unfold uses edgeUses
  rw [List.map_append, List.map_append, List.sum_append]

private theorem uses_split (maxLen : ℝ) (m : Mesh d) (k : ℕ) : uses m.faces k = uses (keptF maxLen m) k + uses (partF maxLen m) k := by
  unfold uses edgeUses keptF partF
  induction m.faces with
  | nil => rfl
  | cons f l ih =>
    simp only [List.map_map] at ih ⊢
    rw [List.map_cons, List.sum_cons, ih]
    cases hp : isPart maxLen m f <;> simp [hp] <;> omega

private theorem uses_pos {F : List Face} {k : ℕ} : onFaces F k = true ↔ 0 < uses F k := by
  rw [onFaces_iff]
  constructor
  · rintro ⟨f, hf, h⟩
    have h1 : slotCount k f.e ≤ uses F k := by
      unfold uses edgeUses
      exact List.single_le_sum (by simp) _ (List.mem_map.2 ⟨f.e, List.mem_map.2 ⟨f, hf, rfl⟩, rfl⟩)
    have h2 : 0 < slotCount k f.e := by
      unfold slotCount
      rcases h with h | h | h <;> simp [h]
    omega
  · intro h
    by_contra hcon
    push Not at hcon
    have : uses F k = 0 := by
      unfold uses edgeUses
      rw [List.map_map]
      refine sum_zero _ _ fun f hf => ?_
      have := hcon f hf
      simp [slotCount, this]
    omega

private theorem uses_kept {maxLen : ℝ} {m : Mesh d} (hm : Inv m) {k : ℕ} (h : eKept maxLen m k) :
    uses (keptF' maxLen m) (indKept maxLen m k) = uses (keptF maxLen m) k := by
  rw [uses_eq, uses_eq]
  unfold keptF'
  simp only [List.map_map]
  congr 1
  · congr 1
    · exact congrArg List.sum (List.map_congr_left fun f hf => if_congr (indKept_inj maxLen m (kept_eKept maxLen m hf).1 h) rfl rfl)
    · exact congrArg List.sum (List.map_congr_left fun f hf => if_congr (indKept_inj maxLen m (kept_eKept maxLen m hf).2.1 h) rfl rfl)
  · exact congrArg List.sum (List.map_congr_left fun f hf => if_congr (indKept_inj maxLen m (kept_eKept maxLen m hf).2.2 h) rfl rfl)

private theorem uses_kept_high {maxLen : ℝ} {m : Mesh d} (hm : Inv m) {j : ℕ} (h : (edges0 maxLen m).length ≤ j) :
    uses (keptF' maxLen m) j = 0 := by
  rw [uses_eq]
  unfold keptF'
  simp only [List.map_map]
  have : ∀ f ∈ keptF maxLen m, indKept maxLen m f.e.1 ≠ j ∧ indKept maxLen m f.e.2.1 ≠ j ∧ indKept maxLen m f.e.2.2 ≠ j := by
    intro f hf
    obtain ⟨h1, h2, h3⟩ := kept_eKept maxLen m hf
    obtain ⟨l1, l2, l3⟩ := hm.face_lt (kept_mem hf)
    have := indKept_lt maxLen m l1 h1
    have := indKept_lt maxLen m l2 h2
    have := indKept_lt maxLen m l3 h3
    omega
  have e1 := sum_zero _ _ fun f hf => eqN_ne (this f hf).1
  have e2 := sum_zero _ _ fun f hf => eqN_ne (this f hf).2.1
  have e3 := sum_zero _ _ fun f hf => eqN_ne (this f hf).2.2
  exact congrArg₂ (· + ·) (congrArg₂ (· + ·) e1 e2) e3

/-- The number of the faces of `partF` at which an edge is used, as a sum over its numbers. -/
private theorem uses_f1 (maxLen : ℝ) (m : Mesh d) (j : ℕ) : uses (f1New maxLen m) j =
    (if (edges0 maxLen m).length ≤ j ∧ j < (edges0 maxLen m).length + (partF maxLen m).length then 1 else 0) +
    (if (edges0 maxLen m).length + 2 * (partF maxLen m).length ≤ j ∧ j < (edges0 maxLen m).length + 3 * (partF maxLen m).length then 1 else 0) +
    (if (edges0 maxLen m).length + (partF maxLen m).length ≤ j ∧ j < (edges0 maxLen m).length + 2 * (partF maxLen m).length then 1 else 0) := by
  rw [uses_eq]
  unfold f1New
  simp only [List.map_map]
  have e1 := zsum ((edges0 maxLen m).length) j (partF maxLen m) 0
  have e2 := zsum ((edges0 maxLen m).length + 2 * (partF maxLen m).length) j (partF maxLen m) 0
  have e3 := zsum ((edges0 maxLen m).length + (partF maxLen m).length) j (partF maxLen m) 0
  refine congrArg₂ _ (congrArg₂ _ ?_ ?_) ?_
  · refine Eq.trans ?_ (e1.trans ?_)
    · rfl
    · simp
  · refine Eq.trans ?_ (e2.trans ?_)
    · refine congrArg List.sum (List.map_congr_left fun x _ => ?_)
      show eqN _ _ = eqN _ _
      congr 1; simp only; omega
    · simp only [add_zero]; exact if_congr (by constructor <;> intro h <;> constructor <;> omega) rfl rfl
  · refine Eq.trans ?_ (e3.trans ?_)
    · refine congrArg List.sum (List.map_congr_left fun x _ => ?_)
      show eqN _ _ = eqN _ _
      congr 1; simp only; omega
    · simp only [add_zero]; exact if_congr (by constructor <;> intro h <;> constructor <;> omega) rfl rfl

private theorem uses_f2 (maxLen : ℝ) (m : Mesh d) (j : ℕ) : uses (f2New maxLen m) j =
    ((if (edges0 maxLen m).length + (partF maxLen m).length ≤ j ∧ j < (edges0 maxLen m).length + 2 * (partF maxLen m).length then 1 else 0) +
      ((partF maxLen m).map fun f => eqN (halfE maxLen m f.e.2.2 (!f.dir.2.2)) j).sum + ((partF maxLen m).map fun f => eqN (halfE maxLen m f.e.1 (!f.dir.1)) j).sum) +
    ((if (edges0 maxLen m).length ≤ j ∧ j < (edges0 maxLen m).length + (partF maxLen m).length then 1 else 0) +
      ((partF maxLen m).map fun f => eqN (halfE maxLen m f.e.1 f.dir.1) j).sum + ((partF maxLen m).map fun f => eqN (halfE maxLen m f.e.2.1 (!f.dir.2.1)) j).sum) +
    ((if (edges0 maxLen m).length + 2 * (partF maxLen m).length ≤ j ∧ j < (edges0 maxLen m).length + 3 * (partF maxLen m).length then 1 else 0) +
      ((partF maxLen m).map fun f => eqN (halfE maxLen m f.e.2.1 f.dir.2.1) j).sum + ((partF maxLen m).map fun f => eqN (halfE maxLen m f.e.2.2 f.dir.2.2) j).sum) := by
  unfold f2New
  rw [uses_append, uses_append, uses_eq, uses_eq, uses_eq]
  simp only [List.map_map]
  have e1 := zsum ((edges0 maxLen m).length) j (partF maxLen m) 0
  have e2 := zsum ((edges0 maxLen m).length + 2 * (partF maxLen m).length) j (partF maxLen m) 0
  have e3 := zsum ((edges0 maxLen m).length + (partF maxLen m).length) j (partF maxLen m) 0
  refine congrArg₂ _ (congrArg₂ _ (congrArg₂ _ (congrArg₂ _ ?_ ?_) ?_) (congrArg₂ _ (congrArg₂ _ ?_ ?_) ?_)) (congrArg₂ _ (congrArg₂ _ ?_ ?_) ?_)
  · refine Eq.trans ?_ (e3.trans ?_)
    · refine congrArg List.sum (List.map_congr_left fun x _ => ?_)
      show eqN _ _ = eqN _ _
      congr 1; simp only; omega
    · simp only [add_zero]; exact if_congr (by constructor <;> intro h <;> constructor <;> omega) rfl rfl
  · exact sum_zip (fun f : Face => eqN (halfE maxLen m f.e.2.2 (!f.dir.2.2)) j) _
  · exact sum_zip (fun f : Face => eqN (halfE maxLen m f.e.1 (!f.dir.1)) j) _
  · refine Eq.trans ?_ (e1.trans ?_)
    · rfl
    · simp
  · exact sum_zip (fun f : Face => eqN (halfE maxLen m f.e.1 f.dir.1) j) _
  · exact sum_zip (fun f : Face => eqN (halfE maxLen m f.e.2.1 (!f.dir.2.1)) j) _
  · refine Eq.trans ?_ (e2.trans ?_)
    · refine congrArg List.sum (List.map_congr_left fun x _ => ?_)
      show eqN _ _ = eqN _ _
      congr 1; simp only; omega
    · simp only [add_zero]; exact if_congr (by constructor <;> intro h <;> constructor <;> omega) rfl rfl
  · exact sum_zip (fun f : Face => eqN (halfE maxLen m f.e.2.1 f.dir.2.1) j) _
  · exact sum_zip (fun f : Face => eqN (halfE maxLen m f.e.2.2 f.dir.2.2) j) _

private theorem half_low {maxLen : ℝ} {m : Mesh d} (hm : Inv m) {j : ℕ} (hj : j < (edges0 maxLen m).length + 3 * (partF maxLen m).length)
    (g : Face → ℕ) (b : Face → Bool) (hg : ∀ f ∈ partF maxLen m, g f < m.edges.length ∧ e2part maxLen m (g f)) :
    ((partF maxLen m).map fun f => eqN (halfE maxLen m (g f) (b f)) j).sum = 0 := by
  refine sum_zero _ _ fun f hf => eqN_ne ?_
  obtain ⟨r, -, -, -, h⟩ := half_eq maxLen m (hg f hf).1 (hg f hf).2 (b f)
  omega

private theorem part_ok {maxLen : ℝ} {m : Mesh d} (hm : Inv m) {f : Face} (hf : f ∈ partF maxLen m) :
    (f.e.1 < m.edges.length ∧ e2part maxLen m f.e.1) ∧ (f.e.2.1 < m.edges.length ∧ e2part maxLen m f.e.2.1) ∧
      (f.e.2.2 < m.edges.length ∧ e2part maxLen m f.e.2.2) := by
  obtain ⟨l1, l2, l3⟩ := hm.face_lt (List.mem_filter.mp hf).1
  obtain ⟨h1, h2, h3⟩ := part_e2part maxLen m hf
  exact ⟨⟨l1, h1⟩, ⟨l2, h2⟩, l3, h3⟩

private theorem half_high {maxLen : ℝ} {m : Mesh d} {k : ℕ} (hk : k < m.edges.length) (h : e2part maxLen m k) (c : Bool)
    (g : Face → ℕ) (b : Face → Bool) (hg : ∀ f ∈ partF maxLen m, g f < m.edges.length ∧ e2part maxLen m (g f)) :
    ((partF maxLen m).map fun f => eqN (halfE maxLen m (g f) (b f)) (halfE maxLen m k c)).sum +
      ((partF maxLen m).map fun f => eqN (halfE maxLen m (g f) (!b f)) (halfE maxLen m k c)).sum = ((partF maxLen m).map fun f => eqN (g f) k).sum := by
  rw [← List.sum_map_add]
  refine congrArg List.sum (List.map_congr_left fun f hf => ?_)
  unfold eqN
  have e1 := half_inj maxLen m (hg f hf).1 (hg f hf).2 hk h (b f) c
  have e2 := half_inj maxLen m (hg f hf).1 (hg f hf).2 hk h (!b f) c
  rw [if_congr e1 rfl rfl, if_congr e2 rfl rfl]
  by_cases hgk : g f = k
  · rcases b f <;> rcases c <;> simp [hgk]
  · simp [hgk]

private theorem faces_uses {maxLen : ℝ} {m : Mesh d} {adj} (j : ℕ) : uses (shrinkStep maxLen adj m).faces j =
    uses (keptF' maxLen m) j + uses (f1New maxLen m) j + uses (f2New maxLen m) j + uses (f3New maxLen m) j := by
  show uses (keptF' maxLen m ++ (f1New maxLen m ++ (f2New maxLen m ++ f3New maxLen m))) j = _
  rw [uses_append, uses_append, uses_append]; omega

private theorem broken_ok {maxLen : ℝ} {m : Mesh d} {k : ℕ} (h : k ∈ broken maxLen m) : k < m.edges.length ∧ e2part maxLen m k ∧ eKept maxLen m k := by
  obtain ⟨h1, h2⟩ := List.mem_filter.1 h
  rw [Bool.and_eq_true] at h2
  exact ⟨List.mem_range.1 h1, h2⟩

private theorem uses_f3 (maxLen : ℝ) (m : Mesh d) (j : ℕ) : uses (f3New maxLen m) j =
    ((broken maxLen m).map fun k => eqN (halfE maxLen m k false) j).sum + ((broken maxLen m).map fun k => eqN (halfE maxLen m k true) j).sum +
      ((broken maxLen m).map fun k => eqN (indKept maxLen m k) j).sum := by
  rw [uses_eq]
  unfold f3New
  simp only [List.map_map]
  refine congrArg₂ _ (congrArg₂ _ ?_ ?_) ?_
  · refine congrArg List.sum (List.map_congr_left fun k hk => ?_)
    obtain ⟨h1, h2, -⟩ := broken_ok hk
    obtain ⟨r, -, -, h3, h4⟩ := half_eq maxLen m h1 h2 false
    show eqN _ _ = eqN _ _
    rw [h4]
    congr 1
    simp only [h3, Bool.false_eq_true, if_false]
    omega
  · refine congrArg List.sum (List.map_congr_left fun k hk => ?_)
    obtain ⟨h1, h2, -⟩ := broken_ok hk
    obtain ⟨r, -, -, h3, h4⟩ := half_eq maxLen m h1 h2 true
    show eqN _ _ = eqN _ _
    rw [h4]
    congr 1
    simp only [h3, if_true]
    omega
  · rfl

private theorem broken_sum {maxLen : ℝ} {m : Mesh d} {k j : ℕ} (hk : k < m.edges.length) (g : ℕ → ℕ)
    (hg : ∀ x, e2part maxLen m x && eKept maxLen m x → (g x = j ↔ x = k)) :
    ((broken maxLen m).map fun x => eqN (g x) j).sum = if e2part maxLen m k && eKept maxLen m k then 1 else 0 := by
  unfold broken
  rw [sum_range_eqN (fun x => e2part maxLen m x && eKept maxLen m x) g j k hg m.edges.length]
  simp [hk]

/-- An edge that is split and kept is on a face that is split and on a face that is kept. -/
private theorem both_pos {maxLen : ℝ} {m : Mesh d} {k : ℕ} (h1 : e2part maxLen m k) (h2 : eKept maxLen m k) :
    0 < uses (partF maxLen m) k ∧ 0 < uses (keptF maxLen m) k := by
  refine ⟨?_, uses_pos.1 h2⟩
  unfold e2part at h1
  rw [Bool.or_eq_true] at h1
  rcases h1 with h1 | h1
  · have := not_long_kept h2
    simp only [isLong, decide_eq_true_eq] at h1
    exact absurd this (not_le.2 h1)
  · exact uses_pos.1 h1

private theorem part_zero {maxLen : ℝ} {m : Mesh d} {k : ℕ} (h : e2part maxLen m k = false) : uses (partF maxLen m) k = 0 := by
  by_contra hne
  have := uses_pos.2 (Nat.pos_of_ne_zero hne)
  unfold e2part at h
  rw [this] at h
  simp at h

private theorem kept_zero {maxLen : ℝ} {m : Mesh d} {k : ℕ} (h : eKept maxLen m k = false) : uses (keptF maxLen m) k = 0 := by
  by_contra hne
  have := uses_pos.2 (Nat.pos_of_ne_zero hne)
  unfold eKept at h
  rw [this] at h
  cases h

/-- In a pass through the loop the uses of an edge of the new table are two or the uses of an edge of the old table. -/
theorem Inv.uses_step {m : Mesh d} (hm : Inv m) (maxLen : ℝ) {adj} (h2 : ∀ k, k < m.edges.length → edgeUses (m.faces.map Face.e) k ≤ 2) (j : ℕ)
    (hj : j < (shrinkStep maxLen adj m).edges.length) :
    edgeUses ((shrinkStep maxLen adj m).faces.map Face.e) j = 2 ∨
      ∃ k, k < m.edges.length ∧ edgeUses ((shrinkStep maxLen adj m).faces.map Face.e) j = edgeUses (m.faces.map Face.e) k := by
  change ∀ k, k < m.edges.length → uses m.faces k ≤ 2 at h2
  change uses _ j = 2 ∨ ∃ k, k < m.edges.length ∧ uses _ j = uses m.faces k
  have hE : (shrinkStep maxLen adj m).edges.length = (edges0 maxLen m).length + (3 * (partF maxLen m).length + 2 * (splitE maxLen m).length) := by
    show (edges0 maxLen m ++ (e1New maxLen m ++ e2New maxLen m)).length = _
    rw [List.length_append, List.length_append, e1_len, e2_len]
  rw [hE] at hj
  have o1 : ∀ f ∈ partF maxLen m, f.e.1 < m.edges.length ∧ e2part maxLen m f.e.1 := fun f hf => (part_ok hm hf).1
  have o2 : ∀ f ∈ partF maxLen m, f.e.2.1 < m.edges.length ∧ e2part maxLen m f.e.2.1 := fun f hf => (part_ok hm hf).2.1
  have o3 : ∀ f ∈ partF maxLen m, f.e.2.2 < m.edges.length ∧ e2part maxLen m f.e.2.2 := fun f hf => (part_ok hm hf).2.2
  have hB : ∀ x, x ∈ broken maxLen m → ∀ b, (edges0 maxLen m).length + 3 * (partF maxLen m).length ≤ halfE maxLen m x b := by
    intro x hx b
    obtain ⟨h3, h4, -⟩ := broken_ok hx
    obtain ⟨r, -, -, -, h5⟩ := half_eq maxLen m h3 h4 b
    omega
  rw [faces_uses, uses_f1, uses_f2, uses_f3]
  by_cases hlow : j < (edges0 maxLen m).length + 3 * (partF maxLen m).length
  · have z : ∀ b, ((broken maxLen m).map fun k => eqN (halfE maxLen m k b) j).sum = 0 := fun b =>
      sum_zero _ _ fun x hx => eqN_ne (by have := hB x hx b; omega)
    rw [half_low hm hlow (fun f => f.e.2.2) (fun f => !f.dir.2.2) o3, half_low hm hlow (fun f => f.e.1) (fun f => !f.dir.1) o1,
      half_low hm hlow (fun f => f.e.1) (fun f => f.dir.1) o1, half_low hm hlow (fun f => f.e.2.1) (fun f => !f.dir.2.1) o2,
      half_low hm hlow (fun f => f.e.2.1) (fun f => f.dir.2.1) o2, half_low hm hlow (fun f => f.e.2.2) (fun f => f.dir.2.2) o3, z, z]
    by_cases hL : j < (edges0 maxLen m).length
    · right
      obtain ⟨k, hk, hp, hkj⟩ := mask_idx (eKept maxLen m) m.edges j hL
      refine ⟨k, hk, ?_⟩
      have hkj' : indKept maxLen m k = j := hkj
      have hb := broken_sum (maxLen := maxLen) (m := m) (j := j) hk (indKept maxLen m) (by
        intro x hx
        rw [Bool.and_eq_true] at hx
        rw [← hkj']
        exact indKept_inj maxLen m hx.2 hp)
      rw [hb, ← hkj', uses_kept hm hp, uses_split maxLen m k, hp, Bool.and_true]
      rw [hkj']
      have hu := h2 k hk
      rw [uses_split maxLen m k] at hu
      cases hq : e2part maxLen m k with
      | true =>
        have := both_pos hq hp
        simp only [if_true]
        split_ifs <;> omega
      | false =>
        have := part_zero hq
        simp only [Bool.false_eq_true, if_false]
        split_ifs <;> omega
    · left
      rw [uses_kept_high hm (not_lt.1 hL), sum_zero _ _ fun x hx => eqN_ne (x := indKept maxLen m x) (by
        obtain ⟨h3, -, h4⟩ := broken_ok hx
        have := indKept_lt maxLen m h3 h4
        omega)]
      split_ifs <;> omega
  · right
    obtain ⟨k, b, hk, hp, hkj⟩ : ∃ k b, k < m.edges.length ∧ e2part maxLen m k ∧ halfE maxLen m k b = j := by
      by_cases hS : j < (edges0 maxLen m).length + 3 * (partF maxLen m).length + (splitE maxLen m).length
      · obtain ⟨k, hk, hp, hkj⟩ := mask_idx (e2part maxLen m) m.edges (j - ((edges0 maxLen m).length + 3 * (partF maxLen m).length)) (by
          show _ < (splitE maxLen m).length; omega)
        refine ⟨k, false, hk, hp, ?_⟩
        obtain ⟨r, -, h3, -, h4⟩ := half_eq maxLen m hk hp false
        rw [h4]
        simp only [Bool.false_eq_true, if_false]
        omega
      · obtain ⟨k, hk, hp, hkj⟩ := mask_idx (e2part maxLen m) m.edges
          (j - ((edges0 maxLen m).length + 3 * (partF maxLen m).length + (splitE maxLen m).length)) (by
          show _ < (splitE maxLen m).length; omega)
        refine ⟨k, true, hk, hp, ?_⟩
        obtain ⟨r, -, h3, -, h4⟩ := half_eq maxLen m hk hp true
        rw [h4]
        simp only [if_true]
        omega
    refine ⟨k, hk, ?_⟩
    have hL : (edges0 maxLen m).length ≤ j := by omega
    have b1 := half_high hk hp b (fun f => f.e.1) (fun f => f.dir.1) o1
    have b2 := half_high hk hp b (fun f => f.e.2.1) (fun f => f.dir.2.1) o2
    have b3 := half_high hk hp b (fun f => f.e.2.2) (fun f => f.dir.2.2) o3
    rw [hkj] at b1 b2 b3
    have hk3 : ((broken maxLen m).map fun x => eqN (indKept maxLen m x) j).sum = 0 := sum_zero _ _ fun x hx => eqN_ne (x := indKept maxLen m x) (by
        obtain ⟨h3, -, h4⟩ := broken_ok hx
        have := indKept_lt maxLen m h3 h4
        omega)
    have hsame : ((broken maxLen m).map fun x => eqN (halfE maxLen m x b) j).sum = if e2part maxLen m k && eKept maxLen m k then 1 else 0 := by
      have : ((broken maxLen m).map fun x => eqN (halfE maxLen m x b) j).sum = ((broken maxLen m).map fun x => eqN x k).sum := by
        refine congrArg List.sum (List.map_congr_left fun x hx => ?_)
        obtain ⟨h3, h4, -⟩ := broken_ok hx
        unfold eqN
        rw [← hkj]
        refine if_congr ((half_inj maxLen m h3 h4 hk hp b b).trans ?_) rfl rfl
        simp
      rw [this]
      exact broken_sum hk (fun x => x) (fun x _ => Iff.rfl)
    have hother : ((broken maxLen m).map fun x => eqN (halfE maxLen m x (!b)) j).sum = 0 := by
      refine sum_zero _ _ fun x hx => eqN_ne fun h => ?_
      obtain ⟨h3, h4, -⟩ := broken_ok hx
      rw [← hkj] at h
      have := ((half_inj maxLen m h3 h4 hk hp (!b) b).1 h).2
      cases b <;> cases this
    have hsum : ((broken maxLen m).map fun x => eqN (halfE maxLen m x false) j).sum + ((broken maxLen m).map fun x => eqN (halfE maxLen m x true) j).sum =
        if e2part maxLen m k && eKept maxLen m k then 1 else 0 := by
      cases b with
      | false => rw [hsame]; simp only [Bool.not_false] at hother; rw [hother]; rfl
      | true => rw [hsame]; simp only [Bool.not_true] at hother; rw [hother, zero_add]
    have hu := h2 k hk
    rw [uses_split maxLen m k] at hu
    rw [uses_split maxLen m k, uses_kept_high hm hL, hk3, hsum, hp, Bool.true_and]
    have hpu := uses_eq (partF maxLen m) k
    cases hq : eKept maxLen m k with
    | true =>
      have := both_pos hp hq
      simp only [if_true]
      split_ifs <;> omega
    | false =>
      have := kept_zero hq
      simp only [Bool.false_eq_true, if_false]
      split_ifs <;> omega

/-- The uses of an edge of the table before the loop are the sides of the faces that join its ends. -/
private theorem init_uses {E : List (ℕ × ℕ)} {rows : List Row} (ht : IsEdgeTable E rows) (F : List Face) (hF : ∀ f ∈ F, Joins E f.v f.e f.dir)
    {k : ℕ} (hk : k < E.length) : edgeUses (F.map Face.e) k = joinUses (F.map fun f => f.v) E[k].1 E[k].2 := by
  unfold edgeUses joinUses
  rw [List.map_map, List.map_map]
  refine congrArg List.sum (List.map_congr_left fun f hf => ?_)
  obtain ⟨j1, j2, j3⟩ := hF f hf
  have hek := List.getElem?_eq_getElem hk
  obtain ⟨hlt, -⟩ := (ht.2 E[k].1 E[k].2).mp (List.getElem_mem hk)
  have key : ∀ (j : ℕ) (b : Bool) (x y : ℕ), E[j]? = some (dirPair b x y) → (j = k ↔ (E[k].1 = x ∧ E[k].2 = y) ∨ (E[k].2 = x ∧ E[k].1 = y)) := by
    intro j b x y hjj
    constructor
    · rintro rfl
      rw [hek] at hjj
      injection hjj with hjj
      rcases dirPair_cases b x y _ _ hjj.symm with h | h
      · exact Or.inl h
      · exact Or.inr h.symm
    · intro hxy
      refine table_inj ht (e := E[k]) ?_ hek
      have hE' : E[k] = (E[k].1, E[k].2) := rfl
      rcases hxy with ⟨hx, hy⟩ | ⟨hx, hy⟩
      · rw [hE', hx, hy]
        rw [hx, hy] at hlt
        exact table_dir ht hjj hlt
      · rw [hE', hx, hy]
        rw [hx, hy] at hlt
        refine table_dir (b := !b) ht ?_ hlt
        rw [hjj]
        cases b <;> rfl
  show slotCount k f.e = joinCount _ _ f.v
  unfold slotCount joinCount
  rw [if_congr (key _ _ _ _ j1) rfl rfl, if_congr (key _ _ _ _ j2) rfl rfl, if_congr (key _ _ _ _ j3) rfl rfl]

private theorem run_uses (argsort : List ℕ → List ℕ) (hsort : IsArgsort argsort) (fuel : ℕ) (verts : List (Fin d → ℝ)) (F : FMat)
    (rows : List Row) (hF : faceRows F = .ok rows) (hne : rows ≠ []) (hprop : ∀ f ∈ rows, Proper f) (hin : ∀ f ∈ rows, RowLt verts.length f)
    (maxLen : ℝ) (nMax : Option ℕ) (adj : Option (List (Fin d → ℝ) → List (Fin d → ℝ))) (hadj : ∀ g ∈ adj, ∀ l, (g l).length = l.length)
    (m : Mesh d) (h : shrinkFaceTri argsort fuel verts F maxLen nMax adj = .ok (some m)) (S : ℕ → Prop) (hS2 : S 2) (hS : ∀ n, S n → n ≤ 2)
    (hc : ∀ a b, (∃ v ∈ rows, IsSide a b v) → S (joinUses rows a b)) :
    ∀ k, k < m.edges.length → S (edgeUses (m.faces.map Face.e) k) := by
  obtain ⟨m0, h0, hinv, hj, -, hr, ht⟩ := init_ok argsort hsort verts F rows hF hne hprop hin
  obtain ⟨m1, h1, h2⟩ := run_cases _ _ _ _ _ _ _ _ h
  rw [h0] at h1
  injection h1 with h1
  subst h1
  have hstart : ∀ k, k < m0.edges.length → S (edgeUses (m0.faces.map Face.e) k) := by
    intro k hk
    rw [init_uses ht m0.faces hj hk, hr]
    exact hc _ _ ((ht.2 m0.edges[k].1 m0.edges[k].2).mp (List.getElem_mem hk)).2
  rcases h2 with rfl | h2
  · exact hstart
  · refine (loop_inv (fun m => Inv m ∧ ∀ k, k < m.edges.length → S (edgeUses (m.faces.map Face.e) k))
        (fun m hm => ⟨hm.1.step maxLen hadj, fun k hk => ?_⟩) _ _ _ _ ⟨hinv, hstart⟩ h2).2
    rcases hm.1.uses_step maxLen (fun k hk => hS _ (hm.2 k hk)) k hk with h | ⟨l, hl, h⟩
    · rw [h]; exact hS2
    · rw [h]; exact hm.2 l hl

/-- **C114** (closed surfaces).  If every side of the given faces belongs to exactly two of them, then in the returned face-to-edge table every edge occurs
exactly twice, for every threshold, number of steps and adjustment that returns as many vertices as it is given. -/
theorem C114_closed (argsort : List ℕ → List ℕ) (hsort : IsArgsort argsort) (fuel : ℕ) (verts : List (Fin d → ℝ)) (F : FMat)
    (rows : List Row) (hF : faceRows F = .ok rows) (hne : rows ≠ []) (hprop : ∀ f ∈ rows, Proper f) (hin : ∀ f ∈ rows, RowLt verts.length f)
    (maxLen : ℝ) (nMax : Option ℕ) (adj : Option (List (Fin d → ℝ) → List (Fin d → ℝ))) (hadj : ∀ g ∈ adj, ∀ l, (g l).length = l.length)
    (m : Mesh d) (h : shrinkFaceTri argsort fuel verts F maxLen nMax adj = .ok (some m))
    (hc : ∀ a b, (∃ v ∈ rows, IsSide a b v) → joinUses rows a b = 2) :
    ∀ k, k < m.edges.length → edgeUses (m.faces.map Face.e) k = 2 :=
  run_uses argsort hsort fuel verts F rows hF hne hprop hin maxLen nMax adj hadj m h (fun n => n = 2) rfl (fun _ h => h.le) hc

/-- **C114** (surfaces with boundary).  If no side belongs to more than two of the given faces, then in the returned face-to-edge table every edge occurs once or
twice. -/
theorem C114_surface (argsort : List ℕ → List ℕ) (hsort : IsArgsort argsort) (fuel : ℕ) (verts : List (Fin d → ℝ)) (F : FMat)
    (rows : List Row) (hF : faceRows F = .ok rows) (hne : rows ≠ []) (hprop : ∀ f ∈ rows, Proper f) (hin : ∀ f ∈ rows, RowLt verts.length f)
    (maxLen : ℝ) (nMax : Option ℕ) (adj : Option (List (Fin d → ℝ) → List (Fin d → ℝ))) (hadj : ∀ g ∈ adj, ∀ l, (g l).length = l.length)
    (m : Mesh d) (h : shrinkFaceTri argsort fuel verts F maxLen nMax adj = .ok (some m))
    (hc : ∀ a b, (∃ v ∈ rows, IsSide a b v) → joinUses rows a b ≤ 2) :
    ∀ k, k < m.edges.length → edgeUses (m.faces.map Face.e) k = 1 ∨ edgeUses (m.faces.map Face.e) k = 2 := by
  intro k hk
  refine run_uses argsort hsort fuel verts F rows hF hne hprop hin maxLen nMax adj hadj m h (fun n => n = 1 ∨ n = 2) (.inr rfl) (by omega) ?_ k hk
  rintro a b ⟨v, hv, hs⟩
  have h2 := hc a b ⟨v, hv, hs⟩
  have h1 : joinCount a b v ≤ joinUses rows a b := List.single_le_sum (by simp) _ (List.mem_map.2 ⟨v, hv, rfl⟩)
  have h3 : 0 < joinCount a b v := by
    unfold IsSide at hs
    unfold joinCount
    simp only [List.mem_cons, List.not_mem_nil, or_false, Prod.mk.injEq] at hs
    rcases hs with hs | hs | hs | hs | hs | hs <;> simp [hs]
  omega

/-- The corners of a tetrahedron. -/
private def tetra : List (Fin 3 → ℝ) := [![0, 0, 0], ![1, 0, 0], ![0, 1, 0], ![0, 0, 1]]

/-- The boundary of a tetrahedron is closed, and stays closed when it is refined until all edges are at most `1 / 100`. -/
example : ∃ fuel, ∃ m : Mesh 3, shrinkFaceTri stableArgsort fuel tetra (.mat [(0, 1, 2), (0, 1, 3), (0, 2, 3), (1, 2, 3)]) (1 / 100) none none = .ok (some m) ∧
    ∀ k, k < m.edges.length → edgeUses (m.faces.map Face.e) k = 2 := by
  have hp : ∀ f ∈ [((0, 1, 2) : Row), (0, 1, 3), (0, 2, 3), (1, 2, 3)], Proper f := by
    intro f hf; simp at hf; rcases hf with rfl | rfl | rfl | rfl <;> simp [Proper]
  have hr : ∀ f ∈ [((0, 1, 2) : Row), (0, 1, 3), (0, 2, 3), (1, 2, 3)], RowLt tetra.length f := by
    intro f hf; simp at hf; rcases hf with rfl | rfl | rfl | rfl <;> simp [RowLt, tetra]
  obtain ⟨fuel, m, h1, -, -⟩ := C55_partial stableArgsort stableArgsort_ok tetra (.mat [(0, 1, 2), (0, 1, 3), (0, 2, 3), (1, 2, 3)])
    [(0, 1, 2), (0, 1, 3), (0, 2, 3), (1, 2, 3)] rfl (by simp) hp hr (by simp) (1 / 100) (by norm_num)
  refine ⟨fuel, m, h1 fuel le_rfl, C114_closed stableArgsort stableArgsort_ok fuel tetra _ _ rfl (by simp) hp hr _ none none (by simp) m (h1 fuel le_rfl) ?_⟩
  rintro a b ⟨v, hv, hs⟩
  unfold IsSide at hs
  simp only [List.mem_cons, List.not_mem_nil, or_false, Prod.mk.injEq] at hv hs
  rcases hv with rfl | rfl | rfl | rfl <;> rcases hs with ⟨rfl, rfl⟩ | ⟨rfl, rfl⟩ | ⟨rfl, rfl⟩ | ⟨rfl, rfl⟩ | ⟨rfl, rfl⟩ | ⟨rfl, rfl⟩ <;> decide

/-- A single triangle has a boundary: the theorem on surfaces applies, the one on closed surfaces does not. -/
example : (∀ a b, (∃ v ∈ [((0 : ℕ), (1 : ℕ), (2 : ℕ))], IsSide a b v) → joinUses [(0, 1, 2)] a b ≤ 2) ∧ joinUses [(0, 1, 2)] 0 1 = 1 := by
  refine ⟨?_, rfl⟩
  rintro a b ⟨v, hv, hs⟩
  unfold IsSide at hs
  simp only [List.mem_cons, List.not_mem_nil, or_false, Prod.mk.injEq] at hv
  subst hv
  simp only [List.mem_cons, List.not_mem_nil, or_false, Prod.mk.injEq] at hs
  rcases hs with ⟨rfl, rfl⟩ | ⟨rfl, rfl⟩ | ⟨rfl, rfl⟩ | ⟨rfl, rfl⟩ | ⟨rfl, rfl⟩ | ⟨rfl, rfl⟩ <;> decide

end Ellipy.Tri
