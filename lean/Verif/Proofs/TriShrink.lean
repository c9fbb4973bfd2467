import Mathlib.Tactic.Ring
import Mathlib.Tactic.Linarith
import Verif.Model.TriShrink
import Verif.Spec.TriShrink

/-! The tables after one pass of `shrink_face_tri`. -/

namespace Ellipy.Tri

variable {d : ℕ}

/-! ### Masks -/

theorem mask_append {α : Type} (p : ℕ → Bool) (l : List α) (a : α) :
    maskIdx p (l ++ [a]) = maskIdx p l ++ if p l.length then [a] else [] := by
  unfold maskIdx
  rw [List.zipIdx_append, List.filter_append, List.map_append]
  congr 1
  by_cases h : p l.length <;> simp [h]

theorem mask_length {α : Type} (p : ℕ → Bool) (l : List α) : (maskIdx p l).length = (List.range l.length).countP p := by
  induction l using List.reverseRecOn with
  | nil => rfl
  | append_singleton l a ih =>
    rw [mask_append, List.length_append, ih, List.length_append, List.length_singleton, List.range_succ, List.countP_append]
    by_cases h : p l.length <;> simp [h]

theorem cum_pos {p : ℕ → Bool} {k : ℕ} (h : p k) : 1 ≤ cumIdx p k := by
  unfold cumIdx
  rw [List.range_succ, List.countP_append]
  simp [h]

theorem cum_mono (p : ℕ → Bool) {k l : ℕ} (h : k ≤ l) : cumIdx p k ≤ cumIdx p l :=
  List.Sublist.countP_le (List.range_sublist.mpr (by omega))

theorem cum_lt {p : ℕ → Bool} {k l : ℕ} (h : k < l) (hl : p l) : cumIdx p k < cumIdx p l := by
  have h1 : cumIdx p l = (List.range l).countP p + 1 := by
    unfold cumIdx; rw [List.range_succ, List.countP_append]; simp [hl]
  have h2 : cumIdx p k ≤ (List.range l).countP p := List.Sublist.countP_le (List.range_sublist.mpr (by omega))
  omega

theorem cum_inj {p : ℕ → Bool} {k l : ℕ} (hk : p k) (hl : p l) (h : cumIdx p k = cumIdx p l) : k = l := by
  rcases Nat.lt_trichotomy k l with h1 | h1 | h1
  · have := cum_lt h1 hl; omega
  · exact h1
  · have := cum_lt h1 hk; omega

theorem cum_le {p : ℕ → Bool} {k n : ℕ} (h : k < n) : cumIdx p k ≤ (List.range n).countP p :=
  List.Sublist.countP_le (List.range_sublist.mpr (by omega))

theorem mask_get {α : Type} (p : ℕ → Bool) (l : List α) (k : ℕ) (hk : k < l.length) (hp : p k) :
    (maskIdx p l)[cumIdx p k - 1]? = l[k]? := by
  induction l using List.reverseRecOn with
  | nil => simp at hk
  | append_singleton l a ih =>
    rw [mask_append]
    by_cases h : k < l.length
    · have h1 : cumIdx p k - 1 < (maskIdx p l).length := by
        rw [mask_length]
        have := cum_pos hp
        have := cum_le (p := p) h
        omega
      rw [List.getElem?_append_left h1, List.getElem?_append_left h, ih h]
    · have hk' : k = l.length := by rw [List.length_append, List.length_singleton] at hk; omega
      subst hk'
      have h1 : cumIdx p l.length - 1 = (maskIdx p l).length := by
        rw [mask_length]; unfold cumIdx; rw [List.range_succ, List.countP_append]; simp [hp]
      rw [h1, hp]
      simp

/-- Every entry of the selection comes from a selected entry. -/
theorem mask_idx {α : Type} (p : ℕ → Bool) (l : List α) (j : ℕ) (hj : j < (maskIdx p l).length) :
    ∃ k, k < l.length ∧ p k ∧ cumIdx p k - 1 = j := by
  induction l using List.reverseRecOn with
  | nil => simp [maskIdx] at hj
  | append_singleton l a ih =>
    rw [mask_append, List.length_append] at hj
    by_cases h : j < (maskIdx p l).length
    · obtain ⟨k, h1, h2, h3⟩ := ih h
      exact ⟨k, by simp; omega, h2, h3⟩
    · by_cases hp : p l.length
      · refine ⟨l.length, by simp, hp, ?_⟩
        rw [hp] at hj
        simp at hj
        have : cumIdx p l.length - 1 = (maskIdx p l).length := by
          rw [mask_length]; unfold cumIdx; rw [List.range_succ, List.countP_append]; simp [hp]
        omega
      · simp [hp] at hj; omega

theorem mem_mask {α : Type} {p : ℕ → Bool} {l : List α} {x : α} (h : x ∈ maskIdx p l) : ∃ k, l[k]? = some x ∧ p k := by
  obtain ⟨j, hj, rfl⟩ := List.getElem_of_mem h
  obtain ⟨k, hk, hp, hjk⟩ := mask_idx p l j hj
  refine ⟨k, ?_, hp⟩
  rw [← mask_get p l k hk hp, hjk, List.getElem?_eq_getElem hj]

/-! ### The faces of one pass -/

section
variable (maxLen : ℝ) (m : Mesh d)

/-- A kept face. -/
noncomputable def keptFace (f : Face) : Face := { f with e := (indKept maxLen m f.e.1, indKept maxLen m f.e.2.1, indKept maxLen m f.e.2.2) }

/-- The inner face of the split face `f` with the number `q`. -/
noncomputable def innerFace (q : ℕ) (f : Face) : Face :=
  ⟨(ePart maxLen m f.e.1, ePart maxLen m f.e.2.1, ePart maxLen m f.e.2.2),
   ((edges0 maxLen m).length + q, (edges0 maxLen m).length + q + 2 * (partF maxLen m).length,
    (edges0 maxLen m).length + q + (partF maxLen m).length), (true, true, true)⟩

/-- The faces at the three corners. -/
noncomputable def corner1 (q : ℕ) (f : Face) : Face := ⟨(ePart maxLen m f.e.1, ePart maxLen m f.e.2.2, f.v.1),
    ((edges0 maxLen m).length + (q + (partF maxLen m).length), halfE maxLen m f.e.2.2 (!f.dir.2.2), halfE maxLen m f.e.1 (!f.dir.1)),
    (true, !f.dir.2.2, !f.dir.1)⟩
@[inherit_doc corner1]
noncomputable def corner2 (q : ℕ) (f : Face) : Face := ⟨(ePart maxLen m f.e.2.1, ePart maxLen m f.e.1, f.v.2.1),
    ((edges0 maxLen m).length + q, halfE maxLen m f.e.1 f.dir.1, halfE maxLen m f.e.2.1 (!f.dir.2.1)),
    (false, f.dir.1, !f.dir.2.1)⟩
@[inherit_doc corner1]
noncomputable def corner3 (q : ℕ) (f : Face) : Face := ⟨(ePart maxLen m f.e.2.2, ePart maxLen m f.e.2.1, f.v.2.2),
    ((edges0 maxLen m).length + (q + 2 * (partF maxLen m).length), halfE maxLen m f.e.2.1 f.dir.2.1, halfE maxLen m f.e.2.2 f.dir.2.2),
    (false, f.dir.2.1, f.dir.2.2)⟩

/-- The flat face at the edge `k` that is split and kept. -/
noncomputable def flatFace (k : ℕ) : Face :=
  ⟨(ePart maxLen m k, (edges0 maxLen m).getD (indKept maxLen m k) (0, 0)),
   (ePart maxLen m k - m.verts.length + 3 * (partF maxLen m).length + (edges0 maxLen m).length,
    ePart maxLen m k - m.verts.length + 3 * (partF maxLen m).length + (edges0 maxLen m).length + (splitE maxLen m).length,
    indKept maxLen m k), (true, true, true)⟩

theorem mem_faces (adj) (f' : Face) : f' ∈ (shrinkStep maxLen adj m).faces ↔
    (∃ f ∈ keptF maxLen m, f' = keptFace maxLen m f) ∨
    (∃ (q : ℕ) (f : Face), (partF maxLen m)[q]? = some f ∧ (f' = innerFace maxLen m q f ∨ f' = corner1 maxLen m q f ∨ f' = corner2 maxLen m q f ∨
      f' = corner3 maxLen m q f)) ∨
    (∃ k, k < m.edges.length ∧ e2part maxLen m k ∧ eKept maxLen m k ∧ f' = flatFace maxLen m k) := by
  have hz : ∀ (g : Face × ℕ → Face), f' ∈ (partF maxLen m).zipIdx.map g ↔ ∃ (q : ℕ) (f : Face), (partF maxLen m)[q]? = some f ∧ f' = g (f, q) := by
    intro g
    rw [List.mem_map]
    constructor
    · rintro ⟨⟨f, q⟩, h, rfl⟩
      exact ⟨q, f, List.mk_mem_zipIdx_iff_getElem?.mp h, rfl⟩
    · rintro ⟨q, f, h, rfl⟩
      exact ⟨(f, q), List.mk_mem_zipIdx_iff_getElem?.mpr h, rfl⟩
  unfold shrinkStep keptF' f1New f2New f3New broken
  simp only [List.mem_append, hz, List.mem_map, List.mem_filter, List.mem_range, Bool.and_eq_true]
  constructor
  · rintro (⟨f, hf, rfl⟩ | ⟨q, f, h, rfl⟩ | ((⟨q, f, h, rfl⟩ | ⟨q, f, h, rfl⟩) | ⟨q, f, h, rfl⟩) | ⟨k, ⟨h1, h2, h3⟩, rfl⟩)
    · exact Or.inl ⟨f, hf, rfl⟩
    · exact Or.inr (Or.inl ⟨q, f, h, Or.inl rfl⟩)
    · exact Or.inr (Or.inl ⟨q, f, h, Or.inr (Or.inl rfl)⟩)
    · exact Or.inr (Or.inl ⟨q, f, h, Or.inr (Or.inr (Or.inl rfl))⟩)
    · exact Or.inr (Or.inl ⟨q, f, h, Or.inr (Or.inr (Or.inr rfl))⟩)
    · exact Or.inr (Or.inr ⟨k, h1, h2, h3, rfl⟩)
  · rintro (⟨f, hf, rfl⟩ | ⟨q, f, h, rfl | rfl | rfl | rfl⟩ | ⟨k, h1, h2, h3, rfl⟩)
    · exact Or.inl ⟨f, hf, rfl⟩
    · exact Or.inr (Or.inl ⟨q, f, h, rfl⟩)
    · exact Or.inr (Or.inr (Or.inl (Or.inl (Or.inl ⟨q, f, h, rfl⟩))))
    · exact Or.inr (Or.inr (Or.inl (Or.inl (Or.inr ⟨q, f, h, rfl⟩))))
    · exact Or.inr (Or.inr (Or.inl (Or.inr ⟨q, f, h, rfl⟩)))
    · exact Or.inr (Or.inr (Or.inr ⟨k, ⟨h1, h2, h3⟩, rfl⟩))

/-! ### The edges of one pass -/

theorem e1_len : (e1New maxLen m).length = 3 * (partF maxLen m).length := by
  unfold e1New; simp; ring

theorem e2_len : (e2New maxLen m).length = 2 * (splitE maxLen m).length := by
  unfold e2New; simp; ring

theorem onFaces_iff (fs : List Face) (k : ℕ) : onFaces fs k ↔ ∃ f ∈ fs, f.e.1 = k ∨ f.e.2.1 = k ∨ f.e.2.2 = k := by
  simp [onFaces, or_assoc]

/-- A kept edge. -/
theorem edge_kept (adj) (k : ℕ) (hk : k < m.edges.length) (h : eKept maxLen m k) :
    (shrinkStep maxLen adj m).edges[indKept maxLen m k]? = m.edges[k]? := by
  show (edges0 maxLen m ++ (e1New maxLen m ++ e2New maxLen m))[indKept maxLen m k]? = _
  have h1 : indKept maxLen m k < (edges0 maxLen m).length := by
    unfold indKept edges0
    rw [mask_length]
    have := cum_pos h
    have := cum_le (p := eKept maxLen m) hk
    omega
  rw [List.getElem?_append_left h1]
  exact mask_get _ _ _ hk h

/-- The internal edges. -/
theorem edge_inner (adj) (q : ℕ) (f : Face) (h : (partF maxLen m)[q]? = some f) :
    (shrinkStep maxLen adj m).edges[(edges0 maxLen m).length + q]? = some (ePart maxLen m f.e.1, ePart maxLen m f.e.2.1) ∧
    (shrinkStep maxLen adj m).edges[(edges0 maxLen m).length + (q + (partF maxLen m).length)]? = some (ePart maxLen m f.e.1, ePart maxLen m f.e.2.2) ∧
    (shrinkStep maxLen adj m).edges[(edges0 maxLen m).length + (q + 2 * (partF maxLen m).length)]? = some (ePart maxLen m f.e.2.1, ePart maxLen m f.e.2.2) := by
  have hq : q < (partF maxLen m).length := (List.getElem?_eq_some_iff.mp h).1
  have hl := e1_len maxLen m
  have key : ∀ j, j < (e1New maxLen m).length → (shrinkStep maxLen adj m).edges[(edges0 maxLen m).length + j]? = (e1New maxLen m)[j]? := by
    intro j hj
    show (edges0 maxLen m ++ (e1New maxLen m ++ e2New maxLen m))[_]? = _
    rw [List.getElem?_append_right (by omega), Nat.add_sub_cancel_left, List.getElem?_append_left hj]
  refine ⟨?_, ?_, ?_⟩
  · rw [key _ (by omega)]
    unfold e1New
    rw [List.getElem?_append_left (by simp; omega), List.getElem?_append_left (by simp; omega), List.getElem?_map, h]; rfl
  · rw [key _ (by omega)]
    unfold e1New
    rw [List.getElem?_append_left (by simp; omega), List.getElem?_append_right (by simp), List.getElem?_map, List.length_map,
      Nat.add_sub_cancel, h]; rfl
  · rw [key _ (by omega)]
    unfold e1New
    rw [List.getElem?_append_right (by simp; omega), List.getElem?_map, List.length_append, List.length_map, List.length_map,
      show q + 2 * (partF maxLen m).length - ((partF maxLen m).length + (partF maxLen m).length) = q by omega, h]; rfl

/-- The place of a split edge. -/
theorem split_place (k : ℕ) (hk : k < m.edges.length) (h : e2part maxLen m k) :
    ∃ r, r < (splitE maxLen m).length ∧ (splitE maxLen m)[r]? = m.edges[k]? ∧ ePart maxLen m k = m.verts.length + r ∧
      r = cumIdx (e2part maxLen m) k - 1 := by
  have h1 := cum_pos h
  refine ⟨cumIdx (e2part maxLen m) k - 1, ?_, mask_get _ _ _ hk h, by unfold ePart; omega, rfl⟩
  unfold splitE
  rw [mask_length]
  have := cum_le (p := e2part maxLen m) hk
  omega

/-- The halves of a split edge. -/
theorem edge_half (adj) (k : ℕ) (e : ℕ × ℕ) (hk : m.edges[k]? = some e) (h : e2part maxLen m k) :
    (shrinkStep maxLen adj m).edges[halfE maxLen m k false]? = some (e.1, ePart maxLen m k) ∧
    (shrinkStep maxLen adj m).edges[halfE maxLen m k true]? = some (ePart maxLen m k, e.2) := by
  obtain ⟨r, hr, h1, h2, -⟩ := split_place maxLen m k (List.getElem?_eq_some_iff.mp hk).1 h
  rw [hk] at h1
  have hl := e1_len maxLen m
  have hl2 := e2_len maxLen m
  have key : ∀ j, (shrinkStep maxLen adj m).edges[(edges0 maxLen m).length + (3 * (partF maxLen m).length + j)]? = (e2New maxLen m)[j]? := by
    intro j
    show (edges0 maxLen m ++ (e1New maxLen m ++ e2New maxLen m))[_]? = _
    rw [List.getElem?_append_right (by omega), Nat.add_sub_cancel_left, List.getElem?_append_right (by omega)]
    congr 1; omega
  unfold halfE
  rw [h2, Nat.add_sub_cancel_left]
  simp only [if_true, Bool.false_eq_true, if_false]
  constructor
  · rw [add_zero, key]
    unfold e2New
    rw [List.getElem?_append_left (by simp; exact hr), List.getElem?_map, List.getElem?_zipIdx, h1]
    simp
  · rw [add_assoc, key]
    unfold e2New
    rw [List.getElem?_append_right (by simp), List.getElem?_map, List.length_map, List.length_zipIdx, Nat.add_sub_cancel,
      List.getElem?_zipIdx, h1]
    simp

theorem edge_half' (adj) (k : ℕ) (a b : ℕ) (dd : Bool) (hk : m.edges[k]? = some (dirPair dd a b)) (h : e2part maxLen m k) :
    (shrinkStep maxLen adj m).edges[halfE maxLen m k (!dd)]? = some (dirPair (!dd) (ePart maxLen m k) a) ∧
    (shrinkStep maxLen adj m).edges[halfE maxLen m k dd]? = some (dirPair dd (ePart maxLen m k) b) := by
  have := edge_half maxLen m adj k _ hk h
  cases dd
  · exact ⟨this.2, this.1⟩
  · exact this

theorem part_e2part {f : Face} (h : f ∈ partF maxLen m) :
    e2part maxLen m f.e.1 ∧ e2part maxLen m f.e.2.1 ∧ e2part maxLen m f.e.2.2 := by
  unfold e2part
  simp only [Bool.or_eq_true, onFaces_iff]
  exact ⟨Or.inr ⟨f, h, Or.inl rfl⟩, Or.inr ⟨f, h, Or.inr (Or.inl rfl)⟩, Or.inr ⟨f, h, Or.inr (Or.inr rfl)⟩⟩

theorem kept_eKept {f : Face} (h : f ∈ keptF maxLen m) :
    eKept maxLen m f.e.1 ∧ eKept maxLen m f.e.2.1 ∧ eKept maxLen m f.e.2.2 := by
  unfold eKept
  simp only [onFaces_iff]
  exact ⟨⟨f, h, Or.inl rfl⟩, ⟨f, h, Or.inr (Or.inl rfl)⟩, ⟨f, h, Or.inr (Or.inr rfl)⟩⟩

theorem get_lt {α : Type} {l : List α} {k : ℕ} {x : α} (h : l[k]? = some x) : k < l.length := (List.getElem?_eq_some_iff.mp h).1

theorem joins_kept (adj) (f : Face) (hf : f ∈ keptF maxLen m) (g : Row) (h : Joins m.edges g f.e f.dir) :
    Joins (shrinkStep maxLen adj m).edges g (keptFace maxLen m f).e (keptFace maxLen m f).dir := by
  obtain ⟨h1, h2, h3⟩ := h
  obtain ⟨k1, k2, k3⟩ := kept_eKept maxLen m hf
  exact ⟨(edge_kept maxLen m adj _ (get_lt h1) k1).trans h1, (edge_kept maxLen m adj _ (get_lt h2) k2).trans h2,
    (edge_kept maxLen m adj _ (get_lt h3) k3).trans h3⟩

theorem joins_inner (adj) (q : ℕ) (f : Face) (hf : (partF maxLen m)[q]? = some f) :
    Joins (shrinkStep maxLen adj m).edges (innerFace maxLen m q f).v (innerFace maxLen m q f).e (innerFace maxLen m q f).dir := by
  obtain ⟨h1, h2, h3⟩ := edge_inner maxLen m adj q f hf
  refine ⟨h1, ?_, ?_⟩
  · show (shrinkStep maxLen adj m).edges[(edges0 maxLen m).length + q + 2 * (partF maxLen m).length]? = _
    rw [add_assoc]; exact h3
  · show (shrinkStep maxLen adj m).edges[(edges0 maxLen m).length + q + (partF maxLen m).length]? = _
    rw [add_assoc]; exact h2

theorem joins_corner (adj) (q : ℕ) (f : Face) (hf : (partF maxLen m)[q]? = some f) (g : Row) (h : Joins m.edges g f.e f.dir) :
    Joins (shrinkStep maxLen adj m).edges (ePart maxLen m f.e.1, ePart maxLen m f.e.2.2, g.1) (corner1 maxLen m q f).e (corner1 maxLen m q f).dir ∧
    Joins (shrinkStep maxLen adj m).edges (ePart maxLen m f.e.2.1, ePart maxLen m f.e.1, g.2.1) (corner2 maxLen m q f).e (corner2 maxLen m q f).dir ∧
    Joins (shrinkStep maxLen adj m).edges (ePart maxLen m f.e.2.2, ePart maxLen m f.e.2.1, g.2.2) (corner3 maxLen m q f).e (corner3 maxLen m q f).dir := by
  obtain ⟨h1, h2, h3⟩ := h
  obtain ⟨k1, k2, k3⟩ := part_e2part maxLen m (List.mem_of_getElem? hf)
  obtain ⟨i1, i2, i3⟩ := edge_inner maxLen m adj q f hf
  obtain ⟨a1, b1⟩ := edge_half' maxLen m adj _ _ _ _ h1 k1
  obtain ⟨a2, b2⟩ := edge_half' maxLen m adj _ _ _ _ h2 k2
  obtain ⟨a3, b3⟩ := edge_half' maxLen m adj _ _ _ _ h3 k3
  exact ⟨⟨i2, a3, a1⟩, ⟨i1, b1, a2⟩, ⟨i3, b2, b3⟩⟩

theorem joins_flat (adj) (k : ℕ) (e : ℕ × ℕ) (hk : m.edges[k]? = some e) (h : e2part maxLen m k) (h' : eKept maxLen m k) :
    Joins (shrinkStep maxLen adj m).edges (e.1, ePart maxLen m k, e.2) (flatFace maxLen m k).e (flatFace maxLen m k).dir ∧
    (flatFace maxLen m k).v = (ePart maxLen m k, e.1, e.2) := by
  have h1 := edge_half maxLen m adj k e hk h
  have h2 := (edge_kept maxLen m adj k (get_lt hk) h').trans hk
  have h3 : (edges0 maxLen m)[indKept maxLen m k]? = some e := by
    have := mask_get (eKept maxLen m) m.edges k (get_lt hk) h'
    exact this.trans hk
  refine ⟨⟨?_, ?_, h2⟩, ?_⟩
  · have : (flatFace maxLen m k).e.1 = halfE maxLen m k false := by simp [flatFace, halfE]; omega
    rw [this]; exact h1.1
  · have : (flatFace maxLen m k).e.2.1 = halfE maxLen m k true := by simp [flatFace, halfE]; omega
    rw [this]; exact h1.2
  · simp [flatFace, List.getD_eq_getElem?_getD, h3]

end

/-! ### The vertices of one pass -/

theorem split_len_verts (maxLen : ℝ) (m : Mesh d) : (vNew maxLen m).length = (splitE maxLen m).length := by simp [vNew]

/-- The adjustment keeps the number of vertices. -/
def KeepsLength (adj : Option (List (Fin d → ℝ) → List (Fin d → ℝ))) : Prop := ∀ g ∈ adj, ∀ l, (g l).length = l.length

theorem newVerts_length (maxLen : ℝ) (m : Mesh d) {adj} (h : KeepsLength adj) :
    (newVerts maxLen m adj).length = m.verts.length + (splitE maxLen m).length := by
  unfold newVerts
  cases adj with
  | none => simp [split_len_verts]
  | some g => simp [h g rfl, split_len_verts]

theorem newVerts_old (maxLen : ℝ) (m : Mesh d) (adj) (i : ℕ) (hi : i < m.verts.length) :
    (newVerts maxLen m adj).getD i 0 = m.verts.getD i 0 := by
  unfold newVerts
  rw [List.getD_eq_getElem?_getD, List.getElem?_append_left hi, List.getD_eq_getElem?_getD]

theorem newVerts_mid (maxLen : ℝ) (m : Mesh d) (k : ℕ) (e : ℕ × ℕ) (hk : m.edges[k]? = some e) (h : e2part maxLen m k) :
    (newVerts maxLen m none).getD (ePart maxLen m k) 0 = (1 / 2 : ℝ) • (m.verts.getD e.1 0 + m.verts.getD e.2 0) := by
  obtain ⟨r, hr, h1, h2, -⟩ := split_place maxLen m k (get_lt hk) h
  rw [hk] at h1
  unfold newVerts
  rw [h2, List.getD_eq_getElem?_getD, List.getElem?_append_right (by omega), Nat.add_sub_cancel_left]
  simp [vNew, List.getD_eq_getElem?_getD, h1]

theorem ePart_lt (maxLen : ℝ) (m : Mesh d) {adj} (hadj : KeepsLength adj) (k : ℕ) (hk : k < m.edges.length) (h : e2part maxLen m k) :
    m.verts.length ≤ ePart maxLen m k ∧ ePart maxLen m k < (newVerts maxLen m adj).length := by
  obtain ⟨r, hr, h1, h2, -⟩ := split_place maxLen m k hk h
  rw [newVerts_length maxLen m hadj]
  omega

theorem mask_map {α β : Type} (p : ℕ → Bool) (f : α → β) (l : List α) : maskIdx p (l.map f) = (maskIdx p l).map f := by
  induction l using List.reverseRecOn with
  | nil => rfl
  | append_singleton l a ih =>
    rw [List.map_append, List.map_singleton, mask_append, mask_append, ih, List.map_append, List.length_map]
    by_cases h : p l.length <;> simp [h]

theorem edgeLen_old (maxLen : ℝ) (m : Mesh d) (adj) (e : ℕ × ℕ) (h : e.1 < m.verts.length ∧ e.2 < m.verts.length) :
    edgeLen (newVerts maxLen m adj) e = edgeLen m.verts e := by
  unfold edgeLen
  rw [newVerts_old _ _ _ _ h.1, newVerts_old _ _ _ _ h.2]

/-! ### The invariant -/

/-- What every mesh of the loop satisfies. -/
structure Inv (m : Mesh d) : Prop where
  len : m.len = m.edges.map (edgeLen m.verts)
  ends : ∀ e ∈ m.edges, e.1 < m.verts.length ∧ e.2 < m.verts.length
  row : ∀ f ∈ m.faces, RowLt m.verts.length f.v
  ghost : ∀ f ∈ m.faces, ∃ g, Joins m.edges g f.e f.dir
  used : ∀ k, k < m.edges.length → ∃ f ∈ m.faces, f.e.1 = k ∨ f.e.2.1 = k ∨ f.e.2.2 = k

theorem dirPair_mem {dd : Bool} {a b n : ℕ} (h : (dirPair dd a b).1 < n ∧ (dirPair dd a b).2 < n) : a < n ∧ b < n := by
  cases dd
  · exact ⟨h.2, h.1⟩
  · exact h

theorem part_mem {maxLen : ℝ} {m : Mesh d} {q : ℕ} {f : Face} (h : (partF maxLen m)[q]? = some f) : f ∈ m.faces :=
  (List.mem_filter.mp (List.mem_of_getElem? h)).1

theorem kept_mem {maxLen : ℝ} {m : Mesh d} {f : Face} (h : f ∈ keptF maxLen m) : f ∈ m.faces := (List.mem_filter.mp h).1

theorem Inv.face_lt {m : Mesh d} (hm : Inv m) {f : Face} (hf : f ∈ m.faces) :
    f.e.1 < m.edges.length ∧ f.e.2.1 < m.edges.length ∧ f.e.2.2 < m.edges.length := by
  obtain ⟨g, h1, h2, h3⟩ := hm.ghost f hf
  exact ⟨get_lt h1, get_lt h2, get_lt h3⟩

/-- A split edge lies on a split face. -/
theorem Inv.split_on {m : Mesh d} (hm : Inv m) (maxLen : ℝ) {k : ℕ} (hk : k < m.edges.length) (h : e2part maxLen m k) :
    ∃ (q : ℕ) (f : Face), (partF maxLen m)[q]? = some f ∧ (f.e.1 = k ∨ f.e.2.1 = k ∨ f.e.2.2 = k) := by
  have key : ∃ f ∈ partF maxLen m, f.e.1 = k ∨ f.e.2.1 = k ∨ f.e.2.2 = k := by
    unfold e2part at h
    rw [Bool.or_eq_true, onFaces_iff] at h
    rcases h with h | h
    · obtain ⟨f, hf, hfk⟩ := hm.used k hk
      refine ⟨f, List.mem_filter.mpr ⟨hf, ?_⟩, hfk⟩
      unfold isPart
      rcases hfk with rfl | rfl | rfl <;> simp [h]
    · exact h
  obtain ⟨f, hf, hfk⟩ := key
  obtain ⟨q, hq⟩ := List.getElem?_of_mem hf
  exact ⟨q, f, hq, hfk⟩

theorem new_edge_cases {maxLen : ℝ} {m : Mesh d} {e : ℕ × ℕ} (h : e ∈ e1New maxLen m ++ e2New maxLen m) :
    (∃ (q : ℕ) (f : Face), (partF maxLen m)[q]? = some f ∧ (e = (ePart maxLen m f.e.1, ePart maxLen m f.e.2.1) ∨ e = (ePart maxLen m f.e.1, ePart maxLen m f.e.2.2) ∨
      e = (ePart maxLen m f.e.2.1, ePart maxLen m f.e.2.2))) ∨
    ∃ k e0, m.edges[k]? = some e0 ∧ e2part maxLen m k ∧ (e = (e0.1, ePart maxLen m k) ∨ e = (ePart maxLen m k, e0.2)) := by
  have hz : ∀ x ∈ (splitE maxLen m).zipIdx, ∃ k, m.edges[k]? = some x.1 ∧ e2part maxLen m k ∧ ePart maxLen m k = m.verts.length + x.2 := by
    intro x hx
    have h1 := List.mem_zipIdx_iff_getElem?.mp hx
    obtain ⟨k, hk, hp, hkj⟩ := mask_idx (e2part maxLen m) m.edges x.2 (get_lt h1)
    obtain ⟨r, hr, h2, h3, h4⟩ := split_place maxLen m k hk hp
    rw [h4, hkj] at h2
    exact ⟨k, h2.symm.trans h1, hp, by rw [h3, h4, hkj]⟩
  have hq : ∀ f ∈ partF maxLen m, ∃ q : ℕ, (partF maxLen m)[q]? = some f := fun f hf => List.getElem?_of_mem hf
  unfold e1New e2New at h
  simp only [List.mem_append, List.mem_map] at h
  rcases h with ((⟨f, hf, rfl⟩ | ⟨f, hf, rfl⟩) | ⟨f, hf, rfl⟩) | ⟨x, hx, rfl⟩ | ⟨x, hx, rfl⟩
  · obtain ⟨q, hq⟩ := hq f hf; exact Or.inl ⟨q, f, hq, Or.inl rfl⟩
  · obtain ⟨q, hq⟩ := hq f hf; exact Or.inl ⟨q, f, hq, Or.inr (Or.inl rfl)⟩
  · obtain ⟨q, hq⟩ := hq f hf; exact Or.inl ⟨q, f, hq, Or.inr (Or.inr rfl)⟩
  · obtain ⟨k, h1, h2, h3⟩ := hz x hx; exact Or.inr ⟨k, x.1, h1, h2, Or.inl (by rw [h3])⟩
  · obtain ⟨k, h1, h2, h3⟩ := hz x hx; exact Or.inr ⟨k, x.1, h1, h2, Or.inr (by rw [h3])⟩

theorem Inv.step {m : Mesh d} (hm : Inv m) (maxLen : ℝ) {adj} (hadj : KeepsLength adj) : Inv (shrinkStep maxLen adj m) := by
  have hlt : m.verts.length ≤ (newVerts maxLen m adj).length := by rw [newVerts_length maxLen m hadj]; omega
  have hfp : ∀ (q : ℕ) (f : Face), (partF maxLen m)[q]? = some f → (ePart maxLen m f.e.1 < (newVerts maxLen m adj).length ∧
      ePart maxLen m f.e.2.1 < (newVerts maxLen m adj).length ∧ ePart maxLen m f.e.2.2 < (newVerts maxLen m adj).length) := by
    intro q f hf
    obtain ⟨k1, k2, k3⟩ := part_e2part maxLen m (List.mem_of_getElem? hf)
    obtain ⟨l1, l2, l3⟩ := hm.face_lt (part_mem hf)
    exact ⟨(ePart_lt maxLen m hadj _ l1 k1).2, (ePart_lt maxLen m hadj _ l2 k2).2, (ePart_lt maxLen m hadj _ l3 k3).2⟩
  refine ⟨?_, ?_, ?_, ?_, ?_⟩
  · show maskIdx (eKept maxLen m) m.len ++ _ = List.map (edgeLen (newVerts maxLen m adj)) (edges0 maxLen m ++ (e1New maxLen m ++ e2New maxLen m))
    rw [hm.len, mask_map, List.map_append (l₁ := edges0 maxLen m)]
    congr 1
    refine List.map_congr_left (fun e he => (edgeLen_old maxLen m adj e ?_).symm)
    obtain ⟨k, hk, -⟩ := mem_mask he
    exact hm.ends e (List.mem_of_getElem? hk)
  · intro e he
    show e.1 < (newVerts maxLen m adj).length ∧ e.2 < (newVerts maxLen m adj).length
    rcases List.mem_append.mp he with he | he
    · obtain ⟨k, hk, -⟩ := mem_mask he
      have := hm.ends e (List.mem_of_getElem? hk)
      omega
    · rcases new_edge_cases he with ⟨q, f, hf, h⟩ | ⟨k, e0, hk, hp, h⟩
      · obtain ⟨a, b, c⟩ := hfp q f hf
        rcases h with rfl | rfl | rfl
        · exact ⟨a, b⟩
        · exact ⟨a, c⟩
        · exact ⟨b, c⟩
      · have h1 := hm.ends e0 (List.mem_of_getElem? hk)
        have h2 := (ePart_lt maxLen m hadj k (get_lt hk) hp).2
        rcases h with rfl | rfl
        · exact ⟨by omega, h2⟩
        · exact ⟨h2, by omega⟩
  · intro f' hf'
    show RowLt (newVerts maxLen m adj).length f'.v
    rcases (mem_faces maxLen m adj f').mp hf' with ⟨f, hf, rfl⟩ | ⟨q, f, hf, h⟩ | ⟨k, hk, h1, h2, rfl⟩
    · obtain ⟨a, b, c⟩ := hm.row f (kept_mem hf)
      exact ⟨a.trans_le hlt, b.trans_le hlt, c.trans_le hlt⟩
    · obtain ⟨a, b, c⟩ := hm.row f (part_mem hf)
      obtain ⟨a', b', c'⟩ := hfp q f hf
      rcases h with rfl | rfl | rfl | rfl
      · exact ⟨a', b', c'⟩
      · exact ⟨a', c', a.trans_le hlt⟩
      · exact ⟨b', a', b.trans_le hlt⟩
      · exact ⟨c', b', c.trans_le hlt⟩
    · have he := List.getElem?_eq_getElem hk
      have hv := (joins_flat maxLen m adj k _ he h1 h2).2
      obtain ⟨a, b⟩ := hm.ends _ (List.mem_of_getElem? he)
      rw [hv]
      exact ⟨(ePart_lt maxLen m hadj k hk h1).2, a.trans_le hlt, b.trans_le hlt⟩
  · intro f' hf'
    rcases (mem_faces maxLen m adj f').mp hf' with ⟨f, hf, rfl⟩ | ⟨q, f, hf, h⟩ | ⟨k, hk, h1, h2, rfl⟩
    · obtain ⟨g, hg⟩ := hm.ghost f (kept_mem hf)
      exact ⟨g, joins_kept maxLen m adj f hf g hg⟩
    · obtain ⟨g, hg⟩ := hm.ghost f (part_mem hf)
      obtain ⟨c1, c2, c3⟩ := joins_corner maxLen m adj q f hf g hg
      rcases h with rfl | rfl | rfl | rfl
      · exact ⟨_, joins_inner maxLen m adj q f hf⟩
      · exact ⟨_, c1⟩
      · exact ⟨_, c2⟩
      · exact ⟨_, c3⟩
    · exact ⟨_, (joins_flat maxLen m adj k _ (List.getElem?_eq_getElem hk) h1 h2).1⟩
  · intro j hj
    have hj' : j < (edges0 maxLen m).length + (3 * (partF maxLen m).length + 2 * (splitE maxLen m).length) := by
      have : (shrinkStep maxLen adj m).edges.length = (edges0 maxLen m).length + ((e1New maxLen m).length + (e2New maxLen m).length) := by
        show (edges0 maxLen m ++ (e1New maxLen m ++ e2New maxLen m)).length = _
        rw [List.length_append, List.length_append]
      rw [this, e1_len, e2_len] at hj
      exact hj
    by_cases h0 : j < (edges0 maxLen m).length
    · obtain ⟨k, hk, hp, rfl⟩ := mask_idx _ _ _ h0
      unfold eKept at hp
      obtain ⟨f, hf, h⟩ := (onFaces_iff _ _).mp hp
      refine ⟨keptFace maxLen m f, (mem_faces maxLen m adj _).mpr (Or.inl ⟨f, hf, rfl⟩), ?_⟩
      rcases h with rfl | rfl | rfl
      · exact Or.inl rfl
      · exact Or.inr (Or.inl rfl)
      · exact Or.inr (Or.inr rfl)
    by_cases h1 : j < (edges0 maxLen m).length + 3 * (partF maxLen m).length
    · obtain ⟨q, hq, hjq⟩ : ∃ q, q < (partF maxLen m).length ∧ (j = (edges0 maxLen m).length + q ∨ j = (edges0 maxLen m).length + q + (partF maxLen m).length ∨
          j = (edges0 maxLen m).length + q + 2 * (partF maxLen m).length) := by
        by_cases a : j - (edges0 maxLen m).length < (partF maxLen m).length
        · exact ⟨j - (edges0 maxLen m).length, a, by omega⟩
        by_cases b : j - (edges0 maxLen m).length < 2 * (partF maxLen m).length
        · exact ⟨j - (edges0 maxLen m).length - (partF maxLen m).length, by omega, by omega⟩
        · exact ⟨j - (edges0 maxLen m).length - 2 * (partF maxLen m).length, by omega, by omega⟩
      refine ⟨innerFace maxLen m q _, (mem_faces maxLen m adj _).mpr (Or.inr (Or.inl ⟨q, _, List.getElem?_eq_getElem hq, Or.inl rfl⟩)), ?_⟩
      rcases hjq with h | h | h
      · exact Or.inl h.symm
      · exact Or.inr (Or.inr h.symm)
      · exact Or.inr (Or.inl h.symm)
    · obtain ⟨r, b, hr, hjr⟩ : ∃ r, ∃ b : Bool, r < (splitE maxLen m).length ∧
          j = (edges0 maxLen m).length + (3 * (partF maxLen m).length + r + if b then (splitE maxLen m).length else 0) := by
        by_cases a : j - (edges0 maxLen m).length - 3 * (partF maxLen m).length < (splitE maxLen m).length
        · exact ⟨j - (edges0 maxLen m).length - 3 * (partF maxLen m).length, false, a, by simp; omega⟩
        · exact ⟨j - (edges0 maxLen m).length - 3 * (partF maxLen m).length - (splitE maxLen m).length, true, by omega, by simp; omega⟩
      obtain ⟨k, hk, hp, hkr⟩ := mask_idx (e2part maxLen m) m.edges r hr
      obtain ⟨r', -, -, h3, h4⟩ := split_place maxLen m k hk hp
      have hjk : j = halfE maxLen m k b := by
        unfold halfE
        rw [h3, h4, hkr, Nat.add_sub_cancel_left, hjr]
      obtain ⟨q, f, hf, hfk⟩ := hm.split_on maxLen hk hp
      have c1 := (mem_faces maxLen m adj (corner1 maxLen m q f)).mpr (Or.inr (Or.inl ⟨q, f, hf, Or.inr (Or.inl rfl)⟩))
      have c2 := (mem_faces maxLen m adj (corner2 maxLen m q f)).mpr (Or.inr (Or.inl ⟨q, f, hf, Or.inr (Or.inr (Or.inl rfl))⟩))
      have c3 := (mem_faces maxLen m adj (corner3 maxLen m q f)).mpr (Or.inr (Or.inl ⟨q, f, hf, Or.inr (Or.inr (Or.inr rfl))⟩))
      rw [hjk]
      rcases hfk with rfl | rfl | rfl
      · by_cases hb : b = f.dir.1
        · subst hb; exact ⟨_, c2, Or.inr (Or.inl rfl)⟩
        · obtain rfl : b = !f.dir.1 := by cases b <;> cases hd : f.dir.1 <;> simp_all
          exact ⟨_, c1, Or.inr (Or.inr rfl)⟩
      · by_cases hb : b = f.dir.2.1
        · subst hb; exact ⟨_, c3, Or.inr (Or.inl rfl)⟩
        · obtain rfl : b = !f.dir.2.1 := by cases b <;> cases hd : f.dir.2.1 <;> simp_all
          exact ⟨_, c2, Or.inr (Or.inr rfl)⟩
      · by_cases hb : b = f.dir.2.2
        · subst hb; exact ⟨_, c3, Or.inr (Or.inr rfl)⟩
        · obtain rfl : b = !f.dir.2.2 := by cases b <;> cases hd : f.dir.2.2 <;> simp_all
          exact ⟨_, c1, Or.inr (Or.inl rfl)⟩

/-! ### The lengths after one pass without adjustment -/

theorem edgeLen_half (V : List (Fin d → ℝ)) (V' : List (Fin d → ℝ)) (e e' : ℕ × ℕ)
    (h : ∀ t, (V'.getD e'.1 0 t - V'.getD e'.2 0 t) ^ 2 = (1 / 2 * (V.getD e.1 0 t - V.getD e.2 0 t)) ^ 2) :
    edgeLen V' e' = 1 / 2 * edgeLen V e := by
  unfold edgeLen
  rw [Finset.sum_congr rfl (fun t _ => h t)]
  simp_rw [mul_pow]
  rw [← Finset.mul_sum, Real.sqrt_mul (by norm_num), show ((1 : ℝ) / 2) ^ 2 = (1 / 2) * (1 / 2) by ring, Real.sqrt_mul_self (by norm_num)]

theorem edgeLen_dir (V : List (Fin d → ℝ)) (dd : Bool) (a b : ℕ) : edgeLen V (dirPair dd a b) = edgeLen V (a, b) := by
  cases dd
  · unfold edgeLen dirPair
    congr 1
    refine Finset.sum_congr rfl (fun t _ => ?_)
    simp only [Bool.false_eq_true, if_false]
    ring
  · rfl

/-- Every new edge is half of an old one. -/
theorem Inv.new_len {m : Mesh d} (hm : Inv m) (maxLen : ℝ) (e : ℕ × ℕ) (he : e ∈ e1New maxLen m ++ e2New maxLen m) :
    ∃ e0 ∈ m.edges, edgeLen (newVerts maxLen m none) e = 1 / 2 * edgeLen m.verts e0 := by
  rcases new_edge_cases he with ⟨q, f, hf, h⟩ | ⟨k, e0, hk, hp, h⟩
  · obtain ⟨g, h1, h2, h3⟩ := hm.ghost f (part_mem hf)
    obtain ⟨k1, k2, k3⟩ := part_e2part maxLen m (List.mem_of_getElem? hf)
    have hv : ∀ (k : ℕ) (dd : Bool) (a b : ℕ), m.edges[k]? = some (dirPair dd a b) → e2part maxLen m k →
        ∀ t, (newVerts maxLen m none).getD (ePart maxLen m k) 0 t = 1 / 2 * (m.verts.getD a 0 t + m.verts.getD b 0 t) := by
      intro k dd a b hk hp t
      rw [newVerts_mid maxLen m k _ hk hp]
      cases dd <;> simp [dirPair] <;> ring
    have v1 := hv _ _ _ _ h1 k1
    have v2 := hv _ _ _ _ h2 k2
    have v3 := hv _ _ _ _ h3 k3
    rcases h with rfl | rfl | rfl
    · refine ⟨_, List.mem_of_getElem? h3, ?_⟩
      rw [edgeLen_dir]
      refine edgeLen_half _ _ _ _ (fun t => ?_)
      simp only [v1, v2]; ring
    · refine ⟨_, List.mem_of_getElem? h2, ?_⟩
      rw [edgeLen_dir]
      refine edgeLen_half _ _ _ _ (fun t => ?_)
      simp only [v1, v3]; ring
    · refine ⟨_, List.mem_of_getElem? h1, ?_⟩
      rw [edgeLen_dir]
      refine edgeLen_half _ _ _ _ (fun t => ?_)
      simp only [v2, v3]; ring
  · obtain ⟨l1, l2⟩ := hm.ends e0 (List.mem_of_getElem? hk)
    have hv := newVerts_mid maxLen m k e0 hk hp
    refine ⟨e0, List.mem_of_getElem? hk, edgeLen_half _ _ _ _ (fun t => ?_)⟩
    rcases h with rfl | rfl
    · simp only [hv, newVerts_old _ _ _ _ l1, Pi.smul_apply, Pi.add_apply, smul_eq_mul]; ring
    · simp only [hv, newVerts_old _ _ _ _ l2, Pi.smul_apply, Pi.add_apply, smul_eq_mul]; ring

theorem not_long_kept {maxLen : ℝ} {m : Mesh d} {k : ℕ} (h : eKept maxLen m k) : m.len.getD k 0 ≤ maxLen := by
  unfold eKept at h
  obtain ⟨f, hf, hk⟩ := (onFaces_iff _ _).mp h
  have := (List.mem_filter.mp hf).2
  simp only [isPart, Bool.not_eq_true', Bool.or_eq_false_iff, isLong, decide_eq_false_iff_not, not_lt] at this
  rcases hk with rfl | rfl | rfl
  · exact this.1.1
  · exact this.1.2
  · exact this.2

theorem kept_len {maxLen : ℝ} {m : Mesh d} {x : ℝ} (h : x ∈ maskIdx (eKept maxLen m) m.len) : x ≤ maxLen := by
  obtain ⟨k, hk, hp⟩ := mem_mask h
  have := not_long_kept hp
  rwa [List.getD_eq_getElem?_getD, hk] at this

theorem Inv.step_len {m : Mesh d} (hm : Inv m) {maxLen M : ℝ} (h0 : 0 ≤ maxLen) (hM : ∀ x ∈ m.len, x ≤ max maxLen M) :
    ∀ x ∈ (shrinkStep maxLen none m).len, x ≤ max maxLen (M / 2) := by
  intro x hx
  rcases List.mem_append.mp hx with hx | hx
  · exact (kept_len hx).trans (le_max_left _ _)
  · obtain ⟨e, he, rfl⟩ := List.mem_map.mp hx
    obtain ⟨e0, he0, h⟩ := hm.new_len maxLen e he
    rw [h]
    have h1 := hM (edgeLen m.verts e0) (by rw [hm.len]; exact List.mem_map_of_mem he0)
    rcases le_max_iff.mp h1 with h1 | h1
    · exact le_max_of_le_left (by linarith)
    · exact le_max_of_le_right (by linarith)

/-! ### Consistent faces -/

theorem flat_short {maxLen : ℝ} {m : Mesh d} (hm : Inv m) {k : ℕ} (hk : k < m.edges.length) (h1 : e2part maxLen m k) (h2 : eKept maxLen m k) :
    isPart maxLen (shrinkStep maxLen none m) (flatFace maxLen m k) = false := by
  have he := List.getElem?_eq_getElem hk
  obtain ⟨⟨j1, j2, j3⟩, -⟩ := joins_flat maxLen m none k _ he h1 h2
  have hinv := hm.step maxLen (adj := none) (by intro g hg; cases hg)
  have hl : ∀ i e, (shrinkStep maxLen none m).edges[i]? = some e → (shrinkStep maxLen none m).len.getD i 0 = edgeLen (newVerts maxLen m none) e := by
    intro i e h
    rw [hinv.len, List.getD_eq_getElem?_getD, List.getElem?_map, h]
    rfl
  have hk0 : edgeLen m.verts m.edges[k] ≤ maxLen := by
    have := not_long_kept h2
    rwa [hm.len, List.getD_eq_getElem?_getD, List.getElem?_map, he] at this
  have h0 : 0 ≤ edgeLen m.verts m.edges[k] := Real.sqrt_nonneg _
  obtain ⟨l1, l2⟩ := hm.ends _ (List.mem_of_getElem? he)
  have hv := newVerts_mid maxLen m k _ he h1
  simp only [isPart, Bool.or_eq_false_iff, isLong, decide_eq_false_iff_not, not_lt]
  refine ⟨⟨?_, ?_⟩, ?_⟩
  · rw [hl _ _ j1, edgeLen_dir, edgeLen_half m.verts _ m.edges[k] _ (fun t => ?_)]
    · linarith
    · simp only [hv, newVerts_old _ _ _ _ l1, Pi.smul_apply, Pi.add_apply, smul_eq_mul]; ring
  · rw [hl _ _ j2, edgeLen_dir, edgeLen_half m.verts _ m.edges[k] _ (fun t => ?_)]
    · linarith
    · simp only [hv, newVerts_old _ _ _ _ l2, Pi.smul_apply, Pi.add_apply, smul_eq_mul]; ring
  · rw [hl _ _ j3, edgeLen_dir]
    have := edgeLen_old maxLen m none m.edges[k] ⟨l1, l2⟩
    rw [show edgeLen (newVerts maxLen m none) (m.edges[k].1, m.edges[k].2) = edgeLen (newVerts maxLen m none) m.edges[k] from rfl, this]
    exact hk0

theorem Inv.len_get {m : Mesh d} (hm : Inv m) {i : ℕ} {e : ℕ × ℕ} (h : m.edges[i]? = some e) : m.len.getD i 0 = edgeLen m.verts e := by
  rw [hm.len, List.getD_eq_getElem?_getD, List.getElem?_map, h]
  rfl

theorem kept_short {maxLen : ℝ} {m : Mesh d} (hm : Inv m) {f : Face} (hf : f ∈ keptF maxLen m) :
    isPart maxLen (shrinkStep maxLen none m) (keptFace maxLen m f) = false := by
  have hinv := hm.step maxLen (adj := none) (by intro g hg; cases hg)
  obtain ⟨k1, k2, k3⟩ := kept_eKept maxLen m hf
  obtain ⟨l1, l2, l3⟩ := hm.face_lt (kept_mem hf)
  have key : ∀ k, k < m.edges.length → eKept maxLen m k → (shrinkStep maxLen none m).len.getD (indKept maxLen m k) 0 ≤ maxLen := by
    intro k hk hp
    have he := List.getElem?_eq_getElem hk
    rw [hinv.len_get ((edge_kept maxLen m none k hk hp).trans he)]
    have h1 := not_long_kept hp
    rw [hm.len_get he] at h1
    exact (edgeLen_old maxLen m none _ (hm.ends _ (List.mem_of_getElem? he))).trans_le h1
  simp only [isPart, Bool.or_eq_false_iff, isLong, decide_eq_false_iff_not, not_lt]
  exact ⟨⟨key _ l1 k1, key _ l2 k2⟩, key _ l3 k3⟩

/-- A face with short edges whose first two vertices are exchanged in the face table. -/
def Sliver (maxLen : ℝ) (m : Mesh d) (f : Face) : Prop :=
  Joins m.edges (f.v.2.1, f.v.1, f.v.2.2) f.e f.dir ∧ isPart maxLen m f = false

theorem step_sliver {maxLen : ℝ} {m : Mesh d} (hm : Inv m) (h : ∀ f ∈ m.faces, Joins m.edges f.v f.e f.dir ∨ Sliver maxLen m f) :
    ∀ f ∈ (shrinkStep maxLen none m).faces, Joins (shrinkStep maxLen none m).edges f.v f.e f.dir ∨ Sliver maxLen (shrinkStep maxLen none m) f := by
  intro f' hf'
  rcases (mem_faces maxLen m none f').mp hf' with ⟨f, hf, rfl⟩ | ⟨q, f, hf, hc⟩ | ⟨k, hk, h1, h2, rfl⟩
  · rcases h f (kept_mem hf) with hj | hs
    · exact Or.inl (joins_kept maxLen m none f hf _ hj)
    · exact Or.inr ⟨joins_kept maxLen m none f hf _ hs.1, kept_short hm hf⟩
  · rcases h f (part_mem hf) with hj | hs
    · obtain ⟨c1, c2, c3⟩ := joins_corner maxLen m none q f hf _ hj
      rcases hc with rfl | rfl | rfl | rfl
      · exact Or.inl (joins_inner maxLen m none q f hf)
      · exact Or.inl c1
      · exact Or.inl c2
      · exact Or.inl c3
    · have := (List.mem_filter.mp (List.mem_of_getElem? hf)).2
      rw [hs.2] at this
      cases this
  · obtain ⟨j, hv⟩ := joins_flat maxLen m none k _ (List.getElem?_eq_getElem hk) h1 h2
    refine Or.inr ⟨?_, flat_short hm hk h1 h2⟩
    rw [hv]
    exact j

/-- Without flat faces consistency is kept, whatever the adjustment. -/
theorem step_joins {maxLen : ℝ} {m : Mesh d} {adj} (h : ∀ f ∈ m.faces, Joins m.edges f.v f.e f.dir)
    (hb : ∀ k, k < m.edges.length → e2part maxLen m k → eKept maxLen m k → False) :
    ∀ f ∈ (shrinkStep maxLen adj m).faces, Joins (shrinkStep maxLen adj m).edges f.v f.e f.dir := by
  intro f' hf'
  rcases (mem_faces maxLen m adj f').mp hf' with ⟨f, hf, rfl⟩ | ⟨q, f, hf, hc⟩ | ⟨k, hk, h1, h2, rfl⟩
  · exact joins_kept maxLen m adj f hf _ (h f (kept_mem hf))
  · obtain ⟨c1, c2, c3⟩ := joins_corner maxLen m adj q f hf _ (h f (part_mem hf))
    rcases hc with rfl | rfl | rfl | rfl
    · exact joins_inner maxLen m adj q f hf
    · exact c1
    · exact c2
    · exact c3
  · exact (hb k hk h1 h2).elim

/-! ### The loop -/

theorem loop_inv {maxLen : ℝ} {nMax : Option ℕ} {adj} (P : Mesh d → Prop) (hP : ∀ m, P m → P (shrinkStep maxLen adj m)) (fuel i : ℕ)
    (m m' : Mesh d) (hm : P m) (h : shrinkLoop maxLen nMax adj fuel i m = some m') : P m' := by
  induction fuel generalizing i m with
  | zero => simp [shrinkLoop] at h
  | succ fuel ih =>
    rw [shrinkLoop] at h
    split at h
    · exact ih (i + 1) _ (hP m hm) h
    · injection h with h; subst h; exact hm

theorem loop_stop {maxLen : ℝ} {nMax : Option ℕ} {adj} (fuel i : ℕ)
    (m m' : Mesh d) (h : shrinkLoop maxLen nMax adj fuel i m = some m') (hn : nMax = none) : ∀ x ∈ m'.len, x ≤ maxLen := by
  induction fuel generalizing i m with
  | zero => simp [shrinkLoop] at h
  | succ fuel ih =>
    rw [shrinkLoop] at h
    split at h
    · exact ih (i + 1) _ h
    · rename_i hc
      injection h with h
      subst h
      intro x hx
      by_contra hlt
      exact hc ⟨⟨x, hx, not_le.mp hlt⟩, by simp [hn]⟩

/-- The loop with a step limit, when every pass finds a long edge. -/
theorem loop_iter {maxLen : ℝ} {adj} (k i fuel : ℕ) (m : Mesh d) (h : ∀ j, j < k → ∃ x ∈ ((shrinkStep maxLen adj)^[j] m).len, maxLen < x)
    (hf : k < fuel) : shrinkLoop maxLen (some (i + k)) adj fuel (i + 1) m = some ((shrinkStep maxLen adj)^[k] m) := by
  induction k generalizing i fuel m with
  | zero =>
    obtain ⟨fuel, rfl⟩ : ∃ g, fuel = g + 1 := ⟨fuel - 1, by omega⟩
    rw [shrinkLoop, if_neg]
    · rfl
    · rintro ⟨-, hn⟩
      simp at hn
  | succ k ih =>
    obtain ⟨fuel, rfl⟩ : ∃ g, fuel = g + 1 := ⟨fuel - 1, by omega⟩
    rw [shrinkLoop, if_pos]
    · rw [show i + (k + 1) = (i + 1) + k by ring]
      rw [ih (i + 1) fuel _ (fun j hj => by rw [← Function.iterate_succ_apply]; exact h (j + 1) (by omega)) (by omega)]
      rw [Function.iterate_succ_apply]
    · exact ⟨h 0 (by omega), by simp⟩

theorem inv_iter {maxLen : ℝ} {adj} (hadj : KeepsLength adj) (i : ℕ) (m : Mesh d) (hm : Inv m) : Inv ((shrinkStep maxLen adj)^[i] m) := by
  induction i with
  | zero => exact hm
  | succ i ih => rw [Function.iterate_succ_apply']; exact ih.step maxLen hadj

/-- The loop ends: the lengths of the long edges are halved by every pass. -/
theorem loop_ends {maxLen : ℝ} (h0 : 0 ≤ maxLen) (K : ℕ) (i : ℕ) (m : Mesh d) (hm : Inv m) (M : ℝ) (hM : ∀ x ∈ m.len, x ≤ max maxLen M)
    (hK : M / 2 ^ K ≤ maxLen) (fuel : ℕ) (hf : K < fuel) : ∃ m', shrinkLoop maxLen none none fuel i m = some m' := by
  induction K generalizing i m M fuel with
  | zero =>
    obtain ⟨fuel, rfl⟩ : ∃ g, fuel = g + 1 := ⟨fuel - 1, by omega⟩
    refine ⟨m, ?_⟩
    rw [shrinkLoop, if_neg]
    rintro ⟨⟨x, hx, hlt⟩, -⟩
    have := hM x hx
    rw [pow_zero, div_one] at hK
    rw [max_eq_left hK] at this
    linarith
  | succ K ih =>
    obtain ⟨fuel, rfl⟩ : ∃ g, fuel = g + 1 := ⟨fuel - 1, by omega⟩
    rw [shrinkLoop]
    split
    · refine ih (i + 1) _ (hm.step maxLen (by intro g hg; cases hg)) (M / 2) (hm.step_len h0 hM) ?_ fuel (by omega)
      rw [div_div, mul_comm, ← pow_succ]; exact hK
    · exact ⟨m, rfl⟩

end Ellipy.Tri
