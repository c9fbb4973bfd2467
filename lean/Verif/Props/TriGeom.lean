import Verif.Proofs.TriGeom
import Verif.Props.TriShrink

/-! Property theorem C110 (`shrink_face_tri` without an adjustment of the new vertices subdivides the surface). -/

namespace Ellipy.Tri

variable {d : ℕ}

private theorem map_zip {α β : Type} (l : List α) (g : α × ℕ → β) (k : α → β) (h : ∀ x ∈ l.zipIdx, g x = k x.1) : l.zipIdx.map g = l.map k := by
  conv_rhs => rw [← List.zipIdx_map_fst 0 l, List.map_map]
  exact List.map_congr_left h

private theorem four_perm {α β : Type} (l : List α) (f g h k : α → β) :
    (l.map f ++ (l.map g ++ l.map h ++ l.map k)).Perm (l.map fun x => [f x, g x, h x, k x]).flatten := by
  rw [← List.flatMap_def]
  refine List.Perm.trans ?_ (List.map_append_flatMap_perm l f fun x => [g x, h x, k x])
  refine List.Perm.append_left _ (List.Perm.trans ?_ (List.map_append_flatMap_perm l g fun x => [h x, k x]))
  rw [List.append_assoc]
  refine List.Perm.append_left _ (List.Perm.trans ?_ (List.map_append_flatMap_perm l h fun x => [k x]))
  rw [← List.map_eq_flatMap]

private theorem mid_dir (maxLen : ℝ) (m : Mesh d) (k : ℕ) (dd : Bool) (a b : ℕ) (hk : m.edges[k]? = some (dirPair dd a b)) (h : e2part maxLen m k) :
    (newVerts maxLen m none).getD (ePart maxLen m k) 0 = (1 / 2 : ℝ) • (m.verts.getD a 0 + m.verts.getD b 0) := by
  rw [newVerts_mid maxLen m k _ hk h]
  cases dd
  · simp only [dirPair, Bool.false_eq_true, if_false]
    rw [add_comm]
  · rfl

private theorem corners_old (maxLen : ℝ) (m : Mesh d) (v : Row) (h : RowLt m.verts.length v) :
    corners (newVerts maxLen m none) v = corners m.verts v := by
  unfold corners
  rw [newVerts_old _ _ _ _ h.1, newVerts_old _ _ _ _ h.2.1, newVerts_old _ _ _ _ h.2.2]

/-- The triangles of a mesh. -/
noncomputable def Mesh.triangles (m : Mesh d) : List (Tria d) := m.faces.map fun f => corners m.verts f.v

private theorem step_sub {maxLen : ℝ} {m : Mesh d} (hm : Inv m) (hJ : ∀ f ∈ m.faces, Joins m.edges f.v f.e f.dir ∨ Sliver maxLen m f) :
    IsSubdivision m.triangles (shrinkStep maxLen none m).triangles := by
  classical
  set V := newVerts maxLen m none with hV
  set c : Face → Tria d := fun f => corners m.verts f.v with hc
  have hperm : m.triangles.Perm ((keptF maxLen m).map c ++ (partF maxLen m).map c) := by
    rw [← List.map_append]
    refine List.Perm.map _ (List.Perm.trans (List.filter_append_perm (isPart maxLen m) m.faces).symm List.perm_append_comm)
  refine sub_perm hperm ⟨(keptF maxLen m).map (fun f => [c f]) ++ (partF maxLen m).map (fun f =>
      [corners V (ePart maxLen m f.e.1, ePart maxLen m f.e.2.1, ePart maxLen m f.e.2.2), corners V (ePart maxLen m f.e.1, ePart maxLen m f.e.2.2, f.v.1),
       corners V (ePart maxLen m f.e.2.1, ePart maxLen m f.e.1, f.v.2.1), corners V (ePart maxLen m f.e.2.2, ePart maxLen m f.e.2.1, f.v.2.2)]),
    (f3New maxLen m).map (fun f => corners V f.v), ?_, ?_, ?_⟩
  · have e0 : (shrinkStep maxLen none m).triangles = (keptF maxLen m).map c ++
        ((partF maxLen m).map (fun f => corners V (ePart maxLen m f.e.1, ePart maxLen m f.e.2.1, ePart maxLen m f.e.2.2)) ++
        (((partF maxLen m).map (fun f => corners V (ePart maxLen m f.e.1, ePart maxLen m f.e.2.2, f.v.1)) ++
          (partF maxLen m).map (fun f => corners V (ePart maxLen m f.e.2.1, ePart maxLen m f.e.1, f.v.2.1)) ++
          (partF maxLen m).map (fun f => corners V (ePart maxLen m f.e.2.2, ePart maxLen m f.e.2.1, f.v.2.2))) ++
          (f3New maxLen m).map (fun f => corners V f.v))) := by
      unfold Mesh.triangles shrinkStep keptF' f1New f2New
      simp only [List.map_append, List.map_map]
      congr 1
      · refine List.map_congr_left fun f hf => ?_
        exact corners_old maxLen m _ (hm.row f (kept_mem hf))
      · congr 1
        · exact map_zip _ _ _ fun x _ => rfl
        · congr 1
          congr 1
          · congr 1
            · exact map_zip _ _ _ fun x _ => rfl
            · exact map_zip _ _ _ fun x _ => rfl
          · exact map_zip _ _ _ fun x _ => rfl
    rw [e0, List.flatten_append, ← List.append_assoc, ← List.append_assoc, List.append_assoc _ _ (_ ++ _ ++ _), ]
    refine List.Perm.append_right _ ?_
    rw [← List.flatMap_def, ← List.map_eq_flatMap]
    exact List.Perm.append_left _ (four_perm _ _ _ _ _)
  · refine List.rel_append ?_ ?_
    · rw [List.forall₂_map_left_iff, List.forall₂_map_right_iff, List.forall₂_same]
      exact fun f _ => divides_self _
    · rw [List.forall₂_map_left_iff, List.forall₂_map_right_iff, List.forall₂_same]
      intro f hf
      have hp := (List.mem_filter.mp hf).2
      have hfm := (List.mem_filter.mp hf).1
      obtain ⟨j1, j2, j3⟩ : Joins m.edges f.v f.e f.dir := by
        rcases hJ f hfm with h | h
        · exact h
        · rw [h.2] at hp; cases hp
      obtain ⟨k1, k2, k3⟩ := part_e2part maxLen m hf
      obtain ⟨r1, r2, r3⟩ := hm.row f hfm
      unfold corners
      simp only
      rw [mid_dir maxLen m _ _ _ _ j1 k1, mid_dir maxLen m _ _ _ _ j2 k2, mid_dir maxLen m _ _ _ _ j3 k3, newVerts_old _ _ _ _ r1,
        newVerts_old _ _ _ _ r2, newVerts_old _ _ _ _ r3]
      exact divides_four _ _ _
  · intro s hs
    obtain ⟨f, hf, rfl⟩ := List.mem_map.mp hs
    obtain ⟨k, hk, rfl⟩ := List.mem_map.mp hf
    have hk' := (List.mem_filter.mp hk)
    have hkl : k < m.edges.length := List.mem_range.mp hk'.1
    obtain ⟨h1, h2⟩ := Bool.and_eq_true_iff.mp hk'.2
    have hek := List.getElem?_eq_getElem hkl
    have hv := (joins_flat maxLen m none k _ hek h1 h2).2
    unfold flatFace at hv
    simp only at hv
    have he := hm.ends _ (List.getElem_mem hkl)
    have ecor : corners V (ePart maxLen m k, (edges0 maxLen m).getD (indKept maxLen m k) (0, 0)) =
        ((1 / 2 : ℝ) • (m.verts.getD m.edges[k].1 0 + m.verts.getD m.edges[k].2 0), m.verts.getD m.edges[k].1 0, m.verts.getD m.edges[k].2 0) := by
      rw [hv]
      unfold corners
      simp only
      rw [newVerts_mid maxLen m k _ hek h1, newVerts_old _ _ _ _ he.1, newVerts_old _ _ _ _ he.2]
    simp only
    rw [ecor]
    refine ⟨(flat_mid _ _).1, (flat_mid _ _).2, ?_⟩
    have h3 := h2
    unfold eKept at h3
    obtain ⟨f, hf, hfk⟩ := (onFaces_iff _ _).mp h3
    refine ⟨c f, List.mem_append_left _ (List.mem_map_of_mem hf), ?_⟩
    have hends : (m.edges[k].1 = f.v.1 ∨ m.edges[k].1 = f.v.2.1 ∨ m.edges[k].1 = f.v.2.2) ∧
        (m.edges[k].2 = f.v.1 ∨ m.edges[k].2 = f.v.2.1 ∨ m.edges[k].2 = f.v.2.2) := by
      have key : ∀ dd a b, m.edges[k]? = some (dirPair dd a b) → (m.edges[k].1 = a ∧ m.edges[k].2 = b) ∨ (m.edges[k].1 = b ∧ m.edges[k].2 = a) := by
        intro dd a b h
        rw [hek] at h
        injection h with h
        exact dirPair_cases dd a b _ _ h.symm
      rcases hJ f (kept_mem hf) with ⟨j1, j2, j3⟩ | ⟨⟨j1, j2, j3⟩, -⟩
      · rcases hfk with rfl | rfl | rfl
        · rcases key _ _ _ j1 with h | h <;> simp [h.1, h.2]
        · rcases key _ _ _ j2 with h | h <;> simp [h.1, h.2]
        · rcases key _ _ _ j3 with h | h <;> simp [h.1, h.2]
      · rcases hfk with rfl | rfl | rfl
        · rcases key _ _ _ j1 with h | h <;> simp [h.1, h.2]
        · rcases key _ _ _ j2 with h | h <;> simp [h.1, h.2]
        · rcases key _ _ _ j3 with h | h <;> simp [h.1, h.2]
    refine flat_hull _ _ _ ?_ ?_
    · rcases hends.1 with h | h | h <;> simp [h, hc, corners]
    · rcases hends.2 with h | h | h <;> simp [h, hc, corners]

/-- **C110**: without an adjustment `shrink_face_tri` subdivides the surface, for every threshold and number of steps: the triangles of the
result are parts of the given triangles, which they cover exactly, with the same orientation and the same total area, and flat triangles
on the given ones; the given vertices keep their places. -/
theorem C110 (argsort : List ℕ → List ℕ) (hsort : IsArgsort argsort) (fuel : ℕ) (verts : List (Fin d → ℝ)) (F : FMat)
    (rows : List Row) (hF : faceRows F = .ok rows) (hne : rows ≠ []) (hprop : ∀ f ∈ rows, Proper f) (hin : ∀ f ∈ rows, RowLt verts.length f)
    (maxLen : ℝ) (nMax : Option ℕ) (m : Mesh d) (h : shrinkFaceTri argsort fuel verts F maxLen nMax none = .ok (some m)) :
    IsSubdivision (rows.map (corners verts)) (m.rows.map fun f => corners m.verts f.1) ∧ verts <+: m.verts := by
  obtain ⟨m0, h0, hinv, hj, hv, hf, -⟩ := init_ok argsort hsort verts F rows hF hne hprop hin
  obtain ⟨m1, h1, h2⟩ := run_cases _ _ _ _ _ _ _ _ h
  rw [h0] at h1
  injection h1 with h1
  subst h1
  have ht0 : rows.map (corners verts) = m0.triangles := by
    unfold Mesh.triangles
    rw [← hf, List.map_map, hv]
    rfl
  have ht : (m.rows.map fun f => corners m.verts f.1) = m.triangles := by
    unfold Mesh.triangles Mesh.rows
    rw [List.map_map]
    rfl
  rw [ht, ht0]
  rcases h2 with rfl | h2
  · exact ⟨sub_refl _, hv ▸ List.prefix_refl _⟩
  · have := loop_inv (fun m => Inv m ∧ (∀ f ∈ m.faces, Joins m.edges f.v f.e f.dir ∨ Sliver maxLen m f) ∧ IsSubdivision m0.triangles m.triangles ∧
        verts <+: m.verts)
      (fun m hm => ⟨hm.1.step maxLen (by intro g hg; cases hg), step_sliver hm.1 hm.2.1, sub_trans hm.2.2.1 (step_sub hm.1 hm.2.1),
        hm.2.2.2.trans (List.prefix_append _ _)⟩)
      _ _ _ _ ⟨hinv, fun f hf => Or.inl (hj f hf), sub_refl _, hv ▸ List.prefix_refl _⟩ h2
    exact this.2.2

/-- The surface as a set of points and its area do not change. -/
theorem C110_surface (argsort : List ℕ → List ℕ) (hsort : IsArgsort argsort) (fuel : ℕ) (verts : List (Fin d → ℝ)) (F : FMat)
    (rows : List Row) (hF : faceRows F = .ok rows) (hne : rows ≠ []) (hprop : ∀ f ∈ rows, Proper f) (hin : ∀ f ∈ rows, RowLt verts.length f)
    (maxLen : ℝ) (nMax : Option ℕ) (m : Mesh d) (h : shrinkFaceTri argsort fuel verts F maxLen nMax none = .ok (some m)) :
    (⋃ f ∈ m.rows, (corners m.verts f.1).hull) = (⋃ v ∈ rows, (corners verts v).hull) ∧
      (m.rows.map fun f => (corners m.verts f.1).area).sum = (rows.map fun v => (corners verts v).area).sum := by
  have := sub_total (C110 argsort hsort fuel verts F rows hF hne hprop hin maxLen nMax m h).1
  simp only [List.mem_map, Set.iUnion_exists, Set.biUnion_and', Set.iUnion_iUnion_eq_right, List.map_map] at this
  exact this

/-- The kite refined to edges of length at most a hundredth covers the same set and has the area `11/2`. -/
example : ∃ fuel, ∃ m : Mesh 2, shrinkFaceTri stableArgsort fuel kite (.mat [(0, 1, 2), (0, 1, 3)]) (1 / 100) none none = .ok (some m) ∧
    (m.rows.map fun f => (corners m.verts f.1).area).sum = 11 / 2 := by
  have hp : ∀ f ∈ [((0, 1, 2) : Row), (0, 1, 3)], Proper f := by intro f hf; simp at hf; rcases hf with rfl | rfl <;> simp [Proper]
  have hr : ∀ f ∈ [((0, 1, 2) : Row), (0, 1, 3)], RowLt kite.length f := by
    intro f hf; simp at hf; rcases hf with rfl | rfl <;> simp [RowLt, kite]
  obtain ⟨fuel, m, h1, -, -⟩ := C55_partial stableArgsort stableArgsort_ok kite (.mat [(0, 1, 2), (0, 1, 3)]) [(0, 1, 2), (0, 1, 3)] rfl (by simp)
    hp hr (by simp) (1 / 100) (by norm_num)
  refine ⟨fuel, m, h1 fuel le_rfl, ?_⟩
  rw [(C110_surface stableArgsort stableArgsort_ok fuel kite _ _ rfl (by simp) hp hr (1 / 100) none m (h1 fuel le_rfl)).2]
  have s100 : √(100 : ℝ) = 10 := by rw [show (100 : ℝ) = 10 ^ 2 by norm_num, Real.sqrt_sq (by norm_num)]
  have e1 : Tria.area (corners kite (0, 1, 2)) = 5 := by
    unfold Tria.area corners kite
    simp [dotProduct, Fin.sum_univ_two]
    norm_num [s100]
  have e2 : Tria.area (corners kite (0, 1, 3)) = 1 / 2 := by
    unfold Tria.area corners kite
    simp [dotProduct, Fin.sum_univ_two]
  simp [e1, e2]
  norm_num

end Ellipy.Tri
