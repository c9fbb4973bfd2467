import Mathlib.Tactic.LinearCombination
import Verif.Spec.TriOrient
import Verif.Props.SphereTri
import Verif.Props.TriGeom
import Verif.Props.TriTube

/-! Property theorems C115: orientation of triangulated surfaces. -/

namespace Ellipy.Tri

variable {d : ℕ}

private def sg (b : Bool) : ℤ := if b then 1 else -1

private def fS (φ : ℕ → ℤ) (f : Face) : ℤ := sg f.dir.1 * φ f.e.1 + sg f.dir.2.1 * φ f.e.2.1 - sg f.dir.2.2 * φ f.e.2.2

private def chainS (φ : ℕ → ℤ) (F : List Face) : ℤ := (F.map (fS φ)).sum

private def om {α : Type} [DecidableEq α] (a b x y : α) : ℤ := (if x = a ∧ y = b then 1 else 0) - (if x = b ∧ y = a then 1 else 0)

private theorem om_swap {α : Type} [DecidableEq α] (a b x y : α) : om a b x y = -om a b y x := by
  unfold om
  rw [if_congr (and_comm (a := x = a)) rfl rfl, if_congr (and_comm (a := x = b)) rfl rfl]
  ring

private theorem dirCount_om {α : Type} [DecidableEq α] (a b : α) (v : α × α × α) :
    (dirCount a b v : ℤ) - dirCount b a v = om a b v.1 v.2.1 + om a b v.2.1 v.2.2 + om a b v.2.2 v.1 := by
  unfold dirCount om
  push_cast
  ring

private theorem dirUses_om {α : Type} [DecidableEq α] (a b : α) (l : List (α × α × α)) :
    (dirUses l a b : ℤ) - dirUses l b a = (l.map fun v => om a b v.1 v.2.1 + om a b v.2.1 v.2.2 + om a b v.2.2 v.1).sum := by
  induction l with
  | nil => rfl
  | cons v l ih =>
    have h1 := dirCount_om a b v
    unfold dirUses at ih ⊢
    simp only [List.map_cons, List.sum_cons, Nat.cast_add]
    linarith

/-- The number of uses of an edge of the table, with signs. -/
private def edgeOm (E : List (ℕ × ℕ)) (a b k : ℕ) : ℤ := match E[k]? with | some e => om a b e.1 e.2 | none => 0

private theorem edgeOm_dir {E : List (ℕ × ℕ)} {k x y : ℕ} {dd : Bool} (a b : ℕ) (h : E[k]? = some (dirPair dd x y)) :
    sg dd * edgeOm E a b k = om a b x y := by
  unfold edgeOm
  rw [h]
  cases dd
  · simp only [sg, dirPair, Bool.false_eq_true, if_false]
    rw [om_swap a b x y]; ring
  · simp [sg, dirPair]

private theorem uses_chain {E : List (ℕ × ℕ)} {F : List Face} (h : ∀ f ∈ F, Joins E f.v f.e f.dir) (a b : ℕ) :
    (dirUses (F.map fun f => f.v) a b : ℤ) - dirUses (F.map fun f => f.v) b a = chainS (edgeOm E a b) F := by
  rw [dirUses_om, List.map_map]
  unfold chainS
  congr 1
  refine List.map_congr_left fun f hf => ?_
  obtain ⟨h1, h2, h3⟩ := h f hf
  show om a b f.v.1 f.v.2.1 + om a b f.v.2.1 f.v.2.2 + om a b f.v.2.2 f.v.1 = fS _ f
  unfold fS
  rw [edgeOm_dir a b h1, edgeOm_dir a b h2, edgeOm_dir a b h3, om_swap a b f.v.2.2 f.v.1]
  ring

private theorem chain_lin (n : ℕ) (φ : ℕ → ℤ) (F : List Face) (h : ∀ f ∈ F, f.e.1 < n ∧ f.e.2.1 < n ∧ f.e.2.2 < n) :
    chainS φ F = ∑ k ∈ Finset.range n, φ k * chainS (fun j => if j = k then 1 else 0) F := by
  induction F with
  | nil => simp [chainS]
  | cons f F ih =>
    have ih := ih fun g hg => h g (List.mem_cons_of_mem _ hg)
    obtain ⟨h1, h2, h3⟩ := h f List.mem_cons_self
    unfold chainS at ih ⊢
    simp only [List.map_cons, List.sum_cons, mul_add, Finset.sum_add_distrib]
    rw [ih]
    congr 1
    unfold fS
    have key : ∀ e, e < n → φ e = ∑ k ∈ Finset.range n, φ k * (if e = k then 1 else 0) := by
      intro e he
      simp [he]
    simp only [mul_add, mul_sub, Finset.sum_add_distrib, Finset.sum_sub_distrib, mul_left_comm (φ _), ← Finset.mul_sum]
    rw [← key _ h1, ← key _ h2, ← key _ h3]

/-- A surface with every side passed equally often in both directions, as a condition on the table of the edges. -/
private theorem closed_chain {m : Mesh d} {rows : List Row} (hm : Inv m) (hj : ∀ f ∈ m.faces, Joins m.edges f.v f.e f.dir)
    (hf : m.faces.map (fun f => f.v) = rows) (ht : IsEdgeTable m.edges rows) (hc : ∀ a b, dirUses rows a b = dirUses rows b a) (φ : ℕ → ℤ) :
    chainS φ m.faces = 0 := by
  rw [chain_lin m.edges.length φ m.faces fun f hf => hm.face_lt hf]
  refine Finset.sum_eq_zero fun k hk => ?_
  have hk := Finset.mem_range.1 hk
  have he := List.getElem?_eq_getElem hk
  have hlt : ∀ (j : ℕ) (e : ℕ × ℕ), m.edges[j]? = some e → e.1 < e.2 := fun j e h => ((ht.2 e.1 e.2).1 (List.mem_of_getElem? h)).1
  have h1 := uses_chain hj m.edges[k].1 m.edges[k].2
  rw [hf, hc, sub_self] at h1
  have h2 : chainS (fun j => if j = k then 1 else 0) m.faces = chainS (edgeOm m.edges m.edges[k].1 m.edges[k].2) m.faces := by
    have key : ∀ j, (if j = k then (1 : ℤ) else 0) = edgeOm m.edges m.edges[k].1 m.edges[k].2 j := by
      intro j
      unfold edgeOm
      by_cases hjk : j = k
      · subst hjk
        rw [if_pos rfl, he]
        have := hlt _ _ he
        simp only [om, and_self, if_true]
        rw [if_neg (by omega)]; rfl
      · rw [if_neg hjk]
        cases hj' : m.edges[j]? with
        | none => rfl
        | some e =>
          have h3 := hlt _ _ hj'
          have h4 := hlt _ _ he
          have h5 : e ≠ m.edges[k] := by
            rintro rfl
            exact hjk (table_inj ht hj' he)
          have h6 : ¬ (e.1 = m.edges[k].1 ∧ e.2 = m.edges[k].2) := fun h => h5 (Prod.ext h.1 h.2)
          simp only [om]
          rw [if_neg h6, if_neg (by omega)]; rfl
    rw [funext key]
  rw [h2, ← h1, mul_zero]

private theorem chain_append (φ : ℕ → ℤ) (F G : List Face) : chainS φ (F ++ G) = chainS φ F + chainS φ G := by
  unfold chainS
  rw [List.map_append, List.sum_append]

private theorem chain_split (maxLen : ℝ) (m : Mesh d) (φ : ℕ → ℤ) : chainS φ m.faces = chainS φ (keptF maxLen m) + chainS φ (partF maxLen m) := by
  unfold chainS keptF partF
  induction m.faces with
  | nil => rfl
  | cons f l ih =>
    rw [List.map_cons, List.sum_cons, ih]
    cases hp : isPart maxLen m f <;> simp [hp] <;> ring

private theorem chain_zip (l : List Face) (φ φ' : ℕ → ℤ) (g1 g2 g3 g4 : Face × ℕ → Face)
    (h : ∀ x ∈ l.zipIdx, fS φ' (g1 x) + (fS φ' (g2 x) + fS φ' (g3 x) + fS φ' (g4 x)) = fS φ x.1) :
    chainS φ' (l.zipIdx.map g1) + (chainS φ' (l.zipIdx.map g2) + chainS φ' (l.zipIdx.map g3) + chainS φ' (l.zipIdx.map g4)) = chainS φ l := by
  unfold chainS
  simp only [List.map_map]
  rw [← List.sum_map_add, ← List.sum_map_add, ← List.sum_map_add]
  have : (l.map (fS φ)) = l.zipIdx.map fun x => fS φ x.1 := by
    conv_lhs => rw [← List.zipIdx_map_fst 0 l, List.map_map]
    rfl
  rw [this]
  congr 1
  exact List.map_congr_left h

/-- One pass in which no edge is split and kept. -/
private theorem step_chain {maxLen : ℝ} {m : Mesh d} {adj} (hno : ∀ k, k < m.edges.length → e2part maxLen m k → eKept maxLen m k → False) (hm : Inv m)
    (φ' : ℕ → ℤ) : ∃ φ, chainS φ' (shrinkStep maxLen adj m).faces = chainS φ m.faces := by
  refine ⟨fun k => if eKept maxLen m k then φ' (indKept maxLen m k) else φ' (halfE maxLen m k false) + φ' (halfE maxLen m k true), ?_⟩
  rw [chain_split maxLen m]
  have h3 : f3New maxLen m = [] := by
    unfold f3New broken
    rw [List.map_eq_nil_iff, List.filter_eq_nil_iff]
    intro k hk
    rw [Bool.and_eq_true]
    exact fun h => hno k (List.mem_range.1 hk) h.1 h.2
  unfold shrinkStep
  simp only [chain_append, h3]
  congr 1
  · unfold chainS keptF'
    rw [List.map_map]
    congr 1
    refine List.map_congr_left fun f hf => ?_
    obtain ⟨k1, k2, k3⟩ := kept_eKept maxLen m hf
    simp only [Function.comp_apply, fS, k1, k2, k3, if_true]
  · have : chainS φ' ([] : List Face) = 0 := rfl
    rw [this, add_zero]
    unfold f1New f2New
    simp only [chain_append]
    refine chain_zip _ _ _ _ _ _ _ fun x hx => ?_
    obtain ⟨f, q⟩ := x
    have hf : f ∈ partF maxLen m := (List.mem_zipIdx' hx).2 ▸ List.getElem_mem _
    obtain ⟨k1, k2, k3⟩ := part_e2part maxLen m hf
    obtain ⟨l1, l2, l3⟩ := hm.face_lt (List.mem_filter.1 hf).1
    have n1 : ¬ eKept maxLen m f.e.1 = true := fun h => hno _ l1 k1 h
    have n2 : ¬ eKept maxLen m f.e.2.1 = true := fun h => hno _ l2 k2 h
    have n3 : ¬ eKept maxLen m f.e.2.2 = true := fun h => hno _ l3 k3 h
    simp only [fS]
    rw [if_neg n1, if_neg n2, if_neg n3]
    have i1 : (edges0 maxLen m).length + (q + (partF maxLen m).length) = (edges0 maxLen m).length + q + (partF maxLen m).length := by omega
    have i2 : (edges0 maxLen m).length + (q + 2 * (partF maxLen m).length) = (edges0 maxLen m).length + q + 2 * (partF maxLen m).length := by omega
    rw [i1, i2]
    cases f.dir.1 <;> cases f.dir.2.1 <;> cases f.dir.2.2 <;> simp only [sg, Bool.not_true, Bool.not_false, if_true, Bool.false_eq_true, if_false] <;> ring

/-- **C115**, partial: if every side is passed equally often in both directions, then so is every side of the result, for every adjustment of
the new vertices, provided that in every pass the faces with a common edge are all split or all left. -/
theorem C115_partial (argsort : List ℕ → List ℕ) (hsort : IsArgsort argsort) (fuel : ℕ) (verts : List (Fin d → ℝ)) (F : FMat)
    (rows : List Row) (hF : faceRows F = .ok rows) (hne : rows ≠ []) (hprop : ∀ f ∈ rows, Proper f) (hin : ∀ f ∈ rows, RowLt verts.length f)
    (maxLen : ℝ) (nMax : Option ℕ) (adj : Option (List (Fin d → ℝ) → List (Fin d → ℝ))) (hadj : ∀ g ∈ adj, ∀ l, (g l).length = l.length)
    (hall : ∀ m0, initMesh argsort verts F = .ok m0 → ∀ i, ∀ f ∈ ((shrinkStep maxLen adj)^[i] m0).rows, ∀ f' ∈ ((shrinkStep maxLen adj)^[i] m0).rows,
      (∃ k, (f.2.1.1 = k ∨ f.2.1.2.1 = k ∨ f.2.1.2.2 = k) ∧ (f'.2.1.1 = k ∨ f'.2.1.2.1 = k ∨ f'.2.1.2.2 = k)) →
      LongFace maxLen ((shrinkStep maxLen adj)^[i] m0) f → LongFace maxLen ((shrinkStep maxLen adj)^[i] m0) f')
    (hc : ∀ a b, dirUses rows a b = dirUses rows b a)
    (m : Mesh d) (h : shrinkFaceTri argsort fuel verts F maxLen nMax adj = .ok (some m)) :
    ∀ a b, dirUses (m.rows.map fun f => f.1) a b = dirUses (m.rows.map fun f => f.1) b a := by
  have hJ := C54_uniform_partial argsort hsort fuel verts F rows hF hne hprop hin maxLen nMax adj hadj hall m h
  obtain ⟨m0, h0, hinv, hj, hv, hf, ht⟩ := init_ok argsort hsort verts F rows hF hne hprop hin
  obtain ⟨m1, h1, h2⟩ := run_cases _ _ _ _ _ _ _ _ h
  rw [h0] at h1
  injection h1 with h1
  subst h1
  have hz : ∀ φ, chainS φ m.faces = 0 := by
    have hz0 := closed_chain hinv hj hf ht hc
    rcases h2 with rfl | h2
    · exact hz0
    · refine (loop_inv (fun m => (∃ i, m = (shrinkStep maxLen adj)^[i] m0) ∧ Inv m ∧ ∀ φ, chainS φ m.faces = 0)
        (fun m hm => ?_) _ _ _ _ ⟨⟨0, rfl⟩, hinv, hz0⟩ h2).2.2
      obtain ⟨⟨i, hi⟩, hm, hmz⟩ := hm
      refine ⟨⟨i + 1, by rw [hi, Function.iterate_succ_apply']⟩, hm.step maxLen hadj, fun φ' => ?_⟩
      suffices hno : ∀ k, k < m.edges.length → e2part maxLen m k → eKept maxLen m k → False by
        obtain ⟨φ, hφ⟩ := step_chain (adj := adj) hno hm φ'
        rw [hφ, hmz]
      intro k hk h1 h2
      obtain ⟨q, f, hf, hfk⟩ := hm.split_on maxLen hk h1
      unfold eKept at h2
      obtain ⟨f', hf', hfk'⟩ := (onFaces_iff _ _).mp h2
      have hl := (isPart_iff hm (part_mem hf)).mp (List.mem_filter.mp (List.mem_of_getElem? hf)).2
      have hl' := hall m0 h0 i (f.v, f.e, f.dir) (List.mem_map.mpr ⟨f, hi ▸ part_mem hf, rfl⟩) (f'.v, f'.e, f'.dir)
        (List.mem_map.mpr ⟨f', hi ▸ kept_mem hf', rfl⟩) ⟨k, hfk, hfk'⟩ (hi ▸ hl)
      have := (isPart_iff hm (kept_mem hf')).mpr (hi ▸ hl')
      have h3 := (List.mem_filter.mp hf').2
      rw [this] at h3
      cases h3
  intro a b
  have hJ' : ∀ f ∈ m.faces, Joins m.edges f.v f.e f.dir := fun f hf => hJ (f.v, f.e, f.dir) (List.mem_map.mpr ⟨f, hf, rfl⟩)
  have h3 := uses_chain hJ' a b
  rw [hz] at h3
  have h4 : (m.rows.map fun f => f.1) = m.faces.map fun f => f.v := by
    unfold Mesh.rows
    rw [List.map_map]
    rfl
  rw [h4]
  omega

private theorem ico_closed (a b : ℕ) : dirUses icoFaces a b = dirUses icoFaces b a := by
  have h := dirUses_om a b icoFaces
  simp only [icoFaces, List.map_cons, List.map_nil, List.sum_cons, List.sum_nil] at h
  have := om_swap a b 0 1
  have := om_swap a b 0 2
  have := om_swap a b 0 3
  have := om_swap a b 0 4
  have := om_swap a b 0 5
  have := om_swap a b 1 2
  have := om_swap a b 1 5
  have := om_swap a b 1 6
  have := om_swap a b 1 10
  have := om_swap a b 2 3
  have := om_swap a b 2 6
  have := om_swap a b 2 7
  have := om_swap a b 3 4
  have := om_swap a b 3 7
  have := om_swap a b 3 8
  have := om_swap a b 4 5
  have := om_swap a b 4 8
  have := om_swap a b 4 9
  have := om_swap a b 5 9
  have := om_swap a b 5 10
  have := om_swap a b 6 7
  have := om_swap a b 6 10
  have := om_swap a b 6 11
  have := om_swap a b 7 8
  have := om_swap a b 7 11
  have := om_swap a b 8 9
  have := om_swap a b 8 11
  have := om_swap a b 9 10
  have := om_swap a b 9 11
  have := om_swap a b 10 11
  unfold icoFaces
  omega

private theorem dir_side {a b : ℕ} {v : Row} (h : Proper v) : dirCount a b v + dirCount b a v = if IsSide a b v then 1 else 0 := by
  obtain ⟨x, y, z⟩ := v
  simp only [Proper] at h
  simp only [IsSide, List.mem_cons, List.not_mem_nil, or_false, Prod.mk.injEq, dirCount]
  split_ifs <;> omega

private theorem uses_side {F : List Row} (h : ∀ v ∈ F, Proper v) (a b : ℕ) :
    dirUses F a b + dirUses F b a = F.countP fun f => decide (IsSide a b f) := by
  unfold dirUses
  induction F with
  | nil => rfl
  | cons v l ih =>
    have ih := ih fun w hw => h w (List.mem_cons_of_mem _ hw)
    have h1 := dir_side (a := a) (b := b) (h v List.mem_cons_self)
    rw [List.map_cons, List.map_cons, List.sum_cons, List.sum_cons, List.countP_cons, ← ih]
    simp only [decide_eq_true_eq]
    omega

/-- **C115** (sphere): the triangles of `sphere_tri` are consistently oriented: every side is passed once in each direction. -/
theorem C115_sphere (argsort : List ℕ → List ℕ) (hsort : IsArgsort argsort) (n fuel : ℕ) (hf : n < fuel) :
    ∃ V F, sphereTri argsort fuel n = .ok (some (V, F)) ∧ ∀ a b, (∃ f ∈ F, IsSide a b f) → dirUses F a b = 1 ∧ dirUses F b a = 1 := by
  obtain ⟨V, F, hrun, -, -, -, -, hp, htwo, -⟩ := C56 argsort hsort n fuel hf
  refine ⟨V, F, hrun, fun a b hs => ?_⟩
  have h1 := uses_side (fun f hf => (hp f hf).2) a b
  rw [htwo a b hs] at h1
  suffices h : dirUses F a b = dirUses F b a by omega
  obtain ⟨m0, h0, hsph, -⟩ := ico_init argsort hsort
  unfold sphereTri at hrun
  rw [if_neg (by simp)] at hrun
  cases hr : shrinkFaceTri argsort fuel icoVerts (.mat icoFaces) 0 (some ⌊((n : ℕ) : ℚ)⌋.toNat) (some (List.map normRow)) with
  | error e => rw [hr] at hrun; cases hrun
  | ok o =>
    rw [hr] at hrun
    cases o with
    | none => cases hrun
    | some m =>
      simp only [Except.ok.injEq, Option.some.injEq, Prod.mk.injEq] at hrun
      have h2 := C115_partial argsort hsort fuel icoVerts (.mat icoFaces) icoFaces rfl (by simp [icoFaces]) (by unfold icoFaces Proper; decide)
        (by rw [icoVerts_eq]; unfold icoFaces RowLt; decide) 0 _ (some (List.map normRow)) (by intro g hg l; simp at hg; subst hg; simp) ?_ ico_closed m hr a b
      · have h4 : (m.rows.map fun f => f.1) = F := by
          unfold Mesh.rows
          rw [List.map_map, ← hrun.2]
          rfl
        rw [h4] at h2
        exact h2
      · intro m0' h0' i f hf f' hf' _ _
        rw [h0] at h0'
        injection h0' with h0'
        subst h0'
        have hi := hsph.iter i
        obtain ⟨f', hff', rfl⟩ := List.mem_map.mp hf'
        refine (isPart_iff hi.inv hff').1 ?_
        unfold isPart
        rw [show isLong 0 ((shrinkStep 0 (some (List.map normRow)))^[i] m0) f'.e.1 = true from hi.long _ (hi.inv.face_lt hff').1]
        rfl

/-- The vertices of a tetrahedron with one long edge. -/
noncomputable def tent : List (Fin 3 → ℝ) := [![-2, 0, 0], ![2, 0, 0], ![0, 1, 0], ![0, 0, 1]]

/-- Its faces, seen from outside in counterclockwise order. -/
def tentRows : List Row := [(0, 2, 1), (0, 1, 3), (0, 3, 2), (1, 2, 3)]

theorem tent_closed (a b : ℕ) : dirUses tentRows a b = dirUses tentRows b a := by
  have h := dirUses_om a b tentRows
  simp only [tentRows, List.map_cons, List.map_nil, List.sum_cons, List.sum_nil] at h
  have := om_swap a b 0 1
  have := om_swap a b 0 2
  have := om_swap a b 0 3
  have := om_swap a b 1 2
  have := om_swap a b 1 3
  have := om_swap a b 2 3
  unfold tentRows
  omega

theorem tent_proper : ∀ f ∈ tentRows, Proper f := by
  intro f hf
  simp only [tentRows, List.mem_cons, List.not_mem_nil, or_false] at hf
  rcases hf with rfl | rfl | rfl | rfl <;> simp [Proper]

theorem tent_row : ∀ f ∈ tentRows, RowLt tent.length f := by
  intro f hf
  simp only [tentRows, List.mem_cons, List.not_mem_nil, or_false] at hf
  rcases hf with rfl | rfl | rfl | rfl <;> simp [RowLt, tent]

private theorem no_pass {a b x y z : ℕ} (h1 : ¬ (x = a ∧ y = b)) (h2 : ¬ (y = a ∧ z = b)) (h3 : ¬ (z = a ∧ x = b)) : dirCount a b (x, y, z) = 0 := by
  simp only [dirCount]
  rw [if_neg h1, if_neg h2, if_neg h3]

/-- **C115** fails: after one pass over a tetrahedron with one long edge there is a side that is passed in one direction only. -/
theorem C115_violated : (∀ a b, dirUses tentRows a b = dirUses tentRows b a) ∧
    ∃ m : Mesh 3, shrinkFaceTri stableArgsort 2 tent (.mat tentRows) 3 (some 1) none = .ok (some m) ∧
      dirUses (m.rows.map fun f => f.1) 3 0 = 0 ∧ 0 < dirUses (m.rows.map fun f => f.1) 0 3 := by
  refine ⟨tent_closed, ?_⟩
  obtain ⟨m, h0, hinv, hj, hv, hf, ht⟩ := init_ok stableArgsort stableArgsort_ok tent (.mat tentRows) tentRows rfl (by simp [tentRows]) tent_proper tent_row
  have hlen : m.verts.length = 4 := by rw [hv]; rfl
  have d01 : edgeLen tent (0, 1) = 4 := by
    unfold edgeLen tent
    simp [Fin.sum_univ_three]
    rw [show (-2 - 2 : ℝ) ^ 2 = 4 ^ 2 by norm_num, Real.sqrt_sq (by norm_num)]
  have d03 : edgeLen tent (0, 3) ≤ 3 := by
    unfold edgeLen tent
    rw [Real.sqrt_le_left (by norm_num)]
    simp [Fin.sum_univ_three]
    norm_num
  have d32 : edgeLen tent (3, 2) ≤ 3 := by
    unfold edgeLen tent
    rw [Real.sqrt_le_left (by norm_num)]
    simp [Fin.sum_univ_three]
    norm_num
  have d02 : edgeLen tent (0, 2) ≤ 3 := by
    unfold edgeLen tent
    rw [Real.sqrt_le_left (by norm_num)]
    simp [Fin.sum_univ_three]
    norm_num
  have hvm : ∀ f ∈ m.faces, f.v ∈ tentRows := fun f h => hf ▸ List.mem_map_of_mem (f := fun f : Face => f.v) h
  have hin : ∀ v ∈ tentRows, ∃ f ∈ m.faces, f.v = v := by
    intro v h
    rw [← hf] at h
    obtain ⟨f, h1, h2⟩ := List.mem_map.1 h
    exact ⟨f, h1, h2⟩
  have hpart : ∀ f ∈ m.faces, f.v = (0, 1, 3) → isPart 3 m f = true ∧ m.len.getD f.e.1 0 = 4 := by
    intro f hfm hfv
    obtain ⟨a1, -, -⟩ := hj f hfm
    rw [hfv] at a1
    have : m.len.getD f.e.1 0 = 4 := by rw [hinv.len_get a1, edgeLen_dir, hv]; exact d01
    refine ⟨?_, this⟩
    unfold isPart isLong
    rw [this]
    simp
    left; left; norm_num
  refine ⟨shrinkStep 3 none m, ?_, ?_, ?_⟩
  · unfold shrinkFaceTri
    rw [h0]
    simp only [tentRows]
    rw [loop_one]
    obtain ⟨f, hfm, hfv⟩ := hin (0, 1, 3) (by simp [tentRows])
    obtain ⟨a1, -, -⟩ := hj f hfm
    refine ⟨4, ?_, by norm_num⟩
    rw [← (hpart f hfm hfv).2, hinv.len, List.getD_eq_getElem?_getD, List.getElem?_map, a1]
    exact List.mem_map_of_mem (List.mem_of_getElem? a1)
  · unfold dirUses
    refine List.sum_eq_zero fun x hx => ?_
    obtain ⟨v, hv', rfl⟩ := List.mem_map.1 hx
    obtain ⟨r, hr, rfl⟩ := List.mem_map.1 hv'
    obtain ⟨f', hf', rfl⟩ := List.mem_map.1 hr
    have hmid : ∀ k, k < m.edges.length → e2part 3 m k → 4 ≤ ePart 3 m k := by
      intro k hk h
      obtain ⟨r, -, -, h1, -⟩ := split_place 3 m k hk h
      omega
    rcases (mem_faces 3 m none f').1 hf' with ⟨f, hfk, rfl⟩ | ⟨q, f, hq, hcase⟩ | ⟨k, hk, h1, h2, rfl⟩
    · have h1 := hvm f (kept_mem hfk)
      have h2 : f.v ≠ (0, 1, 3) := by
        intro h
        have h3 := (List.mem_filter.1 hfk).2
        rw [(hpart f (kept_mem hfk) h).1] at h3
        cases h3
      show dirCount 3 0 f.v = 0
      simp only [tentRows, List.mem_cons, List.not_mem_nil, or_false] at h1
      rcases h1 with h1 | h1 | h1 | h1
      · rw [h1]; rfl
      · exact absurd h1 h2
      · rw [h1]; rfl
      · rw [h1]; rfl
    · obtain ⟨k1, k2, k3⟩ := part_e2part 3 m (List.mem_of_getElem? hq)
      obtain ⟨l1, l2, l3⟩ := hinv.face_lt (part_mem hq)
      have m1 := hmid _ l1 k1
      have m2 := hmid _ l2 k2
      have m3 := hmid _ l3 k3
      rcases hcase with rfl | rfl | rfl | rfl
      · show dirCount 3 0 (ePart 3 m f.e.1, ePart 3 m f.e.2.1, ePart 3 m f.e.2.2) = 0
        exact no_pass (by omega) (by omega) (by omega)
      · show dirCount 3 0 (ePart 3 m f.e.1, ePart 3 m f.e.2.2, f.v.1) = 0
        exact no_pass (by omega) (by omega) (by omega)
      · show dirCount 3 0 (ePart 3 m f.e.2.1, ePart 3 m f.e.1, f.v.2.1) = 0
        exact no_pass (by omega) (by omega) (by omega)
      · show dirCount 3 0 (ePart 3 m f.e.2.2, ePart 3 m f.e.2.1, f.v.2.2) = 0
        exact no_pass (by omega) (by omega) (by omega)
    · have hek := List.getElem?_eq_getElem hk
      have hvv := (joins_flat 3 m none k _ hek h1 h2).2
      have hlt := ((ht.2 m.edges[k].1 m.edges[k].2).1 (List.getElem_mem hk)).1
      have m1 := hmid _ hk h1
      show dirCount 3 0 (flatFace 3 m k).v = 0
      rw [hvv]
      exact no_pass (by omega) (by omega) (by omega)
  · obtain ⟨f, hfm, hfv⟩ := hin (0, 3, 2) (by simp [tentRows])
    have hk : f ∈ keptF 3 m := by
      refine List.mem_filter.2 ⟨hfm, ?_⟩
      obtain ⟨a1, a2, a3⟩ := hj f hfm
      rw [hfv] at a1 a2 a3
      rw [Bool.not_eq_true', isPart, Bool.or_eq_false_iff, Bool.or_eq_false_iff]
      simp only [isLong, decide_eq_false_iff_not, not_lt]
      refine ⟨⟨?_, ?_⟩, ?_⟩
      · rw [hinv.len_get a1, edgeLen_dir, hv]; exact d03
      · rw [hinv.len_get a2, edgeLen_dir, hv]; exact d32
      · rw [hinv.len_get a3, edgeLen_dir, hv]; exact d02
    have hmem : (0, 3, 2) ∈ (shrinkStep 3 none m).rows.map fun f => f.1 := by
      refine List.mem_map.2 ⟨_, List.mem_map.2 ⟨keptFace 3 m f, (mem_faces 3 m none _).2 (Or.inl ⟨f, hk, rfl⟩), rfl⟩, ?_⟩
      exact hfv
    refine lt_of_lt_of_le (by decide : 0 < dirCount 0 3 ((0, 3, 2) : Row)) ?_
    unfold dirUses
    exact List.single_le_sum (by simp) _ (List.mem_map.2 ⟨_, hmem, rfl⟩)

/-- Six times the volume between the triangle and the origin, with the sign of the orientation. -/
private def vol (t : Tria 3) : ℝ := triple t.1 t.2.1 t.2.2

private theorem vol_at (t : Tria 3) {x : Fin 3 → ℝ} (hx : x ∈ t.hull) : vol t = x 0 * t.plane 1 2 + x 1 * t.plane 2 0 + x 2 * t.plane 0 1 := by
  obtain ⟨α, β, γ, -, -, -, hs, rfl⟩ := (mem_hull t x).1 hx
  have hα : α = 1 - β - γ := by linarith
  subst hα
  simp only [vol, triple, Tria.plane, Pi.add_apply, Pi.smul_apply, Pi.sub_apply, smul_eq_mul]
  ring

private theorem fst_mem (t : Tria d) : t.1 ∈ t.hull := subset_convexHull ℝ _ (by simp)

private theorem vol_flat {t : Tria 3} (h : ∀ i j, t.plane i j = 0) : vol t = 0 := by
  rw [vol_at t (fst_mem t), h, h, h]; ring

private theorem vol_divides {t : Tria 3} {g : List (Tria 3)} (h : Divides t g) : (g.map vol).sum = vol t := by
  obtain ⟨h1, h2, h3⟩ := h
  have key : ∀ s ∈ g, ∃ r : ℝ, 0 < r ∧ s.area = r * t.area ∧ vol s = r * vol t := by
    intro s hs
    obtain ⟨r, hr, hp⟩ := h2 s hs
    refine ⟨r, hr, area_of_plane hr.le hp, ?_⟩
    have hx : s.1 ∈ t.hull := h1 ▸ Set.mem_biUnion hs (fst_mem s)
    rw [vol_at t hx, vol_at s (fst_mem s), hp, hp, hp]
    ring
  rcases eq_or_ne t.area 0 with h0 | h0
  · have hz : vol t = 0 := by
      refine vol_flat fun i j => ?_
      rw [area_plane, div_eq_zero_iff, or_iff_left (by norm_num), Real.sqrt_eq_zero (div_nonneg (Finset.sum_nonneg fun _ _ => Finset.sum_nonneg fun _ _ => sq_nonneg _) (by norm_num)), div_eq_zero_iff, or_iff_left (by norm_num),
        Finset.sum_eq_zero_iff_of_nonneg (fun _ _ => Finset.sum_nonneg fun _ _ => sq_nonneg _)] at h0
      have := (Finset.sum_eq_zero_iff_of_nonneg (fun _ _ => sq_nonneg _)).1 (h0 i (Finset.mem_univ i)) j (Finset.mem_univ j)
      exact pow_eq_zero_iff two_ne_zero |>.1 this
    rw [hz]
    refine List.sum_eq_zero fun x hx => ?_
    obtain ⟨s, hs, rfl⟩ := List.mem_map.1 hx
    obtain ⟨r, -, -, h⟩ := key s hs
    rw [h, hz, mul_zero]
  · have : g.map vol = g.map fun s => s.area * (vol t / t.area) := by
      refine List.map_congr_left fun s hs => ?_
      obtain ⟨r, -, ha, hv⟩ := key s hs
      rw [ha, hv]
      field_simp
    rw [this, List.sum_map_mul_right, h3]
    field_simp

private theorem vol_sub {T T' : List (Tria 3)} (h : IsSubdivision T T') : (T'.map vol).sum = (T.map vol).sum := by
  obtain ⟨G, flats, hp, hd, hf⟩ := h
  rw [(hp.map vol).sum_eq, List.map_append, List.sum_append]
  have h1 : (flats.map vol).sum = 0 := by
    refine List.sum_eq_zero fun x hx => ?_
    obtain ⟨s, hs, rfl⟩ := List.mem_map.1 hx
    exact vol_flat (hf s hs).1
  rw [h1, add_zero]
  clear hp hf h1
  induction hd with
  | nil => rfl
  | cons h _ ih => rw [List.flatten_cons, List.map_append, List.sum_append, ih, List.map_cons, List.sum_cons, vol_divides h]

/-- **C115** (volume): without an adjustment the sum of the triple products of the corners of the faces, which for a closed surface is six times
the volume inside, counted positively if the faces are seen from outside in counterclockwise order, does not change. -/
theorem C115_volume (argsort : List ℕ → List ℕ) (hsort : IsArgsort argsort) (fuel : ℕ) (verts : List (Fin 3 → ℝ)) (F : FMat)
    (rows : List Row) (hF : faceRows F = .ok rows) (hne : rows ≠ []) (hprop : ∀ f ∈ rows, Proper f) (hin : ∀ f ∈ rows, RowLt verts.length f)
    (maxLen : ℝ) (nMax : Option ℕ) (m : Mesh 3) (h : shrinkFaceTri argsort fuel verts F maxLen nMax none = .ok (some m)) :
    (m.rows.map fun f => triple (m.verts.getD f.1.1 0) (m.verts.getD f.1.2.1 0) (m.verts.getD f.1.2.2 0)).sum =
      (rows.map fun v => triple (verts.getD v.1 0) (verts.getD v.2.1 0) (verts.getD v.2.2 0)).sum := by
  have := vol_sub (C110 argsort hsort fuel verts F rows hF hne hprop hin maxLen nMax m h).1
  rw [List.map_map, List.map_map] at this
  exact this

/-- The tetrahedron refined to edges of length at most a tenth has the volume `4/6`. -/
example : ∃ fuel, ∃ m : Mesh 3, shrinkFaceTri stableArgsort fuel tent (.mat tentRows) (1 / 10) none none = .ok (some m) ∧
    (m.rows.map fun f => triple (m.verts.getD f.1.1 0) (m.verts.getD f.1.2.1 0) (m.verts.getD f.1.2.2 0)).sum = 4 := by
  obtain ⟨fuel, m, h1, -, -⟩ := C55_partial stableArgsort stableArgsort_ok tent (.mat tentRows) tentRows rfl (by simp [tentRows])
    tent_proper tent_row (by simp [tentRows]) (1 / 10) (by norm_num)
  refine ⟨fuel, m, h1 fuel le_rfl, ?_⟩
  rw [C115_volume stableArgsort stableArgsort_ok fuel tent _ _ rfl (by simp [tentRows]) tent_proper tent_row (1 / 10) none m (h1 fuel le_rfl)]
  simp [tentRows, tent, triple]
  norm_num

/-- The tetrahedron, every face split in every pass. -/
example (fuel n : ℕ) (adj : Option (List (Fin 3 → ℝ) → List (Fin 3 → ℝ))) (hadj : ∀ g ∈ adj, ∀ l, (g l).length = l.length) (m : Mesh 3)
    (h : shrinkFaceTri stableArgsort fuel tent (.mat tentRows) (-1) (some n) adj = .ok (some m)) :
    ∀ a b, dirUses (m.rows.map fun f => f.1) a b = dirUses (m.rows.map fun f => f.1) b a := by
  refine C115_partial stableArgsort stableArgsort_ok fuel tent (.mat tentRows) tentRows rfl (by simp [tentRows]) tent_proper tent_row (-1) (some n) adj hadj
    ?_ tent_closed m h
  obtain ⟨m0, h0, hinv, -⟩ := init_ok stableArgsort stableArgsort_ok tent (.mat tentRows) tentRows rfl (by simp [tentRows]) tent_proper tent_row
  intro m0' h0' i f hf f' hf' _ _
  rw [h0] at h0'
  injection h0' with h0'
  subst h0'
  obtain ⟨f', hff', rfl⟩ := List.mem_map.mp hf'
  exact Or.inl ⟨_, List.getElem?_eq_getElem ((inv_iter hadj i m0 hinv).face_lt hff').1, lt_of_lt_of_le (by norm_num) (Real.sqrt_nonneg _)⟩

private theorem sum_range_tele (g : ℕ → ℤ) : ∀ n, ((List.range n).map fun i => g (i + 1) - g i).sum = g n - g 0
  | 0 => by simp
  | n + 1 => by rw [List.range_succ, List.map_append, List.sum_append, sum_range_tele g n]; simp

private theorem sum_sub {α : Type} (l : List α) (f g : α → ℤ) : (l.map fun x => f x - g x).sum = (l.map f).sum - (l.map g).sum := by
  induction l with
  | nil => rfl
  | cons x l ih => simp only [List.map_cons, List.sum_cons, ih]; ring

private theorem ring_om (ne p : ℕ) (a b : ℤ) :
    (ringUses ne p a b : ℤ) - ringUses ne p b a = ((List.range ne).map fun i => om a b (ringPt ne p i) (ringPt ne p (i + 1))).sum := by
  unfold ringUses
  induction List.range ne with
  | nil => rfl
  | cons i l ih =>
    simp only [List.map_cons, List.sum_cons, Nat.cast_add, om] at ih ⊢
    rw [Nat.cast_ite, Nat.cast_ite, Nat.cast_one, Nat.cast_zero]
    linarith

private theorem sum_flat {α β : Type} (l : List α) (f : α → List β) (w : β → ℤ) : ((l.flatMap f).map w).sum = (l.map fun x => ((f x).map w).sum).sum := by
  induction l with
  | nil => rfl
  | cons x l ih => rw [List.flatMap_cons, List.map_append, List.sum_append, ih, List.map_cons, List.sum_cons]

/-- **C115** (tube): the triangles of a tube are consistently oriented: every side is passed equally often in both directions, except for the
sides of the first ring, passed once more in the direction of the ring, and the sides of the last ring, passed once more against it. -/
theorem C115_tube (ne np : ℕ) (hne : 1 ≤ ne) (hnp : 1 ≤ np) : ∃ l, ellTube2Tri ne np = .ok l ∧ ∀ a b,
    dirUses l a b + ringUses ne 0 b a + ringUses ne (np - 1) a b = dirUses l b a + ringUses ne 0 a b + ringUses ne (np - 1) b a := by
  obtain ⟨l, h, hp, -, -⟩ := C58 ne np hne hnp
  refine ⟨l, h, fun a b => ?_⟩
  have h1 := dirUses_om a b l
  rw [(hp.map _).sum_eq, sum_flat] at h1
  have h2 : ∀ p, (((List.range ne).flatMap fun i => quadTris ne p i).map fun v => om a b v.1 v.2.1 + om a b v.2.1 v.2.2 + om a b v.2.2 v.1).sum =
      -(((ringUses ne (p + 1) a b : ℤ) - ringUses ne (p + 1) b a) - ((ringUses ne p a b : ℤ) - ringUses ne p b a)) := by
    intro p
    rw [sum_flat, ring_om, ring_om]
    have h3 : ∀ i, ((quadTris ne p i).map fun v => om a b v.1 v.2.1 + om a b v.2.1 v.2.2 + om a b v.2.2 v.1).sum =
        om a b (ringPt ne p i) (ringPt ne p (i + 1)) - om a b (ringPt ne (p + 1) i) (ringPt ne (p + 1) (i + 1)) +
          (om a b (ringPt ne p (i + 1)) (ringPt ne (p + 1) (i + 1)) - om a b (ringPt ne p i) (ringPt ne (p + 1) i)) := by
      intro i
      simp only [quadTris, List.map_cons, List.map_nil, List.sum_cons, List.sum_nil]
      have := om_swap a b (ringPt ne (p + 1) (i + 1)) (ringPt ne p i)
      have := om_swap a b (ringPt ne (p + 1) (i + 1)) (ringPt ne (p + 1) i)
      have := om_swap a b (ringPt ne (p + 1) i) (ringPt ne p i)
      linarith
    simp only [h3]
    rw [List.sum_map_add, sum_range_tele (fun i => om a b (ringPt ne p i) (ringPt ne (p + 1) i)) ne, sum_sub]
    have h4 : ∀ q, ringPt ne q ne = ringPt ne q 0 := by intro q; simp [ringPt]
    rw [h4, h4]
    ring
  simp only [h2] at h1
  have h5 := sum_range_tele (fun p => -((ringUses ne p a b : ℤ) - ringUses ne p b a)) (np - 1)
  have h6 : ((List.range (np - 1)).map fun p => -(((ringUses ne (p + 1) a b : ℤ) - ringUses ne (p + 1) b a) - ((ringUses ne p a b : ℤ) - ringUses ne p b a))).sum =
      -((ringUses ne (np - 1) a b : ℤ) - ringUses ne (np - 1) b a) + ((ringUses ne 0 a b : ℤ) - ringUses ne 0 b a) := by
    rw [← sub_neg_eq_add, ← h5]
    congr 1
    refine List.map_congr_left fun p _ => ?_
    ring
  rw [h6] at h1
  omega

/-- Three rings of three points: the side from 3 to 4 in the middle ring is passed once in each direction, the side from 0 to 1 of the first ring
only in this one. -/
example : ∃ l, ellTube2Tri 3 3 = .ok l ∧ dirUses l 3 4 = 1 ∧ dirUses l 4 3 = 1 ∧ dirUses l 0 1 = 1 ∧ dirUses l 1 0 = 0 ∧ ringUses 3 0 0 1 = 1 :=
  ⟨_, rfl, by decide, by decide, by decide, by decide, by decide⟩

end Ellipy.Tri
