import Mathlib.Tactic.NormNum
import Verif.Proofs.TriShrink
import Verif.Props.TriFaceEdge

/-! Property theorems C54 and C55 (`shrink_face_tri`). -/

namespace Ellipy.Tri

variable {d : ℕ}

/-- The tables of a mesh, row by row. -/
def Mesh.rows (m : Mesh d) : List (Row × Row × (Bool × Bool × Bool)) := m.faces.map (fun f => (f.v, f.e, f.dir))

theorem table_inj {E : List (ℕ × ℕ)} {rows : List Row} (h : IsEdgeTable E rows) {i j : ℕ} {e : ℕ × ℕ} (hi : E[i]? = some e) (hj : E[j]? = some e) :
    i = j := by
  obtain ⟨hi', hi⟩ := List.getElem?_eq_some_iff.mp hi
  obtain ⟨hj', hj⟩ := List.getElem?_eq_some_iff.mp hj
  have hp := List.pairwise_iff_getElem.mp h.1
  rcases Nat.lt_trichotomy i j with hlt | heq | hlt
  · have := hp i j hi' hj' hlt
    rw [hi, hj] at this
    omega
  · exact heq
  · have := hp j i hj' hi' hlt
    rw [hi, hj] at this
    omega

theorem dirPair_cases (dd : Bool) (a b x y : ℕ) (h : dirPair dd a b = (x, y)) : (x = a ∧ y = b) ∨ (x = b ∧ y = a) := by
  cases dd <;> simp [dirPair] at h <;> omega

theorem table_dir {E : List (ℕ × ℕ)} {rows : List Row} (h : IsEdgeTable E rows) {i : ℕ} {b : Bool} {x y : ℕ} (hi : E[i]? = some (dirPair b x y))
    (hxy : x < y) : E[i]? = some (x, y) := by
  cases b
  · have h1 : y < x := ((h.2 y x).mp (List.mem_of_getElem? hi)).1
    omega
  · exact hi

/-- The mesh before the loop. -/
theorem init_ok (argsort : List ℕ → List ℕ) (hsort : IsArgsort argsort) (verts : List (Fin d → ℝ)) (F : FMat) (rows : List Row)
    (hF : faceRows F = .ok rows) (hne : rows ≠ []) (hprop : ∀ f ∈ rows, Proper f) (hin : ∀ f ∈ rows, RowLt verts.length f) :
    ∃ m : Mesh d, initMesh argsort verts F = .ok m ∧ Inv m ∧ (∀ f ∈ m.faces, Joins m.edges f.v f.e f.dir) ∧ m.verts = verts ∧
      m.faces.map (fun f => f.v) = rows ∧ IsEdgeTable m.edges rows := by
  obtain ⟨E, f2e, dd, h, ht, hl1, hl2, hj⟩ := C53 argsort hsort F rows hF hne hprop
  have hE : ∀ e ∈ E, e.1 < verts.length ∧ e.2 < verts.length := by
    rintro ⟨a, b⟩ he
    obtain ⟨-, v, hv, hs⟩ := (ht.2 a b).mp he
    have := hin v hv
    unfold IsSide at hs
    unfold RowLt at this
    simp only [List.mem_cons, List.not_mem_nil, or_false, Prod.mk.injEq] at hs
    omega
  set fs : List Face := (rows.zip (f2e.zip dd)).map (fun x => ⟨x.1, x.2.1, x.2.2⟩) with hfs
  have hget : ∀ (i : ℕ) (v : Row), rows[i]? = some v → ∃ e b, fs[i]? = some ⟨v, e, b⟩ ∧ Joins E v e b := by
    intro i v hv
    obtain ⟨e, b, h1, h2, h3⟩ := hj i v hv
    refine ⟨e, b, ?_, h3⟩
    have h4 : (rows.zip (f2e.zip dd))[i]? = some (v, e, b) := List.getElem?_zip_eq_some.mpr ⟨hv, List.getElem?_zip_eq_some.mpr ⟨h1, h2⟩⟩
    rw [hfs, List.getElem?_map, h4]
    rfl
  have hlen : fs.length = rows.length := by rw [hfs]; simp [hl1, hl2]
  have hmem : ∀ f ∈ fs, f.v ∈ rows ∧ Joins E f.v f.e f.dir := by
    intro f hf
    obtain ⟨i, hi, rfl⟩ := List.getElem_of_mem hf
    obtain ⟨e, b, h1, h2⟩ := hget i _ (List.getElem?_eq_getElem (hlen ▸ hi))
    rw [List.getElem?_eq_getElem hi] at h1
    injection h1 with h1
    rw [h1]
    exact ⟨List.getElem_mem _, h2⟩
  refine ⟨⟨verts, E, E.map (edgeLen verts), fs⟩, ?_, ⟨rfl, hE, fun f hf => hin _ (hmem f hf).1, fun f hf => ⟨f.v, (hmem f hf).2⟩, ?_⟩,
    fun f hf => (hmem f hf).2, rfl, ?_, ht⟩
  · unfold initMesh
    simp only [hF, h]
    rw [if_pos hE]
  · intro k hk
    have hk' : k < E.length := hk
    have hek := List.getElem?_eq_getElem hk'
    obtain ⟨hlt, v, hv, hs⟩ := (ht.2 E[k].1 E[k].2).mp (List.getElem_mem hk')
    obtain ⟨i, hi⟩ := List.getElem?_of_mem hv
    obtain ⟨e, b, h1, j1, j2, j3⟩ := hget i v hi
    refine ⟨⟨v, e, b⟩, List.mem_of_getElem? h1, ?_⟩
    have key : ∀ (j : ℕ) (b : Bool) (x y : ℕ), E[j]? = some (dirPair b x y) → ((E[k].1 = x ∧ E[k].2 = y) ∨ (E[k].1 = y ∧ E[k].2 = x)) → j = k := by
      intro j b x y hjj hxy
      refine table_inj ht (e := E[k]) ?_ hek
      have hE' : E[k] = (E[k].1, E[k].2) := rfl
      rcases hxy with ⟨hx, hy⟩ | ⟨hx, hy⟩
      · rw [hE', hx, hy]
        rw [hx, hy] at hlt
        exact table_dir ht hjj hlt
      · rw [hE', hx, hy]
        rw [hx, hy] at hlt
        refine table_dir (b := !b) ht ?_ hlt
        rw [hjj]
        cases b <;> rfl
    unfold IsSide at hs
    simp only [List.mem_cons, List.not_mem_nil, or_false, Prod.mk.injEq] at hs
    rcases hs with hs | hs | hs | hs | hs | hs
    · exact Or.inl (key _ _ _ _ j1 (Or.inl hs))
    · exact Or.inl (key _ _ _ _ j1 (Or.inr hs))
    · exact Or.inr (Or.inl (key _ _ _ _ j2 (Or.inl hs)))
    · exact Or.inr (Or.inl (key _ _ _ _ j2 (Or.inr hs)))
    · exact Or.inr (Or.inr (key _ _ _ _ j3 (Or.inl hs)))
    · exact Or.inr (Or.inr (key _ _ _ _ j3 (Or.inr hs)))
  · apply List.ext_getElem?
    intro i
    rw [List.getElem?_map]
    by_cases hi : i < rows.length
    · obtain ⟨e, b, h1, -⟩ := hget i _ (List.getElem?_eq_getElem hi)
      show Option.map _ fs[i]? = _
      rw [h1, List.getElem?_eq_getElem hi]
      rfl
    · rw [List.getElem?_eq_none (by show fs.length ≤ i; omega), List.getElem?_eq_none (by omega)]
      rfl

theorem run_cases (argsort) (fuel : ℕ) (verts : List (Fin d → ℝ)) (F : FMat) (maxLen : ℝ) (nMax : Option ℕ) (adj) (m' : Mesh d)
    (h : shrinkFaceTri argsort fuel verts F maxLen nMax adj = .ok (some m')) :
    ∃ m, initMesh argsort verts F = .ok m ∧ (m' = m ∨ shrinkLoop maxLen nMax adj fuel 1 m = some m') := by
  unfold shrinkFaceTri at h
  cases hi : initMesh argsort verts F with
  | error e => rw [hi] at h; cases h
  | ok m =>
    rw [hi] at h
    refine ⟨m, rfl, ?_⟩
    simp only at h
    split at h
    · split at h
      · cases h
      · injection h with h; injection h with h; exact Or.inl h.symm
    · injection h with h; exact Or.inr h

theorem inRange_of_inv {m : Mesh d} (h : Inv m) : InRange m.verts.length m.edges m.rows := by
  refine ⟨h.ends, ?_, ?_⟩
  · intro f hf
    obtain ⟨f, hff, rfl⟩ := List.mem_map.mp hf
    exact ⟨h.row f hff, h.face_lt hff⟩
  · intro k hk
    obtain ⟨f, hf, h1⟩ := h.used k hk
    exact ⟨_, List.mem_map.mpr ⟨f, hf, rfl⟩, h1⟩

/-- **C54**, partial: for every threshold, number of steps and adjustment that returns as many vertices as it is given, the tables of the
result refer to existing vertices and edges, every edge belongs to a face, and the three edges of a face with their directions are the
sides of some triangle.  Missing: that the vertices of this triangle are the row of the face table. -/
theorem C54_range_partial (argsort : List ℕ → List ℕ) (hsort : IsArgsort argsort) (fuel : ℕ) (verts : List (Fin d → ℝ)) (F : FMat)
    (rows : List Row) (hF : faceRows F = .ok rows) (hne : rows ≠ []) (hprop : ∀ f ∈ rows, Proper f) (hin : ∀ f ∈ rows, RowLt verts.length f)
    (maxLen : ℝ) (nMax : Option ℕ) (adj : Option (List (Fin d → ℝ) → List (Fin d → ℝ))) (hadj : ∀ g ∈ adj, ∀ l, (g l).length = l.length)
    (m : Mesh d) (h : shrinkFaceTri argsort fuel verts F maxLen nMax adj = .ok (some m)) :
    InRange m.verts.length m.edges m.rows ∧ ∀ f ∈ m.rows, ∃ g, Joins m.edges g f.2.1 f.2.2 := by
  obtain ⟨m0, h0, hinv, -⟩ := init_ok argsort hsort verts F rows hF hne hprop hin
  obtain ⟨m1, h1, h2⟩ := run_cases _ _ _ _ _ _ _ _ h
  rw [h0] at h1
  injection h1 with h1
  subst h1
  have hm : Inv m := by
    rcases h2 with rfl | h2
    · exact hinv
    · exact loop_inv Inv (fun m hm => hm.step maxLen hadj) _ _ _ _ hinv h2
  refine ⟨inRange_of_inv hm, fun f hf => ?_⟩
  obtain ⟨f, hff, rfl⟩ := List.mem_map.mp hf
  exact hm.ghost f hff

/-- **C54**, partial: without an adjustment every row of the tables is consistent, or it is consistent after an exchange of the first two
vertices of the face; the second case only occurs for faces with short edges. -/
theorem C54_partial (argsort : List ℕ → List ℕ) (hsort : IsArgsort argsort) (fuel : ℕ) (verts : List (Fin d → ℝ)) (F : FMat)
    (rows : List Row) (hF : faceRows F = .ok rows) (hne : rows ≠ []) (hprop : ∀ f ∈ rows, Proper f) (hin : ∀ f ∈ rows, RowLt verts.length f)
    (maxLen : ℝ) (nMax : Option ℕ) (m : Mesh d) (h : shrinkFaceTri argsort fuel verts F maxLen nMax none = .ok (some m)) :
    ∀ f ∈ m.rows, Joins m.edges f.1 f.2.1 f.2.2 ∨ (Joins m.edges (f.1.2.1, f.1.1, f.1.2.2) f.2.1 f.2.2 ∧
      pointDist m.verts f.1.1 f.1.2.1 ≤ maxLen ∧ pointDist m.verts f.1.1 f.1.2.2 ≤ maxLen ∧ pointDist m.verts f.1.2.1 f.1.2.2 ≤ maxLen) := by
  obtain ⟨m0, h0, hinv, hj, -⟩ := init_ok argsort hsort verts F rows hF hne hprop hin
  obtain ⟨m1, h1, h2⟩ := run_cases _ _ _ _ _ _ _ _ h
  rw [h0] at h1
  injection h1 with h1
  subst h1
  have hm : Inv m ∧ ∀ f ∈ m.faces, Joins m.edges f.v f.e f.dir ∨ Sliver maxLen m f := by
    rcases h2 with rfl | h2
    · exact ⟨hinv, fun f hf => Or.inl (hj f hf)⟩
    · exact loop_inv (fun m => Inv m ∧ ∀ f ∈ m.faces, Joins m.edges f.v f.e f.dir ∨ Sliver maxLen m f)
        (fun m hm => ⟨hm.1.step maxLen (by intro g hg; cases hg), step_sliver hm.1 hm.2⟩) _ _ _ _ ⟨hinv, fun f hf => Or.inl (hj f hf)⟩ h2
  intro f hf
  obtain ⟨f, hff, rfl⟩ := List.mem_map.mp hf
  rcases hm.2 f hff with h | ⟨h, hs⟩
  · exact Or.inl h
  · refine Or.inr ⟨h, ?_⟩
    simp only [isPart, Bool.or_eq_false_iff, isLong, decide_eq_false_iff_not, not_lt] at hs
    obtain ⟨j1, j2, j3⟩ := h
    obtain ⟨⟨s1, s2⟩, s3⟩ := hs
    rw [hm.1.len_get j1, edgeLen_dir] at s1
    rw [hm.1.len_get j2, edgeLen_dir] at s2
    rw [hm.1.len_get j3, edgeLen_dir] at s3
    refine ⟨?_, s2, s3⟩
    have : pointDist m.verts f.v.1 f.v.2.1 = edgeLen m.verts (f.v.2.1, f.v.1) := edgeLen_dir m.verts false f.v.2.1 f.v.1
    rw [this]
    exact s1

/-- The long edges of a mesh. -/
def LongEdge (maxLen : ℝ) (m : Mesh d) (k : ℕ) : Prop := ∃ e, m.edges[k]? = some e ∧ maxLen < pointDist m.verts e.1 e.2

/-- A face is split when one of its edges is long. -/
def LongFace (maxLen : ℝ) (m : Mesh d) (f : Row × Row × (Bool × Bool × Bool)) : Prop :=
  LongEdge maxLen m f.2.1.1 ∨ LongEdge maxLen m f.2.1.2.1 ∨ LongEdge maxLen m f.2.1.2.2

theorem isPart_iff {maxLen : ℝ} {m : Mesh d} (hm : Inv m) {f : Face} (hf : f ∈ m.faces) :
    isPart maxLen m f = true ↔ LongFace maxLen m (f.v, f.e, f.dir) := by
  have key : ∀ k, k < m.edges.length → (isLong maxLen m k = true ↔ LongEdge maxLen m k) := by
    intro k hk
    have he := List.getElem?_eq_getElem hk
    unfold isLong LongEdge
    rw [decide_eq_true_iff, hm.len_get he]
    constructor
    · intro h; exact ⟨_, he, h⟩
    · rintro ⟨e, h1, h2⟩
      rw [he] at h1
      injection h1 with h1
      rw [h1]; exact h2
  obtain ⟨l1, l2, l3⟩ := hm.face_lt hf
  unfold isPart LongFace
  rw [Bool.or_eq_true, Bool.or_eq_true, key _ l1, key _ l2, key _ l3, or_assoc]

/-- **C54**, partial: for every adjustment, if in every pass the faces with a common edge are all split or all left, then the tables of the
result are consistent. -/
theorem C54_uniform_partial (argsort : List ℕ → List ℕ) (hsort : IsArgsort argsort) (fuel : ℕ) (verts : List (Fin d → ℝ)) (F : FMat)
    (rows : List Row) (hF : faceRows F = .ok rows) (hne : rows ≠ []) (hprop : ∀ f ∈ rows, Proper f) (hin : ∀ f ∈ rows, RowLt verts.length f)
    (maxLen : ℝ) (nMax : Option ℕ) (adj : Option (List (Fin d → ℝ) → List (Fin d → ℝ))) (hadj : ∀ g ∈ adj, ∀ l, (g l).length = l.length)
    (hall : ∀ m0, initMesh argsort verts F = .ok m0 → ∀ i, ∀ f ∈ ((shrinkStep maxLen adj)^[i] m0).rows, ∀ f' ∈ ((shrinkStep maxLen adj)^[i] m0).rows,
      (∃ k, (f.2.1.1 = k ∨ f.2.1.2.1 = k ∨ f.2.1.2.2 = k) ∧ (f'.2.1.1 = k ∨ f'.2.1.2.1 = k ∨ f'.2.1.2.2 = k)) →
      LongFace maxLen ((shrinkStep maxLen adj)^[i] m0) f → LongFace maxLen ((shrinkStep maxLen adj)^[i] m0) f')
    (m : Mesh d) (h : shrinkFaceTri argsort fuel verts F maxLen nMax adj = .ok (some m)) :
    ∀ f ∈ m.rows, Joins m.edges f.1 f.2.1 f.2.2 := by
  obtain ⟨m0, h0, hinv, hj, -⟩ := init_ok argsort hsort verts F rows hF hne hprop hin
  obtain ⟨m1, h1, h2⟩ := run_cases _ _ _ _ _ _ _ _ h
  rw [h0] at h1
  injection h1 with h1
  subst h1
  have hm : ∀ f ∈ m.faces, Joins m.edges f.v f.e f.dir := by
    rcases h2 with rfl | h2
    · exact hj
    · refine (loop_inv (fun m => (∃ i, m = (shrinkStep maxLen adj)^[i] m0) ∧ Inv m ∧ ∀ f ∈ m.faces, Joins m.edges f.v f.e f.dir)
        (fun m hm => ?_) _ _ _ _ ⟨⟨0, rfl⟩, hinv, hj⟩ h2).2.2
      obtain ⟨⟨i, hi⟩, hm, hmj⟩ := hm
      refine ⟨⟨i + 1, by rw [hi, Function.iterate_succ_apply']⟩, hm.step maxLen hadj, step_joins hmj ?_⟩
      intro k hk h1 h2
      obtain ⟨q, f, hf, hfk⟩ := hm.split_on maxLen hk h1
      unfold eKept at h2
      obtain ⟨f', hf', hfk'⟩ := (onFaces_iff _ _).mp h2
      have hl := (isPart_iff hm (part_mem hf)).mp (List.mem_filter.mp (List.mem_of_getElem? hf)).2
      have hl' := hall m0 h0 i (f.v, f.e, f.dir) (List.mem_map.mpr ⟨f, hi ▸ part_mem hf, rfl⟩) (f'.v, f'.e, f'.dir)
        (List.mem_map.mpr ⟨f', hi ▸ kept_mem hf', rfl⟩) ⟨k, hfk, hfk'⟩ (hi ▸ hl)
      have := (isPart_iff hm (kept_mem hf')).mpr (hi ▸ hl')
      have h3 := (List.mem_filter.mp hf').2
      rw [this] at h3
      cases h3
  intro f hf
  obtain ⟨f, hff, rfl⟩ := List.mem_map.mp hf
  exact hm f hff

/-- A split edge at a face that is not split makes the tables inconsistent. -/
theorem flat_bad {m : Mesh d} (hm : Inv m) {maxLen : ℝ} {adj} {k : ℕ} (hk : k < m.edges.length) (h1 : e2part maxLen m k) (h2 : eKept maxLen m k) :
    ∃ f ∈ (shrinkStep maxLen adj m).rows, ¬ Joins (shrinkStep maxLen adj m).edges f.1 f.2.1 f.2.2 := by
  refine ⟨_, List.mem_map.mpr ⟨flatFace maxLen m k, (mem_faces maxLen m adj _).mpr (Or.inr (Or.inr ⟨k, hk, h1, h2, rfl⟩)), rfl⟩, ?_⟩
  obtain ⟨⟨j1, -, -⟩, hv⟩ := joins_flat maxLen m adj k _ (List.getElem?_eq_getElem hk) h1 h2
  rintro ⟨i1, -, -⟩
  simp only [hv] at i1
  rw [j1] at i1
  injection i1 with i1
  simp only [flatFace, dirPair, if_true, Prod.mk.injEq] at i1
  have h3 := (hm.ends _ (List.getElem_mem hk)).1
  obtain ⟨r, -, -, h4, -⟩ := split_place maxLen m k hk h1
  omega

/-- The vertices of two triangles with a short common side; only the first triangle has long sides. -/
noncomputable def kite : List (Fin 2 → ℝ) := [![0, 0], ![1, 0], ![0, 10], ![0, -1]]

theorem kite_init : ∃ m : Mesh 2, initMesh stableArgsort kite (.mat [(0, 1, 2), (0, 1, 3)]) = .ok m ∧ Inv m ∧
    (∀ f ∈ m.faces, Joins m.edges f.v f.e f.dir) ∧ m.verts = kite ∧ m.faces.map (fun f => f.v) = [(0, 1, 2), (0, 1, 3)] ∧
    IsEdgeTable m.edges [(0, 1, 2), (0, 1, 3)] :=
  init_ok stableArgsort stableArgsort_ok kite (.mat [(0, 1, 2), (0, 1, 3)]) [(0, 1, 2), (0, 1, 3)] rfl (by simp)
    (by intro f hf; simp at hf; rcases hf with rfl | rfl <;> simp [Proper])
    (by intro f hf; simp at hf; rcases hf with rfl | rfl <;> simp [RowLt, kite])

theorem loop_one {maxLen : ℝ} {adj} {m : Mesh d} (h : ∃ x ∈ m.len, maxLen < x) :
    shrinkLoop maxLen (some 1) adj 2 1 m = some (shrinkStep maxLen adj m) := by
  rw [shrinkLoop, if_pos ⟨h, by simp⟩, shrinkLoop, if_neg]
  rintro ⟨-, hn⟩
  simp at hn

/-- **C54** fails: when one of two adjacent triangles is split, the flat triangle at their common side has its vertices in an order that
does not fit its edges. -/
theorem C54_violated : ∃ m : Mesh 2, shrinkFaceTri stableArgsort 2 kite (.mat [(0, 1, 2), (0, 1, 3)]) 2 (some 1) none = .ok (some m) ∧
    ∃ f ∈ m.rows, ¬ Joins m.edges f.1 f.2.1 f.2.2 := by
  obtain ⟨m, h0, hinv, hj, hv, hf, ht⟩ := kite_init
  obtain ⟨f1, f2, hfs, hv1, hv2⟩ : ∃ f1 f2, m.faces = [f1, f2] ∧ f1.v = (0, 1, 2) ∧ f2.v = (0, 1, 3) := by
    match hm : m.faces with
    | [f1, f2] =>
      rw [hm] at hf
      simp at hf
      exact ⟨f1, f2, rfl, hf.1, hf.2⟩
    | [] => rw [hm] at hf; simp at hf
    | [f1] => rw [hm] at hf; simp at hf
    | f1 :: f2 :: f3 :: l => rw [hm] at hf; simp at hf
  obtain ⟨a1, a2, a3⟩ := hj f1 (by rw [hfs]; simp)
  obtain ⟨b1, b2, b3⟩ := hj f2 (by rw [hfs]; simp)
  rw [hv1] at a1 a2 a3
  rw [hv2] at b1 b2 b3
  have hsame : f1.e.1 = f2.e.1 := by
    refine table_inj ht (e := (0, 1)) ?_ ?_
    · exact table_dir ht a1 (by norm_num)
    · exact table_dir ht b1 (by norm_num)
  have l02 : m.len.getD f1.e.2.2 0 = 10 := by
    rw [hinv.len_get a3, edgeLen_dir, hv]
    unfold edgeLen kite
    simp
  have lb1 : m.len.getD f2.e.1 0 = 1 := by
    rw [hinv.len_get b1, edgeLen_dir, hv]
    unfold edgeLen kite
    simp
  have lb2 : m.len.getD f2.e.2.1 0 ≤ 2 := by
    rw [hinv.len_get b2, edgeLen_dir, hv]
    unfold edgeLen kite
    rw [Real.sqrt_le_left (by norm_num)]
    simp [Fin.sum_univ_two]
    norm_num
  have lb3 : m.len.getD f2.e.2.2 0 = 1 := by
    rw [hinv.len_get b3, edgeLen_dir, hv]
    unfold edgeLen kite
    simp
  have hpart1 : isPart 2 m f1 = true := by
    unfold isPart isLong
    rw [l02]
    simp
    right; norm_num
  have hpart2 : isPart 2 m f2 = false := by
    simp only [isPart, Bool.or_eq_false_iff, isLong, decide_eq_false_iff_not, not_lt]
    exact ⟨⟨by rw [lb1]; norm_num, lb2⟩, by rw [lb3]; norm_num⟩
  have hp1 : f1 ∈ partF 2 m := List.mem_filter.mpr ⟨by rw [hfs]; simp, hpart1⟩
  have hp2 : f2 ∈ keptF 2 m := List.mem_filter.mpr ⟨by rw [hfs]; simp, by rw [hpart2]; rfl⟩
  refine ⟨shrinkStep 2 none m, ?_, flat_bad hinv (k := f1.e.1) (get_lt a1) (part_e2part 2 m hp1).1 ?_⟩
  · unfold shrinkFaceTri
    rw [h0]
    simp only
    rw [loop_one]
    refine ⟨10, ?_, by norm_num⟩
    rw [← l02, hinv.len]
    rw [List.getD_eq_getElem?_getD, List.getElem?_map, a3]
    exact List.mem_map_of_mem (List.mem_of_getElem? a3)
  · rw [hsame]; exact (kept_eKept 2 m hp2).1

/-- A single triangle: its tables before the loop are consistent. -/
example : ∃ m : Mesh 2, shrinkFaceTri stableArgsort 1 kite (.vec (0, 1, 2)) 20 none none = .ok (some m) ∧
    ∀ f ∈ m.rows, Joins m.edges f.1 f.2.1 f.2.2 ∨ (Joins m.edges (f.1.2.1, f.1.1, f.1.2.2) f.2.1 f.2.2 ∧
      pointDist m.verts f.1.1 f.1.2.1 ≤ 20 ∧ pointDist m.verts f.1.1 f.1.2.2 ≤ 20 ∧ pointDist m.verts f.1.2.1 f.1.2.2 ≤ 20) := by
  have hp : ∀ f ∈ [((0, 1, 2) : Row)], Proper f := by intro f hf; simp at hf; subst hf; simp [Proper]
  have hr : ∀ f ∈ [((0, 1, 2) : Row)], RowLt kite.length f := by intro f hf; simp at hf; subst hf; simp [RowLt, kite]
  obtain ⟨m, h0, hinv, hj, hv, hf, ht⟩ := init_ok stableArgsort stableArgsort_ok kite (.vec (0, 1, 2)) [(0, 1, 2)] rfl (by simp) hp hr
  have hrun : shrinkFaceTri stableArgsort 1 kite (.vec (0, 1, 2)) 20 none none = .ok (some m) := by
    unfold shrinkFaceTri
    rw [h0]
    simp only
    rw [shrinkLoop, if_neg]
    rintro ⟨⟨x, hx, hlt⟩, -⟩
    rw [hinv.len] at hx
    obtain ⟨⟨a, b⟩, he, rfl⟩ := List.mem_map.mp hx
    obtain ⟨-, v, hv', hs⟩ := (ht.2 a b).mp he
    simp at hv'
    subst hv'
    refine absurd hlt (not_lt.mpr ?_)
    rw [hv]
    unfold edgeLen
    rw [Real.sqrt_le_left (by norm_num)]
    simp only [IsSide, List.mem_cons, List.not_mem_nil, or_false, Prod.mk.injEq] at hs
    rcases hs with ⟨rfl, rfl⟩ | ⟨rfl, rfl⟩ | ⟨rfl, rfl⟩ | ⟨rfl, rfl⟩ | ⟨rfl, rfl⟩ | ⟨rfl, rfl⟩ <;>
      simp [Fin.sum_univ_two, kite] <;> norm_num
  exact ⟨m, hrun, C54_partial stableArgsort stableArgsort_ok 1 kite _ _ rfl (by simp) hp hr 20 none m hrun⟩

/-- Three uniform refinements of a triangle, with the new vertices moved by some function. -/
example (g : (Fin 2 → ℝ) → (Fin 2 → ℝ)) : ∃ m : Mesh 2, shrinkFaceTri stableArgsort 5 kite (.vec (0, 1, 2)) (-1) (some 3) (some (List.map g)) = .ok (some m) ∧
    ∀ f ∈ m.rows, Joins m.edges f.1 f.2.1 f.2.2 := by
  have hp : ∀ f ∈ [((0, 1, 2) : Row)], Proper f := by intro f hf; simp at hf; subst hf; simp [Proper]
  have hr : ∀ f ∈ [((0, 1, 2) : Row)], RowLt kite.length f := by intro f hf; simp at hf; subst hf; simp [RowLt, kite]
  have hk : ∀ g' ∈ some (List.map g), ∀ l, (g' l).length = l.length := by
    intro g' hg l; simp at hg; subst hg; simp
  obtain ⟨m0, h0, hinv, hj, hv, hf, ht⟩ := init_ok stableArgsort stableArgsort_ok kite (.vec (0, 1, 2)) [(0, 1, 2)] rfl (by simp) hp hr
  have hi := fun i => inv_iter (maxLen := -1) hk i m0 hinv
  have hpos : ∀ (V : List (Fin 2 → ℝ)) (e : ℕ × ℕ), -1 < pointDist V e.1 e.2 := fun V e => lt_of_lt_of_le (by norm_num) (Real.sqrt_nonneg _)
  have hrun : shrinkFaceTri stableArgsort 5 kite (.vec (0, 1, 2)) (-1) (some 3) (some (List.map g)) = .ok (some ((shrinkStep (-1) (some (List.map g)))^[3] m0)) := by
    unfold shrinkFaceTri
    rw [h0]
    simp only
    rw [show (some 3 : Option ℕ) = some (0 + 3) from rfl, loop_iter 3 0 5 m0 _ (by norm_num)]
    intro j _
    have hne : ((shrinkStep (-1) (some (List.map g)))^[j] m0).faces ≠ [] := by
      induction j with
      | zero => intro h; simp only [Function.iterate_zero, id_eq] at h; rw [h] at hf; cases hf
      | succ j ih =>
        rw [Function.iterate_succ_apply']
        set m := (shrinkStep (-1) (some (List.map g)))^[j] m0 with hm
        obtain ⟨f, hf⟩ := List.exists_mem_of_ne_nil _ (ih (by omega))
        obtain ⟨q, hq⟩ := List.getElem?_of_mem (List.mem_filter.mpr ⟨hf, (isPart_iff (maxLen := -1) (hi j) hf).mpr (Or.inl
          ⟨_, List.getElem?_eq_getElem ((hi j).face_lt hf).1, hpos _ _⟩)⟩)
        exact List.ne_nil_of_mem ((mem_faces (-1) m (some (List.map g)) (innerFace (-1) m q f)).mpr (Or.inr (Or.inl ⟨q, f, hq, Or.inl rfl⟩)))
    obtain ⟨f, hf⟩ := List.exists_mem_of_ne_nil _ hne
    refine ⟨_, ?_, hpos ((shrinkStep (-1) (some (List.map g)))^[j] m0).verts (((shrinkStep (-1) (some (List.map g)))^[j] m0).edges[f.e.1]'((hi j).face_lt hf).1)⟩
    rw [(hi j).len]
    exact List.mem_map_of_mem (f := edgeLen _) (List.getElem_mem _)
  refine ⟨_, hrun, C54_uniform_partial stableArgsort stableArgsort_ok 5 kite _ _ rfl (by simp) hp hr (-1) (some 3) _ hk ?_ _ hrun⟩
  intro m0' h0' i f hf f' hf' _ _
  rw [h0] at h0'
  injection h0' with h0'
  subst h0'
  obtain ⟨f', hff', rfl⟩ := List.mem_map.mp hf'
  exact Or.inl ⟨_, List.getElem?_eq_getElem ((hi i).face_lt hff').1, hpos _ _⟩

/-- **C55**, partial: with a positive threshold, no step limit and no adjustment the refinement stops, and no edge of the result is longer
than the threshold.  Missing: a matrix with a single row, for which the function raises an exception when an edge is long. -/
theorem C55_partial (argsort : List ℕ → List ℕ) (hsort : IsArgsort argsort) (verts : List (Fin d → ℝ)) (F : FMat)
    (rows : List Row) (hF : faceRows F = .ok rows) (hne : rows ≠ []) (hprop : ∀ f ∈ rows, Proper f) (hin : ∀ f ∈ rows, RowLt verts.length f)
    (hrow : ∀ r, F ≠ .mat [r]) (maxLen : ℝ) (hpos : 0 < maxLen) :
    ∃ fuel0, ∃ m : Mesh d, (∀ fuel ≥ fuel0, shrinkFaceTri argsort fuel verts F maxLen none none = .ok (some m)) ∧
      (∀ e ∈ m.edges, pointDist m.verts e.1 e.2 ≤ maxLen) ∧
      ∀ f ∈ m.rows, pointDist m.verts f.1.1 f.1.2.1 ≤ maxLen ∧ pointDist m.verts f.1.2.1 f.1.2.2 ≤ maxLen ∧ pointDist m.verts f.1.1 f.1.2.2 ≤ maxLen := by
  obtain ⟨m0, h0, hinv, hj, -⟩ := init_ok argsort hsort verts F rows hF hne hprop hin
  obtain ⟨M, hM⟩ : ∃ M, ∀ x ∈ m0.len, x ≤ M := by
    refine ⟨(m0.len.map (fun x => |x|)).sum, fun x hx => (le_abs_self x).trans ?_⟩
    refine List.single_le_sum ?_ _ (List.mem_map_of_mem hx)
    intro y hy
    obtain ⟨z, -, rfl⟩ := List.mem_map.mp hy
    exact abs_nonneg _
  obtain ⟨K, hK⟩ : ∃ K : ℕ, M / 2 ^ K ≤ maxLen := by
    obtain ⟨K, hK⟩ := pow_unbounded_of_one_lt (M / maxLen) (by norm_num : (1 : ℝ) < 2)
    refine ⟨K, ?_⟩
    rw [div_lt_iff₀ hpos] at hK
    rw [div_le_iff₀ (by positivity)]
    linarith
  have hrun : ∀ fuel, shrinkFaceTri argsort fuel verts F maxLen none none = .ok (shrinkLoop maxLen none none fuel 1 m0) := by
    intro fuel
    unfold shrinkFaceTri
    rw [h0]
    simp only
  have hmono : ∀ (fuel i : ℕ) (m m' : Mesh d), shrinkLoop maxLen none none fuel i m = some m' → ∀ fuel' ≥ fuel, shrinkLoop maxLen none none fuel' i m = some m' := by
    intro fuel
    induction fuel with
    | zero => intro i m m' h; simp [shrinkLoop] at h
    | succ fuel ih =>
      intro i m m' h fuel' hf
      obtain ⟨g, rfl⟩ : ∃ g, fuel' = g + 1 := ⟨fuel' - 1, by omega⟩
      rw [shrinkLoop] at h ⊢
      split at h
      · rename_i hc
        rw [if_pos hc]
        exact ih _ _ _ h g (by omega)
      · rename_i hc
        rw [if_neg hc]
        exact h
  obtain ⟨m, hm⟩ := loop_ends hpos.le K 1 m0 hinv M (fun x hx => (hM x hx).trans (le_max_right _ _)) hK (K + 1) (by omega)
  have hmi := loop_inv (fun m => Inv m ∧ ∀ f ∈ m.faces, Joins m.edges f.v f.e f.dir ∨ Sliver maxLen m f)
        (fun m hm => ⟨hm.1.step maxLen (by intro g hg; cases hg), step_sliver hm.1 hm.2⟩) _ _ _ _ ⟨hinv, fun f hf => Or.inl (hj f hf)⟩ hm
  have hstop := loop_stop _ _ _ _ hm rfl
  have hshort : ∀ e ∈ m.edges, pointDist m.verts e.1 e.2 ≤ maxLen := by
    intro e he
    exact hstop (edgeLen m.verts e) (by rw [hmi.1.len]; exact List.mem_map_of_mem he)
  have hsymm : ∀ i j, pointDist m.verts i j = pointDist m.verts j i := fun i j => edgeLen_dir m.verts false j i
  have hside : ∀ (k : ℕ) (dd : Bool) (i j : ℕ), m.edges[k]? = some (dirPair dd i j) → pointDist m.verts i j ≤ maxLen := by
    intro k dd i j hk
    have := hshort _ (List.mem_of_getElem? hk)
    cases dd
    · rw [hsymm]; exact this
    · exact this
  refine ⟨K + 1, m, fun fuel hf => ?_, hshort, ?_⟩
  · rw [hrun, hmono _ _ _ _ hm fuel hf]
  · intro f hf
    obtain ⟨f, hff, rfl⟩ := List.mem_map.mp hf
    rcases hmi.2 f hff with ⟨j1, j2, j3⟩ | ⟨⟨j1, j2, j3⟩, -⟩
    · exact ⟨hside _ _ _ _ j1, hside _ _ _ _ j2, hside _ _ _ _ j3⟩
    · exact ⟨by rw [hsymm]; exact hside _ _ _ _ j1, hside _ _ _ _ j3, hside _ _ _ _ j2⟩

/-- **C55** fails for a face matrix with a single row: the first pass raises an exception. -/
theorem C55_violated (fuel : ℕ) : Raises (shrinkFaceTri stableArgsort fuel kite (.mat [(0, 1, 2)]) 2 none none) := by
  have hp : ∀ f ∈ [((0, 1, 2) : Row)], Proper f := by intro f hf; simp at hf; subst hf; simp [Proper]
  have hr : ∀ f ∈ [((0, 1, 2) : Row)], RowLt kite.length f := by intro f hf; simp at hf; subst hf; simp [RowLt, kite]
  obtain ⟨m, h0, hinv, hj, hv, hf, ht⟩ := init_ok stableArgsort stableArgsort_ok kite (.mat [(0, 1, 2)]) [(0, 1, 2)] rfl (by simp) hp hr
  refine ⟨.indexError, ?_⟩
  unfold shrinkFaceTri
  rw [h0]
  simp only
  rw [if_pos]
  refine ⟨⟨10, ?_, by norm_num⟩, by simp⟩
  rw [hinv.len, List.mem_map]
  refine ⟨(0, 2), (ht.2 0 2).mpr ⟨by norm_num, _, List.mem_singleton.mpr rfl, by simp [IsSide]⟩, ?_⟩
  rw [hv]
  unfold edgeLen kite
  simp

/-- The two triangles of the kite. -/
example : ∃ fuel, ∃ m : Mesh 2, shrinkFaceTri stableArgsort fuel kite (.mat [(0, 1, 2), (0, 1, 3)]) (1 / 100) none none = .ok (some m) ∧
    ∀ e ∈ m.edges, pointDist m.verts e.1 e.2 ≤ 1 / 100 := by
  obtain ⟨fuel, m, h1, h2, -⟩ := C55_partial stableArgsort stableArgsort_ok kite (.mat [(0, 1, 2), (0, 1, 3)]) [(0, 1, 2), (0, 1, 3)] rfl (by simp)
    (by intro f hf; simp at hf; rcases hf with rfl | rfl <;> simp [Proper])
    (by intro f hf; simp at hf; rcases hf with rfl | rfl <;> simp [RowLt, kite]) (by simp) (1 / 100) (by norm_num)
  exact ⟨fuel, m, h1 fuel le_rfl, h2⟩

end Ellipy.Tri
