import Verif.Model.TriStats
import Verif.Props.TriShrink

/-! Property theorem C107 (the statistics of `shrink_face_tri`). -/

namespace Ellipy.Tri

variable {d : ℕ}

/-- The entries of a statistic. -/
def Stat.entries : Stat → List ℕ
  | .num a => [a]
  | .vec l => l

private theorem entries_append (s : Stat) (n : ℕ) : (s.append n).entries = s.entries ++ [n] := by
  cases s <;> rfl

theorem npMaxL_ge (l : List ℝ) : ∀ x ∈ l, x ≤ npMaxL l := by
  have key : ∀ (l : List ℝ) (a : ℝ), a ≤ l.foldl max a ∧ ∀ x ∈ l, x ≤ l.foldl max a := by
    intro l
    induction l with
    | nil => intro a; simp
    | cons b l ih =>
      intro a
      obtain ⟨h1, h2⟩ := ih (max a b)
      refine ⟨(le_max_left a b).trans h1, fun x hx => ?_⟩
      rcases List.mem_cons.1 hx with rfl | hx
      · exact (le_max_right a x).trans h1
      · exact h2 x hx
  cases l with
  | nil => simp
  | cons a l =>
    intro x hx
    rcases List.mem_cons.1 hx with rfl | hx
    · exact (key l x).1
    · exact (key l a).2 x hx

theorem npMaxL_mem (l : List ℝ) (h : l ≠ []) : npMaxL l ∈ l := by
  have key : ∀ (l : List ℝ) (a : ℝ), l.foldl max a ∈ a :: l := by
    intro l
    induction l with
    | nil => intro a; simp
    | cons b l ih =>
      intro a
      have h1 := ih (max a b)
      rcases List.mem_cons.1 h1 with h1 | h1
      · rw [List.foldl_cons, h1]
        rcases max_choice a b with h2 | h2 <;> rw [h2] <;> simp
      · exact List.mem_cons_of_mem _ (List.mem_cons_of_mem _ h1)
  cases l with
  | nil => exact absurd rfl h
  | cons a l => exact key l a

private theorem countP_two {α : Type} (p q : α → Bool) (l : List α) (h : ∀ x ∈ l, p x = true ∨ q x = true) :
    l.countP p + l.countP q = l.length + l.countP (fun x => p x && q x) := by
  induction l with
  | nil => rfl
  | cons a l ih =>
    have h1 := ih fun x hx => h x (List.mem_cons_of_mem _ hx)
    have h2 := h a (by simp)
    rw [List.countP_cons, List.countP_cons, List.countP_cons, List.length_cons]
    rcases hp : p a <;> rcases hq : q a <;> simp_all <;> omega

/-- A pass keeps the number of vertices minus the number of edges plus the number of faces. -/
theorem Inv.euler {m : Mesh d} (hm : Inv m) (maxLen : ℝ) {adj} (hadj : KeepsLength adj) :
    (shrinkStep maxLen adj m).verts.length = m.verts.length + (List.range m.edges.length).countP (e2part maxLen m) ∧
    (shrinkStep maxLen adj m).verts.length + (shrinkStep maxLen adj m).faces.length + m.edges.length =
      (shrinkStep maxLen adj m).edges.length + (m.verts.length + m.faces.length) := by
  have hP : (splitE maxLen m).length = (List.range m.edges.length).countP (e2part maxLen m) := mask_length _ _
  have hV : (shrinkStep maxLen adj m).verts.length = m.verts.length + (splitE maxLen m).length := newVerts_length maxLen m hadj
  have hE : (shrinkStep maxLen adj m).edges.length =
      (List.range m.edges.length).countP (eKept maxLen m) + (3 * (partF maxLen m).length + 2 * (splitE maxLen m).length) := by
    show (edges0 maxLen m ++ (e1New maxLen m ++ e2New maxLen m)).length = _
    rw [List.length_append, List.length_append, e1_len, e2_len, edges0, mask_length]
  have hF : (shrinkStep maxLen adj m).faces.length = (keptF maxLen m).length + 4 * (partF maxLen m).length + (broken maxLen m).length := by
    show (keptF' maxLen m ++ (f1New maxLen m ++ (f2New maxLen m ++ f3New maxLen m))).length = _
    simp only [keptF', f1New, f2New, f3New, List.length_append, List.length_map, List.length_zipIdx]
    omega
  have hB : (broken maxLen m).length = (List.range m.edges.length).countP (fun k => e2part maxLen m k && eKept maxLen m k) := by
    rw [broken, ← List.countP_eq_length_filter]
  have hS : (partF maxLen m).length + (keptF maxLen m).length = m.faces.length := by
    have := List.length_eq_countP_add_countP (isPart maxLen m) (l := m.faces)
    rw [partF, keptF, ← List.countP_eq_length_filter, ← List.countP_eq_length_filter, this]
    congr 2
    funext f
    cases isPart maxLen m f <;> rfl
  have hC := countP_two (e2part maxLen m) (eKept maxLen m) (List.range m.edges.length) (by
    intro k hk
    obtain ⟨f, hf, hfk⟩ := hm.used k (List.mem_range.1 hk)
    cases hp : isPart maxLen m f with
    | true =>
      have := part_e2part maxLen m (List.mem_filter.2 ⟨hf, hp⟩)
      rcases hfk with rfl | rfl | rfl
      · exact Or.inl this.1
      · exact Or.inl this.2.1
      · exact Or.inl this.2.2
    | false =>
      have := kept_eKept maxLen m (f := f) (List.mem_filter.2 ⟨hf, by rw [hp]; rfl⟩)
      rcases hfk with rfl | rfl | rfl
      · exact Or.inr this.1
      · exact Or.inr this.2.1
      · exact Or.inr this.2.2)
  rw [List.length_range] at hC
  omega

private theorem range_map_snoc {α : Type} (f : ℕ → α) (k : ℕ) : (List.range (k + 1)).map f = (List.range k).map f ++ [f k] := by
  rw [List.range_succ, List.map_append]; rfl

/-- The loop with statistics. -/
private theorem loopStat {maxLen : ℝ} {nMax : Option ℕ} {adj} (m0 : Mesh d) (fuel i : ℕ) (s : Stats) (m' : Mesh d) (s' : Stats)
    (h : shrinkLoopStat maxLen nMax adj fuel (i + 1) ((shrinkStep maxLen adj)^[i] m0) s = some (m', s'))
    (hlong : ∀ j < i, (∃ x ∈ ((shrinkStep maxLen adj)^[j] m0).len, maxLen < x) ∧ ∀ n ∈ nMax, j < n)
    (h1 : s.nVert.entries = (List.range (i + 1)).map fun j => ((shrinkStep maxLen adj)^[j] m0).verts.length)
    (h2 : s.nFace.entries = (List.range (i + 1)).map fun j => ((shrinkStep maxLen adj)^[j] m0).faces.length)
    (h3 : s.nEdge.entries = (List.range (i + 1)).map fun j => ((shrinkStep maxLen adj)^[j] m0).edges.length)
    (h4 : s.nShrink = (List.range i).map fun j => (List.range ((shrinkStep maxLen adj)^[j] m0).edges.length).countP (e2part maxLen ((shrinkStep maxLen adj)^[j] m0)))
    (h5 : s.maxEdge = (List.range i).map fun j => npMaxL ((shrinkStep maxLen adj)^[j] m0).len) :
    ∃ k, s'.nSteps = k ∧ m' = (shrinkStep maxLen adj)^[k] m0 ∧
      (∀ j < k, (∃ x ∈ ((shrinkStep maxLen adj)^[j] m0).len, maxLen < x) ∧ ∀ n ∈ nMax, j < n) ∧
      ((∃ x ∈ m'.len, maxLen < x) → ∃ n ∈ nMax, n ≤ k) ∧
      s'.nVert.entries = (List.range (k + 1)).map (fun j => ((shrinkStep maxLen adj)^[j] m0).verts.length) ∧
      s'.nFace.entries = (List.range (k + 1)).map (fun j => ((shrinkStep maxLen adj)^[j] m0).faces.length) ∧
      s'.nEdge.entries = (List.range (k + 1)).map (fun j => ((shrinkStep maxLen adj)^[j] m0).edges.length) ∧
      s'.nShrink = (List.range k).map (fun j => (List.range ((shrinkStep maxLen adj)^[j] m0).edges.length).countP (e2part maxLen ((shrinkStep maxLen adj)^[j] m0))) ∧
      s'.maxEdge = (List.range k).map (fun j => npMaxL ((shrinkStep maxLen adj)^[j] m0).len) := by
  induction fuel generalizing i s with
  | zero => simp [shrinkLoopStat] at h
  | succ fuel ih =>
    rw [shrinkLoopStat] at h
    split at h
    · rename_i hc
      rw [← Function.iterate_succ_apply' (shrinkStep maxLen adj) i m0] at h
      refine ih (i + 1) _ h ?_ ?_ ?_ ?_ ?_ ?_
      · intro j hj
        rcases Nat.lt_succ_iff_lt_or_eq.1 hj with hj | rfl
        · exact hlong j hj
        · exact ⟨hc.1, fun n hn => hc.2 n hn⟩
      · rw [range_map_snoc, ← h1]; exact entries_append _ _
      · rw [range_map_snoc, ← h2]; exact entries_append _ _
      · rw [range_map_snoc, ← h3]; exact entries_append _ _
      · rw [range_map_snoc, ← h4]; rfl
      · rw [range_map_snoc, ← h5]; rfl
    · rename_i hc
      injection h with h
      injection h with ha hb
      subst ha hb
      refine ⟨i, rfl, rfl, hlong, fun hx => ?_, h1, h2, h3, h4, h5⟩
      by_contra hn
      push Not at hn
      exact hc ⟨hx, fun n hn' => hn n hn'⟩

private theorem loopStat_fst {maxLen : ℝ} {nMax : Option ℕ} {adj} (fuel i : ℕ) (m : Mesh d) (s : Stats) :
    (shrinkLoopStat maxLen nMax adj fuel i m s).map Prod.fst = shrinkLoop maxLen nMax adj fuel i m := by
  induction fuel generalizing i m s with
  | zero => rfl
  | succ fuel ih =>
    rw [shrinkLoopStat, shrinkLoop]
    split
    · exact ih _ _ _
    · rfl

/-- **C107**: collecting the statistics does not change the mesh. -/
theorem C107_mesh (argsort : List ℕ → List ℕ) (fuel : ℕ) (verts : List (Fin d → ℝ)) (F : FMat) (maxLen : ℝ) (nMax : Option ℕ)
    (adj : Option (List (Fin d → ℝ) → List (Fin d → ℝ))) :
    (shrinkFaceTriStat argsort fuel verts F maxLen nMax adj).map (Option.map Prod.fst) = shrinkFaceTri argsort fuel verts F maxLen nMax adj := by
  unfold shrinkFaceTriStat shrinkFaceTri
  cases initMesh argsort verts F with
  | error e => rfl
  | ok m =>
    have hl : Except.map (Option.map Prod.fst) (.ok (shrinkLoopStat maxLen nMax adj fuel 1 m (initStats m)) : Py _) =
        .ok (shrinkLoop maxLen nMax adj fuel 1 m) := congrArg Except.ok (loopStat_fst _ _ _ _)
    match F with
    | .mat [_] =>
      simp only
      split <;> rfl
    | .mat [] => exact hl
    | .mat (_ :: _ :: _) => exact hl
    | .vec _ => exact hl
    | .other => exact hl

/-- **C107**: the statistics of a run.  There are functions `v`, `e`, `f` with the sizes of the mesh after each pass, `p` with the numbers of
split edges and `l` with the largest lengths of an edge before each pass.  A pass adds a vertex for every split edge, at least one, and keeps
the Euler characteristic.  Every pass has an edge that is too long, and without an adjustment the largest length is at least halved. -/
theorem C107 (argsort : List ℕ → List ℕ) (hsort : IsArgsort argsort) (fuel : ℕ) (verts : List (Fin d → ℝ)) (F : FMat)
    (rows : List Row) (hF : faceRows F = .ok rows) (hne : rows ≠ []) (hprop : ∀ f ∈ rows, Proper f) (hin : ∀ f ∈ rows, RowLt verts.length f)
    (maxLen : ℝ) (nMax : Option ℕ) (adj : Option (List (Fin d → ℝ) → List (Fin d → ℝ))) (hadj : ∀ g ∈ adj, ∀ l, (g l).length = l.length)
    (m : Mesh d) (s : Stats) (h : shrinkFaceTriStat argsort fuel verts F maxLen nMax adj = .ok (some (m, s))) :
    ∃ (v e f p : ℕ → ℕ) (l : ℕ → ℝ),
      s.nVert.entries = (List.range (s.nSteps + 1)).map v ∧ s.nEdge.entries = (List.range (s.nSteps + 1)).map e ∧
      s.nFace.entries = (List.range (s.nSteps + 1)).map f ∧ s.nShrink = (List.range s.nSteps).map p ∧ s.maxEdge = (List.range s.nSteps).map l ∧
      (v 0 = verts.length ∧ f 0 = rows.length ∧ ∃ E, IsEdgeTable E rows ∧ e 0 = E.length) ∧
      (v s.nSteps = m.verts.length ∧ e s.nSteps = m.edges.length ∧ f s.nSteps = m.faces.length) ∧
      (∀ i < s.nSteps, v (i + 1) = v i + p i ∧ 0 < p i ∧ p i ≤ e i) ∧
      (∀ i ≤ s.nSteps, (v i : ℤ) - e i + f i = v 0 - e 0 + f 0) ∧
      (∀ i < s.nSteps, maxLen < l i) ∧
      (adj = none → 0 ≤ maxLen → ∀ i, i + 1 < s.nSteps → l (i + 1) ≤ l i / 2) ∧
      (∀ n ∈ nMax, s.nSteps ≤ n) ∧
      ((∃ e ∈ m.edges, maxLen < pointDist m.verts e.1 e.2) → nMax = some s.nSteps) := by
  obtain ⟨m0, h0, hinv, -, hv0, hf0, ht0⟩ := init_ok argsort hsort verts F rows hF hne hprop hin
  have hkeep : KeepsLength adj := hadj
  have hmain : ∃ k, s.nSteps = k ∧ m = (shrinkStep maxLen adj)^[k] m0 ∧
      (∀ j < k, (∃ x ∈ ((shrinkStep maxLen adj)^[j] m0).len, maxLen < x) ∧ ∀ n ∈ nMax, j < n) ∧
      ((∃ x ∈ m.len, maxLen < x) → ∃ n ∈ nMax, n ≤ k) ∧
      s.nVert.entries = (List.range (k + 1)).map (fun j => ((shrinkStep maxLen adj)^[j] m0).verts.length) ∧
      s.nFace.entries = (List.range (k + 1)).map (fun j => ((shrinkStep maxLen adj)^[j] m0).faces.length) ∧
      s.nEdge.entries = (List.range (k + 1)).map (fun j => ((shrinkStep maxLen adj)^[j] m0).edges.length) ∧
      s.nShrink = (List.range k).map (fun j => (List.range ((shrinkStep maxLen adj)^[j] m0).edges.length).countP (e2part maxLen ((shrinkStep maxLen adj)^[j] m0))) ∧
      s.maxEdge = (List.range k).map (fun j => npMaxL ((shrinkStep maxLen adj)^[j] m0).len) := by
    unfold shrinkFaceTriStat at h
    rw [h0] at h
    simp only at h
    split at h
    · split at h
      · cases h
      · rename_i hc
        injection h with h
        injection h with h
        injection h with ha hb
        subst ha hb
        refine ⟨0, rfl, rfl, by simp, fun hx => ?_, rfl, rfl, rfl, rfl, rfl⟩
        by_contra hn
        push Not at hn
        exact hc ⟨hx, fun n hn' => hn n hn'⟩
    · injection h with h
      exact loopStat m0 fuel 0 _ _ _ h (by simp) rfl rfl rfl rfl rfl
  obtain ⟨k, hk, hm, hlong, hend, e1, e2, e3, e4, e5⟩ := hmain
  set M := fun j => (shrinkStep maxLen adj)^[j] m0 with hM
  have hMi : ∀ j, Inv (M j) := fun j => inv_iter hkeep j m0 hinv
  have hsucc : ∀ j, M (j + 1) = shrinkStep maxLen adj (M j) := fun j => Function.iterate_succ_apply' _ _ _
  have hmax : ∀ j < k, maxLen < npMaxL (M j).len := by
    intro j hj
    obtain ⟨x, hx, hlt⟩ := (hlong j hj).1
    exact hlt.trans_le (npMaxL_ge _ x hx)
  subst hk
  refine ⟨fun j => (M j).verts.length, fun j => (M j).edges.length, fun j => (M j).faces.length,
    fun j => (List.range (M j).edges.length).countP (e2part maxLen (M j)), fun j => npMaxL (M j).len, e1, e3, e2, e4, e5, ⟨?_, ?_, m0.edges, ht0, rfl⟩, ?_, ?_, ?_, hmax, ?_, ?_, ?_⟩
  · show m0.verts.length = _
    rw [hv0]
  · show m0.faces.length = _
    rw [← hf0, List.length_map]
  · rw [hm]
    exact ⟨rfl, rfl, rfl⟩
  · intro i hi
    refine ⟨?_, ?_, ?_⟩
    · show (M (i + 1)).verts.length = _
      rw [hsucc]
      exact ((hMi i).euler maxLen hkeep).1
    · obtain ⟨x, hx, hlt⟩ := (hlong i hi).1
      obtain ⟨t, ht⟩ := List.getElem?_of_mem hx
      rw [List.countP_pos_iff]
      have htl := get_lt ht
      rw [(hMi i).len, List.length_map] at htl
      refine ⟨t, List.mem_range.2 htl, ?_⟩
      have : isLong maxLen (M i) t = true := by
        rw [isLong, decide_eq_true_iff, List.getD_eq_getElem?_getD, ht]
        exact hlt
      rw [e2part, this]
      rfl
    · exact List.countP_le_length.trans (List.length_range).le
  · intro i hi
    induction i with
    | zero => rfl
    | succ i ih =>
      have h1 := ih (by omega)
      have h2 := ((hMi i).euler maxLen hkeep).2
      rw [← hsucc] at h2
      simp only at h1 ⊢
      omega
  · rintro rfl hpos i hi
    show npMaxL (M (i + 1)).len ≤ npMaxL (M i).len / 2
    have h1 := (hMi i).step_len hpos (M := npMaxL (M i).len) fun x hx => (npMaxL_ge _ x hx).trans (le_max_right _ _)
    rw [← hsucc] at h1
    have hne : (M (i + 1)).len ≠ [] := by
      intro h0
      obtain ⟨x, hx, -⟩ := (hlong (i + 1) hi).1
      rw [h0] at hx
      cases hx
    have h2 := h1 _ (npMaxL_mem _ hne)
    rcases le_max_iff.1 h2 with h2 | h2
    · exact absurd (hmax (i + 1) hi) (not_lt.2 h2)
    · exact h2
  · intro n hn
    rcases Nat.eq_zero_or_pos s.nSteps with h0 | h0
    · omega
    · have := (hlong (s.nSteps - 1) (by omega)).2 n hn
      omega
  · rintro ⟨e, he, hlt⟩
    have hmi : Inv m := by rw [hm]; exact hMi _
    obtain ⟨n, hn, hle⟩ := hend ⟨edgeLen m.verts e, by rw [hmi.len]; exact List.mem_map_of_mem he, hlt⟩
    have h2 : s.nSteps ≤ n := by
      rcases Nat.eq_zero_or_pos s.nSteps with h0 | h0
      · omega
      · have := (hlong (s.nSteps - 1) (by omega)).2 n hn
        omega
    have h3 : n = s.nSteps := by omega
    rw [← h3]
    exact hn

/-- Two triangles with long sides: the statistics of the run that stops by itself. -/
example : ∃ (fuel : ℕ) (m : Mesh 2) (s : Stats), shrinkFaceTriStat stableArgsort fuel kite (.mat [(0, 1, 2), (0, 1, 3)]) 2 none none = .ok (some (m, s)) ∧
    s.nVert.entries.length = s.nSteps + 1 ∧ ∀ x ∈ s.maxEdge, 2 < x := by
  have hp : ∀ f ∈ [((0, 1, 2) : Row), (0, 1, 3)], Proper f := by intro f hf; simp at hf; rcases hf with rfl | rfl <;> simp [Proper]
  have hr : ∀ f ∈ [((0, 1, 2) : Row), (0, 1, 3)], RowLt kite.length f := by intro f hf; simp at hf; rcases hf with rfl | rfl <;> simp [RowLt, kite]
  obtain ⟨fuel, m, hm, -⟩ := C55_partial stableArgsort stableArgsort_ok kite (.mat [(0, 1, 2), (0, 1, 3)]) _ rfl (by simp) hp hr (by simp) 2 (by norm_num)
  have h1 := hm fuel le_rfl
  have h2 := C107_mesh stableArgsort fuel kite (.mat [(0, 1, 2), (0, 1, 3)]) 2 none none
  rw [h1] at h2
  match hs : shrinkFaceTriStat stableArgsort fuel kite (.mat [(0, 1, 2), (0, 1, 3)]) 2 none none with
  | .error e => rw [hs] at h2; cases h2
  | .ok none => rw [hs] at h2; cases h2
  | .ok (some (m', s)) =>
    obtain ⟨v, e, f, p, l, a1, -, -, -, a5, -, -, -, -, a6, -⟩ := C107 stableArgsort stableArgsort_ok fuel kite _ _ rfl (by simp) hp hr 2 none none
      (by intro g hg; cases hg) m' s hs
    refine ⟨fuel, m', s, hs, by rw [a1]; simp, fun x hx => ?_⟩
    rw [a5] at hx
    obtain ⟨i, hi, rfl⟩ := List.mem_map.1 hx
    exact a6 i (List.mem_range.1 hi)

end Ellipy.Tri
