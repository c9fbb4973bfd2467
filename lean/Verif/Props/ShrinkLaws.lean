import Verif.Props.TriShrink

/-! Property theorems C149: laws of `shrink_face_tri` across calls. -/

namespace Ellipy.Tri
variable {d d' : ℕ}

/-- The mesh after a map of the space that multiplies all distances by `s`. -/
def Mesh.moved (T : (Fin d → ℝ) → (Fin d' → ℝ)) (s : ℝ) (m : Mesh d) : Mesh d' := ⟨m.verts.map T, m.edges, m.len.map (fun x => s * x), m.faces⟩

/-- The map keeps middles and multiplies the distances by `s`. -/
def IsSimilarity (T : (Fin d → ℝ) → (Fin d' → ℝ)) (s : ℝ) : Prop :=
  0 < s ∧ (∀ x y, T ((1 / 2 : ℝ) • (x + y)) = (1 / 2 : ℝ) • (T x + T y)) ∧
    ∀ x y, Real.sqrt (∑ i, (T x i - T y i) ^ 2) = s * Real.sqrt (∑ i, (x i - y i) ^ 2)

/-- The second adjustment does to the images of points what the first one does to the points. -/
def Follows (T : (Fin d → ℝ) → (Fin d' → ℝ)) : Option (List (Fin d → ℝ) → List (Fin d → ℝ)) → Option (List (Fin d' → ℝ) → List (Fin d' → ℝ)) → Prop
  | none, none => True
  | some g, some g' => ∀ l, g' (l.map T) = (g l).map T
  | _, _ => False

section Step
variable {T : (Fin d → ℝ) → (Fin d' → ℝ)} {s : ℝ} (hT : IsSimilarity T s) (maxLen : ℝ) (m : Mesh d)
include hT

private theorem mv_long : isLong (s * maxLen) (m.moved T s) = isLong maxLen m := by
  funext k
  have h : (m.len.map (fun x => s * x)).getD k 0 = s * m.len.getD k 0 := by
    rw [List.getD_eq_getElem?_getD, List.getD_eq_getElem?_getD, List.getElem?_map]
    cases m.len[k]? <;> simp
  simp only [isLong, Mesh.moved, h, mul_lt_mul_iff_right₀ hT.1]

private theorem mv_isPart : isPart (s * maxLen) (m.moved T s) = isPart maxLen m := by
  funext f
  simp only [isPart, mv_long hT]

private theorem mv_partF : partF (s * maxLen) (m.moved T s) = partF maxLen m := by
  simp only [partF, mv_isPart hT]; rfl

private theorem mv_e2part : e2part (s * maxLen) (m.moved T s) = e2part maxLen m := by
  funext k
  simp only [e2part, mv_long hT, mv_partF hT]

private theorem mv_splitE : splitE (s * maxLen) (m.moved T s) = splitE maxLen m := by
  simp only [splitE, mv_e2part hT]; rfl

private theorem mv_ePart : ePart (s * maxLen) (m.moved T s) = ePart maxLen m := by
  funext k
  have h : (m.moved T s).verts.length = m.verts.length := by simp [Mesh.moved]
  simp only [ePart, mv_e2part hT, h]

private theorem mv_keptF : keptF (s * maxLen) (m.moved T s) = keptF maxLen m := by
  simp only [keptF, mv_isPart hT]; rfl

private theorem mv_eKept : eKept (s * maxLen) (m.moved T s) = eKept maxLen m := by
  funext k
  simp only [eKept, mv_keptF hT]

private theorem mv_indKept : indKept (s * maxLen) (m.moved T s) = indKept maxLen m := by
  funext k
  simp only [indKept, mv_eKept hT]

private theorem mv_edges0 : edges0 (s * maxLen) (m.moved T s) = edges0 maxLen m := by
  simp only [edges0, mv_eKept hT]; rfl

private theorem mv_keptF' : keptF' (s * maxLen) (m.moved T s) = keptF' maxLen m := by
  simp only [keptF', mv_keptF hT, mv_indKept hT]

private theorem mv_e1New : e1New (s * maxLen) (m.moved T s) = e1New maxLen m := by
  simp only [e1New, mv_partF hT, mv_ePart hT]

private theorem mv_vl : (m.moved T s).verts.length = m.verts.length := by simp [Mesh.moved]

private theorem mv_e2New : e2New (s * maxLen) (m.moved T s) = e2New maxLen m := by
  simp only [e2New, mv_splitE hT, mv_vl hT]

private theorem mv_f1New : f1New (s * maxLen) (m.moved T s) = f1New maxLen m := by
  simp only [f1New, mv_partF hT, mv_ePart hT, mv_edges0 hT]

private theorem mv_halfE : halfE (s * maxLen) (m.moved T s) = halfE maxLen m := by
  funext k b
  simp only [halfE, mv_partF hT, mv_ePart hT, mv_edges0 hT, mv_splitE hT, mv_vl hT]

private theorem mv_f2New : f2New (s * maxLen) (m.moved T s) = f2New maxLen m := by
  simp only [f2New, mv_partF hT, mv_ePart hT, mv_edges0 hT, mv_halfE hT]

private theorem mv_broken : broken (s * maxLen) (m.moved T s) = broken maxLen m := by
  simp only [broken, mv_e2part hT, mv_eKept hT]; rfl

private theorem mv_f3New : f3New (s * maxLen) (m.moved T s) = f3New maxLen m := by
  simp only [f3New, mv_broken hT, mv_ePart hT, mv_edges0 hT, mv_indKept hT, mv_vl hT, mv_partF hT, mv_splitE hT]

omit hT in
private theorem getD_moved {l : List (Fin d → ℝ)} {i : ℕ} (h : i < l.length) : (l.map T).getD i 0 = T (l.getD i 0) := by
  simp [List.getD_eq_getElem?_getD, List.getElem?_map, List.getElem?_eq_getElem h]

private theorem mv_vNew (hm : Inv m) : vNew (s * maxLen) (m.moved T s) = (vNew maxLen m).map T := by
  rw [vNew, vNew, mv_splitE hT, List.map_map]
  refine List.map_congr_left fun e he => ?_
  have hmem : e ∈ m.edges := by
    unfold splitE maskIdx at he
    obtain ⟨x, hx, rfl⟩ := List.mem_map.mp he
    exact List.fst_mem_of_mem_zipIdx (List.mem_filter.mp hx).1
  obtain ⟨h1, h2⟩ := hm.ends e hmem
  simp only [Function.comp, Mesh.moved, getD_moved h1, getD_moved h2, hT.2.1]

private theorem mv_edgeLen {l : List (Fin d → ℝ)} {e : ℕ × ℕ} (h : e.1 < l.length ∧ e.2 < l.length) : edgeLen (l.map T) e = s * edgeLen l e := by
  simp only [edgeLen, getD_moved h.1, getD_moved h.2, hT.2.2]

private theorem mv_newVerts (hm : Inv m) {adj adj'} (ha : Follows T adj adj') :
    newVerts (s * maxLen) (m.moved T s) adj' = (newVerts maxLen m adj).map T := by
  cases adj <;> cases adj' <;> simp only [Follows] at ha
  · simp only [newVerts, mv_vNew hT _ _ hm, List.map_append]; rfl
  · simp only [newVerts, mv_vNew hT _ _ hm, List.map_append, ha]; rfl

private theorem mv_step (hm : Inv m) {adj adj'} (hk : KeepsLength adj) (ha : Follows T adj adj') :
    shrinkStep (s * maxLen) adj' (m.moved T s) = (shrinkStep maxLen adj m).moved T s := by
  have hs := (hm.step maxLen hk).ends
  have hlen : (e1New maxLen m ++ e2New maxLen m).map (edgeLen ((newVerts maxLen m adj).map T)) =
      ((e1New maxLen m ++ e2New maxLen m).map (edgeLen (newVerts maxLen m adj))).map (fun x => s * x) := by
    rw [List.map_map]
    refine List.map_congr_left fun e he => mv_edgeLen hT ?_
    exact hs e (List.mem_append_right _ he)
  simp only [shrinkStep, mv_newVerts hT _ _ hm ha, mv_edges0 hT, mv_e1New hT, mv_e2New hT, mv_eKept hT, mv_keptF' hT, mv_f1New hT, mv_f2New hT, mv_f3New hT]
  rw [hlen]
  simp only [Mesh.moved, List.map_append, mask_map]

private theorem mv_any : (∃ x ∈ (m.moved T s).len, s * maxLen < x) ↔ ∃ x ∈ m.len, maxLen < x := by
  simp [Mesh.moved, mul_lt_mul_iff_right₀ hT.1]

private theorem mv_loop {adj adj'} (nMax : Option ℕ) (hk : KeepsLength adj) (ha : Follows T adj adj') : ∀ (fuel i : ℕ) (m : Mesh d), Inv m →
    shrinkLoop (s * maxLen) nMax adj' fuel i (m.moved T s) = (shrinkLoop maxLen nMax adj fuel i m).map (Mesh.moved T s)
  | 0, _, _, _ => rfl
  | fuel + 1, i, m, hm => by
    rw [shrinkLoop, shrinkLoop, mv_step hT _ _ hm hk ha, mv_loop nMax hk ha fuel (i + 1) _ (hm.step maxLen hk)]
    by_cases hc : (∃ x ∈ m.len, maxLen < x) ∧ ∀ n ∈ nMax, i ≤ n
    · rw [if_pos hc, if_pos ⟨(mv_any hT _ _).mpr hc.1, hc.2⟩]
    · rw [if_neg hc, if_neg (fun h => hc ⟨(mv_any hT _ _).mp h.1, h.2⟩)]
      rfl

end Step

/-- **C149**: a map that keeps middles and multiplies distances by `s`, applied to the vertices, with `s` times the bound, is applied to
the vertices of the result; the edges and faces are the same, the lengths are multiplied by `s`. -/
theorem C149_similar (argsort : List ℕ → List ℕ) (hsort : IsArgsort argsort) (fuel : ℕ) (verts : List (Fin d → ℝ)) (F : FMat) (rows : List Row)
    (hF : faceRows F = .ok rows) (hne : rows ≠ []) (hprop : ∀ f ∈ rows, Proper f) (hin : ∀ f ∈ rows, RowLt verts.length f) (maxLen : ℝ)
    (nMax : Option ℕ) {T : (Fin d → ℝ) → (Fin d' → ℝ)} {s : ℝ} (hT : IsSimilarity T s) {adj adj'} (hk : KeepsLength adj) (ha : Follows T adj adj') :
    shrinkFaceTri argsort fuel (verts.map T) F (s * maxLen) nMax adj' =
      (shrinkFaceTri argsort fuel verts F maxLen nMax adj).map (Option.map (Mesh.moved T s)) := by
  obtain ⟨m, h0, hinv, -, hv, -, -⟩ := init_ok argsort hsort verts F rows hF hne hprop hin
  have h1 : initMesh argsort (verts.map T) F = .ok (m.moved T s) := by
    unfold initMesh at h0 ⊢
    rw [hF] at h0 ⊢
    cases hm : mapFace2Edge argsort F with
    | error e => rw [hm] at h0; cases h0
    | ok t =>
      obtain ⟨E, f2e, dirs⟩ := t
      rw [hm] at h0
      simp only at h0 ⊢
      split at h0
      · rename_i hE
        rw [if_pos (by simpa using hE)]
        cases h0
        simp only [Mesh.moved, List.map_map]
        congr 2
        refine List.map_congr_left fun e he => mv_edgeLen hT (hE e he)
      · cases h0
  unfold shrinkFaceTri
  rw [h0, h1]
  simp only [mv_any hT, mv_loop hT _ _ hk ha _ _ m hinv]
  split
  · split <;> rfl
  · rfl

private theorem pre_loop (maxLen : ℝ) (nMax : Option ℕ) (adj : Option (List (Fin d → ℝ) → List (Fin d → ℝ))) (fuel i : ℕ) (m m' : Mesh d)
    (h : shrinkLoop maxLen nMax adj fuel i m = some m') : m.verts <+: m'.verts :=
  loop_inv (fun x => m.verts <+: x.verts) (fun x hx => hx.trans ⟨_, rfl⟩) fuel i m m' (List.prefix_refl _) h

private theorem two_loops (maxLen : ℝ) (n : ℕ) (nMax' : Option ℕ) (hn : ∀ k ∈ nMax', n ≤ k) (adj : Option (List (Fin d → ℝ) → List (Fin d → ℝ))) :
    ∀ (fuel fuel' i : ℕ) (m r r' : Mesh d), shrinkLoop maxLen (some n) adj fuel i m = some r → shrinkLoop maxLen nMax' adj fuel' i m = some r' →
      r.verts <+: r'.verts
  | 0, _, _, _, _, _, h, _ => by cases h
  | _ + 1, 0, _, _, _, _, _, h => by cases h
  | fuel + 1, fuel' + 1, i, m, r, r', h, h' => by
    by_cases hc : (∃ x ∈ m.len, maxLen < x) ∧ (∀ k ∈ some n, i ≤ k)
    · have hc' : (∃ x ∈ m.len, maxLen < x) ∧ (∀ k ∈ nMax', i ≤ k) := ⟨hc.1, fun k hk => (hc.2 n rfl).trans (hn k hk)⟩
      rw [shrinkLoop, if_pos hc] at h
      rw [shrinkLoop, if_pos hc'] at h'
      exact two_loops maxLen n nMax' hn adj fuel fuel' (i + 1) _ r r' h h'
    · rw [shrinkLoop, if_neg hc] at h
      cases h
      exact pre_loop _ _ _ _ _ _ _ h'

/-- **C149**: with a larger bound for the number of steps, or none, the vertices begin with those for the smaller bound. -/
theorem C149_prefix (argsort : List ℕ → List ℕ) (fuel fuel' : ℕ) (verts : List (Fin d → ℝ)) (F : FMat) (maxLen : ℝ) (n : ℕ) (nMax' : Option ℕ)
    (hn : ∀ k ∈ nMax', n ≤ k) (adj : Option (List (Fin d → ℝ) → List (Fin d → ℝ))) (m m' : Mesh d)
    (h : shrinkFaceTri argsort fuel verts F maxLen (some n) adj = .ok (some m)) (h' : shrinkFaceTri argsort fuel' verts F maxLen nMax' adj = .ok (some m')) :
    m.verts <+: m'.verts := by
  unfold shrinkFaceTri at h h'
  cases hi : initMesh argsort verts F with
  | error e => rw [hi] at h; cases h
  | ok m0 =>
    rw [hi] at h h'
    simp only at h h'
    split at h
    · simp only at h'
      split at h
      · cases h
      · cases h
        split at h'
        · cases h'
        · cases h'; exact List.prefix_refl _
    · rename_i hnot
      split at h'
      · exact absurd rfl (hnot _)
      · exact two_loops maxLen n nMax' hn adj _ _ _ _ _ _ (Except.ok.inj h) (Except.ok.inj h')

/-- **C149**: a grid whose sides are not longer than the bound is returned as it is. -/
theorem C149_noop (argsort : List ℕ → List ℕ) (hsort : IsArgsort argsort) (fuel : ℕ) (verts : List (Fin d → ℝ)) (F : FMat) (rows : List Row)
    (hF : faceRows F = .ok rows) (hne : rows ≠ []) (hprop : ∀ f ∈ rows, Proper f) (hin : ∀ f ∈ rows, RowLt verts.length f) (maxLen : ℝ)
    (nMax : Option ℕ) (adj : Option (List (Fin d → ℝ) → List (Fin d → ℝ)))
    (hshort : ∀ f ∈ rows, ∀ a b, a < b → IsSide a b f → pointDist verts a b ≤ maxLen) :
    ∃ m, shrinkFaceTri argsort (fuel + 1) verts F maxLen nMax adj = .ok (some m) ∧ m.verts = verts ∧ m.faces.map Face.v = rows ∧
      IsEdgeTable m.edges rows := by
  obtain ⟨m, h0, hinv, -, hv, hr, ht⟩ := init_ok argsort hsort verts F rows hF hne hprop hin
  have hno : ¬ ∃ x ∈ m.len, maxLen < x := by
    rintro ⟨x, hx, hlt⟩
    rw [hinv.len] at hx
    obtain ⟨⟨a, b⟩, he, rfl⟩ := List.mem_map.mp hx
    obtain ⟨hab, f, hf, hs⟩ := (ht.2 a b).mp he
    have := hshort f hf a b hab hs
    rw [hv] at hlt
    exact absurd hlt (not_lt.mpr this)
  refine ⟨m, ?_, hv, hr, ht⟩
  unfold shrinkFaceTri
  rw [h0]
  simp only
  split
  · rw [if_neg (fun h => hno h.1)]
  · rw [shrinkLoop, if_neg (fun h => hno h.1)]

/-! ### A second run -/

private theorem joins_proper {m : Mesh d} (hl : ∀ e ∈ m.edges, e.1 ≠ e.2) {v e : Row} {b : Bool × Bool × Bool} (h : Joins m.edges v e b) : Proper v := by
  have key : ∀ (k : ℕ) (dd : Bool) (x y : ℕ), m.edges[k]? = some (dirPair dd x y) → x ≠ y := by
    intro k dd x y hk
    have := hl _ (List.mem_of_getElem? hk)
    cases dd
    · exact this.symm
    · exact this
  exact ⟨key _ _ _ _ h.1, key _ _ _ _ h.2.2, key _ _ _ _ h.2.1⟩

private theorem loopless_step {maxLen : ℝ} {m : Mesh d} (hm : Inv m) (hl : ∀ e ∈ m.edges, e.1 ≠ e.2) (adj) :
    ∀ e ∈ (shrinkStep maxLen adj m).edges, e.1 ≠ e.2 := by
  intro e he
  rcases List.mem_append.mp he with h | h
  · refine hl e ?_
    unfold edges0 maskIdx at h
    obtain ⟨x, hx, rfl⟩ := List.mem_map.mp h
    exact List.fst_mem_of_mem_zipIdx (List.mem_filter.mp hx).1
  · rcases new_edge_cases h with ⟨q, f, hq, hc⟩ | ⟨k, e0, hk, hp, hc⟩
    · have hf := part_mem hq
      obtain ⟨l1, l2, l3⟩ := hm.face_lt hf
      have hon : ∀ k, (f.e.1 = k ∨ f.e.2.1 = k ∨ f.e.2.2 = k) → e2part maxLen m k = true := by
        intro k hk
        unfold e2part
        rw [Bool.or_eq_true, onFaces_iff]
        exact Or.inr ⟨f, List.mem_of_getElem? hq, hk⟩
      obtain ⟨g, hj⟩ := hm.ghost f hf
      obtain ⟨p1, p2, p3⟩ := joins_proper hl hj
      obtain ⟨j1, j2, j3⟩ := hj
      have hne : ∀ (k l : ℕ), k < m.edges.length → l < m.edges.length → e2part maxLen m k = true → e2part maxLen m l = true → k ≠ l →
          ePart maxLen m k ≠ ePart maxLen m l := by
        intro k l hk hl' h1 h2 h3 h4
        have c1 := cum_pos h1
        have c2 := cum_pos h2
        unfold ePart at h4
        exact h3 (cum_inj h1 h2 (by omega))
      have hpair : ∀ (b b' : Bool) (x y z w : ℕ), dirPair b x y = dirPair b' z w → (x = z ∧ y = w) ∨ (x = w ∧ y = z) := by
        intro b b' x y z w h
        cases b <;> cases b' <;> simp only [dirPair, if_true, if_false, Bool.false_eq_true, Prod.mk.injEq] at h <;> omega
      rcases hc with rfl | rfl | rfl
      · refine hne _ _ l1 l2 (hon _ (by simp)) (hon _ (by simp)) fun h => ?_
        rw [h, j2] at j1
        rcases hpair _ _ _ _ _ _ (Option.some.inj j1) with h | h <;> omega
      · refine hne _ _ l1 l3 (hon _ (by simp)) (hon _ (by simp)) fun h => ?_
        rw [h, j3] at j1
        rcases hpair _ _ _ _ _ _ (Option.some.inj j1) with h | h <;> omega
      · refine hne _ _ l2 l3 (hon _ (by simp)) (hon _ (by simp)) fun h => ?_
        rw [h, j3] at j2
        rcases hpair _ _ _ _ _ _ (Option.some.inj j2) with h | h <;> omega
    · obtain ⟨h1, h2⟩ := hm.ends _ (List.mem_of_getElem? hk)
      obtain ⟨h3, -⟩ := ePart_lt maxLen m (adj := none) (by intro g hg; cases hg) k (get_lt hk) hp
      rcases hc with rfl | rfl <;> simp only <;> omega

private theorem nonempty_step {maxLen : ℝ} {m : Mesh d} (h : m.faces ≠ []) (adj) : (shrinkStep maxLen adj m).faces ≠ [] := by
  obtain ⟨f, hf⟩ := List.exists_mem_of_ne_nil _ h
  intro h0
  simp only [shrinkStep, List.append_eq_nil_iff, keptF', f1New, List.map_eq_nil_iff, List.zipIdx_eq_nil_iff] at h0
  have h1 : f ∉ keptF maxLen m := by rw [h0.1]; simp
  have h2 : f ∉ partF maxLen m := by rw [h0.2.1]; simp
  simp only [keptF, partF, List.mem_filter, hf, true_and] at h1 h2
  cases hp : isPart maxLen m f <;> simp [hp] at h1 h2

/-- **C149**: a second run on the vertices and faces of the first one, with the same bound or a larger one, changes neither. -/
theorem C149_again (argsort : List ℕ → List ℕ) (hsort : IsArgsort argsort) (verts : List (Fin d → ℝ)) (F : FMat)
    (rows : List Row) (hF : faceRows F = .ok rows) (hne : rows ≠ []) (hprop : ∀ f ∈ rows, Proper f) (hin : ∀ f ∈ rows, RowLt verts.length f)
    (hrow : ∀ r, F ≠ .mat [r]) (maxLen : ℝ) (hpos : 0 < maxLen) (maxLen' : ℝ) (hle : maxLen ≤ maxLen') (nMax : Option ℕ)
    (adj : Option (List (Fin d → ℝ) → List (Fin d → ℝ))) :
    ∃ fuel0, ∃ m : Mesh d, (∀ fuel ≥ fuel0, shrinkFaceTri argsort fuel verts F maxLen none none = .ok (some m)) ∧
      ∀ fuel, ∃ m', shrinkFaceTri argsort (fuel + 1) m.verts (.mat (m.faces.map Face.v)) maxLen' nMax adj = .ok (some m') ∧ m'.verts = m.verts ∧
        m'.faces.map Face.v = m.faces.map Face.v := by
  obtain ⟨fuel0, m, h1, -, h2⟩ := C55_partial argsort hsort verts F rows hF hne hprop hin hrow maxLen hpos
  refine ⟨fuel0, m, h1, fun fuel => ?_⟩
  obtain ⟨m0, h0, hinv, hj, -, hr, ht⟩ := init_ok argsort hsort verts F rows hF hne hprop hin
  have hrun : shrinkLoop maxLen none none fuel0 1 m0 = some m := by
    have := h1 fuel0 le_rfl
    unfold shrinkFaceTri at this
    rw [h0] at this
    simp only at this
    exact Except.ok.inj this
  have hmi := loop_inv (fun m => Inv m ∧ (∀ f ∈ m.faces, Joins m.edges f.v f.e f.dir ∨ Sliver maxLen m f) ∧ (∀ e ∈ m.edges, e.1 ≠ e.2) ∧ m.faces ≠ [])
    (fun m hm => ⟨hm.1.step maxLen (by intro g hg; cases hg), step_sliver hm.1 hm.2.1, loopless_step hm.1 hm.2.2.1 _, nonempty_step hm.2.2.2 _⟩) _ _ _ _
    ⟨hinv, fun f hf => Or.inl (hj f hf), fun e he => ne_of_lt ((ht.2 e.1 e.2).mp he).1, by intro h; rw [h] at hr; exact hne hr.symm⟩ hrun
  obtain ⟨i1, i2, i3, i4⟩ := hmi
  obtain ⟨m', g1, g2, g3, -⟩ := C149_noop argsort hsort fuel m.verts (.mat (m.faces.map Face.v)) (m.faces.map Face.v) rfl (by simpa using i4)
    (by
      intro v hv
      obtain ⟨f, hf, rfl⟩ := List.mem_map.mp hv
      rcases i2 f hf with h | h
      · exact joins_proper i3 h
      · obtain ⟨p1, p2, p3⟩ := joins_proper i3 h.1
        exact ⟨Ne.symm p1, p3, p2⟩)
    (by
      intro v hv
      obtain ⟨f, hf, rfl⟩ := List.mem_map.mp hv
      exact i1.row f hf) maxLen' nMax adj
    (by
      intro v hv a b hab hs
      obtain ⟨f, hf, rfl⟩ := List.mem_map.mp hv
      obtain ⟨k1, k2, k3⟩ := h2 (f.v, f.e, f.dir) (List.mem_map.mpr ⟨f, hf, rfl⟩)
      have hc : ∀ x y, pointDist m.verts x y = pointDist m.verts y x := by
        intro x y
        unfold pointDist
        congr 1
        exact Finset.sum_congr rfl fun t _ => by ring
      unfold IsSide at hs
      simp only [List.mem_cons, List.not_mem_nil, or_false, Prod.mk.injEq] at hs
      refine le_trans ?_ hle
      rcases hs with ⟨rfl, rfl⟩ | ⟨rfl, rfl⟩ | ⟨rfl, rfl⟩ | ⟨rfl, rfl⟩ | ⟨rfl, rfl⟩ | ⟨rfl, rfl⟩
      · exact k1
      · rw [hc]; exact k1
      · exact k2
      · rw [hc]; exact k2
      · exact k3
      · rw [hc]; exact k3)
  exact ⟨m', g1, g2, g3⟩

/-! ### Instances -/

/-- Three times larger and moved. -/
private theorem sim3 : IsSimilarity (fun (x : Fin 2 → ℝ) i => 3 * x i + 5) 3 := by
  refine ⟨by norm_num, fun x y => ?_, fun x y => ?_⟩
  · funext i; simp only [Pi.smul_apply, Pi.add_apply, smul_eq_mul]; ring
  · have : ∀ i, (3 * x i + 5) - (3 * y i + 5) = 3 * (x i - y i) := by intro i; ring
    simp only [this, mul_pow, ← Finset.mul_sum]
    rw [Real.sqrt_mul (by norm_num), Real.sqrt_sq (by norm_num)]

/-- The two triangles of `kite`, with their middles found in one step. -/
example (fuel : ℕ) : shrinkFaceTri stableArgsort fuel (kite.map (fun x i => 3 * x i + 5)) (.mat [(0, 1, 2), (0, 1, 3)]) (3 * 2) (some 1) none =
    (shrinkFaceTri stableArgsort fuel kite (.mat [(0, 1, 2), (0, 1, 3)]) 2 (some 1) none).map (Option.map (Mesh.moved (fun x i => 3 * x i + 5) 3)) :=
  C149_similar stableArgsort stableArgsort_ok fuel kite _ [(0, 1, 2), (0, 1, 3)] rfl (by simp)
    (by intro f hf; simp at hf; rcases hf with rfl | rfl <;> simp [Proper])
    (by intro f hf; simp at hf; rcases hf with rfl | rfl <;> simp [RowLt, kite]) 2 (some 1) sim3 (by intro g hg; cases hg) trivial

/-- One step and as many as are necessary. -/
example : ∃ fuel m m', shrinkFaceTri stableArgsort 2 kite (.mat [(0, 1, 2), (0, 1, 3)]) 2 (some 1) none = .ok (some m) ∧
    shrinkFaceTri stableArgsort fuel kite (.mat [(0, 1, 2), (0, 1, 3)]) 2 none none = .ok (some m') ∧ m.verts <+: m'.verts := by
  obtain ⟨m, hm, -⟩ := C54_violated
  obtain ⟨fuel, m', h1, -, -⟩ := C55_partial stableArgsort stableArgsort_ok kite (.mat [(0, 1, 2), (0, 1, 3)]) [(0, 1, 2), (0, 1, 3)] rfl (by simp)
    (by intro f hf; simp at hf; rcases hf with rfl | rfl <;> simp [Proper])
    (by intro f hf; simp at hf; rcases hf with rfl | rfl <;> simp [RowLt, kite]) (by simp) 2 (by norm_num)
  exact ⟨fuel, m, m', hm, h1 fuel le_rfl, C149_prefix _ _ _ _ _ _ 1 none (by simp) _ m m' hm (h1 fuel le_rfl)⟩

/-- The two triangles of `kite` again. -/
example : ∃ fuel0, ∃ m : Mesh 2, (∀ fuel ≥ fuel0, shrinkFaceTri stableArgsort fuel kite (.mat [(0, 1, 2), (0, 1, 3)]) 2 none none = .ok (some m)) ∧
    ∀ fuel, ∃ m', shrinkFaceTri stableArgsort (fuel + 1) m.verts (.mat (m.faces.map Face.v)) 5 none none = .ok (some m') ∧ m'.verts = m.verts ∧
      m'.faces.map Face.v = m.faces.map Face.v :=
  C149_again stableArgsort stableArgsort_ok kite (.mat [(0, 1, 2), (0, 1, 3)]) [(0, 1, 2), (0, 1, 3)] rfl (by simp)
    (by intro f hf; simp at hf; rcases hf with rfl | rfl <;> simp [Proper])
    (by intro f hf; simp at hf; rcases hf with rfl | rfl <;> simp [RowLt, kite]) (by simp) 2 (by norm_num) 5 (by norm_num) none none

/-- The bound 11 for the triangles of `kite`. -/
example : ∃ m, shrinkFaceTri stableArgsort 1 kite (.mat [(0, 1, 2), (0, 1, 3)]) 11 none none = .ok (some m) ∧ m.verts = kite := by
  obtain ⟨m, h1, h2, -⟩ := C149_noop stableArgsort stableArgsort_ok 0 kite (.mat [(0, 1, 2), (0, 1, 3)]) [(0, 1, 2), (0, 1, 3)] rfl (by simp)
    (by intro f hf; simp at hf; rcases hf with rfl | rfl <;> simp [Proper])
    (by intro f hf; simp at hf; rcases hf with rfl | rfl <;> simp [RowLt, kite]) 11 none none
    (by
      intro f hf a b hab hs
      unfold pointDist
      rw [Real.sqrt_le_left (by norm_num)]
      simp at hf
      rcases hf with rfl | rfl <;> simp [IsSide] at hs <;> rcases hs with ⟨rfl, rfl⟩ | ⟨rfl, rfl⟩ | ⟨rfl, rfl⟩ | ⟨rfl, rfl⟩ | ⟨rfl, rfl⟩ | ⟨rfl, rfl⟩ <;>
        simp [kite, Fin.sum_univ_two] <;> norm_num)
  exact ⟨m, h1, h2⟩

end Ellipy.Tri
