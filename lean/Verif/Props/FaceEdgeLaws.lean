import Verif.Props.TriEqual
import Verif.Props.TriShrink

/-! Property theorems C151: laws of `map_face_2_edge` and `is_face` across calls. -/

namespace Ellipy.Tri

/-- A triangle with new numbers of its vertices. -/
def renTri (σ : ℕ → ℕ) (t : Row) : Row := (σ t.1, σ t.2.1, σ t.2.2)

/-! ### Sides -/

private theorem proper_nodup (t : Row) : Proper t ↔ [t.1, t.2.1, t.2.2].Nodup := by
  simp [Proper, and_assoc]

private theorem side_iff {t : Row} (ht : Proper t) (a b : ℕ) : IsSide a b t ↔ a ≠ b ∧ a ∈ [t.1, t.2.1, t.2.2] ∧ b ∈ [t.1, t.2.1, t.2.2] := by
  obtain ⟨h1, h2, h3⟩ := ht
  simp only [IsSide, List.mem_cons, List.not_mem_nil, or_false, Prod.mk.injEq]
  constructor
  · rintro (⟨rfl, rfl⟩ | ⟨rfl, rfl⟩ | ⟨rfl, rfl⟩ | ⟨rfl, rfl⟩ | ⟨rfl, rfl⟩ | ⟨rfl, rfl⟩) <;> simp [h1, h2, h3, Ne.symm h1, Ne.symm h2, Ne.symm h3]
  · rintro ⟨hne, (rfl | rfl | rfl), (rfl | rfl | rfl)⟩ <;> simp_all

private theorem same_proper {t f : Row} (h : SameTri t f) : Proper t ↔ Proper f := by
  rw [proper_nodup, proper_nodup]
  exact h.nodup_iff

private theorem same_side {t f : Row} (h : SameTri t f) (ht : Proper t) (a b : ℕ) : IsSide a b t ↔ IsSide a b f := by
  rw [side_iff ht, side_iff ((same_proper h).1 ht), h.mem_iff, h.mem_iff]

private theorem ren_list (σ : ℕ → ℕ) (t : Row) : [(renTri σ t).1, (renTri σ t).2.1, (renTri σ t).2.2] = [t.1, t.2.1, t.2.2].map σ := rfl

private theorem ren_proper {σ : ℕ → ℕ} (hσ : Function.Injective σ) (t : Row) : Proper (renTri σ t) ↔ Proper t := by
  rw [proper_nodup, proper_nodup, ren_list, List.nodup_map_iff hσ]

private theorem ren_side {σ : ℕ → ℕ} (hσ : Function.Injective σ) {t : Row} (ht : Proper t) (a b : ℕ) : IsSide (σ a) (σ b) (renTri σ t) ↔ IsSide a b t := by
  rw [side_iff ht, side_iff ((ren_proper hσ t).2 ht), ren_list, List.mem_map_of_injective hσ, List.mem_map_of_injective hσ, hσ.ne_iff]

private theorem side_ren {σ : ℕ → ℕ} {t : Row} {x y : ℕ} (h : IsSide x y (renTri σ t)) : ∃ a b, x = σ a ∧ y = σ b ∧ IsSide a b t := by
  simp only [IsSide, renTri, List.mem_cons, List.not_mem_nil, or_false, Prod.mk.injEq] at h ⊢
  rcases h with ⟨rfl, rfl⟩ | ⟨rfl, rfl⟩ | ⟨rfl, rfl⟩ | ⟨rfl, rfl⟩ | ⟨rfl, rfl⟩ | ⟨rfl, rfl⟩
  · exact ⟨_, _, rfl, rfl, by simp⟩
  · exact ⟨_, _, rfl, rfl, by simp⟩
  · exact ⟨_, _, rfl, rfl, by simp⟩
  · exact ⟨_, _, rfl, rfl, by simp⟩
  · exact ⟨_, _, rfl, rfl, by simp⟩
  · exact ⟨_, _, rfl, rfl, by simp⟩

/-! ### Tables of edges -/

private theorem sorted_ext {l l' : List (ℕ × ℕ)} (h : l.Pairwise (fun x y => x.1 < y.1 ∨ x.1 = y.1 ∧ x.2 < y.2))
    (h' : l'.Pairwise (fun x y => x.1 < y.1 ∨ x.1 = y.1 ∧ x.2 < y.2)) (hm : ∀ x, x ∈ l ↔ x ∈ l') : l = l' := by
  have irr : ∀ {a b : ℕ × ℕ}, (a.1 < b.1 ∨ a.1 = b.1 ∧ a.2 < b.2) → a ≠ b := by
    rintro a b h rfl
    omega
  have hn : l.Nodup := h.imp irr
  have hn' : l'.Nodup := h'.imp irr
  refine List.Perm.eq_of_pairwise ?_ h h' ((List.perm_ext_iff_of_nodup hn hn').2 hm)
  intro a b _ _ h1 h2
  omega

private theorem table_unique {E E' : List (ℕ × ℕ)} {rows rows' : List Row} (h : IsEdgeTable E rows) (h' : IsEdgeTable E' rows')
    (hs : ∀ a b, a < b → ((∃ v ∈ rows, IsSide a b v) ↔ ∃ v ∈ rows', IsSide a b v)) : E = E' := by
  refine sorted_ext h.1 h'.1 ?_
  rintro ⟨a, b⟩
  rw [h.2, h'.2]
  exact and_congr_right fun hab => hs a b hab

private theorem pair_unique {E : List (ℕ × ℕ)} {rows : List Row} (h : IsEdgeTable E rows) {x y i j : ℕ} {b b' : Bool}
    (hi : E[i]? = some (dirPair b x y)) (hj : E[j]? = some (dirPair b' x y)) : i = j ∧ b = b' := by
  have h1 := ((h.2 _ _).1 (List.mem_of_getElem? hi)).1
  have h2 := ((h.2 _ _).1 (List.mem_of_getElem? hj)).1
  have hb : b = b' := by
    cases b <;> cases b'
    · rfl
    · exact absurd (show x < y from h2) (not_lt.2 (le_of_lt (show y < x from h1)))
    · exact absurd (show x < y from h1) (not_lt.2 (le_of_lt (show y < x from h2)))
    · rfl
  subst hb
  exact ⟨table_inj h hi hj, rfl⟩

private theorem joins_unique {E : List (ℕ × ℕ)} {rows : List Row} (h : IsEdgeTable E rows) {f e e' : Row} {b b' : Bool × Bool × Bool}
    (hj : Joins E f e b) (hj' : Joins E f e' b') : e = e' ∧ b = b' := by
  obtain ⟨h1, h2, h3⟩ := hj
  obtain ⟨g1, g2, g3⟩ := hj'
  obtain ⟨a1, c1⟩ := pair_unique h h1 g1
  obtain ⟨a2, c2⟩ := pair_unique h h2 g2
  obtain ⟨a3, c3⟩ := pair_unique h h3 g3
  exact ⟨Prod.ext a1 (Prod.ext a2 a3), Prod.ext c1 (Prod.ext c2 c3)⟩

/-- **C151**, `map_face_2_edge`: if two lists of faces have the same sides, the tables of edges are the same, whichever sorting is used, and a
face that is in both lists has the same edges and directions. -/
theorem C151_same_sides (argsort argsort' : List ℕ → List ℕ) (hsort : IsArgsort argsort) (hsort' : IsArgsort argsort') (F F' : FMat)
    (rows rows' : List Row) (hF : faceRows F = .ok rows) (hF' : faceRows F' = .ok rows') (hne : rows ≠ []) (hne' : rows' ≠ [])
    (hprop : ∀ f ∈ rows, Proper f) (hprop' : ∀ f ∈ rows', Proper f)
    (hs : ∀ a b, (∃ v ∈ rows, IsSide a b v) ↔ ∃ v ∈ rows', IsSide a b v) :
    ∃ E f2e d f2e' d', mapFace2Edge argsort F = .ok (E, f2e, d) ∧ mapFace2Edge argsort' F' = .ok (E, f2e', d') ∧
      ∀ (i j : ℕ) (f : Row), rows[i]? = some f → rows'[j]? = some f →
        ∃ e b, f2e[i]? = some e ∧ f2e'[j]? = some e ∧ d[i]? = some b ∧ d'[j]? = some b := by
  obtain ⟨E, f2e, d, h1, h2, -, -, h3⟩ := C53 argsort hsort F rows hF hne hprop
  obtain ⟨E', f2e', d', g1, g2, -, -, g3⟩ := C53 argsort' hsort' F' rows' hF' hne' hprop'
  obtain rfl := table_unique h2 g2 fun a b _ => hs a b
  refine ⟨E, f2e, d, f2e', d', h1, g1, fun i j f hi hj => ?_⟩
  obtain ⟨e, b, a1, a2, a3⟩ := h3 i f hi
  obtain ⟨e', b', c1, c2, c3⟩ := g3 j f hj
  obtain ⟨rfl, rfl⟩ := joins_unique h2 a3 c3
  exact ⟨e, b, a1, c1, a2, c2⟩

/-- **C151**, `map_face_2_edge`: the result does not depend on how equal keys are sorted. -/
theorem C151_sort (argsort argsort' : List ℕ → List ℕ) (hsort : IsArgsort argsort) (hsort' : IsArgsort argsort') (F : FMat)
    (rows : List Row) (hF : faceRows F = .ok rows) (hne : rows ≠ []) (hprop : ∀ f ∈ rows, Proper f) :
    mapFace2Edge argsort F = mapFace2Edge argsort' F := by
  obtain ⟨E, f2e, d, h1, h2, l1, l2, h3⟩ := C53 argsort hsort F rows hF hne hprop
  obtain ⟨E', f2e', d', g1, g2, m1, m2, g3⟩ := C53 argsort' hsort' F rows hF hne hprop
  obtain rfl := table_unique h2 g2 fun a b _ => Iff.rfl
  have key : ∀ i : ℕ, f2e[i]? = f2e'[i]? ∧ d[i]? = d'[i]? := by
    intro i
    cases hi : rows[i]? with
    | none =>
      have := List.getElem?_eq_none_iff.1 hi
      rw [List.getElem?_eq_none (by omega), List.getElem?_eq_none (by omega), List.getElem?_eq_none (by omega), List.getElem?_eq_none (by omega)]
      exact ⟨rfl, rfl⟩
    | some f =>
      obtain ⟨e, b, a1, a2, a3⟩ := h3 i f hi
      obtain ⟨e', b', c1, c2, c3⟩ := g3 i f hi
      obtain ⟨rfl, rfl⟩ := joins_unique h2 a3 c3
      rw [a1, a2, c1, c2]
      exact ⟨rfl, rfl⟩
  have e1 : f2e = f2e' := List.ext_getElem? fun i => (key i).1
  have e2 : d = d' := List.ext_getElem? fun i => (key i).2
  rw [h1, g1, e1, e2]

/-- **C151**, `map_face_2_edge`: new numbers of the vertices that keep their order give the new numbers in the table of edges and change nothing
else. -/
theorem C151_renumber (argsort : List ℕ → List ℕ) (hsort : IsArgsort argsort) (rows : List Row) (hne : rows ≠ []) (hprop : ∀ f ∈ rows, Proper f)
    (σ : ℕ → ℕ) (hσ : StrictMono σ) : ∃ E f2e d, mapFace2Edge argsort (.mat rows) = .ok (E, f2e, d) ∧
      mapFace2Edge argsort (.mat (rows.map (renTri σ))) = .ok (E.map (fun e => (σ e.1, σ e.2)), f2e, d) := by
  have hprop' : ∀ f ∈ rows.map (renTri σ), Proper f := by
    intro f hf
    obtain ⟨g, hg, rfl⟩ := List.mem_map.1 hf
    exact (ren_proper hσ.injective g).2 (hprop g hg)
  obtain ⟨E, f2e, d, h1, h2, l1, l2, h3⟩ := C53 argsort hsort (.mat rows) rows rfl hne hprop
  obtain ⟨E', f2e', d', g1, g2, m1, m2, g3⟩ := C53 argsort hsort (.mat (rows.map (renTri σ))) _ rfl (by simpa using hne) hprop'
  have hE : IsEdgeTable (E.map (fun e => (σ e.1, σ e.2))) (rows.map (renTri σ)) := by
    refine ⟨?_, fun x y => ?_⟩
    · rw [List.pairwise_map]
      refine h2.1.imp fun {a b} h => ?_
      rcases h with h | ⟨h, h'⟩
      · exact Or.inl (hσ h)
      · exact Or.inr ⟨by rw [h], hσ h'⟩
    · constructor
      · intro h
        obtain ⟨⟨a, b⟩, he, heq⟩ := List.mem_map.1 h
        obtain ⟨rfl, rfl⟩ := Prod.mk.inj heq
        obtain ⟨hab, v, hv, hs⟩ := (h2.2 a b).1 he
        exact ⟨hσ hab, _, List.mem_map_of_mem hv, (ren_side hσ.injective (hprop v hv) a b).2 hs⟩
      · rintro ⟨hxy, v', hv', hs⟩
        obtain ⟨v, hv, rfl⟩ := List.mem_map.1 hv'
        obtain ⟨a, b, rfl, rfl, hab⟩ := side_ren hs
        exact List.mem_map.2 ⟨(a, b), (h2.2 a b).2 ⟨hσ.lt_iff_lt.1 hxy, v, hv, hab⟩, rfl⟩
  obtain rfl := table_unique g2 hE fun a b _ => Iff.rfl
  refine ⟨E, f2e, d, h1, ?_⟩
  have hjr : ∀ f e b, Joins E f e b → Joins (E.map (fun e => (σ e.1, σ e.2))) (renTri σ f) e b := by
    rintro f e b ⟨j1, j2, j3⟩
    have hp : ∀ (b : Bool) (x y : ℕ), dirPair b (σ x) (σ y) = (σ (dirPair b x y).1, σ (dirPair b x y).2) := by
      intro b x y
      cases b <;> rfl
    refine ⟨?_, ?_, ?_⟩
    · rw [List.getElem?_map, j1, renTri, hp]; rfl
    · rw [List.getElem?_map, j2, renTri, hp]; rfl
    · rw [List.getElem?_map, j3, renTri, hp]; rfl
  have key : ∀ i : ℕ, f2e'[i]? = f2e[i]? ∧ d'[i]? = d[i]? := by
    intro i
    cases hi : rows[i]? with
    | none =>
      have := List.getElem?_eq_none_iff.1 hi
      rw [List.length_map] at m1 m2
      rw [List.getElem?_eq_none (by omega), List.getElem?_eq_none (by omega), List.getElem?_eq_none (by omega), List.getElem?_eq_none (by omega)]
      exact ⟨rfl, rfl⟩
    | some f =>
      obtain ⟨e, b, a1, a2, a3⟩ := h3 i f hi
      obtain ⟨e', b', c1, c2, c3⟩ := g3 i (renTri σ f) (by rw [List.getElem?_map, hi]; rfl)
      obtain ⟨rfl, rfl⟩ := joins_unique g2 c3 (hjr _ _ _ a3)
      rw [a1, a2, c1, c2]
      exact ⟨rfl, rfl⟩
  have e1 : f2e' = f2e := List.ext_getElem? fun i => (key i).1
  have e2 : d' = d := List.ext_getElem? fun i => (key i).2
  rw [g1, e1, e2]

/-- **C151**, `map_face_2_edge`: a list of faces has at least as many edges as a part of it, and at most three for each face; the edges of the
part are edges of the whole. -/
theorem C151_part (argsort : List ℕ → List ℕ) (hsort : IsArgsort argsort) (rows rows' : List Row) (hne : rows ≠ []) (hsub : rows ⊆ rows')
    (hprop : ∀ f ∈ rows', Proper f) : ∃ E f2e d E' f2e' d', mapFace2Edge argsort (.mat rows) = .ok (E, f2e, d) ∧
      mapFace2Edge argsort (.mat rows') = .ok (E', f2e', d') ∧ E.Sublist E' ∧ E'.length ≤ 3 * rows'.length := by
  have hne' : rows' ≠ [] := by
    rintro rfl
    exact hne (List.eq_nil_of_subset_nil hsub)
  obtain ⟨E, f2e, d, h1, h2, -⟩ := C53 argsort hsort (.mat rows) rows rfl hne fun f hf => hprop f (hsub hf)
  obtain ⟨E', f2e', d', g1, g2, -⟩ := C53 argsort hsort (.mat rows') rows' rfl hne' hprop
  refine ⟨E, f2e, d, E', f2e', d', h1, g1, ?_, ?_⟩
  · have : E = E'.filter (fun x => decide (x ∈ E)) := by
      refine sorted_ext h2.1 (g2.1.filter _) fun x => ?_
      simp only [List.mem_filter, decide_eq_true_eq]
      refine ⟨fun hx => ⟨?_, hx⟩, fun hx => hx.2⟩
      obtain ⟨hab, v, hv, hs⟩ := (h2.2 x.1 x.2).1 hx
      exact (g2.2 x.1 x.2).2 ⟨hab, v, hsub hv, hs⟩
    rw [this]
    exact List.filter_sublist
  · have hn : E'.Nodup := g2.1.imp (by rintro a b h rfl; omega)
    have hsub' : E' ⊆ rows'.flatMap (fun v => [(min v.1 v.2.1, max v.1 v.2.1), (min v.2.1 v.2.2, max v.2.1 v.2.2), (min v.1 v.2.2, max v.1 v.2.2)]) := by
      rintro ⟨a, b⟩ hx
      obtain ⟨hab, v, hv, hs⟩ := (g2.2 a b).1 hx
      refine List.mem_flatMap.2 ⟨v, hv, ?_⟩
      simp only [IsSide, List.mem_cons, List.not_mem_nil, or_false, Prod.mk.injEq] at hs ⊢
      omega
    have := (hn.subperm hsub').length_le
    rw [List.length_flatMap] at this
    simpa [mul_comm] using this

/-! ### `is_face` -/

private theorem isFace_iff (argsort : List ℕ → List ℕ) (hsort : IsArgsort argsort) (F : FMat) (rows check : List Row) (hF : faceRows F = .ok rows)
    (hrows : ∀ f ∈ rows, Proper f) (hcheck : ∀ t ∈ check, Proper t) : ∃ r, isFace argsort F check = .ok r ∧ r.length = check.length ∧
      ∀ (k : ℕ) (t : Row), check[k]? = some t → (r[k]? = some true ↔ SidesFree rows t ∧ ∃ f ∈ rows, SameTri t f) := by
  obtain ⟨r, h1, h2, h3⟩ := C72_partial argsort hsort F rows check hF hrows
  obtain ⟨r', g1, -, g3⟩ := C72_missed argsort hsort F rows check hF hrows
  rw [h1] at g1
  obtain rfl := Except.ok.inj g1
  refine ⟨r, h1, h2, fun k t hk => ?_⟩
  have hp := hcheck t (List.mem_of_getElem? hk)
  by_cases hs : SidesFree rows t
  · rw [h3 k t hk hp hs]
    exact ⟨fun h => ⟨hs, h⟩, fun h => h.2⟩
  · rw [g3 k t hk hp hs]
    simp [hs]

private theorem count_eq {σ : ℕ → ℕ} (hσ : Function.Injective σ) {rows rows' : List Row} (h : List.Forall₂ (fun f f' => SameTri (renTri σ f) f') rows rows')
    (hp : ∀ f ∈ rows, Proper f) (a b : ℕ) : sideCount rows' (σ a) (σ b) = sideCount rows a b := by
  induction h with
  | nil => rfl
  | @cons f f' l l' hff _ ih =>
    have hpf := hp f List.mem_cons_self
    have hiff : IsSide (σ a) (σ b) f' ↔ IsSide a b f := by
      rw [← same_side hff ((ren_proper hσ f).2 hpf), ren_side hσ hpf]
    have ih := ih fun g hg => hp g (List.mem_cons_of_mem _ hg)
    unfold sideCount at ih ⊢
    by_cases hs : IsSide a b f
    · rw [List.filter_cons_of_pos (by simpa using hiff.2 hs), List.filter_cons_of_pos (by simpa using hs)]
      simp [ih]
    · rw [List.filter_cons_of_neg (by simpa using fun h => hs (hiff.1 h)), List.filter_cons_of_neg (by simpa using hs)]
      exact ih

/-- **C151**, `is_face`: the answers do not depend on the order of the faces, on the order of the vertices in the faces and in the rows that are
looked for, on the numbering of the vertices, and on the sorting. -/
theorem C151_is_face (argsort argsort' : List ℕ → List ℕ) (hsort : IsArgsort argsort) (hsort' : IsArgsort argsort') (F F' : FMat)
    (rows rows' rows'' check check' : List Row) (hF : faceRows F = .ok rows) (hF' : faceRows F' = .ok rows') (hrows : ∀ f ∈ rows, Proper f)
    (hcheck : ∀ t ∈ check, Proper t) (σ : ℕ → ℕ) (hσ : Function.Injective σ) (hr : List.Forall₂ (fun f f' => SameTri (renTri σ f) f') rows rows'')
    (hperm : rows''.Perm rows') (hc : List.Forall₂ (fun t t' => SameTri (renTri σ t) t') check check') :
    isFace argsort' F' check' = isFace argsort F check := by
  have hr'' : ∀ f' ∈ rows'', ∃ f ∈ rows, SameTri (renTri σ f) f' := by
    intro f' hf'
    obtain ⟨i, hi⟩ := List.getElem?_of_mem hf'
    have hlt := (List.getElem?_eq_some_iff.1 hi).1
    refine ⟨rows[i]'(by rw [hr.length_eq]; exact hlt), List.getElem_mem _, ?_⟩
    have := hr.get (i := i) (by rw [hr.length_eq]; exact hlt) hlt
    rw [List.getElem?_eq_getElem hlt] at hi
    cases hi
    simpa using this
  have hr1 : ∀ f ∈ rows, ∃ f' ∈ rows'', SameTri (renTri σ f) f' := by
    intro f hf
    obtain ⟨i, hi⟩ := List.getElem?_of_mem hf
    have hlt := (List.getElem?_eq_some_iff.1 hi).1
    refine ⟨rows''[i]'(by rw [← hr.length_eq]; exact hlt), List.getElem_mem _, ?_⟩
    have := hr.get (i := i) hlt (by rw [← hr.length_eq]; exact hlt)
    rw [List.getElem?_eq_getElem hlt] at hi
    cases hi
    simpa using this
  have hrows' : ∀ f ∈ rows', Proper f := by
    intro f' hf'
    obtain ⟨f, hf, hs⟩ := hr'' f' (hperm.mem_iff.2 hf')
    exact (same_proper hs).1 ((ren_proper hσ f).2 (hrows f hf))
  have hget : ∀ (k : ℕ) (t : Row), check[k]? = some t → ∃ t', check'[k]? = some t' ∧ SameTri (renTri σ t) t' := by
    intro k t hk
    have hlt := (List.getElem?_eq_some_iff.1 hk).1
    have hlt' : k < check'.length := by rw [← hc.length_eq]; exact hlt
    refine ⟨check'[k], List.getElem?_eq_getElem hlt', ?_⟩
    have := hc.get (i := k) hlt hlt'
    rw [List.getElem?_eq_getElem hlt] at hk
    cases hk
    simpa using this
  have hcheck' : ∀ t ∈ check', Proper t := by
    intro t' ht'
    obtain ⟨k, hk⟩ := List.getElem?_of_mem ht'
    have hlt : k < check.length := by rw [hc.length_eq]; exact (List.getElem?_eq_some_iff.1 hk).1
    obtain ⟨t'', h1, h2⟩ := hget k check[k] (List.getElem?_eq_getElem hlt)
    rw [hk] at h1
    cases h1
    exact (same_proper h2).1 ((ren_proper hσ _).2 (hcheck _ (List.getElem_mem hlt)))
  obtain ⟨r, h1, h2, h3⟩ := isFace_iff argsort hsort F rows check hF hrows hcheck
  obtain ⟨r', g1, g2, g3⟩ := isFace_iff argsort' hsort' F' rows' check' hF' hrows' hcheck'
  rw [h1, g1]
  refine congrArg Except.ok (List.ext_getElem? fun k => ?_)
  have hlen : r'.length = r.length := by rw [g2, h2, hc.length_eq]
  by_cases hk : k < r.length
  swap
  · rw [List.getElem?_eq_none (by omega), List.getElem?_eq_none (by omega)]
  have hkc : k < check.length := by omega
  obtain ⟨t', hk', hs⟩ := hget k check[k] (List.getElem?_eq_getElem hkc)
  have hpt := hcheck _ (List.getElem_mem hkc)
  have e1 := h3 k check[k] (List.getElem?_eq_getElem hkc)
  have e2 := g3 k t' hk'
  have hcount : ∀ a b, sideCount rows' (σ a) (σ b) = sideCount rows a b := by
    intro a b
    rw [← count_eq hσ hr hrows a b]
    unfold sideCount
    exact (hperm.filter _).length_eq.symm
  have hiff : (SidesFree rows' t' ∧ ∃ f ∈ rows', SameTri t' f) ↔ (SidesFree rows check[k] ∧ ∃ f ∈ rows, SameTri check[k] f) := by
    refine and_congr ?_ ?_
    · constructor
      · intro h a b hab
        rw [← hcount]
        exact h _ _ ((same_side hs ((ren_proper hσ _).2 hpt) _ _).1 ((ren_side hσ hpt a b).2 hab))
      · intro h x y hxy
        obtain ⟨a, b, rfl, rfl, hab⟩ := side_ren ((same_side hs ((ren_proper hσ _).2 hpt) _ _).2 hxy)
        rw [hcount]
        exact h a b hab
    · constructor
      · rintro ⟨f', hf', hsf⟩
        obtain ⟨f, hf, hff⟩ := hr'' f' (hperm.mem_iff.2 hf')
        refine ⟨f, hf, ?_⟩
        have : SameTri (renTri σ check[k]) (renTri σ f) := (hs.trans hsf).trans hff.symm
        unfold SameTri at this ⊢
        rw [ren_list, ren_list] at this
        exact (List.map_perm_map_iff hσ).1 this
      · rintro ⟨f, hf, hsf⟩
        obtain ⟨f', hf', hff⟩ := hr1 f hf
        refine ⟨f', hperm.mem_iff.1 hf', hs.symm.trans (List.Perm.trans ?_ hff)⟩
        rw [ren_list, ren_list]
        exact hsf.map σ
  rw [← e1, ← e2] at hiff
  rw [List.getElem?_eq_getElem hk, List.getElem?_eq_getElem (by omega)] at hiff ⊢
  simp only [Option.some.injEq] at hiff ⊢
  cases h : r[k] <;> cases h' : r'[k]'(by omega) <;> simp_all

/-! ### Instances -/

/-- Two triangles in another order and turned. -/
example : ∃ E f2e d f2e' d', mapFace2Edge stableArgsort (.mat [(0, 1, 2), (1, 2, 3)]) = .ok (E, f2e, d) ∧
    mapFace2Edge stableArgsort (.mat [(2, 3, 1), (0, 1, 2)]) = .ok (E, f2e', d') ∧ ∃ e, f2e[0]? = some e ∧ f2e'[1]? = some e := by
  obtain ⟨E, f2e, d, f2e', d', h1, h2, h3⟩ := C151_same_sides stableArgsort stableArgsort stableArgsort_ok stableArgsort_ok (.mat [(0, 1, 2), (1, 2, 3)])
    (.mat [(2, 3, 1), (0, 1, 2)]) _ _ rfl rfl (by simp) (by simp) (by intro f hf; simp at hf; rcases hf with rfl | rfl <;> simp [Proper])
    (by intro f hf; simp at hf; rcases hf with rfl | rfl <;> simp [Proper]) (by
      intro a b
      have hs : IsSide a b (1, 2, 3) ↔ IsSide a b (2, 3, 1) := same_side (by unfold SameTri; decide) (by simp [Proper]) a b
      simp only [List.mem_cons, List.not_mem_nil, or_false, exists_eq_or_imp, exists_eq_left, hs]
      exact or_comm)
  obtain ⟨e, -, a1, a2, -⟩ := h3 0 1 (0, 1, 2) rfl rfl
  exact ⟨E, f2e, d, f2e', d', h1, h2, e, a1, a2⟩

/-- Every number doubled. -/
example : ∃ E f2e d, mapFace2Edge stableArgsort (.mat [(0, 1, 2), (1, 2, 3)]) = .ok (E, f2e, d) ∧
    mapFace2Edge stableArgsort (.mat [(0, 2, 4), (2, 4, 6)]) = .ok (E.map (fun e => (2 * e.1, 2 * e.2)), f2e, d) := by
  have h := C151_renumber stableArgsort stableArgsort_ok [(0, 1, 2), (1, 2, 3)] (by simp)
    (by intro f hf; simp at hf; rcases hf with rfl | rfl <;> simp [Proper]) (fun k => 2 * k) (fun a b h => by simpa using h)
  simpa [renTri] using h

/-- One of the two triangles. -/
example : ∃ E f2e d E' f2e' d', mapFace2Edge stableArgsort (.mat [(1, 2, 3)]) = .ok (E, f2e, d) ∧
    mapFace2Edge stableArgsort (.mat [(0, 1, 2), (1, 2, 3)]) = .ok (E', f2e', d') ∧ E.Sublist E' ∧ E'.length ≤ 6 := by
  have h := C151_part stableArgsort stableArgsort_ok [(1, 2, 3)] [(0, 1, 2), (1, 2, 3)] (by simp) (by simp)
    (by intro f hf; simp at hf; rcases hf with rfl | rfl <;> simp [Proper])
  exact h

/-- The vertices 0, 1, 2, 3 get the numbers 3, 4, 5, 6, the faces are given in the other order, the row that is looked for is turned. -/
example : isFace stableArgsort (.mat [(5, 6, 4), (3, 4, 5)]) [(5, 3, 4)] = isFace stableArgsort (.mat [(0, 1, 2), (1, 2, 3)]) [(0, 1, 2)] :=
  C151_is_face stableArgsort stableArgsort stableArgsort_ok stableArgsort_ok _ _ [(0, 1, 2), (1, 2, 3)] [(5, 6, 4), (3, 4, 5)] [(3, 4, 5), (5, 6, 4)]
    [(0, 1, 2)] [(5, 3, 4)] rfl rfl (by intro f hf; simp at hf; rcases hf with rfl | rfl <;> simp [Proper])
    (by intro f hf; simp at hf; rcases hf with rfl; simp [Proper]) (fun k => k + 3) (fun a b h => by simpa using h)
    (.cons (by unfold SameTri renTri; decide) (.cons (by unfold SameTri renTri; decide) .nil)) (List.Perm.swap _ _ _)
    (.cons (by unfold SameTri renTri; decide) .nil)

end Ellipy.Tri
