import Mathlib.Tactic.IntervalCases
import Verif.Model.TriEqual
import Verif.Proofs.TriFaceEdge
import Verif.Spec.TriEqual

/-! Lemmas about `is_face`. -/

namespace Ellipy.Tri

/-- A list sorted by its keys is cut by the number of the smaller keys. -/
theorem sorted_cut (z : List (ℕ × ℕ)) (hz : z.Pairwise (fun a b => a.1 ≤ b.1)) (c : ℕ) :
    z.take (z.countP (fun x => decide (x.1 < c))) = z.filter (fun x => decide (x.1 < c)) ∧
    z.drop (z.countP (fun x => decide (x.1 < c))) = z.filter (fun x => !decide (x.1 < c)) := by
  induction z with
  | nil => simp
  | cons x z ih =>
    rw [List.pairwise_cons] at hz
    by_cases hx : x.1 < c
    · obtain ⟨h1, h2⟩ := ih hz.2
      simp only [List.countP_cons, hx, decide_true, if_true, List.take_succ_cons, List.drop_succ_cons, List.filter_cons, h1, h2]
      simp
    · have h0 : z.countP (fun x => decide (x.1 < c)) = 0 := by
        rw [List.countP_eq_zero]
        intro y hy
        have := hz.1 y hy
        simp; omega
      have h3 : z.filter (fun x => decide (x.1 < c)) = [] := by rw [← List.length_eq_zero_iff, ← List.countP_eq_length_filter, h0]
      have h4 : z.filter (fun x => !decide (x.1 < c)) = z := by
        rw [List.filter_eq_self]
        intro y hy
        have := hz.1 y hy
        simp; omega
      rw [List.countP_cons, h0]
      simp only [hx, List.filter_cons, h3, h4]
      simp

theorem sorted_chunk (z : List (ℕ × ℕ)) (hz : z.Pairwise (fun a b => a.1 ≤ b.1)) (c : ℕ) :
    (z.take (z.countP (fun x => decide (x.1 < c + 1)))).drop (z.countP (fun x => decide (x.1 < c))) =
      z.filter (fun x => decide (x.1 = c)) := by
  rw [(sorted_cut z hz (c + 1)).1]
  have hs : (z.filter (fun x => decide (x.1 < c + 1))).Pairwise (fun a b => a.1 ≤ b.1) := hz.sublist List.filter_sublist
  have h1 := (sorted_cut _ hs c).2
  have h2 : (z.filter (fun x => decide (x.1 < c + 1))).countP (fun x => decide (x.1 < c)) = z.countP (fun x => decide (x.1 < c)) := by
    rw [List.countP_filter]
    refine List.countP_congr (fun x _ => ?_)
    simp; omega
  rw [h2] at h1
  rw [h1, List.filter_filter]
  refine List.filter_congr (fun x _ => ?_)
  rw [Bool.eq_iff_iff]
  simp; omega

/-- `f_num_list`: the numbers with the same key. -/
theorem split_eq (z : List (ℕ × ℕ)) (hz : z.Pairwise (fun a b => a.1 ≤ b.1)) (m : ℕ) (hm : 0 < m) (hcov : ∀ j, j ∈ z.map Prod.fst ↔ j < m) :
    npSplit (z.map Prod.snd) (npCumsum (npBincount (z.map Prod.fst)).dropLast) =
      (List.range m).map (fun c => (z.filter (fun x => decide (x.1 = c))).map Prod.snd) := by
  set B : ℕ → ℕ := fun c => z.countP (fun x => decide (x.1 < c)) with hB
  have hBc : ∀ c, (z.map Prod.fst).countP (fun x => decide (x < c)) = B c := by
    intro c; rw [List.countP_map]; rfl
  have hcuts : npCumsum (npBincount (z.map Prod.fst)).dropLast = (List.range (m - 1)).map (fun c => B (c + 1)) := by
    rw [bincount_eq _ m hcov]
    unfold npCumsum
    have hlen : ((List.range m).map (fun j => (z.map Prod.fst).count j)).dropLast.length = m - 1 := by simp
    rw [hlen]
    refine List.map_congr_left (fun c hc => ?_)
    rw [List.mem_range] at hc
    rw [List.dropLast_eq_take, List.take_take, List.length_map, List.length_range, Nat.min_eq_left (by omega),
        take_range_map _ _ _ (by omega), count_sum, hBc]
  rw [hcuts]
  have h0 : B 0 = 0 := by simp [hB]
  have hall : B m = (z.map Prod.snd).length := by
    rw [List.length_map, hB]
    simp only
    rw [List.countP_eq_length]
    intro x hx
    simpa using (hcov x.1).mp (List.mem_map_of_mem hx)
  obtain ⟨k, rfl⟩ : ∃ k, m = k + 1 := ⟨m - 1, by omega⟩
  have e1 : 0 :: (List.range (k + 1 - 1)).map (fun c => B (c + 1)) = (List.range (k + 1)).map B := by
    rw [List.range_succ_eq_map, List.map_cons, List.map_map, h0]; rfl
  have e2 : (List.range (k + 1 - 1)).map (fun c => B (c + 1)) ++ [(z.map Prod.snd).length] = (List.range (k + 1)).map (fun c => B (c + 1)) := by
    rw [List.range_succ, List.map_append, ← hall]; rfl
  unfold npSplit
  rw [e1, e2, List.zipWith_map, List.zipWith_self]
  refine List.map_congr_left (fun c _ => ?_)
  rw [← List.map_take, ← List.map_drop, sorted_chunk z hz]

/-- The sorted sides of a row. -/
def sidesOf (f : Row) : List (ℕ ×ₗ ℕ) := [sortPair f.1 f.2.1, sortPair f.1 f.2.2, sortPair f.2.1 f.2.2]

theorem posEdges_eq (rows : List Row) : posEdges rows = rows.flatMap sidesOf := rfl

/-- The numbers of the rows with a given side, as often as they have it. -/
def chunk (rows : List Row) (e : ℕ ×ₗ ℕ) : List ℕ :=
  (List.range rows.length).flatMap (fun i => ((sidesOf (rows.getD i (0, 0, 0))).filter (fun s => decide (s = e))).map (fun _ => i))

theorem mem_chunk (rows : List Row) (e : ℕ ×ₗ ℕ) (i : ℕ) : i ∈ chunk rows e ↔ ∃ f, rows[i]? = some f ∧ e ∈ sidesOf f := by
  unfold chunk
  simp only [List.mem_flatMap, List.mem_range, List.mem_map, List.mem_filter, decide_eq_true_eq]
  constructor
  · rintro ⟨j, hj, s, ⟨hs, rfl⟩, rfl⟩
    refine ⟨rows[j], List.getElem?_eq_getElem hj, ?_⟩
    simpa [List.getD_eq_getElem?_getD, hj] using hs
  · rintro ⟨f, hf, he⟩
    obtain ⟨hi, rfl⟩ := List.getElem?_eq_some_iff.mp hf
    exact ⟨i, hi, e, ⟨by simpa [List.getD_eq_getElem?_getD, hi] using he, rfl⟩, rfl⟩

theorem range_getD {α β : Type} (l : List α) (d : α) (g : α → List β) :
    (List.range l.length).flatMap (fun i => g (l.getD i d)) = l.flatMap g := by
  induction l with
  | nil => rfl
  | cons x l ih =>
    rw [List.length_cons, List.range_succ_eq_map, List.flatMap_cons, List.flatMap_cons, List.flatMap_map, ← ih]
    rfl

theorem length_chunk (rows : List Row) (e : ℕ ×ₗ ℕ) : (chunk rows e).length = (posEdges rows).count e := by
  rw [posEdges_eq, List.count_flatMap]
  unfold chunk
  rw [List.length_flatMap]
  have : ∀ f : Row, (List.count e ∘ sidesOf) f = ((sidesOf f).filter (fun s => decide (s = e))).length := by
    intro f
    rw [Function.comp, List.count, List.countP_eq_length_filter]
    refine congrArg _ (List.filter_congr (fun x _ => ?_))
    rw [Bool.eq_iff_iff]; simp
  rw [show (List.count e ∘ sidesOf) = fun f => ((sidesOf f).filter (fun s => decide (s = e))).length from funext this]
  have h2 : ∀ i, (((sidesOf (rows.getD i (0, 0, 0))).filter (fun s => decide (s = e))).map (fun _ => i)).length =
      ((sidesOf (rows.getD i (0, 0, 0))).filter (fun s => decide (s = e))).length := fun i => by rw [List.length_map]
  simp only [h2]
  clear h2 this
  induction rows with
  | nil => rfl
  | cons x l ih =>
    rw [List.length_cons, List.range_succ_eq_map, List.map_cons, List.map_cons, List.sum_cons, List.sum_cons, List.map_map, ← ih]
    rfl

/-- The loop of `get_edge_attachements`. -/
theorem attachLoop_ok {α : Type} [LinearOrder α] (fNum : List (List ℕ)) (E check : List α) (g : α → List ℕ)
    (hg : ∀ e ∈ E, fNum[posIn E e]? = some (g e)) (hg' : ∀ e, e ∉ E → g e = []) (pre : List ℕ) :
    attachLoop fNum (pre ++ (check.filter (fun x => decide (x ∈ E))).map (fun x => E.idxOf x)) (check.map (fun x => decide (x ∈ E))) pre.length =
      .ok (check.map g) := by
  induction check generalizing pre with
  | nil => rfl
  | cons e es ih =>
    by_cases he : e ∈ E
    · rw [List.map_cons, List.filter_cons]
      simp only [he, decide_true, if_true, List.map_cons]
      unfold attachLoop
      have h1 : pyIndex (pre ++ E.idxOf e :: (es.filter (fun x => decide (x ∈ E))).map (fun x => E.idxOf x)) pre.length = .ok (E.idxOf e) := by
        unfold pyIndex; simp
      have h2 : pyIndex fNum (E.idxOf e) = .ok (g e) := by unfold pyIndex; rw [show fNum[E.idxOf e]? = some (g e) from hg e he]
      have h3 := ih (pre ++ [E.idxOf e])
      rw [List.append_assoc, List.length_append] at h3
      simp only [List.singleton_append, List.length_singleton] at h3
      rw [h1]; simp only; rw [h2]; simp only; rw [h3]
    · rw [List.map_cons, List.filter_cons]
      simp only [he, decide_false, List.map_cons]
      unfold attachLoop
      have h3 := ih pre
      simp only [Bool.false_eq_true, if_false]
      rw [h3]; simp only; rw [hg' e he]

/-- `get_edge_attachements`. -/
theorem edgeAttachments_ok (fNum : List (List ℕ)) (E check : List (ℕ ×ₗ ℕ)) (g : ℕ ×ₗ ℕ → List ℕ)
    (hg : ∀ e ∈ E, fNum[posIn E e]? = some (g e)) (hg' : ∀ e, e ∉ E → g e = []) : edgeAttachments fNum E check = .ok (check.map g) := by
  unfold edgeAttachments
  rw [isMember_eq]
  simp only
  exact attachLoop_ok fNum E check g hg hg' []

theorem fnumRow_nat (d : ℤ × ℤ) (h1 : d.1 < 0) (h2 : d.2 < 0) (v : List ℕ) (i : ℕ) :
    ((i : ℤ) = (fnumRow d v).1 ∨ (i : ℤ) = (fnumRow d v).2) ↔ v.length ≤ 2 ∧ i ∈ v := by
  rcases v with _ | ⟨x, _ | ⟨y, _ | ⟨w, v⟩⟩⟩
  · simp [fnumRow]; omega
  · simp [fnumRow]; omega
  · simp [fnumRow]
  · simp [fnumRow]; omega

theorem fnumRow_neg (d : ℤ × ℤ) (v : List ℕ) (x : ℤ) (hx : x < 0) (h : x = (fnumRow d v).1 ∨ x = (fnumRow d v).2) : x = d.1 ∨ x = d.2 := by
  rcases v with _ | ⟨a, _ | ⟨y, _ | ⟨w, v⟩⟩⟩
  · exact h
  · simp [fnumRow] at h; omega
  · simp [fnumRow] at h; omega
  · exact h

theorem intersectRow_iff (p q r : ℤ × ℤ) :
    intersectRow p q r = true ↔ ∃ x, (x = p.1 ∨ x = p.2) ∧ (x = q.1 ∨ x = q.2) ∧ (x = r.1 ∨ x = r.2) := by
  obtain ⟨p1, p2⟩ := p
  obtain ⟨q1, q2⟩ := q
  obtain ⟨r1, r2⟩ := r
  simp only [intersectRow, combs, flipOrNot, List.any_cons, List.any_nil, Bool.or_eq_true, Bool.and_eq_true, decide_eq_true_eq, if_true,
    Bool.false_eq_true, if_false, or_false]
  constructor
  · intro h
    by_contra hc
    push Not at hc
    have h1 := hc p1
    have h2 := hc p2
    clear hc
    omega
  · rintro ⟨x, h1 | h1, h2 | h2, h3 | h3⟩ <;> omega

/-- The entry of the result for one row. -/
theorem row_iff (v12 v23 v13 : List ℕ) :
    intersectRow (fnumRow (-121, -122) v12) (fnumRow (-231, -232) v23) (fnumRow (-131, -132) v13) = true ↔
      (v12.length ≤ 2 ∧ v23.length ≤ 2 ∧ v13.length ≤ 2) ∧ ∃ i, i ∈ v12 ∧ i ∈ v23 ∧ i ∈ v13 := by
  rw [intersectRow_iff]
  constructor
  · rintro ⟨x, h1, h2, h3⟩
    by_cases hx : x < 0
    · have a := fnumRow_neg _ _ x hx h1
      have b := fnumRow_neg _ _ x hx h2
      simp only at a b
      omega
    · obtain ⟨i, rfl⟩ := Int.eq_ofNat_of_zero_le (not_lt.mp hx)
      have a := (fnumRow_nat _ (by norm_num) (by norm_num) _ i).mp h1
      have b := (fnumRow_nat _ (by norm_num) (by norm_num) _ i).mp h2
      have c := (fnumRow_nat _ (by norm_num) (by norm_num) _ i).mp h3
      exact ⟨⟨a.1, b.1, c.1⟩, i, a.2, b.2, c.2⟩
  · rintro ⟨⟨a, b, c⟩, i, a', b', c'⟩
    exact ⟨i, (fnumRow_nat _ (by norm_num) (by norm_num) _ i).mpr ⟨a, a'⟩, (fnumRow_nat _ (by norm_num) (by norm_num) _ i).mpr ⟨b, b'⟩,
      (fnumRow_nat _ (by norm_num) (by norm_num) _ i).mpr ⟨c, c'⟩⟩

theorem zip_flatMap {ι α β : Type} (l : List ι) (a : ι → List α) (b : ι → List β) (h : ∀ i, (a i).length = (b i).length) :
    (l.flatMap a).zip (l.flatMap b) = l.flatMap (fun i => (a i).zip (b i)) := by
  induction l with
  | nil => rfl
  | cons x l ih => rw [List.flatMap_cons, List.flatMap_cons, List.flatMap_cons, List.zip_append (h x), ih]

theorem range_zip {α β : Type} (a : List α) (b : List β) (da : α) (db : β) (h : a.length = b.length) :
    (List.range a.length).map (fun i => (a.getD i da, b.getD i db)) = a.zip b := by
  induction a generalizing b with
  | nil => simp
  | cons x a ih =>
    cases b with
    | nil => simp at h
    | cons y b =>
      rw [List.length_cons, List.range_succ_eq_map, List.map_cons, List.map_map, List.zip_cons_cons, ← ih b (by simpa using h)]
      rfl

theorem posIn_inj {α : Type} [LinearOrder α] {l : List α} {x y : α} (hy : y ∈ l) : posIn l x = posIn l y ↔ x = y := by
  constructor
  · intro h
    have h1 := getElem?_posIn hy
    rw [← h] at h1
    obtain ⟨h2, h3⟩ := List.getElem?_eq_some_iff.mp h1
    exact (List.getElem_idxOf h2).symm.trans h3
  · rintro rfl; rfl

/-- The keys of the sorted list of sides are all the numbers of edges. -/
theorem keys_cover (rows : List Row) (srt : List ℕ) (hperm : srt.Perm (List.range (npUniqueInverse (posEdges rows)).length)) (j : ℕ) :
    j ∈ srt.map (fun i => (npUniqueInverse (posEdges rows)).getD i 0) ↔ j < (npUnique (posEdges rows)).length := by
  set pos := posEdges rows with hpos
  set E := npUnique pos with hE
  set inv := npUniqueInverse pos with hinv
  have hlen : inv.length = pos.length := by rw [hinv, inverse_eq, List.length_map]
  have hEnd : E.Nodup := npUnique_nodup pos
  rw [List.mem_map]
  constructor
  · rintro ⟨i, hi, rfl⟩
    have hi' : i < inv.length := List.mem_range.mp (hperm.mem_iff.mp hi)
    have : inv.getD i 0 ∈ inv := by
      rw [List.getD_eq_getElem?_getD, List.getElem?_eq_getElem hi']; exact List.getElem_mem _
    rw [hinv, inverse_eq, List.mem_map] at this
    obtain ⟨x, hx, hxe⟩ := this
    rw [hinv, inverse_eq, ← hxe]
    exact posIn_lt (mem_npUnique.mpr hx)
  · intro hj
    have hmem : E[j] ∈ pos := mem_npUnique.mp (List.getElem_mem _)
    obtain ⟨i, hi, hie⟩ := List.getElem_of_mem hmem
    refine ⟨i, hperm.mem_iff.mpr (List.mem_range.mpr (by rw [hlen]; exact hi)), ?_⟩
    rw [hinv, inverse_eq, List.getD_eq_getElem?_getD, List.getElem?_map, List.getElem?_eq_getElem hi]
    simp only [Option.map_some, Option.getD_some]
    rw [hie, ← hE, posIn_getElem hEnd]

/-- The lists of faces of the edges. -/
theorem fNum_ok (argsort : List ℕ → List ℕ) (hsort : IsArgsort argsort) (F : FMat) (rows : List Row) (hF : faceRows F = .ok rows) :
    ∃ E indF shift, faceEdgeInfo argsort F = .ok (rows, E, indF, shift) ∧ ∃ g : ℕ ×ₗ ℕ → List ℕ,
      (∀ e ∈ E, (if shift.length = 1 then [indF] else npSplit indF (npCumsum shift.dropLast))[posIn E e]? = some (g e)) ∧
      (∀ e, e ∉ E → g e = []) ∧ ∀ e, (g e).Perm (chunk rows e) := by
  classical
  set pos := posEdges rows with hpos
  set E := npUnique pos with hE
  set inv := npUniqueInverse pos with hinv
  set srt := argsort inv with hsrt
  set indF := (List.range rows.length).flatMap (fun i => [i, i, i]) with hindF
  obtain ⟨hperm, hsorted⟩ := hsort inv
  have hcov := keys_cover rows srt hperm
  set z := srt.map (fun i => (inv.getD i 0, indF.getD i 0)) with hz
  have hz1 : z.map Prod.fst = srt.map (fun i => inv.getD i 0) := by rw [hz, List.map_map]; rfl
  have hz2 : z.map Prod.snd = srt.map (fun i => indF.getD i 0) := by rw [hz, List.map_map]; rfl
  refine ⟨E, z.map Prod.snd, npBincount (z.map Prod.fst), ?_, ?_⟩
  · unfold faceEdgeInfo; rw [hF, hz1, hz2]
  have hzs : z.Pairwise (fun a b => a.1 ≤ b.1) := by
    rw [← hz1, List.pairwise_map] at hsorted
    exact hsorted
  rw [← hz1] at hcov
  have hmemE : ∀ e, e ∈ E ↔ e ∈ pos := fun e => mem_npUnique
  have hchunk : ∀ e, e ∉ E → chunk rows e = [] := by
    intro e he
    rw [← List.length_eq_zero_iff, length_chunk, List.count_eq_zero]
    exact fun h => he ((hmemE e).mpr h)
  set g : ℕ ×ₗ ℕ → List ℕ := fun e => if e ∈ E then (z.filter (fun x => decide (x.1 = posIn E e))).map Prod.snd else [] with hg
  refine ⟨g, ?_, ?_, ?_⟩
  · intro e he
    have hpE := posIn_lt he
    have hsplit := split_eq z hzs E.length (by omega) hcov
    have hgE : g e = (z.filter (fun x => decide (x.1 = posIn E e))).map Prod.snd := if_pos he
    by_cases h1 : (npBincount (z.map Prod.fst)).length = 1
    · rw [if_pos h1]
      have hE1 : E.length = 1 := by rw [bincount_eq _ _ hcov] at h1; simpa using h1
      have hp0 : posIn E e = 0 := by omega
      rw [hgE, hp0]
      have : z.filter (fun x => decide (x.1 = 0)) = z := by
        rw [List.filter_eq_self]
        intro x hx
        have h2 : x.1 < E.length := (hcov x.1).mp (List.mem_map_of_mem hx)
        rw [decide_eq_true_eq]; omega
      rw [this]; rfl
    · rw [if_neg h1, hsplit, List.getElem?_map, List.getElem?_range hpE, hgE]
      rfl
  · intro e he
    exact if_neg he
  · intro e
    by_cases he : e ∈ E
    · have hgE : g e = (z.filter (fun x => decide (x.1 = posIn E e))).map Prod.snd := if_pos he
      rw [hgE]
      have hlen1 : inv.length = indF.length := by
        rw [hinv, inverse_eq, List.length_map, hpos, posEdges_eq, hindF, List.length_flatMap, List.length_flatMap]
        simp [sidesOf]
      have hzp : z.Perm (inv.zip indF) := by
        rw [hz, ← range_zip inv indF 0 0 hlen1]
        exact hperm.map _
      refine ((hzp.filter _).map _).trans (List.Perm.of_eq ?_)
      have hinv2 : inv = (List.range rows.length).flatMap (fun i => (sidesOf (rows.getD i (0, 0, 0))).map (posIn E)) := by
        rw [range_getD rows (0, 0, 0) (fun f => (sidesOf f).map (posIn E)), hinv, inverse_eq, hpos, posEdges_eq, List.map_flatMap]
        rfl
      rw [hinv2, hindF, zip_flatMap _ _ _ (fun i => by simp [sidesOf]), List.filter_flatMap, List.map_flatMap]
      unfold chunk
      refine congrArg (fun h => List.flatMap h _) (funext fun i => ?_)
      generalize rows.getD i (0, 0, 0) = f
      have hkey : ∀ s, decide (posIn E s = posIn E e) = decide (s = e) := by
        intro s
        rw [Bool.eq_iff_iff]
        simp only [decide_eq_true_eq]
        exact posIn_inj he
      simp only [sidesOf, List.map_cons, List.map_nil, List.zip_cons_cons, List.zip_nil_right, List.filter_cons, List.filter_nil, hkey]
      split_ifs <;> rfl
    · rw [hchunk e he]
      exact List.Perm.of_eq (if_neg he)

/-- `is_face`: a row is found when none of its sides occurs more than twice and some face has all of them. -/
theorem isFace_ok (argsort : List ℕ → List ℕ) (hsort : IsArgsort argsort) (F : FMat) (rows check : List Row) (hF : faceRows F = .ok rows) :
    ∃ r, isFace argsort F check = .ok r ∧ r.length = check.length ∧ ∀ (k : ℕ) (t : Row), check[k]? = some t →
      (r[k]? = some true ↔ (∀ s ∈ sidesOf t, (posEdges rows).count s ≤ 2) ∧ ∃ f ∈ rows, ∀ s ∈ sidesOf t, s ∈ sidesOf f) := by
  obtain ⟨E, indF, shift, hinfo, g, hg, hg', hgc⟩ := fNum_ok argsort hsort F rows hF
  have hatt := fun c => edgeAttachments_ok _ E c g hg hg'
  refine ⟨_, by unfold isFace; rw [hinfo]; simp only; rw [hatt]; simp only; rw [hatt]; simp only; rw [hatt], by simp, ?_⟩
  intro k t ht
  have hlen : ∀ e, (g e).length = (posEdges rows).count e := fun e => by rw [(hgc e).length_eq, length_chunk]
  have hmem : ∀ e i, i ∈ g e ↔ ∃ f, rows[i]? = some f ∧ e ∈ sidesOf f := fun e i => by rw [(hgc e).mem_iff, mem_chunk]
  have hval : (List.zipWith (fun p qr => intersectRow p qr.1 qr.2)
      (((check.map (fun t => sortPair t.1 t.2.1)).map g).map (fnumRow (-121, -122)))
      ((((check.map (fun t => sortPair t.2.1 t.2.2)).map g).map (fnumRow (-231, -232))).zip
        (((check.map (fun t => sortPair t.1 t.2.2)).map g).map (fnumRow (-131, -132)))))[k]? =
      some (intersectRow (fnumRow (-121, -122) (g (sortPair t.1 t.2.1))) (fnumRow (-231, -232) (g (sortPair t.2.1 t.2.2)))
        (fnumRow (-131, -132) (g (sortPair t.1 t.2.2)))) := by
    simp [List.getElem?_zipWith, List.getElem?_zip_eq_some, ht, List.zip, List.getElem?_map]
  rw [hval, Option.some_inj, row_iff]
  simp only [hlen, hmem]
  simp only [sidesOf, List.forall_mem_cons, List.not_mem_nil, false_imp_iff, implies_true, and_true]
  constructor
  · rintro ⟨⟨a, b, c⟩, i, ⟨f, hf, h1⟩, ⟨f', hf', h2⟩, ⟨f'', hf'', h3⟩⟩
    obtain rfl : f = f' := by rw [hf] at hf'; exact Option.some.inj hf'
    obtain rfl : f = f'' := by rw [hf] at hf''; exact Option.some.inj hf''
    exact ⟨⟨a, c, b⟩, f, List.mem_of_getElem? hf, h1, h3, h2⟩
  · rintro ⟨⟨a, c, b⟩, f, hf, h1, h3, h2⟩
    obtain ⟨i, hi, rfl⟩ := List.getElem_of_mem hf
    exact ⟨⟨a, b, c⟩, i, ⟨_, List.getElem?_eq_getElem hi, h1⟩, ⟨_, List.getElem?_eq_getElem hi, h2⟩, ⟨_, List.getElem?_eq_getElem hi, h3⟩⟩

theorem sortPair_eq (a b c d : ℕ) : sortPair a b = sortPair c d ↔ (a = c ∧ b = d) ∨ (a = d ∧ b = c) := by
  unfold sortPair
  rw [EmbeddingLike.apply_eq_iff_eq, Prod.mk.injEq]
  omega

/-- A proper triangle whose sides are sides of another one. -/
theorem sides_sub_iff (t f : Row) (ht : Proper t) : (∀ s ∈ sidesOf t, s ∈ sidesOf f) ↔ SameTri t f := by
  obtain ⟨a, b, c⟩ := t
  obtain ⟨p, q, r⟩ := f
  obtain ⟨h1, h2, h3⟩ := ht
  simp only at h1 h2 h3
  have hnd : [a, b, c].Nodup := by simp [h1, h2, h3]
  unfold SameTri
  simp only [sidesOf, List.forall_mem_cons, List.not_mem_nil, false_imp_iff, implies_true, and_true]
  simp only [List.mem_cons, List.not_mem_nil, sortPair_eq, or_false]
  constructor
  · rintro ⟨ha, hb, hc⟩
    have hsub : [a, b, c] ⊆ [p, q, r] := by
      intro x hx
      simp only [List.mem_cons, List.not_mem_nil, or_false] at hx ⊢
      rcases hx with rfl | rfl | rfl
      · clear hb hc; omega
      · clear hb hc; omega
      · clear ha hc; omega
    exact (List.subperm_of_subset hnd hsub).perm_of_length_le (by simp)
  · intro h
    have ha : a ∈ [p, q, r] := h.mem_iff.mp (by simp)
    have hb : b ∈ [p, q, r] := h.mem_iff.mp (by simp)
    have hc : c ∈ [p, q, r] := h.mem_iff.mp (by simp)
    simp only [List.mem_cons, List.not_mem_nil, or_false] at ha hb hc
    clear h hnd
    refine ⟨?_, ?_, ?_⟩
    · clear hc h2 h3; omega
    · clear hb h1 h3; omega
    · clear ha h1 h2; omega

theorem count_sides (rows : List Row) (hrows : ∀ f ∈ rows, Proper f) (a b : ℕ) (hab : a ≠ b) :
    (posEdges rows).count (sortPair a b) = sideCount rows a b := by
  rw [posEdges_eq]
  unfold sideCount
  induction rows with
  | nil => rfl
  | cons f rows ih =>
    rw [List.flatMap_cons, List.count_append, ih (fun x hx => hrows x (by simp [hx])), List.filter_cons]
    have hf := hrows f (by simp)
    obtain ⟨p, q, r⟩ := f
    obtain ⟨h1, h2, h3⟩ := hf
    simp only at h1 h2 h3
    have hnd : (sidesOf (p, q, r)).Nodup := by
      simp only [sidesOf, List.nodup_cons, List.mem_cons, List.not_mem_nil, or_false, sortPair_eq, not_false_iff, List.nodup_nil, and_true]
      omega
    have hiff : sortPair a b ∈ sidesOf (p, q, r) ↔ IsSide a b (p, q, r) := by
      unfold IsSide
      simp only [sidesOf, List.mem_cons, List.not_mem_nil, or_false, sortPair_eq, Prod.mk.injEq]
      tauto
    by_cases hs : IsSide a b (p, q, r)
    · rw [List.count_eq_one_of_mem hnd (hiff.mpr hs)]
      simp only [hs, decide_true, if_true, List.length_cons]
      omega
    · rw [List.count_eq_zero_of_not_mem (fun h => hs (hiff.mp h))]
      simp only [hs, decide_false]
      simp

theorem sides_free_iff (rows : List Row) (hrows : ∀ f ∈ rows, Proper f) (t : Row) (ht : Proper t) :
    (∀ s ∈ sidesOf t, (posEdges rows).count s ≤ 2) ↔ SidesFree rows t := by
  obtain ⟨a, b, c⟩ := t
  obtain ⟨h1, h2, h3⟩ := ht
  simp only at h1 h2 h3
  have hsym : ∀ x y, sideCount rows x y = sideCount rows y x := by
    intro x y
    unfold sideCount
    refine congrArg _ (List.filter_congr (fun f _ => ?_))
    rw [Bool.eq_iff_iff]
    simp only [decide_eq_true_eq, IsSide, List.mem_cons, List.not_mem_nil, or_false, Prod.mk.injEq]
    tauto
  unfold SidesFree
  simp only [sidesOf, List.forall_mem_cons, List.not_mem_nil, false_imp_iff, implies_true, and_true, count_sides rows hrows _ _ h1,
    count_sides rows hrows _ _ h2, count_sides rows hrows _ _ h3]
  constructor
  · rintro ⟨ha, hb, hc⟩ x y hs
    simp only [IsSide, List.mem_cons, List.not_mem_nil, or_false, Prod.mk.injEq] at hs
    rcases hs with ⟨rfl, rfl⟩ | ⟨rfl, rfl⟩ | ⟨rfl, rfl⟩ | ⟨rfl, rfl⟩ | ⟨rfl, rfl⟩ | ⟨rfl, rfl⟩
    · exact ha
    · rw [hsym]; exact ha
    · exact hc
    · rw [hsym]; exact hc
    · exact hb
    · rw [hsym]; exact hb
  · intro h
    exact ⟨h a b (by simp [IsSide]), h a c (by simp [IsSide]), h b c (by simp [IsSide])⟩

end Ellipy.Tri
