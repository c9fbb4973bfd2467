import Verif.Props.HyperplaneEq

/-! Property theorem C51 (`Hyperplane.contains`). -/

namespace Ellipy.Hyp
open Ellipy.Ell

private theorem dot_filter (l : List (ℝ × XF ℝ)) :
    dotL ((((l.map Prod.fst).zip (l.map fun p => p.2.isFinite)).filter (fun p => p.2)).map Prod.fst)
      ((((l.map Prod.snd).zip (l.map fun p => p.2.isFinite)).filter (fun p => p.2)).map (fun p => p.1.toK)) =
    (l.map fun p => if p.2.isFinite = true then p.1 * p.2.toK else 0).sum := by
  induction l with
  | nil => rfl
  | cons p l ih =>
    unfold dotL at ih ⊢
    by_cases hp : p.2.isFinite = true
    · simp only [List.map_cons, List.zip_cons_cons, hp, List.filter_cons_of_pos, List.zipWith_cons_cons, List.sum_cons, ih, if_true]
    · simp only [List.map_cons, List.zip_cons_cons, hp, Bool.false_eq_true, not_false_eq_true, List.filter_cons_of_neg, List.sum_cons, ih, if_false,
        zero_add]

/-- The scalar test. -/
theorem singContains_col (h : HypObj) (p : Fin h.n → XF ℝ) :
    ∃ b, singContains h [List.ofFn p] = .ok b ∧ (b = true ↔ OnPlane h p) := by
  classical
  let l := List.ofFn fun i => (h.nrm i, p i)
  have e1 : List.ofFn h.nrm = l.map Prod.fst := by simp [l, List.map_ofFn, Function.comp_def]
  have e2 : List.ofFn p = l.map Prod.snd := by simp [l, List.map_ofFn, Function.comp_def]
  have hmask : (([List.ofFn p].map (fun c => c.map XF.isFinite)).flatten) = l.map fun q => q.2.isFinite := by
    rw [e2]; simp [Function.comp_def]
  have hlen : l.length = h.n := by simp [l]
  have hz : (List.ofFn h.nrm).zip (l.map fun q => q.2.isFinite) = l.map fun q => (q.1, q.2.isFinite) := by
    rw [e1, List.zip_map']
  have hcond : (∀ q ∈ (List.ofFn h.nrm).zip (l.map fun q => q.2.isFinite), q.2 = false → q.1 = 0) ↔
      ∀ i, (p i).isFinite = false → h.nrm i = 0 := by
    rw [hz]; simp [l, List.forall_mem_ofFn_iff]
  unfold singContains
  simp only [hmask, List.length_map, hlen, ne_eq, not_true_eq_false, if_false]
  by_cases hc : ∀ i, (p i).isFinite = false → h.nrm i = 0
  · rw [if_pos (hcond.2 hc)]
    refine ⟨_, rfl, ?_⟩
    rw [decide_eq_true_iff]
    have hd := dot_filter l
    rw [← e1, ← e2] at hd
    rw [List.headD_cons, hd]
    have : (l.map fun q => if q.2.isFinite = true then q.1 * q.2.toK else 0).sum =
        ∑ i ∈ Finset.univ.filter (fun i => (p i).isFinite = true), h.nrm i * (p i).toK := by
      rw [Finset.sum_filter]
      simp [l, List.map_ofFn, Function.comp_def, List.sum_ofFn]
    rw [this]
    exact ⟨fun h => ⟨hc, h⟩, fun h => h.2⟩
  · rw [if_neg fun h => hc (hcond.1 h)]
    exact ⟨false, rfl, fun h => (Bool.false_ne_true h).elim, fun h => absurd h.1 hc⟩

/-- A piece that does not have as many entries as the normal is rejected. -/
theorem singContains_err {h : HypObj} {cols : List (List (XF ℝ))} (hl : (cols.map List.length).sum ≠ h.n) :
    singContains h cols = .error .indexError := by
  unfold singContains
  have : ((cols.map (fun c => c.map XF.isFinite)).flatten).length = (cols.map List.length).sum := by
    simp [List.length_flatten, Function.comp_def]
  simp only [this]
  rw [if_pos hl]

theorem chunks_one {β : Type} : ∀ (f : ℕ) (l : List β), l ≠ [] → l.length ≤ f → chunks 1 f l = l.map fun x => [x]
  | 0, [], h, _ => absurd rfl h
  | f + 1, [], h, _ => absurd rfl h
  | f + 1, [x], _, _ => by simp [chunks]
  | f + 1, x :: y :: l, _, hf => by
    have := chunks_one f (y :: l) (by simp) (by simpa using hf)
    rw [chunks, if_neg (by simp)]
    simp [this]

/-- The first piece when the width is not one. -/
theorem chunks_head {β : Type} (w f : ℕ) (l : List β) (hl : l.length ≠ 1) (hw : w ≠ 1 ∨ l = []) (hw0 : w ≠ 0) :
    ∃ c cs, chunks w (f + 1) l = c :: cs ∧ c.length ≠ 1 := by
  rw [chunks]
  by_cases h : l.length ≤ w
  · exact ⟨l, [], by rw [if_pos h], hl⟩
  · refine ⟨_, _, by rw [if_neg h], ?_⟩
    rw [List.length_take]
    rcases hw with hw | rfl
    · omega
    · simp at h

theorem colsOf_length (n m : ℕ) (d : List (XF ℝ)) : (colsOf n m d).length = m := by simp [colsOf]

theorem colsOf_get (n m : ℕ) (d : List (XF ℝ)) {j : ℕ} {c : List (XF ℝ)} (hj : (colsOf n m d)[j]? = some c) :
    c = List.ofFn (point n m d j) := by
  unfold colsOf at hj
  rw [List.getElem?_ofFn] at hj
  split at hj
  · cases hj; rfl
  · cases hj

theorem process_one {k : ℕ} {cols : List (List (XF ℝ))} (h0 : cols ≠ []) (hk : k = 1 ∨ k = cols.length) :
    process k cols = .ok (cols.map fun c => [c]) := by
  have hw : (if k = cols.length then 1 else k) = 1 := by
    split_ifs with h
    · rfl
    · exact hk.resolve_right h
  unfold process
  simp only [hw, chunks_one _ cols h0 (Nat.le_succ _)]
  rw [if_pos]
  simp

/-- The facts about the arguments that `contains` checks. -/
structure Fits (hs : Arr HypObj) (x : Arr (XF ℝ)) (n : ℕ) (rest : List ℕ) : Prop where
  shape : x.shape = n :: rest
  pos : n ≠ 0
  nan : ∀ v ∈ x.data, v.isNan = false
  ne : hs.data ≠ []
  dim : ∀ h ∈ hs.data, h.n = n ∧ ¬ Negligible h

private theorem dims_ok {hs : Arr HypObj} {n : ℕ} (hn : n ≠ 0) (hne : hs.data ≠ []) (hd : ∀ h ∈ hs.data, h.n = n ∧ ¬ Negligible h) :
    ∃ ds, pyMap singDimension hs.data = .ok ds ∧ ds.max? = some n ∧ ds.min? = some n := by
  refine ⟨hs.data.map fun _ => n, ?_, ?_, ?_⟩
  · apply pyMap_ok
    intro h hh
    rw [(singDimension_ok (by rw [(hd h hh).1]; exact hn)).2 (hd h hh).2, (hd h hh).1]
  · rw [List.max?_eq_some_iff]
    obtain ⟨h, hh⟩ := List.exists_mem_of_ne_nil _ hne
    exact ⟨List.mem_map.2 ⟨h, hh, rfl⟩, by intro b hb; obtain ⟨_, _, rfl⟩ := List.mem_map.1 hb; exact le_rfl⟩
  · rw [List.min?_eq_some_iff]
    obtain ⟨h, hh⟩ := List.exists_mem_of_ne_nil _ hne
    exact ⟨List.mem_map.2 ⟨h, hh, rfl⟩, by intro b hb; obtain ⟨_, _, rfl⟩ := List.mem_map.1 hb; exact le_rfl⟩

/-- What remains of `contains` after the checks. -/
private theorem contains_fits {hs : Arr HypObj} {x : Arr (XF ℝ)} {n : ℕ} {rest : List ℕ} (hf : Fits hs x n rest) :
    contains hs x =
      if rest.foldr (· * ·) 1 = 1 then
        match pyMap (fun h => singContains h (colsOf n (rest.foldr (· * ·) 1) x.data)) hs.data with
        | .error e => .error e
        | .ok bs => reshape bs hs.shape
      else
        match process hs.data.length (colsOf n (rest.foldr (· * ·) 1) x.data) with
        | .error e => .error e
        | .ok cs =>
          match (match hs.data with
            | [h] => pyMap (singContains h) cs
            | l => pyMap (fun p => singContains p.1 p.2) (l.zip cs) : Py (List Bool)) with
          | .error e => .error e
          | .ok bs => reshape bs rest := by
  obtain ⟨ds, h1, h2, h3⟩ := dims_ok hf.pos hf.ne hf.dim
  have hnan : ¬ ∃ v ∈ x.data, v.isNan = true := by
    rintro ⟨v, hv, h⟩
    rw [hf.nan v hv] at h; cases h
  unfold contains
  simp only [hf.shape]
  rw [if_neg hf.pos, if_neg hnan]
  simp only [h1, h2, h3, ne_eq, not_true_eq_false, if_false]
  by_cases hm : rest.foldr (· * ·) 1 = 1
  · rw [if_pos hm, if_pos hm]
    rfl
  · rw [if_neg hm, if_neg hm]
    rfl

/-- **C51** (many hyperplanes, one point).  The verdicts have the shape of the array of hyperplanes. -/
theorem C51_one_point {hs : Arr HypObj} {x : Arr (XF ℝ)} {n : ℕ} {rest : List ℕ} (hf : Fits hs x n rest) (hm : rest.foldr (· * ·) 1 = 1) :
    ∃ r, contains hs x = .ok r ∧ r.shape = hs.shape ∧
      List.Forall₂ (fun h b => b = true ↔ OnPlane h (point h.n 1 x.data 0)) hs.data r.data := by
  have hcol : colsOf n 1 x.data = [List.ofFn (point n 1 x.data 0)] := by
    simp only [colsOf, List.ofFn_succ, List.ofFn_zero]
    rfl
  have key : ∀ l : List HypObj, (∀ h ∈ l, h.n = n) → ∃ bs, pyMap (fun h => singContains h (colsOf n 1 x.data)) l = .ok bs ∧
      List.Forall₂ (fun h b => b = true ↔ OnPlane h (point h.n 1 x.data 0)) l bs := by
    intro l hl
    induction l with
    | nil => exact ⟨[], rfl, .nil⟩
    | cons h l ih =>
      obtain ⟨bs, h1, h2⟩ := ih fun g hg => hl g (by simp [hg])
      obtain ⟨b, h3, h4⟩ := singContains_col h (point h.n 1 x.data 0)
      have hn := hl h (by simp)
      refine ⟨b :: bs, ?_, .cons h4 h2⟩
      rw [hcol] at h1 ⊢
      subst hn
      simp only [pyMap, h3, h1]
  obtain ⟨bs, h1, h2⟩ := key hs.data fun h hh => (hf.dim h hh).1
  have hl : bs.length = hs.shape.foldr (· * ·) 1 := by rw [← h2.length_eq, hs.len]
  refine ⟨⟨hs.shape, bs, hl⟩, ?_, rfl, h2⟩
  rw [contains_fits hf, if_pos hm, hm, h1]
  exact reshape_ok hl

/-- Points and hyperplanes taken in step. -/
private theorem pairs (n m : ℕ) (d : List (XF ℝ)) (hh : List HypObj) (cs : List (List (XF ℝ))) (j : ℕ)
    (hn : ∀ h ∈ hh, h.n = n) (hc : ∀ (i : ℕ) c, cs[i]? = some c → c = List.ofFn (point n m d (j + i))) (hl : hh.length = cs.length) :
    ∃ bs, pyMap (fun p => singContains p.1 p.2) (hh.zip (cs.map fun c => [c])) = .ok bs ∧ bs.length = hh.length ∧
      ∀ (i : ℕ) h b, hh[i]? = some h → bs[i]? = some b → (b = true ↔ OnPlane h (point h.n m d (j + i))) := by
  induction hh generalizing cs j with
  | nil => exact ⟨[], by simp [pyMap], rfl, by simp⟩
  | cons h hh ih =>
    cases cs with
    | nil => simp at hl
    | cons c cs =>
      obtain ⟨bs, h1, h2, h3⟩ := ih cs (j + 1) (fun g hg => hn g (by simp [hg]))
        (fun i c' hc' => by rw [hc (i + 1) c' (by simpa using hc')]; congr 2; omega) (by simpa using hl)
      have e1 := hc 0 c (by simp)
      have e2 := hn h (by simp)
      subst e2
      obtain ⟨b, h4, h5⟩ := singContains_col h (point h.n m d (j + 0))
      refine ⟨b :: bs, ?_, by simp [h2], ?_⟩
      · simp only [List.map_cons, List.zip_cons_cons, pyMap, e1, h4, h1]
      · intro i g v hg hv
        cases i with
        | zero =>
          simp only [List.getElem?_cons_zero, Option.some.injEq] at hg hv
          subst hg hv; exact h5
        | succ i =>
          simp only [List.getElem?_cons_succ] at hg hv
          rw [h3 i g v hg hv, show j + 1 + i = j + (i + 1) by omega]

/-- **C51** (one hyperplane, many points).  The verdicts have the shape of the array of points. -/
theorem C51_one_hyp {hs : Arr HypObj} {x : Arr (XF ℝ)} {n : ℕ} {rest : List ℕ} (hf : Fits hs x n rest) {h : HypObj} (hh : hs.data = [h])
    (hm : 2 ≤ rest.foldr (· * ·) 1) :
    ∃ r, contains hs x = .ok r ∧ r.shape = rest ∧
      ∀ (j : ℕ) b, r.data[j]? = some b → (b = true ↔ OnPlane h (point h.n (rest.foldr (· * ·) 1) x.data j)) := by
  generalize hmm : rest.foldr (· * ·) 1 = m at hm
  have hne : colsOf n m x.data ≠ [] := by
    intro h0; have := colsOf_length n m x.data; rw [h0] at this; simp at this; omega
  have hn : h.n = n := (hf.dim h (by simp [hh])).1
  obtain ⟨bs, h1, h2, h3⟩ := pairs n m x.data (List.replicate m h) (colsOf n m x.data) 0 (by intro g hg; rw [(List.mem_replicate.1 hg).2, hn])
    (fun i c hc => by rw [Nat.zero_add]; exact colsOf_get n m x.data hc) (by simp [colsOf_length])
  have h4 : pyMap (singContains h) ((colsOf n m x.data).map fun c => [c]) = .ok bs := by
    rw [← h1]
    have : ∀ (cs : List (List (XF ℝ))), pyMap (singContains h) (cs.map fun c => [c]) =
        pyMap (fun p : HypObj × List (List (XF ℝ)) => singContains p.1 p.2) ((List.replicate cs.length h).zip (cs.map fun c => [c])) := by
      intro cs
      induction cs with
      | nil => rfl
      | cons c cs ih => simp only [List.map_cons, List.length_cons, List.replicate_succ, List.zip_cons_cons, pyMap, ih]
    have := this (colsOf n m x.data)
    rwa [colsOf_length] at this
  have hl : bs.length = rest.foldr (· * ·) 1 := by rw [h2, hmm]; simp
  refine ⟨⟨rest, bs, hl⟩, ?_, rfl, ?_⟩
  · rw [contains_fits hf, if_neg (by omega)]
    rw [hmm]
    rw [process_one hne (.inl (by rw [hh]; rfl))]
    simp only [hh, h4]
    exact reshape_ok hl
  · intro j b hb
    have hj : j < m := by
      have := (List.getElem?_eq_some_iff.1 hb).1
      rw [h2] at this; simpa using this
    have := h3 j h b (by simp [hj]) hb
    rwa [Nat.zero_add] at this

/-- **C51** (equally many of both): they are evaluated pairwise, in the shape of the array of points. -/
theorem C51_pairs {hs : Arr HypObj} {x : Arr (XF ℝ)} {n : ℕ} {rest : List ℕ} (hf : Fits hs x n rest)
    (hm : 2 ≤ rest.foldr (· * ·) 1) (hk : hs.data.length = rest.foldr (· * ·) 1) :
    ∃ r, contains hs x = .ok r ∧ r.shape = rest ∧
      ∀ (j : ℕ) h b, hs.data[j]? = some h → r.data[j]? = some b → (b = true ↔ OnPlane h (point h.n (rest.foldr (· * ·) 1) x.data j)) := by
  generalize hmm : rest.foldr (· * ·) 1 = m at hm hk
  have hne : colsOf n m x.data ≠ [] := by
    intro h0; have := colsOf_length n m x.data; rw [h0] at this; simp at this; omega
  obtain ⟨bs, h1, h2, h3⟩ := pairs n m x.data hs.data (colsOf n m x.data) 0 (fun g hg => (hf.dim g hg).1)
    (fun i c hc => by rw [Nat.zero_add]; exact colsOf_get n m x.data hc) (by rw [colsOf_length, hk])
  have hl : bs.length = rest.foldr (· * ·) 1 := by rw [h2, hmm, hk]
  refine ⟨⟨rest, bs, hl⟩, ?_, rfl, ?_⟩
  · rw [contains_fits hf, if_neg (by omega)]
    rw [hmm]
    rw [process_one hne (.inr (by rw [hk, colsOf_length]))]
    obtain ⟨a, b, l, hl'⟩ : ∃ a b l, hs.data = a :: b :: l := by
      match h : hs.data with
      | [] => rw [h] at hk; simp at hk; omega
      | [_] => rw [h] at hk; simp at hk; omega
      | a :: b :: l => exact ⟨a, b, l, rfl⟩
    rw [hl'] at h1 ⊢
    simp only [h1]
    exact reshape_ok hl
  · intro j h b hj hb
    have := h3 j h b hj hb
    rwa [Nat.zero_add] at this

/-- **C51** (what is rejected).  Everything else raises: an array of points without dimensions or coordinates, a NaN, no hyperplanes, hyperplanes of another
dimension, negligible hyperplanes, no points, or numbers of points and hyperplanes that are different and both larger than one. -/
theorem C51_raises_iff {hs : Arr HypObj} {x : Arr (XF ℝ)} :
    Raises (contains hs x) ↔ x.shape = [] ∨ ∃ n rest, x.shape = n :: rest ∧
      (n = 0 ∨ (∃ v ∈ x.data, v.isNan = true) ∨ hs.data = [] ∨ (∃ h ∈ hs.data, h.n ≠ n ∨ Negligible h) ∨
        rest.foldr (· * ·) 1 = 0 ∨ (rest.foldr (· * ·) 1 ≠ 1 ∧ hs.data.length ≠ 1 ∧ hs.data.length ≠ rest.foldr (· * ·) 1)) := by
  cases hx : x.shape with
  | nil =>
    simp only [true_or, iff_true]
    have : contains hs x = .error .indexError := by unfold contains; simp only [hx]
    exact ⟨_, this⟩
  | cons n rest =>
    simp only [reduceCtorEq, false_or, List.cons.injEq]
    have hex : ∀ P : ℕ → List ℕ → Prop, (∃ n' rest', (n = n' ∧ rest = rest') ∧ P n' rest') ↔ P n rest := by
      intro P
      constructor
      · rintro ⟨_, _, ⟨rfl, rfl⟩, h⟩; exact h
      · intro h; exact ⟨_, _, ⟨rfl, rfl⟩, h⟩
    rw [hex]
    by_cases h0 : n = 0
    · have : contains hs x = .error .pyValueError := by unfold contains; simp only [hx]; rw [if_pos h0]
      simp only [h0, true_or, iff_true]
      exact ⟨_, this⟩
    by_cases hnan : ∃ v ∈ x.data, v.isNan = true
    · have : contains hs x = throwErr "wrongInput" := by
        unfold contains; simp only [hx]; rw [if_neg h0, if_pos hnan]
      simp only [hnan, true_or, or_true, iff_true]
      exact ⟨_, this⟩
    by_cases hne : hs.data = []
    · have : contains hs x = .error .pyValueError := by
        unfold contains; simp only [hx]; rw [if_neg h0, if_neg hnan]
        simp [hne, pyMap]
      simp only [hne, true_or, or_true, iff_true]
      exact ⟨_, this⟩
    by_cases hdim : ∃ h ∈ hs.data, h.n ≠ n ∨ Negligible h
    · simp only [hdim, true_or, or_true, iff_true]
      by_contra hcon
      have hok : ∃ r, contains hs x = .ok r := by
        cases hc : contains hs x with
        | ok r => exact ⟨r, rfl⟩
        | error e => exact absurd ⟨e, hc⟩ hcon
      obtain ⟨r, hr⟩ := hok
      unfold contains at hr
      simp only [hx] at hr
      rw [if_neg h0, if_neg hnan] at hr
      cases hd : pyMap singDimension hs.data with
      | error e => rw [hd] at hr; cases hr
      | ok ds =>
        rw [hd] at hr
        simp only [] at hr
        cases hmx : ds.max? with
        | none => rw [hmx] at hr; simp only [] at hr; cases hr
        | some mx =>
          cases hmn : ds.min? with
          | none => rw [hmx, hmn] at hr; simp only [] at hr; cases hr
          | some mn =>
            rw [hmx, hmn] at hr
            simp only [] at hr
            by_cases h1 : mn = mx
            · by_cases h2 : n = mx
              · obtain ⟨h, hh, hbad⟩ := hdim
                have hall := (pyMap_ok_iff _ _ _).1 hd
                obtain ⟨d, hdm, hdd⟩ : ∃ d ∈ ds, singDimension h = .ok d := by
                  obtain ⟨i, hi, rfl⟩ := List.mem_iff_getElem.1 hh
                  have hl := hall.length_eq
                  exact ⟨ds[i], List.getElem_mem (by omega), (List.forall₂_iff_get.1 hall).2 i hi (by omega)⟩
                have hle := (List.max?_eq_some_iff.1 hmx).2 d hdm
                have hge := (List.min?_eq_some_iff.1 hmn).2 d hdm
                have hdn : d = n := by omega
                by_cases hhn : h.n = 0
                · obtain ⟨k, u, s, tA, tR⟩ := h
                  obtain rfl : k = 0 := hhn
                  simp [singDimension] at hdd
                · by_cases hN : Negligible h
                  · rw [(singDimension_ok hhn).1 hN] at hdd
                    cases hdd; omega
                  · rw [(singDimension_ok hhn).2 hN] at hdd
                    have : h.n = d := by injection hdd
                    rcases hbad with hb | hb
                    · omega
                    · exact hN hb
              · rw [if_neg (not_not.2 h1), if_pos h2] at hr; cases hr
            · rw [if_pos h1] at hr; cases hr
    push Not at hdim
    have hf : Fits hs x n rest := ⟨hx, h0, by
      intro v hv
      by_contra hcon
      exact hnan ⟨v, hv, by simpa using hcon⟩, hne, hdim⟩
    have hd' : ¬ ∃ h ∈ hs.data, h.n ≠ n ∨ Negligible h := by push Not; exact hdim
    simp only [h0, hnan, hne, hd', false_or]
    generalize hm : rest.foldr (· * ·) 1 = m
    by_cases hbad : m = 0 ∨ (m ≠ 1 ∧ hs.data.length ≠ 1 ∧ hs.data.length ≠ m)
    · simp only [hbad, iff_true]
      rw [contains_fits hf, hm]
      rw [if_neg (by omega)]
      have hk : hs.data.length ≠ 0 := fun h => hne (List.eq_nil_of_length_eq_zero h)
      unfold process
      simp only [colsOf_length]
      rw [if_neg (by omega : ¬ hs.data.length = m)]
      obtain ⟨c, cs, h1, h2⟩ := chunks_head hs.data.length m (colsOf n m x.data) (by rw [colsOf_length]; omega)
        (by
          rcases hbad with h | h
          · right; apply List.eq_nil_of_length_eq_zero; rw [colsOf_length, h]
          · left; exact h.2.1) hk
      have hcl : ∀ c' ∈ colsOf n m x.data, c'.length = n := by
        intro c' hc'
        obtain ⟨j, hj⟩ := List.mem_iff_getElem?.1 hc'
        rw [colsOf_get n m x.data hj]; simp
      have hsub : ∀ c' ∈ c, c'.length = n := by
        rw [chunks] at h1
        by_cases hle : (colsOf n m x.data).length ≤ hs.data.length
        · rw [if_pos hle] at h1
          have : colsOf n m x.data = c := by injection h1
          rw [← this]; exact hcl
        · rw [if_neg hle] at h1
          have : (colsOf n m x.data).take hs.data.length = c := by injection h1
          rw [← this]
          exact fun c' hc' => hcl c' (List.mem_of_mem_take hc')
      have hsum : (c.map List.length).sum ≠ n := by
        rw [List.map_congr_left hsub]
        simp only [List.map_const', List.sum_replicate, smul_eq_mul]
        intro h
        apply h2
        exact Nat.eq_of_mul_eq_mul_right (Nat.pos_of_ne_zero h0) (by rw [h, one_mul])
      rw [h1]
      by_cases heq : ∀ a ∈ c :: cs, ∀ b ∈ c :: cs, a.length = b.length
      · rw [if_pos heq]
        match hd : hs.data, hk with
        | [h], _ =>
          refine ⟨.indexError, ?_⟩
          have := (hdim h (by simp [hd])).1
          simp only [pyMap, singContains_err (h := h) (cols := c) (by rw [this]; exact hsum)]
        | h :: h' :: l, _ =>
          refine ⟨.indexError, ?_⟩
          have := (hdim h (by simp [hd])).1
          simp only [List.zip_cons_cons, pyMap, singContains_err (h := h) (cols := c) (by rw [this]; exact hsum)]
      · rw [if_neg heq]
        exact ⟨_, rfl⟩
    · simp only [hbad, iff_false]
      have hno : ∀ r, contains hs x = .ok r → ¬ Raises (contains hs x) := by
        rintro r hr ⟨e, he⟩; rw [hr] at he; cases he
      push Not at hbad
      by_cases hm1 : m = 1
      · obtain ⟨r, hr, -⟩ := C51_one_point hf (by rw [hm, hm1])
        exact hno r hr
      · by_cases hk : hs.data.length = 1
        · obtain ⟨h, hh⟩ := List.length_eq_one_iff.1 hk
          obtain ⟨r, hr, -⟩ := C51_one_hyp hf hh (by have := hbad.1; omega)
          exact hno r hr
        · obtain ⟨r, hr, -⟩ := C51_pairs hf (by have := hbad.1; omega) (by rw [hm]; exact hbad.2 hm1 hk)
          exact hno r hr

/-- A finite point: the test of C51 in its usual form. -/
theorem onPlane_fin {h : HypObj} {p : Fin h.n → ℝ} :
    OnPlane h (fun i => .fin (p i)) ↔ |∑ i, h.nrm i * p i - h.shift| < h.absTol := by
  simp [OnPlane, XF.isFinite, XF.toK]

/-- A non-trivial case: two planes, two points, one coordinate infinite. -/
example : ∃ (hs : Arr HypObj) (x : Arr (XF ℝ)), Fits hs x 2 [2] ∧ hs.data.length = 2 ∧ (∃ v ∈ x.data, v = .pinf) := by
  refine ⟨Arr.vec [⟨2, ![1, 2], 3, 1 / 10, 1 / 10⟩, ⟨2, ![0, 2], 3, 1 / 10, 1 / 10⟩], ⟨[2, 2], [.fin 1, .pinf, .fin 1, .fin 2], rfl⟩,
    ⟨rfl, by norm_num, ?_, by simp [Arr.vec], ?_⟩, rfl, ⟨.pinf, by simp, rfl⟩⟩
  · intro v hv
    rcases (by simpa using hv : v = .fin 1 ∨ v = .pinf ∨ v = .fin 1 ∨ v = .fin 2) with rfl | rfl | rfl | rfl <;> rfl
  · intro h hh
    rcases (by simpa [Arr.vec] using hh : h = _ ∨ h = _) with rfl | rfl
    · exact ⟨rfl, fun hN => absurd hN.1 (by show ¬ 2 = 1; omega)⟩
    · exact ⟨rfl, fun hN => absurd hN.1 (by show ¬ 2 = 1; omega)⟩

end Ellipy.Hyp
