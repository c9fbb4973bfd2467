import Verif.Model.IsEqual
import Verif.Proofs.DictCompare
import Verif.Spec.IsEqual

/-! Helper lemmas about `_is_equal_internal`. -/

namespace Ellipy.Ell
open Matrix Ellipy.LA

variable {lk : List (PyVal ℝ) → Kind} {fmt : Fmt ℝ} {ta : XF ℝ} {tr : Option (XF ℝ)}

theorem numComp_verdict (ha : ValidTol ta) (hr : ∀ t, tr = some t → ValidTol t) {x y : NArr ℝ}
    (hx : x.kind = .f) (hy : y.kind = .f) :
    ∃ r, numComp fmt ta tr x y = .ok r ∧
      (r.1 = true ↔ x.shape = y.shape ∧ List.Forall₂ (EntryClose ta tr) x.data y.data) := by
  by_cases hs : x.shape = y.shape
  · by_cases hc : List.Forall₂ (EntryClose ta tr) x.data y.data
    · exact ⟨_, numComp_of_close ha hr (hx.trans hy.symm) (by rw [hx]; decide) (by rw [hx]; decide) hs hc, by simp [hs, hc]⟩
    · have hg : GoodArgs (K := ℝ) ⟨x.kind, [x.data.length], x.data, by simp⟩ ⟨y.kind, [y.data.length], y.data, by simp⟩ ta tr := by
        refine ⟨?_, by rw [hx]; decide, by rw [hy]; decide, by rw [hx]; simp, ha, hr⟩
        show [_] = [_]
        rw [x.len, y.len, hs]
      obtain ⟨res, h1, -⟩ := C06_verdict _ _ ta tr hg
      cases hb : res.isEqual with
      | true =>
        have h2 : numComp fmt ta tr x y = .ok (true, "") := by
          unfold numComp
          rw [if_neg (not_not.2 hs), h1]
          show (if (!res.isEqual) = true then _ else _) = _
          rw [hb]; rfl
        exact absurd (numComp_true h2).2.2 hc
      | false =>
        refine ⟨(false, "Max. " ++ fmt res.report), ?_, by simp [hc]⟩
        unfold numComp
        rw [if_neg (not_not.2 hs), h1]
        show (if (!res.isEqual) = true then _ else _) = _
        rw [hb]; rfl
  · exact ⟨(false, _), by unfold numComp; rw [if_pos hs], by simp [hs]⟩

/-- A comparison of two float arrays. -/
theorem compFun_arr {x y : NArr ℝ} (hx : x.kind = .f) (hy : y.kind = .f) :
    compFun lk fmt ta tr (.arr x) (.arr y) = numComp fmt ta tr x y := by
  rw [compFun, if_neg (by simp [PyVal.ty, PyVal.kindOf, hx, hy])]

/-- A comparison of two float64 scalars. -/
theorem compFun_scal (x y : XF ℝ) :
    compFun lk fmt ta tr (.scal .npFloat64 x) (.scal .npFloat64 y) =
      numComp fmt ta tr (scalArr .npFloat64 x) (scalArr .npFloat64 y) := by
  rw [compFun, if_neg (by simp [PyVal.ty, PyVal.kindOf])]

/-- Dictionaries with the same two keys. -/
theorem compScalar_two {k1 k2 : String} (hk : k1 ≠ k2) {v1 v2 w1 w2 : PyVal ℝ} {r1 r2 : Bool × String}
    (h1 : compFun lk fmt ta tr v1 w1 = .ok r1) (h2 : compFun lk fmt ta tr v2 w2 = .ok r2) :
    ∃ r, compScalar lk fmt ta tr [(k1, v1), (k2, v2)] [(k1, w1), (k2, w2)] = .ok r ∧ r.1 = (r1.1 && r2.1) := by
  rw [compScalar_eq, if_pos (by simp [sameKeys])]
  have e1 : fieldGet [(k1, w1), (k2, w2)] k1 = some w1 := by simp [fieldGet]
  have e2 : fieldGet [(k1, w1), (k2, w2)] k2 = some w2 := by simp [fieldGet, hk]
  rw [compFields_cons e1, h1]
  show ∃ r, (compFields lk fmt ta tr [(k2, v2)] [(k1, w1), (k2, w2)]).bind _ = .ok r ∧ _
  rw [compFields_cons e2, h2]
  show ∃ r, ((compFields lk fmt ta tr [] [(k1, w1), (k2, w2)]).bind _).bind _ = .ok r ∧ _
  rw [compFields_nil]
  exact ⟨_, rfl, by simp⟩

theorem compScalar_two_symm {k1 k2 : String} (hk : k1 < k2) {v1 v2 w1 w2 : PyVal ℝ}
    (hv1 : (∃ a, a.kind = .f ∧ v1 = .arr a) ∨ ∃ t x, v1 = .scal t x) (hv2 : (∃ a, a.kind = .f ∧ v2 = .arr a) ∨ ∃ t x, v2 = .scal t x)
    (hw1 : (∃ a, a.kind = .f ∧ w1 = .arr a) ∨ ∃ t x, w1 = .scal t x) (hw2 : (∃ a, a.kind = .f ∧ w2 = .arr a) ∨ ∃ t x, w2 = .scal t x) :
    (compScalar lk fmt ta tr [(k1, v1), (k2, v2)] [(k1, w1), (k2, w2)]).map Prod.fst =
      (compScalar lk fmt ta tr [(k1, w1), (k2, w2)] [(k1, v1), (k2, v2)]).map Prod.fst := by
  have hwf : ∀ v : PyVal ℝ, ((∃ a, a.kind = .f ∧ v = .arr a) ∨ ∃ t x, v = .scal t x) → WF v := by
    rintro v (⟨a, ha, rfl⟩ | ⟨t, x, rfl⟩)
    · exact .arr _ (by rw [ha]; decide)
    · exact .scal _ _
  have hd : ∀ v v' : PyVal ℝ, WF v → WF v' → WF (.dict [(k1, v), (k2, v')]) := by
    intro v v' h h'
    refine .dict _ (List.pairwise_pair.2 hk : List.Pairwise (· < ·) [k1, k2]) ?_
    simp [h, h']
  rw [← compFun_dict_map, ← compFun_dict_map]
  refine compFun_symm _ (hd _ _ (hwf _ hv1) (hwf _ hv2)) _ (hd _ _ (hwf _ hw1) (hwf _ hw2)) (.dict _ _ ?_)
  have hal : ∀ v w : PyVal ℝ, ((∃ a, a.kind = .f ∧ v = .arr a) ∨ ∃ t x, v = .scal t x) → Aligned v w := by
    rintro v w (⟨a, ha, rfl⟩ | ⟨t, x, rfl⟩) <;> exact .leaf _ _ (by simp) (by simp) (by simp) (by simp)
  intro k v w hv _
  simp only [List.mem_cons, Prod.mk.injEq, List.not_mem_nil, or_false] at hv
  rcases hv with ⟨-, rfl⟩ | ⟨-, rfl⟩
  · exact hal _ _ hv1
  · exact hal _ _ hv2

theorem compVec_map {g : List (String × PyVal ℝ) → List (String × PyVal ℝ) → Bool} :
    ∀ xs ys : List (List (String × PyVal ℝ)),
    (∀ x ∈ xs, ∀ y ∈ ys, ∃ r, compScalar lk fmt ta tr x y = .ok r ∧ r.1 = g x y) →
    ∃ rs, compVec lk fmt ta tr xs ys = .ok rs ∧ rs.map Prod.fst = List.zipWith g xs ys
  | [], ys, _ => ⟨[], compVec_nil ys, by simp⟩
  | x :: xs, [], _ => ⟨[], compVec_cons_nil x xs, by simp⟩
  | x :: xs, y :: ys, h => by
    obtain ⟨r, h1, h2⟩ := h x (by simp) y (by simp)
    obtain ⟨rs, h3, h4⟩ := compVec_map xs ys fun x hx y hy => h x (by simp [hx]) y (by simp [hy])
    refine ⟨r :: rs, ?_, by simp [h2, h4]⟩
    rw [compVec_cons, h1]
    show (compVec lk fmt ta tr xs ys).bind _ = _
    rw [h3]; rfl

theorem minTol_isLeast {l : List ℝ} (h : l ≠ []) : IsLeast {t | t ∈ l} (minTol l) := by
  cases l with
  | nil => exact absurd rfl h
  | cons x xs =>
    have key : ∀ (xs : List ℝ) (x : ℝ), xs.foldl min x ∈ x :: xs ∧ ∀ y ∈ x :: xs, xs.foldl min x ≤ y := by
      intro xs
      induction xs with
      | nil => intro x; simp
      | cons z zs ih =>
        intro x
        obtain ⟨h1, h2⟩ := ih (min x z)
        rw [List.foldl_cons]
        refine ⟨?_, ?_⟩
        · rcases List.mem_cons.1 h1 with h | h
          · rw [h]
            rcases min_choice x z with h | h <;> rw [h] <;> simp
          · simp [h]
        · intro y hy
          have h3 := h2 (min x z) (by simp)
          rcases List.mem_cons.1 hy with rfl | hy
          · exact h3.trans (min_le_left _ _)
          · rcases List.mem_cons.1 hy with rfl | hy
            · exact h3.trans (min_le_right _ _)
            · exact h2 y (by simp [hy])
    exact ⟨(key xs x).1, fun y hy => (key xs x).2 y hy⟩

theorem minTol_eq {l l' : List ℝ} (h : ∀ t, t ∈ l ↔ t ∈ l') : minTol l = minTol l' := by
  by_cases hl : l = []
  · subst hl
    have : l' = [] := by
      apply List.eq_nil_iff_forall_not_mem.2
      intro t ht; exact absurd ((h t).2 ht) (by simp)
    rw [this]
  · have hl' : l' ≠ [] := by
      rintro rfl
      obtain ⟨t, ht⟩ := List.exists_mem_of_ne_nil l hl
      exact absurd ((h t).1 ht) (by simp)
    have h1 := minTol_isLeast hl
    have h2 := minTol_isLeast hl'
    have : {t | t ∈ l} = {t | t ∈ l'} := Set.ext h
    rw [this] at h1
    exact h1.unique h2

theorem tileShape_eq_iff (nd : ℕ) (reps : List ℕ) : tileShape nd reps = reps ↔ nd ≤ reps.length := by
  unfold tileShape
  constructor
  · intro h
    have := congrArg List.length h
    simp at this; omega
  · intro h
    rw [Nat.sub_eq_zero_of_le h]; rfl

/-- The list over which a comparison of `l` with an array of `k` elements runs: a single element is repeated. -/
theorem tile_data {β : Type} (x : β) (k : ℕ) : (List.replicate k [x]).flatten = List.replicate k x := by
  induction k with
  | zero => rfl
  | succ k ih => rw [List.replicate_succ, List.flatten_cons, ih]; rfl

theorem bcList_of_one {α : Type} {a : Arr α} (b : Arr α) {x : α} (h : a.data = [x]) :
    bcList a b = List.replicate b.data.length x := by unfold bcList; rw [h]

theorem bcList_of_many {α : Type} {a : Arr α} (b : Arr α) (h : 1 < a.data.length) : bcList a b = a.data := by
  unfold bcList
  split
  · rename_i x hx; rw [hx] at h; simp at h
  · rfl

theorem bcList_self {α : Type} {a b : Arr α} (h : b.data.length = 1) : bcList a b = a.data := by
  unfold bcList
  split
  · rename_i x hx; rw [hx, h]; rfl
  · rfl

theorem mem_bcList {α : Type} {a b : Arr α} {x : α} (h : x ∈ bcList a b) : x ∈ a.data := by
  unfold bcList at h
  split at h
  · rename_i y hy
    rw [hy]; rw [(List.mem_replicate.1 h).2]; simp
  · exact h

theorem isEqual_main {α δ : Type} (C : EqClass α δ) (a b : Arr α) (F : α → List (String × PyVal ℝ)) (g : α → α → Bool)
    (ha : a.data ≠ []) (hb : b.data ≠ [])
    (hF : ∀ x ∈ a.data ++ b.data, ∃ d, C.toDict x = .ok d ∧
      C.form false (minTol ((a.data ++ b.data).map C.absTol)) d = .ok (F x))
    (hg : ∀ x ∈ a.data, ∀ y ∈ b.data, ∃ r, compScalar lk fmt (.fin (minTol ((a.data ++ b.data).map C.absTol)))
      (some (.fin (minTol ((a.data ++ b.data).map C.relTol)))) (F x) (F y) = .ok r ∧ r.1 = g x y) :
    (Compat a b → ∃ r rep, isEqual lk fmt C a b false = .ok (r, rep) ∧
      r.shape = (if 1 < a.data.length then a.shape else b.shape) ∧ r.data = List.zipWith g (bcList a b) (bcList b a)) ∧
    (¬ Compat a b → a.data.length = 1 → b.data.length = 1 → ∃ r, isEqual lk fmt C a b false = .ok (r, "sizes are different") ∧
      r.shape = b.shape ∧ r.data = [false]) ∧
    (¬ Compat a b → 1 < a.data.length ∨ 1 < b.data.length → Raises (isEqual lk fmt C a b false)) := by
  generalize htA : minTol ((a.data ++ b.data).map C.absTol) = tA at hF hg
  generalize htR : minTol ((a.data ++ b.data).map C.relTol) = tR at hg
  have hla : 0 < a.data.length := List.length_pos_of_ne_nil ha
  have hlb : 0 < b.data.length := List.length_pos_of_ne_nil hb
  -- the dictionaries
  have hd : ∀ l : List α, (∀ x ∈ l, x ∈ a.data ++ b.data) → ∃ ds, pyMap C.toDict l = .ok ds ∧
      pyMap (C.form false tA) ds = .ok (l.map F) := by
    intro l hl
    induction l with
    | nil => exact ⟨[], rfl, rfl⟩
    | cons x xs ih =>
      obtain ⟨d, h1, h2⟩ := hF x (hl x (by simp))
      obtain ⟨ds, h3, h4⟩ := ih fun y hy => hl y (by simp [hy])
      refine ⟨d :: ds, ?_, ?_⟩
      · simp only [pyMap, h1, h3]
      · simp only [pyMap, h2, h4, List.map_cons]
  obtain ⟨da, ha1, ha2⟩ := hd a.data fun x hx => by simp [hx]
  obtain ⟨db, hb1, hb2⟩ := hd b.data fun x hx => by simp [hx]
  have hred : ∀ (_ : ¬ (a.data.length > 1 ∧ b.data.length > 1 ∧ a.shape ≠ b.shape)) (xa xb : List ℕ × List (List (String × PyVal ℝ)))
      (_ : xa = if a.data.length > 1 then (a.shape, a.data.map F) else tileOne a.shape (a.data.map F) b.shape)
      (_ : xb = if a.data.length > 1 ∧ ¬ b.data.length > 1 then tileOne b.shape (b.data.map F) a.shape
        else (b.shape, b.data.map F)),
      isEqual lk fmt C a b false = match dictCompareVec lk fmt xa xb tA tR with
            | .error e => .error e
            | .ok (v, rep) =>
              match reshape v (if a.data.length > 1 then a.shape else b.shape) with
              | .error e => .error e
              | .ok r => .ok (r, rep) := by
    intro hn xa xb hxa hxb
    unfold isEqual
    rw [if_neg (by omega), if_neg (by omega), if_neg hn]
    simp only [htA, htR, ha1, ha2, hb1, hb2, ← hxa, ← hxb]
    cases dictCompareVec lk fmt xa xb tA tR with
    | error => rfl
    | ok r =>
      obtain ⟨v, rep⟩ := r
      show (match reshape v _ with | .error e => _ | .ok r => _) = (match reshape v _ with | .error e => _ | .ok r => _)
      cases reshape v (if a.data.length > 1 then a.shape else b.shape) <;> rfl
  -- comparison of lists of equal shapes
  have hcmp : ∀ (sh : List ℕ) (la lb : List α) (_ : ∀ x ∈ la, x ∈ a.data) (_ : ∀ y ∈ lb, y ∈ b.data)
      (_ : la ≠ []) (_ : lb ≠ []),
      ∃ rep, dictCompareVec lk fmt (sh, la.map F) (sh, lb.map F) tA tR = .ok (List.zipWith g la lb, rep) := by
    intro sh la lb h1 h2 hna hnb
    obtain ⟨rs, h3, h4⟩ := compVec_map (lk := lk) (fmt := fmt) (ta := .fin tA) (tr := some (.fin tR))
      (g := fun d d' => match compScalar lk fmt (.fin tA) (some (.fin tR)) d d' with
        | .ok r => r.1 | .error _ => false) (la.map F) (lb.map F) (by
      intro x hx y hy
      obtain ⟨x', hx', rfl⟩ := List.mem_map.1 hx
      obtain ⟨y', hy', rfl⟩ := List.mem_map.1 hy
      obtain ⟨r, hr, -⟩ := hg x' (h1 x' hx') y' (h2 y' hy')
      exact ⟨r, hr, by rw [hr]⟩)
    have h5 : rs.map Prod.fst = List.zipWith g la lb := by
      rw [h4, List.zipWith_map]
      clear h3 h4 hna hnb
      induction la generalizing lb with
      | nil => simp
      | cons x xs ih =>
        cases lb with
        | nil => simp
        | cons y ys =>
          simp only [List.zipWith_cons_cons]
          rw [ih ys (fun z hz => h1 z (by simp [hz])) (fun z hz => h2 z (by simp [hz]))]
          obtain ⟨r, hr, hr'⟩ := hg x (h1 x (by simp)) y (h2 y (by simp))
          rw [hr]
          simp only [hr']
    have hne : rs.isEmpty = false := by
      cases la with
      | nil => exact absurd rfl hna
      | cons x xs =>
        cases lb with
        | nil => exact absurd rfl hnb
        | cons y ys =>
          cases rs with
          | nil => simp at h5
          | cons => rfl
    refine ⟨joinReports rs, ?_⟩
    unfold dictCompareVec
    rw [if_neg (by simp), h3]
    simp only [hne, h5, Bool.false_eq_true, if_false]
  have hresh : ∀ (v : List Bool) (sh : List ℕ) (h : v.length = sh.foldr (· * ·) 1), reshape v sh = .ok ⟨sh, v, h⟩ := by
    intro v sh h; unfold reshape; rw [dif_pos h]
  refine ⟨fun hc => ?_, fun hc h1 h2 => ?_, fun hc h => ?_⟩
  · by_cases hA : 1 < a.data.length
    · by_cases hB : 1 < b.data.length
      · have hs := hc.1 hA hB
        obtain ⟨rep, hrep⟩ := hcmp a.shape a.data b.data (fun _ h => h) (fun _ h => h) ha hb
        have hlen : (List.zipWith g a.data b.data).length = a.shape.foldr (· * ·) 1 := by
          rw [List.length_zipWith, a.len, b.len, hs, min_self]
        refine ⟨⟨a.shape, _, hlen⟩, rep, ?_, by rw [if_pos hA], by rw [bcList_of_many _ hA, bcList_of_many _ hB]⟩
        rw [hred (fun h => h.2.2 hs) (a.shape, a.data.map F) (a.shape, b.data.map F) (by rw [if_pos hA])
          (by rw [if_neg (fun h => h.2 hB), hs]), hrep]
        simp only [if_pos hA, hresh _ _ hlen]
      · obtain ⟨y, hy⟩ := List.length_eq_one_iff.1 (show b.data.length = 1 by omega)
        have hs := hc.2.1 hA (by omega)
        have hrl : List.replicate a.data.length y ≠ [] := by
          intro h; have := congrArg List.length h; simp at this; exact ha this
        obtain ⟨rep, hrep⟩ := hcmp a.shape a.data (List.replicate a.data.length y) (fun _ h => h)
          (fun z hz => by rw [hy, (List.mem_replicate.1 hz).2]; simp) ha hrl
        have hlen : (List.zipWith g a.data (List.replicate a.data.length y)).length = a.shape.foldr (· * ·) 1 := by
          rw [List.length_zipWith, List.length_replicate, a.len, min_self]
        refine ⟨⟨a.shape, _, hlen⟩, rep, ?_, by rw [if_pos hA], by rw [bcList_of_many _ hA, bcList_of_one _ hy]⟩
        rw [hred (fun h => hB h.2.1) (a.shape, a.data.map F) (a.shape, (List.replicate a.data.length y).map F) (by rw [if_pos hA])
          (by rw [if_pos ⟨hA, hB⟩, tileOne, (tileShape_eq_iff _ _).2 hs, hy, List.map_singleton, tile_data, List.map_replicate, a.len]), hrep]
        simp only [if_pos hA, hresh _ _ hlen]
    · obtain ⟨x, hx⟩ := List.length_eq_one_iff.1 (show a.data.length = 1 by omega)
      have hs := hc.2.2 (by omega)
      have hrl : List.replicate b.data.length x ≠ [] := by
        intro h; have := congrArg List.length h; simp at this; exact hb this
      obtain ⟨rep, hrep⟩ := hcmp b.shape (List.replicate b.data.length x) b.data
        (fun z hz => by rw [hx, (List.mem_replicate.1 hz).2]; simp) (fun _ h => h) hrl hb
      have hlen : (List.zipWith g (List.replicate b.data.length x) b.data).length = b.shape.foldr (· * ·) 1 := by
        rw [List.length_zipWith, List.length_replicate, b.len, min_self]
      refine ⟨⟨b.shape, _, hlen⟩, rep, ?_, by rw [if_neg hA], by rw [bcList_of_one _ hx, bcList_self (by omega)]⟩
      rw [hred (fun h => hA h.1) (b.shape, (List.replicate b.data.length x).map F) (b.shape, b.data.map F)
        (by rw [if_neg hA, tileOne, (tileShape_eq_iff _ _).2 hs, hx, List.map_singleton, tile_data, List.map_replicate, b.len])
        (by rw [if_neg (fun h => hA h.1)]), hrep]
      simp only [if_neg hA, hresh _ _ hlen]
  · have hnd : ¬ a.shape.length ≤ b.shape.length := fun h => hc ⟨by omega, by omega, fun _ => h⟩
    have hlen : [false].length = b.shape.foldr (· * ·) 1 := by rw [← b.len, h2]; rfl
    refine ⟨⟨b.shape, [false], hlen⟩, ?_, rfl, rfl⟩
    rw [hred (by omega) _ _ rfl rfl]
    have hne : (tileOne a.shape (a.data.map F) b.shape).1 ≠ b.shape := fun h => hnd ((tileShape_eq_iff _ _).1 h)
    simp only [if_neg (show ¬ a.data.length > 1 by omega), if_neg (show ¬ (a.data.length > 1 ∧ ¬ b.data.length > 1) by omega),
      dictCompareVec, if_pos hne, hresh _ _ hlen]
  · by_cases hdiff : a.data.length > 1 ∧ b.data.length > 1 ∧ a.shape ≠ b.shape
    · have : isEqual lk fmt C a b false = throwErr "wrongSizes" := by
        unfold isEqual
        rw [if_neg (by omega), if_neg (by omega), if_pos hdiff]
      exact ⟨_, this⟩
    · rw [hred hdiff _ _ rfl rfl]
      by_cases hA : 1 < a.data.length
      · have hB : ¬ 1 < b.data.length := by
          intro hB
          refine hc ⟨fun _ _ => ?_, fun _ h => by omega, fun h => by omega⟩
          by_contra hs; exact hdiff ⟨hA, hB, hs⟩
        have hnd : ¬ b.shape.length ≤ a.shape.length := fun h => hc ⟨by omega, fun _ _ => h, by omega⟩
        have hne : a.shape ≠ (tileOne b.shape (b.data.map F) a.shape).1 := fun h => hnd ((tileShape_eq_iff _ _).1 h.symm)
        have hrs : reshape [false] a.shape = .error .pyValueError := by
          unfold reshape; rw [dif_neg]; rw [← a.len]; simp; omega
        refine ⟨.pyValueError, ?_⟩
        simp only [if_pos (show a.data.length > 1 from hA), if_pos (show a.data.length > 1 ∧ ¬ b.data.length > 1 from ⟨hA, hB⟩),
          dictCompareVec, if_pos hne, hrs]
      · have hB : 1 < b.data.length := by omega
        have hnd : ¬ a.shape.length ≤ b.shape.length := fun h => hc ⟨by omega, by omega, fun _ => h⟩
        have hne : (tileOne a.shape (a.data.map F) b.shape).1 ≠ b.shape := fun h => hnd ((tileShape_eq_iff _ _).1 h)
        have hrs : reshape [false] b.shape = .error .pyValueError := by
          unfold reshape; rw [dif_neg]; rw [← b.len]; simp; omega
        refine ⟨.pyValueError, ?_⟩
        simp only [if_neg (show ¬ a.data.length > 1 from hA), if_neg (show ¬ (a.data.length > 1 ∧ ¬ b.data.length > 1) from fun h => hA h.1),
          dictCompareVec, if_pos hne, hrs]

theorem ones_of_prod {sh : List ℕ} (h : sh.foldr (· * ·) 1 = 1) : sh = List.replicate sh.length 1 := by
  induction sh with
  | nil => rfl
  | cons k ks ih =>
    simp only [List.foldr_cons] at h
    have h1 : k = 1 := Nat.dvd_one.1 ⟨_, h.symm⟩
    have h2 : ks.foldr (· * ·) 1 = 1 := by simpa [h1] using h
    rw [List.length_cons, List.replicate_succ, ← ih h2, h1]

theorem dictCompareVec_symm (x y : List ℕ × List (List (String × PyVal ℝ))) (tA tR : ℝ)
    (h : ∀ u ∈ x.2, ∀ v ∈ y.2, (compScalar lk fmt (.fin tA) (some (.fin tR)) u v).map Prod.fst =
      (compScalar lk fmt (.fin tA) (some (.fin tR)) v u).map Prod.fst) :
    (dictCompareVec lk fmt x y tA tR).toOption.map Prod.fst = (dictCompareVec lk fmt y x tA tR).toOption.map Prod.fst := by
  unfold dictCompareVec
  by_cases hs : x.1 = y.1
  · rw [if_neg (not_not.2 hs), if_neg (not_not.2 hs.symm)]
    have := compVec_symm (lk := lk) (fmt := fmt) (absTol := .fin tA) (relTol := some (.fin tR)) x.2 y.2
      fun j u v hu hv => h u (List.mem_of_getElem? hu) v (List.mem_of_getElem? hv)
    cases h1 : compVec lk fmt (.fin tA) (some (.fin tR)) x.2 y.2 with
    | error e =>
      rw [h1] at this
      cases h2 : compVec lk fmt (.fin tA) (some (.fin tR)) y.2 x.2 with
      | error e' => rfl
      | ok rs' => rw [h2] at this; cases this
    | ok rs =>
      rw [h1] at this
      cases h2 : compVec lk fmt (.fin tA) (some (.fin tR)) y.2 x.2 with
      | error e' => rw [h2] at this; cases this
      | ok rs' =>
        rw [h2] at this
        have h3 : rs.map Prod.fst = rs'.map Prod.fst := by injection this
        have h4 : rs.isEmpty = rs'.isEmpty := by
          cases rs <;> cases rs' <;> simp at h3 ⊢
        simp only [h4]
        cases rs'.isEmpty with
        | true => rfl
        | false => simp only [Bool.false_eq_true, if_false]; show some _ = some _; rw [h3]
  · rw [if_pos hs, if_pos (fun h => hs h.symm)]

theorem pyMap_mem {α β : Type} {f : α → Py β} {l : List α} {ys : List β} (h : pyMap f l = .ok ys) {y : β} (hy : y ∈ ys) :
    ∃ x ∈ l, f x = .ok y := by
  have := (pyMap_ok_iff f l ys).1 h
  induction this with
  | nil => cases hy
  | cons hx hxs ih =>
    rename_i x y' xs ys'
    rcases List.mem_cons.1 hy with rfl | hy
    · exact ⟨x, by simp, hx⟩
    · obtain ⟨z, hz, hz'⟩ := ih ((pyMap_ok_iff f _ _).2 hxs) hy
      exact ⟨z, by simp [hz], hz'⟩

theorem pyMap_length {α β : Type} {f : α → Py β} {l : List α} {ys : List β} (h : pyMap f l = .ok ys) :
    ys.length = l.length := ((pyMap_ok_iff f l ys).1 h).length_eq.symm

theorem isEqual_symm {α δ : Type} (C : EqClass α δ) (p : Bool)
    (hsym : ∀ tA tR d d' u v, C.form p tA d = .ok u → C.form p tA d' = .ok v →
      (compScalar lk fmt (.fin tA) (some (.fin tR)) u v).map Prod.fst =
        (compScalar lk fmt (.fin tA) (some (.fin tR)) v u).map Prod.fst) (a b : Arr α)
    (hnd : a.data.length = 1 → b.data.length = 1 → a.shape.length = b.shape.length) :
    (isEqual lk fmt C a b p).toOption.map Prod.fst = (isEqual lk fmt C b a p).toOption.map Prod.fst := by
  by_cases h0 : a.data.length = 0 ∧ b.data.length = 0
  · unfold isEqual; rw [if_pos h0, if_pos h0.symm]
  by_cases h1 : a.data.length = 0 ∨ b.data.length = 0
  · unfold isEqual; rw [if_neg h0, if_pos h1, if_neg (fun h => h0 h.symm), if_pos h1.symm]
  by_cases h2 : a.data.length > 1 ∧ b.data.length > 1 ∧ a.shape ≠ b.shape
  · unfold isEqual
    rw [if_neg h0, if_neg h1, if_pos h2, if_neg (fun h => h0 h.symm), if_neg (fun h => h1 h.symm),
      if_pos ⟨h2.2.1, h2.1, h2.2.2.symm⟩]
  have h2' : ¬ (b.data.length > 1 ∧ a.data.length > 1 ∧ b.shape ≠ a.shape) := fun h => h2 ⟨h.2.1, h.1, h.2.2.symm⟩
  have hA : minTol ((b.data ++ a.data).map C.absTol) = minTol ((a.data ++ b.data).map C.absTol) :=
    minTol_eq fun t => by simp only [List.map_append, List.mem_append]; exact or_comm
  have hR : minTol ((b.data ++ a.data).map C.relTol) = minTol ((a.data ++ b.data).map C.relTol) :=
    minTol_eq fun t => by simp only [List.map_append, List.mem_append]; exact or_comm
  unfold isEqual
  rw [if_neg h0, if_neg h1, if_neg h2, if_neg (show ¬ (b.data.length = 0 ∧ a.data.length = 0) from fun h => h0 h.symm),
    if_neg (show ¬ (b.data.length = 0 ∨ a.data.length = 0) from fun h => h1 h.symm), if_neg h2']
  simp only [hA, hR]
  generalize minTol ((a.data ++ b.data).map C.absTol) = tA
  generalize minTol ((a.data ++ b.data).map C.relTol) = tR
  cases hda : pyMap C.toDict a.data with
  | error e => cases pyMap C.toDict b.data <;> rfl
  | ok da =>
    cases hdb : pyMap C.toDict b.data with
    | error e => rfl
    | ok db =>
      simp only []
      cases hfa : pyMap (C.form p tA) da with
      | error e => cases pyMap (C.form p tA) db <;> rfl
      | ok fa =>
        cases hfb : pyMap (C.form p tA) db with
        | error e => rfl
        | ok fb =>
          simp only []
          have hfin : ∀ (x y : List ℕ × List (List (String × PyVal ℝ))) (sh : List ℕ)
              (_ : ∀ u ∈ x.2, u ∈ fa) (_ : ∀ v ∈ y.2, v ∈ fb),
              ((match dictCompareVec lk fmt x y tA tR with
                | .error e => .error e
                | .ok (v, rep) => match reshape v sh with
                  | .error e => .error e
                  | .ok r => .ok (r, rep) : Py (Arr Bool × String)).toOption.map Prod.fst) =
              ((match dictCompareVec lk fmt y x tA tR with
                | .error e => .error e
                | .ok (v, rep) => match reshape v sh with
                  | .error e => .error e
                  | .ok r => .ok (r, rep) : Py (Arr Bool × String)).toOption.map Prod.fst) := by
            intro x y sh hx hy
            have := dictCompareVec_symm (lk := lk) (fmt := fmt) x y tA tR (by
              intro u hu v hv
              obtain ⟨d, -, hd⟩ := pyMap_mem hfa (hx u hu)
              obtain ⟨d', -, hd'⟩ := pyMap_mem hfb (hy v hv)
              exact hsym tA tR d d' u v hd hd')
            cases hxy : dictCompareVec lk fmt x y tA tR with
            | error e =>
              rw [hxy] at this
              cases hyx : dictCompareVec lk fmt y x tA tR with
              | error e' => rfl
              | ok r => rw [hyx] at this; cases this
            | ok r =>
              rw [hxy] at this
              cases hyx : dictCompareVec lk fmt y x tA tR with
              | error e' => rw [hyx] at this; cases this
              | ok r' =>
                rw [hyx] at this
                obtain ⟨v, rep⟩ := r
                obtain ⟨v', rep'⟩ := r'
                have hv : v = v' := by injection this
                subst hv
                show (match reshape v sh with | .error e => _ | .ok r => _ : Py (Arr Bool × String)).toOption.map _ =
                  (match reshape v sh with | .error e => _ | .ok r => _ : Py (Arr Bool × String)).toOption.map _
                cases reshape v sh <;> rfl
          have htile : ∀ (sh : List ℕ) (l : List (List (String × PyVal ℝ))) (reps : List ℕ) u, u ∈ (tileOne sh l reps).2 → u ∈ l := by
            intro sh l reps u hu
            obtain ⟨l', hl', hu⟩ := List.mem_flatten.1 hu
            rwa [(List.mem_replicate.1 hl').2] at hu
          by_cases hla : a.data.length > 1
          · by_cases hlb : b.data.length > 1
            · have hs : a.shape = b.shape := by by_contra hs; exact h2 ⟨hla, hlb, hs⟩
              simp only [hla, hlb, hs, if_true, not_true_eq_false, and_false, if_false]
              exact hfin (b.shape, fa) (b.shape, fb) b.shape (fun _ h => h) (fun _ h => h)
            · simp only [hla, hlb, if_true, not_false_eq_true, and_self, if_false, not_true_eq_false]
              exact hfin (a.shape, fa) (tileOne b.shape fb a.shape) a.shape (fun _ h => h) (htile _ _ _)
          · by_cases hlb : b.data.length > 1
            · simp only [hla, hlb, if_true, not_false_eq_true, and_self, if_false, not_true_eq_false, and_false]
              exact hfin (tileOne a.shape fa b.shape) (b.shape, fb) b.shape (htile _ _ _) (fun _ h => h)
            · have ha1 : a.data.length = 1 := by omega
              have hb1 : b.data.length = 1 := by omega
              have hs : a.shape = b.shape := by
                rw [ones_of_prod (a.len.symm.trans ha1), ones_of_prod (b.len.symm.trans hb1), hnd ha1 hb1]
              have hself : ∀ l : List (List (String × PyVal ℝ)), tileOne b.shape l b.shape = (b.shape, l) := by
                intro l
                unfold tileOne
                rw [(tileShape_eq_iff _ _).2 le_rfl, ← b.len, hb1]
                simp
              simp only [hla, hlb, hs, if_false, false_and, hself]
              exact hfin (b.shape, fa) (b.shape, fb) b.shape (fun _ h => h) (fun _ h => h)

end Ellipy.Ell
