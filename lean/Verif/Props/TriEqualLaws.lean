import Verif.Props.SortRowsLaws
import Verif.Props.SphereFan
import Verif.Props.TriEqual
import Verif.Props.TriOrient

/-! Property theorems C135: laws of `is_tri_equal` across calls. -/

set_option linter.unusedSectionVars false

namespace Ellipy.Tri

/-- What `is_face` finds: no side of a row occurs more than twice and some face has all the sides. -/
private def Found (g h : List Row) : Prop :=
  ∀ t ∈ h, (∀ s ∈ sidesOf t, (posEdges g).count s ≤ 2) ∧ ∃ f ∈ g, ∀ s ∈ sidesOf t, s ∈ sidesOf f

private theorem isFace_found (argsort : List ℕ → List ℕ) (hsort : IsArgsort argsort) (g h : List Row) :
    ∃ b, isFace argsort (.mat g) h = .ok b ∧ (b.all id = true ↔ Found g h) := by
  obtain ⟨r, hr, hlen, hk⟩ := isFace_ok argsort hsort (.mat g) g h rfl
  refine ⟨r, hr, ?_⟩
  rw [List.all_eq_true]
  constructor
  · intro hb t ht
    obtain ⟨k, hkl, rfl⟩ := List.getElem_of_mem ht
    refine (hk k _ (List.getElem?_eq_getElem hkl)).mp ?_
    rw [List.getElem?_eq_getElem (by omega)]
    exact congrArg some (hb _ (List.getElem_mem _))
  · intro hb x hx
    obtain ⟨k, hkl, rfl⟩ := List.getElem_of_mem hx
    have hkl' : k < h.length := by omega
    have := (hk k _ (List.getElem?_eq_getElem hkl')).mpr (hb _ (List.getElem_mem _))
    rw [List.getElem?_eq_getElem hkl] at this
    exact Option.some.inj this

private theorem found_perm {g g' h h' : List Row} (hg : g.Perm g') (hh : h.Perm h') (H : Found g h) : Found g' h' := by
  intro t ht
  obtain ⟨h1, f, hf, h2⟩ := H t (hh.mem_iff.mpr ht)
  refine ⟨fun s hs => ?_, f, hg.mem_iff.mp hf, h2⟩
  have : (posEdges g').Perm (posEdges g) := by rw [posEdges_eq, posEdges_eq]; exact (hg.symm.flatMap_right _)
  rw [this.count_eq]
  exact h1 s hs

variable {K : Type} [Field K] [LinearOrder K] [IsStrictOrderedRing K] {n m : ℕ}
variable {argsort : List ℕ → List ℕ} {argsortF : ∀ n, (Fin n → K) → Equiv.Perm (Fin n)} {argsortI : ∀ n, (Fin n → Fin n) → Equiv.Perm (Fin n)}

private theorem sort_err {tol tol' : K} (ht : tol < 0 ↔ tol' < 0) (X Y : Fin n → Fin m → K) (e : Exc)
    (h : SortRows.sortRowsTol (argsortF n) (argsortI n) X tol = .error e) :
    SortRows.sortRowsTol (argsortF n) (argsortI n) Y tol' = .error e := by
  cases n with
  | zero =>
    rw [SortRows.sortRowsTol] at h ⊢
    by_cases h0 : tol < 0
    · rw [if_pos h0] at h; rw [if_pos (ht.mp h0)]; exact h
    · rw [if_neg h0] at h; cases h
  | succ n =>
    rw [SortRows.sortRowsTol] at h ⊢
    by_cases h0 : tol < 0
    · rw [if_pos h0] at h; rw [if_pos (ht.mp h0)]; exact h
    · rw [if_neg h0] at h; rw [if_neg (fun h' => h0 (ht.mpr h'))]
      by_cases hm : m = 0
      · simp only [hm, if_true] at h ⊢; exact h
      · simp only [hm, if_false] at h; cases h

private theorem take_err (ρ : Equiv.Perm (Fin n)) (f : List Row) (e : Exc) (h : takeFaces ρ f = .error e) : e = .indexError := by
  unfold takeFaces at h
  induction f with
  | nil => cases h
  | cons t f ih =>
    rw [pyMap] at h
    revert h
    split
    · rename_i x hx
      intro h
      injection h with h
      subst h
      revert hx
      dsimp only
      split_ifs <;> intro hx <;> first | (injection hx with hx; exact hx.symm) | cases hx
    · split
      · rename_i e' he'
        intro h
        injection h with h
        subst h
        exact ih he'
      · intro h; cases h

open Classical in
/-- The outcome once the faces are renumbered. -/
private theorem eval (hsort : IsArgsort argsort) {v1 v2 : Fin n → Fin m → K} {f1 f2 g1 g2 : List Row} {tol : K} {r1 r2 : SortRows.Result K n m}
    (hl : f1.length = f2.length) (hr1 : SortRows.sortRowsTol (argsortF n) (argsortI n) v1 tol = .ok r1)
    (hr2 : SortRows.sortRowsTol (argsortF n) (argsortI n) v2 tol = .ok r2) (hg1 : takeFaces r1.rev f1 = .ok g1)
    (hg2 : takeFaces r2.rev f2 = .ok g2) :
    isTriEqual argsort argsortF argsortI v1 f1 v2 f2 tol =
      if n = 0 ∨ m = 0 then .error .pyValueError
      else if ∀ i c, |r1.res i c - r2.res i c| ≤ tol then
        if g1.dedup.length = g2.dedup.length then
          if Found g2 g1 ∧ Found g1 g2 then .ok (true, .none) else .ok (false, .faces)
        else .ok (false, .uniqueFaces)
      else .ok (false, .vertices) := by
  obtain ⟨b1, hb1, hs1⟩ := isFace_found argsort hsort g2 g1
  obtain ⟨b2, hb2, hs2⟩ := isFace_found argsort hsort g1 g2
  unfold isTriEqual
  rw [dif_pos rfl, if_pos hl, hr1]
  simp only [Fin.cast_eq_self]
  rw [hr2]
  simp only
  rw [hg1]
  simp only
  rw [hg2]
  simp only
  rw [hb1]
  simp only
  rw [hb2]
  simp only
  rw [← hs1, ← hs2]
  by_cases h1 : b1.all id = true <;> by_cases h2 : b2.all id = true <;> simp [h1, h2]

private theorem lens {f1 f2 : List Row} (hl : f1.length ≠ f2.length) (v1 v2 : Fin n → Fin m → K) (tol : K) :
    isTriEqual argsort argsortF argsortI v1 f1 v2 f2 tol = .ok (false, .faceCount) := by
  unfold isTriEqual; rw [dif_pos rfl, if_neg hl]

private theorem err_sort {f1 f2 : List Row} (hl : f1.length = f2.length) {v1 v2 : Fin n → Fin m → K} {tol : K} {e : Exc}
    (h : SortRows.sortRowsTol (argsortF n) (argsortI n) v1 tol = .error e) :
    isTriEqual argsort argsortF argsortI v1 f1 v2 f2 tol = .error e := by
  unfold isTriEqual; rw [dif_pos rfl, if_pos hl, h]

private theorem err_take {f1 f2 : List Row} (hl : f1.length = f2.length) {v1 v2 : Fin n → Fin m → K} {tol : K} {r1 r2 : SortRows.Result K n m}
    (hr1 : SortRows.sortRowsTol (argsortF n) (argsortI n) v1 tol = .ok r1)
    (hr2 : SortRows.sortRowsTol (argsortF n) (argsortI n) v2 tol = .ok r2)
    (h : (∃ e, takeFaces r1.rev f1 = .error e) ∨ ∃ e, takeFaces r2.rev f2 = .error e) :
    isTriEqual argsort argsortF argsortI v1 f1 v2 f2 tol = .error .indexError := by
  unfold isTriEqual
  rw [dif_pos rfl, if_pos hl, hr1]
  simp only [Fin.cast_eq_self]
  rw [hr2]
  simp only
  cases hg1 : takeFaces r1.rev f1 with
  | error e => simp only; rw [take_err _ _ _ hg1]
  | ok g1 =>
    rcases h with ⟨e, he⟩ | ⟨e, he⟩
    · rw [hg1] at he; cases he
    · simp only; rw [he, take_err _ _ _ he]

/-- **C135**: exchanging the two triangulations changes neither the answer nor the report nor the error. -/
theorem C135_symm (hsort : IsArgsort argsort) {n1 n2 : ℕ} (v1 : Fin n1 → Fin m → K) (v2 : Fin n2 → Fin m → K) (f1 f2 : List Row) (tol : K) :
    isTriEqual argsort argsortF argsortI v2 f2 v1 f1 tol = isTriEqual argsort argsortF argsortI v1 f1 v2 f2 tol := by
  by_cases hn : n1 = n2
  swap
  · unfold isTriEqual; rw [dif_neg hn, dif_neg (Ne.symm hn)]
  subst hn
  by_cases hl : f1.length = f2.length
  swap
  · rw [lens hl, lens (Ne.symm hl)]
  cases hr1 : SortRows.sortRowsTol (argsortF n1) (argsortI n1) v1 tol with
  | error e => rw [err_sort hl hr1, err_sort hl.symm (sort_err Iff.rfl v1 v2 e hr1)]
  | ok r1 =>
  cases hr2 : SortRows.sortRowsTol (argsortF n1) (argsortI n1) v2 tol with
  | error e => rw [sort_err Iff.rfl v2 v1 e hr2] at hr1; cases hr1
  | ok r2 =>
  cases hg1 : takeFaces r1.rev f1 with
  | error e => rw [err_take hl hr1 hr2 (.inl ⟨e, hg1⟩), err_take hl.symm hr2 hr1 (.inr ⟨e, hg1⟩)]
  | ok g1 =>
  cases hg2 : takeFaces r2.rev f2 with
  | error e => rw [err_take hl hr1 hr2 (.inr ⟨e, hg2⟩), err_take hl.symm hr2 hr1 (.inl ⟨e, hg2⟩)]
  | ok g2 =>
  rw [eval hsort hl hr1 hr2 hg1 hg2, eval hsort hl.symm hr2 hr1 hg2 hg1]
  simp only [abs_sub_comm (r2.res _ _), eq_comm (a := g2.dedup.length)]
  by_cases hX : Found g2 g1 ∧ Found g1 g2
  · rw [if_pos hX, if_pos hX.symm]
  · have hY : ¬(Found g1 g2 ∧ Found g2 g1) := fun h => hX h.symm
    rw [if_neg hX, if_neg hY]

private theorem take_perm {ρ : Equiv.Perm (Fin n)} {f f' g : List Row} (h : f.Perm f') (hg : takeFaces ρ f = .ok g) :
    ∃ g', takeFaces ρ f' = .ok g' ∧ g.Perm g' := by
  rw [takeFaces_ok_iff] at hg
  obtain ⟨g', h1, h2⟩ := List.perm_comp_forall₂ h.symm hg
  exact ⟨g', (takeFaces_ok_iff _ _ _).mpr h1, h2.symm⟩

/-- **C135**: the order in which the faces are listed does not matter. -/
theorem C135_face_order (hsort : IsArgsort argsort) {n1 n2 : ℕ} (v1 : Fin n1 → Fin m → K) (v2 : Fin n2 → Fin m → K) (f1 f2 f1' f2' : List Row)
    (h1 : f1.Perm f1') (h2 : f2.Perm f2') (tol : K) :
    isTriEqual argsort argsortF argsortI v1 f1' v2 f2' tol = isTriEqual argsort argsortF argsortI v1 f1 v2 f2 tol := by
  by_cases hn : n1 = n2
  swap
  · unfold isTriEqual; rw [dif_neg hn, dif_neg hn]
  subst hn
  by_cases hl : f1.length = f2.length
  swap
  · rw [lens hl, lens (by rw [← h1.length_eq, ← h2.length_eq]; exact hl)]
  have hl' : f1'.length = f2'.length := by rw [← h1.length_eq, ← h2.length_eq]; exact hl
  cases hr1 : SortRows.sortRowsTol (argsortF n1) (argsortI n1) v1 tol with
  | error e => rw [err_sort hl hr1, err_sort hl' hr1]
  | ok r1 =>
  cases hr2 : SortRows.sortRowsTol (argsortF n1) (argsortI n1) v2 tol with
  | error e => rw [sort_err Iff.rfl v2 v1 e hr2] at hr1; cases hr1
  | ok r2 =>
  have herr : ∀ {ρ : Equiv.Perm (Fin n1)} {f f' : List Row} {e}, f.Perm f' → takeFaces ρ f = .error e → ∃ e, takeFaces ρ f' = .error e := by
    intro ρ f f' e hp he
    cases hg : takeFaces ρ f' with
    | error e => exact ⟨e, rfl⟩
    | ok g => obtain ⟨g', h3, -⟩ := take_perm hp.symm hg; rw [h3] at he; cases he
  cases hg1 : takeFaces r1.rev f1 with
  | error e => rw [err_take hl hr1 hr2 (.inl ⟨e, hg1⟩), err_take hl' hr1 hr2 (.inl (herr h1 hg1))]
  | ok g1 =>
  cases hg2 : takeFaces r2.rev f2 with
  | error e => rw [err_take hl hr1 hr2 (.inr ⟨e, hg2⟩), err_take hl' hr1 hr2 (.inr (herr h2 hg2))]
  | ok g2 =>
  obtain ⟨g1', hg1', p1⟩ := take_perm h1 hg1
  obtain ⟨g2', hg2', p2⟩ := take_perm h2 hg2
  rw [eval hsort hl hr1 hr2 hg1 hg2, eval hsort hl' hr1 hr2 hg1' hg2']
  have e1 : Found g2' g1' ↔ Found g2 g1 := ⟨found_perm p2.symm p1.symm, found_perm p2 p1⟩
  have e2 : Found g1' g2' ↔ Found g1 g2 := ⟨found_perm p1.symm p2.symm, found_perm p1 p2⟩
  simp only [p1.symm.dedup.length_eq, p2.symm.dedup.length_eq]
  by_cases hX : Found g2 g1 ∧ Found g1 g2
  · have hY : Found g2' g1' ∧ Found g1' g2' := ⟨e1.mpr hX.1, e2.mpr hX.2⟩
    rw [if_pos hX, if_pos hY]
  · have hY : ¬(Found g2' g1' ∧ Found g1' g2') := fun h => hX ⟨e1.mp h.1, e2.mp h.2⟩
    rw [if_neg hX, if_neg hY]

/-- **C135**: changing the units and the origin of the coordinates, and the tolerance with them, changes nothing. -/
theorem C135_units (hsort : IsArgsort argsort) (hF : ∀ n, SortRows.IsArgsort (argsortF n)) (hI : ∀ n, SortRows.IsArgsort (argsortI n))
    {n1 n2 : ℕ} (v1 : Fin n1 → Fin m → K) (v2 : Fin n2 → Fin m → K) (f1 f2 : List Row) (tol : K) {a : K} (ha : 0 < a) (b : Fin m → K) :
    isTriEqual argsort argsortF argsortI (fun i c => a * v1 i c + b c) f1 (fun i c => a * v2 i c + b c) f2 (a * tol) =
      isTriEqual argsort argsortF argsortI v1 f1 v2 f2 tol := by
  by_cases hn : n1 = n2
  swap
  · unfold isTriEqual; rw [dif_neg hn, dif_neg hn]
  subst hn
  by_cases hl : f1.length = f2.length
  swap
  · rw [lens hl, lens hl]
  cases hr1 : SortRows.sortRowsTol (argsortF n1) (argsortI n1) v1 tol with
  | error e =>
    rw [err_sort hl hr1, err_sort hl (sort_err ⟨fun h => mul_neg_of_pos_of_neg ha h, fun h => by
      by_contra hc; exact absurd (mul_nonneg ha.le (not_lt.mp hc)) (not_le.mpr h)⟩ v1 _ e hr1)]
  | ok r1 =>
  cases hr2 : SortRows.sortRowsTol (argsortF n1) (argsortI n1) v2 tol with
  | error e => rw [sort_err Iff.rfl v2 v1 e hr2] at hr1; cases hr1
  | ok r2 =>
  have hr1' := SortRows.C124_units (hF n1) (hI n1) hr1 ha b
  have hr2' := SortRows.C124_units (hF n1) (hI n1) hr2 ha b
  cases hg1 : takeFaces r1.rev f1 with
  | error e => rw [err_take hl hr1 hr2 (.inl ⟨e, hg1⟩), err_take hl hr1' hr2' (.inl ⟨e, hg1⟩)]
  | ok g1 =>
  cases hg2 : takeFaces r2.rev f2 with
  | error e => rw [err_take hl hr1 hr2 (.inr ⟨e, hg2⟩), err_take hl hr1' hr2' (.inr ⟨e, hg2⟩)]
  | ok g2 =>
  rw [eval hsort hl hr1 hr2 hg1 hg2, eval hsort hl hr1' hr2' hg1 hg2]
  have hd : ∀ i c, |(a * r1.res i c + b c) - (a * r2.res i c + b c)| ≤ a * tol ↔ |r1.res i c - r2.res i c| ≤ tol := by
    intro i c
    rw [add_sub_add_right_eq_sub, ← mul_sub, abs_mul, abs_of_pos ha]
    exact mul_le_mul_iff_right₀ ha
  simp only [hd]

private theorem renumbered_comp {σ τ : Equiv.Perm (Fin n)} {t s u : Row} (h1 : Renumbered σ t s) (h2 : Renumbered τ s u) : Renumbered (τ * σ) t u := by
  obtain ⟨a, b, c, rfl, rfl⟩ := h1
  obtain ⟨a', b', c', h, rfl⟩ := h2
  simp only [Prod.mk.injEq, Fin.val_inj] at h
  obtain ⟨rfl, rfl, rfl⟩ := h
  exact ⟨a, b, c, rfl, rfl⟩

private theorem match_trans {tol tol' : K} {σ τ : Equiv.Perm (Fin n)} {v1 v2 v3 : Fin n → Fin m → K} {f1 f2 f3 : List Row}
    (h : TriMatch tol σ v1 f1 v2 f2) (h' : TriMatch tol' τ v2 f2 v3 f3) : TriMatch (tol + tol') (τ * σ) v1 f1 v3 f3 := by
  -- the image of a face that has the same vertices has the same vertices
  have key : ∀ {t s f u g : Row}, Renumbered σ t s → SameTri s f → Renumbered τ f u → SameTri u g → ∃ w, Renumbered (τ * σ) t w ∧ SameTri w g := by
    intro t s f u g h1 h2 h3 h4
    obtain ⟨a, b, c, rfl, rfl⟩ := h1
    refine ⟨_, ⟨a, b, c, rfl, rfl⟩, ?_⟩
    have h5 : SameTri ((τ (σ a)).val, (τ (σ b)).val, (τ (σ c)).val) u := by
      obtain ⟨p, q, r, rfl, rfl⟩ := h3
      have h6 : [σ a, σ b, σ c].Perm [p, q, r] := (List.map_perm_map_iff (f := Fin.val) Fin.val_injective (l := [σ a, σ b, σ c]) (l' := [p, q, r])).mp h2
      exact (h6.map (fun x => (τ x).val))
    exact h5.trans h4
  refine ⟨fun i c => ?_, fun t ht => ?_, fun t ht => ?_⟩
  · have e : v1 i c - v3 ((τ * σ) i) c = (v1 i c - v2 (σ i) c) + (v2 (σ i) c - v3 (τ (σ i)) c) := by
      rw [Equiv.Perm.mul_apply]; ring
    rw [e]
    exact (abs_add_le _ _).trans (add_le_add (h.1 i c) (h'.1 (σ i) c))
  · obtain ⟨f, hf, s, h1, h2⟩ := h.2.1 t ht
    obtain ⟨g, hg, u, h3, h4⟩ := h'.2.1 f hf
    exact ⟨g, hg, key h1 h2 h3 h4⟩
  · obtain ⟨f, hf, u, h3, h4⟩ := h'.2.2 t ht
    obtain ⟨t0, ht0, s, h1, h2⟩ := h.2.2 f hf
    exact ⟨t0, ht0, key h1 h2 h3 h4⟩

/-- **C135**: two answers yes in a row: the first and the third triangulation agree up to the sum of the tolerances. -/
theorem C135_chain (hsort : IsArgsort argsort) (hF : ∀ n, SortRows.IsArgsort (argsortF n)) (hI : ∀ n, SortRows.IsArgsort (argsortI n))
    (v1 v2 v3 : Fin n → Fin m → K) (f1 f2 f3 : List Row) (tol tol' : K) (h1 : ∀ t ∈ f1, Proper t) (h2 : ∀ t ∈ f2, Proper t) (h3 : ∀ t ∈ f3, Proper t)
    (rep rep' : TriReport) (h : isTriEqual argsort argsortF argsortI v1 f1 v2 f2 tol = .ok (true, rep))
    (h' : isTriEqual argsort argsortF argsortI v2 f2 v3 f3 tol' = .ok (true, rep')) : ∃ σ, TriMatch (tol + tol') σ v1 f1 v3 f3 := by
  obtain ⟨-, σ, hs⟩ := C73_sound hsort hF hI v1 v2 f1 f2 tol h1 h2 rep h
  obtain ⟨-, τ, ht⟩ := C73_sound hsort hF hI v2 v3 f2 f3 tol' h2 h3 rep' h'
  exact ⟨_, match_trans hs ht⟩

/-- A triangulation without repeated vertices or faces, with proper faces, where no side belongs to more than two faces. -/
structure IsSurface (v : Fin n → Fin m → K) (f : List Row) : Prop where
  vertices : Function.Injective v
  proper : ∀ t ∈ f, Proper t
  nodup : f.Nodup
  sides : ∀ a b, sideCount f a b ≤ 2

private theorem linked_zero (col : Fin n → K) (i j : Fin n) (h : SortRows.Linked 0 col i j) : col i = col j := by
  induction h with
  | refl => rfl
  | tail _ h2 ih => exact ih.trans (sub_eq_zero.mp (abs_nonpos_iff.mp h2))

/-- **C135**: with the tolerance zero the answer is yes exactly when the triangulations are the same up to the numbering of the vertices. -/
theorem C135_exact (hsort : IsArgsort argsort) (hF : ∀ n, SortRows.IsArgsort (argsortF n)) (hI : ∀ n, SortRows.IsArgsort (argsortI n))
    (hn : 0 < n) (hm : 0 < m) (v1 v2 : Fin n → Fin m → K) (f1 f2 : List Row) (s1 : IsSurface v1 f1) (s2 : IsSurface v2 f2) (hl : f1.length = f2.length) :
    isTriEqual argsort argsortF argsortI v1 f1 v2 f2 0 = .ok (true, .none) ↔ ∃ σ, TriMatch 0 σ v1 f1 v2 f2 := by
  constructor
  · intro h; exact (C73_sound hsort hF hI v1 v2 f1 f2 0 s1.proper s2.proper _ h).2
  · rintro ⟨σ, h⟩
    refine C73_complete_partial hsort hF hI v1 v2 f1 f2 0 0 hn hm le_rfl σ h (fun i j c => ?_) (fun i j hij => ?_) s1.proper hl s1.nodup s2.nodup
      s1.sides s2.sides
    · simp only [mul_zero, sub_zero, add_zero]
      exact le_or_gt _ _
    · by_contra hc
      push Not at hc
      exact hij (s1.vertices (funext fun c => linked_zero (fun r => v1 r c) i j (hc c)))

/-- **C135**: with the tolerance zero the answers yes are transitive. -/
theorem C135_trans (hsort : IsArgsort argsort) (hF : ∀ n, SortRows.IsArgsort (argsortF n)) (hI : ∀ n, SortRows.IsArgsort (argsortI n))
    (hn : 0 < n) (hm : 0 < m) (v1 v2 v3 : Fin n → Fin m → K) (f1 f2 f3 : List Row) (s1 : IsSurface v1 f1) (s2 : IsSurface v2 f2) (s3 : IsSurface v3 f3)
    (h : isTriEqual argsort argsortF argsortI v1 f1 v2 f2 0 = .ok (true, .none))
    (h' : isTriEqual argsort argsortF argsortI v2 f2 v3 f3 0 = .ok (true, .none)) :
    isTriEqual argsort argsortF argsortI v1 f1 v3 f3 0 = .ok (true, .none) := by
  have hlen : ∀ {v v' : Fin n → Fin m → K} {f f' : List Row}, isTriEqual argsort argsortF argsortI v f v' f' 0 = .ok (true, .none) → f.length = f'.length := by
    intro v v' f f' h
    by_contra hc
    rw [lens hc] at h
    cases h
  rw [C135_exact hsort hF hI hn hm _ _ _ _ s1 s3 ((hlen h).trans (hlen h'))]
  obtain ⟨σ, hs⟩ := C135_chain hsort hF hI v1 v2 v3 f1 f2 f3 0 0 s1.proper s2.proper s3.proper _ _ h h'
  rw [add_zero] at hs
  exact ⟨σ, hs⟩

/-- **C135**: with the tolerance zero a one-to-one map of the space (a movement, a change of the coordinates) does not change whether the answer is yes,
although it may put the vertices in another order. -/
theorem C135_moved (hsort : IsArgsort argsort) (hF : ∀ n, SortRows.IsArgsort (argsortF n)) (hI : ∀ n, SortRows.IsArgsort (argsortI n))
    {m' : ℕ} (hn : 0 < n) (hm : 0 < m) (hm' : 0 < m') (φ : (Fin m → K) → Fin m' → K) (hφ : Function.Injective φ)
    (v1 v2 : Fin n → Fin m → K) (f1 f2 : List Row) (s1 : IsSurface v1 f1) (s2 : IsSurface v2 f2) :
    isTriEqual argsort argsortF argsortI (fun i => φ (v1 i)) f1 (fun i => φ (v2 i)) f2 0 = .ok (true, .none) ↔
      isTriEqual argsort argsortF argsortI v1 f1 v2 f2 0 = .ok (true, .none) := by
  by_cases hl : f1.length = f2.length
  swap
  · rw [lens hl, lens hl]
  have hs : ∀ (v : Fin n → Fin m → K) f, IsSurface v f → IsSurface (fun i => φ (v i)) f :=
    fun v f h => ⟨hφ.comp h.vertices, h.proper, h.nodup, h.sides⟩
  rw [C135_exact hsort hF hI hn hm' _ _ _ _ (hs _ _ s1) (hs _ _ s2) hl, C135_exact hsort hF hI hn hm _ _ _ _ s1 s2 hl]
  have he : ∀ (k : ℕ) (x y : Fin k → K), (∀ c, |x c - y c| ≤ 0) ↔ x = y := by
    intro k x y
    refine ⟨fun h => funext fun c => sub_eq_zero.mp (abs_nonpos_iff.mp (h c)), ?_⟩
    rintro rfl c
    simp
  unfold TriMatch
  simp only [he, hφ.eq_iff]

/-! ### The grids -/

/-- **C135**: the grid of `sphere_tri` is equal to itself for all tolerances and to all its renumberings without tolerance, and to no grid of another
depth. -/
theorem C135_sphere {argsortF : ∀ n, (Fin n → ℝ) → Equiv.Perm (Fin n)} (hsort : IsArgsort argsort) (hF : ∀ n, SortRows.IsArgsort (argsortF n))
    (hI : ∀ n, SortRows.IsArgsort (argsortI n)) (d fuel : ℕ) (hf : d < fuel) :
    ∃ V F, sphereTri argsort fuel d = .ok (some (V, F)) ∧
      (∀ tol, 0 ≤ tol → isTriEqual argsort argsortF argsortI (fun i : Fin V.length => V[i]) F (fun i : Fin V.length => V[i]) F tol = .ok (true, .none)) ∧
      (∀ (σ : Equiv.Perm (Fin V.length)) (G : List Row), List.Forall₂ (Renumbered σ) F G →
        isTriEqual argsort argsortF argsortI (fun i : Fin V.length => V[i]) F (fun i : Fin V.length => V[σ⁻¹ i]) G 0 = .ok (true, .none)) ∧
      ∀ (d' : ℕ) (V' : List (Fin 3 → ℝ)) (F' : List Row), d' ≠ d → d' < fuel → sphereTri argsort fuel d' = .ok (some (V', F')) → ∀ tol,
        isTriEqual argsort argsortF argsortI (fun i : Fin V.length => V[i]) F (fun i : Fin V'.length => V'[i]) F' tol = .ok (false, .vertexCount) := by
  obtain ⟨V, F, h1, hV, -, -, -, hrow, hside, -⟩ := C56 argsort hsort d fuel hf
  obtain ⟨V0, F0, h2, hnd, -⟩ := C56_fan argsort hsort d fuel hf
  obtain ⟨V1, F1, h3, hdir⟩ := C115_sphere argsort hsort d fuel hf
  rw [h1] at h2 h3
  obtain ⟨rfl, rfl⟩ : V = V0 ∧ F = F0 := by simpa using h2
  obtain ⟨rfl, rfl⟩ : V = V1 ∧ F = F1 := by simpa using h3
  have hpos : 0 < V.length := by rw [hV]; omega
  have hcount : ∀ a b, sideCount F a b ≤ 2 := by
    intro a b
    unfold sideCount
    rw [← List.countP_eq_length_filter]
    by_cases h : ∃ f ∈ F, IsSide a b f
    · exact (hside a b h).le
    · rw [List.countP_eq_zero.mpr (fun f hf hs => h ⟨f, hf, by simpa using hs⟩)]; omega
  have hnodup : F.Nodup := by
    rw [List.nodup_iff_count_le_one]
    intro f
    by_contra hc
    have hf : f ∈ F := List.count_pos_iff.mp (by omega)
    have h5 := (hdir f.1 f.2.1 ⟨f, hf, by simp [IsSide]⟩).1
    have h6 : ∀ l : List Row, l.count f ≤ dirUses l f.1 f.2.1 := by
      intro l
      induction l with
      | nil => simp
      | cons t l ih =>
        rw [List.count_cons]
        unfold dirUses at ih ⊢
        rw [List.map_cons, List.sum_cons]
        by_cases ht : t = f
        · subst ht
          have : 1 ≤ dirCount t.1 t.2.1 t := by simp only [dirCount, and_self, if_true]; omega
          simp only [beq_self_eq_true, if_true]
          omega
        · simp only [beq_iff_eq, ht, if_false]
          omega
    have := h6 F
    omega
  have hin : ∀ t ∈ F, t.1 < V.length ∧ t.2.1 < V.length ∧ t.2.2 < V.length := fun t ht => (hrow t ht).1
  refine ⟨V, F, h1, fun tol ht => ?_, fun σ G hG => ?_, fun d' V' F' hd hd' h' tol => ?_⟩
  · exact (C73_self_partial hsort _ F tol hpos (by norm_num) ht (fun t h => (hrow t h).2) hin).1 hcount
  · rw [C135_exact hsort hF hI hpos (by norm_num)]
    · refine ⟨σ, fun i c => ?_, fun t ht => ?_, fun t ht => ?_⟩
      · have e := congrArg (fun j : Fin V.length => V[j] c) (show σ⁻¹ (σ i) = i from Equiv.symm_apply_apply σ i)
        simp only at e ⊢
        rw [e, sub_self, abs_zero]
      · obtain ⟨s, hs, h⟩ := forall₂_mem_left hG ht
        exact ⟨s, hs, s, h, List.Perm.refl _⟩
      · obtain ⟨s, hs, h⟩ := forall₂_mem_right hG ht
        exact ⟨s, hs, t, h, List.Perm.refl _⟩
    · exact ⟨fun i j h => Fin.ext ((List.Nodup.getElem_inj_iff hnd).mp h), fun t h => (hrow t h).2, hnodup, hcount⟩
    · refine ⟨fun i j h => ?_, fun t ht => ?_, renumbered_nodup hG hnodup, (edges_renumbered hG).mp hcount⟩
      · exact σ⁻¹.injective (Fin.ext ((List.Nodup.getElem_inj_iff hnd).mp h))
      · obtain ⟨s, hs, h⟩ := forall₂_mem_right hG ht
        exact h.proper.mpr (hrow s hs).2
    · exact hG.length_eq
  · obtain ⟨V2, F2, h4, hV2, -⟩ := C56 argsort hsort d' fuel hd'
    rw [h'] at h4
    obtain ⟨rfl, rfl⟩ : V' = V2 ∧ F' = F2 := by simpa using h4
    refine (C73_counts _ _ _ _ _).1 ?_
    rw [hV, hV2]
    intro h
    have : 4 ^ d = 4 ^ d' := by omega
    exact hd (Nat.pow_right_injective le_rfl (this.symm.trans rfl |> fun h => by simpa using h))

/-! ### Non-triviality -/

/-- Two triangles with a common side in the plane, and the same with the vertices numbered otherwise. -/
private def sqA : Fin 4 → Fin 2 → ℚ := ![![0, 0], ![1, 0], ![0, 1], ![1, 1]]

private def sqB : Fin 4 → Fin 2 → ℚ := ![![1, 1], ![0, 1], ![1, 0], ![0, 0]]

private theorem sqA_surface : IsSurface sqA [(0, 1, 2), (2, 1, 3)] := by
  refine ⟨?_, ?_, by decide, fun a b => List.length_filter_le _ _⟩
  · intro i j h
    have h0 := congrFun h 0
    have h1 := congrFun h 1
    fin_cases i <;> fin_cases j <;> simp [sqA] at h0 h1 ⊢
  · intro t ht; simp at ht; rcases ht with rfl | rfl <;> simp [Proper]

private theorem sqB_surface : IsSurface sqB [(1, 0, 2), (2, 3, 1)] := by
  refine ⟨?_, ?_, by decide, fun a b => List.length_filter_le _ _⟩
  · intro i j h
    have h0 := congrFun h 0
    have h1 := congrFun h 1
    fin_cases i <;> fin_cases j <;> simp [sqB] at h0 h1 ⊢
  · intro t ht; simp at ht; rcases ht with rfl | rfl <;> simp [Proper]

private theorem sq_match : TriMatch 0 (Fin.revPerm : Equiv.Perm (Fin 4)) sqA [(0, 1, 2), (2, 1, 3)] sqB [(1, 0, 2), (2, 3, 1)] := by
  refine ⟨fun i c => ?_, ?_, ?_⟩
  · fin_cases i <;> fin_cases c <;> simp [sqA, sqB]
  · intro t ht
    simp only [List.mem_cons, List.not_mem_nil, or_false] at ht
    rcases ht with rfl | rfl
    · exact ⟨(2, 3, 1), by simp, (3, 2, 1), ⟨0, 1, 2, rfl, rfl⟩, by unfold SameTri; decide⟩
    · exact ⟨(1, 0, 2), by simp, (1, 2, 0), ⟨2, 1, 3, rfl, rfl⟩, by unfold SameTri; decide⟩
  · intro t ht
    simp only [List.mem_cons, List.not_mem_nil, or_false] at ht
    rcases ht with rfl | rfl
    · exact ⟨(2, 1, 3), by simp, (1, 2, 0), ⟨2, 1, 3, rfl, rfl⟩, by unfold SameTri; decide⟩
    · exact ⟨(0, 1, 2), by simp, (3, 2, 1), ⟨0, 1, 2, rfl, rfl⟩, by unfold SameTri; decide⟩

/-- The two pictures of the square are found equal, in both orders, and after a change of the units, of the origin and of the axes. -/
example (argsortF : ∀ n, (Fin n → ℚ) → Equiv.Perm (Fin n)) (argsortI : ∀ n, (Fin n → Fin n) → Equiv.Perm (Fin n))
    (hF : ∀ n, SortRows.IsArgsort (argsortF n)) (hI : ∀ n, SortRows.IsArgsort (argsortI n)) :
    isTriEqual stableArgsort argsortF argsortI sqA [(0, 1, 2), (2, 1, 3)] sqB [(1, 0, 2), (2, 3, 1)] 0 = .ok (true, .none) ∧
    isTriEqual stableArgsort argsortF argsortI sqB [(1, 0, 2), (2, 3, 1)] sqA [(0, 1, 2), (2, 1, 3)] 0 = .ok (true, .none) ∧
    isTriEqual stableArgsort argsortF argsortI (fun i c => 2 * sqA i c + 5) [(0, 1, 2), (2, 1, 3)] (fun i c => 2 * sqB i c + 5) [(1, 0, 2), (2, 3, 1)] (2 * 0) =
      .ok (true, .none) ∧
    isTriEqual stableArgsort argsortF argsortI (fun i => ![sqA i 1, -sqA i 0]) [(0, 1, 2), (2, 1, 3)] (fun i => ![sqB i 1, -sqB i 0]) [(1, 0, 2), (2, 3, 1)] 0 =
      .ok (true, .none) := by
  have h := (C135_exact stableArgsort_ok hF hI (by norm_num) (by norm_num) sqA sqB _ _ sqA_surface sqB_surface rfl).mpr ⟨_, sq_match⟩
  refine ⟨h, (C135_symm stableArgsort_ok sqA sqB _ _ 0).trans h, (C135_units stableArgsort_ok hF hI sqA sqB _ _ 0 two_pos (fun _ => 5)).trans h, ?_⟩
  refine (C135_moved stableArgsort_ok hF hI (by norm_num) (by norm_num) (by norm_num) (fun x => ![x 1, -x 0]) ?_ sqA sqB _ _ sqA_surface sqB_surface).mpr h
  intro x y hxy
  have h0 := congrFun hxy 0
  have h1 := congrFun hxy 1
  simp at h0 h1
  ext c; fin_cases c <;> assumption

example (argsortF : ∀ n, (Fin n → ℚ) → Equiv.Perm (Fin n)) (argsortI : ∀ n, (Fin n → Fin n) → Equiv.Perm (Fin n)) (tol : ℚ) :
    isTriEqual stableArgsort argsortF argsortI sqA [(2, 1, 3), (0, 1, 2)] sqB [(1, 0, 2), (2, 3, 1)] tol =
      isTriEqual stableArgsort argsortF argsortI sqA [(0, 1, 2), (2, 1, 3)] sqB [(1, 0, 2), (2, 3, 1)] tol :=
  C135_face_order stableArgsort_ok sqA sqB _ _ _ _ (List.Perm.swap _ _ _) (List.Perm.refl _) tol

/-- The hypotheses of `C135_trans`: there, back, and there again. -/
example (argsortF : ∀ n, (Fin n → ℚ) → Equiv.Perm (Fin n)) (argsortI : ∀ n, (Fin n → Fin n) → Equiv.Perm (Fin n))
    (hF : ∀ n, SortRows.IsArgsort (argsortF n)) (hI : ∀ n, SortRows.IsArgsort (argsortI n)) :
    isTriEqual stableArgsort argsortF argsortI sqA [(0, 1, 2), (2, 1, 3)] sqA [(0, 1, 2), (2, 1, 3)] 0 = .ok (true, .none) := by
  have h := (C135_exact stableArgsort_ok hF hI (by norm_num) (by norm_num) sqA sqB _ _ sqA_surface sqB_surface rfl).mpr ⟨_, sq_match⟩
  exact C135_trans stableArgsort_ok hF hI (by norm_num) (by norm_num) sqA sqB sqA _ _ _ sqA_surface sqB_surface sqA_surface h
    ((C135_symm stableArgsort_ok sqA sqB _ _ 0).trans h)

example : ∃ V F, sphereTri stableArgsort 3 2 = .ok (some (V, F)) ∧
    isTriEqual stableArgsort (fun _ => Tuple.sort) (fun _ => Tuple.sort) (fun i : Fin V.length => V[i]) F (fun i : Fin V.length => V[i]) F (1 / 2) = .ok (true, .none) := by
  obtain ⟨V, F, h, h1, -⟩ := C135_sphere (argsortF := fun _ => Tuple.sort) (argsortI := fun _ => Tuple.sort) stableArgsort_ok (fun _ => SortRows.isArgsort_sort)
    (fun _ => SortRows.isArgsort_sort) 2 3 (by norm_num)
  exact ⟨V, F, h, h1 _ (by norm_num)⟩

end Ellipy.Tri
