import Mathlib.Tactic.NormNum
import Verif.Proofs.TriEqual
import Verif.Props.SortRows
import Verif.Props.TriFaceEdge

/-! Property theorems C72 (`is_face`) and C73 (`is_tri_equal`). -/

set_option linter.unusedSectionVars false

namespace Ellipy.Tri

/-! ### `is_face` -/

/-- **C72** (soundness). A row with three distinct vertices that is reported to be a face has the vertices of one of the faces. -/
theorem C72_sound (argsort : List ℕ → List ℕ) (hsort : IsArgsort argsort) (F : FMat) (rows check : List Row) (hF : faceRows F = .ok rows) :
    ∃ r, isFace argsort F check = .ok r ∧ r.length = check.length ∧ ∀ (k : ℕ) (t : Row), check[k]? = some t → Proper t → r[k]? = some true →
      ∃ f ∈ rows, SameTri t f := by
  obtain ⟨r, hr, hlen, h⟩ := isFace_ok argsort hsort F rows check hF
  refine ⟨r, hr, hlen, fun k t ht hp hk => ?_⟩
  obtain ⟨-, f, hf, hs⟩ := (h k t ht).mp hk
  exact ⟨f, hf, (sides_sub_iff t f hp).mp hs⟩

/-- **C72** (partial: only for the rows none of whose sides belongs to more than two faces; see `C72_violated`). A row is reported to be a face
exactly when it has the vertices of one of the faces. -/
theorem C72_partial (argsort : List ℕ → List ℕ) (hsort : IsArgsort argsort) (F : FMat) (rows check : List Row) (hF : faceRows F = .ok rows)
    (hrows : ∀ f ∈ rows, Proper f) :
    ∃ r, isFace argsort F check = .ok r ∧ r.length = check.length ∧ ∀ (k : ℕ) (t : Row), check[k]? = some t → Proper t → SidesFree rows t →
      (r[k]? = some true ↔ ∃ f ∈ rows, SameTri t f) := by
  obtain ⟨r, hr, hlen, h⟩ := isFace_ok argsort hsort F rows check hF
  refine ⟨r, hr, hlen, fun k t ht hp hk => ?_⟩
  rw [h k t ht, sides_free_iff rows hrows t hp]
  constructor
  · rintro ⟨-, f, hf, hs⟩; exact ⟨f, hf, (sides_sub_iff t f hp).mp hs⟩
  · rintro ⟨f, hf, hs⟩; exact ⟨hk, f, hf, (sides_sub_iff t f hp).mpr hs⟩

/-- **C72** (where it fails). A row with a side that belongs to more than two faces is never reported, even if it is one of the faces. -/
theorem C72_missed (argsort : List ℕ → List ℕ) (hsort : IsArgsort argsort) (F : FMat) (rows check : List Row) (hF : faceRows F = .ok rows)
    (hrows : ∀ f ∈ rows, Proper f) :
    ∃ r, isFace argsort F check = .ok r ∧ r.length = check.length ∧ ∀ (k : ℕ) (t : Row), check[k]? = some t → Proper t → ¬ SidesFree rows t →
      r[k]? = some false := by
  obtain ⟨r, hr, hlen, h⟩ := isFace_ok argsort hsort F rows check hF
  refine ⟨r, hr, hlen, fun k t ht hp hk => ?_⟩
  have h1 := h k t ht
  rw [sides_free_iff rows hrows t hp] at h1
  have hkl : k < r.length := by rw [hlen]; exact (List.getElem?_eq_some_iff.mp ht).1
  rw [List.getElem?_eq_getElem hkl] at h1 ⊢
  cases hv : r[k] with
  | false => rfl
  | true => rw [hv] at h1; exact absurd (h1.mp rfl).1 hk

/-- Three triangles with a common side. -/
def fan : List Row := [(0, 1, 2), (0, 1, 3), (0, 1, 4)]

theorem fan_proper : ∀ f ∈ fan, Proper f := by
  intro f hf
  simp only [fan, List.mem_cons, List.not_mem_nil, or_false] at hf
  rcases hf with rfl | rfl | rfl <;> simp [Proper]

theorem fan_not_free : ∀ f ∈ fan, ¬ SidesFree fan f := by
  intro f hf h
  simp only [fan, List.mem_cons, List.not_mem_nil, or_false] at hf
  have h01 : IsSide 0 1 f := by rcases hf with rfl | rfl | rfl <;> simp [IsSide]
  have := h 0 1 h01
  revert this
  decide

/-- **C72** (violation). Where three faces share a side none of them is found among the faces. -/
theorem C72_violated (argsort : List ℕ → List ℕ) (hsort : IsArgsort argsort) :
    isFace argsort (.mat fan) fan = .ok [false, false, false] ∧ ∀ t ∈ fan, ∃ f ∈ fan, SameTri t f := by
  refine ⟨?_, fun t ht => ⟨t, ht, List.Perm.refl _⟩⟩
  obtain ⟨r, hr, hlen, h⟩ := C72_missed argsort hsort (.mat fan) fan fan rfl fan_proper
  rw [hr]
  have h' : ∀ (k : ℕ) (t : Row), fan[k]? = some t → r[k]? = some false := by
    intro k t ht
    have hm := List.mem_of_getElem? ht
    exact h k t ht (fan_proper t hm) (fan_not_free t hm)
  have h0 := h' 0 (0, 1, 2) rfl
  have h1 := h' 1 (0, 1, 3) rfl
  have h2 := h' 2 (0, 1, 4) rfl
  have hl : r.length = 3 := hlen
  match r, hl, h0, h1, h2 with
  | [a, b, c], _, h0, h1, h2 =>
    simp at h0 h1 h2
    rw [h0, h1, h2]

/-- **C72** (errors). The call raises exactly when the face matrix does not have three columns. -/
theorem C72_raises_iff (argsort : List ℕ → List ℕ) (hsort : IsArgsort argsort) (F : FMat) (check : List Row) :
    Raises (isFace argsort F check) ↔ F = .other := by
  constructor
  · rintro ⟨e, he⟩
    cases F with
    | other => rfl
    | vec r => obtain ⟨_, h, -⟩ := isFace_ok argsort hsort (.vec r) _ check rfl; rw [h] at he; cases he
    | mat r => obtain ⟨_, h, -⟩ := isFace_ok argsort hsort (.mat r) _ check rfl; rw [h] at he; cases he
  · rintro rfl; exact ⟨_, rfl⟩

/-- Two triangles with a common side: one of them is found in another order of its vertices, another triple of joined vertices is not. -/
example : ∃ r, isFace stableArgsort (.mat [(0, 1, 2), (2, 1, 3)]) [(3, 2, 1), (0, 1, 3)] = .ok r ∧ r[0]? = some true ∧ r[1]? ≠ some true := by
  have hrows : ∀ f ∈ [((0 : ℕ), (1 : ℕ), (2 : ℕ)), (2, 1, 3)], Proper f := by
    intro f hf; simp at hf; rcases hf with rfl | rfl <;> simp [Proper]
  obtain ⟨r, hr, -, h⟩ := C72_partial stableArgsort stableArgsort_ok (.mat [(0, 1, 2), (2, 1, 3)]) _ [(3, 2, 1), (0, 1, 3)] rfl hrows
  have hle : ∀ a b, sideCount [(0, 1, 2), (2, 1, 3)] a b ≤ 2 := fun a b => List.length_filter_le _ _
  refine ⟨r, hr, (h 0 _ rfl (by simp [Proper]) (fun a b _ => hle a b)).mpr ⟨(2, 1, 3), by simp, by unfold SameTri; decide⟩, ?_⟩
  rw [Ne, h 1 _ rfl (by simp [Proper]) (fun a b _ => hle a b)]
  rintro ⟨f, hf, hs⟩
  simp at hf
  rcases hf with rfl | rfl
  · revert hs; unfold SameTri; decide
  · revert hs; unfold SameTri; decide

/-! ### `is_tri_equal` -/

section
variable {K : Type} [Field K] [LinearOrder K] [IsStrictOrderedRing K] {n m : ℕ}

theorem takeFaces_ok_iff (ρ : Equiv.Perm (Fin n)) (f g : List Row) : takeFaces ρ f = .ok g ↔ List.Forall₂ (Renumbered ρ) f g := by
  unfold takeFaces
  rw [pyMap_ok_iff]
  have : ∀ (t s : Row), (match (if h : t.1 < n then (.ok (ρ ⟨t.1, h⟩).val : Py ℕ) else .error .indexError) with
      | .error e => (.error e : Py Row)
      | .ok a =>
        match (if h : t.2.1 < n then (.ok (ρ ⟨t.2.1, h⟩).val : Py ℕ) else .error .indexError) with
        | .error e => .error e
        | .ok b =>
          match (if h : t.2.2 < n then (.ok (ρ ⟨t.2.2, h⟩).val : Py ℕ) else .error .indexError) with
          | .error e => .error e
          | .ok c => .ok (a, b, c)) = .ok s ↔ Renumbered ρ t s := by
    rintro ⟨a, b, c⟩ s
    simp only
    by_cases ha : a < n
    · by_cases hb : b < n
      · by_cases hc : c < n
        · rw [dif_pos ha, dif_pos hb, dif_pos hc]
          constructor
          · intro h; injection h with h; subst h
            exact ⟨⟨a, ha⟩, ⟨b, hb⟩, ⟨c, hc⟩, rfl, rfl⟩
          · rintro ⟨a', b', c', h1, rfl⟩
            obtain ⟨rfl, rfl, rfl⟩ : a = a'.val ∧ b = b'.val ∧ c = c'.val := by simpa [Prod.ext_iff] using h1
            rfl
        · rw [dif_pos ha, dif_pos hb, dif_neg hc]
          refine ⟨fun h => (by cases h), ?_⟩
          rintro ⟨a', b', c', h1, -⟩
          exact absurd (by simp only [Prod.mk.injEq] at h1; omega) hc
      · rw [dif_pos ha, dif_neg hb]
        refine ⟨fun h => (by cases h), ?_⟩
        rintro ⟨a', b', c', h1, -⟩
        exact absurd (by simp only [Prod.mk.injEq] at h1; omega) hb
    · rw [dif_neg ha]
      refine ⟨fun h => (by cases h), ?_⟩
      rintro ⟨a', b', c', h1, -⟩
      exact absurd (by simp only [Prod.mk.injEq] at h1; omega) ha
  constructor
  · intro h; exact h.imp (fun t s hts => (this t s).mp hts)
  · intro h; exact h.imp (fun t s hts => (this t s).mpr hts)

theorem takeFaces_total (ρ : Equiv.Perm (Fin n)) (f : List Row) (h : ∀ t ∈ f, t.1 < n ∧ t.2.1 < n ∧ t.2.2 < n) :
    ∃ g, takeFaces ρ f = .ok g := by
  cases hg : takeFaces ρ f with
  | ok g => exact ⟨g, rfl⟩
  | error e =>
    exfalso
    have : ∃ g, List.Forall₂ (Renumbered ρ) f g := by
      clear hg
      induction f with
      | nil => exact ⟨[], .nil⟩
      | cons t f ih =>
        obtain ⟨g, hg⟩ := ih (fun x hx => h x (by simp [hx]))
        obtain ⟨h1, h2, h3⟩ := h t (by simp)
        exact ⟨_, .cons ⟨⟨_, h1⟩, ⟨_, h2⟩, ⟨_, h3⟩, rfl, rfl⟩ hg⟩
    obtain ⟨g, h2⟩ := this
    rw [(takeFaces_ok_iff ρ f g).mpr h2] at hg
    cases hg

theorem Renumbered.inj {ρ : Equiv.Perm (Fin n)} {t t' s : Row} (h : Renumbered ρ t s) (h' : Renumbered ρ t' s) : t = t' := by
  obtain ⟨a, b, c, rfl, rfl⟩ := h
  obtain ⟨a', b', c', rfl, h2⟩ := h'
  simp only [Prod.mk.injEq, Fin.val_inj, ρ.injective.eq_iff] at h2
  obtain ⟨rfl, rfl, rfl⟩ := h2
  rfl

theorem Renumbered.proper {ρ : Equiv.Perm (Fin n)} {t s : Row} (h : Renumbered ρ t s) : Proper s ↔ Proper t := by
  obtain ⟨a, b, c, rfl, rfl⟩ := h
  simp only [Proper, ne_eq, Fin.val_inj, ρ.injective.eq_iff]

/-- Faces that agree after sorting agree after the composed renumbering. -/
theorem Renumbered.pull {ρ τ : Equiv.Perm (Fin n)} {t t' s s' : Row} (h : Renumbered ρ t t') (h' : Renumbered τ s s') :
    SameTri t' s' ↔ ∃ u, Renumbered (τ⁻¹ * ρ) t u ∧ SameTri u s := by
  obtain ⟨a, b, c, rfl, rfl⟩ := h
  obtain ⟨p, q, r, rfl, rfl⟩ := h'
  have key : ∀ (x y z x' y' z' : Fin n), SameTri (x.val, y.val, z.val) (x'.val, y'.val, z'.val) ↔ [x, y, z].Perm [x', y', z'] := by
    intro x y z x' y' z'
    exact (List.map_perm_map_iff (f := Fin.val) Fin.val_injective (l := [x, y, z]) (l' := [x', y', z']))
  rw [key]
  have h2 : [ρ a, ρ b, ρ c].Perm [τ p, τ q, τ r] ↔ [(τ⁻¹ * ρ) a, (τ⁻¹ * ρ) b, (τ⁻¹ * ρ) c].Perm [p, q, r] := by
    rw [← List.map_perm_map_iff (f := τ) τ.injective (l := [(τ⁻¹ * ρ) a, (τ⁻¹ * ρ) b, (τ⁻¹ * ρ) c])]
    simp
  rw [h2, ← key]
  constructor
  · intro h; exact ⟨_, ⟨a, b, c, rfl, rfl⟩, h⟩
  · rintro ⟨u, ⟨a', b', c', h1, rfl⟩, h⟩
    simp only [Prod.mk.injEq, Fin.val_inj] at h1
    obtain ⟨rfl, rfl, rfl⟩ := h1
    exact h

theorem forall₂_mem_left {α β : Type} {R : α → β → Prop} {l : List α} {l' : List β} (h : List.Forall₂ R l l') :
    ∀ x ∈ l, ∃ y ∈ l', R x y := by
  induction h with
  | nil => intro x hx; cases hx
  | @cons a b l l' hab _ ih =>
    intro x hx
    rcases List.mem_cons.mp hx with rfl | hx
    · exact ⟨b, by simp, hab⟩
    · obtain ⟨y, hy, h⟩ := ih x hx
      exact ⟨y, by simp [hy], h⟩

theorem forall₂_mem_right {α β : Type} {R : α → β → Prop} {l : List α} {l' : List β} (h : List.Forall₂ R l l') :
    ∀ y ∈ l', ∃ x ∈ l, R x y := forall₂_mem_left (R := fun y x => R x y) h.flip

/-- All rows are found. -/
theorem isFace_all (argsort : List ℕ → List ℕ) (hsort : IsArgsort argsort) (g h : List Row) (hh : ∀ t ∈ h, Proper t) :
    ∃ b, isFace argsort (.mat g) h = .ok b ∧ (b.all id = true → ∀ t ∈ h, ∃ f ∈ g, SameTri t f) ∧
      ((∀ f ∈ g, Proper f) → (b.all id = true ↔ ∀ t ∈ h, SidesFree g t ∧ ∃ f ∈ g, SameTri t f)) := by
  obtain ⟨r, hr, hlen, hk⟩ := isFace_ok argsort hsort (.mat g) g h rfl
  have hall : r.all id = true ↔ ∀ (k : ℕ) (t : Row), h[k]? = some t → r[k]? = some true := by
    rw [List.all_eq_true]
    constructor
    · intro hb k t ht
      have hkl : k < r.length := by rw [hlen]; exact (List.getElem?_eq_some_iff.mp ht).1
      rw [List.getElem?_eq_getElem hkl]
      exact congrArg some (hb _ (List.getElem_mem _))
    · intro hb x hx
      obtain ⟨k, hkl, rfl⟩ := List.getElem_of_mem hx
      have hkl' : k < h.length := by rw [← hlen]; exact hkl
      have := hb k _ (List.getElem?_eq_getElem hkl')
      rw [List.getElem?_eq_getElem hkl] at this
      exact Option.some.inj this
  refine ⟨r, hr, ?_, ?_⟩
  · intro hb t ht
    obtain ⟨k, hkl, rfl⟩ := List.getElem_of_mem ht
    obtain ⟨-, f, hf, hs⟩ := (hk k _ (List.getElem?_eq_getElem hkl)).mp (hall.mp hb k _ (List.getElem?_eq_getElem hkl))
    exact ⟨f, hf, (sides_sub_iff _ f (hh _ ht)).mp hs⟩
  · intro hg
    rw [hall]
    constructor
    · intro hb t ht
      obtain ⟨k, hkl, rfl⟩ := List.getElem_of_mem ht
      have h1 := (hk k _ (List.getElem?_eq_getElem hkl)).mp (hb k _ (List.getElem?_eq_getElem hkl))
      rw [sides_free_iff g hg _ (hh _ ht)] at h1
      obtain ⟨h1, f, hf, hs⟩ := h1
      exact ⟨h1, f, hf, (sides_sub_iff _ f (hh _ ht)).mp hs⟩
    · intro hb k t ht
      have htm := List.mem_of_getElem? ht
      obtain ⟨h1, f, hf, hs⟩ := hb t htm
      rw [hk k t ht, sides_free_iff g hg _ (hh _ htm)]
      exact ⟨h1, f, hf, (sides_sub_iff _ f (hh _ htm)).mpr hs⟩

variable {argsort : List ℕ → List ℕ} {argsortF : ∀ n, (Fin n → K) → Equiv.Perm (Fin n)} {argsortI : ∀ n, (Fin n → Fin n) → Equiv.Perm (Fin n)}

/-- **C73** (soundness). When two triangulations with proper faces are reported to be equal, a renumbering of the vertices moves every vertex by
at most the tolerance and takes the faces of one to the faces of the other. -/
theorem C73_sound (hsort : IsArgsort argsort) (hF : ∀ n, SortRows.IsArgsort (argsortF n)) (hI : ∀ n, SortRows.IsArgsort (argsortI n))
    (v1 v2 : Fin n → Fin m → K) (f1 f2 : List Row) (tol : K) (h1 : ∀ t ∈ f1, Proper t) (h2 : ∀ t ∈ f2, Proper t) (rep : TriReport)
    (h : isTriEqual argsort argsortF argsortI v1 f1 v2 f2 tol = .ok (true, rep)) : rep = .none ∧ ∃ σ, TriMatch tol σ v1 f1 v2 f2 := by
  unfold isTriEqual at h
  rw [dif_pos rfl] at h
  by_cases hl : f1.length = f2.length
  swap
  · rw [if_neg hl] at h; cases h
  rw [if_pos hl] at h
  cases hr1 : SortRows.sortRowsTol (argsortF n) (argsortI n) v1 tol with
  | error e => rw [hr1] at h; cases h
  | ok r1 =>
  rw [hr1] at h
  simp only [Fin.cast_eq_self] at h
  cases hr2 : SortRows.sortRowsTol (argsortF n) (argsortI n) v2 tol with
  | error e => rw [hr2] at h; cases h
  | ok r2 =>
  rw [hr2] at h
  simp only at h
  cases hg1 : takeFaces r1.rev f1 with
  | error e => rw [hg1] at h; cases h
  | ok g1 =>
  rw [hg1] at h
  simp only at h
  cases hg2 : takeFaces r2.rev f2 with
  | error e => rw [hg2] at h; cases h
  | ok g2 =>
  rw [hg2] at h
  simp only at h
  by_cases he : n = 0 ∨ m = 0
  · rw [if_pos he] at h; cases h
  rw [if_neg he] at h
  by_cases hd : ∀ i c, |r1.res i c - r2.res i c| ≤ tol
  swap
  · rw [if_neg hd] at h; cases h
  rw [if_pos hd] at h
  by_cases hu : g1.dedup.length = g2.dedup.length
  swap
  · rw [if_neg hu] at h; cases h
  rw [if_pos hu] at h
  rw [takeFaces_ok_iff] at hg1 hg2
  have hp1 : ∀ t ∈ g1, Proper t := by
    intro t ht
    obtain ⟨s, hs, hst⟩ := forall₂_mem_right hg1 t ht
    exact hst.proper.mpr (h1 s hs)
  have hp2 : ∀ t ∈ g2, Proper t := by
    intro t ht
    obtain ⟨s, hs, hst⟩ := forall₂_mem_right hg2 t ht
    exact hst.proper.mpr (h2 s hs)
  obtain ⟨b1, hb1, hs1, -⟩ := isFace_all argsort hsort g2 g1 hp1
  obtain ⟨b2, hb2, hs2, -⟩ := isFace_all argsort hsort g1 g2 hp2
  rw [hb1] at h
  simp only at h
  by_cases hb1' : b1.all id = true
  swap
  · rw [if_neg hb1'] at h; cases h
  rw [if_pos hb1', hb2] at h
  simp only at h
  by_cases hb2' : b2.all id = true
  swap
  · rw [if_neg hb2'] at h; cases h
  rw [if_pos hb2'] at h
  injection h with h
  refine ⟨(Prod.ext_iff.mp h).2.symm, ?_⟩
  obtain ⟨p1, p2, p3, p4⟩ := SortRows.C13_permutation (hF n) (hI n) hr1
  obtain ⟨q1, q2, q3, q4⟩ := SortRows.C13_permutation (hF n) (hI n) hr2
  refine ⟨r2.rev⁻¹ * r1.rev, ?_, ?_, ?_⟩
  · intro i c
    have h3 := hd (r1.rev i) c
    rw [p4 i] at h3
    have h4 : r2.res (r1.rev i) = v2 ((r2.rev⁻¹ * r1.rev) i) := by
      rw [← q4 ((r2.rev⁻¹ * r1.rev) i)]
      simp
    rw [h4] at h3
    exact h3
  · intro t ht
    obtain ⟨t', ht', h3⟩ := forall₂_mem_left hg1 t ht
    obtain ⟨s', hs', h4⟩ := hs1 hb1' t' ht'
    obtain ⟨s, hs, h5⟩ := forall₂_mem_right hg2 s' hs'
    obtain ⟨u, hu1, hu2⟩ := (h3.pull h5).mp h4
    exact ⟨s, hs, u, hu1, hu2⟩
  · intro s hs
    obtain ⟨s', hs', h5⟩ := forall₂_mem_left hg2 s hs
    obtain ⟨t', ht', h4⟩ := hs2 hb2' s' hs'
    obtain ⟨t, ht, h3⟩ := forall₂_mem_right hg1 t' ht'
    obtain ⟨u, hu1, hu2⟩ := (h3.pull h5).mp h4.symm
    exact ⟨t, ht, u, hu1, hu2⟩

theorem sideCount_le {ρ : Equiv.Perm (Fin n)} {f g : List Row} (h : List.Forall₂ (Renumbered ρ) f g) (hf : ∀ a b, sideCount f a b ≤ 2) (x y : ℕ) :
    sideCount g x y ≤ 2 := by
  have key : ∀ (p q : Row → Bool), (∀ t ∈ f, ∀ s, Renumbered ρ t s → q s = true → p t = true) → (g.filter q).length ≤ (f.filter p).length := by
    intro p q hpq
    clear hf
    induction h with
    | nil => simp
    | @cons t s f g hts _ ih =>
      have h1 := ih (fun t ht => hpq t (by simp [ht]))
      rw [List.filter_cons, List.filter_cons]
      by_cases hq : q s = true
      · rw [if_pos hq, if_pos (hpq t (by simp) s hts hq)]
        simp only [List.length_cons]; omega
      · rw [if_neg hq]
        split_ifs
        · simp only [List.length_cons]; omega
        · exact h1
  by_cases hx : x < n
  · by_cases hy : y < n
    · refine le_trans (key (fun v => decide (IsSide (ρ.symm ⟨x, hx⟩).val (ρ.symm ⟨y, hy⟩).val v)) (fun v => decide (IsSide x y v)) ?_) (hf _ _)
      rintro t ht s ⟨a, b, c, rfl, rfl⟩ hs
      simp only [decide_eq_true_eq, IsSide, List.mem_cons, List.not_mem_nil, or_false, Prod.mk.injEq] at hs ⊢
      have e : ∀ (z : ℕ) (hz : z < n) (i : Fin n), z = (ρ i).val → (ρ.symm ⟨z, hz⟩).val = i.val := by
        rintro z hz i rfl; simp
      rcases hs with ⟨h1, h2⟩ | ⟨h1, h2⟩ | ⟨h1, h2⟩ | ⟨h1, h2⟩ | ⟨h1, h2⟩ | ⟨h1, h2⟩
      all_goals rw [e x hx _ h1, e y hy _ h2]; tauto
    · refine le_trans (key (fun _ => false) (fun v => decide (IsSide x y v)) ?_) (by simp)
      rintro t ht s ⟨a, b, c, rfl, rfl⟩ hs
      simp only [decide_eq_true_eq, IsSide, List.mem_cons, List.not_mem_nil, or_false, Prod.mk.injEq] at hs
      have := (ρ a).isLt; have := (ρ b).isLt; have := (ρ c).isLt
      omega
  · refine le_trans (key (fun _ => false) (fun v => decide (IsSide x y v)) ?_) (by simp)
    rintro t ht s ⟨a, b, c, rfl, rfl⟩ hs
    simp only [decide_eq_true_eq, IsSide, List.mem_cons, List.not_mem_nil, or_false, Prod.mk.injEq] at hs
    have := (ρ a).isLt; have := (ρ b).isLt; have := (ρ c).isLt
    omega

theorem renumbered_nodup {ρ : Equiv.Perm (Fin n)} {f g : List Row} (h : List.Forall₂ (Renumbered ρ) f g) (hf : f.Nodup) : g.Nodup := by
  induction h with
  | nil => exact List.nodup_nil
  | @cons t s f g hts hfg ih =>
    rw [List.nodup_cons] at hf ⊢
    refine ⟨fun hs => ?_, ih hf.2⟩
    obtain ⟨t', ht', h1⟩ := forall₂_mem_right hfg s hs
    exact hf.1 (by rw [hts.inj h1]; exact ht')

theorem linked_comp (σ : Equiv.Perm (Fin n)) (tol : K) (col : Fin n → K) (i j : Fin n) (h : SortRows.Linked tol (fun r => col (σ r)) i j) :
    SortRows.Linked tol col (σ i) (σ j) := by
  induction h with
  | refl => exact .refl
  | tail _ h2 ih => exact ih.tail h2

theorem linked_comp_iff (σ : Equiv.Perm (Fin n)) (tol : K) (col : Fin n → K) (i j : Fin n) :
    SortRows.Linked tol (fun r => col (σ r)) i j ↔ SortRows.Linked tol col (σ i) (σ j) := by
  refine ⟨linked_comp σ tol col i j, fun h => ?_⟩
  have := linked_comp σ.symm tol (fun r => col (σ r)) (σ i) (σ j) (by simpa using h)
  simpa using this

theorem edges_free (f : List Row) : (∀ a b, sideCount f a b ≤ 2) ↔ ∀ t ∈ f, SidesFree f t := by
  constructor
  · intro h t _ a b _; exact h a b
  · intro h a b
    by_contra hc
    have h0 : 0 < sideCount f a b := by omega
    unfold sideCount at h0
    obtain ⟨t, ht⟩ := List.exists_mem_of_length_pos h0
    rw [List.mem_filter, decide_eq_true_eq] at ht
    exact hc (h t ht.1 a b ht.2)

theorem Renumbered.symm {ρ : Equiv.Perm (Fin n)} {t s : Row} (h : Renumbered ρ t s) : Renumbered ρ⁻¹ s t := by
  obtain ⟨a, b, c, rfl, rfl⟩ := h
  exact ⟨ρ a, ρ b, ρ c, rfl, by simp⟩

theorem edges_renumbered {ρ : Equiv.Perm (Fin n)} {f g : List Row} (h : List.Forall₂ (Renumbered ρ) f g) :
    (∀ a b, sideCount f a b ≤ 2) ↔ ∀ a b, sideCount g a b ≤ 2 :=
  ⟨sideCount_le h, sideCount_le (ρ := ρ⁻¹) (h.flip.imp (fun _ _ h => Renumbered.symm h))⟩

/-- The outcome once the vertices agree. -/
theorem triEqual_eval (hsort : IsArgsort argsort) {v1 v2 : Fin n → Fin m → K} {f1 f2 g1 g2 : List Row} {tol : K} {r1 r2 : SortRows.Result K n m}
    (hl : f1.length = f2.length) (hr1 : SortRows.sortRowsTol (argsortF n) (argsortI n) v1 tol = .ok r1)
    (hr2 : SortRows.sortRowsTol (argsortF n) (argsortI n) v2 tol = .ok r2) (hg1 : takeFaces r1.rev f1 = .ok g1)
    (hg2 : takeFaces r2.rev f2 = .ok g2) (hn : 0 < n) (hm : 0 < m) (hd : ∀ i c, |r1.res i c - r2.res i c| ≤ tol)
    (hu : g1.dedup.length = g2.dedup.length) (hp1 : ∀ t ∈ g1, Proper t) (hp2 : ∀ t ∈ g2, Proper t) :
    ((∀ a b, sideCount g1 a b ≤ 2) → (∀ a b, sideCount g2 a b ≤ 2) → (∀ t ∈ g1, ∃ s ∈ g2, SameTri t s) → (∀ t ∈ g2, ∃ s ∈ g1, SameTri t s) →
      isTriEqual argsort argsortF argsortI v1 f1 v2 f2 tol = .ok (true, .none)) ∧
    (¬ (∀ t ∈ g1, SidesFree g2 t) → isTriEqual argsort argsortF argsortI v1 f1 v2 f2 tol = .ok (false, .faces)) := by
  obtain ⟨b1, hb1, -, hs1⟩ := isFace_all argsort hsort g2 g1 hp1
  obtain ⟨b2, hb2, -, hs2⟩ := isFace_all argsort hsort g1 g2 hp2
  have hs1 := hs1 hp2
  have hs2 := hs2 hp1
  have heval : isTriEqual argsort argsortF argsortI v1 f1 v2 f2 tol =
      (if b1.all id then (if b2.all id then .ok (true, .none) else .ok (false, .faces)) else .ok (false, .faces)) := by
    unfold isTriEqual
    rw [dif_pos rfl, if_pos hl, hr1]
    simp only [Fin.cast_eq_self]
    rw [hr2]
    simp only
    rw [hg1]
    simp only
    rw [hg2]
    simp only
    rw [if_neg (by omega), if_pos hd, if_pos hu, hb1]
    simp only
    rw [hb2]
  rw [heval]
  constructor
  · intro h1 h2 h3 h4
    rw [if_pos (hs1.mpr (fun t ht => ⟨fun a b _ => h2 a b, h3 t ht⟩)), if_pos (hs2.mpr (fun t ht => ⟨fun a b _ => h1 a b, h4 t ht⟩))]
  · intro h1
    rw [if_neg (fun h => h1 (fun t ht => (hs1.mp h t ht).1))]

theorem sortRows_ok (X : Fin n → Fin m → K) {tol : K} (ht : 0 ≤ tol) (hm : 0 < m) :
    ∃ r, SortRows.sortRowsTol (argsortF n) (argsortI n) X tol = .ok r := by
  cases h : SortRows.sortRowsTol (argsortF n) (argsortI n) X tol with
  | ok r => exact ⟨r, rfl⟩
  | error e =>
    rcases (SortRows.C13_raises_iff _ _ _ _).mp ⟨e, h⟩ with h | h
    · exact absurd h (not_lt.mpr ht)
    · omega

/-- **C73** (a triangulation and itself; partial: only if no edge belongs to more than two faces). A triangulation with proper faces is equal to
itself exactly when no edge belongs to more than two faces. -/
theorem C73_self_partial (hsort : IsArgsort argsort) (v : Fin n → Fin m → K) (f : List Row) (tol : K) (hn : 0 < n) (hm : 0 < m) (ht : 0 ≤ tol)
    (hp : ∀ t ∈ f, Proper t) (hr : ∀ t ∈ f, t.1 < n ∧ t.2.1 < n ∧ t.2.2 < n) :
    ((∀ a b, sideCount f a b ≤ 2) → isTriEqual argsort argsortF argsortI v f v f tol = .ok (true, .none)) ∧
    ((∃ a b, 2 < sideCount f a b) → isTriEqual argsort argsortF argsortI v f v f tol = .ok (false, .faces)) := by
  obtain ⟨r, hr1⟩ := sortRows_ok (argsortF := argsortF) (argsortI := argsortI) v ht hm
  obtain ⟨g, hg⟩ := takeFaces_total r.rev f hr
  have hg' := (takeFaces_ok_iff _ _ _).mp hg
  have hpg : ∀ t ∈ g, Proper t := by
    intro t ht
    obtain ⟨s, hs, hst⟩ := forall₂_mem_right hg' t ht
    exact hst.proper.mpr (hp s hs)
  have hev := triEqual_eval (argsortF := argsortF) (argsortI := argsortI) hsort rfl hr1 hr1 hg hg hn hm
    (fun i c => by rw [sub_self, abs_zero]; exact ht) rfl hpg hpg
  constructor
  · intro h
    have h' := (edges_renumbered hg').mp h
    exact hev.1 h' h' (fun t ht => ⟨t, ht, List.Perm.refl _⟩) (fun t ht => ⟨t, ht, List.Perm.refl _⟩)
  · rintro ⟨a, b, hab⟩
    refine hev.2 (fun h => ?_)
    have h1 := (edges_renumbered hg').mpr ((edges_free g).mpr h) a b
    omega

/-- **C73** (completeness; partial: the vertices agree up to an error `δ`, no two coordinates have a difference within `2 δ` of the tolerance,
distinct vertices are not linked by chains of steps within the tolerance in every coordinate, no face is listed twice, no edge belongs to more
than two faces; for `δ = 0` the condition on the differences says nothing). A triangulation is found equal to every renumbering of it with
vertices moved by at most `δ`, in whatever order the faces and the vertices of the faces are listed. -/
theorem C73_complete_partial (hsort : IsArgsort argsort) (hF : ∀ n, SortRows.IsArgsort (argsortF n)) (hI : ∀ n, SortRows.IsArgsort (argsortI n))
    (v1 v2 : Fin n → Fin m → K) (f1 f2 : List Row) (tol δ : K) (hn : 0 < n) (hm : 0 < m) (ht : 0 ≤ tol) (σ : Equiv.Perm (Fin n))
    (hmatch : TriMatch δ σ v1 f1 v2 f2) (hgap : ∀ i j c, |v1 i c - v1 j c| ≤ tol - 2 * δ ∨ tol + 2 * δ < |v1 i c - v1 j c|)
    (hsep : ∀ i j, i ≠ j → ∃ c, ¬ SortRows.Linked tol (fun r => v1 r c) i j)
    (hp : ∀ t ∈ f1, Proper t) (hl : f1.length = f2.length) (hn1 : f1.Nodup) (hn2 : f2.Nodup)
    (he1 : ∀ a b, sideCount f1 a b ≤ 2) (he2 : ∀ a b, sideCount f2 a b ≤ 2) :
    isTriEqual argsort argsortF argsortI v1 f1 v2 f2 tol = .ok (true, .none) := by
  obtain ⟨hv, hm1, hm2⟩ := hmatch
  have hd0 : 0 ≤ δ := (abs_nonneg _).trans (hv ⟨0, hn⟩ ⟨0, hm⟩)
  have hdt : δ ≤ tol := by
    rcases hgap ⟨0, hn⟩ ⟨0, hn⟩ ⟨0, hm⟩ with h | h <;> rw [sub_self, abs_zero] at h <;> linarith
  have hin1 : ∀ t ∈ f1, t.1 < n ∧ t.2.1 < n ∧ t.2.2 < n := by
    intro t ht
    obtain ⟨_, _, _, ⟨a, b, c, rfl, -⟩, -⟩ := hm1 t ht
    exact ⟨a.isLt, b.isLt, c.isLt⟩
  have hsame : ∀ (s t : Row), SameTri s t → (Proper s → Proper t) ∧ ∀ x, (x = t.1 ∨ x = t.2.1 ∨ x = t.2.2) → (x = s.1 ∨ x = s.2.1 ∨ x = s.2.2) := by
    rintro ⟨a, b, c⟩ ⟨p, q, r⟩ h
    unfold SameTri at h
    refine ⟨fun hs => ?_, fun x hx => ?_⟩
    · have hnd : [a, b, c].Nodup := by simpa [Proper, and_assoc] using hs
      have := h.nodup_iff.mp hnd
      simpa [Proper, and_assoc] using this
    · have := (h.mem_iff (a := x)).mpr (by simpa using hx)
      simpa using this
  have hp2 : ∀ t ∈ f2, Proper t := by
    intro t ht
    obtain ⟨s, hs, u, hu, hsu⟩ := hm2 t ht
    exact (hsame u t hsu).1 (hu.proper.mpr (hp s hs))
  have hin2 : ∀ t ∈ f2, t.1 < n ∧ t.2.1 < n ∧ t.2.2 < n := by
    intro t ht
    obtain ⟨s, hs, u, ⟨a, b, c, -, rfl⟩, hsu⟩ := hm2 t ht
    have hx := (hsame _ t hsu).2
    have := (σ a).isLt; have := (σ b).isLt; have := (σ c).isLt
    have h1 := hx t.1 (by simp)
    have h2 := hx t.2.1 (by simp)
    have h3 := hx t.2.2 (by simp)
    simp only at h1 h2 h3
    omega
  obtain ⟨r1, hr1⟩ := sortRows_ok (argsortF := argsortF) (argsortI := argsortI) v1 ht hm
  obtain ⟨r2, hr2⟩ := sortRows_ok (argsortF := argsortF) (argsortI := argsortI) v2 ht hm
  obtain ⟨g1, hg1⟩ := takeFaces_total r1.rev f1 hin1
  obtain ⟨g2, hg2⟩ := takeFaces_total r2.rev f2 hin2
  have hg1' := (takeFaces_ok_iff _ _ _).mp hg1
  have hg2' := (takeFaces_ok_iff _ _ _).mp hg2
  obtain ⟨-, a1, a2, a3⟩ := SortRows.ok_cases (hF n) (hI n) hr1
  obtain ⟨-, b1, b2, b3⟩ := SortRows.ok_cases (hF n) (hI n) hr2
  -- the order of the sorted vertices is the same
  have hbefore : ∀ i j, i ≠ j → SortRows.RowBefore tol v1 i j → SortRows.RowBefore tol v2 (σ i) (σ j) := by
    intro i j hij h
    have hlk : ∀ c i j, SortRows.Linked tol (fun r => v1 r c) i j ↔ SortRows.Linked tol (fun r => v2 r c) (σ i) (σ j) := by
      intro c i j
      rw [← linked_comp_iff σ tol (fun r => v2 r c)]
      have hrel : (fun i j => |v1 i c - v1 j c| ≤ tol) = fun i j => |v2 (σ i) c - v2 (σ j) c| ≤ tol := by
        funext i j
        have h1 := abs_le.mp (hv i c)
        have h2 := abs_le.mp (hv j c)
        rw [eq_iff_iff, abs_le, abs_le]
        rcases hgap i j c with h | h
        · have h := abs_le.mp h
          constructor <;> intro _ <;> constructor <;> linarith [h.1, h.2, h1.1, h1.2, h2.1, h2.2]
        · constructor <;> rintro ⟨h3, h4⟩ <;> rcases lt_abs.mp h with h | h <;> exact absurd h (by linarith [h1.1, h1.2, h2.1, h2.2])
      unfold SortRows.Linked
      rw [hrel]
    rcases h with ⟨c, hc, hcl⟩ | ⟨hall, -⟩
    · refine .inl ⟨c, fun c' hc' => (hlk c' i j).mp (hc c' hc'), ?_, fun h => hcl.2 ((hlk c i j).mpr h)⟩
      have h1 := abs_le.mp (hv i c)
      have h2 := abs_le.mp (hv j c)
      have hlt := hcl.1
      simp only at hlt ⊢
      rcases hgap i j c with h | h
      · exact absurd (.single (h.trans (by linarith))) hcl.2
      · rw [abs_of_neg (by linarith)] at h
        linarith [h1.1, h1.2, h2.1, h2.2]
    · obtain ⟨c, hc⟩ := hsep i j hij
      exact absurd (hall c) hc
  have hmono : Monotone (r2.ind⁻¹ * σ * r1.ind : Equiv.Perm (Fin n)) := by
    intro p q hpq
    rcases eq_or_lt_of_le hpq with rfl | hlt
    · exact le_rfl
    · by_contra hcon
      have h3 := b3 _ _ (not_le.1 hcon)
      have hinv : ∀ z, r2.ind (r2.ind⁻¹ z) = z := fun z => Equiv.apply_symm_apply r2.ind z
      simp only [Equiv.Perm.mul_apply] at h3
      rw [hinv, hinv] at h3
      exact SortRows.rowBefore_asymm h3 (hbefore _ _ (fun h => hlt.ne (r1.ind.injective h)) (a3 _ _ hlt))
  rw [Equiv.Perm.monotone_iff] at hmono
  have hind : r2.ind = σ * r1.ind := by
    have := congrArg (fun z => r2.ind * z) hmono
    simpa [← mul_assoc] using this.symm
  have hσ : r2.rev⁻¹ * r1.rev = σ := by
    rw [a2, b2, hind]; simp
  have hpg1 : ∀ t ∈ g1, Proper t := by
    intro t ht
    obtain ⟨s, hs, hst⟩ := forall₂_mem_right hg1' t ht
    exact hst.proper.mpr (hp s hs)
  have hpg2 : ∀ t ∈ g2, Proper t := by
    intro t ht
    obtain ⟨s, hs, hst⟩ := forall₂_mem_right hg2' t ht
    exact hst.proper.mpr (hp2 s hs)
  refine (triEqual_eval (argsortF := argsortF) (argsortI := argsortI) hsort hl hr1 hr2 hg1 hg2 hn hm ?_ ?_ hpg1 hpg2).1
    ((edges_renumbered hg1').mp he1) ((edges_renumbered hg2').mp he2) ?_ ?_
  · intro i c
    rw [a1, b1]
    simp only
    rw [hind, Equiv.Perm.mul_apply]
    exact (hv _ c).trans hdt
  · rw [(renumbered_nodup hg1' hn1).dedup, (renumbered_nodup hg2' hn2).dedup, ← hg1'.length_eq, ← hg2'.length_eq, hl]
  · intro t' ht'
    obtain ⟨t, ht, h1⟩ := forall₂_mem_right hg1' t' ht'
    obtain ⟨s, hs, u, hu, hus⟩ := hm1 t ht
    obtain ⟨s', hs', h2⟩ := forall₂_mem_left hg2' s hs
    exact ⟨s', hs', (h1.pull h2).mpr ⟨u, by rw [hσ]; exact hu, hus⟩⟩
  · intro s' hs'
    obtain ⟨s, hs, h2⟩ := forall₂_mem_right hg2' s' hs'
    obtain ⟨t, ht, u, hu, hus⟩ := hm2 s hs
    obtain ⟨t', ht', h1⟩ := forall₂_mem_left hg1' t ht
    exact ⟨t', ht', ((h1.pull h2).mpr ⟨u, by rw [hσ]; exact hu, hus⟩).symm⟩

/-- **C73** (errors). With the same numbers of vertices and of faces the call raises exactly for a negative tolerance, no vertices, no coordinates,
or a face with a vertex that does not exist. -/
theorem C73_raises_iff (hsort : IsArgsort argsort) (v1 v2 : Fin n → Fin m → K) (f1 f2 : List Row) (tol : K) (hl : f1.length = f2.length) :
    Raises (isTriEqual argsort argsortF argsortI v1 f1 v2 f2 tol) ↔
      tol < 0 ∨ n = 0 ∨ m = 0 ∨ ∃ t ∈ f1 ++ f2, n ≤ t.1 ∨ n ≤ t.2.1 ∨ n ≤ t.2.2 := by
  have hin : ∀ (ρ : Equiv.Perm (Fin n)) (f g : List Row), takeFaces ρ f = .ok g → ∀ t ∈ f, t.1 < n ∧ t.2.1 < n ∧ t.2.2 < n := by
    intro ρ f g h t ht
    obtain ⟨s, -, a, b, c, rfl, -⟩ := forall₂_mem_left ((takeFaces_ok_iff ρ f g).mp h) t ht
    exact ⟨a.isLt, b.isLt, c.isLt⟩
  have hout : ∀ (ρ : Equiv.Perm (Fin n)) (f : List Row) (e : Exc), takeFaces ρ f = .error e → ∃ t ∈ f, n ≤ t.1 ∨ n ≤ t.2.1 ∨ n ≤ t.2.2 := by
    intro ρ f e h
    by_contra hc
    push Not at hc
    obtain ⟨g, hg⟩ := takeFaces_total ρ f hc
    rw [hg] at h; cases h
  have hsr : ∀ (X : Fin n → Fin m → K) (e : Exc), SortRows.sortRowsTol (argsortF n) (argsortI n) X tol = .error e → tol < 0 ∨ m = 0 := by
    intro X e h
    rcases (SortRows.C13_raises_iff _ _ _ _).mp ⟨e, h⟩ with h | h
    · exact .inl h
    · exact .inr h.2
  unfold isTriEqual
  rw [dif_pos rfl, if_pos hl]
  cases hr1 : SortRows.sortRowsTol (argsortF n) (argsortI n) v1 tol with
  | error e =>
    simp only
    refine ⟨fun _ => ?_, fun _ => ⟨e, rfl⟩⟩
    rcases hsr _ _ hr1 with h | h
    · exact .inl h
    · exact .inr (.inr (.inl h))
  | ok r1 =>
  simp only [Fin.cast_eq_self]
  cases hr2 : SortRows.sortRowsTol (argsortF n) (argsortI n) v2 tol with
  | error e =>
    simp only
    refine ⟨fun _ => ?_, fun _ => ⟨e, rfl⟩⟩
    rcases hsr _ _ hr2 with h | h
    · exact .inl h
    · exact .inr (.inr (.inl h))
  | ok r2 =>
  simp only
  have htol : ¬ tol < 0 := by
    intro h
    obtain ⟨e, he⟩ := (SortRows.C13_raises_iff (argsortF n) (argsortI n) v1 tol).mpr (.inl h)
    rw [he] at hr1; cases hr1
  cases hg1 : takeFaces r1.rev f1 with
  | error e =>
    refine ⟨fun _ => ?_, fun _ => ⟨e, rfl⟩⟩
    obtain ⟨t, ht, h⟩ := hout _ _ _ hg1
    exact .inr (.inr (.inr ⟨t, by simp [ht], h⟩))
  | ok g1 =>
  simp only
  cases hg2 : takeFaces r2.rev f2 with
  | error e =>
    refine ⟨fun _ => ?_, fun _ => ⟨e, rfl⟩⟩
    obtain ⟨t, ht, h⟩ := hout _ _ _ hg2
    exact .inr (.inr (.inr ⟨t, by simp [ht], h⟩))
  | ok g2 =>
  simp only
  by_cases he : n = 0 ∨ m = 0
  · rw [if_pos he]
    refine ⟨fun _ => ?_, fun _ => ⟨_, rfl⟩⟩
    rcases he with h | h
    · exact .inr (.inl h)
    · exact .inr (.inr (.inl h))
  rw [if_neg he]
  push Not at he
  have hno : ¬ (tol < 0 ∨ n = 0 ∨ m = 0 ∨ ∃ t ∈ f1 ++ f2, n ≤ t.1 ∨ n ≤ t.2.1 ∨ n ≤ t.2.2) := by
    rintro (h | h | h | ⟨t, ht, h⟩)
    · exact htol h
    · exact he.1 h
    · exact he.2 h
    · rcases List.mem_append.mp ht with ht | ht
      · have := hin _ _ _ hg1 t ht; omega
      · have := hin _ _ _ hg2 t ht; omega
  refine ⟨?_, fun h => absurd h hno⟩
  rintro ⟨e, h⟩
  obtain ⟨b1, hb1, -⟩ := isFace_ok argsort hsort (.mat g2) g2 g1 rfl
  obtain ⟨b2, hb2, -⟩ := isFace_ok argsort hsort (.mat g1) g1 g2 rfl
  rw [hb1] at h
  simp only at h
  rw [hb2] at h
  simp only at h
  by_cases hd : ∀ i c, |r1.res i c - r2.res i c| ≤ tol
  · rw [if_pos hd] at h
    by_cases hu : g1.dedup.length = g2.dedup.length
    · rw [if_pos hu] at h
      by_cases h1 : b1.all id = true
      · rw [if_pos h1] at h
        by_cases h2 : b2.all id = true
        · rw [if_pos h2] at h; cases h
        · rw [if_neg h2] at h; cases h
      · rw [if_neg h1] at h; cases h
    · rw [if_neg hu] at h; cases h
  · rw [if_neg hd] at h; cases h

/-- **C73** (reports). Triangulations with different numbers of vertices, or of faces, are not equal. -/
theorem C73_counts {n1 n2 : ℕ} (v1 : Fin n1 → Fin m → K) (v2 : Fin n2 → Fin m → K) (f1 f2 : List Row) (tol : K) :
    (n1 ≠ n2 → isTriEqual argsort argsortF argsortI v1 f1 v2 f2 tol = .ok (false, .vertexCount)) ∧
    (n1 = n2 → f1.length ≠ f2.length → isTriEqual argsort argsortF argsortI v1 f1 v2 f2 tol = .ok (false, .faceCount)) := by
  unfold isTriEqual
  constructor
  · intro h; rw [dif_neg h]
  · intro h h'; rw [dif_pos h, if_neg h']

end

/-- Five points of the plane. -/
def fanVerts : Fin 5 → Fin 2 → ℚ := ![![0, 0], ![1, 0], ![2, 5], ![3, 7], ![4, 11]]

/-- **C73** (violation). A triangulation with three faces at one edge is reported to differ from itself. -/
theorem C73_violated (argsort : List ℕ → List ℕ) (hsort : IsArgsort argsort) (argsortF : ∀ n, (Fin n → ℚ) → Equiv.Perm (Fin n))
    (argsortI : ∀ n, (Fin n → Fin n) → Equiv.Perm (Fin n)) :
    isTriEqual argsort argsortF argsortI fanVerts fan fanVerts fan 0 = .ok (false, .faces) ∧ TriMatch 0 1 fanVerts fan fanVerts fan := by
  have hr : ∀ t ∈ fan, t.1 < 5 ∧ t.2.1 < 5 ∧ t.2.2 < 5 := by
    intro t ht
    simp only [fan, List.mem_cons, List.not_mem_nil, or_false] at ht
    rcases ht with rfl | rfl | rfl <;> simp
  refine ⟨(C73_self_partial hsort fanVerts fan 0 (by norm_num) (by norm_num) le_rfl fan_proper hr).2 ⟨0, 1, by decide⟩, ?_, ?_, ?_⟩
  · intro i c; simp
  · intro t ht
    obtain ⟨h1, h2, h3⟩ := hr t ht
    exact ⟨t, ht, t, ⟨⟨_, h1⟩, ⟨_, h2⟩, ⟨_, h3⟩, rfl, rfl⟩, List.Perm.refl _⟩
  · intro t ht
    obtain ⟨h1, h2, h3⟩ := hr t ht
    exact ⟨t, ht, t, ⟨⟨_, h1⟩, ⟨_, h2⟩, ⟨_, h3⟩, rfl, rfl⟩, List.Perm.refl _⟩

/-- A triangle of the plane. -/
def triA : Fin 3 → Fin 2 → ℚ := ![![0, 10], ![2, 0], ![100, 0]]

/-- The same triangle with one vertex moved by one. -/
def triB : Fin 3 → Fin 2 → ℚ := ![![0, 10], ![1, 0], ![100, 0]]

theorem linked_const {N : ℕ} {α : Type} (col : Fin N → ℚ) (g : Fin N → α) (h : ∀ i j, |col i - col j| ≤ 1 → g i = g j) (i j : Fin N)
    (hij : SortRows.Linked 1 col i j) : g i = g j := by
  induction hij with
  | refl => rfl
  | tail _ h2 ih => rw [ih]; exact h _ _ h2

theorem first_row {X : Fin 3 → Fin 2 → ℚ} {argsortF : (Fin 3 → ℚ) → Equiv.Perm (Fin 3)} {argsortI : (Fin 3 → Fin 3) → Equiv.Perm (Fin 3)}
    (hF : SortRows.IsArgsort argsortF) (hI : SortRows.IsArgsort argsortI) {r : SortRows.Result ℚ 3 2}
    (h : SortRows.sortRowsTol argsortF argsortI X 1 = .ok r) (k : Fin 3) (hk : ∀ j, j ≠ k → SortRows.RowBefore 1 X k j) : r.res 0 = X k := by
  obtain ⟨-, h1, -, h3⟩ := SortRows.ok_cases hF hI h
  have : r.ind 0 = k := by
    by_contra hne
    have h0 : r.ind.symm k ≠ 0 := by
      intro he; exact hne (by rw [← he]; simp)
    have h4 := h3 0 (r.ind.symm k) (Fin.pos_of_ne_zero h0)
    rw [Equiv.apply_symm_apply] at h4
    exact SortRows.rowBefore_asymm h4 (hk _ hne)
  rw [h1]; simp only; rw [this]

/-- **C73** (violation). Two triangles whose corresponding vertices differ by at most the tolerance are reported to differ: moving a vertex
within the tolerance changes which vertices are taken to have the same first coordinate, and so the order in which the vertices are compared. -/
theorem C73_violated_tol (argsort : List ℕ → List ℕ) (argsortF : ∀ n, (Fin n → ℚ) → Equiv.Perm (Fin n))
    (argsortI : ∀ n, (Fin n → Fin n) → Equiv.Perm (Fin n)) (hF : ∀ n, SortRows.IsArgsort (argsortF n)) (hI : ∀ n, SortRows.IsArgsort (argsortI n)) :
    isTriEqual argsort argsortF argsortI triA [(0, 1, 2)] triB [(0, 1, 2)] 1 = .ok (false, .vertices) ∧
      TriMatch 1 1 triA [(0, 1, 2)] triB [(0, 1, 2)] := by
  have hR : Renumbered (1 : Equiv.Perm (Fin 3)) (0, 1, 2) (0, 1, 2) := ⟨0, 1, 2, rfl, rfl⟩
  refine ⟨?_, ?_, ?_, ?_⟩
  swap
  · intro i c
    fin_cases i <;> fin_cases c <;> simp [triA, triB] <;> norm_num
  swap
  · intro t ht
    obtain rfl := List.mem_singleton.mp ht
    exact ⟨_, ht, _, hR, List.Perm.refl _⟩
  swap
  · intro t ht
    obtain rfl := List.mem_singleton.mp ht
    exact ⟨_, ht, _, hR, List.Perm.refl _⟩
  obtain ⟨r1, hr1⟩ := sortRows_ok (argsortF := argsortF) (argsortI := argsortI) triA (tol := 1) (by norm_num) (by norm_num)
  obtain ⟨r2, hr2⟩ := sortRows_ok (argsortF := argsortF) (argsortI := argsortI) triB (tol := 1) (by norm_num) (by norm_num)
  have hin : ∀ t ∈ [((0 : ℕ), (1 : ℕ), (2 : ℕ))], t.1 < 3 ∧ t.2.1 < 3 ∧ t.2.2 < 3 := by
    intro t ht; obtain rfl := List.mem_singleton.mp ht; simp
  obtain ⟨g1, hg1⟩ := takeFaces_total r1.rev [(0, 1, 2)] hin
  obtain ⟨g2, hg2⟩ := takeFaces_total r2.rev [(0, 1, 2)] hin
  have e1 : r1.res 0 = triA 0 := by
    refine first_row (hF 3) (hI 3) hr1 0 (fun j hj => .inl ⟨0, fun c' hc' => absurd hc' (Fin.not_lt_zero c'), ?_, fun hl => ?_⟩)
    · fin_cases j
      · exact absurd rfl hj
      · simp [triA]
      · simp [triA]
    · have := linked_const (fun r => triA r 0) (fun r => triA r 0)
        (by intro i j; fin_cases i <;> fin_cases j <;> simp [triA] <;> norm_num) 0 j hl
      fin_cases j
      · exact absurd rfl hj
      · simp [triA] at this
      · simp [triA] at this
  have e2 : r2.res 0 = triB 1 := by
    refine first_row (hF 3) (hI 3) hr2 1 (fun j hj => .inl ?_)
    fin_cases j
    · refine ⟨1, fun c' hc' => ?_, by simp [triB], fun hl => ?_⟩
      · have : c' = 0 := by omega
        subst this
        refine .single ?_
        simp [triB]
      · have := linked_const (fun r => triB r 1) (fun r => triB r 1)
          (by intro i j; fin_cases i <;> fin_cases j <;> simp [triB] <;> norm_num) 1 0 hl
        simp [triB] at this
    · exact absurd rfl hj
    · refine ⟨0, fun c' hc' => absurd hc' (Fin.not_lt_zero c'), by simp [triB], fun hl => ?_⟩
      have := linked_const (fun r => triB r 0) (fun r => decide (r = 2))
        (by intro i j; fin_cases i <;> fin_cases j <;> simp [triB] <;> norm_num) 1 2 hl
      simp at this
  unfold isTriEqual
  rw [dif_pos rfl, if_pos rfl, hr1]
  simp only [Fin.cast_eq_self]
  rw [hr2]
  simp only
  rw [hg1]
  simp only
  rw [hg2]
  simp only
  rw [if_neg (by norm_num), if_neg]
  intro h
  have := h 0 1
  rw [e1, e2] at this
  simp [triA, triB] at this

/-- Two triangles of the plane with a common side, and the same with the vertices numbered backwards, the faces in the other order and one face
turned around and the vertices moved by up to 1/4. -/
example : isTriEqual stableArgsort (fun _ => Tuple.sort) (fun _ => Tuple.sort)
      (![![0, 0], ![3, 0], ![0, 4], ![3, 4]] : Fin 4 → Fin 2 → ℚ) [(0, 1, 2), (1, 3, 2)]
      (![![13 / 4, 4], ![0, 15 / 4], ![3, 1 / 4], ![-1 / 8, 0]] : Fin 4 → Fin 2 → ℚ) [(1, 0, 2), (2, 3, 1)] 1 = .ok (true, .none) := by
  have hle : ∀ (l : List Row), l.length = 2 → ∀ a b, sideCount l a b ≤ 2 := fun l hl a b => hl ▸ List.length_filter_le _ _
  refine C73_complete_partial stableArgsort_ok (fun _ => SortRows.isArgsort_sort) (fun _ => SortRows.isArgsort_sort) _ _ _ _ 1 (1 / 4) (by norm_num)
    (by norm_num) (by norm_num) Fin.revPerm ⟨?_, ?_, ?_⟩ ?_ ?_ ?_ rfl (by decide) (by decide) (hle _ rfl) (hle _ rfl)
  · intro i c
    fin_cases i <;> fin_cases c <;> simp [Fin.revPerm, Fin.rev] <;> norm_num
  · intro t ht
    simp at ht
    rcases ht with rfl | rfl
    · exact ⟨(2, 3, 1), by simp, (3, 2, 1), ⟨0, 1, 2, rfl, rfl⟩, by unfold SameTri; decide⟩
    · exact ⟨(1, 0, 2), by simp, (2, 0, 1), ⟨1, 3, 2, rfl, rfl⟩, by unfold SameTri; decide⟩
  · intro t ht
    simp at ht
    rcases ht with rfl | rfl
    · exact ⟨(1, 3, 2), by simp, (2, 0, 1), ⟨1, 3, 2, rfl, rfl⟩, by unfold SameTri; decide⟩
    · exact ⟨(0, 1, 2), by simp, (3, 2, 1), ⟨0, 1, 2, rfl, rfl⟩, by unfold SameTri; decide⟩
  · intro i j c
    fin_cases c <;> fin_cases i <;> fin_cases j <;> simp <;> norm_num
  · have key : ∀ (col : Fin 4 → ℚ), (∀ i j, |col i - col j| ≤ 1 → col i = col j) → ∀ i j, SortRows.Linked 1 col i j → col i = col j := by
      intro col h i j hij
      induction hij with
      | refl => rfl
      | tail _ h2 ih => rw [ih]; exact h _ _ h2
    have h0 : ∀ i j : Fin 4, |(![![0, 0], ![3, 0], ![0, 4], ![3, 4]] : Fin 4 → Fin 2 → ℚ) i 0 - (![![0, 0], ![3, 0], ![0, 4], ![3, 4]] : Fin 4 → Fin 2 → ℚ) j 0| ≤ 1 →
        (![![0, 0], ![3, 0], ![0, 4], ![3, 4]] : Fin 4 → Fin 2 → ℚ) i 0 = (![![0, 0], ![3, 0], ![0, 4], ![3, 4]] : Fin 4 → Fin 2 → ℚ) j 0 := by
      intro i j; fin_cases i <;> fin_cases j <;> simp <;> norm_num
    have h1 : ∀ i j : Fin 4, |(![![0, 0], ![3, 0], ![0, 4], ![3, 4]] : Fin 4 → Fin 2 → ℚ) i 1 - (![![0, 0], ![3, 0], ![0, 4], ![3, 4]] : Fin 4 → Fin 2 → ℚ) j 1| ≤ 1 →
        (![![0, 0], ![3, 0], ![0, 4], ![3, 4]] : Fin 4 → Fin 2 → ℚ) i 1 = (![![0, 0], ![3, 0], ![0, 4], ![3, 4]] : Fin 4 → Fin 2 → ℚ) j 1 := by
      intro i j; fin_cases i <;> fin_cases j <;> simp <;> norm_num
    intro i j hij
    by_contra hc
    push Not at hc
    have e0 := key _ h0 i j (hc 0)
    have e1 := key _ h1 i j (hc 1)
    revert e0 e1 hij
    fin_cases i <;> fin_cases j <;> simp
  · intro t ht; simp at ht; rcases ht with rfl | rfl <;> simp [Proper]

end Ellipy.Tri
