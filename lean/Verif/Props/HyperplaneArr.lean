import Verif.Props.HyperplaneEq

/-! Property theorem C96: the functions of hyperplanes on arrays. -/

namespace Ellipy.Hyp
open Ellipy.Ell

/-- The same set in spaces of equal dimension. -/
def SameSet (h g : HypObj) : Prop := ∃ e : g.n = h.n, ∀ x, x ∈ g.set ↔ (fun i => x (Fin.cast e.symm i)) ∈ h.set

/-- A comprehension over an array. -/
private def mapArr {α β : Type} (f : α → Py β) (hs : Arr α) : Py (Arr β) := (pyMap f hs.data).bind fun ds => reshape ds hs.shape

private theorem dimension_eq (hs : Arr HypObj) : dimension hs = mapArr singDimension hs := by
  unfold dimension mapArr; cases pyMap singDimension hs.data <;> rfl

private theorem toDict_eq (hs : Arr HypObj) : toDict hs = mapArr toDictOne hs := by
  unfold toDict mapArr; cases pyMap toDictOne hs.data <;> rfl

private theorem fromDict_eq (dflt : Tols) (ds : Arr HypDict) : fromDict dflt ds = mapArr (fromDictOne dflt) ds := by
  unfold fromDict mapArr; cases pyMap (fromDictOne dflt) ds.data <;> rfl

private theorem map_raises {α β : Type} (f : α → Py β) (hs : Arr α) :
    Raises (mapArr f hs) ↔
      ∃ h ∈ hs.data, Raises (f h) := by
  rw [← pyMap_raises]
  unfold mapArr
  cases hp : pyMap f hs.data with
  | error e => exact iff_of_true ⟨e, rfl⟩ ⟨e, rfl⟩
  | ok ds =>
    have hl : ds.length = hs.shape.foldr (· * ·) 1 := by rw [pyMap_length hp, hs.len]
    rw [show (Except.ok ds : Py (List β)).bind (fun ds => reshape ds hs.shape) = reshape ds hs.shape from rfl, reshape_ok hl]
    exact iff_of_false (by rintro ⟨e, he⟩; cases he) (by rintro ⟨e, he⟩; cases he)

private theorem map_ok {α β : Type} {f : α → Py β} {hs : Arr α} {r : Arr β}
    (h : (mapArr f hs) = .ok r) :
    r.shape = hs.shape ∧ List.Forall₂ (fun x y => f x = .ok y) hs.data r.data := by
  unfold mapArr at h
  cases hp : pyMap f hs.data with
  | error e => rw [hp] at h; cases h
  | ok ds =>
    rw [hp] at h
    obtain ⟨h1, h2⟩ := reshape_shape h
    exact ⟨h1, h2 ▸ (pyMap_ok_iff f _ _).mp hp⟩

/-- **C96** (`uminus`). The call never fails; the result has the shape of the argument, and in every place the normal and the
shift are negated and the tolerances are those of the library; the set is the same. -/
theorem C96_uminus {dflt : Tols} (hd : dflt.ok) (hs : Arr HypObj) :
    ∃ r, uminus dflt hs = .ok r ∧ r.shape = hs.shape ∧ List.Forall₂ (fun h g : HypObj => SameSet h g ∧ g.tols = dflt ∧
      g.shift = -h.shift ∧ ∃ e : g.n = h.n, ∀ i, g.nrm i = -h.nrm (Fin.cast e i)) hs.data r.data := by
  obtain ⟨r, h1, h2, h3⟩ := uminus_ok hd hs
  refine ⟨r, h1, h2, ?_⟩
  rw [h3, List.forall₂_map_right_iff, List.forall₂_same]
  intro h _
  refine ⟨⟨rfl, fun x => ?_⟩, rfl, rfl, rfl, fun i => rfl⟩
  show ∑ i, -h.nrm i * x i = -h.shift ↔ ∑ i, h.nrm i * x i = h.shift
  simp only [neg_mul, Finset.sum_neg_distrib, neg_inj]

/-- **C96** (`uminus`). Negating twice restores normals and shifts. -/
theorem C96_uminus_twice {dflt : Tols} (hd : dflt.ok) (hs r : Arr HypObj) (h : uminus dflt hs = .ok r) :
    ∃ r', uminus dflt r = .ok r' ∧ r'.shape = hs.shape ∧
      List.Forall₂ (fun h g : HypObj => g.shift = h.shift ∧ ∃ e : g.n = h.n, ∀ i, g.nrm i = h.nrm (Fin.cast e i)) hs.data r'.data := by
  obtain ⟨s, h1, h2, h3⟩ := uminus_ok hd hs
  rw [h] at h1
  cases h1
  obtain ⟨r', h1', h2', h3'⟩ := uminus_ok hd r
  refine ⟨r', h1', h2'.trans h2, ?_⟩
  rw [h3', h3, List.map_map, List.forall₂_map_right_iff, List.forall₂_same]
  intro g _
  exact ⟨neg_neg _, rfl, fun i => neg_neg (g.nrm i)⟩

/-- **C96** (`dimension`). The call fails exactly when some hyperplane has no coordinates. -/
theorem C96_dimension_raises_iff (hs : Arr HypObj) : Raises (dimension hs) ↔ ∃ h ∈ hs.data, h.n = 0 := by
  rw [dimension_eq, map_raises]
  refine exists_congr fun h => and_congr_right fun _ => ?_
  by_cases hn : h.n = 0
  · refine iff_of_true ?_ hn
    have : singDimension h = .error .indexError := by
      obtain ⟨n, u, s, tA, tR⟩ := h
      obtain rfl : n = 0 := hn
      simp [singDimension]
    exact ⟨_, this⟩
  · refine iff_of_false ?_ hn
    rintro ⟨e, he⟩
    by_cases hN : Negligible h
    · rw [(singDimension_ok hn).1 hN] at he; cases he
    · rw [(singDimension_ok hn).2 hN] at he; cases he

/-- **C96** (`dimension`). In every place the result is the number of coordinates, or 0 for a negligible hyperplane. -/
theorem C96_dimension (hs : Arr HypObj) (r : Arr ℕ) (h : dimension hs = .ok r) : r.shape = hs.shape ∧
    List.Forall₂ (fun (h : HypObj) d => (Negligible h → d = 0) ∧ (¬ Negligible h → d = h.n)) hs.data r.data := by
  rw [dimension_eq] at h
  obtain ⟨h1, h2⟩ := map_ok h
  refine ⟨h1, ?_⟩
  refine h2.imp fun g d hgd => ?_
  have hn : g.n ≠ 0 := by
    intro hn
    have : singDimension g = .error .indexError := by
      obtain ⟨n, u, s, tA, tR⟩ := g
      obtain rfl : n = 0 := hn
      simp [singDimension]
    rw [this] at hgd; cases hgd
  refine ⟨fun hN => ?_, fun hN => ?_⟩
  · rw [(singDimension_ok hn).1 hN] at hgd; cases hgd; rfl
  · rw [(singDimension_ok hn).2 hN] at hgd; cases hgd; rfl

/-- **C96** (dictionaries). `from_dict(to_dict(hyp_arr))` fails exactly when some hyperplane has a zero normal or is negligible. -/
theorem C96_dict_raises_iff {dflt : Tols} (hd : dflt.ok) (hs : Arr HypObj) :
    Raises ((toDict hs).bind (fromDict dflt)) ↔ ∃ h ∈ hs.data, (∀ i, h.nrm i = 0) ∨ Negligible h := by
  have key : ∀ h : HypObj, ((∀ i, h.nrm i = 0) ∨ Negligible h) ↔ Raises ((toDictOne h).bind (fromDictOne dflt)) := fun h =>
    (C61_raises_iff hd).symm
  simp only [key]
  cases ht : toDict hs with
  | error e =>
    obtain ⟨h, hh, e', he'⟩ := (map_raises toDictOne hs).mp ⟨e, (toDict_eq hs) ▸ ht⟩
    exact iff_of_true ⟨e, rfl⟩ ⟨h, hh, e', by rw [he']; rfl⟩
  | ok ds =>
    obtain ⟨-, h2⟩ := map_ok ((toDict_eq hs) ▸ ht)
    show Raises (fromDict dflt ds) ↔ _
    rw [fromDict_eq, map_raises]
    generalize hs.data = l at h2
    generalize ds.data = l' at h2
    induction h2 with
    | nil => simp
    | @cons h d l l' hhd _ ih =>
      simp only [List.mem_cons, exists_eq_or_imp, ih]
      rw [hhd]
      rfl

/-- **C96** (dictionaries). Otherwise the result has the shape of the argument and the same set in every place. -/
theorem C96_dict {dflt : Tols} (hd : dflt.ok) (hs : Arr HypObj) (r : Arr HypObj) (h : (toDict hs).bind (fromDict dflt) = .ok r) :
    r.shape = hs.shape ∧ List.Forall₂ (fun h g : HypObj => SameSet h g ∧ g.tols = dflt) hs.data r.data := by
  have hall : ∀ g ∈ hs.data, ¬ ((∀ i, g.nrm i = 0) ∨ Negligible g) := by
    intro g hg hc
    obtain ⟨e, he⟩ := (C96_dict_raises_iff hd hs).mpr ⟨g, hg, hc⟩
    rw [h] at he; cases he
  cases ht : toDict hs with
  | error e => rw [ht] at h; cases h
  | ok ds =>
    rw [ht] at h
    obtain ⟨a1, a2⟩ := map_ok ((toDict_eq hs) ▸ ht)
    obtain ⟨b1, b2⟩ := map_ok (f := fromDictOne dflt) (hs := ds) (r := r) (by rw [← fromDict_eq]; exact h)
    refine ⟨b1.trans a1, ?_⟩
    generalize hs.data = l at a2 hall
    generalize ds.data = l' at a2 b2
    generalize r.data = l'' at b2
    induction a2 generalizing l'' with
    | nil => cases b2; exact .nil
    | @cons g d l l' hgd _ ih =>
      cases b2 with
      | @cons _ g' _ l'' hd' b2 =>
        refine .cons ?_ (ih (fun x hx => hall x (List.mem_cons_of_mem _ hx)) _ b2)
        have hg := hall g (by simp)
        push Not at hg
        obtain ⟨d0, g0, e1, e2, e3, e4, e5⟩ := C61_partial hd hg.1 hg.2
        rw [hgd] at e1
        cases e1
        rw [hd'] at e2
        cases e2
        exact ⟨⟨e3, e4⟩, e5⟩

/-- Two lines in the plane, `x = 1` and `3x + 4y = -5`, in an array of shape `(2, 1)`. -/
noncomputable def exHyps : Arr HypObj :=
  ⟨[2, 1], [⟨2, ![1, 0], 1, 1 / 10, 1 / 10⟩, ⟨2, ![3, 4], -5, 1 / 10, 1 / 10⟩], rfl⟩

example : ∃ r, uminus ⟨1 / 7, 1 / 9⟩ exHyps = .ok r ∧ r.shape = [2, 1] ∧ r.data.map HypObj.shift = [-1, 5] := by
  obtain ⟨r, h1, h2, h3⟩ := C96_uminus (dflt := ⟨1 / 7, 1 / 9⟩) ⟨by norm_num, by norm_num⟩ exHyps
  refine ⟨r, h1, h2, ?_⟩
  have : List.Forall₂ (fun h (s : ℝ) => s = -HypObj.shift h) exHyps.data (r.data.map HypObj.shift) := by
    rw [List.forall₂_map_right_iff]
    exact h3.imp fun h g hh => hh.2.2.1
  generalize r.data.map HypObj.shift = l at this ⊢
  simp only [exHyps] at this
  cases this with | cons a this => cases this with | cons b this => (cases this; rw [a, b]; simp)

example : dimension exHyps = .ok ⟨[2, 1], [2, 2], rfl⟩ := by
  simp [dimension, exHyps, pyMap, singDimension, reshape]

example : ∃ r, (toDict exHyps).bind (fromDict ⟨1 / 7, 1 / 9⟩) = .ok r ∧ r.shape = [2, 1] := by
  have hd : Tols.ok ⟨1 / 7, 1 / 9⟩ := ⟨by norm_num, by norm_num⟩
  cases hr : (toDict exHyps).bind (fromDict ⟨1 / 7, 1 / 9⟩) with
  | ok r => exact ⟨r, rfl, (C96_dict hd _ r hr).1⟩
  | error e =>
    obtain ⟨h, hh, hc⟩ := (C96_dict_raises_iff hd _).mp ⟨e, hr⟩
    simp only [exHyps, List.mem_cons, List.not_mem_nil, or_false] at hh
    rcases hh with rfl | rfl
    · rcases hc with hc | hc
      · have := hc (0 : Fin 2); simp at this
      · exact absurd hc.1 (by norm_num)
    · rcases hc with hc | hc
      · have := hc (0 : Fin 2); simp at this
      · exact absurd hc.1 (by norm_num)

end Ellipy.Hyp
