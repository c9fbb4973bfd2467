import Verif.Props.HyperplaneContains
import Verif.Props.HyperplaneParallel
import Verif.Props.HyperplaneArr
import Mathlib.Analysis.InnerProductSpace.PiL2
import Mathlib.LinearAlgebra.Matrix.DotProduct
import Mathlib.Tactic.Linarith

/-! Property theorem C127: laws of `Hyperplane.contains` and `Hyperplane.is_parallel` that relate several calls. -/

namespace Ellipy.Hyp
open Ellipy.Ell Matrix

/-- The array of shape `(n, m)` whose columns are the points `P 0, …, P (m - 1)`. -/
def pts {n m : ℕ} (P : Fin m → Fin n → ℝ) : Arr (XF ℝ) :=
  ⟨[n, m], List.ofFn fun k : Fin (n * m) =>
    .fin (P ⟨k % m, Nat.mod_lt _ (Nat.pos_of_ne_zero fun h => by subst h; exact absurd k.2 (by simp))⟩ ⟨k / m, Nat.div_lt_of_lt_mul (lt_of_lt_of_eq k.2 (mul_comm n m))⟩), by simp⟩

/-- One hyperplane as an array of objects. -/
def single (h : HypObj) : Arr HypObj := ⟨[], [h], rfl⟩

/-- One point as an array of shape `(n,)`. -/
def pt {n : ℕ} (p : Fin n → ℝ) : Arr (XF ℝ) := ⟨[n], List.ofFn fun i => .fin (p i), by simp⟩

theorem pts_point {n m : ℕ} (P : Fin m → Fin n → ℝ) (j : Fin m) : point n m (pts P).data j = fun i => .fin (P j i) := by
  have hm : 0 < m := Nat.pos_of_ne_zero fun h => by subst h; exact absurd j.2 (by simp)
  funext i
  have hlt : (i : ℕ) * m + j < n * m := by
    have := Nat.mul_le_mul_right m (Nat.succ_le_of_lt i.2)
    have := j.2
    rw [Nat.succ_mul] at *
    omega
  unfold point pts
  rw [List.getD_eq_getElem?_getD, List.getElem?_ofFn, dif_pos hlt]
  have e1 : ((i : ℕ) * m + j) % m = j := by rw [mul_comm, Nat.mul_add_mod, Nat.mod_eq_of_lt j.2]
  have e2 : ((i : ℕ) * m + j) / m = i := by rw [mul_comm, Nat.mul_add_div hm, Nat.div_eq_of_lt j.2, add_zero]
  simp only [Option.getD_some, e1, e2]

theorem pts_nan {n m : ℕ} (P : Fin m → Fin n → ℝ) : ∀ v ∈ (pts P).data, v.isNan = false := by
  unfold pts
  rw [List.forall_mem_ofFn_iff]
  intro k
  rfl

theorem toOption_error {α : Type} {e : Exc} : (Except.error e : Py α).toOption = none := rfl

theorem toOption_raises {α : Type} {x : Py α} (h : Raises x) : x.toOption = none := by
  obtain ⟨e, rfl⟩ := h
  rfl

/-- Two calls with matching arguments give the same answers, or both raise. -/
theorem contains_same {hs hs' : Arr HypObj} {x x' : Arr (XF ℝ)} (hsh : hs.shape = hs'.shape) (hx : x.shape = x'.shape)
    (hn : (∃ v ∈ x.data, v.isNan = true) ↔ ∃ v ∈ x'.data, v.isNan = true)
    (hh : List.Forall₂ (fun h h' : HypObj => h.n = h'.n ∧ (Negligible h ↔ Negligible h') ∧
      ∀ n rest j, x.shape = n :: rest → h.n = n → j < rest.foldr (· * ·) 1 → (∀ v ∈ x.data, v.isNan = false) →
        (OnPlane h (point h.n (rest.foldr (· * ·) 1) x.data j) ↔ OnPlane h' (point h'.n (rest.foldr (· * ·) 1) x'.data j))) hs.data hs'.data) :
    (contains hs x).toOption = (contains hs' x').toOption := by
  have hlen := hh.length_eq
  have hex : ∀ n, (∃ h ∈ hs.data, h.n ≠ n ∨ Negligible h) ↔ ∃ h ∈ hs'.data, h.n ≠ n ∨ Negligible h := by
    intro n
    have aux : ∀ l l', List.Forall₂ (fun h h' : HypObj => h.n = h'.n ∧ (Negligible h ↔ Negligible h')) l l' →
        ((∃ h ∈ l, h.n ≠ n ∨ Negligible h) ↔ ∃ h ∈ l', h.n ≠ n ∨ Negligible h) := by
      intro l l' H
      induction H with
      | nil => simp
      | cons hab _ ih => simp only [List.mem_cons, exists_eq_or_imp, ih, hab.1, hab.2]
    exact aux _ _ (hh.imp fun _ _ h => ⟨h.1, h.2.1⟩)
  have hnil : hs.data = [] ↔ hs'.data = [] := by
    rw [← List.length_eq_zero_iff, hlen, List.length_eq_zero_iff]
  by_cases hr : Raises (contains hs x)
  · have hr' : Raises (contains hs' x') := by
      rw [C51_raises_iff] at hr ⊢
      rw [← hx, ← hn, ← hnil, ← hlen]
      rcases hr with h | ⟨n, rest, h1, h2⟩
      · exact .inl h
      · exact .inr ⟨n, rest, h1, by rw [← hex]; exact h2⟩
    rw [toOption_raises hr, toOption_raises hr']
  · rw [C51_raises_iff] at hr
    push Not at hr
    obtain ⟨hr0, hr⟩ := hr
    obtain ⟨n, rest, hxs⟩ : ∃ n rest, x.shape = n :: rest := by
      cases h : x.shape with
      | nil => exact absurd h hr0
      | cons n rest => exact ⟨n, rest, rfl⟩
    obtain ⟨h1, h2, h3, h4, h5, h6⟩ := hr n rest hxs
    have hnan : ∀ v ∈ x.data, v.isNan = false := fun v hv => by simpa using h2 v hv
    have hnan' : ∀ v ∈ x'.data, v.isNan = false := fun v hv => by
      by_contra hc
      obtain ⟨w, hw, hw'⟩ := hn.2 ⟨v, hv, by simpa using hc⟩
      exact h2 w hw hw'
    have hf : Fits hs x n rest := ⟨hxs, h1, hnan, h3, h4⟩
    have hd' : ∀ h ∈ hs'.data, h.n = n ∧ ¬ Negligible h := by
      intro h hh'
      by_contra hc
      obtain ⟨g, hg, hg'⟩ := (hex n).2 ⟨h, hh', by by_cases h.n = n <;> simp_all⟩
      rcases hg' with hg' | hg'
      · exact hg' (h4 g hg).1
      · exact (h4 g hg).2 hg'
    have hf' : Fits hs' x' n rest := ⟨hx ▸ hxs, h1, hnan', fun h => h3 (hnil.2 h), hd'⟩
    have fin : ∀ (r r' : Arr Bool), r.shape = r'.shape → (∀ (j : ℕ) b b', r.data[j]? = some b → r'.data[j]? = some b' → (b = true ↔ b' = true)) → r = r' := by
      intro r r' e1 e2
      obtain ⟨s, d, l⟩ := r
      obtain ⟨s', d', l'⟩ := r'
      obtain rfl : s = s' := e1
      have : d = d' := by
        apply List.ext_getElem (by rw [l, l'])
        intro j hj hj'
        have := e2 j d[j] d'[j] (List.getElem?_eq_getElem hj) (List.getElem?_eq_getElem hj')
        exact Bool.eq_iff_iff.2 this
      subst this
      rfl
    have hget : ∀ (j : ℕ) h h', hs.data[j]? = some h → hs'.data[j]? = some h' → ∀ k, k < rest.foldr (· * ·) 1 →
        (OnPlane h (point h.n (rest.foldr (· * ·) 1) x.data k) ↔ OnPlane h' (point h'.n (rest.foldr (· * ·) 1) x'.data k)) := by
      intro j h h' e1 e2 k hk
      obtain ⟨l1, rfl⟩ := List.getElem?_eq_some_iff.1 e1
      obtain ⟨l2, rfl⟩ := List.getElem?_eq_some_iff.1 e2
      have := (List.forall₂_iff_get.1 hh).2 j l1 l2
      exact this.2.2 n rest k hxs (h4 _ (List.getElem_mem _)).1 hk hnan
    by_cases hm : rest.foldr (· * ·) 1 = 1
    · obtain ⟨r, e1, e2, e3⟩ := C51_one_point hf hm
      obtain ⟨r', e1', e2', e3'⟩ := C51_one_point hf' hm
      rw [e1, e1', fin r r' (by rw [e2, e2', hsh]) ?_]
      intro j b b' hb hb'
      have hj : j < hs.data.length := by rw [e3.length_eq]; exact (List.getElem?_eq_some_iff.1 hb).1
      obtain ⟨l1, rfl⟩ := List.getElem?_eq_some_iff.1 hb
      obtain ⟨l2, rfl⟩ := List.getElem?_eq_some_iff.1 hb'
      have i1 := (List.forall₂_iff_get.1 e3).2 j hj l1
      have i2 := (List.forall₂_iff_get.1 e3').2 j (by rw [← hlen]; exact hj) l2
      have i3 := hget j _ _ (List.getElem?_eq_getElem hj) (List.getElem?_eq_getElem (by rw [← hlen]; exact hj)) 0 (by omega)
      rw [hm] at i3
      exact i1.trans (i3.trans i2.symm)
    · have hm2 : 2 ≤ rest.foldr (· * ·) 1 := by omega
      by_cases hone : hs.data.length = 1
      · obtain ⟨h, hh1⟩ := List.length_eq_one_iff.1 hone
        obtain ⟨h', hh1'⟩ := List.length_eq_one_iff.1 (hlen ▸ hone)
        obtain ⟨r, e1, e2, e3⟩ := C51_one_hyp hf hh1 hm2
        obtain ⟨r', e1', e2', e3'⟩ := C51_one_hyp hf' hh1' hm2
        rw [e1, e1', fin r r' (by rw [e2, e2']) ?_]
        intro j b b' hb hb'
        have hj : j < rest.foldr (· * ·) 1 := by
          rw [← e2, ← r.len]; exact (List.getElem?_eq_some_iff.1 hb).1
        rw [e3 j b hb, e3' j b' hb']
        exact hget 0 h h' (by rw [hh1]; rfl) (by rw [hh1']; rfl) j hj
      · have hk := h6 hm hone
        obtain ⟨r, e1, e2, e3⟩ := C51_pairs hf hm2 hk
        obtain ⟨r', e1', e2', e3'⟩ := C51_pairs hf' hm2 (hlen ▸ hk)
        rw [e1, e1', fin r r' (by rw [e2, e2']) ?_]
        intro j b b' hb hb'
        have hj : j < rest.foldr (· * ·) 1 := by
          rw [← e2, ← r.len]; exact (List.getElem?_eq_some_iff.1 hb).1
        have hj1 : j < hs.data.length := by rw [hk]; exact hj
        have hj2 : j < hs'.data.length := by rw [← hlen, hk]; exact hj
        have g1 := List.getElem?_eq_getElem hj1
        have g2 := List.getElem?_eq_getElem hj2
        rw [e3 j _ b g1 hb, e3' j _ b' g2 hb']
        exact hget j _ _ g1 g2 j hj

/-- The hyperplane `h` seen through the map `x ↦ A x + b`: its normal pulled back along `A` is the old one, and its shift has moved
along. -/
def Carried {n : ℕ} (A : Matrix (Fin n) (Fin n) ℝ) (b : Fin n → ℝ) (h h' : HypObj) : Prop :=
  ∃ (e : h.n = n) (e' : h'.n = n), (fun i => h'.nrm (Fin.cast e'.symm i)) ᵥ* A = (fun i => h.nrm (Fin.cast e.symm i)) ∧
    h'.shift = h.shift + (fun i => h'.nrm (Fin.cast e'.symm i)) ⬝ᵥ b ∧ h'.absTol = h.absTol

/-- **C127** (moving the space).  If every hyperplane is carried along by `x ↦ A x + b` and so is every point, `contains` gives the same answers. -/
theorem C127_affine {n m : ℕ} (A : Matrix (Fin n) (Fin n) ℝ) (b : Fin n → ℝ) {hs hs' : Arr HypObj} (hsh : hs.shape = hs'.shape)
    (hc : List.Forall₂ (Carried A b) hs.data hs'.data) (hN : ∀ h ∈ hs.data ++ hs'.data, ¬ Negligible h) (P : Fin m → Fin n → ℝ) :
    (contains hs' (pts fun j => A *ᵥ P j + b)).toOption = (contains hs (pts P)).toOption := by
  refine (contains_same (x := pts P) (x' := pts fun j => A *ᵥ P j + b) hsh rfl ?_ ?_).symm
  · exact iff_of_false (by rintro ⟨v, hv, h⟩; rw [pts_nan _ v hv] at h; cases h) (by rintro ⟨v, hv, h⟩; rw [pts_nan _ v hv] at h; cases h)
  · rw [List.forall₂_iff_get] at hc ⊢
    refine ⟨hc.1, fun i l1 l2 => ?_⟩
    obtain ⟨e, e', h1, h2, h3⟩ := hc.2 i l1 l2
    refine ⟨e.trans e'.symm, iff_of_false (hN _ (by simp)) (hN _ (by simp)), ?_⟩
    intro n' rest j hx hn hj _
    generalize hs.data.get ⟨i, l1⟩ = h at *
    generalize hs'.data.get ⟨i, l2⟩ = h' at *
    obtain ⟨k, u, s, a, r⟩ := h
    obtain ⟨k', u', s', a', r'⟩ := h'
    obtain rfl : k = n := e
    obtain rfl : k' = k := e'
    have hx : [k', m] = n' :: rest := hx
    obtain ⟨rfl, rfl⟩ : k' = n' ∧ [m] = rest := by simpa using hx
    have hm : ([m] : List ℕ).foldr (· * ·) 1 = m := by simp
    rw [hm] at hj ⊢
    have e1 := pts_point P ⟨j, hj⟩
    have e2 := pts_point (fun j => A *ᵥ P j + b) ⟨j, hj⟩
    simp only at e1 e2
    show OnPlane ⟨k', u, s, a, r⟩ (point k' m _ j) ↔ OnPlane ⟨k', u', s', a', r'⟩ (point k' m _ j)
    rw [e1, e2, onPlane_fin, onPlane_fin]
    have h1 : u' ᵥ* A = u := h1
    have h2 : s' = s + u' ⬝ᵥ b := h2
    have h3 : a' = a := h3
    show |u ⬝ᵥ P ⟨j, hj⟩ - s| < a ↔ |u' ⬝ᵥ (A *ᵥ P ⟨j, hj⟩ + b) - s'| < a'
    rw [dotProduct_add, dotProduct_mulVec, h1, h2, h3, add_sub_add_right_eq_sub]

/-- **C127** (other equations).  Multiplying normal, shift and tolerance of every hyperplane by its own factor changes no answer and no failure, whatever
the points, also with infinite coordinates. -/
theorem C127_scale {hs hs' : Arr HypObj} (hsh : hs.shape = hs'.shape)
    (hc : List.Forall₂ (fun h h' => ∃ k : ℝ, k ≠ 0 ∧ ∃ r, h' = scaled k h ⟨|k| * h.absTol, r⟩) hs.data hs'.data) (x : Arr (XF ℝ)) :
    (contains hs' x).toOption = (contains hs x).toOption := by
  refine (contains_same hsh rfl Iff.rfl ?_).symm
  refine hc.imp ?_
  rintro h _ ⟨k, hk, r, rfl⟩
  have hk' : 0 < |k| := abs_pos.2 hk
  refine ⟨rfl, ?_, ?_⟩
  · unfold Negligible scaled
    simp only [abs_mul, mul_le_mul_iff_right₀ hk']
  · intro n rest j _ _ _ _
    show OnPlane h (point h.n _ x.data j) ↔ OnPlane (scaled k h _) (point h.n _ x.data j)
    unfold OnPlane scaled
    simp only [mul_eq_zero, hk, false_or, mul_assoc, ← Finset.mul_sum, ← mul_sub, abs_mul, mul_lt_mul_iff_right₀ hk']

/-- **C127** (`uminus`).  Hyperplanes whose tolerance is the one of the library contain the same points after `uminus`. -/
theorem C127_uminus {dflt : Tols} (hd : dflt.ok) {hs r : Arr HypObj} (hr : uminus dflt hs = .ok r) (ht : ∀ h ∈ hs.data, h.absTol = dflt.absTol)
    (x : Arr (XF ℝ)) : (contains r x).toOption = (contains hs x).toOption := by
  obtain ⟨r', h1, h2, h3⟩ := uminus_ok hd hs
  rw [hr] at h1
  cases h1
  refine C127_scale h2.symm ?_ x
  rw [h3, List.forall₂_map_right_iff, List.forall₂_same]
  intro h hh
  refine ⟨-1, by norm_num, dflt.relTol, ?_⟩
  unfold scaled
  simp only [abs_neg, abs_one, one_mul, neg_mul, ht h hh]
  rfl

/-- **C127** (coordinates that do not matter).  Two arrays of points that differ only in coordinates where all the normals vanish get the same answers;
these coordinates may be infinite. -/
theorem C127_irrelevant (hs : Arr HypObj) {x x' : Arr (XF ℝ)} (hx : x.shape = x'.shape) (hn : ∀ v ∈ x.data ++ x'.data, v.isNan = false)
    (hc : ∀ h ∈ hs.data, ∀ n rest, x.shape = n :: rest → ∀ (i : Fin h.n) j, h.nrm i ≠ 0 →
      point h.n (rest.foldr (· * ·) 1) x.data j i = point h.n (rest.foldr (· * ·) 1) x'.data j i) :
    (contains hs x).toOption = (contains hs x').toOption := by
  refine contains_same rfl hx ?_ ?_
  · refine iff_of_false ?_ ?_
    · rintro ⟨v, hv, h⟩; rw [hn v (by simp [hv])] at h; cases h
    · rintro ⟨v, hv, h⟩; rw [hn v (by simp [hv])] at h; cases h
  · rw [List.forall₂_same]
    intro h hh
    refine ⟨rfl, Iff.rfl, ?_⟩
    intro n rest j hxs _ _ _
    have key : ∀ i, h.nrm i ≠ 0 → point h.n (rest.foldr (· * ·) 1) x.data j i = point h.n (rest.foldr (· * ·) 1) x'.data j i :=
      fun i hi => hc h hh n rest hxs i j hi
    generalize point h.n (rest.foldr (· * ·) 1) x.data j = p at *
    generalize point h.n (rest.foldr (· * ·) 1) x'.data j = q at *
    unfold OnPlane
    have e : ∑ i ∈ Finset.univ.filter (fun i => (p i).isFinite = true), h.nrm i * (p i).toK =
        ∑ i ∈ Finset.univ.filter (fun i => (q i).isFinite = true), h.nrm i * (q i).toK := by
      rw [Finset.sum_filter, Finset.sum_filter]
      refine Finset.sum_congr rfl fun i _ => ?_
      by_cases hi : h.nrm i = 0
      · simp [hi]
      · rw [key i hi]
    have e2 : (∀ i, (p i).isFinite = false → h.nrm i = 0) ↔ ∀ i, (q i).isFinite = false → h.nrm i = 0 := by
      refine forall_congr' fun i => ?_
      by_cases hi : h.nrm i = 0
      · simp [hi]
      · rw [key i hi]
    rw [e, e2]

/-- The call for one hyperplane and one point. -/
theorem contains_single {h : HypObj} (hn : h.n ≠ 0) (hN : ¬ Negligible h) (p : Fin h.n → ℝ) :
    ∃ b, contains (single h) (pt p) = .ok ⟨[], [b], rfl⟩ ∧ (b = true ↔ |h.nrm ⬝ᵥ p - h.shift| < h.absTol) := by
  have hf : Fits (single h) (pt p) h.n [] := by
    refine ⟨rfl, hn, ?_, by simp [single], ?_⟩
    · unfold pt; rw [List.forall_mem_ofFn_iff]; intro; rfl
    · intro g hg
      obtain rfl : g = h := by simpa [single] using hg
      exact ⟨rfl, hN⟩
  obtain ⟨r, e1, e2, e3⟩ := C51_one_point hf rfl
  obtain ⟨s, d, l⟩ := r
  obtain rfl : s = [] := e2
  obtain ⟨b, rfl⟩ : ∃ b, d = [b] := List.length_eq_one_iff.1 (by rw [l]; rfl)
  refine ⟨b, e1, ?_⟩
  have e3 : List.Forall₂ _ [h] [b] := e3
  cases e3 with
  | cons h3 _ =>
    rw [h3]
    have : point h.n 1 (pt p).data 0 = fun i => .fin (p i) := by
      funext i
      unfold point pt
      simp
    rw [this, onPlane_fin]
    rfl

/-- `contains` says yes for one hyperplane and one point. -/
def Says (h : HypObj) (p : Fin h.n → ℝ) (b : Bool) : Prop := contains (single h) (pt p) = .ok ⟨[], [b], rfl⟩

theorem says_true_iff {h : HypObj} (hn : h.n ≠ 0) (hN : ¬ Negligible h) (p : Fin h.n → ℝ) :
    Says h p true ↔ |h.nrm ⬝ᵥ p - h.shift| < h.absTol := by
  obtain ⟨b, h1, h2⟩ := contains_single hn hN p
  unfold Says
  rw [h1, ← h2]
  constructor
  · intro h
    have : ([b] : List Bool) = [true] := congrArg Arr.data (Except.ok.inj h)
    simpa using this
  · rintro rfl; rfl

theorem says_false_iff {h : HypObj} (hn : h.n ≠ 0) (hN : ¬ Negligible h) (p : Fin h.n → ℝ) :
    Says h p false ↔ h.absTol ≤ |h.nrm ⬝ᵥ p - h.shift| := by
  obtain ⟨b, h1, h2⟩ := contains_single hn hN p
  unfold Says
  rw [h1, ← not_lt, ← h2]
  constructor
  · intro h
    have : ([b] : List Bool) = [false] := congrArg Arr.data (Except.ok.inj h)
    simp at this; simp [this]
  · intro h
    obtain rfl : b = false := by simpa using h
    rfl

/-- **C127** (convexity).  With two points a hyperplane contains the segment between them. -/
theorem C127_segment {h : HypObj} (hn : h.n ≠ 0) (hN : ¬ Negligible h) {p q : Fin h.n → ℝ} (hp : Says h p true) (hq : Says h q true)
    {t : ℝ} (h0 : 0 ≤ t) (h1 : t ≤ 1) : Says h ((1 - t) • p + t • q) true := by
  rw [says_true_iff hn hN] at *
  rw [dotProduct_add, dotProduct_smul, dotProduct_smul, smul_eq_mul, smul_eq_mul]
  have : (1 - t) * h.nrm ⬝ᵥ p + t * h.nrm ⬝ᵥ q - h.shift = (1 - t) * (h.nrm ⬝ᵥ p - h.shift) + t * (h.nrm ⬝ᵥ q - h.shift) := by ring
  rw [this, abs_lt] at *
  rcases eq_or_lt_of_le h0 with rfl | h0
  · simpa using hp
  · constructor <;> nlinarith [hp.1, hp.2, hq.1, hq.2]

/-- **C127** (nothing in between).  If a hyperplane contains neither of two points on opposite sides of it, it still contains a point between them. -/
theorem C127_crossing {h : HypObj} (hn : h.n ≠ 0) (hN : ¬ Negligible h) (ht : 0 < h.absTol) {p q : Fin h.n → ℝ} (hp : h.nrm ⬝ᵥ p ≤ h.shift)
    (hq : h.shift ≤ h.nrm ⬝ᵥ q) : ∃ t : ℝ, 0 ≤ t ∧ t ≤ 1 ∧ Says h ((1 - t) • p + t • q) true := by
  rcases eq_or_lt_of_le (hp.trans hq) with he | hlt
  · refine ⟨0, le_rfl, zero_le_one, ?_⟩
    rw [says_true_iff hn hN]
    have : h.nrm ⬝ᵥ p = h.shift := le_antisymm hp (he ▸ hq)
    simpa [this] using ht
  · refine ⟨(h.shift - h.nrm ⬝ᵥ p) / (h.nrm ⬝ᵥ q - h.nrm ⬝ᵥ p), div_nonneg (by linarith) (by linarith), ?_, ?_⟩
    · rw [div_le_one (by linarith)]; linarith
    · rw [says_true_iff hn hN, dotProduct_add, dotProduct_smul, dotProduct_smul, smul_eq_mul, smul_eq_mul]
      have hd : h.nrm ⬝ᵥ q - h.nrm ⬝ᵥ p ≠ 0 := by linarith
      have : (1 - (h.shift - h.nrm ⬝ᵥ p) / (h.nrm ⬝ᵥ q - h.nrm ⬝ᵥ p)) * h.nrm ⬝ᵥ p +
          (h.shift - h.nrm ⬝ᵥ p) / (h.nrm ⬝ᵥ q - h.nrm ⬝ᵥ p) * h.nrm ⬝ᵥ q - h.shift = 0 := by
        field_simp
        ring
      rw [this, abs_zero]
      exact ht

/-- **C127** (distance).  A hyperplane contains exactly the points whose distance from the set is less than the tolerance divided by the length of the normal. -/
theorem C127_distance {h : HypObj} (hnz : h.nrm ≠ 0) (hN : ¬ Negligible h) (p : Fin h.n → ℝ) :
    Says h p true ↔ Metric.infDist (WithLp.toLp 2 p) {y : EuclideanSpace ℝ (Fin h.n) | y.ofLp ∈ h.set} < h.absTol / Real.sqrt (h.nrm ⬝ᵥ h.nrm) := by
  have hn : h.n ≠ 0 := by
    intro h0
    apply hnz
    funext i
    exact absurd i.2 (by omega)
  rw [says_true_iff hn hN]
  have hpos : 0 < h.nrm ⬝ᵥ h.nrm := by
    rcases lt_or_eq_of_le (show 0 ≤ h.nrm ⬝ᵥ h.nrm from Finset.sum_nonneg fun i _ => mul_self_nonneg _) with h1 | h1
    · exact h1
    · exact absurd (dotProduct_self_eq_zero.1 h1.symm) hnz
  have hs : 0 < Real.sqrt (h.nrm ⬝ᵥ h.nrm) := Real.sqrt_pos.2 hpos
  have hsq : Real.sqrt (h.nrm ⬝ᵥ h.nrm) ^ 2 = h.nrm ⬝ᵥ h.nrm := Real.sq_sqrt hpos.le
  have hnorm : ∀ v : Fin h.n → ℝ, ‖WithLp.toLp 2 v‖ = Real.sqrt (v ⬝ᵥ v) := by
    intro v
    rw [EuclideanSpace.norm_eq]
    congr 1
    refine Finset.sum_congr rfl fun i _ => ?_
    simp [sq]
  have hset : ∀ y : Fin h.n → ℝ, y ∈ h.set ↔ h.nrm ⬝ᵥ y = h.shift := fun y => Iff.rfl
  -- the foot of the perpendicular
  let c := (h.nrm ⬝ᵥ p - h.shift) / (h.nrm ⬝ᵥ h.nrm)
  have hc : c * (h.nrm ⬝ᵥ h.nrm) = h.nrm ⬝ᵥ p - h.shift := div_mul_cancel₀ _ hpos.ne'
  have hfoot : (p - c • h.nrm) ∈ h.set := by
    rw [hset, dotProduct_sub, dotProduct_smul, smul_eq_mul, hc]
    ring
  have hinf : Metric.infDist (WithLp.toLp 2 p) {y : EuclideanSpace ℝ (Fin h.n) | y.ofLp ∈ h.set} = |h.nrm ⬝ᵥ p - h.shift| / Real.sqrt (h.nrm ⬝ᵥ h.nrm) := by
    apply le_antisymm
    · refine (Metric.infDist_le_dist_of_mem (y := WithLp.toLp 2 (p - c • h.nrm)) hfoot).trans ?_
      rw [dist_eq_norm, ← WithLp.toLp_sub, hnorm, sub_sub_cancel, dotProduct_smul, smul_dotProduct, smul_eq_mul, smul_eq_mul]
      rw [le_div_iff₀ hs, ← hc, abs_mul, abs_of_pos hpos, ← mul_assoc, Real.sqrt_mul (mul_self_nonneg c), Real.sqrt_mul_self_eq_abs, mul_assoc, ← sq, hsq]
    · refine (Metric.le_infDist ⟨WithLp.toLp 2 (p - c • h.nrm), hfoot⟩).2 ?_
      intro y hy
      have hy : h.nrm ⬝ᵥ y.ofLp = h.shift := hy
      have cs := abs_real_inner_le_norm (WithLp.toLp 2 h.nrm) (WithLp.toLp 2 p - y)
      have hi : inner ℝ (WithLp.toLp 2 h.nrm) (WithLp.toLp 2 p - y) = h.nrm ⬝ᵥ p - h.shift := by
        rw [inner_sub_right, ← hy]
        simp only [PiLp.inner_apply, dotProduct, RCLike.inner_apply, conj_trivial, mul_comm]
      rw [hi, hnorm] at cs
      rw [div_le_iff₀ hs, dist_eq_norm, mul_comm]
      exact cs
  rw [hinf, div_lt_div_iff_of_pos_right hs]

/-- **C127** (parallel hyperplanes apart).  Two hyperplanes with the same normal whose shifts differ by at least the sum of the tolerances contain no common point. -/
theorem C127_apart {n : ℕ} (hn : n ≠ 0) {u : Fin n → ℝ} {s s' a a' r r' : ℝ} (hN : ¬ Negligible ⟨n, u, s, a, r⟩) (hN' : ¬ Negligible ⟨n, u, s', a', r'⟩)
    (hd : a + a' ≤ |s - s'|) (p : Fin n → ℝ) : ¬ (Says ⟨n, u, s, a, r⟩ p true ∧ Says ⟨n, u, s', a', r'⟩ p true) := by
  rintro ⟨h1, h2⟩
  rw [says_true_iff hn hN] at h1
  rw [says_true_iff hn hN'] at h2
  simp only at h1 h2
  have : |s - s'| ≤ |u ⬝ᵥ p - s| + |u ⬝ᵥ p - s'| := by
    have := abs_sub (u ⬝ᵥ p - s') (u ⬝ᵥ p - s)
    rw [show u ⬝ᵥ p - s' - (u ⬝ᵥ p - s) = s - s' by ring] at this
    linarith
  linarith

/-- **C127** (tolerances).  A hyperplane with a larger tolerance contains at least as much. -/
theorem C127_tolerance {n : ℕ} (hn : n ≠ 0) {u : Fin n → ℝ} {s a a' r r' : ℝ} (hN : ¬ Negligible ⟨n, u, s, a', r'⟩) (ha : a ≤ a')
    (p : Fin n → ℝ) (h : Says ⟨n, u, s, a, r⟩ p true) : Says ⟨n, u, s, a', r'⟩ p true := by
  have hN0 : ¬ Negligible ⟨n, u, s, a, r⟩ := fun h => hN ⟨h.1, fun i => (h.2.1 i).trans ha, h.2.2.trans ha⟩
  rw [says_true_iff hn hN0] at h
  rw [says_true_iff hn hN]
  exact lt_of_lt_of_le h ha

/-- **C127** (points one by one).  Asking for several points is asking for each. -/
theorem C127_one_by_one {h : HypObj} (hn : h.n ≠ 0) (hN : ¬ Negligible h) {m : ℕ} (hm : 2 ≤ m) (P : Fin m → Fin h.n → ℝ) :
    ∃ r, contains (single h) (pts P) = .ok r ∧ r.shape = [m] ∧ ∀ (j : Fin m) b, r.data[(j : ℕ)]? = some b → Says h (P j) b := by
  have hfm : ([m] : List ℕ).foldr (· * ·) 1 = m := by simp
  have hf : Fits (single h) (pts P) h.n [m] := by
    refine ⟨rfl, hn, pts_nan P, by simp [single], ?_⟩
    intro g hg
    obtain rfl : g = h := by simpa [single] using hg
    exact ⟨rfl, hN⟩
  obtain ⟨r, e1, e2, e3⟩ := C51_one_hyp hf rfl (by rw [hfm]; exact hm)
  refine ⟨r, e1, e2, fun j b hb => ?_⟩
  have := e3 j b hb
  rw [hfm, pts_point P j, onPlane_fin] at this
  cases b with
  | true => exact (says_true_iff hn hN _).2 (this.1 rfl)
  | false => exact (says_false_iff hn hN _).2 (not_lt.1 fun h => Bool.false_ne_true (this.2 h))

/-- The verdict on one pair without the tolerance test of each direction written out. -/
private theorem par_eq {n : ℕ} (hn : n ≠ 0) {u v : Fin n → ℝ} (hu : u ≠ 0) (hv : v ≠ 0) (s s' a a' r r' tol : ℝ) :
    ∃ b, singParallel ⟨n, u, s, a, r⟩ ⟨n, v, s', a', r'⟩ tol = .ok b ∧
      (b = true ↔ (∃ i, |u i / norm2 u - v i / norm2 v| < tol) ∨ ∃ i, |u i / norm2 u + v i / norm2 v| < tol) := by
  classical
  have hu' : norm2 u ≠ 0 := fun h => hu (funext (norm2_eq_zero.1 h))
  have hv' : norm2 v ≠ 0 := fun h => hv (funext (norm2_eq_zero.1 h))
  unfold singParallel
  rw [dif_pos rfl, if_neg hn, if_neg (by rintro (h | h); exacts [hu' h, hv' h])]
  simp only [Fin.cast_eq_self]
  by_cases c1 : ∃ i, |u i / norm2 u - v i / norm2 v| < tol
  · rw [if_pos c1]; exact ⟨true, rfl, by simp [c1]⟩
  · rw [if_neg c1]
    by_cases c2 : ∃ i, |u i / norm2 u + v i / norm2 v| < tol
    · rw [if_pos c2]; exact ⟨true, rfl, by simp [c2]⟩
    · rw [if_neg c2]; exact ⟨false, rfl, by simp [c1, c2]⟩

private theorem par_zero {n : ℕ} (hn : n ≠ 0) {u v : Fin n → ℝ} (h : u = 0 ∨ v = 0) (s s' a a' r r' tol : ℝ) :
    singParallel ⟨n, u, s, a, r⟩ ⟨n, v, s', a', r'⟩ tol = .ok false := by
  classical
  unfold singParallel
  rw [dif_pos rfl, if_neg hn, if_pos]
  rcases h with rfl | rfl
  · exact .inl (norm2_eq_zero.2 fun i => rfl)
  · exact .inr (norm2_eq_zero.2 fun i => rfl)

/-- **C127** (`is_parallel`).  The order of the two hyperplanes does not matter. -/
theorem C127_par_symm (h g : HypObj) (tol : ℝ) : singParallel h g tol = singParallel g h tol := by
  by_cases e : h.n = g.n
  · obtain ⟨n, u, s, a, r⟩ := h
    obtain ⟨n', v, s', a', r'⟩ := g
    obtain rfl : n = n' := e
    by_cases hn : n = 0
    · unfold singParallel; rw [dif_pos rfl, dif_pos rfl, if_pos hn, if_pos hn]
    by_cases hz : u = 0 ∨ v = 0
    · rw [par_zero hn hz, par_zero hn hz.symm]
    push Not at hz
    obtain ⟨b, h1, h2⟩ := par_eq hn hz.1 hz.2 s s' a a' r r' tol
    obtain ⟨b', h1', h2'⟩ := par_eq hn hz.2 hz.1 s' s a' a r' r tol
    rw [h1, h1']
    congr 1
    rw [Bool.eq_iff_iff, h2, h2']
    simp only [abs_sub_comm (v _ / _), add_comm (v _ / _)]
  · rw [(C52_dims e tol).1, (C52_dims (Ne.symm e) tol).1]

/-- **C127** (`is_parallel`).  Neither the shifts nor the lengths and signs of the normals matter, nor the tolerances of the second hyperplane. -/
theorem C127_par_scale {k l : ℝ} (hk : k ≠ 0) (hl : l ≠ 0) {n n' : ℕ} (u : Fin n → ℝ) (v : Fin n' → ℝ) (s s' t t' a a' b b' r r' q q' tol : ℝ) :
    singParallel ⟨n, k • u, s, a, r⟩ ⟨n', l • v, s', a', r'⟩ tol = singParallel ⟨n, u, t, b, q⟩ ⟨n', v, t', b', q'⟩ tol := by
  by_cases e : n = n'
  · subst e
    by_cases hn : n = 0
    · unfold singParallel; rw [dif_pos rfl, dif_pos rfl, if_pos hn, if_pos hn]
    by_cases hz : u = 0 ∨ v = 0
    · rw [par_zero hn hz, par_zero hn (by simpa [hk, hl] using hz)]
    push Not at hz
    obtain ⟨c, h1, h2⟩ := par_eq hn hz.1 hz.2 t t' b b' q q' tol
    obtain ⟨c', h1', h2'⟩ := par_eq (u := k • u) (v := l • v) hn (smul_ne_zero hk hz.1) (smul_ne_zero hl hz.2) s s' a a' r r' tol
    rw [h1, h1']
    congr 1
    rw [Bool.eq_iff_iff, h2, h2']
    have hnorm : ∀ (c : ℝ) (w : Fin n → ℝ), norm2 (c • w) = |c| * norm2 w := by
      intro c w
      unfold norm2
      simp only [Pi.smul_apply, smul_eq_mul, mul_pow, ← Finset.mul_sum]
      rw [Real.sqrt_mul (sq_nonneg c), Real.sqrt_sq_eq_abs]
    have hsign : ∀ (c : ℝ), c ≠ 0 → ∀ w : Fin n → ℝ, (∀ i, (c • w) i / norm2 (c • w) = w i / norm2 w) ∨ ∀ i, (c • w) i / norm2 (c • w) = -(w i / norm2 w) := by
      intro c hc w
      simp only [hnorm, Pi.smul_apply, smul_eq_mul]
      rcases lt_or_gt_of_ne hc with h | h
      · right; intro i; rw [abs_of_neg h, neg_mul, div_neg, mul_div_mul_left _ _ hc]
      · left; intro i; rw [abs_of_pos h, mul_div_mul_left _ _ hc]
    rcases hsign k hk u with h3 | h3 <;> rcases hsign l hl v with h4 | h4 <;> simp only [h3, h4]
    · simp only [sub_neg_eq_add, ← sub_eq_add_neg]
      exact or_comm
    · have : ∀ x y : ℝ, |-x - y| = |x + y| := fun x y => by rw [← abs_neg]; congr 1; ring
      have h' : ∀ x y : ℝ, |-x + y| = |x - y| := fun x y => by rw [← abs_neg]; congr 1; ring
      simp only [this, h']
      exact or_comm
    · have : ∀ x y : ℝ, |-x - -y| = |x - y| := fun x y => by rw [← abs_neg]; congr 1; ring
      have h' : ∀ x y : ℝ, |-x + -y| = |x + y| := fun x y => by rw [← abs_neg]; congr 1; ring
      simp only [this, h']
  · rw [(C52_dims (h := ⟨n, k • u, s, a, r⟩) (g := ⟨n', l • v, s', a', r'⟩) e tol).1, (C52_dims (h := ⟨n, u, t, b, q⟩) (g := ⟨n', v, t', b', q'⟩) e tol).1]

/-- **C127** (`is_parallel`).  Renaming the coordinates and mirroring the axes, in both hyperplanes alike, changes no answer. -/
theorem C127_par_axes {n : ℕ} (σ : Equiv.Perm (Fin n)) {w : Fin n → ℝ} (hw : ∀ i, w i = 1 ∨ w i = -1) (u v : Fin n → ℝ) (s s' a a' r r' tol : ℝ) :
    singParallel ⟨n, fun i => w i * u (σ i), s, a, r⟩ ⟨n, fun i => w i * v (σ i), s', a', r'⟩ tol = singParallel ⟨n, u, s, a, r⟩ ⟨n, v, s', a', r'⟩ tol := by
  by_cases hn : n = 0
  · unfold singParallel; rw [dif_pos rfl, dif_pos rfl, if_pos hn, if_pos hn]
  have hw2 : ∀ i, w i ^ 2 = 1 := fun i => by rcases hw i with h | h <;> rw [h] <;> norm_num
  have hw0 : ∀ i, w i ≠ 0 := fun i h => by have := hw2 i; rw [h] at this; norm_num at this
  have hwa : ∀ i, |w i| = 1 := fun i => by rcases hw i with h | h <;> rw [h] <;> norm_num
  have hz0 : ∀ z : Fin n → ℝ, (fun i => w i * z (σ i)) = 0 ↔ z = 0 := by
    intro z
    constructor
    · intro h
      funext i
      have := congrFun h (σ.symm i)
      simpa [hw0] using this
    · rintro rfl; funext i; simp
  have hnorm : ∀ z : Fin n → ℝ, norm2 (fun i => w i * z (σ i)) = norm2 z := by
    intro z
    unfold norm2
    simp only [mul_pow, hw2, one_mul]
    rw [Equiv.sum_comp σ fun i => z i ^ 2]
  by_cases hz : u = 0 ∨ v = 0
  · rw [par_zero hn hz, par_zero hn (by rw [hz0, hz0]; exact hz)]
  push Not at hz
  obtain ⟨c, h1, h2⟩ := par_eq hn hz.1 hz.2 s s' a a' r r' tol
  obtain ⟨c', h1', h2'⟩ := par_eq hn (fun h => hz.1 ((hz0 u).1 h)) (fun h => hz.2 ((hz0 v).1 h)) s s' a a' r r' tol
  rw [h1, h1']
  congr 1
  rw [Bool.eq_iff_iff, h2, h2']
  simp only [hnorm, mul_div_assoc, ← mul_sub, ← mul_add, abs_mul, hwa, one_mul]
  exact or_congr (σ.exists_congr_left.trans (by simp)) (σ.exists_congr_left.trans (by simp))

/-- **C127** (`is_parallel`).  What is parallel at one tolerance is parallel at every larger one. -/
theorem C127_par_tolerance {h g : HypObj} {tol tol' : ℝ} (ht : tol ≤ tol') (hp : singParallel h g tol = .ok true) : singParallel h g tol' = .ok true := by
  by_cases e : h.n = g.n
  · obtain ⟨n, u, s, a, r⟩ := h
    obtain ⟨n', v, s', a', r'⟩ := g
    obtain rfl : n = n' := e
    by_cases hn : n = 0
    · unfold singParallel at hp; rw [dif_pos rfl, if_pos hn] at hp; cases hp
    by_cases hz : u = 0 ∨ v = 0
    · rw [par_zero hn hz] at hp; cases hp
    push Not at hz
    obtain ⟨b, h1, h2⟩ := par_eq hn hz.1 hz.2 s s' a a' r r' tol
    obtain ⟨b', h1', h2'⟩ := par_eq hn hz.1 hz.2 s s' a a' r r' tol'
    rw [h1] at hp
    cases hp
    rw [h1', h2'.2]
    exact (h2.1 rfl).imp (fun ⟨i, hi⟩ => ⟨i, hi.trans_le ht⟩) fun ⟨i, hi⟩ => ⟨i, hi.trans_le ht⟩
  · rw [(C52_dims e tol).1] at hp; cases hp

/-- **C127** (`is_parallel` on arrays).  Arrays of the same shape may be exchanged if all the tolerances are the same. -/
theorem C127_par_arrays {a b : Arr HypObj} (hs : a.shape = b.shape) {t : ℝ} (ht : ∀ h ∈ a.data ++ b.data, h.absTol = t) : isParallel a b = isParallel b a := by
  have key : ∀ l l' : List HypObj, (∀ h ∈ l ++ l', h.absTol = t) → pyMap (fun p : HypObj × HypObj => singParallel p.1 p.2 p.1.absTol) (l.zip l') =
      pyMap (fun p : HypObj × HypObj => singParallel p.1 p.2 p.1.absTol) (l'.zip l) := by
    intro l
    induction l with
    | nil => intro l' _; simp
    | cons h l ih =>
      intro l' hl
      cases l' with
      | nil => simp
      | cons g l' =>
        simp only [List.zip_cons_cons, pyMap]
        rw [ih l' (fun x hx => hl x (by simp only [List.mem_append, List.mem_cons] at hx ⊢; tauto)), C127_par_symm, hl h (by simp), hl g (by simp)]
  unfold isParallel
  rw [if_neg (not_not_intro (.inl hs)), if_neg (not_not_intro (.inl hs.symm)), key _ _ ht, hs]

/-! Concrete cases. -/

/-- The line `x + 2 y = 3` of the plane. -/
private noncomputable def line : HypObj := ⟨2, ![1, 2], 3, 1 / 10, 1 / 10⟩

private theorem line_neg : ¬ Negligible line := fun h => absurd h.1 (by simp [line])

/-- It contains `(1, 1)` and not `(2, 2)`. -/
example : Says line (![1, 1] : Fin 2 → ℝ) true ∧ Says line (![2, 2] : Fin 2 → ℝ) false := by
  refine ⟨(says_true_iff (by simp [line]) line_neg _).2 ?_, (says_false_iff (by simp [line]) line_neg _).2 ?_⟩
  · show |(![1, 2] : Fin 2 → ℝ) ⬝ᵥ ![1, 1] - 3| < 1 / 10
    rw [show (![1, 2] : Fin 2 → ℝ) ⬝ᵥ ![1, 1] = 3 by simp [dotProduct, Fin.sum_univ_two]; norm_num]
    norm_num
  · show (1 / 10 : ℝ) ≤ |(![1, 2] : Fin 2 → ℝ) ⬝ᵥ ![2, 2] - 3|
    rw [show (![1, 2] : Fin 2 → ℝ) ⬝ᵥ ![2, 2] = 6 by simp [dotProduct, Fin.sum_univ_two]; norm_num]
    norm_num

/-- The quarter turn followed by a move carries it to the line `-2 x + y = 3 + (-2, 1) · (1, 1)`. -/
example : Carried (!![0, -1; 1, 0] : Matrix (Fin 2) (Fin 2) ℝ) ![1, 1] line ⟨2, ![-2, 1], 2, 1 / 10, 1⟩ := by
  refine ⟨rfl, rfl, ?_, ?_, rfl⟩
  · funext i
    fin_cases i <;> simp [line, vecMul, dotProduct, Fin.sum_univ_two]
  · simp [line, dotProduct, Fin.sum_univ_two]
    norm_num

example : line.nrm ≠ 0 := fun h => one_ne_zero (α := ℝ) (congrFun h (0 : Fin 2))

end Ellipy.Hyp
