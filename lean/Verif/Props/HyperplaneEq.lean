import Verif.Props.Hyperplane
import Verif.Proofs.IsEqual
import Verif.Props.IsEqual

/-! Property theorems C50 (equality of hyperplanes) and C61 (dictionaries). -/

namespace Ellipy.Hyp
open Ellipy.Ell

variable {lk : List (PyVal ℝ) → Kind} {fmt : Fmt ℝ}

theorem singDimension_ok {h : HypObj} (hn : h.n ≠ 0) :
    (Negligible h → singDimension h = .ok 0) ∧ (¬ Negligible h → singDimension h = .ok h.n) := by
  obtain ⟨n, u, s, tA, tR⟩ := h
  match n, u, hn with
  | 1, u, _ =>
    have hN : Negligible ⟨1, u, s, tA, tR⟩ ↔ |u 0| ≤ tA ∧ |s| ≤ tA := by
      constructor
      · rintro ⟨-, h1, h2⟩; exact ⟨h1 (0 : Fin 1), h2⟩
      · rintro ⟨h1, h2⟩
        refine ⟨rfl, fun i => ?_, h2⟩
        rw [show i = (0 : Fin 1) from Subsingleton.elim (α := Fin 1) _ _]; exact h1
    constructor
    · intro h
      have := hN.1 h
      simp [singDimension, this.1, this.2]
    · intro h
      have := fun h' => h (hN.2 h')
      simp only [singDimension, Nat.one_lt_ofNat, if_true, List.ofFn_succ, List.getElem?_cons_zero]
      rw [if_neg this]
  | n + 2, u, _ =>
    constructor
    · intro h; exact absurd h.1 (by show ¬ n + 2 = 1; omega)
    · intro _; unfold singDimension; rw [if_neg (show ¬ n + 2 < 2 by omega)]

/-- `to_dict` raises only when there is no coordinate. -/
theorem toDictOne_raises {h : HypObj} : Raises (toDictOne h) ↔ h.n = 0 := by
  constructor
  · intro hr
    by_contra hn
    obtain ⟨e, he⟩ := hr
    by_cases hN : Negligible h
    · simp only [toDictOne, (singDimension_ok hn).1 hN] at he; cases he
    · obtain ⟨k, hk⟩ := Nat.exists_eq_succ_of_ne_zero hn
      simp only [toDictOne, (singDimension_ok hn).2 hN, hk] at he
      split_ifs at he
  · intro hn
    have : toDictOne h = .error .indexError := by
      obtain ⟨n, u, s, tA, tR⟩ := h
      obtain rfl : n = 0 := hn
      simp [toDictOne, singDimension]
    exact ⟨_, this⟩

theorem norm2_sq {n : ℕ} (u : Fin n → ℝ) : norm2 u ^ 2 = ∑ i, u i ^ 2 :=
  Real.sq_sqrt (Finset.sum_nonneg fun i _ => sq_nonneg _)

theorem norm2_nonneg {n : ℕ} (u : Fin n → ℝ) : 0 ≤ norm2 u := Real.sqrt_nonneg _

theorem norm2_eq_zero {n : ℕ} {u : Fin n → ℝ} : norm2 u = 0 ↔ ∀ i, u i = 0 := by
  rw [← sq_eq_zero_iff, norm2_sq, Finset.sum_eq_zero_iff_of_nonneg fun i _ => sq_nonneg _]
  simp

theorem norm2_pos {n : ℕ} {u : Fin n → ℝ} (h : ∃ i, u i ≠ 0) : 0 < norm2 u := by
  refine lt_of_le_of_ne (norm2_nonneg u) fun h0 => ?_
  obtain ⟨i, hi⟩ := h
  exact hi (norm2_eq_zero.1 h0.symm i)

theorem canon_unique {h : HypObj} {u v : Fin h.n → ℝ} {s t : ℝ} (h1 : Canon h u s) (h2 : Canon h v t) : u = v ∧ s = t := by
  obtain ⟨hu, hs, r, hr, hr0, h3, h4⟩ := h1
  obtain ⟨hv, ht, q, hq, hq0, h5, h6⟩ := h2
  have e1 : r ^ 2 = q ^ 2 := by
    have a1 : ∑ i, h.nrm i ^ 2 = r ^ 2 := by simp only [h3, mul_pow, ← Finset.mul_sum, hu, mul_one]
    have a2 : ∑ i, h.nrm i ^ 2 = q ^ 2 := by simp only [h5, mul_pow, ← Finset.mul_sum, hv, mul_one]
    rw [← a1, a2]
  rcases sq_eq_sq_iff_eq_or_eq_neg.1 e1 with rfl | rfl
  · refine ⟨funext fun i => mul_left_cancel₀ hr ?_, mul_left_cancel₀ hr ?_⟩
    · rw [← h3, h5]
    · rw [← h4, h6]
  · exfalso
    have : t = -s := by
      have : q * (t + s) = 0 := by linarith [h4, h6]
      rcases mul_eq_zero.1 this with h' | h'
      · exact absurd h' hq
      · linarith
    have hs0 : s = 0 := by linarith
    have ht0 : t = 0 := by linarith
    linarith [hr0 hs0, hq0 ht0]

/-- The dictionary of a hyperplane with a non-zero normal is its normal form. -/
theorem toDictOne_canon {h : HypObj} (hn : ∃ i, h.nrm i ≠ 0) (hN : ¬ Negligible h) :
    ∃ u s, Canon h u s ∧ toDictOne h = .ok (.vals (List.ofFn fun i => .fin (u i)) (.fin s)) := by
  have hr := norm2_pos hn
  have hn0 : h.n ≠ 0 := by rintro h0; obtain ⟨i, -⟩ := hn; exact absurd i.2 (by omega)
  obtain ⟨k, hk⟩ := Nat.exists_eq_succ_of_ne_zero hn0
  have hsq : ∑ i, (h.nrm i * (1 / norm2 h.nrm)) ^ 2 = 1 := by
    simp only [mul_pow, ← Finset.sum_mul, ← norm2_sq]
    rw [← mul_pow, mul_one_div_cancel hr.ne', one_pow]
  by_cases hneg : h.shift * (1 / norm2 h.nrm) < 0
  · refine ⟨fun i => -(h.nrm i * (1 / norm2 h.nrm)), -(h.shift * (1 / norm2 h.nrm)), ⟨?_, by linarith, -norm2 h.nrm,
      neg_ne_zero.2 hr.ne', fun h0 => by linarith, fun i => ?_, ?_⟩, ?_⟩
    · simpa only [neg_sq] using hsq
    · field_simp
    · field_simp
    · simp only [toDictOne, (singDimension_ok hn0).2 hN, hk, if_neg hr.ne', if_pos hneg]
  · refine ⟨fun i => h.nrm i * (1 / norm2 h.nrm), h.shift * (1 / norm2 h.nrm), ⟨hsq, not_lt.1 hneg, norm2 h.nrm,
      hr.ne', fun _ => hr, fun i => ?_, ?_⟩, ?_⟩
    · field_simp
    · field_simp
    · simp only [toDictOne, (singDimension_ok hn0).2 hN, hk, if_neg hr.ne', if_neg hneg]

theorem toDictOne_negligible {h : HypObj} (hN : Negligible h) : toDictOne h = .ok .empty := by
  simp only [toDictOne, (singDimension_ok (by rw [hN.1]; exact one_ne_zero)).1 hN]

/-- Agreement of two dictionaries. -/
def DictClose (tA tR : ℝ) : HypDict → HypDict → Prop
  | .empty, .empty => True
  | .vals l s, .vals l' s' => List.Forall₂ (EntryClose (.fin tA) (some (.fin tR))) l l' ∧ EntryClose (.fin tA) (some (.fin tR)) s s'
  | _, _ => False

def hypFields : HypDict → List (String × PyVal ℝ)
  | .empty => [("normal", zeros0), ("shift", zeros0)]
  | .vals l s => [("normal", .arr ⟨.f, [l.length], l, by simp⟩), ("shift", .scal .npFloat64 s)]

theorem hypForm_eq (t : ℝ) (d : HypDict) : hypForm false t d = .ok (hypFields d) := by cases d <;> rfl

private theorem ns : "normal" ≠ "shift" := by decide

theorem dict_verdict {tA tR : ℝ} (hA : 0 ≤ tA) (hR : 0 ≤ tR) (d d' : HypDict) :
    ∃ r, compScalar lk fmt (.fin tA) (some (.fin tR)) (hypFields d) (hypFields d') = .ok r ∧ (r.1 = true ↔ DictClose tA tR d d') := by
  have hv : ValidTol (.fin tA : XF ℝ) := hA
  have hv' : ∀ t, some (.fin tR : XF ℝ) = some t → ValidTol t := by rintro t ⟨⟩; exact hR
  have harr : ∀ x y : NArr ℝ, x.kind = .f → y.kind = .f → ∃ r, compFun lk fmt (.fin tA) (some (.fin tR)) (.arr x) (.arr y) = .ok r ∧
      (r.1 = true ↔ x.shape = y.shape ∧ List.Forall₂ (EntryClose (.fin tA) (some (.fin tR))) x.data y.data) := by
    intro x y hx hy
    rw [compFun_arr hx hy]
    exact numComp_verdict hv hv' hx hy
  have hscal : ∀ x y : XF ℝ, ∃ r, compFun lk fmt (.fin tA) (some (.fin tR)) (.scal .npFloat64 x) (.scal .npFloat64 y) = .ok r ∧
      (r.1 = true ↔ EntryClose (.fin tA) (some (.fin tR)) x y) := by
    intro x y
    rw [compFun_scal]
    obtain ⟨r, h1, h2⟩ := numComp_verdict (fmt := fmt) hv hv' (x := scalArr .npFloat64 x) (y := scalArr .npFloat64 y) rfl rfl
    exact ⟨r, h1, by rw [h2]; simp [scalArr]⟩
  have hmix : ∀ (x : NArr ℝ) (y : XF ℝ), compFun lk fmt (.fin tA) (some (.fin tR)) (.arr x) (.scal .npFloat64 y) = .ok (false, "Different types") ∧
      compFun lk fmt (.fin tA) (some (.fin tR)) (.scal .npFloat64 y) (.arr x) = .ok (false, "Different types") := by
    intro x y
    constructor <;> exact compFun_types (Or.inl (by simp [PyVal.ty]))
  cases d with
  | empty =>
    cases d' with
    | empty =>
      obtain ⟨r, h1, h2⟩ := harr ⟨.f, [0], [], rfl⟩ ⟨.f, [0], [], rfl⟩ rfl rfl
      obtain ⟨q, h3, h4⟩ := compScalar_two (lk := lk) (fmt := fmt) ns h1 h1
      refine ⟨q, h3, ?_⟩
      rw [h4, Bool.and_self, h2]
      simp [DictClose]
    | vals l s =>
      obtain ⟨r, h1, h2⟩ := harr ⟨.f, [0], [], rfl⟩ ⟨.f, [l.length], l, by simp⟩ rfl rfl
      obtain ⟨q, h3, h4⟩ := compScalar_two (lk := lk) (fmt := fmt) ns h1 (hmix ⟨.f, [0], [], rfl⟩ s).1
      refine ⟨q, h3, ?_⟩
      rw [h4]
      simp [DictClose]
  | vals l s =>
    cases d' with
    | empty =>
      obtain ⟨r, h1, h2⟩ := harr ⟨.f, [l.length], l, by simp⟩ ⟨.f, [0], [], rfl⟩ rfl rfl
      obtain ⟨q, h3, h4⟩ := compScalar_two (lk := lk) (fmt := fmt) ns h1 (hmix ⟨.f, [0], [], rfl⟩ s).2
      refine ⟨q, h3, ?_⟩
      rw [h4]
      simp [DictClose]
    | vals l' s' =>
      obtain ⟨r, h1, h2⟩ := harr ⟨.f, [l.length], l, by simp⟩ ⟨.f, [l'.length], l', by simp⟩ rfl rfl
      obtain ⟨r', h1', h2'⟩ := hscal s s'
      obtain ⟨q, h3, h4⟩ := compScalar_two (lk := lk) (fmt := fmt) ns h1 h1'
      refine ⟨q, h3, ?_⟩
      rw [h4, Bool.and_eq_true, h2, h2']
      simp only [DictClose]
      constructor
      · rintro ⟨⟨-, a⟩, b⟩; exact ⟨a, b⟩
      · rintro ⟨a, b⟩; exact ⟨⟨by rw [a.length_eq], a⟩, b⟩

open Classical in
/-- The dictionary as a total function. -/
noncomputable def dictOf (h : HypObj) : HypDict := match toDictOne h with
  | .ok d => d
  | .error _ => .empty

theorem toDictOne_dictOf {h : HypObj} (hn : h.n ≠ 0) : toDictOne h = .ok (dictOf h) := by
  unfold dictOf
  cases hd : toDictOne h with
  | ok d => rfl
  | error e => exact absurd (toDictOne_raises.1 ⟨e, hd⟩) hn

theorem dictClose_iff {tA tR : ℝ} {h g : HypObj} (hh : ∃ i, h.nrm i ≠ 0) (hg : ∃ i, g.nrm i ≠ 0) :
    DictClose tA tR (dictOf h) (dictOf g) ↔ HypClose tA tR h g := by
  by_cases h1 : Negligible h
  · have e1 : dictOf h = .empty := by unfold dictOf; rw [toDictOne_negligible h1]
    by_cases h2 : Negligible g
    · have e2 : dictOf g = .empty := by unfold dictOf; rw [toDictOne_negligible h2]
      rw [e1, e2]; simp [DictClose, HypClose, h1, h2]
    · obtain ⟨v, t, hc, hd⟩ := toDictOne_canon hg h2
      have e2 : dictOf g = .vals (List.ofFn fun i => .fin (v i)) (.fin t) := by unfold dictOf; rw [hd]
      rw [e1, e2]; simp [DictClose, HypClose, h1, h2]
  · obtain ⟨u, s, hc, hd⟩ := toDictOne_canon hh h1
    have e1 : dictOf h = .vals (List.ofFn fun i => .fin (u i)) (.fin s) := by unfold dictOf; rw [hd]
    by_cases h2 : Negligible g
    · have e2 : dictOf g = .empty := by unfold dictOf; rw [toDictOne_negligible h2]
      rw [e1, e2]; simp [DictClose, HypClose, h1, h2]
    · obtain ⟨v, t, hc', hd'⟩ := toDictOne_canon hg h2
      have e2 : dictOf g = .vals (List.ofFn fun i => .fin (v i)) (.fin t) := by unfold dictOf; rw [hd']
      rw [e1, e2]
      simp only [DictClose, HypClose, h1, h2, not_false_eq_true, true_and, false_and, false_or]
      constructor
      · rintro ⟨a, b⟩
        have e : h.n = g.n := by simpa using a.length_eq
        refine ⟨e, u, s, v, t, hc, hc', fun i => ?_, b⟩
        have := (List.forall₂_iff_get.1 a).2 i (by simp) (by simp [← e])
        simp only [List.get_ofFn] at this
        exact this
      · rintro ⟨e, u', s', v', t', k1, k2, k3, k4⟩
        obtain ⟨rfl, rfl⟩ := canon_unique hc k1
        obtain ⟨rfl, rfl⟩ := canon_unique hc' k2
        refine ⟨List.forall₂_iff_get.2 ⟨by simpa using e, fun i hi hi' => ?_⟩, k4⟩
        have := k3 ⟨i, by simpa using hi⟩
        simpa using this

theorem hyp_main {a b : Arr HypObj} (ha : a.data ≠ []) (hb : b.data ≠ []) (hp : ∀ h ∈ a.data ++ b.data, h.tols.ok)
    (hn : ∀ h ∈ a.data ++ b.data, h.n ≠ 0) :
    ∃ g : HypObj → HypObj → Bool,
      (∀ x y, (g x y = true ↔ DictClose (minTol ((a.data ++ b.data).map HypObj.absTol))
        (minTol ((a.data ++ b.data).map HypObj.relTol)) (dictOf x) (dictOf y))) ∧
    (Compat a b → ∃ r rep, isEqual lk fmt hypClass a b false = .ok (r, rep) ∧
      r.shape = (if 1 < a.data.length then a.shape else b.shape) ∧ r.data = List.zipWith g (bcList a b) (bcList b a)) ∧
    (¬ Compat a b → a.data.length = 1 → b.data.length = 1 →
      ∃ r, isEqual lk fmt hypClass a b false = .ok (r, "sizes are different") ∧ r.shape = b.shape ∧ r.data = [false]) ∧
    (¬ Compat a b → 1 < a.data.length ∨ 1 < b.data.length → Raises (isEqual lk fmt hypClass a b false)) := by
  classical
  have hne : ∀ f : HypObj → ℝ, (a.data ++ b.data).map f ≠ [] := by
    intro f hf; simp at hf; exact ha hf.1
  have hA : 0 < minTol ((a.data ++ b.data).map HypObj.absTol) := by
    obtain ⟨e, he, h1⟩ := List.mem_map.1 (minTol_isLeast (hne HypObj.absTol)).1
    rw [← h1]; exact (hp e he).1
  have hR : 0 < minTol ((a.data ++ b.data).map HypObj.relTol) := by
    obtain ⟨e, he, h1⟩ := List.mem_map.1 (minTol_isLeast (hne HypObj.relTol)).1
    rw [← h1]; exact (hp e he).2
  refine ⟨fun x y => decide (DictClose (minTol ((a.data ++ b.data).map HypObj.absTol))
        (minTol ((a.data ++ b.data).map HypObj.relTol)) (dictOf x) (dictOf y)), fun x y => by simp, ?_⟩
  refine isEqual_main hypClass a b (fun h => hypFields (dictOf h)) _ ha hb ?_ ?_
  · intro x hx
    exact ⟨dictOf x, toDictOne_dictOf (hn x hx), hypForm_eq (minTol ((a.data ++ b.data).map HypObj.absTol)) _⟩
  · intro x _ y _
    obtain ⟨r, h1, h2⟩ := dict_verdict (lk := lk) (fmt := fmt) hA.le hR.le (dictOf x) (dictOf y)
    refine ⟨r, h1, ?_⟩
    by_cases hc : DictClose (minTol ((a.data ++ b.data).map HypObj.absTol))
        (minTol ((a.data ++ b.data).map HypObj.relTol)) (dictOf x) (dictOf y)
    · rw [decide_eq_true hc]; exact h2.2 hc
    · rw [decide_eq_false hc]; exact Bool.eq_false_iff.2 fun h => hc (h2.1 h)

/-- A single comparison, by dictionaries. -/
theorem hyp_eqOp {h g : HypObj} (hh : h.tols.ok) (hg : g.tols.ok) (hn : h.n ≠ 0) (hn' : g.n ≠ 0) :
    ∃ v, eqOp lk fmt hypClass h g = .ok v ∧
      (v = true ↔ DictClose (min h.absTol g.absTol) (min h.relTol g.relTol) (dictOf h) (dictOf g)) := by
  obtain ⟨f, hf, h1, -⟩ := hyp_main (lk := lk) (fmt := fmt) (a := Arr.vec [h]) (b := Arr.vec [g]) (by simp [Arr.vec]) (by simp [Arr.vec])
    (by simp [Arr.vec, hh, hg]) (by simp [Arr.vec, hn, hn'])
  obtain ⟨r, rep, h2, -, h4⟩ := h1 ⟨by simp [Arr.vec], by simp [Arr.vec], by simp [Arr.vec]⟩
  refine ⟨f h g, ?_, ?_⟩
  · have : r.data = [f h g] := by rw [h4]; simp [bcList, Arr.vec]
    unfold eqOp
    rw [h2]
    simp only [this]
  · rw [hf]; simp [Arr.vec, minTol]

/-- **C50** (which verdict is returned).  Two hyperplanes with non-zero normals are equal exactly when both are negligible or their normal forms agree
within the smaller tolerances; hyperplanes of different dimensions are not equal. -/
theorem C50_verdict {h g : HypObj} (hh : h.tols.ok) (hg : g.tols.ok) (hn : ∃ i, h.nrm i ≠ 0) (hn' : ∃ i, g.nrm i ≠ 0) :
    ∃ v, eqOp lk fmt hypClass h g = .ok v ∧ (v = true ↔ HypClose (min h.absTol g.absTol) (min h.relTol g.relTol) h g) := by
  have pos : ∀ h : HypObj, (∃ i, h.nrm i ≠ 0) → h.n ≠ 0 := by
    rintro h ⟨i, -⟩ h0; exact absurd i.2 (by omega)
  obtain ⟨v, h1, h2⟩ := hyp_eqOp (lk := lk) (fmt := fmt) hh hg (pos h hn) (pos g hn')
  exact ⟨v, h1, h2.trans (dictClose_iff hn hn')⟩

/-- **C50** (arrays).  For arrays of hyperplanes with non-zero normals, of equal shapes or one of them with a single element and not more dimensions
than the other, the verdict at every position is the agreement within the smallest tolerances that occur. -/
theorem C50_elementwise {a b : Arr HypObj} (ha : a.data ≠ []) (hb : b.data ≠ []) (hp : ∀ h ∈ a.data ++ b.data, h.tols.ok)
    (hq : ∀ h ∈ a.data ++ b.data, ∃ i, h.nrm i ≠ 0) (hc : Compat a b)
    {tA tR : ℝ} (htA : IsLeast {t | ∃ h ∈ a.data ++ b.data, h.absTol = t} tA)
    (htR : IsLeast {t | ∃ h ∈ a.data ++ b.data, h.relTol = t} tR) :
    ∃ r rep, isEqual lk fmt hypClass a b false = .ok (r, rep) ∧
      r.shape = (if 1 < a.data.length then a.shape else b.shape) ∧
      ∀ (i : ℕ) v x y, r.data[i]? = some v → (bcList a b)[i]? = some x → (bcList b a)[i]? = some y →
        (v = true ↔ HypClose tA tR x y) := by
  obtain ⟨g, hg, h1, -⟩ := hyp_main (lk := lk) (fmt := fmt) ha hb hp fun h hh h0 => by
    obtain ⟨i, -⟩ := hq h hh; exact absurd i.2 (by omega)
  obtain ⟨r, rep, h2, h3, h4⟩ := h1 hc
  have hne : ∀ f : HypObj → ℝ, (a.data ++ b.data).map f ≠ [] := by
    intro f hf; simp at hf; exact ha hf.1
  have e1 : minTol ((a.data ++ b.data).map HypObj.absTol) = tA := by
    have := minTol_isLeast (hne HypObj.absTol)
    simp only [List.mem_map] at this
    exact this.unique htA
  have e2 : minTol ((a.data ++ b.data).map HypObj.relTol) = tR := by
    have := minTol_isLeast (hne HypObj.relTol)
    simp only [List.mem_map] at this
    exact this.unique htR
  refine ⟨r, rep, h2, h3, ?_⟩
  intro i v x y hv hx hy
  rw [h4, List.getElem?_zipWith, hx, hy] at hv
  have hv : g x y = v := by injection hv
  rw [← hv, hg, e1, e2]
  exact dictClose_iff (hq x (by simp [mem_bcList (List.mem_of_getElem? hx)])) (hq y (by simp [mem_bcList (List.mem_of_getElem? hy)]))

/-- **C50** (symmetric): swapping changes neither the verdict nor whether an exception is raised. -/
theorem C50_symm (h g : HypObj) :
    (eqOp lk fmt hypClass h g).toOption = (eqOp lk fmt hypClass g h).toOption := by
  have : (isEqual lk fmt hypClass (Arr.vec [h]) (Arr.vec [g]) false).toOption.map Prod.fst =
      (isEqual lk fmt hypClass (Arr.vec [g]) (Arr.vec [h]) false).toOption.map Prod.fst := by
    refine isEqual_symm hypClass false ?_ _ _ (by simp [Arr.vec])
    intro tA tR d d' u v hu hv
    have key : ∀ (d : HypDict), ∃ x y, hypFields d = [("normal", x), ("shift", y)] ∧
        ((∃ a, a.kind = .f ∧ x = .arr a) ∨ ∃ t z, x = .scal t z) ∧ ((∃ a, a.kind = .f ∧ y = .arr a) ∨ ∃ t z, y = .scal t z) := by
      rintro (_ | ⟨l, s⟩)
      · exact ⟨_, _, rfl, .inl ⟨_, rfl, rfl⟩, .inl ⟨_, rfl, rfl⟩⟩
      · exact ⟨_, _, rfl, .inl ⟨_, rfl, rfl⟩, .inr ⟨_, _, rfl⟩⟩
    have hu' : hypFields d = u := by
      have : hypForm false tA d = .ok u := hu
      rw [hypForm_eq] at this; injection this
    have hv' : hypFields d' = v := by
      have : hypForm false tA d' = .ok v := hv
      rw [hypForm_eq] at this; injection this
    obtain ⟨x, y, e1, h1, h2⟩ := key d
    obtain ⟨x', y', e2, h3, h4⟩ := key d'
    rw [← hu', ← hv', e1, e2]
    exact compScalar_two_symm (by decide) h1 h2 h3 h4
  unfold eqOp
  cases h1 : isEqual lk fmt hypClass (Arr.vec [h]) (Arr.vec [g]) false with
  | error x =>
    rw [h1] at this
    cases h2 : isEqual lk fmt hypClass (Arr.vec [g]) (Arr.vec [h]) false with
    | error y => rfl
    | ok r => rw [h2] at this; cases this
  | ok r =>
    rw [h1] at this
    cases h2 : isEqual lk fmt hypClass (Arr.vec [g]) (Arr.vec [h]) false with
    | error y => rw [h2] at this; cases this
    | ok r' =>
      rw [h2] at this
      have h3 : r.1 = r'.1 := by injection this
      simp only [h3]

theorem dictClose_refl {tA tR : ℝ} (hA : 0 ≤ tA) (d : HypDict) : DictClose tA tR d d := by
  cases d with
  | empty => trivial
  | vals l s =>
    refine ⟨?_, EntryClose.refl (show ValidTol (.fin tA : XF ℝ) from hA) _ _⟩
    induction l with
    | nil => exact .nil
    | cons x xs ih => exact .cons (EntryClose.refl (show ValidTol (.fin tA : XF ℝ) from hA) _ _) ih

/-- **C50** (reflexive), also for degenerate hyperplanes. -/
theorem C50_refl {h : HypObj} (hh : h.tols.ok) (hn : h.n ≠ 0) : eqOp lk fmt hypClass h h = .ok true := by
  obtain ⟨v, h1, h2⟩ := hyp_eqOp (lk := lk) (fmt := fmt) hh hh hn hn
  rw [h1, h2.2 (dictClose_refl (by rw [min_self]; exact hh.1.le) _)]

theorem canon_exists {h : HypObj} (hn : ∃ i, h.nrm i ≠ 0) (hN : ¬ Negligible h) : ∃ u s, Canon h u s := by
  obtain ⟨u, s, hc, -⟩ := toDictOne_canon hn hN
  exact ⟨u, s, hc⟩

/-- **C50** (partial).  `Hyperplane(k n, k c) == Hyperplane(n, c)` whenever `k ≠ 0` and neither is negligible, if the shift is not zero or the factor is
positive (the other case is decided by `C50_neg_iff`; negligible hyperplanes by `C50_verdict`). -/
theorem C50_partial {h : HypObj} {t : Tols} {k : ℝ} (hh : h.tols.ok) (ht : t.ok) (hn : ∃ i, h.nrm i ≠ 0) (hk : k ≠ 0)
    (hN : ¬ Negligible h) (hN' : ¬ Negligible (scaled k h t)) (hs : 0 < k ∨ h.shift ≠ 0) :
    eqOp lk fmt hypClass (scaled k h t) h = .ok true := by
  have hn' : ∃ i, (scaled k h t).nrm i ≠ 0 := by
    obtain ⟨i, hi⟩ := hn
    exact ⟨i, mul_ne_zero hk hi⟩
  obtain ⟨v, h1, h2⟩ := C50_verdict (lk := lk) (fmt := fmt) (h := scaled k h t) (g := h) ht hh hn' hn
  rw [h1, h2.2]
  obtain ⟨u, s, hc⟩ := canon_exists hn hN
  have hc' : Canon (scaled k h t) u s := by
    obtain ⟨c1, c2, r, c3, c4, c5, c6⟩ := hc
    refine ⟨c1, c2, k * r, mul_ne_zero hk c3, fun h0 => ?_, fun i => ?_, ?_⟩
    · rcases hs with hs | hs
      · exact mul_pos hs (c4 h0)
      · exact absurd (by rw [c6, h0, mul_zero]) hs
    · have : ∀ i : Fin h.n, k * h.nrm i = k * r * u i := fun i => by rw [c5, mul_assoc]
      exact this i
    · show k * h.shift = k * r * s
      rw [c6, mul_assoc]
  have hv : ValidTol (.fin (min (scaled k h t).absTol h.absTol) : XF ℝ) := le_min ht.1.le hh.1.le
  exact .inr ⟨hN', hN, rfl, u, s, u, s, hc', hc, fun i => EntryClose.refl hv _ _, EntryClose.refl hv _ _⟩

/-- **C50**, the case that fails: a hyperplane through the origin and a negative factor.  (With a relative tolerance below 2) the two are equal only if
every entry of the unit normal is within half of the absolute tolerance. -/
theorem C50_neg_iff {h : HypObj} {t : Tols} {k : ℝ} (hh : h.tols.ok) (ht : t.ok) (hn : ∃ i, h.nrm i ≠ 0) (hk : k < 0)
    (hN : ¬ Negligible h) (hN' : ¬ Negligible (scaled k h t)) (hs : h.shift = 0) (hR : min t.relTol h.relTol < 2) :
    ∃ v, eqOp lk fmt hypClass (scaled k h t) h = .ok v ∧ (v = true ↔ ∀ i, 2 * |h.nrm i| ≤ min t.absTol h.absTol * Real.sqrt (∑ i, h.nrm i ^ 2)) := by
  change ∃ v, eqOp lk fmt hypClass (scaled k h t) h = .ok v ∧ (v = true ↔ ∀ i, 2 * |h.nrm i| ≤ min t.absTol h.absTol * norm2 h.nrm)
  have hn' : ∃ i, (scaled k h t).nrm i ≠ 0 := by
    obtain ⟨i, hi⟩ := hn
    exact ⟨i, mul_ne_zero hk.ne hi⟩
  obtain ⟨v, h1, h2⟩ := C50_verdict (lk := lk) (fmt := fmt) (h := scaled k h t) (g := h) ht hh hn' hn
  refine ⟨v, h1, h2.trans ?_⟩
  have hr := norm2_pos hn
  have hc : Canon h (fun i => h.nrm i / norm2 h.nrm) 0 := by
    refine ⟨?_, le_refl _, norm2 h.nrm, hr.ne', fun _ => hr, fun i => by field_simp, by simp [hs]⟩
    simp only [div_pow, ← Finset.sum_div, ← norm2_sq]
    exact div_self (pow_ne_zero _ hr.ne')
  have hc' : Canon (scaled k h t) (fun i => -(h.nrm i / norm2 h.nrm)) 0 := by
    refine ⟨?_, le_refl _, -(k * norm2 h.nrm), neg_ne_zero.2 (mul_ne_zero hk.ne hr.ne'),
      fun _ => by nlinarith, fun i => ?_, ?_⟩
    · have : ∑ i : Fin h.n, (-(h.nrm i / norm2 h.nrm)) ^ 2 = 1 := by simpa only [neg_sq] using hc.1
      exact this
    · have : ∀ i : Fin h.n, k * h.nrm i = -(k * norm2 h.nrm) * -(h.nrm i / norm2 h.nrm) := fun i => by field_simp
      exact this i
    · show k * h.shift = _
      simp [hs]
  set tA := min t.absTol h.absTol with htA
  have hA : 0 < tA := lt_min ht.1 hh.1
  have hent : ∀ x : ℝ, EntryClose (.fin tA) (some (.fin (min t.relTol h.relTol))) (.fin (-x) : XF ℝ) (.fin x) ↔ 2 * |x| ≤ tA := by
    intro x
    have e1 : |-x - x| = 2 * |x| := by rw [show -x - x = -(2 * x) by ring, abs_neg, abs_mul]; norm_num
    simp only [EntryClose, Within, Exceeds, e1, abs_neg, Option.some.injEq, exists_eq_left']
    constructor
    · rintro (h | ⟨h3, h4⟩)
      · exact h
      · exfalso
        have hx : 0 < |x| := by linarith
        rw [div_le_iff₀ (by linarith)] at h4
        nlinarith
    · exact Or.inl
  have hiff : ∀ i, 2 * |h.nrm i / norm2 h.nrm| ≤ tA ↔ 2 * |h.nrm i| ≤ tA * norm2 h.nrm := by
    intro i
    rw [abs_div, abs_of_pos hr, ← mul_div_assoc, div_le_iff₀ hr]
  constructor
  · rintro (⟨h3, -⟩ | ⟨-, -, e, u, s, v', t', k1, k2, k3, -⟩) i
    · exact absurd h3 hN'
    · obtain ⟨rfl, rfl⟩ := canon_unique hc' k1
      obtain ⟨rfl, rfl⟩ := canon_unique hc k2
      exact (hiff i).1 ((hent _).1 (k3 i))
  · intro hall
    refine .inr ⟨hN', hN, rfl, _, _, _, _, hc', hc, fun i => (hent _).2 ((hiff i).2 (hall i)), ?_⟩
    exact EntryClose.refl (show ValidTol (.fin tA : XF ℝ) from hA.le) _ _

/-- **C50 is violated** (sign).  `{x | x = 0}` given by the normals 1 and -1 is not equal to itself. -/
theorem C50_violation : ∃ (h : HypObj) (t : Tols) (k : ℝ), h.tols.ok ∧ t.ok ∧ (∃ i, h.nrm i ≠ 0) ∧ k ≠ 0 ∧
    ¬ Negligible h ∧ ¬ Negligible (scaled k h t) ∧ (scaled k h t).set = h.set ∧ eqOp lk fmt hypClass (scaled k h t) h = .ok false := by
  have hN : ∀ c : ℝ, 1 ≤ |c| → ∀ s, ¬ Negligible ⟨1, fun _ => c, s, 1 / 10, 1 / 100⟩ := by
    rintro c hc s ⟨-, h1, -⟩
    have : |c| ≤ 1 / 10 := h1 (0 : Fin 1)
    linarith
  let h : HypObj := ⟨1, fun _ => 1, 0, 1 / 10, 1 / 100⟩
  have hh : h.tols.ok := ⟨by show (0 : ℝ) < 1 / 10; norm_num, by show (0 : ℝ) < 1 / 100; norm_num⟩
  have hN1 : ¬ Negligible h := hN 1 (by norm_num) 0
  have hN2 : ¬ Negligible (scaled (-1) h h.tols) := hN (-1 * 1) (by norm_num) _
  have hn : ∃ i, h.nrm i ≠ 0 := ⟨(0 : Fin 1), one_ne_zero⟩
  refine ⟨h, h.tols, -1, hh, hh, hn, by norm_num, hN1, hN2, ?_, ?_⟩
  · have : ∀ x : Fin 1 → ℝ, ∑ i : Fin 1, -1 * 1 * x i = -1 * 0 ↔ ∑ i : Fin 1, 1 * x i = 0 := fun x => by simp
    exact Set.ext this
  · obtain ⟨v, h1, h2⟩ := C50_neg_iff (lk := lk) (fmt := fmt) (k := -1) hh hh hn (by norm_num) hN1 hN2 rfl
      (by show min (1 / 100 : ℝ) (1 / 100) < 2; norm_num)
    have : ¬ v = true := by
      rw [h2]
      intro h3
      have h4 : 2 * |(1 : ℝ)| ≤ min (1 / 10 : ℝ) (1 / 10) * norm2 (fun _ : Fin 1 => (1 : ℝ)) := h3 (0 : Fin 1)
      have h5 : norm2 (fun _ : Fin 1 => (1 : ℝ)) = 1 := by simp [norm2]
      rw [h5] at h4
      norm_num at h4
    rw [h1, Bool.eq_false_iff.2 this]

/-- **C50 is violated** (scale).  `{x | x = 1}` and `{x | x / 100 = 1 / 100}` are not equal: the second is taken for empty. -/
theorem C50_violation_scale : ∃ (h : HypObj) (t : Tols) (k : ℝ), h.tols.ok ∧ t.ok ∧ (∃ i, h.nrm i ≠ 0) ∧ k ≠ 0 ∧ 0 < h.shift ∧
    ¬ Negligible h ∧ (scaled k h t).set = h.set ∧ eqOp lk fmt hypClass (scaled k h t) h = .ok false := by
  let h : HypObj := ⟨1, fun _ => 1, 1, 1 / 10, 1 / 100⟩
  have hh : h.tols.ok := ⟨by show (0 : ℝ) < 1 / 10; norm_num, by show (0 : ℝ) < 1 / 100; norm_num⟩
  have hn : ∃ i, h.nrm i ≠ 0 := ⟨(0 : Fin 1), one_ne_zero⟩
  have hn' : ∃ i, (scaled (1 / 100) h h.tols).nrm i ≠ 0 := ⟨(0 : Fin 1), by show (1 / 100 : ℝ) * 1 ≠ 0; norm_num⟩
  have hN1 : ¬ Negligible h := by
    rintro ⟨-, h1, -⟩
    have : |(1 : ℝ)| ≤ 1 / 10 := h1 (0 : Fin 1)
    norm_num at this
  have hN2 : Negligible (scaled (1 / 100) h h.tols) := by
    refine ⟨rfl, fun i => ?_, ?_⟩
    · show |(1 / 100 : ℝ) * 1| ≤ 1 / 10; rw [abs_of_nonneg] <;> norm_num
    · show |(1 / 100 : ℝ) * 1| ≤ 1 / 10; rw [abs_of_nonneg] <;> norm_num
  refine ⟨h, h.tols, 1 / 100, hh, hh, hn, by norm_num, by show (0 : ℝ) < 1; norm_num, hN1, ?_, ?_⟩
  · have : ∀ x : Fin 1 → ℝ, ∑ i : Fin 1, 1 / 100 * 1 * x i = 1 / 100 * 1 ↔ ∑ i : Fin 1, 1 * x i = 1 := fun x => by simp
    exact Set.ext this
  · obtain ⟨v, h1, h2⟩ := C50_verdict (lk := lk) (fmt := fmt) (h := scaled (1 / 100) h h.tols) (g := h) hh hh hn' hn
    have : ¬ v = true := by
      rw [h2]
      rintro (⟨-, h3⟩ | ⟨h3, -⟩)
      · exact hN1 h3
      · exact h3 hN2
    rw [h1, Bool.eq_false_iff.2 this]

/-- A non-trivial case of `C50_partial`: a plane in three dimensions and a negative factor. -/
example : ∃ (h : HypObj) (t : Tols) (k : ℝ), h.tols.ok ∧ t.ok ∧ (∃ i, h.nrm i ≠ 0) ∧ k ≠ 0 ∧ ¬ Negligible h ∧
    ¬ Negligible (scaled k h t) ∧ (0 < k ∨ h.shift ≠ 0) ∧ k < 0 := by
  refine ⟨⟨3, ![1, 2, 3], 4, 1 / 10, 1 / 100⟩, ⟨1 / 10, 1 / 100⟩, -5, ⟨?_, ?_⟩, ⟨?_, ?_⟩, ⟨(0 : Fin 3), ?_⟩, ?_, ?_, ?_, .inr ?_, ?_⟩
  · show (0 : ℝ) < 1 / 10; norm_num
  · show (0 : ℝ) < 1 / 100; norm_num
  · norm_num
  · norm_num
  · show (1 : ℝ) ≠ 0; norm_num
  · norm_num
  · rintro ⟨h, -⟩; exact absurd h (by show ¬ 3 = 1; omega)
  · rintro ⟨h, -⟩; exact absurd h (by show ¬ 3 = 1; omega)
  · show (4 : ℝ) ≠ 0; norm_num
  · norm_num

/-! Dictionaries. -/

/-- **C61** (partial).  `from_dict(to_dict(h))` is a hyperplane of the same set (and the tolerances of the library), for a non-zero normal, unless the
hyperplane is negligible. -/
theorem C61_partial {dflt : Tols} (hd : dflt.ok) {h : HypObj} (hn : ∃ i, h.nrm i ≠ 0) (hN : ¬ Negligible h) :
    ∃ d g, toDictOne h = .ok d ∧ fromDictOne dflt d = .ok g ∧ ∃ e : g.n = h.n,
      (∀ x, x ∈ g.set ↔ (fun i => x (Fin.cast e.symm i)) ∈ h.set) ∧ g.tols = dflt := by
  obtain ⟨u, s, hc, h1⟩ := toDictOne_canon hn hN
  have h2 : fromDictOne dflt (.vals (List.ofFn fun i => .fin (u i)) (.fin s)) = .ok ⟨h.n, u, s, dflt.absTol, dflt.relTol⟩ := by
    have := hypNew_real u s hd
    have e : (⟨[(List.ofFn fun i => (XF.fin (u i) : XF ℝ)).length], (List.ofFn fun i => (XF.fin (u i) : XF ℝ)).map (fun x => ⟨x, .fin 0⟩), by simp⟩ : Arr CX)
        = encVec u := by
      simp [encVec, List.map_ofFn, Function.comp_def]
    simp only [fromDictOne, e, this]
  refine ⟨_, _, h1, h2, rfl, ?_, rfl⟩
  obtain ⟨c1, c2, r, c3, c4, c5, c6⟩ := hc
  intro x
  show ∑ i, u i * x i = s ↔ ∑ i, h.nrm i * x i = h.shift
  simp only [c5, c6, mul_assoc, ← Finset.mul_sum]
  exact (mul_right_inj' c3).symm

/-- **C61**, which hyperplanes cannot be restored: those with zero normals and the negligible ones (and those without coordinates). -/
theorem C61_raises_iff {dflt : Tols} (hd : dflt.ok) {h : HypObj} :
    Raises ((toDictOne h).bind (fromDictOne dflt)) ↔ (∀ i, h.nrm i = 0) ∨ Negligible h := by
  constructor
  · rintro ⟨e, he⟩
    by_contra hcon
    push Not at hcon
    obtain ⟨d, g, h1, h2, -⟩ := C61_partial hd hcon.1 hcon.2
    rw [h1] at he
    change fromDictOne dflt d = .error e at he
    rw [h2] at he; cases he
  · intro hor
    by_cases hn : h.n = 0
    · obtain ⟨e, he⟩ := toDictOne_raises.2 hn
      exact ⟨e, by rw [he]; rfl⟩
    by_cases hN : Negligible h
    · have h1 : fromDictOne dflt .empty = throwErr "wrongInput:shift" := by
        have e1 : setNormal (.arr ⟨[0], [], rfl⟩) = .ok [] := by
          rw [setNormal_real _ rfl (by simp), if_pos (by simp)]; rfl
        have e2 : setShift (.arr ⟨[0], [], rfl⟩) = throwErr "wrongInput:shift" := by
          have : tryTreatAsReal ⟨[0], [], rfl⟩ eps = .ok [] := by
            unfold tryTreatAsReal; rw [if_neg (not_not.2 eps_pos), if_pos (by simp)]; rfl
          simp only [setShift, this]
        unfold fromDictOne hypNew
        rw [if_neg (not_not.2 hd), e1]
        simp only [e2]; rfl
      rw [toDictOne_negligible hN]
      exact ⟨_, h1⟩
    · have h0 : ∀ i, h.nrm i = 0 := hor.resolve_right hN
      obtain ⟨k, hk⟩ := Nat.exists_eq_succ_of_ne_zero hn
      have h1 : toDictOne h = .ok (.vals (List.replicate h.n .nan) (if h.shift = 0 then .nan else .pinf)) := by
        simp only [toDictOne, (singDimension_ok hn).2 hN, hk, if_pos (norm2_eq_zero.2 h0)]
      rw [h1]
      have h2 : ∀ s : XF ℝ, fromDictOne dflt (.vals (List.replicate h.n .nan) s) = throwErr "wrongInput:normal_vec" := by
        intro s
        have e1 : setNormal (.arr ⟨[(List.replicate h.n (XF.nan : XF ℝ)).length], (List.replicate h.n (XF.nan : XF ℝ)).map (fun x => ⟨x, .fin 0⟩),
            by simp⟩) = throwErr "wrongInput:normal_vec" := by
          rw [setNormal_real _ (by simp) (by simp), if_neg]
          intro hall
          have := hall ⟨.nan, .fin 0⟩ (by simp [hn])
          cases this
        simp only [fromDictOne, hypNew]
        rw [if_neg (not_not.2 hd), e1]
        rfl
      exact ⟨_, h2 _⟩

/-- **C61 is violated**: `{x | x / 100 = 1 / 100}` with an absolute tolerance of 1 / 10 cannot be restored. -/
theorem C61_violation : ∃ (dflt : Tols) (h : HypObj), dflt.ok ∧ h.tols.ok ∧ (∃ i, h.nrm i ≠ 0) ∧ h.set.Nonempty ∧
    Raises ((toDictOne h).bind (fromDictOne dflt)) := by
  have hd : Tols.ok ⟨1 / 10, 1 / 100⟩ := ⟨by norm_num, by norm_num⟩
  refine ⟨⟨1 / 10, 1 / 100⟩, ⟨1, fun _ => 1 / 100, 1 / 100, 1 / 10, 1 / 100⟩, hd, hd, ⟨(0 : Fin 1), by norm_num⟩,
    ⟨fun _ => 1, ?_⟩, (C61_raises_iff hd).2 (.inr ⟨rfl, fun i => ?_, ?_⟩)⟩
  · show ∑ i : Fin 1, (1 / 100 : ℝ) * 1 = 1 / 100
    simp
  · show |(1 / 100 : ℝ)| ≤ 1 / 10; rw [abs_of_nonneg] <;> norm_num
  · show |(1 / 100 : ℝ)| ≤ 1 / 10; rw [abs_of_nonneg] <;> norm_num

end Ellipy.Hyp
