import Verif.Model.Operators
import Verif.Props.IsEqual
import Verif.Props.HyperplaneEq

/-! Property theorem C103: the operators. -/

namespace Ellipy.Ell
open Matrix Ellipy.LA Ellipy.Op

variable {lk : List (PyVal ℝ) → Kind} {fmt : Fmt ℝ}

private theorem closeRefl {t : ℝ} (h : 0 ≤ t) (r : Option (XF ℝ)) (x : XF ℝ) : EntryClose (.fin t) r x x :=
  EntryClose.refl (show ValidTol (.fin t : XF ℝ) from h) r x

/-- `!=` is the opposite of `==`. -/
def Opposite {α : Type} (ne eq : α → α → Py Bool) : Prop := ∀ x y b, eq x y = .ok b → ne x y = .ok (!b)

/-- **C103** is violated: `!=` raises for all operands, so it is not the opposite of `==`, neither for ellipsoids … -/
theorem C103_violation_ell (E : Eigh) : ¬ Opposite neOp (eqOp lk fmt (ellClass E)) ∧
    ∀ x y : EllObj, neOp x y = .error .typeError := by
  refine ⟨fun h => ?_, fun _ _ => rfl⟩
  have h1 := h disc disc true (C48_refl E disc_valid)
  have h2 : neOp disc disc = .error .typeError := rfl
  rw [h2] at h1
  cases h1

/-- … nor for hyperplanes; and the orders, sums, differences and products with a matrix raise for all operands. -/
theorem C103_violation_hyp : (¬ Opposite neOp (eqOp lk fmt Hyp.hypClass) ∧ ∀ x y : Hyp.HypObj, neOp x y = .error .typeError) ∧
    (∀ x y : EllObj, orderOp x y = .error .attributeError) ∧
    ∀ (β : Type) (x : EllObj) (b : β), arithOp x b = .error .attributeError := by
  refine ⟨⟨fun h => ?_, fun _ _ => rfl⟩, fun _ _ => rfl, fun _ _ _ => rfl⟩
  let g : Hyp.HypObj := ⟨2, ![3, 4], 5, 1, 1⟩
  have h1 := h g g true (Hyp.C50_refl (h := g) ⟨by show (0 : ℝ) < 1; norm_num, by show (0 : ℝ) < 1; norm_num⟩ (by show 2 ≠ 0; norm_num))
  have h2 : neOp g g = .error .typeError := rfl
  rw [h2] at h1
  cases h1

theorem negEll_ok (E : Eigh) {h : Heap} (hi : Inv h) {o : ℕ} {e : EllObj} (hv : val h o = some e)
    (he : ValidObj (negVal h.dflt e)) :
    ∃ h', negEll E h o = (.ok h.objs.length, h') ∧ Inv h' ∧ Keeps ∅ h h' ∧ h'.dflt = h.dflt ∧
      val h' h.objs.length = some (negVal h.dflt e) := by
  obtain ⟨h', hm, hi', hk, -, hd, hvals⟩ := mapAlloc_ok (uminusOne_ok E) [o] h hi (by
    intro q hq
    have : q = o := by simpa using hq
    subst this
    exact ⟨e, hv, he⟩)
  obtain ⟨e', h1, h2⟩ := hvals 0 (by simp)
  have h1' : val h o = some e' := by simpa using h1
  rw [hv] at h1'
  injection h1' with h1'
  subst h1'
  refine ⟨h', ?_, hi', hk, hd, by simpa using h2⟩
  simp only [negEll, uminus, Arr.vec, hm, mkArr_data, List.length_singleton]
  rfl

/-- **C103** (what holds).  `-e` is a new object with the reflected centre and the same shape matrix, `e` itself is unchanged, and `-(-e) == e`
(and `e == -(-e)`), although the tolerances of `-(-e)` are the current settings and not those of `e`. -/
theorem C103_neg_partial (E : Eigh) {h : Heap} (hr : Reachable E h) {o : ℕ} {e : EllObj} (hv : val h o = some e)
    (hQ : IsPSD e.Q) (hd : h.dflt.ok) :
    ∃ (o1 : ℕ) (h1 : Heap) (o2 : ℕ) (h2 : Heap) (c1 : Fin e.n → ℝ) (Q1 : Matrix (Fin e.n) (Fin e.n) ℝ) (e2 : EllObj), negEll E h o = (.ok o1, h1) ∧ negEll E h1 o1 = (.ok o2, h2) ∧ o ≠ o1 ∧ o1 ≠ o2 ∧ o ≠ o2 ∧
      val h2 o = some e ∧ val h2 o1 = some ⟨e.n, c1, Q1, h.dflt.absTol, h.dflt.relTol, h.dflt.n2d, h.dflt.n3d⟩ ∧ val h2 o2 = some e2 ∧
      Ell c1 Q1 = (fun x => -x) '' (Ell e.c e.Q) ∧
      eqOp lk fmt (ellClass E) e2 e = .ok true ∧ eqOp lk fmt (ellClass E) e e2 = .ok true := by
  have hi := hr.inv
  have hval : ValidObj e := by
    obtain ⟨e', h1, h2⟩ := hi.valid o (val_lt hv)
    rw [hv] at h1
    injection h1 with h1
    exact h1 ▸ h2
  obtain ⟨h1, hn1, hi1, hk1, hd1, hv1⟩ := negEll_ok E hi hv (valid_of_psd (-e.c) hQ hd)
  obtain ⟨h2, hn2, hi2, hk2, hd2, hv2⟩ := negEll_ok E hi1 hv1 (by rw [hd1]; exact valid_of_psd (- -e.c) hQ hd)
  have hlt : o < h.objs.length := val_lt hv
  have hlt1 : h.objs.length < h1.objs.length := val_lt hv1
  obtain ⟨v, hv3, hv4⟩ := C48_scalar (lk := lk) (fmt := fmt) E (e := negVal h1.dflt (negVal h.dflt e)) (f := e) (by rw [hd1]; exact hd)
    hval.props hQ hQ
  obtain ⟨S, hS, hSS⟩ := exists_root hQ
  have hm : 0 ≤ min (negVal h1.dflt (negVal h.dflt e)).absTol e.absTol := by
    refine le_min ?_ hval.props.1.le
    rw [hd1]; exact hd.1.le
  have hcl : v = true := hv4.2 ⟨rfl, fun i => by
      show EntryClose _ _ (.fin ((- -e.c) i)) (.fin (e.c i))
      rw [neg_neg]
      exact closeRefl hm _ _, S, S, hS, hSS, hS, hSS, fun i j => closeRefl hm _ _⟩
  subst hcl
  refine ⟨_, h1, _, h2, -e.c, e.Q, _, hn1, hn2, by omega, by omega, by omega, ?_, ?_, hv2, ell_neg e.c hQ, hv3, ?_⟩
  · rw [hk2.2 o (by omega) (Set.notMem_empty _), hk1.2 o hlt (Set.notMem_empty _), hv]
  · rw [hk2.2 _ hlt1 (Set.notMem_empty _), hv1]; rfl
  · have := C48_symm (lk := lk) (fmt := fmt) E e (negVal h1.dflt (negVal h.dflt e))
    rw [hv3] at this
    cases h3 : eqOp lk fmt (ellClass E) e (negVal h1.dflt (negVal h.dflt e)) with
    | error x => rw [h3] at this; cases this
    | ok b =>
      rw [h3] at this
      injection this with this
      rw [this]

/-- A hyperplane in at least two dimensions: `-h` has the opposite normal and shift and the tolerances of the settings, it is the same plane, and
`-(-h) == h`, whatever the tolerances. -/
theorem C103_neg_hyp_partial {dflt : Hyp.Tols} (hd : dflt.ok) {h : Hyp.HypObj} (hh : h.tols.ok) (hn : ∃ i, h.nrm i ≠ 0) (h2 : 2 ≤ h.n) :
    ∃ g g', negHyp dflt h = .ok g ∧ negHyp dflt g = .ok g' ∧
      g = ⟨h.n, fun i => -h.nrm i, -h.shift, dflt.absTol, dflt.relTol⟩ ∧
      (∃ e : g.n = h.n, ∀ x : Fin h.n → ℝ, (∑ i, g.nrm i * x (Fin.cast e i) = g.shift ↔ ∑ i, h.nrm i * x i = h.shift)) ∧
      eqOp lk fmt Hyp.hypClass g' h = .ok true ∧ eqOp lk fmt Hyp.hypClass h g' = .ok true := by
  have key : ∀ k : Hyp.HypObj, negHyp dflt k = .ok ⟨k.n, -k.nrm, -k.shift, dflt.absTol, dflt.relTol⟩ := by
    intro k
    obtain ⟨r, hr, -, hrd⟩ := Hyp.uminus_ok hd (Arr.vec [k])
    simp only [negHyp, hr, hrd]
    rfl
  refine ⟨_, _, key h, key _, rfl, ⟨rfl, fun x => ?_⟩, ?_⟩
  · show ∑ i, -h.nrm i * x i = -h.shift ↔ _
    simp only [neg_mul, Finset.sum_neg_distrib, neg_inj]
  · simp only [neg_neg]
    obtain ⟨u, s, hc⟩ := Hyp.canon_exists hn (fun hN => by have := hN.1; omega)
    have hno : ∀ k : Hyp.HypObj, k.n = h.n → ¬ Hyp.Negligible k := fun k hk hN => by have := hN.1; omega
    constructor
    · obtain ⟨v, h1, h3⟩ := Hyp.C50_verdict (lk := lk) (fmt := fmt) (h := ⟨h.n, h.nrm, h.shift, dflt.absTol, dflt.relTol⟩) (g := h) hd hh hn hn
      rw [h1, h3.2 (Or.inr ⟨hno _ rfl, hno _ rfl, rfl, u, s, u, s, hc, hc, fun i => closeRefl (le_min hd.1.le hh.1.le) _ _,
        closeRefl (le_min hd.1.le hh.1.le) _ _⟩)]
    · obtain ⟨v, h1, h3⟩ := Hyp.C50_verdict (lk := lk) (fmt := fmt) (h := h) (g := ⟨h.n, h.nrm, h.shift, dflt.absTol, dflt.relTol⟩) hh hd hn hn
      rw [h1, h3.2 (Or.inr ⟨hno _ rfl, hno _ rfl, rfl, u, s, u, s, hc, hc, fun i => closeRefl (le_min hh.1.le hd.1.le) _ _,
        closeRefl (le_min hh.1.le hd.1.le) _ _⟩)]

/-- In one dimension `-(-h) == h` can fail: a hyperplane below the default tolerance but above its own. -/
theorem C103_violation_neg : ∃ (dflt : Hyp.Tols) (h g g' : Hyp.HypObj), dflt.ok ∧ h.tols.ok ∧ (∃ i, h.nrm i ≠ 0) ∧
    negHyp dflt h = .ok g ∧ negHyp dflt g = .ok g' ∧ eqOp lk fmt Hyp.hypClass g' h = .ok false := by
  have hd : (⟨1, 1⟩ : Hyp.Tols).ok := ⟨by norm_num, by norm_num⟩
  have key : ∀ k : Hyp.HypObj, negHyp ⟨1, 1⟩ k = .ok ⟨k.n, -k.nrm, -k.shift, 1, 1⟩ := by
    intro k
    obtain ⟨r, hr, -, hrd⟩ := Hyp.uminus_ok hd (Arr.vec [k])
    simp only [negHyp, hr, hrd]
    rfl
  let h : Hyp.HypObj := ⟨1, fun _ => 1 / 2, 1, 1 / 10, 1⟩
  have ht : h.tols.ok := ⟨by show (0 : ℝ) < 1 / 10; norm_num, by show (0 : ℝ) < 1; norm_num⟩
  have hn : ∃ i, h.nrm i ≠ 0 := ⟨0, by show (1 / 2 : ℝ) ≠ 0; norm_num⟩
  refine ⟨⟨1, 1⟩, h, _, _, hd, ht, hn, key h, key _, ?_⟩
  simp only [neg_neg]
  obtain ⟨v, h1, h3⟩ := Hyp.C50_verdict (lk := lk) (fmt := fmt) (h := ⟨h.n, h.nrm, h.shift, 1, 1⟩) (g := h) hd ht hn hn
  rw [h1]
  cases v with
  | false => rfl
  | true =>
    exfalso
    have hN : Hyp.Negligible ⟨h.n, h.nrm, h.shift, 1, 1⟩ := ⟨rfl, fun i => by show |(1 / 2 : ℝ)| ≤ 1; norm_num [abs_of_pos],
      by show |(1 : ℝ)| ≤ 1; norm_num⟩
    have hN' : ¬ Hyp.Negligible h := by
      rintro ⟨-, h4, -⟩
      have h5 : |(1 / 2 : ℝ)| ≤ 1 / 10 := h4 0
      norm_num [abs_of_pos] at h5
    rcases h3.1 rfl with ⟨-, h4⟩ | ⟨h4, -⟩
    · exact hN' h4
    · exact h4 hN

/-- The unit disc, with a tolerance of its own. -/
example (E : Eigh) : ∃ h, Reachable E h ∧ val h 0 = some disc ∧ IsPSD disc.Q ∧ h.dflt.ok := by
  obtain ⟨h, hr, -, -, hv, hd⟩ := reach_obj E _ (reach_empty E (exProps 1)) disc disc_valid
  have hd : h.dflt = exProps 1 := hd
  exact ⟨h, hr, hv, psd_one, hd ▸ exProps_ok one_pos⟩

end Ellipy.Ell
