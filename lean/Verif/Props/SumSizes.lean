import Verif.Proofs.MinksumEq
import Verif.Proofs.Support
import Verif.Proofs.TranslOpt
import Verif.Props.Minksum
import Verif.Props.Monotone

/-! Property theorems C122: the sizes of the approximations of a sum against the sizes of the summands. -/

namespace Ellipy.Ell
open Matrix Ellipy.LA

/-! ### Helpers -/

/-- What `min_eig`, `max_eig` and `trace` return for a list of ellipsoids of one dimension. -/
private theorem sizes_eq (E : Eigh) {n : ℕ} (hn : n ≠ 0) (es : List (EllN n)) (hes : ∀ e ∈ es, e.PSD) (arg : ObjArg EllObj) (a : Arr EllObj)
    (ha : arg.Is a) (hd : a.data = es.map EllN.obj) :
    ∃ lo hi, minEig E arg = .ok lo ∧ maxEig E arg = .ok hi ∧ trace arg = .ok (es.map fun e => ∑ i, e.Q i i) ∧
      List.Forall₂ (fun (e : EllN n) r => IsLeast (formValues e.Q) r) es lo ∧
      List.Forall₂ (fun (e : EllN n) r => IsGreatest (formValues e.Q) r) es hi := by
  have hne' : ∀ x ∈ a.data, x.n ≠ 0 := by
    intro x hx
    rw [hd] at hx
    obtain ⟨e, -, rfl⟩ := List.mem_map.1 hx
    exact hn
  obtain ⟨⟨lo, h1, h2⟩, hi, h3, h4⟩ := C81_form E arg a ha hne'
  rw [hd, List.forall₂_map_left_iff] at h2 h4
  refine ⟨lo, hi, h1, h3, ?_, ?_, ?_⟩
  · unfold trace
    rw [(C80_ok_iff _ _ _ _).mpr ha]
    simp only
    rw [if_neg (fun ⟨x, hx, h0⟩ => hne' x hx h0), hd, List.map_map]
    rfl
  · clear h4 h1 h3 hd ha hne'
    induction h2 with
    | nil => exact .nil
    | @cons e r es rs h _ ih =>
      refine .cons ?_ (ih fun e he => hes e (by simp [he]))
      have h' : IsLeast (formValues (lowerSym e.Q)) r := h
      rwa [lowerSym_of_symm (hes e (by simp)).2.1] at h'
  · clear h2 h1 h3 hd ha hne'
    induction h4 with
    | nil => exact .nil
    | @cons e r es rs h _ ih =>
      refine .cons ?_ (ih fun e he => hes e (by simp [he]))
      have h' : IsGreatest (formValues (lowerSym e.Q)) r := h
      rwa [lowerSym_of_symm (hes e (by simp)).2.1] at h'

private theorem sum_le_of {as bs : List ℝ} (h : List.Forall₂ (· ≤ ·) as bs) : as.sum ≤ bs.sum := by
  induction h with
  | nil => exact le_rfl
  | cons h _ ih => simp only [List.sum_cons]; linarith

/-- Replacing one term of the smaller sum. -/
private theorem sum_swap_le {as bs : List ℝ} (h : List.Forall₂ (· ≤ ·) as bs) (i : ℕ) (hi : i < as.length) :
    as.sum - as.getD i 0 + bs.getD i 0 ≤ bs.sum := by
  induction h generalizing i with
  | nil => simp at hi
  | @cons a b as bs h hs ih =>
    have := sum_le_of hs
    cases i with
    | zero => simp only [List.sum_cons, List.getD_cons_zero]; linarith
    | succ i =>
      have := ih i (by simpa using hi)
      simp only [List.sum_cons, List.getD_cons_succ]
      linarith

/-- Replacing one term of the larger sum. -/
private theorem le_sum_swap {as bs : List ℝ} (h : List.Forall₂ (· ≤ ·) as bs) (i : ℕ) (hi : i < as.length) :
    as.sum ≤ bs.sum - bs.getD i 0 + as.getD i 0 := by
  induction h generalizing i with
  | nil => simp at hi
  | @cons a b as bs h hs ih =>
    have := sum_le_of hs
    cases i with
    | zero => simp only [List.sum_cons, List.getD_cons_zero]; linarith
    | succ i =>
      have := ih i (by simpa using hi)
      simp only [List.sum_cons, List.getD_cons_succ]
      linarith

private theorem getD_map_sqrt (l : List ℝ) (i : ℕ) : (l.map Real.sqrt).getD i 0 = Real.sqrt (l.getD i 0) := by
  induction l generalizing i with
  | nil => simp
  | cons a l ih => cases i with
    | zero => rfl
    | succ i => exact ih i

private theorem lo_le {n : ℕ} {es : List (EllN n)} {lo : List ℝ} (h : List.Forall₂ (fun (e : EllN n) r => IsLeast (formValues e.Q) r) es lo)
    {x : Fin n → ℝ} (hx : x ⬝ᵥ x = 1) :
    List.Forall₂ (· ≤ ·) (lo.map Real.sqrt) (es.map fun e => Real.sqrt (x ⬝ᵥ e.Q *ᵥ x)) := by
  induction h with
  | nil => exact .nil
  | cons h _ ih => exact .cons (Real.sqrt_le_sqrt (h.2 ⟨x, hx, rfl⟩)) ih

private theorem le_hi {n : ℕ} {es : List (EllN n)} {hi : List ℝ} (h : List.Forall₂ (fun (e : EllN n) r => IsGreatest (formValues e.Q) r) es hi)
    {x : Fin n → ℝ} (hx : x ⬝ᵥ x = 1) :
    List.Forall₂ (· ≤ ·) (es.map fun e => Real.sqrt (x ⬝ᵥ e.Q *ᵥ x)) (hi.map Real.sqrt) := by
  induction h with
  | nil => exact .nil
  | cons h _ ih => exact .cons (Real.sqrt_le_sqrt (h.2 ⟨x, hx, rfl⟩)) ih

private theorem support_le {n : ℕ} {X Y : Set (Fin n → ℝ)} {l : Fin n → ℝ} {r s : ℝ} (hX : IsSupport X l r) (hY : IsSupport Y l s)
    (h : X ⊆ Y) : r ≤ s := by
  obtain ⟨x, hx, rfl⟩ := hX.1
  exact hY.2 ⟨x, h hx, rfl⟩

/-- The half widths of a set between the sum and the ellipsoid. -/
private theorem width_ea {n : ℕ} {es : List (EllN n)} (hes : ∀ e ∈ es, e.PSD) {Q : Matrix (Fin n) (Fin n) ℝ} (hQ : IsPSD Q)
    (h : minkSum (es.map EllN.set) ⊆ Ell (es.map EllN.c).sum Q) (x : Fin n → ℝ) :
    (es.map fun e => Real.sqrt (x ⬝ᵥ e.Q *ᵥ x)).sum ≤ Real.sqrt (x ⬝ᵥ Q *ᵥ x) := by
  have := support_le (minkSum_support x es fun e he => (hes e he).2) (ell_support hQ x) h
  linarith

private theorem width_ia {n : ℕ} {es : List (EllN n)} (hes : ∀ e ∈ es, e.PSD) {Q : Matrix (Fin n) (Fin n) ℝ} (hQ : IsPSD Q)
    (h : Ell (es.map EllN.c).sum Q ⊆ minkSum (es.map EllN.set)) (x : Fin n → ℝ) :
    Real.sqrt (x ⬝ᵥ Q *ᵥ x) ≤ (es.map fun e => Real.sqrt (x ⬝ᵥ e.Q *ᵥ x)).sum := by
  have := support_le (ell_support hQ x) (minkSum_support x es fun e he => (hes e he).2) h
  linarith

/-- The triangle inequality. -/
private theorem len_add {n : ℕ} (x y : Fin n → ℝ) : Real.sqrt ((x + y) ⬝ᵥ (x + y)) ≤ Real.sqrt (x ⬝ᵥ x) + Real.sqrt (y ⬝ᵥ y) := by
  have hx : 0 ≤ x ⬝ᵥ x := Finset.sum_nonneg fun i _ => mul_self_nonneg _
  have hy : 0 ≤ y ⬝ᵥ y := Finset.sum_nonneg fun i _ => mul_self_nonneg _
  refine Real.sqrt_le_iff.2 ⟨by positivity, ?_⟩
  rw [add_dotProduct, dotProduct_add, dotProduct_add, add_sq, Real.sq_sqrt hx, Real.sq_sqrt hy, dotProduct_comm y x]
  have h1 : x ⬝ᵥ y ≤ Real.sqrt (x ⬝ᵥ x) * Real.sqrt (y ⬝ᵥ y) := by
    rw [← Real.sqrt_mul hx]
    exact Real.le_sqrt_of_sq_le (dot_sq_le_mul x y)
  linarith

private theorem len_sum {n : ℕ} (xs : List (Fin n → ℝ)) : Real.sqrt (xs.sum ⬝ᵥ xs.sum) ≤ (xs.map fun x => Real.sqrt (x ⬝ᵥ x)).sum := by
  induction xs with
  | nil => simp
  | cons x xs ih =>
    rw [List.sum_cons, List.map_cons, List.sum_cons]
    exact (len_add _ _).trans (by linarith)

private theorem diag_nonneg {n : ℕ} {Q : Matrix (Fin n) (Fin n) ℝ} (hQ : IsPSD Q) (i : Fin n) : 0 ≤ Q i i := by
  have := hQ.2 (Pi.single i 1)
  simpa using this

/-- The inequality of Cauchy and Schwarz for the traces. -/
private theorem trace_ea {n : ℕ} (es : List (EllN n)) (hes : ∀ e ∈ es, e.NonDeg) {v : Fin n → ℝ} (hv : v ≠ 0) :
    ((es.map fun e => Real.sqrt (∑ i, e.Q i i)).sum) ^ 2 ≤ ∑ i, eaShape es v i i := by
  have key : ((es.map fun e => Real.sqrt (∑ i, e.Q i i)).sum) ^ 2 ≤ (es.map fun e => Real.sqrt (v ⬝ᵥ e.Q *ᵥ v)).sum *
      (es.map fun e => 1 / Real.sqrt (v ⬝ᵥ e.Q *ᵥ v) * ∑ i, e.Q i i).sum ∧
      0 ≤ (es.map fun e => 1 / Real.sqrt (v ⬝ᵥ e.Q *ᵥ v) * ∑ i, e.Q i i).sum := by
    induction es with
    | nil => simp
    | cons e es ih =>
      obtain ⟨ih1, ih2⟩ := ih fun e he => hes e (by simp [he])
      have hp := Real.sqrt_pos.2 ((hes e (by simp)).pos hv)
      have ht : 0 ≤ ∑ i, e.Q i i := Finset.sum_nonneg fun i _ => diag_nonneg (hes e (by simp)).psd.2 i
      simp only [List.map_cons, List.sum_cons]
      refine ⟨cauchy_step hp (list_sum_pos es _ fun _ _ => Real.sqrt_nonneg _) ih2 (Real.sq_sqrt ht).le ih1, by positivity⟩
  refine key.1.trans_eq ?_
  have htr : ∀ l : List (EllN n), ∑ i, ((l.map fun e : EllN n => (1 / Real.sqrt (v ⬝ᵥ e.Q *ᵥ v)) • e.Q).sum) i i =
      (l.map fun e => 1 / Real.sqrt (v ⬝ᵥ e.Q *ᵥ v) * ∑ i, e.Q i i).sum := by
    intro l
    induction l with
    | nil => simp
    | cons e l ih =>
      simp only [List.map_cons, List.sum_cons, Matrix.add_apply, Matrix.smul_apply, smul_eq_mul, Finset.sum_add_distrib, ← Finset.mul_sum, ih]
  unfold eaShape
  simp only [Matrix.smul_apply, smul_eq_mul, ← Finset.mul_sum, htr]

/-! ### Property theorems -/

/-- **C122**, `minksum_ea`: with `lo`, `hi`, `tr` the numbers that `min_eig`, `max_eig` and `trace` return for the summands, every
returned ellipsoid has `√min_eig ≥ Σ √lo`, `√max_eig ≥ √hi i + Σ_{k ≠ i} √lo k` for every summand, and `√trace ≥ Σ √tr`. -/
theorem C122_ea (E : Eigh) (G : Eig) (L : Lstsq) (p : PropVals) (hp : p.ok) {n k : ℕ} (hn : n ≠ 0) (es : List (EllN n)) (h2 : 2 ≤ es.length)
    (hes : ∀ e ∈ es, e.NonDeg) (M : Matrix (Fin n) (Fin k) ℝ) (hM : ∀ j, (fun i => M i j) ≠ 0) (arg : ObjArg EllObj) (a : Arr EllObj)
    (ha : arg.Is a) (hd : a.data = es.map EllN.obj) :
    ∃ rs, minksumEa E G L p (es.map EllN.obj) M = .ok (Arr.vec rs) ∧ rs.length = k ∧ ∀ arg' : ObjArg EllObj, arg'.Is (Arr.vec rs) →
      ∃ lo hi tr lo' hi' tr', minEig E arg = .ok lo ∧ maxEig E arg = .ok hi ∧ trace arg = .ok tr ∧
        minEig E arg' = .ok lo' ∧ maxEig E arg' = .ok hi' ∧ trace arg' = .ok tr' ∧
        lo'.length = k ∧ hi'.length = k ∧ tr'.length = k ∧
        (∀ r ∈ lo', (lo.map Real.sqrt).sum ≤ Real.sqrt r) ∧
        (∀ r ∈ hi', ∀ i < es.length, (lo.map Real.sqrt).sum - Real.sqrt (lo.getD i 0) + Real.sqrt (hi.getD i 0) ≤ Real.sqrt r) ∧
        ∀ r ∈ tr', (tr.map Real.sqrt).sum ≤ Real.sqrt r := by
  have hpsd : ∀ e ∈ es, e.PSD := fun e he => (hes e he).psd
  obtain ⟨Qs, heq, hQ⟩ := C43 E G L p hp hn es h2 hes M hM
  have heq' := minksumEa_eq E G L p hp hn es h2 hes M hM
  have hQs : ∀ j, Qs j = eaShape es fun i => M i j := by
    intro j
    rw [heq] at heq'
    injection heq' with h
    have h := congrArg Arr.data h
    have h := List.ofFn_injective h
    have h := congrFun h j
    simp only [EllObj.mk.injEq, heq_eq_eq, true_and, and_true] at h
    exact h
  set fs : Fin k → EllN n := fun j => ⟨(es.map EllN.c).sum, Qs j, p⟩ with hfs
  refine ⟨_, heq, by simp, fun arg' ha' => ?_⟩
  obtain ⟨lo, hi, e1, e2, e3, h3, h4⟩ := sizes_eq E hn es hpsd arg a ha hd
  obtain ⟨lo', hi', f1, f2, f3, g3, g4⟩ := sizes_eq E hn (List.ofFn fs) (by
    intro e he
    obtain ⟨j, rfl⟩ := (List.mem_ofFn' _ _).1 he
    exact ⟨hp, (hQ j).1⟩) arg' _ ha' (by rw [List.map_ofFn]; rfl)
  have hlen : (List.ofFn fs).length = k := by simp
  refine ⟨lo, hi, _, lo', hi', _, e1, e2, e3, f1, f2, f3, by rw [← g3.length_eq, hlen], by rw [← g4.length_eq, hlen],
    by rw [List.length_map, hlen], fun r hr => ?_, fun r hr i hi' => ?_, fun r hr => ?_⟩
  · obtain ⟨e, he, hl⟩ := forall₂_right g3 r hr
    obtain ⟨j, rfl⟩ := (List.mem_ofFn' _ _).1 he
    obtain ⟨x, hx, rfl⟩ := hl.1
    exact (sum_le_of (lo_le h3 hx)).trans (width_ea hpsd (hQ j).1 (hQ j).2.1 x)
  · obtain ⟨e, he, hl⟩ := forall₂_right g4 r hr
    obtain ⟨j, rfl⟩ := (List.mem_ofFn' _ _).1 he
    have hih : i < hi.length := by rw [← h4.length_eq]; exact hi'
    have h4i := (List.forall₂_iff_get.1 h4).2 i hi' hih
    obtain ⟨x, hx, hxe⟩ := h4i.1
    have hs := sum_swap_le (lo_le h3 hx) i (by rw [List.length_map, ← h3.length_eq]; exact hi')
    rw [getD_map_sqrt] at hs
    have hg : Real.sqrt (hi.getD i 0) = (es.map fun e => Real.sqrt (x ⬝ᵥ e.Q *ᵥ x)).getD i 0 := by
      rw [List.getD_eq_getElem?_getD, List.getD_eq_getElem?_getD, List.getElem?_eq_getElem hih, List.getElem?_map, List.getElem?_eq_getElem hi']
      exact congrArg Real.sqrt hxe
    rw [hg]
    exact hs.trans ((width_ea hpsd (hQ j).1 (hQ j).2.1 x).trans (Real.sqrt_le_sqrt (hl.2 ⟨x, hx, rfl⟩)))
  · obtain ⟨e, he, rfl⟩ := List.mem_map.1 hr
    obtain ⟨j, rfl⟩ := (List.mem_ofFn' _ _).1 he
    refine Real.le_sqrt_of_sq_le ?_
    show _ ≤ ∑ i, Qs j i i
    rw [hQs j, List.map_map]
    exact trace_ea es hes (hM j)

/-- **C122**, `minksum_ia`: with the same numbers of the summands, every returned ellipsoid has `√max_eig ≤ Σ √hi`,
`√min_eig ≤ √lo i + Σ_{k ≠ i} √hi k` for every summand, and `√trace ≤ Σ √tr`. -/
theorem C122_ia (E : Eigh) (G : Eig) (p : PropVals) (hp : p.ok) {n k : ℕ} (hn : n ≠ 0) (es : List (EllN n)) (h2 : 2 ≤ es.length)
    (hes : ∀ e ∈ es, e.NonDeg) (M : Matrix (Fin n) (Fin k) ℝ) (hM : ∀ j, (fun i => M i j) ≠ 0) (arg : ObjArg EllObj) (a : Arr EllObj)
    (ha : arg.Is a) (hd : a.data = es.map EllN.obj) :
    ∃ rs, minksumIa E G p (es.map EllN.obj) M = .ok (Arr.vec rs) ∧ rs.length = k ∧ ∀ arg' : ObjArg EllObj, arg'.Is (Arr.vec rs) →
      ∃ lo hi tr lo' hi' tr', minEig E arg = .ok lo ∧ maxEig E arg = .ok hi ∧ trace arg = .ok tr ∧
        minEig E arg' = .ok lo' ∧ maxEig E arg' = .ok hi' ∧ trace arg' = .ok tr' ∧
        lo'.length = k ∧ hi'.length = k ∧ tr'.length = k ∧
        (∀ r ∈ hi', Real.sqrt r ≤ (hi.map Real.sqrt).sum) ∧
        (∀ r ∈ lo', ∀ i < es.length, Real.sqrt r ≤ (hi.map Real.sqrt).sum - Real.sqrt (hi.getD i 0) + Real.sqrt (lo.getD i 0)) ∧
        ∀ r ∈ tr', Real.sqrt r ≤ (tr.map Real.sqrt).sum := by
  have hpsd : ∀ e ∈ es, e.PSD := fun e he => (hes e he).psd
  obtain ⟨Qs, heq, hQ⟩ := C44 E G p hp hn es h2 hes M hM
  set fs : Fin k → EllN n := fun j => ⟨(es.map EllN.c).sum, Qs j, p⟩ with hfs
  refine ⟨_, heq, by simp, fun arg' ha' => ?_⟩
  obtain ⟨lo, hi, e1, e2, e3, h3, h4⟩ := sizes_eq E hn es hpsd arg a ha hd
  obtain ⟨lo', hi', f1, f2, f3, g3, g4⟩ := sizes_eq E hn (List.ofFn fs) (by
    intro e he
    obtain ⟨j, rfl⟩ := (List.mem_ofFn' _ _).1 he
    exact ⟨hp, (hQ j).1⟩) arg' _ ha' (by rw [List.map_ofFn]; rfl)
  have hlen : (List.ofFn fs).length = k := by simp
  refine ⟨lo, hi, _, lo', hi', _, e1, e2, e3, f1, f2, f3, by rw [← g3.length_eq, hlen], by rw [← g4.length_eq, hlen],
    by rw [List.length_map, hlen], fun r hr => ?_, fun r hr i hi' => ?_, fun r hr => ?_⟩
  · obtain ⟨e, he, hl⟩ := forall₂_right g4 r hr
    obtain ⟨j, rfl⟩ := (List.mem_ofFn' _ _).1 he
    obtain ⟨x, hx, rfl⟩ := hl.1
    exact (width_ia hpsd (hQ j).1 (hQ j).2.1 x).trans (sum_le_of (le_hi h4 hx))
  · obtain ⟨e, he, hl⟩ := forall₂_right g3 r hr
    obtain ⟨j, rfl⟩ := (List.mem_ofFn' _ _).1 he
    have hih : i < lo.length := by rw [← h3.length_eq]; exact hi'
    have h3i := (List.forall₂_iff_get.1 h3).2 i hi' hih
    obtain ⟨x, hx, hxe⟩ := h3i.1
    have hs := le_sum_swap (le_hi h4 hx) i (by rw [List.length_map]; exact hi')
    rw [getD_map_sqrt] at hs
    have hg : Real.sqrt (lo.getD i 0) = (es.map fun e => Real.sqrt (x ⬝ᵥ e.Q *ᵥ x)).getD i 0 := by
      rw [List.getD_eq_getElem?_getD, List.getD_eq_getElem?_getD, List.getElem?_eq_getElem hih, List.getElem?_map, List.getElem?_eq_getElem hi']
      exact congrArg Real.sqrt hxe
    rw [hg]
    exact (Real.sqrt_le_sqrt (hl.2 ⟨x, hx, rfl⟩)).trans ((width_ia hpsd (hQ j).1 (hQ j).2.1 x).trans hs)
  · obtain ⟨e, he, rfl⟩ := List.mem_map.1 hr
    obtain ⟨j, rfl⟩ := (List.mem_ofFn' _ _).1 he
    show Real.sqrt (∑ i, Qs j i i) ≤ _
    set ws : List (Fin n → ℝ) := es.map fun e i => Real.sqrt (e.Q i i) with hws
    have hw : ∀ i, ws.sum i = (es.map fun e => Real.sqrt (e.Q i i)).sum := by
      intro i
      rw [hws]
      clear * -
      induction es with
      | nil => simp
      | cons e es ih => simp only [List.map_cons, List.sum_cons, Pi.add_apply, ih]
    have h1 : ∑ i, Qs j i i ≤ ws.sum ⬝ᵥ ws.sum := by
      refine Finset.sum_le_sum fun i _ => ?_
      have h := width_ia hpsd (hQ j).1 (hQ j).2.1 (Pi.single i 1)
      have hq : ∀ Q : Matrix (Fin n) (Fin n) ℝ, Pi.single i 1 ⬝ᵥ Q *ᵥ Pi.single i 1 = Q i i := fun Q => by simp
      simp only [hq] at h
      rw [hw, ← sq, ← Real.sq_sqrt (diag_nonneg (hQ j).1 i)]
      exact pow_le_pow_left₀ (Real.sqrt_nonneg _) h 2
    refine (Real.sqrt_le_sqrt h1).trans ((len_sum ws).trans_eq ?_)
    rw [hws, List.map_map, List.map_map]
    congr 1
    refine List.map_congr_left fun e he => ?_
    show Real.sqrt (∑ i, Real.sqrt (e.Q i i) * Real.sqrt (e.Q i i)) = Real.sqrt (∑ i, e.Q i i)
    congr 1
    exact Finset.sum_congr rfl fun i _ => Real.mul_self_sqrt (diag_nonneg (hpsd e he).2 i)

/-! ### Examples -/

/-- Two ellipses with different axes and centres: the numbers of the external and the internal approximation. -/
example (E : Eigh) (G : Eig) (L : Lstsq) (es : List (EllN 2)) (h : es = [⟨![0, 1], !![4, 0; 0, 4], stdProps⟩, ⟨![1, 2], !![5, 4; 4, 5], stdProps⟩])
    (arg : ObjArg EllObj) (ha : arg = .many (Arr.vec ((es.map EllN.obj).map .inst))) :
    (∃ rs, minksumEa E G L stdProps (es.map EllN.obj) !![1; 0] = .ok (Arr.vec rs) ∧ rs.length = 1) ∧
    (∃ rs, minksumIa E G stdProps (es.map EllN.obj) !![1; 0] = .ok (Arr.vec rs) ∧ rs.length = 1) ∧ trace arg = .ok [8, 10] := by
  have hes : ∀ e ∈ es, e.NonDeg := by
    subst h
    intro e he
    simp only [List.mem_cons, List.not_mem_nil, or_false] at he
    rcases he with rfl | rfl
    · exact nonDeg_two _ _ stdProps_ok (by norm_num [stdProps]) (by norm_num [stdProps])
    · exact nonDeg_two _ _ stdProps_ok (by norm_num [stdProps]) (by norm_num [stdProps])
  have hM : ∀ j, (fun i => (!![1; 0] : Matrix (Fin 2) (Fin 1) ℝ) i j) ≠ 0 := fun j h => by
    have := congrFun h 0
    fin_cases j
    simp at this
  have hA : arg.Is (Arr.vec (es.map EllN.obj)) := Or.inr ⟨_, ha, by subst h; rfl, rfl⟩
  obtain ⟨rs, h1, h2, -⟩ := C122_ea E G L stdProps stdProps_ok two_ne_zero es (by subst h; exact le_rfl) hes _ hM arg _ hA rfl
  obtain ⟨rs', h1', h2', -⟩ := C122_ia E G stdProps stdProps_ok two_ne_zero es (by subst h; exact le_rfl) hes _ hM arg _ hA rfl
  refine ⟨⟨rs, h1, h2⟩, ⟨rs', h1', h2'⟩, ?_⟩
  obtain ⟨_, _, -, -, h3, -⟩ := sizes_eq E two_ne_zero es (fun e he => (hes e he).psd) arg _ hA rfl
  rw [h3]
  subst h
  norm_num [Fin.sum_univ_two]

end Ellipy.Ell
