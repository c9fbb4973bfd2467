import Verif.Proofs.IsEqual
import Verif.Props.EllHeap

/-! Property theorems C48, C49 (equality of ellipsoids). -/

namespace Ellipy.Ell
open Matrix Ellipy.LA

variable {lk : List (PyVal ℝ) → Kind} {fmt : Fmt ℝ}

theorem forall₂_ofFn {β : Type} {R : β → β → Prop} {n : ℕ} {u v : Fin n → β} :
    List.Forall₂ R (List.ofFn u) (List.ofFn v) ↔ ∀ i, R (u i) (v i) := by
  rw [List.forall₂_iff_get]
  constructor
  · intro h i
    have := h.2 i (by simp) (by simp)
    simpa using this
  · intro h
    refine ⟨by simp, fun i h1 h2 => ?_⟩
    simpa using h ⟨i, by simpa using h1⟩

/-- The comparison dictionary of an ellipsoid. -/
private noncomputable def ellDict (e : EllObj) (R : Matrix (Fin e.n) (Fin e.n) ℝ) : List (String × PyVal ℝ) :=
  [("QSqrt", if e.n = 0 then zeros0 else .arr (matArr R)), ("q", if e.n = 0 then zeros0 else .arr (vecArr e.c))]

private theorem form_of_root {E : Eigh} {t : ℝ} {e : EllObj} {R : Matrix (Fin e.n) (Fin e.n) ℝ}
    (h : sqrtmPos E e.Q t = .ok R) : ellForm E false t e = .ok (ellDict e R) := by
  unfold ellForm ellDict
  by_cases hn : e.n = 0
  · simp only [hn, if_true, Bool.false_eq_true, if_false]
  · simp only [hn, if_false, h, Bool.false_eq_true]

private theorem qq : "QSqrt" ≠ "q" := by decide

private theorem ellDict_verdict {e f : EllObj} {R : Matrix (Fin e.n) (Fin e.n) ℝ} {S : Matrix (Fin f.n) (Fin f.n) ℝ} {tA tR : ℝ}
    (hA : 0 ≤ tA) (hR : 0 ≤ tR) :
    ∃ r, compScalar lk fmt (.fin tA) (some (.fin tR)) (ellDict e R) (ellDict f S) = .ok r ∧
      (r.1 = true ↔ ∃ h : e.n = f.n,
        (∀ i, EntryClose (.fin tA) (some (.fin tR)) (.fin (e.c i)) (.fin (f.c (Fin.cast h i)))) ∧
        ∀ i j, EntryClose (.fin tA) (some (.fin tR)) (.fin (R i j)) (.fin (S (Fin.cast h i) (Fin.cast h j)))) := by
  have hv : ValidTol (.fin tA : XF ℝ) := hA
  have hv' : ∀ t, some (.fin tR : XF ℝ) = some t → ValidTol t := by rintro t ⟨⟩; exact hR
  have key : ∀ (x1 y1 x2 y2 : NArr ℝ) (_ : x1.kind = .f) (_ : y1.kind = .f) (_ : x2.kind = .f) (_ : y2.kind = .f),
      ∃ r, compScalar lk fmt (.fin tA) (some (.fin tR)) [("QSqrt", .arr x1), ("q", .arr x2)] [("QSqrt", .arr y1), ("q", .arr y2)]
        = .ok r ∧ (r.1 = true ↔
          (x1.shape = y1.shape ∧ List.Forall₂ (EntryClose (.fin tA) (some (.fin tR))) x1.data y1.data) ∧
          (x2.shape = y2.shape ∧ List.Forall₂ (EntryClose (.fin tA) (some (.fin tR))) x2.data y2.data)) := by
    intro x1 y1 x2 y2 h1 h2 h3 h4
    obtain ⟨r1, e1, e2⟩ := numComp_verdict (fmt := fmt) hv hv' h1 h2
    obtain ⟨r2, e3, e4⟩ := numComp_verdict (fmt := fmt) hv hv' h3 h4
    obtain ⟨r, e5, e6⟩ := compScalar_two (lk := lk) (fmt := fmt) (ta := .fin tA) (tr := some (.fin tR)) qq
      ((compFun_arr h1 h2).trans e1) ((compFun_arr h3 h4).trans e3)
    exact ⟨r, e5, by rw [e6, Bool.and_eq_true, e2, e4]⟩
  obtain ⟨n, c, Q, t1, t2, n2, n3⟩ := e
  obtain ⟨m, c', Q', t1', t2', n2', n3'⟩ := f
  dsimp only at R S
  unfold ellDict
  dsimp only
  by_cases hn : n = 0
  · subst hn
    by_cases hm : m = 0
    · subst hm
      obtain ⟨r, h1, h2⟩ := key ⟨.f, [0], [], rfl⟩ ⟨.f, [0], [], rfl⟩ ⟨.f, [0], [], rfl⟩ ⟨.f, [0], [], rfl⟩ rfl rfl rfl rfl
      refine ⟨r, by simpa [zeros0] using h1, ?_⟩
      rw [h2]
      simp
    · obtain ⟨r, h1, h2⟩ := key ⟨.f, [0], [], rfl⟩ (matArr S) ⟨.f, [0], [], rfl⟩ (vecArr c') rfl rfl rfl rfl
      refine ⟨r, by simpa [zeros0, hm] using h1, ?_⟩
      rw [h2]
      constructor
      · rintro ⟨⟨h, -⟩, -⟩; simp [matArr] at h
      · rintro ⟨h, -⟩; exact absurd h.symm hm
  · by_cases hm : m = 0
    · subst hm
      obtain ⟨r, h1, h2⟩ := key (matArr R) ⟨.f, [0], [], rfl⟩ (vecArr c) ⟨.f, [0], [], rfl⟩ rfl rfl rfl rfl
      refine ⟨r, by simpa [zeros0, hn] using h1, ?_⟩
      rw [h2]
      constructor
      · rintro ⟨⟨h, -⟩, -⟩; simp [matArr] at h
      · rintro ⟨h, -⟩; exact absurd h hn
    · obtain ⟨r, h1, h2⟩ := key (matArr R) (matArr S) (vecArr c) (vecArr c') rfl rfl rfl rfl
      refine ⟨r, by simpa [hn, hm] using h1, ?_⟩
      rw [h2]
      constructor
      · rintro ⟨⟨h3, h4⟩, h5, h6⟩
        have hnm : n = m := by simpa [vecArr] using h5
        subst hnm
        refine ⟨rfl, fun i => forall₂_ofFn.1 h6 i, fun i j => ?_⟩
        have := forall₂_ofFn.1 h4 (finProdFinEquiv (i, j))
        have e1 : (finProdFinEquiv (i, j)).divNat = i := congrArg Prod.fst (finProdFinEquiv.symm_apply_apply (i, j))
        have e2 : (finProdFinEquiv (i, j)).modNat = j := congrArg Prod.snd (finProdFinEquiv.symm_apply_apply (i, j))
        rw [e1, e2] at this
        exact this
      · rintro ⟨h, h3, h4⟩
        subst h
        exact ⟨⟨rfl, forall₂_ofFn.2 fun k => h4 k.divNat k.modNat⟩, rfl, forall₂_ofFn.2 h3⟩

/-- The smaller of the tolerances. -/
private theorem tol_pos {a b : Arr EllObj} (ha : a.data ≠ []) (h : ∀ e ∈ a.data ++ b.data, e.props.ok) :
    0 < minTol ((a.data ++ b.data).map EllObj.absTol) ∧ 0 < minTol ((a.data ++ b.data).map EllObj.relTol) := by
  have hne : ∀ f : EllObj → ℝ, (a.data ++ b.data).map f ≠ [] := by
    intro f hf; simp at hf; exact ha hf.1
  obtain ⟨e, he, h1⟩ := List.mem_map.1 (minTol_isLeast (hne EllObj.absTol)).1
  obtain ⟨f, hf, h2⟩ := List.mem_map.1 (minTol_isLeast (hne EllObj.relTol)).1
  rw [← h1, ← h2]
  exact ⟨(h e he).1, (h f hf).2.1⟩

/-- **C48** (reflexive). `e == e` for every ellipsoid the constructor accepts, empty ones and matrices that are symmetric and
non-negative only within the tolerance included. -/
theorem C48_refl (E : Eigh) {e : EllObj} (he : ValidObj e) : eqOp lk fmt (ellClass E) e e = .ok true := by
  have ht : minTol (([e] ++ [e]).map EllObj.absTol) = e.absTol := by simp [minTol]
  have hr : minTol (([e] ++ [e]).map EllObj.relTol) = e.relTol := by simp [minTol]
  obtain ⟨R, hR⟩ : ∃ R, sqrtmPos E e.Q e.absTol = .ok R := by
    cases hs : sqrtmPos E e.Q e.absTol with
    | ok R => exact ⟨R, rfl⟩
    | error x =>
      rcases (C21_raises_iff E e.Q e.absTol).1 ⟨x, hs⟩ with h | h | ⟨v, hv⟩
      · exact absurd he.props.1 (not_lt.2 h.le)
      · exact absurd he.symm h
      · exact absurd (he.eig v) (not_le.2 hv)
  obtain ⟨r, h1, h2⟩ := ellDict_verdict (lk := lk) (fmt := fmt) (e := e) (f := e) (R := R) (S := R) he.props.1.le he.props.2.1.le
  have hr1 : r.1 = true := h2.2 ⟨rfl, fun i => EntryClose.refl (show ValidTol (.fin e.absTol) from he.props.1.le) _ _,
    fun i j => EntryClose.refl (show ValidTol (.fin e.absTol) from he.props.1.le) _ _⟩
  obtain ⟨r', rep, h3, -, h5⟩ := (isEqual_main (lk := lk) (fmt := fmt) (ellClass E) (Arr.vec [e]) (Arr.vec [e])
    (fun _ => ellDict e R) (fun _ _ => true) (by simp [Arr.vec]) (by simp [Arr.vec])
    (by
      intro x hx
      have : x = e := by simpa [Arr.vec] using hx
      subst this
      refine ⟨x, rfl, ?_⟩
      show ellForm E false (minTol (([x] ++ [x]).map EllObj.absTol)) x = _
      rw [ht]; exact form_of_root hR)
    (by
      intro x _ y _
      refine ⟨r, ?_, hr1⟩
      show compScalar lk fmt (.fin (minTol (([e] ++ [e]).map EllObj.absTol))) (some (.fin (minTol (([e] ++ [e]).map EllObj.relTol)))) _ _ = _
      rw [ht, hr]; exact h1)).1 ⟨by simp [Arr.vec], by simp [Arr.vec], by simp⟩
  unfold eqOp
  rw [h3]
  have : r'.data = [true] := by rw [h5]; rfl
  simp only [this]

/-- **C48** (symmetric; partial).  Swapping the arguments changes neither the verdicts nor their shape, and raises on the same inputs,
unless both arrays hold one ellipsoid and have different numbers of dimensions (see `C48_violation_symm`). -/
theorem C48_symm_partial (E : Eigh) (a b : Arr EllObj)
    (hnd : a.data.length = 1 → b.data.length = 1 → a.shape.length = b.shape.length) :
    (isEqual lk fmt (ellClass E) a b false).toOption.map Prod.fst = (isEqual lk fmt (ellClass E) b a false).toOption.map Prod.fst := by
  refine isEqual_symm (ellClass E) false ?_ a b hnd
  intro tA tR d d' u v hu hv
  have key : ∀ (d : EllObj) u, ellForm E false tA d = .ok u → ∃ x y, u = [("QSqrt", x), ("q", y)] ∧
      ((∃ a, a.kind = .f ∧ x = .arr a) ∨ ∃ t z, x = .scal t z) ∧ ((∃ a, a.kind = .f ∧ y = .arr a) ∨ ∃ t z, y = .scal t z) := by
    intro d u hu
    unfold ellForm at hu
    by_cases hn : d.n = 0
    · simp only [hn, if_true, Bool.false_eq_true, if_false] at hu
      cases hu
      exact ⟨_, _, rfl, .inl ⟨_, rfl, rfl⟩, .inl ⟨_, rfl, rfl⟩⟩
    · simp only [hn, if_false, Bool.false_eq_true] at hu
      cases hs : sqrtmPos E d.Q tA with
      | error x => rw [hs] at hu; cases hu
      | ok R =>
        rw [hs] at hu
        cases hu
        exact ⟨_, _, rfl, .inl ⟨_, rfl, rfl⟩, .inl ⟨_, rfl, rfl⟩⟩
  obtain ⟨x, y, rfl, h1, h2⟩ := key d u hu
  obtain ⟨x', y', rfl, h3, h4⟩ := key d' v hv
  exact compScalar_two_symm (by decide) h1 h2 h3 h4

/-- **C48** (symmetric), for single ellipsoids: `e == f` iff `f == e`, and one raises iff the other does. -/
theorem C48_symm (E : Eigh) (e f : EllObj) :
    (eqOp lk fmt (ellClass E) e f).toOption = (eqOp lk fmt (ellClass E) f e).toOption := by
  have := C48_symm_partial (lk := lk) (fmt := fmt) E (Arr.vec [e]) (Arr.vec [f]) (by simp [Arr.vec])
  unfold eqOp
  cases h1 : isEqual lk fmt (ellClass E) (Arr.vec [e]) (Arr.vec [f]) false with
  | error x =>
    rw [h1] at this
    cases h2 : isEqual lk fmt (ellClass E) (Arr.vec [f]) (Arr.vec [e]) false with
    | error y => rfl
    | ok r => rw [h2] at this; cases this
  | ok r =>
    rw [h1] at this
    cases h2 : isEqual lk fmt (ellClass E) (Arr.vec [f]) (Arr.vec [e]) false with
    | error y => rw [h2] at this; cases this
    | ok r' =>
      rw [h2] at this
      have h3 : r.1 = r'.1 := by injection this
      simp only [h3]

private theorem psd_main (E : Eigh) {a b : Arr EllObj} (ha : a.data ≠ []) (hb : b.data ≠ [])
    (hp : ∀ e ∈ a.data ++ b.data, e.props.ok) (hq : ∀ e ∈ a.data ++ b.data, IsPSD e.Q) :
    ∃ g : EllObj → EllObj → Bool,
      (∀ x ∈ a.data, ∀ y ∈ b.data, (g x y = true ↔
        EllClose (minTol ((a.data ++ b.data).map EllObj.absTol)) (minTol ((a.data ++ b.data).map EllObj.relTol)) x y)) ∧
    (Compat a b → ∃ r rep, isEqual lk fmt (ellClass E) a b false = .ok (r, rep) ∧
      r.shape = (if 1 < a.data.length then a.shape else b.shape) ∧ r.data = List.zipWith g (bcList a b) (bcList b a)) ∧
    (¬ Compat a b → a.data.length = 1 → b.data.length = 1 →
      ∃ r, isEqual lk fmt (ellClass E) a b false = .ok (r, "sizes are different") ∧ r.shape = b.shape ∧ r.data = [false]) ∧
    (¬ Compat a b → 1 < a.data.length ∨ 1 < b.data.length → Raises (isEqual lk fmt (ellClass E) a b false)) := by
  classical
  obtain ⟨hA, hR⟩ := tol_pos ha hp
  generalize htA : minTol ((a.data ++ b.data).map EllObj.absTol) = tA at hA ⊢
  generalize htR : minTol ((a.data ++ b.data).map EllObj.relTol) = tR at hR ⊢
  let root : (e : EllObj) → Matrix (Fin e.n) (Fin e.n) ℝ := fun e =>
    match sqrtmPos E e.Q tA with | .ok R => R | .error _ => 0
  have hroot : ∀ e ∈ a.data ++ b.data, sqrtmPos E e.Q tA = .ok (root e) ∧ IsPSD (root e) ∧ root e * root e = e.Q ∧
      ∀ S', IsPSD S' → S' * S' = e.Q → S' = root e := by
    intro e he
    obtain ⟨S, h1, h2⟩ := C21_root E e.Q tA hA.le (hq e he)
    have : root e = S := by simp only [root, h1]
    rw [this]; exact ⟨h1, h2⟩
  refine ⟨fun x y => decide (EllClose tA tR x y), fun x _ y _ => by simp, ?_⟩
  refine isEqual_main (lk := lk) (fmt := fmt) (ellClass E) a b (fun e => ellDict e (root e)) _ ha hb ?_ ?_
  · intro x hx
    refine ⟨x, rfl, ?_⟩
    show ellForm E false (minTol ((a.data ++ b.data).map EllObj.absTol)) x = _
    rw [htA]
    exact form_of_root (hroot x hx).1
  · intro x hx y hy
    show ∃ r, compScalar lk fmt (.fin (minTol ((a.data ++ b.data).map EllObj.absTol)))
      (some (.fin (minTol ((a.data ++ b.data).map EllObj.relTol)))) _ _ = .ok r ∧ _
    rw [htA, htR]
    obtain ⟨r, h1, h2⟩ := ellDict_verdict (lk := lk) (fmt := fmt) (e := x) (f := y) (R := root x) (S := root y) hA.le hR.le
    refine ⟨r, h1, ?_⟩
    rw [Bool.eq_iff_iff, h2, decide_eq_true_iff]
    obtain ⟨-, hx1, hx2, hx3⟩ := hroot x (by simp [hx])
    obtain ⟨-, hy1, hy2, hy3⟩ := hroot y (by simp [hy])
    constructor
    · rintro ⟨h, h3, h4⟩
      exact ⟨h, h3, root x, root y, hx1, hx2, hy1, hy2, h4⟩
    · rintro ⟨h, h3, R, S, hR1, hR2, hS1, hS2, h4⟩
      rw [hx3 R hR1 hR2, hy3 S hS1 hS2] at h4
      exact ⟨h, h3, h4⟩

/-- **C48** (elementwise; partial).  For arrays of ellipsoids with positive semidefinite shape matrices, of equal shapes or one of them
with a single element and not more dimensions than the other, a verdict is returned for every position; it is true exactly when the two
ellipsoids there agree within the smallest tolerances that occur in the two arrays.  (The tolerances are common to all positions, see
`C48_violation_tol`.) -/
theorem C48_elementwise_partial (E : Eigh) {a b : Arr EllObj} (ha : a.data ≠ []) (hb : b.data ≠ [])
    (hp : ∀ e ∈ a.data ++ b.data, e.props.ok) (hq : ∀ e ∈ a.data ++ b.data, IsPSD e.Q) (hc : Compat a b)
    {tA tR : ℝ} (htA : IsLeast {t | ∃ e ∈ a.data ++ b.data, e.absTol = t} tA)
    (htR : IsLeast {t | ∃ e ∈ a.data ++ b.data, e.relTol = t} tR) :
    ∃ r rep, isEqual lk fmt (ellClass E) a b false = .ok (r, rep) ∧
      r.shape = (if 1 < a.data.length then a.shape else b.shape) ∧
      r.data.length = max a.data.length b.data.length ∧
      ∀ (i : ℕ) v x y, r.data[i]? = some v → (bcList a b)[i]? = some x → (bcList b a)[i]? = some y →
        (v = true ↔ EllClose tA tR x y) := by
  obtain ⟨g, hg, h1, -⟩ := psd_main (lk := lk) (fmt := fmt) E ha hb hp hq
  obtain ⟨r, rep, h2, h3, h4⟩ := h1 hc
  have hne : ∀ f : EllObj → ℝ, (a.data ++ b.data).map f ≠ [] := by
    intro f hf; simp at hf; exact ha hf.1
  have e1 : minTol ((a.data ++ b.data).map EllObj.absTol) = tA := by
    have := minTol_isLeast (hne EllObj.absTol)
    simp only [List.mem_map] at this
    exact this.unique htA
  have e2 : minTol ((a.data ++ b.data).map EllObj.relTol) = tR := by
    have := minTol_isLeast (hne EllObj.relTol)
    simp only [List.mem_map] at this
    exact this.unique htR
  have hla : 0 < a.data.length := List.length_pos_of_ne_nil ha
  have hlb : 0 < b.data.length := List.length_pos_of_ne_nil hb
  refine ⟨r, rep, h2, h3, ?_, ?_⟩
  · rw [r.len, h3]
    split_ifs with hA
    · rw [← a.len]
      by_cases hB : 1 < b.data.length
      · have := hc.1 hA hB
        rw [show b.data.length = a.data.length by rw [a.len, b.len, this], max_self]
      · omega
    · rw [← b.len]; omega
  · intro i v x y hv hx hy
    rw [h4, List.getElem?_zipWith, hx, hy] at hv
    have hv : g x y = v := by injection hv
    rw [← hv, hg x (mem_bcList (List.mem_of_getElem? hx)) y (mem_bcList (List.mem_of_getElem? hy)), e1, e2]

/-- **C48** (elementwise; partial) for the method `eq`: its verdicts are the elementwise comparisons as well.  For what is missing see
`C48_elementwise_partial`. -/
theorem C48_eq_partial (E : Eigh) {a b : Arr EllObj} (ha : a.data ≠ []) (hb : b.data ≠ [])
    (hp : ∀ e ∈ a.data ++ b.data, e.props.ok) (hq : ∀ e ∈ a.data ++ b.data, IsPSD e.Q) (hc : Compat a b)
    {tA tR : ℝ} (htA : IsLeast {t | ∃ e ∈ a.data ++ b.data, e.absTol = t} tA)
    (htR : IsLeast {t | ∃ e ∈ a.data ++ b.data, e.relTol = t} tR) :
    ∃ r rep, eqArr lk fmt (ellClass E) a b = .ok (r, rep) ∧
      r.shape = (if 1 < a.data.length then a.shape else b.shape) ∧
      r.data.length = max a.data.length b.data.length ∧
      ∀ (i : ℕ) v x y, r.data[i]? = some v → (bcList a b)[i]? = some x → (bcList b a)[i]? = some y →
        (v = true ↔ EllClose tA tR x y) :=
  C48_elementwise_partial E ha hb hp hq hc htA htR

/-- **C48**, which arrays are rejected (shape matrices positive semidefinite): exactly one of the arrays is empty, or they have different
shapes and neither consists of one ellipsoid, or one ellipsoid is given with more dimensions than the other array. -/
theorem C48_raises_iff (E : Eigh) {a b : Arr EllObj}
    (hp : ∀ e ∈ a.data ++ b.data, e.props.ok) (hq : ∀ e ∈ a.data ++ b.data, IsPSD e.Q) :
    Raises (isEqual lk fmt (ellClass E) a b false) ↔
      (a.data = [] ∧ b.data ≠ []) ∨ (a.data ≠ [] ∧ b.data = []) ∨
      (a.data ≠ [] ∧ b.data ≠ [] ∧ ¬ Compat a b ∧ (1 < a.data.length ∨ 1 < b.data.length)) := by
  by_cases ha : a.data = []
  · by_cases hb : b.data = []
    · have : isEqual lk fmt (ellClass E) a b false = .ok (Arr.vec [true], "") := by
        unfold isEqual; rw [if_pos (by simp [ha, hb])]
      rw [this]
      simp [ha, hb, Raises]
    · have : isEqual lk fmt (ellClass E) a b false = throwErr "wrongInput" := by
        unfold isEqual; rw [if_neg (by simp [hb]), if_pos (by simp [ha])]
      rw [this]
      simp [ha, hb, Raises, throwErr]
  · by_cases hb : b.data = []
    · have : isEqual lk fmt (ellClass E) a b false = throwErr "wrongInput" := by
        unfold isEqual; rw [if_neg (by simp [ha]), if_pos (by simp [hb])]
      rw [this]
      simp [ha, hb, Raises, throwErr]
    · obtain ⟨g, -, h1, h2, h3⟩ := psd_main (lk := lk) (fmt := fmt) E ha hb hp hq
      simp only [ha, hb, false_and, not_false_eq_true, true_and, and_false, false_or, ne_eq]
      have hla : 0 < a.data.length := List.length_pos_of_ne_nil ha
      have hlb : 0 < b.data.length := List.length_pos_of_ne_nil hb
      constructor
      · rintro ⟨x, hx⟩
        by_cases hc : Compat a b
        · obtain ⟨r, rep, h, -⟩ := h1 hc
          rw [h] at hx; cases hx
        · refine ⟨hc, ?_⟩
          by_contra hl
          obtain ⟨r, h, -⟩ := h2 hc (by omega) (by omega)
          rw [h] at hx; cases hx
      · rintro ⟨hc, hl⟩
        exact h3 hc hl

/-- **C48**, a single comparison: `e == f` exactly when the two agree within the smaller tolerances. -/
theorem C48_scalar (E : Eigh) {e f : EllObj} (he : e.props.ok) (hf : f.props.ok) (hq : IsPSD e.Q) (hq' : IsPSD f.Q) :
    ∃ v, eqOp lk fmt (ellClass E) e f = .ok v ∧
      (v = true ↔ EllClose (min e.absTol f.absTol) (min e.relTol f.relTol) e f) := by
  obtain ⟨r, rep, h1, -, h3, h4⟩ := C48_elementwise_partial (lk := lk) (fmt := fmt) E (a := Arr.vec [e]) (b := Arr.vec [f])
    (tA := min e.absTol f.absTol) (tR := min e.relTol f.relTol) (by simp [Arr.vec]) (by simp [Arr.vec])
    (by simp [Arr.vec, he, hf]) (by simp [Arr.vec, hq, hq']) ⟨by simp [Arr.vec], by simp [Arr.vec], by simp [Arr.vec]⟩
    (by
      refine ⟨?_, ?_⟩
      · rcases min_choice e.absTol f.absTol with h | h
        · exact ⟨e, by simp [Arr.vec], h.symm⟩
        · exact ⟨f, by simp [Arr.vec], h.symm⟩
      · rintro t ⟨x, hx, rfl⟩
        rcases (by simpa [Arr.vec] using hx : x = e ∨ x = f) with rfl | rfl <;> simp)
    (by
      refine ⟨?_, ?_⟩
      · rcases min_choice e.relTol f.relTol with h | h
        · exact ⟨e, by simp [Arr.vec], h.symm⟩
        · exact ⟨f, by simp [Arr.vec], h.symm⟩
      · rintro t ⟨x, hx, rfl⟩
        rcases (by simpa [Arr.vec] using hx : x = e ∨ x = f) with rfl | rfl <;> simp)
  obtain ⟨v, hv⟩ := List.length_eq_one_iff.1 (show r.data.length = 1 by simpa [Arr.vec] using h3)
  refine ⟨v, ?_, h4 0 v e f (by simp [hv]) (by simp [bcList, Arr.vec]) (by simp [bcList, Arr.vec])⟩
  unfold eqOp
  rw [h1]
  simp only [hv]

/-- **C49 is violated.**  With the properties included, comparing any two non-empty arrays raises: `to_dict` has no transformation for the
properties. -/
theorem C49_violation (E : Eigh) {a b : Arr EllObj} (ha : a.data ≠ []) :
    Raises (isEqual lk fmt (ellClass E) a b true) := by
  have hla : 0 < a.data.length := List.length_pos_of_ne_nil ha
  by_cases h1 : a.data.length = 0 ∨ b.data.length = 0
  · have : isEqual lk fmt (ellClass E) a b true = throwErr "wrongInput" := by
      unfold isEqual; rw [if_neg (by omega), if_pos h1]
    exact ⟨_, this⟩
  by_cases h2 : a.data.length > 1 ∧ b.data.length > 1 ∧ a.shape ≠ b.shape
  · have : isEqual lk fmt (ellClass E) a b true = throwErr "wrongSizes" := by
      unfold isEqual; rw [if_neg (by omega), if_neg h1, if_pos h2]
    exact ⟨_, this⟩
  unfold isEqual
  rw [if_neg (by omega), if_neg h1, if_neg h2]
  simp only []
  generalize minTol ((a.data ++ b.data).map (ellClass E).absTol) = tA
  generalize minTol ((a.data ++ b.data).map (ellClass E).relTol) = tR
  have hd : pyMap (ellClass E).toDict a.data = .ok (a.data.map id) := pyMap_ok fun x _ => rfl
  rw [hd]
  cases pyMap (ellClass E).toDict b.data with
  | error x => exact ⟨_, rfl⟩
  | ok db =>
    obtain ⟨x, hx⟩ : Raises (pyMap ((ellClass E).form true tA) (a.data.map id)) := by
      rw [pyMap_raises]
      obtain ⟨e, he⟩ := List.exists_mem_of_ne_nil _ ha
      refine ⟨e, by simpa using he, ?_⟩
      show Raises (ellForm E true tA e)
      unfold ellForm
      by_cases hn : e.n = 0
      · simp only [hn, if_true]; exact ⟨_, rfl⟩
      · simp only [hn, if_false]
        cases sqrtmPos E e.Q tA with
        | error x => exact ⟨_, rfl⟩
        | ok R => exact ⟨_, rfl⟩
    refine ⟨x, ?_⟩
    simp only [hx]

/-- **C49** (partial): only the comparison of two empty arrays returns. -/
theorem C49_partial (E : Eigh) {a b : Arr EllObj} (ha : a.data = []) (hb : b.data = []) :
    isEqual lk fmt (ellClass E) a b true = .ok (Arr.vec [true], "") := by
  unfold isEqual; rw [if_pos (by simp [ha, hb])]

/-! Witnesses. -/

/-- An interval. -/
noncomputable def itv (c q absTol : ℝ) : EllObj := ⟨1, fun _ => c, fun _ _ => q, absTol, 1 / 100, 200, 200⟩

theorem itv_ok (c q : ℝ) {t : ℝ} (ht : 0 < t) : (itv c q t).props.ok :=
  ⟨ht, by show (0 : ℝ) < 1 / 100; norm_num, ⟨200, by show (200 : ℝ) = _; norm_num⟩, ⟨200, by show (200 : ℝ) = _; norm_num⟩⟩

theorem itv_psd (c : ℝ) {q t : ℝ} (hq : 0 ≤ q) : IsPSD (itv c q t).Q := by
  refine ⟨by ext i j; rfl, fun x => ?_⟩
  show 0 ≤ ∑ i : Fin 1, x i * ∑ j : Fin 1, q * x j
  simp only [Finset.univ_unique, Fin.default_eq_zero, Finset.sum_singleton]
  have := mul_self_nonneg (x (0 : Fin 1))
  nlinarith

/-- **C48 is violated** (symmetry).  `[e] == [[e]]` is true, `[[e]] == [e]` is false. -/
theorem C48_violation_symm (E : Eigh) :
    ∃ a b : Arr EllObj, (∀ e ∈ a.data ++ b.data, ValidObj e) ∧ a.data = b.data ∧
      (∃ r rep, isEqual lk fmt (ellClass E) a b false = .ok (r, rep) ∧ r.data = [true]) ∧
      ∃ r rep, isEqual lk fmt (ellClass E) b a false = .ok (r, rep) ∧ r.data = [false] := by
  let e := itv 0 1 (1 / 10 : ℝ)
  let a : Arr EllObj := ⟨[1], [e], rfl⟩
  let b : Arr EllObj := ⟨[1, 1], [e], rfl⟩
  have hok : e.props.ok := itv_ok 0 1 (by norm_num)
  have hpsd : IsPSD e.Q := itv_psd 0 zero_le_one
  have hv : ValidObj e := valid_of_psd (n := 1) _ hpsd hok
  refine ⟨a, b, by simp [a, b, hv], rfl, ?_, ?_⟩
  · obtain ⟨g, hg, h1, -⟩ := psd_main (lk := lk) (fmt := fmt) E (a := a) (b := b) (by simp [a]) (by simp [b])
      (by simp [a, b, hok]) (by simp [a, b, hpsd])
    obtain ⟨r, rep, h2, -, h4⟩ := h1 ⟨by simp [a], by simp [a], by simp [a, b]⟩
    refine ⟨r, rep, h2, ?_⟩
    rw [h4]
    have : g e e = true := by
      rw [hg e (by simp [a]) e (by simp [b])]
      obtain ⟨S, -, hS, hSS, -⟩ := C21_root E e.Q 0 le_rfl hpsd
      have ht : 0 ≤ minTol ((a.data ++ b.data).map EllObj.absTol) := by simp [a, b, minTol, e, itv]
      exact ⟨rfl, fun i => EntryClose.refl (show ValidTol (.fin _) from ht) _ _, S, S, hS, hSS, hS, hSS,
        fun i j => EntryClose.refl (show ValidTol (.fin _) from ht) _ _⟩
    simp [bcList, a, b, this]
  · obtain ⟨g, hg, -, h1, -⟩ := psd_main (lk := lk) (fmt := fmt) E (a := b) (b := a) (by simp [b]) (by simp [a])
      (by simp [a, b, hok]) (by simp [a, b, hpsd])
    obtain ⟨r, h2, -, h4⟩ := h1 (fun h => by have := h.2.2 (by simp [b]); simp [a, b] at this) (by simp [b]) (by simp [a])
    exact ⟨r, _, h2, h4⟩

private theorem itv_close {c c' t t' tA tR : ℝ} (hA : 0 ≤ tA) :
    EllClose tA tR (itv c 1 t) (itv c' 1 t') ↔ EntryClose (.fin tA) (some (.fin tR)) (.fin c : XF ℝ) (.fin c') := by
  constructor
  · rintro ⟨h, h1, -⟩; exact h1 (0 : Fin 1)
  · intro h1
    have hI : IsPSD (itv c 1 t).Q := itv_psd c zero_le_one
    have hII : (itv c 1 t).Q * (itv c 1 t).Q = (itv c 1 t).Q := by
      ext i j
      show ∑ k : Fin 1, (1 : ℝ) * 1 = 1
      simp
    exact ⟨rfl, fun _ => h1, (itv c 1 t).Q, (itv c 1 t).Q, hI, hII, hI, hII,
      fun i j => EntryClose.refl (show ValidTol (.fin tA) from hA) _ _⟩

/-- **C48**, a consequence of the common tolerances: the verdict in an array may differ from the verdict on the two ellipsoids alone.
`x == y` is true, but in `[x, z] == [y, z]`, where `z` has a smaller tolerance, the first verdict is false. -/
theorem C48_violation_tol (E : Eigh) : ∃ x y z : EllObj, ValidObj x ∧ ValidObj y ∧ ValidObj z ∧
    eqOp lk fmt (ellClass E) x y = .ok true ∧
    ∃ r rep, isEqual lk fmt (ellClass E) (Arr.vec [x, z]) (Arr.vec [y, z]) false = .ok (r, rep) ∧ r.data = [false, true] := by
  let x := itv 0 1 1
  let y := itv (1 / 2) 1 1
  let z := itv 0 1 (1 / 10)
  have hox : x.props.ok := itv_ok 0 1 (by norm_num)
  have hoy : y.props.ok := itv_ok _ 1 (by norm_num)
  have hoz : z.props.ok := itv_ok 0 1 (by norm_num)
  have hx : IsPSD x.Q := itv_psd 0 zero_le_one
  have hy : IsPSD y.Q := itv_psd _ zero_le_one
  have hz : IsPSD z.Q := itv_psd 0 zero_le_one
  refine ⟨x, y, z, valid_of_psd (n := 1) _ hx hox, valid_of_psd (n := 1) _ hy hoy, valid_of_psd (n := 1) _ hz hoz, ?_, ?_⟩
  · obtain ⟨v, h1, h2⟩ := C48_scalar (lk := lk) (fmt := fmt) E hox hoy hx hy
    rw [h1]
    have : v = true := by
      rw [h2]
      have : min x.absTol y.absTol = 1 := by show min (1 : ℝ) 1 = 1; simp
      rw [this, itv_close zero_le_one]
      refine .inl ?_
      show |(0 : ℝ) - 1 / 2| ≤ 1
      norm_num [abs_le]
    rw [this]
  · obtain ⟨g, hg, h1, -⟩ := psd_main (lk := lk) (fmt := fmt) E (a := Arr.vec [x, z]) (b := Arr.vec [y, z])
      (by simp [Arr.vec]) (by simp [Arr.vec]) (by simp [Arr.vec, hox, hoy, hoz]) (by simp [Arr.vec, hx, hy, hz])
    obtain ⟨r, rep, h2, -, h4⟩ := h1 ⟨by simp [Arr.vec], by simp [Arr.vec], by simp [Arr.vec]⟩
    refine ⟨r, rep, h2, ?_⟩
    have hA : minTol (((Arr.vec [x, z]).data ++ (Arr.vec [y, z]).data).map EllObj.absTol) = 1 / 10 := by
      show min (min (min (1 : ℝ) (1 / 10)) 1) (1 / 10) = 1 / 10
      norm_num
    have hR : minTol (((Arr.vec [x, z]).data ++ (Arr.vec [y, z]).data).map EllObj.relTol) = 1 / 100 := by
      show min (min (min (1 / 100 : ℝ) (1 / 100)) (1 / 100)) (1 / 100) = 1 / 100
      norm_num
    rw [hA, hR] at hg
    have g1 : g x y = false := by
      rw [Bool.eq_false_iff]
      intro h
      rw [hg x (by simp [Arr.vec]) y (by simp [Arr.vec]), itv_close (by norm_num)] at h
      rcases h with h | ⟨rt, hrt, -, h⟩
      · have h : |(0 : ℝ) - 1 / 2| ≤ 1 / 10 := h
        norm_num [abs_le] at h
      · cases hrt
        have h : |(0 : ℝ) - 1 / 2| / ((|(0 : ℝ)| + |(1 / 2 : ℝ)|) / 2) ≤ 1 / 100 := h
        norm_num [abs_of_pos] at h
    have g2 : g z z = true := by
      rw [hg z (by simp [Arr.vec]) z (by simp [Arr.vec]), itv_close (by norm_num)]
      exact EntryClose.refl (show ValidTol (.fin (1 / 10 : ℝ)) from by show (0 : ℝ) ≤ 1 / 10; norm_num) _ _
    rw [h4]
    simp [bcList, Arr.vec, g1, g2]

/-! Hypotheses are satisfiable. -/

example : ValidObj (itv 3 2 (1 / 10)) := valid_of_psd (n := 1) _ (itv_psd (t := 1 / 10) 3 (by norm_num)) (itv_ok 3 2 (by norm_num))

example : ∃ a b : Arr EllObj, a.data.length = 2 ∧ b.data.length = 1 ∧ Compat a b ∧ (∀ e ∈ a.data ++ b.data, e.props.ok) ∧
    (∀ e ∈ a.data ++ b.data, IsPSD e.Q) ∧ IsLeast {t | ∃ e ∈ a.data ++ b.data, e.absTol = t} (1 / 10) := by
  refine ⟨⟨[2, 1], [itv 0 1 1, itv 3 2 (1 / 10)], rfl⟩, ⟨[1], [itv 1 1 (1 / 2)], rfl⟩, rfl, rfl,
    ⟨by simp, by simp, by simp⟩, ?_, ?_, ⟨⟨itv 3 2 (1 / 10), by simp, rfl⟩, ?_⟩⟩
  · simp [itv_ok 0 1 zero_lt_one, itv_ok 3 2 (show (0 : ℝ) < 10⁻¹ by norm_num), itv_ok 1 1 (show (0 : ℝ) < 2⁻¹ by norm_num)]
  · simp [itv_psd 0 (zero_le_one), itv_psd 3 (zero_le_two), itv_psd 1 (zero_le_one)]
  · rintro t ⟨e, he, rfl⟩
    simp only [List.cons_append, List.nil_append, List.mem_cons, List.not_mem_nil, or_false] at he
    rcases he with rfl | rfl | rfl <;> norm_num [itv]

end Ellipy.Ell
