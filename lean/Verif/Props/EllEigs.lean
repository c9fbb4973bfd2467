import Verif.Proofs.Ell
import Verif.Props.TypeChecks

/-! Property theorems C81 (`min_eig`, `max_eig`) and C82 (`trace`). -/

namespace Ellipy.Ell
open Matrix Ellipy.LA

theorem max?_ofFn {n : ℕ} (f : Fin n → ℝ) :
    (n = 0 ∧ (List.ofFn f).max? = none) ∨ ∃ i, (List.ofFn f).max? = some (f i) ∧ ∀ j, f j ≤ f i := by
  cases h : (List.ofFn f).max? with
  | none =>
    left
    rw [List.max?_eq_none_iff] at h
    exact ⟨List.ofFn_eq_nil_iff.mp h, rfl⟩
  | some m =>
    right
    obtain ⟨h1, h2⟩ := List.max?_eq_some_iff.mp h
    obtain ⟨i, rfl⟩ := List.mem_ofFn.mp h1
    exact ⟨i, rfl, fun j => h2 _ (List.mem_ofFn.mpr ⟨j, rfl⟩)⟩

theorem eigh_vals_le_iff (E : Eigh) {n : ℕ} (Q : Matrix (Fin n) (Fin n) ℝ) (t : ℝ) :
    (∀ i, E.vals Q i ≤ t) ↔ ∀ x : Fin n → ℝ, x ⬝ᵥ lowerSym Q *ᵥ x ≤ t * (x ⬝ᵥ x) := by
  constructor
  · intro h x
    rw [E.quad Q, E.norm Q, Finset.mul_sum]
    exact Finset.sum_le_sum (fun i _ => mul_le_mul_of_nonneg_right (h i) (sq_nonneg _))
  · intro h i
    obtain ⟨v, hv, hq⟩ := E.eigvec Q i
    have := h v
    rw [hq, dotProduct_smul, hv, smul_eq_mul, mul_one, mul_one] at this
    exact this

theorem singleMinEig_spec (E : Eigh) (e : EllObj) (hn : e.n ≠ 0) :
    ∃ r, singleMinEig E e = .ok r ∧ IsLeast (formValues (lowerSym e.Q)) r := by
  unfold singleMinEig
  rcases min?_ofFn (E.vals e.Q) with ⟨h0, _⟩ | ⟨i, h, hi⟩
  · exact absurd h0 hn
  rw [h]
  refine ⟨_, rfl, ?_, ?_⟩
  · obtain ⟨v, hv, hq⟩ := E.eigvec e.Q i
    exact ⟨v, hv, by rw [hq, dotProduct_smul, hv, smul_eq_mul, mul_one]⟩
  · rintro _ ⟨x, hx, rfl⟩
    have := (E.le_vals_iff e.Q _).mp hi x
    rwa [hx, mul_one] at this

theorem singleMaxEig_spec (E : Eigh) (e : EllObj) (hn : e.n ≠ 0) :
    ∃ r, singleMaxEig E e = .ok r ∧ IsGreatest (formValues (lowerSym e.Q)) r := by
  unfold singleMaxEig
  rcases max?_ofFn (E.vals e.Q) with ⟨h0, _⟩ | ⟨i, h, hi⟩
  · exact absurd h0 hn
  rw [h]
  refine ⟨_, rfl, ?_, ?_⟩
  · obtain ⟨v, hv, hq⟩ := E.eigvec e.Q i
    exact ⟨v, hv, by rw [hq, dotProduct_smul, hv, smul_eq_mul, mul_one]⟩
  · rintro _ ⟨x, hx, rfl⟩
    have := (eigh_vals_le_iff E e.Q _).mp hi x
    rwa [hx, mul_one] at this

theorem forall₂_ok {α β : Type} {f : α → Py β} {P : α → β → Prop} {l : List α} (h : ∀ x ∈ l, ∃ y, f x = .ok y ∧ P x y) :
    ∃ ys, pyMap f l = .ok ys ∧ List.Forall₂ P l ys := by
  induction l with
  | nil => exact ⟨[], rfl, .nil⟩
  | cons x l ih =>
    obtain ⟨y, hy, hp⟩ := h x (by simp)
    obtain ⟨ys, hys, hps⟩ := ih (fun z hz => h z (by simp [hz]))
    refine ⟨y :: ys, ?_, .cons hp hps⟩
    unfold pyMap
    rw [hy, hys]

/-- The three queries reject the same arguments. -/
def QueryRejects (arg : ObjArg EllObj) (e : Exc) : Prop :=
  (arg.Foreign ∧ e = .valueError "wrongInput") ∨
  (∃ a, arg.Is a ∧ (∃ x ∈ a.data, x.n = 0) ∧ e = .valueError "wrongInput:emptyEllipsoid")

theorem query_rejects {β : Type} (arg : ObjArg EllObj) (g : Arr EllObj → Py (List β))
    (hg : ∀ a : Arr EllObj, (∀ x ∈ a.data, x.n ≠ 0) → ¬ Raises (g a)) (e : Exc) :
    (match checkIsMe "wrongInput" "" arg with
      | .error e => .error e
      | .ok a => open Classical in if anyEmpty a.data then throwErr "wrongInput:emptyEllipsoid" else g a : Py (List β)) = .error e ↔
    QueryRejects arg e := by
  cases h : checkIsMe "wrongInput" "" arg with
  | error e' =>
    obtain ⟨h1, rfl⟩ := (C80_raises_iff _ _ _ _).mp h
    simp only [if_true]
    constructor
    · intro h; injection h with h; subst h; exact Or.inl ⟨h1, rfl⟩
    · rintro (⟨_, rfl⟩ | ⟨a, ha, _⟩)
      · rfl
      · rw [(C80_ok_iff _ _ _ _).mpr ha] at h; cases h
  | ok a =>
    simp only
    have ha := (C80_ok_iff _ _ _ _).mp h
    by_cases he : anyEmpty a.data
    · rw [if_pos he]
      constructor
      · intro h'; injection h' with h'; subst h'; exact Or.inr ⟨a, ha, he, rfl⟩
      · rintro (⟨hf, _⟩ | ⟨a', ha', _, rfl⟩)
        · rw [(C80_raises_iff _ _ _ _).mpr ⟨hf, rfl⟩] at h; cases h
        · rfl
    · rw [if_neg he]
      have hne : ∀ x ∈ a.data, x.n ≠ 0 := fun x hx h0 => he ⟨x, hx, h0⟩
      refine iff_of_false (fun h' => hg a hne ⟨_, h'⟩) ?_
      rintro (⟨hf, _⟩ | ⟨a', ha', hx, rfl⟩)
      · rw [(C80_raises_iff _ _ _ _).mpr ⟨hf, rfl⟩] at h; cases h
      · rw [(C80_ok_iff _ _ _ _).mpr ha'] at h
        injection h with h
        subst h
        exact he hx

/-- **C81**: which arguments are rejected: those with something that is not an ellipsoid and those with an empty ellipsoid. -/
theorem C81_raises_iff (E : Eigh) (arg : ObjArg EllObj) (e : Exc) :
    (minEig E arg = .error e ↔ QueryRejects arg e) ∧ (maxEig E arg = .error e ↔ QueryRejects arg e) := by
  constructor
  · refine query_rejects arg (fun a => pyMap (singleMinEig E) a.data) (fun a ha hr => ?_) e
    obtain ⟨x, hx, y, hy⟩ := (pyMap_raises _ _).mp hr
    obtain ⟨r, hr, _⟩ := singleMinEig_spec E x (ha x hx)
    rw [hr] at hy; cases hy
  · refine query_rejects arg (fun a => pyMap (singleMaxEig E) a.data) (fun a ha hr => ?_) e
    obtain ⟨x, hx, y, hy⟩ := (pyMap_raises _ _).mp hr
    obtain ⟨r, hr, _⟩ := singleMaxEig_spec E x (ha x hx)
    rw [hr] at hy; cases hy

/-- **C81**: the results have one entry for each ellipsoid, in row-major order: the smallest and the largest value of the quadratic form
(of the matrix on the lower triangle) on the unit sphere. -/
theorem C81_form (E : Eigh) (arg : ObjArg EllObj) (a : Arr EllObj) (ha : arg.Is a) (hne : ∀ x ∈ a.data, x.n ≠ 0) :
    (∃ rs, minEig E arg = .ok rs ∧ List.Forall₂ (fun (x : EllObj) r => IsLeast (formValues (lowerSym x.Q)) r) a.data rs) ∧
    (∃ rs, maxEig E arg = .ok rs ∧ List.Forall₂ (fun (x : EllObj) r => IsGreatest (formValues (lowerSym x.Q)) r) a.data rs) := by
  have he : ¬ anyEmpty a.data := by rintro ⟨x, hx, h0⟩; exact hne x hx h0
  unfold minEig maxEig
  rw [(C80_ok_iff _ _ _ _).mpr ha]
  simp only
  rw [if_neg he, if_neg he]
  exact ⟨forall₂_ok (fun x hx => singleMinEig_spec E x (hne x hx)), forall₂_ok (fun x hx => singleMaxEig_spec E x (hne x hx))⟩

theorem dot_sub_unit {n : ℕ} (l y : Fin n → ℝ) : (l ⬝ᵥ y) ^ 2 ≤ (l ⬝ᵥ l) * (y ⬝ᵥ y) := by
  have h := Finset.sum_mul_sq_le_sq_mul_sq Finset.univ l y
  rw [dot_self_eq, dot_self_eq]
  exact h

/-- A unit vector along `x`. -/
theorem exists_unit {n : ℕ} {x : Fin n → ℝ} (hx : x ≠ 0) : ∃ v : Fin n → ℝ, v ⬝ᵥ v = 1 ∧ x = Real.sqrt (x ⬝ᵥ x) • v := by
  have hpos := dot_self_pos hx
  have hs := Real.sqrt_pos.mpr hpos
  have hss := Real.mul_self_sqrt hpos.le
  refine ⟨(1 / Real.sqrt (x ⬝ᵥ x)) • x, ?_, ?_⟩
  · rw [smul_dotProduct, dotProduct_smul, smul_eq_mul, smul_eq_mul]
    nth_rw 3 [← hss]
    field_simp
  · rw [smul_smul, mul_one_div_cancel hs.ne', one_smul]

theorem least_form {n : ℕ} {Q : Matrix (Fin n) (Fin n) ℝ} {r : ℝ} (h : IsLeast (formValues Q) r) (x : Fin n → ℝ) :
    r * (x ⬝ᵥ x) ≤ x ⬝ᵥ Q *ᵥ x := by
  by_cases hx : x = 0
  · subst hx; simp
  obtain ⟨v, hv, hxv⟩ := exists_unit hx
  have h1 := h.2 ⟨v, hv, rfl⟩
  have hss := Real.mul_self_sqrt (dot_self_nonneg x)
  have h2 : x ⬝ᵥ Q *ᵥ x = (x ⬝ᵥ x) * (v ⬝ᵥ Q *ᵥ v) := by
    nth_rw 1 [hxv]
    nth_rw 3 [hxv]
    rw [mulVec_smul, smul_dotProduct, dotProduct_smul, smul_eq_mul, smul_eq_mul, ← mul_assoc, hss]
  rw [h2, mul_comm]
  exact mul_le_mul_of_nonneg_left h1 (dot_self_nonneg x)

theorem greatest_form {n : ℕ} {Q : Matrix (Fin n) (Fin n) ℝ} {r : ℝ} (h : IsGreatest (formValues Q) r) (x : Fin n → ℝ) :
    x ⬝ᵥ Q *ᵥ x ≤ r * (x ⬝ᵥ x) := by
  have h' : IsLeast (formValues (-Q)) (-r) := by
    obtain ⟨⟨v, hv, hr⟩, h2⟩ := h
    refine ⟨⟨v, hv, by rw [neg_mulVec, dotProduct_neg, hr]⟩, ?_⟩
    rintro _ ⟨y, hy, rfl⟩
    rw [neg_mulVec, dotProduct_neg]
    exact neg_le_neg (h2 ⟨y, hy, rfl⟩)
  have := least_form h' x
  rw [neg_mulVec, dotProduct_neg] at this
  linarith

/-- **C81**: the square roots of the results are the radii of the largest ball about the centre inside the ellipsoid and of the smallest
one that contains it. -/
theorem C81_balls (E : Eigh) (arg : ObjArg EllObj) (a : Arr EllObj) (ha : arg.Is a) (hne : ∀ x ∈ a.data, x.n ≠ 0 ∧ IsPSD x.Q) :
    (∃ rs, minEig E arg = .ok rs ∧ List.Forall₂ (fun (x : EllObj) r =>
      0 ≤ r ∧ IsGreatest {t | 0 ≤ t ∧ Ball x.c t ⊆ Ell x.c x.Q} (Real.sqrt r)) a.data rs) ∧
    (∃ rs, maxEig E arg = .ok rs ∧ List.Forall₂ (fun (x : EllObj) r =>
      0 ≤ r ∧ IsLeast {t | 0 ≤ t ∧ Ell x.c x.Q ⊆ Ball x.c t} (Real.sqrt r)) a.data rs) := by
  obtain ⟨⟨rs, hrs, h1⟩, ss, hss, h2⟩ := C81_form E arg a ha (fun x hx => (hne x hx).1)
  refine ⟨⟨rs, hrs, ?_⟩, ss, hss, ?_⟩
  · clear h2 hrs hss ha
    rw [List.forall₂_iff_get] at h1 ⊢
    refine ⟨h1.1, fun i hi hi' => ?_⟩
    have hl := h1.2 i hi hi'
    obtain ⟨hn, hQ⟩ := hne _ (List.get_mem a.data ⟨i, hi⟩)
    generalize a.data.get ⟨i, hi⟩ = x at hl hn hQ ⊢
    generalize rs.get ⟨i, hi'⟩ = r at hl ⊢
    rw [lowerSym_of_symm hQ.1] at hl
    have hr : 0 ≤ r := by
      obtain ⟨v, _, rfl⟩ := hl.1
      exact hQ.2 v
    refine ⟨hr, ⟨Real.sqrt_nonneg _, ?_⟩, ?_⟩
    · intro y hy
      rw [mem_ell_support hQ]
      intro l
      simp only [Ball, Set.mem_setOf_eq, Real.sq_sqrt hr] at hy
      calc (l ⬝ᵥ (y - x.c)) ^ 2 ≤ (l ⬝ᵥ l) * ((y - x.c) ⬝ᵥ (y - x.c)) := dot_sub_unit _ _
        _ ≤ (l ⬝ᵥ l) * r := mul_le_mul_of_nonneg_left hy (dot_self_nonneg l)
        _ ≤ l ⬝ᵥ x.Q *ᵥ l := by rw [mul_comm]; exact least_form hl l
    · rintro t ⟨ht, hb⟩
      obtain ⟨v, hv, hvr⟩ := hl.1
      have hm : x.c + t • v ∈ Ball x.c t := by
        simp only [Ball, Set.mem_setOf_eq, add_sub_cancel_left]
        rw [smul_dotProduct, dotProduct_smul, hv]
        simp [sq]
      have := (mem_ell_support hQ _).mp (hb hm) v
      rw [add_sub_cancel_left, dotProduct_smul, hv, smul_eq_mul, mul_one, ← hvr] at this
      exact Real.le_sqrt_of_sq_le this
  · clear h1 hrs hss ha
    rw [List.forall₂_iff_get] at h2 ⊢
    refine ⟨h2.1, fun i hi hi' => ?_⟩
    have hl := h2.2 i hi hi'
    obtain ⟨hn, hQ⟩ := hne _ (List.get_mem a.data ⟨i, hi⟩)
    generalize a.data.get ⟨i, hi⟩ = x at hl hn hQ ⊢
    generalize ss.get ⟨i, hi'⟩ = r at hl ⊢
    rw [lowerSym_of_symm hQ.1] at hl
    have hr : 0 ≤ r := by
      obtain ⟨v, _, rfl⟩ := hl.1
      exact hQ.2 v
    refine ⟨hr, ⟨Real.sqrt_nonneg _, ?_⟩, ?_⟩
    · intro y hy
      rw [mem_ell_support hQ] at hy
      simp only [Ball, Set.mem_setOf_eq, Real.sq_sqrt hr]
      have h3 := hy (y - x.c)
      have h4 := greatest_form hl (y - x.c)
      by_contra hlt
      push Not at hlt
      have hp : 0 < (y - x.c) ⬝ᵥ (y - x.c) := lt_of_le_of_lt hr hlt
      nlinarith
    · rintro t ⟨ht, hb⟩
      obtain ⟨v, hv, hvr⟩ := hl.1
      obtain ⟨h3, h4⟩ := support_point (c := x.c) hQ v
      have h5 := hb h3
      simp only [Ball, Set.mem_setOf_eq, add_sub_cancel_left] at h5
      rw [dotProduct_add, add_right_inj] at h4
      have h6 := dot_sub_unit v ((1 / Real.sqrt (v ⬝ᵥ x.Q *ᵥ v)) • x.Q *ᵥ v)
      rw [h4, hv, one_mul, ← hvr] at h6
      rw [← hvr] at h5
      have h7 := h6.trans h5
      rw [Real.sq_sqrt hr] at h7
      exact Real.sqrt_le_iff.mpr ⟨ht, h7⟩

/-- The ellipsoid with the semiaxes 2 and 3. -/
example (E : Eigh) : ∃ r s, minEig E (.single (.inst ⟨2, ![1, 1], !![4, 0; 0, 9], 1, 1, 1, 1⟩)) = .ok [r] ∧
    maxEig E (.single (.inst ⟨2, ![1, 1], !![4, 0; 0, 9], 1, 1, 1, 1⟩)) = .ok [s] ∧ r = 4 ∧ s = 9 := by
  have hS : (!![4, 0; 0, 9] : Matrix (Fin 2) (Fin 2) ℝ)ᵀ = !![4, 0; 0, 9] := by
    ext i j; fin_cases i <;> fin_cases j <;> rfl
  obtain ⟨⟨rs, h1, h2⟩, ss, h3, h4⟩ := C81_form E (.single (.inst ⟨2, ![1, 1], !![4, 0; 0, 9], 1, 1, 1, 1⟩)) _ (Or.inl ⟨_, rfl, rfl⟩)
    (by simp [Arr.scalar])
  match rs, h2 with
  | [r], .cons hr .nil =>
    match ss, h4 with
    | [s], .cons hs .nil =>
      refine ⟨r, s, h1, h3, ?_, ?_⟩
      · simp only [lowerSym_of_symm hS] at hr
        refine le_antisymm (hr.2 ⟨![1, 0], by simp [dotProduct, Fin.sum_univ_two], by
          simp [dotProduct, mulVec, Fin.sum_univ_two]⟩) ?_
        obtain ⟨v, hv, rfl⟩ := hr.1
        simp [dotProduct, mulVec, Fin.sum_univ_two] at hv ⊢
        nlinarith [sq_nonneg (v 1)]
      · simp only [lowerSym_of_symm hS] at hs
        refine le_antisymm ?_ (hs.2 ⟨![0, 1], by simp [dotProduct, Fin.sum_univ_two], by
          simp [dotProduct, mulVec, Fin.sum_univ_two]⟩)
        obtain ⟨v, hv, rfl⟩ := hs.1
        simp [dotProduct, mulVec, Fin.sum_univ_two] at hv ⊢
        nlinarith [sq_nonneg (v 0)]

/-! ### C82 -/

/-- **C82**: which arguments `trace` rejects. -/
theorem C82_raises_iff (arg : ObjArg EllObj) (e : Exc) : trace arg = .error e ↔ QueryRejects arg e := by
  refine query_rejects arg (fun a => .ok (a.data.map (fun e => ∑ i, e.Q i i))) (fun a ha hr => ?_) e
  obtain ⟨y, hy⟩ := hr
  cases hy

theorem trace_orth {n : ℕ} (Q V : Matrix (Fin n) (Fin n) ℝ) (hV : Vᵀ * V = 1) :
    ∑ i, (fun k => V k i) ⬝ᵥ Q *ᵥ (fun k => V k i) = ∑ i, Q i i := by
  have h : ∀ i, (fun k => V k i) ⬝ᵥ Q *ᵥ (fun k => V k i) = (Vᵀ * (Q * V)) i i := by
    intro i
    rw [mul_apply]
    rfl
  simp only [h]
  change Matrix.trace (Vᵀ * (Q * V)) = Matrix.trace Q
  rw [Matrix.trace_mul_comm, Matrix.mul_assoc, orth_comm hV, Matrix.mul_one]

/-- **C82**: the result has one entry for each ellipsoid: the sum of the squared half widths along any orthonormal basis, which is the
squared distance from the centre to every corner of every box of that kind around the ellipsoid. -/
theorem C82 (arg : ObjArg EllObj) (a : Arr EllObj) (ha : arg.Is a) (hne : ∀ x ∈ a.data, x.n ≠ 0 ∧ IsPSD x.Q) :
    ∃ rs, trace arg = .ok rs ∧ List.Forall₂ (fun (x : EllObj) r =>
      ∀ V : Matrix (Fin x.n) (Fin x.n) ℝ, Vᵀ * V = 1 → ∀ w : Fin x.n → ℝ, (∀ i, IsSupport (Ell x.c x.Q) (fun k => V k i) (w i)) →
        ∑ i, (w i - (fun k => V k i) ⬝ᵥ x.c) ^ 2 = r ∧
        ∀ y : Fin x.n → ℝ, (∀ i, (fun k => V k i) ⬝ᵥ y = w i) → (y - x.c) ⬝ᵥ (y - x.c) = r) a.data rs := by
  have he : ¬ anyEmpty a.data := by rintro ⟨x, hx, h0⟩; exact (hne x hx).1 h0
  unfold trace
  rw [(C80_ok_iff _ _ _ _).mpr ha]
  simp only
  rw [if_neg he]
  refine ⟨_, rfl, ?_⟩
  rw [List.forall₂_map_right_iff, List.forall₂_same]
  intro x hx V hV w hw
  obtain ⟨_, hQ⟩ := hne x hx
  have h1 : ∑ i, (w i - (fun k => V k i) ⬝ᵥ x.c) ^ 2 = ∑ i, x.Q i i := by
    rw [← trace_orth x.Q V hV]
    refine Finset.sum_congr rfl (fun i _ => ?_)
    have := (ell_support (c := x.c) hQ (fun k => V k i)).unique (hw i)
    rw [← this, add_sub_cancel_left, Real.sq_sqrt (hQ.2 _)]
  refine ⟨h1, fun y hy => ?_⟩
  rw [← dot_orthT hV, dot_self_eq, ← h1]
  refine Finset.sum_congr rfl (fun i _ => ?_)
  have : (Vᵀ *ᵥ (y - x.c)) i = (fun k => V k i) ⬝ᵥ (y - x.c) := rfl
  rw [this, dotProduct_sub, hy i]

/-- The corners of the box `[-1, 3] × [-2, 4]` around the ellipsoid with the semiaxes 2 and 3 at `(1, 1)`: the squared distance is 13. -/
example : trace (.single (.inst ⟨2, ![1, 1], !![4, 0; 0, 9], 1, 1, 1, 1⟩)) = .ok [13] := by
  obtain ⟨rs, h1, h2⟩ := C82 (.single (.inst ⟨2, ![1, 1], !![4, 0; 0, 9], 1, 1, 1, 1⟩)) _ (Or.inl ⟨_, rfl, rfl⟩) (by
    intro x hx
    simp only [Arr.scalar, List.mem_singleton] at hx
    subst hx
    refine ⟨by norm_num, ?_, ?_⟩
    · ext i j; fin_cases i <;> fin_cases j <;> rfl
    · intro v
      simp [dotProduct, mulVec, Fin.sum_univ_two]
      nlinarith [sq_nonneg (v 0), sq_nonneg (v 1)])
  match rs, h2 with
  | [r], .cons hr .nil =>
    rw [h1]
    have hQ : IsPSD (!![4, 0; 0, 9] : Matrix (Fin 2) (Fin 2) ℝ) := by
      refine ⟨?_, ?_⟩
      · ext i j; fin_cases i <;> fin_cases j <;> rfl
      · intro v
        simp [dotProduct, mulVec, Fin.sum_univ_two]
        nlinarith [sq_nonneg (v 0), sq_nonneg (v 1)]
    have e0 : (fun k => (1 : Matrix (Fin 2) (Fin 2) ℝ) k 0) = ![1, 0] := by ext k; fin_cases k <;> rfl
    have e1 : (fun k => (1 : Matrix (Fin 2) (Fin 2) ℝ) k 1) = ![0, 1] := by ext k; fin_cases k <;> rfl
    have h0 : IsSupport (Ell (![1, 1] : Fin 2 → ℝ) !![4, 0; 0, 9]) ![1, 0] 3 := by
      have := ell_support (c := (![1, 1] : Fin 2 → ℝ)) hQ ![1, 0]
      have h4 : Real.sqrt 4 = 2 := by rw [show (4 : ℝ) = 2 ^ 2 by norm_num, Real.sqrt_sq (by norm_num)]
      convert this using 1
      simp [dotProduct, mulVec, Fin.sum_univ_two, h4]
      norm_num
    have h1' : IsSupport (Ell (![1, 1] : Fin 2 → ℝ) !![4, 0; 0, 9]) ![0, 1] 4 := by
      have := ell_support (c := (![1, 1] : Fin 2 → ℝ)) hQ ![0, 1]
      have h4 : Real.sqrt 9 = 3 := by rw [show (9 : ℝ) = 3 ^ 2 by norm_num, Real.sqrt_sq (by norm_num)]
      convert this using 1
      simp [dotProduct, mulVec, Fin.sum_univ_two, h4]
      norm_num
    have h5 := (hr 1 (by simp) ![3, 4] (by
      change ∀ i : Fin 2, IsSupport (Ell (![1, 1] : Fin 2 → ℝ) !![4, 0; 0, 9]) (fun k => (1 : Matrix (Fin 2) (Fin 2) ℝ) k i) (![3, 4] i)
      rw [Fin.forall_fin_two, e0, e1]
      exact ⟨h0, h1'⟩)).1
    change ∑ i : Fin 2, (![3, 4] i - (fun k => (1 : Matrix (Fin 2) (Fin 2) ℝ) k i) ⬝ᵥ (![1, 1] : Fin 2 → ℝ)) ^ 2 = r at h5
    rw [Fin.sum_univ_two, e0, e1] at h5
    simp [dotProduct, Fin.sum_univ_two] at h5
    norm_num at h5
    rw [← h5]

end Ellipy.Ell
