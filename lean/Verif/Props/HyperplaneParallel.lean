import Verif.Props.HyperplaneEq
import Mathlib.Tactic.FinCases

/-! Property theorem C52 (`Hyperplane.is_parallel`). -/

namespace Ellipy.Hyp
open Ellipy.Ell

/-- **C52**, the exact verdict for one pair with non-zero normals: true exactly when the unit normals, or one and the opposite of the other, agree within
the tolerance in *some* coordinate. -/
theorem C52_verdict {h g : HypObj} (e : h.n = g.n) (hh : ∃ i, h.nrm i ≠ 0) (hg : ∃ i, g.nrm i ≠ 0) (tol : ℝ)
    {u : Fin h.n → ℝ} {v : Fin g.n → ℝ} {r q : ℝ} (hu : ∑ i, u i ^ 2 = 1) (hv : ∑ i, v i ^ 2 = 1) (hr : 0 < r) (hq : 0 < q)
    (hru : ∀ i, h.nrm i = r * u i) (hqv : ∀ i, g.nrm i = q * v i) :
    ∃ b, singParallel h g tol = .ok b ∧
      (b = true ↔ (∃ i, |u i - v (Fin.cast e i)| < tol) ∨ ∃ i, |u i + v (Fin.cast e i)| < tol) := by
  classical
  have unit : ∀ {n : ℕ} (w z : Fin n → ℝ) (c : ℝ), ∑ i, z i ^ 2 = 1 → 0 < c → (∀ i, w i = c * z i) → ∀ i, w i / norm2 w = z i := by
    intro n w z c hz hc hw i
    have : norm2 w = c := by
      unfold norm2
      simp only [hw, mul_pow, ← Finset.mul_sum, hz, mul_one]
      exact Real.sqrt_sq hc.le
    rw [this, hw, mul_div_cancel_left₀ _ hc.ne']
  have h1 := unit h.nrm u r hu hr hru
  have h2 := unit g.nrm v q hv hq hqv
  have hn : ¬ h.n = 0 := by obtain ⟨i, -⟩ := hh; intro h0; exact absurd i.2 (by omega)
  have hz : ¬ (norm2 h.nrm = 0 ∨ norm2 g.nrm = 0) := by
    rintro (h | h)
    · exact (norm2_pos hh).ne' h
    · exact (norm2_pos hg).ne' h
  unfold singParallel
  rw [dif_pos e, if_neg hn, if_neg hz]
  simp only [h1, h2]
  by_cases c1 : ∃ i, |u i - v (Fin.cast e i)| < tol
  · rw [if_pos c1]; exact ⟨true, rfl, by simp [c1]⟩
  · rw [if_neg c1]
    by_cases c2 : ∃ i, |u i + v (Fin.cast e i)| < tol
    · rw [if_pos c2]; exact ⟨true, rfl, by simp [c2]⟩
    · rw [if_neg c2]; exact ⟨false, rfl, by simp [c1, c2]⟩

theorem unit_exists {h : HypObj} (hh : ∃ i, h.nrm i ≠ 0) :
    ∃ (u : Fin h.n → ℝ) (r : ℝ), ∑ i, u i ^ 2 = 1 ∧ 0 < r ∧ ∀ i, h.nrm i = r * u i := by
  have hr := norm2_pos hh
  refine ⟨fun i => h.nrm i / norm2 h.nrm, norm2 h.nrm, ?_, hr, fun i => by field_simp⟩
  simp only [div_pow, ← Finset.sum_div, ← norm2_sq]
  exact div_self (pow_ne_zero _ hr.ne')

/-- **C52** (partial): hyperplanes with proportional (non-zero) normals are found parallel, for every positive tolerance.  (The converse fails, see
`C52_violation`.) -/
theorem C52_partial {h g : HypObj} (hh : ∃ i, h.nrm i ≠ 0) (hp : Parallel h g) {tol : ℝ} (ht : 0 < tol) :
    singParallel h g tol = .ok true := by
  obtain ⟨e, k, hk, hp⟩ := hp
  obtain ⟨u, r, hu, hr, hru⟩ := unit_exists hh
  obtain ⟨n, w, s, a, b⟩ := h
  obtain ⟨n', w', s', a', b'⟩ := g
  obtain rfl : n = n' := e
  have hp : ∀ i, w' i = k * w i := hp
  have hru : ∀ i, w i = r * u i := hru
  obtain ⟨i0, hi0⟩ := hh
  have hg : ∃ i, (⟨n, w', s', a', b'⟩ : HypObj).nrm i ≠ 0 := ⟨i0, by
    show w' i0 ≠ 0
    rw [hp]; exact mul_ne_zero hk hi0⟩
  rcases lt_or_gt_of_ne hk with hneg | hpos
  · obtain ⟨v, hv, hiff⟩ := C52_verdict (h := ⟨n, w, s, a, b⟩) (g := ⟨n, w', s', a', b'⟩) rfl ⟨i0, hi0⟩ hg tol (u := u) (v := fun i => -u i) (r := r)
      (q := -(k * r)) hu (by simpa only [neg_sq] using hu) hr (by nlinarith) hru
      (fun i => by show w' i = -(k * r) * -u i; rw [hp, hru]; ring)
    rw [hv, hiff.2 (.inr ⟨i0, ?_⟩)]
    show |u i0 + -u i0| < tol
    simpa using ht
  · obtain ⟨v, hv, hiff⟩ := C52_verdict (h := ⟨n, w, s, a, b⟩) (g := ⟨n, w', s', a', b'⟩) rfl ⟨i0, hi0⟩ hg tol (u := u) (v := u) (r := r)
      (q := k * r) hu hu hr (mul_pos hpos hr) hru
      (fun i => by show w' i = k * r * u i; rw [hp, hru]; ring)
    rw [hv, hiff.2 (.inl ⟨i0, ?_⟩)]
    show |u i0 - u i0| < tol
    simpa using ht

/-- **C52** in one dimension, where the test is right: all points are parallel. -/
theorem C52_one_dim {h g : HypObj} (e : h.n = 1) (e' : g.n = 1) (hh : ∃ i, h.nrm i ≠ 0) (hg : ∃ i, g.nrm i ≠ 0) {tol : ℝ} (ht : 0 < tol) :
    Parallel h g ∧ singParallel h g tol = .ok true := by
  have hp : Parallel h g := by
    obtain ⟨n, w, s, a, b⟩ := h
    obtain ⟨n', w', s', a', b'⟩ := g
    obtain rfl : n = 1 := e
    obtain rfl : n' = 1 := e'
    obtain ⟨i, hi⟩ := hh
    obtain ⟨j, hj⟩ := hg
    have hi' : w 0 ≠ 0 := by rw [show (0 : Fin 1) = i from Subsingleton.elim (α := Fin 1) _ _]; exact hi
    have hj' : w' 0 ≠ 0 := by rw [show (0 : Fin 1) = j from Subsingleton.elim (α := Fin 1) _ _]; exact hj
    refine ⟨rfl, w' 0 / w 0, div_ne_zero hj' hi', fun l => ?_⟩
    have : ∀ l : Fin 1, w' l = w' 0 / w 0 * w l := fun l => by
      rw [Subsingleton.elim l 0]; field_simp
    exact this l
  exact ⟨hp, C52_partial hh hp ht⟩

/-- **C52**, different dimensions: never parallel. -/
theorem C52_dims {h g : HypObj} (e : h.n ≠ g.n) (tol : ℝ) : singParallel h g tol = .ok false ∧ ¬ Parallel h g := by
  refine ⟨by unfold singParallel; rw [dif_neg e], ?_⟩
  rintro ⟨e', -⟩; exact e e'

/-- **C52 is violated.**  In three dimensions the coordinate planes `x₀ = 0` and `x₁ = 0` are found parallel. -/
theorem C52_violation {tol : ℝ} (ht : 0 < tol) : ∃ h g : HypObj, h.n = 3 ∧ (∃ i, h.nrm i ≠ 0) ∧ (∃ i, g.nrm i ≠ 0) ∧ ¬ Parallel h g ∧
    ∑ i, h.nrm i ^ 2 = 1 ∧ (∃ e : h.n = g.n, ∑ i, h.nrm i * g.nrm (Fin.cast e i) = 0) ∧ singParallel h g tol = .ok true := by
  let h : HypObj := ⟨3, ![1, 0, 0], 0, tol, tol⟩
  let g : HypObj := ⟨3, ![0, 1, 0], 0, tol, tol⟩
  have hh : ∃ i, h.nrm i ≠ 0 := ⟨(0 : Fin 3), by show (1 : ℝ) ≠ 0; norm_num⟩
  have hg : ∃ i, g.nrm i ≠ 0 := ⟨(1 : Fin 3), by show (1 : ℝ) ≠ 0; norm_num⟩
  have s1 : ∑ i : Fin 3, (![1, 0, 0] : Fin 3 → ℝ) i ^ 2 = 1 := by simp [Fin.sum_univ_three]
  have s2 : ∑ i : Fin 3, (![0, 1, 0] : Fin 3 → ℝ) i ^ 2 = 1 := by simp [Fin.sum_univ_three]
  refine ⟨h, g, rfl, hh, hg, ?_, s1, ⟨rfl, ?_⟩, ?_⟩
  · rintro ⟨e, k, hk, hp⟩
    have : (0 : ℝ) = k * 1 := hp (0 : Fin 3)
    exact hk (by linarith)
  · show ∑ i : Fin 3, (![1, 0, 0] : Fin 3 → ℝ) i * (![0, 1, 0] : Fin 3 → ℝ) i = 0
    simp [Fin.sum_univ_three]
  · obtain ⟨b, hb, hiff⟩ := C52_verdict (h := h) (g := g) rfl hh hg tol s1 s2 one_pos one_pos (fun i => (one_mul _).symm) (fun i => (one_mul _).symm)
    rw [hb, hiff.2 (.inl ⟨(2 : Fin 3), ?_⟩)]
    show |(0 : ℝ) - 0| < tol
    simpa using ht

/-- **C52 is violated** already in the plane: the lines with normals `(3, 4)` and `(3, -4)` are found parallel. -/
theorem C52_violation_plane {tol : ℝ} (ht : 0 < tol) : ∃ h g : HypObj, h.n = 2 ∧ (∃ i, h.nrm i ≠ 0) ∧ (∃ i, g.nrm i ≠ 0) ∧ ¬ Parallel h g ∧
    singParallel h g tol = .ok true := by
  let h : HypObj := ⟨2, ![3, 4], 0, tol, tol⟩
  let g : HypObj := ⟨2, ![3, -4], 0, tol, tol⟩
  have hh : ∃ i, h.nrm i ≠ 0 := ⟨(0 : Fin 2), by show (3 : ℝ) ≠ 0; norm_num⟩
  have hg : ∃ i, g.nrm i ≠ 0 := ⟨(0 : Fin 2), by show (3 : ℝ) ≠ 0; norm_num⟩
  refine ⟨h, g, rfl, hh, hg, ?_, ?_⟩
  · rintro ⟨e, k, hk, hp⟩
    have h0 : (3 : ℝ) = k * 3 := hp (0 : Fin 2)
    have h1 : (-4 : ℝ) = k * 4 := hp (1 : Fin 2)
    linarith
  · obtain ⟨b, hb, hiff⟩ := C52_verdict (h := h) (g := g) rfl hh hg tol (u := ![3 / 5, 4 / 5]) (v := ![3 / 5, -4 / 5]) (r := 5) (q := 5)
      (by show ∑ i : Fin 2, (![3 / 5, 4 / 5] : Fin 2 → ℝ) i ^ 2 = 1; simp [Fin.sum_univ_two]; norm_num)
      (by show ∑ i : Fin 2, (![3 / 5, -4 / 5] : Fin 2 → ℝ) i ^ 2 = 1; simp [Fin.sum_univ_two]; norm_num) (by norm_num) (by norm_num)
      (by
        have : ∀ i : Fin 2, (![3, 4] : Fin 2 → ℝ) i = 5 * (![3 / 5, 4 / 5] : Fin 2 → ℝ) i := by
          intro i; fin_cases i <;> norm_num
        exact this)
      (by
        have : ∀ i : Fin 2, (![3, -4] : Fin 2 → ℝ) i = 5 * (![3 / 5, -4 / 5] : Fin 2 → ℝ) i := by
          intro i; fin_cases i <;> norm_num
        exact this)
    rw [hb, hiff.2 (.inl ⟨(0 : Fin 2), ?_⟩)]
    show |(3 / 5 : ℝ) - 3 / 5| < tol
    simpa using ht

/-- **C52** (arrays of the same shape): one verdict for every pair, with the tolerance of the first hyperplane. -/
theorem C52_arrays {a b : Arr HypObj} (hs : a.shape = b.shape) (hn : ∀ h ∈ a.data, h.n ≠ 0) :
    ∃ r, isParallel a b = .ok r ∧ r.shape = a.shape ∧
      List.Forall₂ (fun p v => singParallel p.1 p.2 p.1.absTol = .ok v) (a.data.zip b.data) r.data := by
  have hok : ∃ bs, pyMap (fun p : HypObj × HypObj => singParallel p.1 p.2 p.1.absTol) (a.data.zip b.data) = .ok bs := by
    cases hp : pyMap (fun p : HypObj × HypObj => singParallel p.1 p.2 p.1.absTol) (a.data.zip b.data) with
    | ok bs => exact ⟨bs, rfl⟩
    | error e =>
      exfalso
      obtain ⟨p, hp1, e', he'⟩ := (pyMap_raises _ _).1 ⟨e, hp⟩
      have h0 := hn p.1 (List.of_mem_zip hp1).1
      unfold singParallel at he'
      split_ifs at he'
  obtain ⟨bs, hbs⟩ := hok
  have hl : bs.length = a.shape.foldr (· * ·) 1 := by
    rw [pyMap_length hbs, List.length_zip, a.len, b.len, hs, min_self]
  refine ⟨⟨a.shape, bs, hl⟩, ?_, rfl, (pyMap_ok_iff _ _ _).1 hbs⟩
  unfold isParallel
  rw [if_neg (not_not.2 (.inl hs)), hbs]
  exact reshape_ok hl

/-- **C52 is violated** for arrays of different sizes that are accepted: many hyperplanes with one raise always. -/
theorem C52_violation_many {a b : Arr HypObj} (ha : 1 < a.data.length) (hb : b.data.length = 1) : Raises (isParallel a b) := by
  unfold isParallel
  rw [if_neg (not_not.2 (.inr (.inr hb)))]
  cases hp : pyMap (fun p : HypObj × HypObj => singParallel p.1 p.2 p.1.absTol) (a.data.zip b.data) with
  | error e => exact ⟨e, rfl⟩
  | ok bs =>
    have hl : bs.length = 1 := by
      rw [pyMap_length hp, List.length_zip, hb]; omega
    have : reshape bs a.shape = .error .pyValueError := by
      unfold reshape
      rw [dif_neg]
      rw [hl, ← a.len]; omega
    exact ⟨_, this⟩

/-- **C52 is violated**: one hyperplane with many gives one verdict, about the first of the many. -/
theorem C52_violation_one {a b : Arr HypObj} {h g : HypObj} {gs : List HypObj} (ha : a.data = [h]) (hb : b.data = g :: gs) (hn : h.n ≠ 0) :
    ∃ r v, isParallel a b = .ok r ∧ r.data = [v] ∧ singParallel h g h.absTol = .ok v := by
  obtain ⟨v, hv⟩ : ∃ v, singParallel h g h.absTol = .ok v := by
    cases hc : singParallel h g h.absTol with
    | ok v => exact ⟨v, rfl⟩
    | error e =>
      exfalso
      unfold singParallel at hc
      split_ifs at hc
  have hl : [v].length = a.shape.foldr (· * ·) 1 := by rw [← a.len, ha]; rfl
  refine ⟨⟨a.shape, [v], hl⟩, v, ?_, rfl, hv⟩
  unfold isParallel
  rw [if_neg (not_not.2 (.inr (.inl (by rw [ha]; rfl)))), ha, hb]
  simp only [List.zip_cons_cons, List.zip_nil_left, pyMap, hv]
  exact reshape_ok hl

/-- A concrete case: `3 x₀ + 4 x₁ = 5` and `-6 x₀ - 8 x₁ = 1`. -/
example : singParallel ⟨2, ![3, 4], 5, 1 / 2, 1 / 3⟩ ⟨2, ![-6, -8], 1, 1 / 2, 1 / 3⟩ (1 / 10 ^ 7) = .ok true := by
  refine C52_partial (h := ⟨2, ![3, 4], 5, 1 / 2, 1 / 3⟩) (g := ⟨2, ![-6, -8], 1, 1 / 2, 1 / 3⟩) ⟨(0 : Fin 2), by
    show (3 : ℝ) ≠ 0; norm_num⟩ ⟨rfl, -2, by norm_num, ?_⟩ (by norm_num)
  have : ∀ i : Fin 2, (![-6, -8] : Fin 2 → ℝ) i = -2 * (![3, 4] : Fin 2 → ℝ) i := by
    intro i; fin_cases i <;> norm_num
  exact this

/-- The answer can be negative: the lines with normals `(1, 0)` and `(3, 4)`. -/
example : singParallel ⟨2, ![1, 0], 0, 1, 1⟩ ⟨2, ![3, 4], 0, 1, 1⟩ (1 / 10) = .ok false := by
  obtain ⟨b, hb, hiff⟩ := C52_verdict (h := ⟨2, ![1, 0], 0, 1, 1⟩) (g := ⟨2, ![3, 4], 0, 1, 1⟩) rfl ⟨(0 : Fin 2), by show (1 : ℝ) ≠ 0; norm_num⟩
    ⟨(0 : Fin 2), by show (3 : ℝ) ≠ 0; norm_num⟩ (1 / 10) (u := ![1, 0]) (v := ![3 / 5, 4 / 5]) (r := 1) (q := 5)
    (by show ∑ i : Fin 2, (![1, 0] : Fin 2 → ℝ) i ^ 2 = 1; simp [Fin.sum_univ_two])
    (by show ∑ i : Fin 2, (![3 / 5, 4 / 5] : Fin 2 → ℝ) i ^ 2 = 1; simp [Fin.sum_univ_two]; norm_num) one_pos (by norm_num)
    (fun i => (one_mul _).symm) (by
      have : ∀ i : Fin 2, (![3, 4] : Fin 2 → ℝ) i = 5 * (![3 / 5, 4 / 5] : Fin 2 → ℝ) i := by
        intro i; fin_cases i <;> norm_num
      exact this)
  cases b with
  | false => exact hb
  | true =>
    exfalso
    have h1 : ∀ i : Fin 2, ¬ |(![1, 0] : Fin 2 → ℝ) i - (![3 / 5, 4 / 5] : Fin 2 → ℝ) i| < 1 / 10 := by
      intro i
      fin_cases i
      · show ¬ |(1 : ℝ) - 3 / 5| < 1 / 10
        rw [abs_of_pos (by norm_num)]; norm_num
      · show ¬ |(0 : ℝ) - 4 / 5| < 1 / 10
        rw [abs_of_neg (by norm_num)]; norm_num
    have h2 : ∀ i : Fin 2, ¬ |(![1, 0] : Fin 2 → ℝ) i + (![3 / 5, 4 / 5] : Fin 2 → ℝ) i| < 1 / 10 := by
      intro i
      fin_cases i
      · show ¬ |(1 : ℝ) + 3 / 5| < 1 / 10
        rw [abs_of_pos (by norm_num)]; norm_num
      · show ¬ |(0 : ℝ) + 4 / 5| < 1 / 10
        rw [abs_of_pos (by norm_num)]; norm_num
    rcases hiff.1 rfl with ⟨i, hi⟩ | ⟨i, hi⟩
    · exact h1 i hi
    · exact h2 i hi

end Ellipy.Hyp
