import Mathlib.Analysis.SpecialFunctions.Complex.Log
import Verif.Props.BoundaryDense
import Verif.Props.SphereFan
import Verif.Props.CirclePart

/-! Property theorems C152 (`circle_part`, `get_boundary`): laws of the points on a circle, and what the points of the boundary tell about the ellipsoid. -/

namespace Ellipy.Geom
open Complex

/-- Powers of a root of one other than one. -/
theorem powers_sum {z : ℂ} {n : ℕ} (h : z ^ n = 1) (h1 : z ≠ 1) : ∑ k ∈ Finset.range n, z ^ k = 0 := by
  have := mul_geom_sum z n
  rw [h, sub_self] at this
  exact (mul_eq_zero.mp this).resolve_left (sub_ne_zero.mpr h1)

/-- The cosines and the sines of the multiples of `2πm/n`. -/
theorem trig_sum {n m : ℕ} (hm : 0 < m) (hmn : m < n) :
    ∑ k ∈ Finset.range n, Real.cos (m * (2 * Real.pi * k / n)) = 0 ∧ ∑ k ∈ Finset.range n, Real.sin (m * (2 * Real.pi * k / n)) = 0 := by
  have hn0 : (n : ℝ) ≠ 0 := by exact_mod_cast (by omega : n ≠ 0)
  have hnC : (n : ℂ) ≠ 0 := by exact_mod_cast (by omega : n ≠ 0)
  set z : ℂ := exp ((m * (2 * Real.pi / n) : ℝ) * I) with hz
  have hk : ∀ k : ℕ, z ^ k = exp ((m * (2 * Real.pi * k / n) : ℝ) * I) := by
    intro k
    rw [hz, ← exp_nat_mul]
    congr 1
    push_cast
    ring
  have hzn : z ^ n = 1 := by
    rw [hk, show ((m * (2 * Real.pi * n / n) : ℝ) : ℂ) * I = m * (2 * Real.pi * I) by push_cast; field_simp]
    exact exp_nat_mul_two_pi_mul_I m
  have hz1 : z ≠ 1 := by
    intro h
    rw [hz, exp_eq_one_iff] at h
    obtain ⟨j, hj⟩ := h
    have h2 : ((m * (2 * Real.pi / n) : ℝ) : ℂ) = ((j * (2 * Real.pi) : ℝ) : ℂ) := by
      have : ((m * (2 * Real.pi / n) : ℝ) : ℂ) * I = ((j * (2 * Real.pi) : ℝ) : ℂ) * I := by rw [hj]; push_cast; ring
      exact mul_right_cancel₀ I_ne_zero this
    have h3 : (m * (2 * Real.pi / n) : ℝ) = j * (2 * Real.pi) := by exact_mod_cast h2
    have hpi := Real.pi_ne_zero
    field_simp at h3
    have h4 : (m : ℤ) = n * j := by exact_mod_cast h3
    have h5 : (n : ℤ) ∣ m := ⟨j, h4⟩
    have := Nat.le_of_dvd hm (by exact_mod_cast h5)
    omega
  have hs := powers_sum hzn hz1
  constructor
  · have := congrArg Complex.re hs
    rw [Complex.re_sum] at this
    rw [← Complex.zero_re, ← this]
    exact Finset.sum_congr rfl (fun k _ => by rw [hk, exp_ofReal_mul_I_re])
  · have := congrArg Complex.im hs
    rw [Complex.im_sum] at this
    rw [← Complex.zero_im, ← this]
    exact Finset.sum_congr rfl (fun k _ => by rw [hk, exp_ofReal_mul_I_im])

/-- The second moments of the points of the circle. -/
theorem trig_moments {n : ℕ} (hn : 3 ≤ n) :
    ∑ k ∈ Finset.range n, Real.cos (2 * Real.pi * k / n) ^ 2 = n / 2 ∧ ∑ k ∈ Finset.range n, Real.sin (2 * Real.pi * k / n) ^ 2 = n / 2 ∧
    ∑ k ∈ Finset.range n, Real.cos (2 * Real.pi * k / n) * Real.sin (2 * Real.pi * k / n) = 0 := by
  obtain ⟨hc, hs⟩ := trig_sum (n := n) (m := 2) (by norm_num) (by omega)
  push_cast at hc hs
  refine ⟨?_, ?_, ?_⟩
  · have : ∀ k ∈ Finset.range n, Real.cos (2 * Real.pi * k / n) ^ 2 = 1 / 2 + 1 / 2 * Real.cos (2 * (2 * Real.pi * k / n)) := by
      intro k _; rw [Real.cos_two_mul]; ring
    rw [Finset.sum_congr rfl this, Finset.sum_add_distrib, ← Finset.mul_sum, hc]
    simp [div_eq_mul_inv]
  · have : ∀ k ∈ Finset.range n, Real.sin (2 * Real.pi * k / n) ^ 2 = 1 / 2 - 1 / 2 * Real.cos (2 * (2 * Real.pi * k / n)) := by
      intro k _; rw [Real.cos_two_mul, Real.cos_sq']; ring
    rw [Finset.sum_congr rfl this, Finset.sum_sub_distrib, ← Finset.mul_sum, hc]
    simp [div_eq_mul_inv]
  · have : ∀ k ∈ Finset.range n, Real.cos (2 * Real.pi * k / n) * Real.sin (2 * Real.pi * k / n) = 1 / 2 * Real.sin (2 * (2 * Real.pi * k / n)) := by
      intro k _; rw [Real.sin_two_mul]; ring
    rw [Finset.sum_congr rfl this, ← Finset.mul_sum, hs, mul_zero]

private theorem circle_eq (n : ℕ) (a b : ℝ) : circlePart n (some (a, b)) =
    .ok ((List.range n).map (fun k : ℕ => (Real.cos (k * ((b - a) / n) + a), Real.sin (k * ((b - a) / n) + a)))) := by
  have h : linspaceOpen a b n = .ok ((List.range n).map (fun k : ℕ => (k : ℝ) * ((b - a) / n) + a)) := by
    unfold linspaceOpen
    rw [if_neg (by omega)]
    simp
  simp [circlePart, h, Function.comp_def]

private theorem circle_full (n : ℕ) : circlePart n none =
    .ok ((List.range n).map (fun k : ℕ => (Real.cos (2 * Real.pi * k / n), Real.sin (2 * Real.pi * k / n)))) := by
  have h := circle_eq n 0 (2 * Real.pi)
  have h' : circlePart n none = circlePart n (some (0, 2 * Real.pi)) := rfl
  rw [h', h]
  refine congrArg Except.ok (List.map_congr_left fun k _ => ?_)
  rw [show (k : ℝ) * ((2 * Real.pi - 0) / n) + 0 = 2 * Real.pi * k / n by ring]

private theorem range_sum (n : ℕ) (f : ℕ → ℝ) : ((List.range n).map f).sum = ∑ k ∈ Finset.range n, f k := by
  induction n with
  | zero => simp
  | succ n ih => rw [List.range_succ, List.map_append, List.sum_append, ih, Finset.sum_range_succ]; simp

/-- **C152**, balance: two or more points on the circle have their centre of mass in its centre, and three or more spread equally in all directions:
the sums of the squares of the coordinates are `n/2` and the sum of their products is zero. -/
theorem C152_circle (n : ℕ) (hn : 2 ≤ n) : ∃ l, circlePart n none = .ok l ∧ (l.map Prod.fst).sum = 0 ∧ (l.map Prod.snd).sum = 0 ∧
    (3 ≤ n → (l.map (fun p => p.1 ^ 2)).sum = (n : ℝ) / 2 ∧ (l.map (fun p => p.2 ^ 2)).sum = (n : ℝ) / 2 ∧ (l.map (fun p => p.1 * p.2)).sum = 0) := by
  obtain ⟨hc, hs⟩ := trig_sum (n := n) (m := 1) (by norm_num) (by omega)
  simp only [Nat.cast_one, one_mul] at hc hs
  refine ⟨_, circle_full n, ?_, ?_, fun h3 => ?_⟩
  · rw [List.map_map, range_sum]; exact hc
  · rw [List.map_map, range_sum]; exact hs
  · obtain ⟨h1, h2, h4⟩ := trig_moments h3
    refine ⟨?_, ?_, ?_⟩ <;> rw [List.map_map, range_sum]
    · exact h1
    · exact h2
    · exact h4

/-- Four points. -/
example : ∃ l, circlePart 4 none = .ok l ∧ (l.map Prod.fst).sum = 0 ∧ (l.map (fun p => p.1 ^ 2)).sum = 2 := by
  obtain ⟨l, h, h1, -, h2⟩ := C152_circle 4 (by norm_num)
  have h3 := (h2 (by norm_num)).1
  norm_num at h3
  exact ⟨l, h, h1, h3⟩

/-- With two points the spread is not equal: both lie on the first axis. -/
example : ∃ l, circlePart 2 none = .ok l ∧ (l.map (fun p => p.1 ^ 2)).sum = 2 ∧ (l.map (fun p => p.2 ^ 2)).sum = 0 := by
  refine ⟨_, circle_full 2, ?_, ?_⟩
  all_goals rw [List.map_map, range_sum, Finset.sum_range_succ, Finset.sum_range_one]
  all_goals simp
  all_goals norm_num

/-- **C152**, halves: twice the points on an arc are the points on its first half and then those on its second half. -/
theorem C152_split (n : ℕ) (a b : ℝ) : ∃ l1 l2, circlePart n (some (a, (a + b) / 2)) = .ok l1 ∧ circlePart n (some ((a + b) / 2, b)) = .ok l2 ∧
    circlePart (2 * n : ℕ) (some (a, b)) = .ok (l1 ++ l2) := by
  refine ⟨_, _, circle_eq _ _ _, circle_eq _ _ _, ?_⟩
  rw [circle_eq, two_mul, List.range_add, List.map_append, List.map_map]
  rcases Nat.eq_zero_or_pos n with rfl | hn
  · simp
  have hn0 : (n : ℝ) ≠ 0 := by exact_mod_cast hn.ne'
  refine congrArg Except.ok (congrArg₂ _ (List.map_congr_left fun k _ => ?_) (List.map_congr_left fun k _ => ?_))
  · rw [show (k : ℝ) * ((b - a) / (n + n : ℕ)) + a = k * (((a + b) / 2 - a) / n) + a by push_cast; field_simp; ring]
  · simp only [Function.comp_apply]
    rw [show ((n + k : ℕ) : ℝ) * ((b - a) / (n + n : ℕ)) + a = k * ((b - (a + b) / 2) / n) + (a + b) / 2 by push_cast; field_simp; ring]

/-- **C152**, turns: turning the arc turns the points. -/
theorem C152_turn (n : ℕ) (a b t : ℝ) : ∃ l, circlePart n (some (a, b)) = .ok l ∧ circlePart n (some (a + t, b + t)) =
    .ok (l.map (fun p => (Real.cos t * p.1 - Real.sin t * p.2, Real.sin t * p.1 + Real.cos t * p.2))) := by
  refine ⟨_, circle_eq _ _ _, ?_⟩
  rw [circle_eq, List.map_map]
  refine congrArg Except.ok (List.map_congr_left fun k _ => ?_)
  simp only [Function.comp_apply]
  rw [show (k : ℝ) * ((b + t - (a + t)) / n) + (a + t) = t + (k * ((b - a) / n) + a) by ring, Real.cos_add t, Real.sin_add t]

/-- A quarter turn of the two points on the upper half of the circle. -/
example : ∃ l, circlePart 2 (some (0, Real.pi)) = .ok l ∧ circlePart 2 (some (Real.pi / 2, Real.pi + Real.pi / 2)) = .ok (l.map (fun p => (-p.2, p.1))) ∧
    l = [(1, 0), (0, 1)] := by
  obtain ⟨l, h1, h2⟩ := C152_turn 2 0 Real.pi (Real.pi / 2)
  refine ⟨l, h1, ?_, ?_⟩
  · simpa using h2
  · have := (circle_eq 2 0 Real.pi).symm.trans h1
    simp only [Except.ok.injEq] at this
    rw [← this]
    simp [List.range_succ]

end Ellipy.Geom

namespace Ellipy.Ell
open Matrix Ellipy.LA Ellipy.Tri

/-- Sums of values that differ by at most `C`. -/
theorem sum_close {α β : Type} {f : α → ℝ} {g : β → ℝ} {C : ℝ} {W : List α} {W0 : List β} (h : List.Forall₂ (fun w v => |f w - g v| ≤ C) W W0) :
    |(W.map f).sum - (W0.map g).sum| ≤ W.length * C := by
  induction h with
  | nil => simp
  | @cons w v W W0 h1 h2 ih =>
    simp only [List.map_cons, List.sum_cons, List.length_cons]
    rw [show f w + (W.map f).sum - (g v + (W0.map g).sum) = (f w - g v) + ((W.map f).sum - (W0.map g).sum) by ring]
    refine (abs_add_le _ _).trans ?_
    push_cast
    linarith

/-- A small change of a vector changes its products little. -/
theorem dot_close {m : ℕ} {r : ℝ} (hr : 0 ≤ r) (hm : m ≤ 3) {w v : Fin m → ℝ} (h : ∀ i, |w i - v i| ≤ r) (y : Fin m → ℝ) :
    |y ⬝ᵥ w - y ⬝ᵥ v| ≤ 2 * r * Real.sqrt (y ⬝ᵥ y) := by
  rw [← dotProduct_sub]
  have hd := dot_sq_le y (w - v)
  have hw : (w - v) ⬝ᵥ (w - v) ≤ 4 * r ^ 2 := by
    rw [dotProduct]
    have : ∑ i : Fin m, (w - v) i * (w - v) i ≤ ∑ _i : Fin m, r ^ 2 := Finset.sum_le_sum fun i _ => by
      have := pow_le_pow_left₀ (abs_nonneg _) (h i) 2
      rw [sq_abs] at this
      rw [Pi.sub_apply]
      nlinarith
    refine this.trans ?_
    rw [Finset.sum_const, Finset.card_univ, Fintype.card_fin, nsmul_eq_mul]
    have : (m : ℝ) ≤ 3 := by exact_mod_cast hm
    nlinarith [sq_nonneg r]
  refine abs_le_of_sq_le_sq ?_ (by positivity)
  rw [mul_pow, Real.sq_sqrt (dot_self_nonneg y)]
  have := mul_le_mul_of_nonneg_left hw (dot_self_nonneg y)
  nlinarith

/-- The mean of the images of directions whose sum is nearly zero. -/
theorem mean_close {m : ℕ} (hm : m ≤ 3) {r : ℝ} (hr : 0 ≤ r) {c : Fin m → ℝ} {S Q : Matrix (Fin m) (Fin m) ℝ} (hS : IsPSD S) (hSS : S * S = Q)
    {W W0 : List (Fin m → ℝ)} (hW : CloseTo r W W0) (h0 : W0.sum = 0) (hne : W ≠ []) (x : Fin m → ℝ) :
    |x ⬝ᵥ ((1 / (W.length : ℝ)) • (W.map (fun w => c + S *ᵥ w)).sum - c)| ≤ 2 * r * Real.sqrt (x ⬝ᵥ Q *ᵥ x) := by
  have hl : (0 : ℝ) < W.length := by exact_mod_cast List.length_pos_iff.mpr hne
  have hy : x ⬝ᵥ Q *ᵥ x = (S *ᵥ x) ⬝ᵥ (S *ᵥ x) := by
    rw [← hSS, ← mulVec_mulVec, dotProduct_mulVec, ← mulVec_transpose, hS.1]
  have hsum : ∀ L : List (Fin m → ℝ), x ⬝ᵥ (L.map (fun w => c + S *ᵥ w)).sum = L.length * (x ⬝ᵥ c) + (L.map (fun w => (S *ᵥ x) ⬝ᵥ w)).sum := by
    intro L
    induction L with
    | nil => simp
    | cons w L ih =>
      simp only [List.map_cons, List.sum_cons, dotProduct_add, List.length_cons, ih]
      rw [show x ⬝ᵥ S *ᵥ w = (S *ᵥ x) ⬝ᵥ w by rw [dotProduct_mulVec, ← mulVec_transpose, hS.1]]
      push_cast
      ring
  have hz : (W0.map (fun w => (S *ᵥ x) ⬝ᵥ w)).sum = 0 := by
    have : ∀ L : List (Fin m → ℝ), (L.map (fun w => (S *ᵥ x) ⬝ᵥ w)).sum = (S *ᵥ x) ⬝ᵥ L.sum := by
      intro L
      induction L with
      | nil => simp
      | cons w L ih => simp only [List.map_cons, List.sum_cons, dotProduct_add, ih]
    rw [this, h0, dotProduct_zero]
  have hcl := sum_close (f := fun w => (S *ᵥ x) ⬝ᵥ w) (g := fun w => (S *ᵥ x) ⬝ᵥ w) (hW.imp fun w v h => dot_close hr hm h (S *ᵥ x))
  rw [hz, sub_zero] at hcl
  rw [dotProduct_sub, dotProduct_smul, hsum, smul_eq_mul, hy]
  generalize (W.map (fun w => (S *ᵥ x) ⬝ᵥ w)).sum = s at hcl
  rw [show 1 / (W.length : ℝ) * (W.length * (x ⬝ᵥ c) + s) - x ⬝ᵥ c = s / W.length by field_simp; ring, abs_div, abs_of_pos hl, div_le_iff₀ hl]
  linarith

/-- The directions of the plane boundary. -/
private noncomputable def circleDirs (n : ℕ) : List (Fin 2 → ℝ) :=
  (List.range n).map (fun k : ℕ => ![Real.cos (2 * Real.pi * k / n), Real.sin (2 * Real.pi * k / n)])

private theorem range_map_sum {M : Type} [AddCommMonoid M] (n : ℕ) (f : ℕ → M) : ((List.range n).map f).sum = ∑ k ∈ Finset.range n, f k := by
  induction n with
  | zero => simp
  | succ n ih => rw [List.range_succ, List.map_append, List.sum_append, ih, Finset.sum_range_succ]; simp

private theorem circleDirs_sum {n : ℕ} (hn : 2 ≤ n) : (circleDirs n).sum = 0 := by
  obtain ⟨hc, hs⟩ := Geom.trig_sum (n := n) (m := 1) (by norm_num) (by omega)
  simp only [Nat.cast_one, one_mul] at hc hs
  rw [circleDirs, range_map_sum]
  funext i
  rw [Finset.sum_apply]
  fin_cases i
  · exact hc
  · exact hs

private theorem circleDirs_sq {n : ℕ} (hn : 3 ≤ n) (y : Fin 2 → ℝ) : ((circleDirs n).map (fun d => (y ⬝ᵥ d) ^ 2)).sum = n / 2 * (y ⬝ᵥ y) := by
  obtain ⟨h1, h2, h3⟩ := Geom.trig_moments hn
  rw [circleDirs, List.map_map, range_map_sum]
  have : ∀ k ∈ Finset.range n, ((fun d => (y ⬝ᵥ d) ^ 2) ∘ fun k : ℕ => ![Real.cos (2 * Real.pi * k / n), Real.sin (2 * Real.pi * k / n)]) k =
      y 0 ^ 2 * Real.cos (2 * Real.pi * k / n) ^ 2 + y 1 ^ 2 * Real.sin (2 * Real.pi * k / n) ^ 2 +
      2 * y 0 * y 1 * (Real.cos (2 * Real.pi * k / n) * Real.sin (2 * Real.pi * k / n)) := by
    intro k _
    simp only [Function.comp_apply, dotProduct, Fin.sum_univ_two, Matrix.cons_val_zero, Matrix.cons_val_one]
    ring
  rw [Finset.sum_congr rfl this, Finset.sum_add_distrib, Finset.sum_add_distrib, ← Finset.mul_sum, ← Finset.mul_sum, ← Finset.mul_sum, h1, h2, h3,
    dotProduct, Fin.sum_univ_two]
  ring

/-- **C152**, an ellipse from its boundary: the mean of the `n` points of `get_boundary` is the centre, and twice the mean square distance from the
centre in every direction is the quadratic form of the ellipse; both up to the replacement of zeros by the code. -/
theorem C152_plane (E : Eigh) (argsort : List ℕ → List ℕ) (fuel : ℕ) (e : EllN 2) (he : e.NonDeg) (num : Option NPts) (n : ℕ) (hn : 2 ≤ n)
    (hnum : Asked num e.props.n2d n) : ∃ V : List (Fin 2 → ℝ), getBoundary E argsort fuel e.obj num false = .ok (some (V, none)) ∧ V.length = n ∧
      (∀ x, |x ⬝ᵥ ((1 / (n : ℝ)) • V.sum - e.c)| ≤ 2 * machEps * Real.sqrt (x ⬝ᵥ e.Q *ᵥ x)) ∧
      (3 ≤ n → ∀ x, |2 / (n : ℝ) * (V.map (fun v => (x ⬝ᵥ (v - e.c)) ^ 2)).sum - x ⬝ᵥ e.Q *ᵥ x| ≤ 9 * machEps * (x ⬝ᵥ e.Q *ᵥ x)) := by
  obtain ⟨V, hV, -, hlen, ⟨S, hS, hSS, hk⟩, -⟩ := C47 E argsort fuel e he num n (by omega) hnum
  have heps : 0 ≤ machEps := by unfold machEps; positivity
  have hn0 : (0 : ℝ) < n := by exact_mod_cast (by omega : 0 < n)
  choose! d hd0 hd1 hd2 using hk
  set W : List (Fin 2 → ℝ) := (List.range n).map d with hWd
  have hWl : W.length = n := by simp [hWd]
  have hVW : V = W.map (fun w => e.c + S *ᵥ w) := by
    refine List.ext_getElem (by rw [hlen, List.length_map, hWl]) fun k h1 h2 => ?_
    rw [hd2 k h1]
    simp [hWd]
  have hcl : CloseTo machEps W (circleDirs n) := by
    refine List.forall₂_iff_get.mpr ⟨by rw [hWl]; simp [circleDirs], fun k h1 h2 t => ?_⟩
    have hkV : k < V.length := by rw [hlen, ← hWl]; exact h1
    have ha := hd0 k hkV
    have hb := hd1 k hkV
    have hWk : W.get ⟨k, h1⟩ = d k := by simp [hWd]
    have hDk : (circleDirs n).get ⟨k, h2⟩ = ![Real.cos (2 * Real.pi * k / n), Real.sin (2 * Real.pi * k / n)] := by simp [circleDirs]
    rw [hWk, hDk]
    fin_cases t
    · exact ha
    · exact hb
  refine ⟨V, hV, hlen, fun x => ?_, fun h3 x => ?_⟩
  · have := mean_close (m := 2) (by norm_num) heps (c := e.c) hS hSS hcl (circleDirs_sum hn) (by intro h0; rw [h0] at hWl; simp at hWl; omega) x
    rw [hWl] at this
    rw [hVW]
    exact this
  · have hy : x ⬝ᵥ e.Q *ᵥ x = (S *ᵥ x) ⬝ᵥ (S *ᵥ x) := by
      rw [← hSS, ← mulVec_mulVec, dotProduct_mulVec, ← mulVec_transpose, hS.1]
    have hm : (V.map (fun v => (x ⬝ᵥ (v - e.c)) ^ 2)) = W.map (fun w => ((S *ᵥ x) ⬝ᵥ w) ^ 2) := by
      rw [hVW, List.map_map]
      refine List.map_congr_left fun w _ => ?_
      simp only [Function.comp_apply]
      rw [add_sub_cancel_left, dotProduct_mulVec, ← mulVec_transpose, hS.1]
    rw [hm, hy]
    generalize S *ᵥ x = y
    have hyy := dot_self_nonneg y
    set t := Real.sqrt (y ⬝ᵥ y) with ht
    have htt : t ^ 2 = y ⬝ᵥ y := Real.sq_sqrt hyy
    have ht0 : 0 ≤ t := Real.sqrt_nonneg _
    have hunit : ∀ v ∈ circleDirs n, v ⬝ᵥ v = 1 := by
      intro v hv
      simp only [circleDirs, List.mem_map] at hv
      obtain ⟨k, -, rfl⟩ := hv
      simp only [dotProduct, Fin.sum_univ_two, Matrix.cons_val_zero, Matrix.cons_val_one]
      nlinarith [Real.sin_sq_add_cos_sq (2 * Real.pi * k / n)]
    have h2 : List.Forall₂ (fun w v => |(y ⬝ᵥ w) ^ 2 - (y ⬝ᵥ v) ^ 2| ≤ 9 / 2 * machEps * (y ⬝ᵥ y)) W (circleDirs n) := by
      refine List.forall₂_iff_get.mpr ⟨hcl.length_eq, fun k h1 h2 => ?_⟩
      have hc := dot_close heps (by norm_num) ((List.forall₂_iff_get.mp hcl).2 k h1 h2) y
      have hv := dot_sq_le y ((circleDirs n).get ⟨k, h2⟩)
      rw [hunit _ (List.get_mem _ _), mul_one] at hv
      generalize y ⬝ᵥ W.get ⟨k, h1⟩ = a at hc
      generalize y ⬝ᵥ (circleDirs n).get ⟨k, h2⟩ = b at hc hv
      rw [← ht] at hc
      have hb : |b| ≤ t := abs_le_of_sq_le_sq (by rw [htt]; exact hv) ht0
      have hsmall : machEps ≤ 1 / 8 := by unfold machEps; norm_num
      rw [show a ^ 2 - b ^ 2 = (a - b) * ((a - b) + 2 * b) by ring, abs_mul, ← htt]
      have h5 : |a - b + 2 * b| ≤ 9 / 4 * t := by
        refine (abs_add_le _ _).trans ?_
        rw [abs_mul, abs_two]
        nlinarith
      calc _ ≤ (2 * machEps * t) * (9 / 4 * t) := mul_le_mul hc h5 (abs_nonneg _) (by positivity)
        _ = _ := by ring
    have h4 := sum_close (f := fun w => (y ⬝ᵥ w) ^ 2) (g := fun w => (y ⬝ᵥ w) ^ 2) h2
    rw [circleDirs_sq h3, hWl] at h4
    generalize (W.map (fun w => (y ⬝ᵥ w) ^ 2)).sum = s at h4
    rw [show 2 / (n : ℝ) * s - y ⬝ᵥ y = 2 / n * (s - n / 2 * (y ⬝ᵥ y)) by field_simp, abs_mul, abs_of_pos (by positivity : 0 < 2 / (n : ℝ))]
    calc _ ≤ 2 / (n : ℝ) * (n * (9 / 2 * machEps * (y ⬝ᵥ y))) := mul_le_mul_of_nonneg_left h4 (by positivity)
      _ = _ := by field_simp

/-- A list without repetitions that contains the opposite of every vector. -/
theorem sum_opposite {m : ℕ} {V : List (Fin m → ℝ)} (hd : V.Nodup) (hneg : ∀ v ∈ V, -v ∈ V) : V.sum = 0 := by
  have hp : (V.map (fun v => -v)).Perm V := by
    refine (List.perm_ext_iff_of_nodup (hd.map neg_injective) hd).mpr fun v => ⟨fun h => ?_, fun h => ?_⟩
    · obtain ⟨w, hw, rfl⟩ := List.mem_map.mp h; exact hneg w hw
    · exact List.mem_map.mpr ⟨-v, hneg v h, neg_neg v⟩
  have h1 : ∀ L : List (Fin m → ℝ), (L.map (fun v => -v)).sum = -L.sum := by
    intro L
    induction L with
    | nil => simp
    | cons v L ih => simp only [List.map_cons, List.sum_cons, ih, neg_add]
  have h2 := hp.sum_eq
  rw [h1] at h2
  funext i
  have := congrFun h2 i
  simp only [Pi.neg_apply, Pi.zero_apply] at this ⊢
  linarith

/-- **C152**, space: the mean of the points of `get_boundary` is the centre of the ellipsoid, up to the replacement of zeros by the code. -/
theorem C152_space (E : Eigh) (argsort : List ℕ → List ℕ) (hsort : IsArgsort argsort) (e : EllN 3) (he : e.NonDeg) (num : Option NPts) (n : ℕ) (hn : 1 ≤ n)
    (hnum : Asked num e.props.n3d n) : ∃ d, IsLeast {d | 1 ≤ d ∧ n ≤ 10 * 4 ^ d + 2} d ∧ ∀ fuel, d < fuel → ∃ (V : List (Fin 3 → ℝ)) (F : List Row),
      getBoundary E argsort fuel e.obj num true = .ok (some (V, some (.tri F))) ∧ V.length = 10 * 4 ^ d + 2 ∧
      ∀ x, |x ⬝ᵥ ((1 / (V.length : ℝ)) • V.sum - e.c)| ≤ 2 * machEps * Real.sqrt (x ⬝ᵥ e.Q *ᵥ x) := by
  obtain ⟨d, hd, h⟩ := C47_space E argsort hsort e he num n hn hnum
  refine ⟨d, hd, fun fuel hf => ?_⟩
  obtain ⟨V, V0, W, F, h1, h2, h3, ⟨S, hS, hSS, rfl⟩, h4, -⟩ := h fuel hf
  obtain ⟨V0', F', h2', hnd, hused, -, hopp⟩ := C56_fan argsort hsort d fuel hf
  have hvv : V0 = V0' ∧ F = F' := by
    have := h2.symm.trans h2'
    simpa only [Except.ok.injEq, Option.some.injEq, Prod.mk.injEq] using this
  obtain ⟨rfl, rfl⟩ := hvv
  have heps : 0 ≤ machEps := by unfold machEps; positivity
  obtain ⟨V1, F1, h5, hl1, -, -, -, hrow, -⟩ := C56 argsort hsort d fuel hf
  have hvv : V0 = V1 ∧ F = F1 := by
    have := h2.symm.trans h5
    simpa only [Except.ok.injEq, Option.some.injEq, Prod.mk.injEq] using this
  obtain ⟨rfl, rfl⟩ := hvv
  have hget : ∀ i < V0.length, V0.getD i 0 ∈ V0 := by
    intro i hi
    rw [List.getD_eq_getElem?_getD, List.getElem?_eq_getElem hi]
    exact List.getElem_mem hi
  have hneg : ∀ v ∈ V0, -v ∈ V0 := by
    intro v hv
    obtain ⟨i, hi, rfl⟩ := List.getElem_of_mem hv
    have hgi : V0.getD i 0 = V0[i] := by rw [List.getD_eq_getElem?_getD, List.getElem?_eq_getElem hi]; rfl
    obtain ⟨f, hf', hif⟩ := hused i hi
    obtain ⟨g, hg, hp⟩ := hopp f hf'
    have hm : -V0[i] ∈ [-V0.getD f.1 0, -V0.getD f.2.1 0, -V0.getD f.2.2 0] := by
      rw [← hgi]
      rcases hif with h | h | h <;> rw [h] <;> simp
    have hm2 := hp.symm.subset hm
    obtain ⟨⟨g1, g2, g3⟩, -⟩ := hrow g hg
    simp only [List.mem_cons, List.not_mem_nil, or_false] at hm2
    rcases hm2 with h | h | h <;> rw [h] <;> exact hget _ (by assumption)
  refine ⟨_, F, h1, h4, fun x => ?_⟩
  have hne : W ≠ [] := by rintro rfl; simp at h4
  have := mean_close (m := 3) (by norm_num) heps (c := e.c) hS hSS h3 (sum_opposite hnd hneg) hne x
  rw [List.length_map]
  exact this

/-- The unit circle around (1/2, 0): the mean of a thousand points has almost the first coordinate 1/2. -/
example (E : Eigh) : ∃ V : List (Fin 2 → ℝ), getBoundary E stableArgsort 0 discN.obj (some (.int 1000)) false = .ok (some (V, none)) ∧
    |(1 / 1000) * V.sum 0 - 1 / 2| ≤ 2 * machEps := by
  obtain ⟨V, h, -, h1, -⟩ := C152_plane E stableArgsort 0 discN discN_nonDeg (some (.int 1000)) 1000 (by norm_num) (Or.inl rfl)
  refine ⟨V, h, ?_⟩
  have := h1 ![1, 0]
  have e1 : (![1, 0] : Fin 2 → ℝ) ⬝ᵥ discN.Q *ᵥ ![1, 0] = 1 := by simp [discN, dotProduct, Fin.sum_univ_two]
  rw [e1, Real.sqrt_one, mul_one] at this
  have e2 : (![1, 0] : Fin 2 → ℝ) ⬝ᵥ ((1 / ((1000 : ℕ) : ℝ)) • V.sum - discN.c) = 1 / 1000 * V.sum 0 - 1 / 2 := by
    simp [discN, dotProduct, Fin.sum_univ_two]
  rw [e2] at this
  exact this

/-- The unit ball of the example of C88. -/
example (E : Eigh) : ∃ (V : List (Fin 3 → ℝ)) (F : List Row), getBoundary E stableArgsort 10 ballN.obj (some (.int 42)) true = .ok (some (V, some (.tri F))) ∧ V.length = 42 ∧
    ∀ x, |x ⬝ᵥ ((1 / (V.length : ℝ)) • V.sum - ballN.c)| ≤ 2 * machEps * Real.sqrt (x ⬝ᵥ ballN.Q *ᵥ x) := by
  obtain ⟨d, hd, h⟩ := C152_space E stableArgsort stableArgsort_ok ballN ballN_nonDeg (some (.int 42)) 42 (by norm_num) (Or.inl rfl)
  have h2 : d = 1 := le_antisymm (hd.2 ⟨by norm_num, by norm_num⟩) hd.1.1
  subst h2
  obtain ⟨V, F, h1, h3, h4⟩ := h 10 (by norm_num)
  exact ⟨V, F, h1, by rw [h3]; norm_num, h4⟩

end Ellipy.Ell
