import Mathlib.Analysis.SpecialFunctions.Trigonometric.Basic
import Verif.Proofs.Lstsq
import Verif.Proofs.SupGeomDiff
import Verif.Props.SupBoundary

/-! The walk of `sup_geom_diff_2d` over the directions behind one edge of the polar polygon. -/

namespace Ellipy.Sup
open scoped Pointwise
open Matrix Ellipy.LA Ellipy.Ell

/-- No closed half plane contains all the points when the origin is inside the hull. -/
theorem not_half {d : ℕ} {s : List (Fin d → ℝ)} (h0 : (0 : Fin d → ℝ) ∈ interior (convexHull ℝ {x | x ∈ s})) {v : Fin d → ℝ}
    (hv : ∀ p ∈ s, 0 ≤ v ⬝ᵥ p) : v = 0 := by
  have hc : convexHull ℝ {x | x ∈ s} ⊆ {x | 0 ≤ v ⬝ᵥ x} := by
    refine convexHull_min hv ?_
    intro x hx y hy a b ha hb _
    show 0 ≤ v ⬝ᵥ (a • x + b • y)
    rw [dotProduct_add, dotProduct_smul, dotProduct_smul]
    exact add_nonneg (mul_nonneg ha hx) (mul_nonneg hb hy)
  have hcont : Filter.Tendsto (fun t : ℝ => t • v) (nhds 0) (nhds 0) := by
    have : Continuous (fun t : ℝ => t • v) := by fun_prop
    have h := this.tendsto 0
    rwa [zero_smul] at h
  have hev := hcont.eventually (mem_interior_iff_mem_nhds.mp h0)
  obtain ⟨ε, hε, hball⟩ := Metric.eventually_nhds_iff.mp hev
  have h1 : (-(ε / 2)) • v ∈ convexHull ℝ {x | x ∈ s} := hball (by rw [Real.dist_eq, sub_zero, abs_neg, abs_of_pos] <;> linarith)
  have h2 : 0 ≤ v ⬝ᵥ ((-(ε / 2)) • v) := hc h1
  rw [dotProduct_smul, smul_eq_mul] at h2
  have h3 : v ⬝ᵥ v = 0 := by
    have : 0 ≤ v ⬝ᵥ v := Finset.sum_nonneg (fun i _ => mul_self_nonneg _)
    nlinarith
  exact dotProduct_self_eq_zero.mp h3

/-- The plane vector product. -/
def cr (a b : Fin 2 → ℝ) : ℝ := a 0 * b 1 - a 1 * b 0

theorem cone_coeff {a b c : Fin 2 → ℝ} (h : cr a b ≠ 0) : c = (cr c b / cr a b) • a + (cr a c / cr a b) • b := by
  have h0 : cr a b * c 0 = cr c b * a 0 + cr a c * b 0 := by unfold cr; ring
  have h1 : cr a b * c 1 = cr c b * a 1 + cr a c * b 1 := by unfold cr; ring
  funext i
  fin_cases i
  · show c 0 = cr c b / cr a b * a 0 + cr a c / cr a b * b 0
    rw [div_mul_eq_mul_div, div_mul_eq_mul_div, ← add_div, ← h0, mul_div_cancel_left₀ _ h]
  · show c 1 = cr c b / cr a b * a 1 + cr a c / cr a b * b 1
    rw [div_mul_eq_mul_div, div_mul_eq_mul_div, ← add_div, ← h1, mul_div_cancel_left₀ _ h]

/-- The equations that the solution of a solvable system with two columns satisfies. -/
theorem lstsq_two (L : Lstsq) {a b c : Fin 2 → ℝ} {y0 y1 : ℝ} (h : ∀ i, a i * y0 + c i * y1 = b i) (i : Fin 2) :
    a i * L.sol (of fun i j => (![a, c] : Fin 2 → Fin 2 → ℝ) j i) (colMat b) 0 0 +
      c i * L.sol (of fun i j => (![a, c] : Fin 2 → Fin 2 → ℝ) j i) (colMat b) 1 0 = b i := by
  have hex : (of fun i j => (![a, c] : Fin 2 → Fin 2 → ℝ) j i) * (of ![![y0], ![y1]] : Matrix (Fin 2) (Fin 1) ℝ) = colMat b := by
    ext i j
    have hj : j = 0 := Subsingleton.elim _ _
    subst hj
    rw [Matrix.mul_apply, Fin.sum_univ_two]
    exact h i
  have := congrFun (congrFun (lstsq_exact L hex) i) 0
  rw [Matrix.mul_apply, Fin.sum_univ_two] at this
  exact this

/-- What the least squares solver returns for a direction strictly inside the cone of the edge. -/
theorem edge_sol (L : Lstsq) {a b c v : Fin 2 → ℝ} (hab : 0 < cr a b) (hac : 0 < cr a c) (hcb : 0 < cr c b) (hva : v ⬝ᵥ a = 1)
    (hvb : v ⬝ᵥ b = 1) : 0 < v ⬝ᵥ c ∧ L.sol (of fun i j => (![a - b, c] : Fin 2 → Fin 2 → ℝ) j i) (colMat a) 1 0 = (v ⬝ᵥ c)⁻¹ := by
  have hc := cone_coeff (c := c) hab.ne'
  have hpos : 0 < v ⬝ᵥ c := by
    rw [hc, dotProduct_add, dotProduct_smul, dotProduct_smul, hva, hvb, smul_eq_mul, smul_eq_mul, mul_one, mul_one]
    exact add_pos (div_pos hcb hab) (div_pos hac hab)
  refine ⟨hpos, ?_⟩
  set A : Matrix (Fin 2) (Fin 2) ℝ := of fun i j => (![a - b, c] : Fin 2 → Fin 2 → ℝ) j i with hA
  have hΔ : 0 < cr a c + cr c b := add_pos hac hcb
  have hi := lstsq_two L (a := a - b) (b := a) (c := c) (y0 := cr a c / (cr a c + cr c b)) (y1 := cr a b / (cr a c + cr c b)) (fun i => by
    have : (a - b) i * cr a c + c i * cr a b = a i * (cr a c + cr c b) := by
      fin_cases i <;> simp [cr] <;> ring
    rw [mul_div_assoc', mul_div_assoc', ← add_div, this, mul_div_assoc, div_self hΔ.ne', mul_one])
  rw [← hA] at hi
  set X := L.sol A (colMat a) with hX
  have hvec : (X 0 0) • (a - b) + (X 1 0) • c = a := by
    funext i
    have := hi i
    simp only [Pi.add_apply, Pi.smul_apply, smul_eq_mul]
    linarith
  have hdot : v ⬝ᵥ ((X 0 0) • (a - b) + (X 1 0) • c) = v ⬝ᵥ a := by rw [hvec]
  rw [dotProduct_add, dotProduct_smul, dotProduct_smul, dotProduct_sub, hva, hvb, sub_self, smul_zero, zero_add, smul_eq_mul] at hdot
  exact eq_inv_of_mul_eq_one_left hdot

/-- The inner loop, when all the values are as they should. -/
theorem walk_ok (L : Lstsq) (s : List (Fin 2 → ℝ)) (b a1 : Fin 2 → ℝ) (P : ℕ → ℝ → Prop) : ∀ (c ind : ℕ) (w : ℕ → ℝ),
    (∀ m, ind < m → m ≤ ind + c → ∃ h : m < s.length, 0 ≤ L.sol (of fun i j => (![a1, s[m]] : Fin 2 → Fin 2 → ℝ) j i) (colMat b) 1 0 ∧
      P m (L.sol (of fun i j => (![a1, s[m]] : Fin 2 → Fin 2 → ℝ) j i) (colMat b) 1 0)) →
    ∃ w', walk L s b a1 c ind w = .ok w' ∧ (∀ m, ind < m → m ≤ ind + c → P m (w' m)) ∧ ∀ m, ¬ (ind < m ∧ m ≤ ind + c) → w' m = w m := by
  intro c
  induction c with
  | zero =>
    intro ind w _
    exact ⟨w, rfl, fun m h1 h2 => by omega, fun m _ => rfl⟩
  | succ c ih =>
    intro ind w hm
    obtain ⟨hlt, hnn, hP⟩ := hm (ind + 1) (by omega) (by omega)
    obtain ⟨w', h1, h2, h3⟩ := ih (ind + 1)
      (Function.update w (ind + 1) (L.sol (of fun i j => (![a1, s[ind + 1]] : Fin 2 → Fin 2 → ℝ) j i) (colMat b) 1 0))
      (fun m hm1 hm2 => hm m (by omega) (by omega))
    refine ⟨w', ?_, fun m hm1 hm2 => ?_, fun m hm1 => ?_⟩
    · unfold walk
      simp only
      rw [if_neg (by omega)]
      have : pyIndex s (ind + 1) = .ok s[ind + 1] := by unfold pyIndex; rw [List.getElem?_eq_getElem hlt]
      rw [this]
      simp only
      rw [if_neg (not_lt.mpr hnn)]
      exact h1
    · rcases Nat.lt_or_ge (ind + 1) m with h | h
      · exact h2 m h (by omega)
      · have : m = ind + 1 := by omega
        subst this
        rw [h3 (ind + 1) (by omega), Function.update_self]
        exact hP
    · rw [h3 m (by omega), Function.update_of_ne (by omega)]

/-- A row whose step raises whatever the state is makes the loop raise. -/
theorem runFaces_raises (L : Lstsq) (s : List (Fin 2 → ℝ)) {f : Fin 2 → ℕ} (hr : ∀ w, Raises (faceStep L s f w)) :
    ∀ (fs : List (Fin 2 → ℕ)) (w : ℕ → ℝ), f ∈ fs → Raises (runFaces L s fs w) := by
  intro fs
  induction fs with
  | nil => intro w h; cases h
  | cons g fs ih =>
    intro w hf
    unfold runFaces
    cases hg : faceStep L s g w with
    | error e => exact ⟨e, rfl⟩
    | ok w' =>
      rcases List.mem_cons.mp hf with rfl | hf
      · obtain ⟨e, he⟩ := hr w
        rw [he] at hg; cases hg
      · exact ih w' hf

/-- The invariant of the loop over the rows: `W f m` says that the row `f` sets the entry `m`. -/
theorem runFaces_ok (L : Lstsq) (s : List (Fin 2 → ℝ)) (P : ℕ → ℝ → Prop) (W : (Fin 2 → ℕ) → ℕ → Prop) :
    ∀ (fs : List (Fin 2 → ℕ)) (w : ℕ → ℝ),
    (∀ f ∈ fs, ∀ w, ∃ w', faceStep L s f w = .ok w' ∧ (∀ m, W f m → P m (w' m)) ∧ ∀ m, ¬ W f m → w' m = w m) →
    ∃ w', runFaces L s fs w = .ok w' ∧ ∀ m, (P m (w' m)) ∨ (w' m = w m ∧ ∀ f ∈ fs, ¬ W f m) := by
  intro fs
  induction fs with
  | nil => intro w _; exact ⟨w, rfl, fun m => Or.inr ⟨rfl, fun f hf => by cases hf⟩⟩
  | cons g fs ih =>
    intro w h
    obtain ⟨w1, hw1, hs1, hu1⟩ := h g (by simp) w
    obtain ⟨w2, hw2, hall⟩ := ih w1 (fun f hf => h f (by simp [hf]))
    refine ⟨w2, ?_, fun m => ?_⟩
    · unfold runFaces
      rw [hw1]
      exact hw2
    · rcases hall m with hm | ⟨hm, hno⟩
      · exact Or.inl hm
      · by_cases hg : W g m
        · exact Or.inl (by rw [hm]; exact hs1 m hg)
        · refine Or.inr ⟨by rw [hm, hu1 m hg], fun f hf => ?_⟩
          rcases List.mem_cons.mp hf with rfl | hf
          · exact hg
          · exact hno f hf

/-! ### Angles -/

theorem sin_not_both {β δ : ℝ} (hβ : 0 < β) (hβ' : β < Real.pi) (hδ : β < δ) (hδ' : δ < 2 * Real.pi) :
    Real.sin δ < 0 ∨ Real.sin (β - δ) < 0 := by
  rcases lt_or_ge Real.pi δ with h | h
  · left
    have := Real.sin_pos_of_pos_of_lt_pi (x := δ - Real.pi) (by linarith) (by linarith)
    rw [Real.sin_sub_pi] at this
    linarith
  · right
    exact Real.sin_neg_of_neg_of_neg_pi_lt (by linarith) (by linarith)

theorem pos_lt_pi {β : ℝ} (h : 0 < Real.sin β) (h2 : β < 2 * Real.pi) : β < Real.pi := by
  by_contra hge
  push Not at hge
  have := Real.sin_nonneg_of_nonneg_of_le_pi (x := β - Real.pi) (by linarith) (by linarith)
  rw [Real.sin_sub_pi] at this
  linarith

/-- The polar form of a list of plane vectors with increasing angles within one turn. -/
structure Polar (s : List (Fin 2 → ℝ)) (θ r : ℕ → ℝ) : Prop where
  form : ∀ i (h : i < s.length), 0 < r i ∧ s[i] = ![r i * Real.cos (θ i), r i * Real.sin (θ i)]
  mono : ∀ i j, i < j → j < s.length → θ i < θ j ∧ θ j < θ i + 2 * Real.pi

theorem Polar.cr {s : List (Fin 2 → ℝ)} {θ r : ℕ → ℝ} (hp : Polar s θ r) {i j : ℕ} (hi : i < s.length) (hj : j < s.length) :
    cr s[i] s[j] = r i * r j * Real.sin (θ j - θ i) := by
  rw [(hp.form i hi).2, (hp.form j hj).2, Real.sin_sub]
  simp [Sup.cr]
  ring

/-- Vectors on one ray have one number. -/
theorem Polar.inj {s : List (Fin 2 → ℝ)} {θ r : ℕ → ℝ} (hp : Polar s θ r) {i j : ℕ} (hi : i < s.length) (hj : j < s.length) {t : ℝ}
    (ht : 0 ≤ t) (h : s[i] = t • s[j]) : i = j := by
  obtain ⟨hri, ei⟩ := hp.form i hi
  obtain ⟨hrj, ej⟩ := hp.form j hj
  rw [ei, ej] at h
  have e0 := congrFun h 0
  have e1 := congrFun h 1
  simp only [Pi.smul_apply, smul_eq_mul, cons_val_zero, cons_val_one] at e0 e1
  have hk : r i = t * r j := by
    have hsq : r i ^ 2 = (t * r j) ^ 2 := by
      have h1 := Real.sin_sq_add_cos_sq (θ i)
      have h2 := Real.sin_sq_add_cos_sq (θ j)
      calc r i ^ 2 = (r i * Real.cos (θ i)) ^ 2 + (r i * Real.sin (θ i)) ^ 2 := by linear_combination (-(r i ^ 2)) * h1
        _ = (t * r j) ^ 2 := by rw [e0, e1]; linear_combination ((t * r j) ^ 2) * h2
    exact (sq_eq_sq₀ hri.le (mul_nonneg ht hrj.le)).mp hsq
  have c1 : Real.cos (θ i) = Real.cos (θ j) := by
    have : r i * Real.cos (θ i) = r i * Real.cos (θ j) := by rw [e0, hk]; ring
    exact mul_left_cancel₀ hri.ne' this
  have c2 : Real.sin (θ i) = Real.sin (θ j) := by
    have : r i * Real.sin (θ i) = r i * Real.sin (θ j) := by rw [e1, hk]; ring
    exact mul_left_cancel₀ hri.ne' this
  have hcos : Real.cos (θ i - θ j) = 1 := by
    rw [Real.cos_sub, c1, c2]
    linear_combination Real.sin_sq_add_cos_sq (θ j)
  have hb : -(2 * Real.pi) < θ i - θ j ∧ θ i - θ j < 2 * Real.pi := by
    rcases Nat.lt_trichotomy i j with h | h | h
    · have := hp.mono i j h hj; constructor <;> linarith
    · subst h; have := Real.pi_pos; constructor <;> linarith
    · have := hp.mono j i h hi; constructor <;> linarith
  have h0 := (Real.cos_eq_one_iff_of_lt_of_lt hb.1 hb.2).mp hcos
  rcases Nat.lt_trichotomy i j with h | h | h
  · have := hp.mono i j h hj; linarith
  · exact h
  · have := hp.mono j i h hi; linarith

/-- The entries between the two ends of an edge, going counterclockwise from `a` to `b` (with `b = 0` or `a < b`). -/
def Between (n a b m : ℕ) : Prop := a < m ∧ m < (if a < b then b else n)

theorem Polar.between {s : List (Fin 2 → ℝ)} {θ r : ℕ → ℝ} (hp : Polar s θ r) {a b m : ℕ} (ha : a < s.length) (hb : b < s.length)
    (hm : m < s.length) (hcase : a < b ∨ (b = 0 ∧ b < a)) (hab : 0 < Sup.cr s[a] s[b]) :
    (Between s.length a b m → 0 < Sup.cr s[a] s[m] ∧ 0 < Sup.cr s[m] s[b]) ∧
    (¬ Between s.length a b m → m ≠ a → m ≠ b → Sup.cr s[a] s[m] < 0 ∨ Sup.cr s[m] s[b] < 0) := by
  have hra := (hp.form a ha).1
  have hrb := (hp.form b hb).1
  have hrm := (hp.form m hm).1
  have hsab : 0 < Real.sin (θ b - θ a) := by
    rw [hp.cr ha hb] at hab
    exact pos_of_mul_pos_right hab (mul_pos hra hrb).le
  rw [hp.cr ha hm, hp.cr hm hb]
  -- the angle of the edge
  obtain ⟨β, hβ0, hβπ, hβ⟩ : ∃ β : ℝ, 0 < β ∧ β < Real.pi ∧ ((a < b ∧ β = θ b - θ a) ∨ (¬ a < b ∧ β = θ b - θ a + 2 * Real.pi)) := by
    rcases hcase with h | ⟨h, h'⟩
    · have := hp.mono a b h hb
      exact ⟨θ b - θ a, by linarith, pos_lt_pi hsab (by linarith), Or.inl ⟨h, rfl⟩⟩
    · have := hp.mono b a h' ha
      refine ⟨θ b - θ a + 2 * Real.pi, by linarith, pos_lt_pi ?_ (by linarith), Or.inr ⟨by omega, rfl⟩⟩
      rw [Real.sin_add_two_pi]; exact hsab
  constructor
  · rintro ⟨h1, h2⟩
    have hma := hp.mono a m h1 hm
    have hδ : θ m - θ a < β := by
      rcases hβ with ⟨h, rfl⟩ | ⟨h, rfl⟩
      · rw [if_pos h] at h2
        have := hp.mono m b h2 hb
        linarith
      · have hb0 : b = 0 := by omega
        have := hp.mono b m (by omega) hm
        linarith
    constructor
    · exact mul_pos (mul_pos hra hrm) (Real.sin_pos_of_pos_of_lt_pi (by linarith) (by linarith))
    · refine mul_pos (mul_pos hrm hrb) ?_
      have : Real.sin (θ b - θ m) = Real.sin (β - (θ m - θ a)) := by
        rcases hβ with ⟨_, rfl⟩ | ⟨_, rfl⟩
        · congr 1; ring
        · rw [← Real.sin_add_two_pi]; congr 1; ring
      rw [this]
      exact Real.sin_pos_of_pos_of_lt_pi (by linarith) (by linarith)
  · intro hnb hma hmb
    -- the angle from the first end, in `(β, 2π)`
    obtain ⟨δ, hδ1, hδ2, e1, e2⟩ : ∃ δ, β < δ ∧ δ < 2 * Real.pi ∧ Real.sin (θ m - θ a) = Real.sin δ ∧
        Real.sin (θ b - θ m) = Real.sin (β - δ) := by
      unfold Between at hnb
      rcases hβ with ⟨h, rfl⟩ | ⟨h, rfl⟩
      · rw [if_pos h] at hnb
        rcases Nat.lt_or_ge m a with h3 | h3
        · have g1 := hp.mono m a h3 ha
          have g2 := hp.mono m b (by omega) hb
          refine ⟨θ m - θ a + 2 * Real.pi, by linarith, by linarith, (Real.sin_add_two_pi _).symm, ?_⟩
          rw [← Real.sin_sub_two_pi]; congr 1; ring
        · have h4 : b < m := by omega
          have g1 := hp.mono a m (by omega) hm
          have g2 := hp.mono b m h4 hm
          refine ⟨θ m - θ a, by linarith, by linarith, rfl, ?_⟩
          congr 1; ring
      · rw [if_neg h] at hnb
        have hb0 : b = 0 := by omega
        have h3 : m < a := by omega
        have g1 := hp.mono m a h3 ha
        have g2 := hp.mono b m (by omega) hm
        refine ⟨θ m - θ a + 2 * Real.pi, by linarith, by linarith, (Real.sin_add_two_pi _).symm, ?_⟩
        congr 1; ring
    rw [e1, e2]
    rcases sin_not_both hβ0 hβπ hδ1 hδ2 with h | h
    · exact Or.inl (mul_neg_of_pos_of_neg (mul_pos hra hrm) h)
    · exact Or.inr (mul_neg_of_pos_of_neg (mul_pos hrm hrb) h)

end Ellipy.Sup
