import Verif.Props.SupBoundary
import Verif.Props.CirclePart
import Verif.Proofs.Support
import Mathlib.Analysis.SpecialFunctions.Trigonometric.Bounds

/-! Property theorems C134: the polygon whose corners `sup_2_boundary_2` returns. -/

namespace Ellipy.Sup
open Matrix Ellipy.LA Ellipy.Geom

/-! ### Auxiliary facts -/

private theorem val_next {n : ℕ} [NeZero n] (i : Fin n) : (i + 1).val = (i.val + 1) % n := by
  rw [Fin.val_add, Fin.val_one', Nat.add_mod_mod]

/-- Cross product of two directions of the plane. -/
def cross (a b : Fin 2 → ℝ) : ℝ := a 0 * b 1 - a 1 * b 0

private theorem solve_two {d e : Fin 2 → ℝ} (h : cross d e ≠ 0) (s t : ℝ) : ∃ y : Fin 2 → ℝ, d ⬝ᵥ y = s ∧ e ⬝ᵥ y = t := by
  refine ⟨![(s * e 1 - d 1 * t) / cross d e, (d 0 * t - s * e 0) / cross d e], ?_, ?_⟩
  all_goals
    simp only [dotProduct, Fin.sum_univ_two, cons_val_zero, cons_val_one]
    rw [mul_div_assoc', mul_div_assoc', ← add_div, div_eq_iff h]
    unfold cross
    ring

private theorem unique_two {d e x y : Fin 2 → ℝ} (h : cross d e ≠ 0) (h1 : d ⬝ᵥ x = d ⬝ᵥ y) (h2 : e ⬝ᵥ x = e ⬝ᵥ y) : x = y := by
  simp only [dotProduct, Fin.sum_univ_two] at h1 h2
  unfold cross at h
  funext i
  fin_cases i
  · show x 0 = y 0
    refine mul_left_cancel₀ h ?_
    linear_combination e 1 * h1 - d 1 * h2
  · show x 1 = y 1
    refine mul_left_cancel₀ h ?_
    linear_combination d 0 * h2 - e 0 * h1

/-- The rows, for independent consecutive directions. -/
private theorem rows (L : Lstsq) {n : ℕ} [NeZero n] (d : Fin n → Fin 2 → ℝ) (s : Fin n → ℝ) (hind : ∀ i, cross (d i) (d (i + 1)) ≠ 0) :
    ∃ x : Fin n → Fin 2 → ℝ, sup2Boundary2 L (List.ofFn d) (List.ofFn s) = .ok (List.ofFn x) ∧
      ∀ i, d i ⬝ᵥ x i = s i ∧ d (i + 1) ⬝ᵥ x i = s (i + 1) := by
  have hnext : ∀ (i : ℕ) (h : i < n), (⟨(i + 1) % n, Nat.mod_lt _ (by omega)⟩ : Fin n) = ⟨i, h⟩ + 1 := fun i h => Fin.ext (by rw [val_next])
  have hl : (List.ofFn d).length = n := List.length_ofFn
  have hn0 : n ≠ 0 := NeZero.ne n
  have hget : ∀ (i : ℕ) (h : i < (List.ofFn d).length) (h'' : (i + 1) % (List.ofFn d).length < (List.ofFn d).length), (List.ofFn d)[(i + 1) % (List.ofFn d).length] = d (⟨i, hl ▸ h⟩ + 1) := by
    intro i h h''
    rw [List.getElem_ofFn]
    congr 1
    exact Fin.ext (by simp only [hl]; rw [val_next])
  have hgets : ∀ (i : ℕ) (h : i < (List.ofFn d).length) (h'' : (i + 1) % (List.ofFn d).length < (List.ofFn s).length), (List.ofFn s)[(i + 1) % (List.ofFn d).length] = s (⟨i, hl ▸ h⟩ + 1) := by
    intro i h h''
    rw [List.getElem_ofFn]
    congr 1
    exact Fin.ext (by simp only [hl]; rw [val_next])
  obtain ⟨xs, h1, hx, h2⟩ := C68 L (List.ofFn d) (List.ofFn s) (by simpa using hn0) (by simp) (fun i h => by
    obtain ⟨y, e1, e2⟩ := solve_two (hind ⟨i, hl ▸ h⟩) (s ⟨i, hl ▸ h⟩) (s (⟨i, hl ▸ h⟩ + 1))
    refine ⟨y, by rw [List.getElem_ofFn, List.getElem_ofFn]; exact e1, ?_⟩
    rw [hget i h, hgets i h]
    exact e2)
  have hxn : xs.length = n := hx.trans hl
  refine ⟨fun i => xs[i.val]'(by omega), ?_, fun i => ?_⟩
  · rw [h1]
    congr 1
    refine List.ext_getElem (by simp [hxn]) (fun k _ _ => by rw [List.getElem_ofFn])
  · obtain ⟨e1, e2⟩ := h2 i.val (by omega)
    rw [List.getElem_ofFn, List.getElem_ofFn] at e1
    rw [hget i.val (by omega), hgets i.val (by omega)] at e2
    exact ⟨e1, e2⟩

/-! ### Relations between calls -/

/-- **C134**: the corners depend linearly on the values, so the corners for the support values of a sum are the sums of the corners. -/
theorem C134_linear (L : Lstsq) {n : ℕ} [NeZero n] (d : Fin n → Fin 2 → ℝ) (s s' : Fin n → ℝ) (hind : ∀ i, cross (d i) (d (i + 1)) ≠ 0) (a b : ℝ) :
    ∃ x x' : Fin n → Fin 2 → ℝ, sup2Boundary2 L (List.ofFn d) (List.ofFn s) = .ok (List.ofFn x) ∧
      sup2Boundary2 L (List.ofFn d) (List.ofFn s') = .ok (List.ofFn x') ∧
      sup2Boundary2 L (List.ofFn d) (List.ofFn fun i => a * s i + b * s' i) = .ok (List.ofFn fun i => a • x i + b • x' i) := by
  obtain ⟨x, h1, h2⟩ := rows L d s hind
  obtain ⟨x', h1', h2'⟩ := rows L d s' hind
  obtain ⟨y, g1, g2⟩ := rows L d (fun i => a * s i + b * s' i) hind
  refine ⟨x, x', h1, h1', ?_⟩
  rw [g1]
  congr 2
  funext i
  refine unique_two (hind i) ?_ ?_
  · rw [(g2 i).1, dotProduct_add, dotProduct_smul, dotProduct_smul, (h2 i).1, (h2' i).1]; rfl
  · rw [(g2 i).2, dotProduct_add, dotProduct_smul, dotProduct_smul, (h2 i).2, (h2' i).2]; rfl

/-- **C134**: an invertible affine map of the plane: the values of the image in the directions taken back belong to the images of the corners. -/
theorem C134_affine (L : Lstsq) {n : ℕ} [NeZero n] (d : Fin n → Fin 2 → ℝ) (s : Fin n → ℝ) (hind : ∀ i, cross (d i) (d (i + 1)) ≠ 0)
    (M : Matrix (Fin 2) (Fin 2) ℝ) (hM : M.det ≠ 0) (v : Fin 2 → ℝ) (d' : Fin n → Fin 2 → ℝ) (hd : ∀ i, Mᵀ *ᵥ d' i = d i) :
    ∃ x : Fin n → Fin 2 → ℝ, sup2Boundary2 L (List.ofFn d) (List.ofFn s) = .ok (List.ofFn x) ∧
      sup2Boundary2 L (List.ofFn d') (List.ofFn fun i => s i + d' i ⬝ᵥ v) = .ok (List.ofFn fun i => M *ᵥ x i + v) := by
  have hdot : ∀ i z, d' i ⬝ᵥ M *ᵥ z = d i ⬝ᵥ z := fun i z => by
    rw [← hd i, dotProduct_mulVec, ← mulVec_transpose]
  have hcr : ∀ a b : Fin 2 → ℝ, cross (Mᵀ *ᵥ a) (Mᵀ *ᵥ b) = M.det * cross a b := by
    intro a b
    simp only [cross, mulVec, dotProduct, Fin.sum_univ_two, transpose_apply, det_fin_two]
    ring
  have hind' : ∀ i, cross (d' i) (d' (i + 1)) ≠ 0 := by
    intro i h0
    apply hind i
    rw [← hd i, ← hd (i + 1), hcr, h0, mul_zero]
  obtain ⟨x, h1, h2⟩ := rows L d s hind
  obtain ⟨y, g1, g2⟩ := rows L d' (fun i => s i + d' i ⬝ᵥ v) hind'
  refine ⟨x, h1, ?_⟩
  rw [g1]
  congr 2
  funext i
  refine unique_two (hind' i) ?_ ?_
  · rw [(g2 i).1, dotProduct_add, hdot, (h2 i).1]
  · rw [(g2 i).2, dotProduct_add, hdot, (h2 i).2]

/-! ### The polygon -/

/-- **C134**: when the directions go around, so that every direction is between two consecutive ones and none of the given ones strictly
between, the polygon with the returned corners is the set of the points that satisfy all the inequalities; it contains `K`. -/
theorem C134_polygon (L : Lstsq) {n : ℕ} [NeZero n] (d : Fin n → Fin 2 → ℝ) (s : Fin n → ℝ) (K : Set (Fin 2 → ℝ)) (hK : K.Nonempty)
    (hsup : ∀ i, IsLUB ((fun y => d i ⬝ᵥ y) '' K) (s i)) (hind : ∀ i, cross (d i) (d (i + 1)) ≠ 0)
    (hout : ∀ i j, ∀ α β : ℝ, 0 < α → 0 < β → d j ≠ α • d i + β • d (i + 1))
    (hround : ∀ c : Fin 2 → ℝ, ∃ i, ∃ α β : ℝ, 0 ≤ α ∧ 0 ≤ β ∧ c = α • d i + β • d (i + 1)) :
    ∃ x : Fin n → Fin 2 → ℝ, sup2Boundary2 L (List.ofFn d) (List.ofFn s) = .ok (List.ofFn x) ∧
      (∀ i, d i ⬝ᵥ x i = s i ∧ d (i + 1) ⬝ᵥ x i = s (i + 1)) ∧
      convexHull ℝ (Set.range x) = {y | ∀ i, d i ⬝ᵥ y ≤ s i} ∧ K ⊆ convexHull ℝ (Set.range x) := by
  obtain ⟨x, h1, h2⟩ := rows L d s hind
  have hin : ∀ i j, d j ⬝ᵥ x i ≤ s j := fun i j =>
    corner_in hK (hsup i) (hsup (i + 1)) (hsup j) (hind i) (hout i j) (h2 i).1 (h2 i).2
  have hpoly : convexHull ℝ (Set.range x) = {y | ∀ i, d i ⬝ᵥ y ≤ s i} := by
    apply Set.Subset.antisymm
    · refine convexHull_min ?_ ?_
      · rintro _ ⟨i, rfl⟩ j
        exact hin i j
      · intro y hy z hz a b ha hb hab i
        rw [dotProduct_add, dotProduct_smul, dotProduct_smul, smul_eq_mul, smul_eq_mul]
        have e1 := mul_le_mul_of_nonneg_left (hy i) ha
        have e2 := mul_le_mul_of_nonneg_left (hz i) hb
        have e3 : a * s i + b * s i = s i := by rw [← add_mul, hab, one_mul]
        linarith
    · intro y hy
      refine Ell.mem_of_support (K := convexHull ℝ (Set.range x)) (convex_convexHull ℝ _) ((Set.finite_range x).isClosed_convexHull ℝ) ⟨x 0, subset_convexHull ℝ _ ⟨0, rfl⟩⟩ ?_
      intro c _
      obtain ⟨i, α, β, ha, hb, hc⟩ := hround c
      refine ⟨x i, subset_convexHull ℝ _ ⟨i, rfl⟩, ?_⟩
      rw [hc, add_dotProduct, add_dotProduct]
      simp only [smul_dotProduct, smul_eq_mul]
      rw [(h2 i).1, (h2 i).2]
      exact add_le_add (mul_le_mul_of_nonneg_left (hy i) ha) (mul_le_mul_of_nonneg_left (hy (i + 1)) hb)
  refine ⟨x, h1, h2, hpoly, fun y hy => ?_⟩
  rw [hpoly]
  exact fun i => (hsup i).1 ⟨y, hy, rfl⟩

/-! ### The directions of `circle_part` -/

/-- Direction `k` of `circle_part(n)`. -/
noncomputable def circDir (n k : ℕ) : Fin 2 → ℝ := ![Real.cos (k * (2 * Real.pi / n)), Real.sin (k * (2 * Real.pi / n))]

private theorem cross_angle (a b : ℝ) : cross ![Real.cos a, Real.sin a] ![Real.cos b, Real.sin b] = Real.sin (b - a) := by
  rw [Real.sin_sub]
  simp [cross]
  ring

private theorem circ_next {n : ℕ} [NeZero n] (i : Fin n) : circDir n (i + 1).val = circDir n (i.val + 1) := by
  have hn : (n : ℝ) ≠ 0 := by exact_mod_cast NeZero.ne n
  rw [val_next]
  rcases Nat.lt_or_ge (i.val + 1) n with h | h
  · rw [Nat.mod_eq_of_lt h]
  · have : i.val + 1 = n := by omega
    rw [this, Nat.mod_self]
    unfold circDir
    rw [show (n : ℝ) * (2 * Real.pi / n) = 2 * Real.pi by field_simp]
    simp

private theorem cross_circ {n : ℕ} (i j : ℕ) : cross (circDir n i) (circDir n j) = Real.sin (j * (2 * Real.pi / n) - i * (2 * Real.pi / n)) :=
  cross_angle _ _

private theorem cross_comb {c a b : Fin 2 → ℝ} {α β : ℝ} (h : c = α • a + β • b) : cross a c = β * cross a b ∧ cross c b = α * cross a b := by
  subst h
  constructor <;> simp [cross] <;> ring

private theorem step_sin {n : ℕ} (hn : 3 ≤ n) : 0 < 2 * Real.pi / n ∧ 2 * Real.pi / n < Real.pi ∧ 0 < Real.sin (2 * Real.pi / n) := by
  have hn' : (3 : ℝ) ≤ n := by exact_mod_cast hn
  have hpos : 0 < 2 * Real.pi / n := by have := Real.pi_pos; positivity
  have hlt : 2 * Real.pi / n < Real.pi := by
    rw [div_lt_iff₀ (by linarith)]
    nlinarith [Real.pi_pos]
  exact ⟨hpos, hlt, Real.sin_pos_of_pos_of_lt_pi hpos hlt⟩

private theorem circ_ind {n : ℕ} [NeZero n] (hn : 3 ≤ n) (i : Fin n) : cross (circDir n i) (circDir n (i + 1).val) = Real.sin (2 * Real.pi / n) := by
  rw [circ_next, cross_circ]
  congr 1
  push_cast
  ring

private theorem circ_out {n : ℕ} [NeZero n] (hn : 3 ≤ n) (i j : Fin n) (α β : ℝ) (hα : 0 < α) (hβ : 0 < β) :
    circDir n j ≠ α • circDir n i + β • circDir n (i + 1).val := by
  intro h
  obtain ⟨h1, h2⟩ := cross_comb h
  obtain ⟨hp, hlt, hs⟩ := step_sin hn
  rw [circ_ind hn] at h1 h2
  rw [cross_circ] at h1
  rw [circ_next, cross_circ] at h2
  have p1 : 0 < Real.sin (j * (2 * Real.pi / n) - i * (2 * Real.pi / n)) := by rw [h1]; positivity
  have p2 : 0 < Real.sin ((i.val + 1 : ℕ) * (2 * Real.pi / n) - j * (2 * Real.pi / n)) := by rw [h2]; positivity
  set δ := 2 * Real.pi / n with hδ
  have hnδ : (n : ℝ) * δ = 2 * Real.pi := by
    have : (n : ℝ) ≠ 0 := by exact_mod_cast NeZero.ne n
    rw [hδ]; field_simp
  -- the number of steps from `i` to `j`, between `0` and `n - 1`
  obtain ⟨m, hm, e1, e2⟩ : ∃ m : ℕ, m < n ∧ Real.sin (j * δ - i * δ) = Real.sin (m * δ) ∧ Real.sin ((i.val + 1 : ℕ) * δ - j * δ) = Real.sin (δ - m * δ) := by
    rcases Nat.lt_or_ge j.val i.val with hji | hji
    · refine ⟨j.val + n - i.val, by omega, ?_, ?_⟩
      · rw [← Real.sin_add_two_pi, ← hnδ]
        congr 1
        rw [Nat.cast_sub (by omega)]; push_cast; ring
      · rw [← Real.sin_sub_two_pi, ← hnδ]
        congr 1
        rw [Nat.cast_sub (by omega)]; push_cast; ring
    · refine ⟨j.val - i.val, by omega, ?_, ?_⟩
      · congr 1; rw [Nat.cast_sub hji]; ring
      · congr 1; rw [Nat.cast_sub hji]; push_cast; ring
  rw [e1] at p1
  rw [e2] at p2
  have hm2 : (m : ℝ) * δ < 2 * Real.pi := by
    rw [← hnδ]; exact mul_lt_mul_of_pos_right (by exact_mod_cast hm) hp
  have hmpi : (m : ℝ) * δ < Real.pi := by
    by_contra hge
    push Not at hge
    have : Real.sin (m * δ) ≤ 0 := by
      rw [← Real.sin_sub_two_pi]
      exact Real.sin_nonpos_of_nonpos_of_neg_pi_le (by linarith) (by linarith)
    linarith
  rcases Nat.eq_zero_or_pos m with h0 | h0
  · rw [h0] at p1; simp at p1
  · have h1' : (1 : ℝ) ≤ m := by exact_mod_cast h0
    have h3 : δ ≤ m * δ := le_mul_of_one_le_left hp.le h1'
    have : Real.sin (δ - m * δ) ≤ 0 := Real.sin_nonpos_of_nonpos_of_neg_pi_le (by linarith) (by linarith)
    linarith

private theorem circ_round {n : ℕ} [NeZero n] (hn : 3 ≤ n) (c : Fin 2 → ℝ) :
    ∃ i : Fin n, ∃ α β : ℝ, 0 ≤ α ∧ 0 ≤ β ∧ c = α • circDir n i + β • circDir n (i + 1).val := by
  obtain ⟨hp, hlt, hs⟩ := step_sin hn
  set δ := 2 * Real.pi / n with hδ
  have hnδ : (n : ℝ) * δ = 2 * Real.pi := by
    have : (n : ℝ) ≠ 0 := by exact_mod_cast NeZero.ne n
    rw [hδ]; field_simp
  -- polar coordinates with an angle in `[0, 2π)`
  obtain ⟨r, θ, hr, h0, h2, hc0, hc1⟩ : ∃ r θ : ℝ, 0 ≤ r ∧ 0 ≤ θ ∧ θ < 2 * Real.pi ∧ c 0 = r * Real.cos θ ∧ c 1 = r * Real.sin θ := by
    set z : ℂ := ⟨c 0, c 1⟩
    have e0 : c 0 = ‖z‖ * Real.cos z.arg := by rw [Complex.norm_mul_cos_arg]
    have e1 : c 1 = ‖z‖ * Real.sin z.arg := by rw [Complex.norm_mul_sin_arg]
    have a1 := Complex.neg_pi_lt_arg z
    have a2 := Complex.arg_le_pi z
    have := Real.pi_pos
    rcases lt_or_ge z.arg 0 with h | h
    · exact ⟨‖z‖, z.arg + 2 * Real.pi, norm_nonneg _, by linarith, by linarith, by rw [Real.cos_add_two_pi]; exact e0, by rw [Real.sin_add_two_pi]; exact e1⟩
    · exact ⟨‖z‖, z.arg, norm_nonneg _, h, by linarith, e0, e1⟩
  set k := ⌊θ / δ⌋₊ with hk
  have k1 : (k : ℝ) * δ ≤ θ := by
    have := Nat.floor_le (div_nonneg h0 hp.le)
    rwa [le_div_iff₀ hp] at this
  have k2 : θ < (k + 1 : ℝ) * δ := by
    have := Nat.lt_floor_add_one (θ / δ)
    rwa [div_lt_iff₀ hp] at this
  have kn : k < n := by
    have : (k : ℝ) * δ < n * δ := by rw [hnδ]; linarith
    exact_mod_cast lt_of_mul_lt_mul_right this hp.le
  refine ⟨⟨k, kn⟩, r * Real.sin ((k + 1 : ℝ) * δ - θ) / Real.sin δ, r * Real.sin (θ - k * δ) / Real.sin δ, ?_, ?_, ?_⟩
  · have : 0 ≤ Real.sin ((k + 1 : ℝ) * δ - θ) := Real.sin_nonneg_of_nonneg_of_le_pi (by linarith) (by nlinarith)
    positivity
  · have : 0 ≤ Real.sin (θ - k * δ) := Real.sin_nonneg_of_nonneg_of_le_pi (by linarith) (by nlinarith)
    positivity
  · rw [circ_next]
    have hdd : (k + 1 : ℝ) * δ - θ = (k * δ + δ) - θ := by ring
    funext j
    fin_cases j
    · show c 0 = r * Real.sin ((k + 1 : ℝ) * δ - θ) / Real.sin δ * Real.cos (k * δ) + r * Real.sin (θ - k * δ) / Real.sin δ * Real.cos ((k + 1 : ℕ) * δ)
      push_cast
      rw [hc0, hdd, show (k + 1 : ℝ) * δ = k * δ + δ by ring, Real.sin_sub, Real.sin_sub, Real.sin_add, Real.cos_add]
      field_simp
      have := Real.sin_sq_add_cos_sq (k * δ)
      linear_combination (-(r * Real.sin δ * Real.cos θ)) * this
    · show c 1 = r * Real.sin ((k + 1 : ℝ) * δ - θ) / Real.sin δ * Real.sin (k * δ) + r * Real.sin (θ - k * δ) / Real.sin δ * Real.sin ((k + 1 : ℕ) * δ)
      push_cast
      rw [hc1, hdd, show (k + 1 : ℝ) * δ = k * δ + δ by ring, Real.sin_sub, Real.sin_sub, Real.sin_add, Real.cos_add]
      field_simp
      have := Real.sin_sq_add_cos_sq (k * δ)
      linear_combination (-(r * Real.sin δ * Real.sin θ)) * this

private theorem near_bound {a b D c s : ℝ} (ha : 0 ≤ a) (hb : 0 ≤ b) (h0 : 0 < a + b) (hc : 0 < c ^ 2)
    (h : a ^ 2 + b ^ 2 + 2 * a * b * (2 * c ^ 2 - 1) ≤ D ^ 2) : (a * b / (a + b)) ^ 2 * (4 * s ^ 2) ≤ (D / 2) ^ 2 * (s ^ 2 / c ^ 2) := by
  have hab0 : 0 ≤ a * b := mul_nonneg ha hb
  have k1 : 4 * (a * b) ≤ (a + b) ^ 2 := by nlinarith [sq_nonneg (a - b)]
  have k2 : 4 * (a * b) * c ^ 2 ≤ a ^ 2 + b ^ 2 + 2 * a * b * (2 * c ^ 2 - 1) := by
    have := sq_nonneg (a - b)
    have e : a ^ 2 + b ^ 2 + 2 * a * b * (2 * c ^ 2 - 1) = 4 * (a * b) * c ^ 2 + (a - b) ^ 2 := by ring
    linarith
  have key : 16 * (a * b) ^ 2 * c ^ 2 ≤ D ^ 2 * (a + b) ^ 2 := by
    calc 16 * (a * b) ^ 2 * c ^ 2 = (4 * (a * b) * c ^ 2) * (4 * (a * b)) := by ring
      _ ≤ D ^ 2 * (a + b) ^ 2 := mul_le_mul (k2.trans h) k1 (by positivity) (sq_nonneg _)
  have h2 : (a * b / (a + b)) ^ 2 ≤ D ^ 2 / (16 * c ^ 2) := by
    rw [div_pow, div_le_div_iff₀ (by positivity) (by positivity)]
    linarith
  calc (a * b / (a + b)) ^ 2 * (4 * s ^ 2) ≤ D ^ 2 / (16 * c ^ 2) * (4 * s ^ 2) := mul_le_mul_of_nonneg_right h2 (by positivity)
    _ = (D / 2) ^ 2 * (s ^ 2 / c ^ 2) := by
      have : c ≠ 0 := fun h => by rw [h] at hc; simp at hc
      field_simp
      ring

/-- Each corner is near to `K`. -/
private theorem corner_near {K : Set (Fin 2 → ℝ)} (hv : Convex ℝ K) {D δ : ℝ} (hD : ∀ p ∈ K, ∀ q ∈ K, (p - q) ⬝ᵥ (p - q) ≤ D ^ 2)
    {d e x p q : Fin 2 → ℝ} (hd : d ⬝ᵥ d = 1) (he : e ⬝ᵥ e = 1) (hcr : cross d e = Real.sin (2 * δ)) (hde : d ⬝ᵥ e = Real.cos (2 * δ))
    (hs : 0 < Real.sin (2 * δ)) (hp : p ∈ K) (hq : q ∈ K) (h1 : d ⬝ᵥ p = d ⬝ᵥ x) (h2 : e ⬝ᵥ q = e ⬝ᵥ x) (h3 : e ⬝ᵥ p ≤ e ⬝ᵥ x) (h4 : d ⬝ᵥ q ≤ d ⬝ᵥ x) :
    ∃ z ∈ K, (x - z) ⬝ᵥ (x - z) ≤ (D / 2 * Real.tan δ) ^ 2 := by
  have hcpos : 0 < Real.cos δ ^ 2 := by
    rw [Real.sin_two_mul] at hs
    have : Real.cos δ ≠ 0 := fun h => by rw [h] at hs; simp at hs
    positivity
  have htan : Real.tan δ ^ 2 = Real.sin δ ^ 2 / Real.cos δ ^ 2 := by rw [Real.tan_eq_sin_div_cos, div_pow]
  have hone := Real.sin_sq_add_cos_sq δ
  have hC : Real.cos (2 * δ) = 2 * Real.cos δ ^ 2 - 1 := Real.cos_two_mul δ
  have hDq := hD p hp q hq
  simp only [dotProduct, Fin.sum_univ_two, Pi.sub_apply] at hd he hde h1 h2 h3 h4 hDq ⊢
  unfold cross at hcr
  set S := Real.sin (2 * δ)
  set C := Real.cos (2 * δ)
  -- the distances of the touching points from the corner
  obtain ⟨a, ha0, ha1⟩ : ∃ a, p 0 - x 0 = a * d 1 ∧ p 1 - x 1 = -a * d 0 := by
    refine ⟨d 1 * (p 0 - x 0) - d 0 * (p 1 - x 1), ?_, ?_⟩
    · linear_combination d 0 * h1 - (p 0 - x 0) * hd
    · linear_combination d 1 * h1 - (p 1 - x 1) * hd
  obtain ⟨b, hb0, hb1⟩ : ∃ b, q 0 - x 0 = -b * e 1 ∧ q 1 - x 1 = b * e 0 := by
    refine ⟨e 0 * (q 1 - x 1) - e 1 * (q 0 - x 0), ?_, ?_⟩
    · linear_combination e 0 * h2 - (q 0 - x 0) * he
    · linear_combination e 1 * h2 - (q 1 - x 1) * he
  have ha : 0 ≤ a := by
    have e : a * S = e 0 * (x 0 - p 0) + e 1 * (x 1 - p 1) := by rw [← hcr]; linear_combination e 0 * ha0 + e 1 * ha1
    have : 0 ≤ a * S := by linarith
    exact nonneg_of_mul_nonneg_left this hs
  have hb : 0 ≤ b := by
    have e : b * S = d 0 * (x 0 - q 0) + d 1 * (x 1 - q 1) := by rw [← hcr]; linear_combination d 0 * hb0 + d 1 * hb1
    have : 0 ≤ b * S := by linarith
    exact nonneg_of_mul_nonneg_left this hs
  have hpq : a ^ 2 + b ^ 2 + 2 * a * b * C ≤ D ^ 2 := by
    have e0 : p 0 - q 0 = a * d 1 + b * e 1 := by linarith
    have e1 : p 1 - q 1 = -(a * d 0 + b * e 0) := by linarith
    rw [e0, e1] at hDq
    have e2 : (a * d 1 + b * e 1) * (a * d 1 + b * e 1) + -(a * d 0 + b * e 0) * -(a * d 0 + b * e 0) = a ^ 2 + b ^ 2 + 2 * a * b * C := by
      linear_combination a ^ 2 * hd + b ^ 2 * he + 2 * a * b * hde
    linarith
  rcases eq_or_lt_of_le (add_nonneg ha hb) with h0 | h0
  · have a0 : a = 0 := by linarith
    refine ⟨p, hp, ?_⟩
    have e0 : x 0 - p 0 = 0 := by rw [a0] at ha0; linarith
    have e1 : x 1 - p 1 = 0 := by rw [a0] at ha1; linarith
    rw [e0, e1]
    have := sq_nonneg (D / 2 * Real.tan δ)
    linarith
  · refine ⟨(b / (a + b)) • p + (a / (a + b)) • q, hv hp hq (by positivity) (by positivity) (by rw [← add_div, add_comm b a, div_self h0.ne']), ?_⟩
    have hab : a + b ≠ 0 := h0.ne'
    simp only [Pi.add_apply, Pi.smul_apply, smul_eq_mul]
    have z0 : x 0 - (b / (a + b) * p 0 + a / (a + b) * q 0) = a * b / (a + b) * (e 1 - d 1) := by
      field_simp
      linear_combination (-b) * ha0 - a * hb0
    have z1 : x 1 - (b / (a + b) * p 1 + a / (a + b) * q 1) = a * b / (a + b) * (d 0 - e 0) := by
      field_simp
      linear_combination (-b) * ha1 - a * hb1
    rw [z0, z1]
    have hlhs : a * b / (a + b) * (e 1 - d 1) * (a * b / (a + b) * (e 1 - d 1)) + a * b / (a + b) * (d 0 - e 0) * (a * b / (a + b) * (d 0 - e 0)) =
        (a * b / (a + b)) ^ 2 * (4 * Real.sin δ ^ 2) := by
      have : (e 1 - d 1) ^ 2 + (d 0 - e 0) ^ 2 = 4 * Real.sin δ ^ 2 := by
        linear_combination hd + he - 2 * hde - 2 * hC - 4 * hone
      rw [← this]; ring
    rw [hlhs, mul_pow, htan]
    exact near_bound ha hb h0 hcpos (by rw [← hC]; exact hpq)

private theorem near_convex {K : Set (Fin 2 → ℝ)} (hv : Convex ℝ K) (r : ℝ) : Convex ℝ {y : Fin 2 → ℝ | ∃ z ∈ K, (y - z) ⬝ᵥ (y - z) ≤ r} := by
  rintro y ⟨z, hz, hyz⟩ y' ⟨z', hz', hyz'⟩ a b ha hb hab
  refine ⟨a • z + b • z', hv hz hz' ha hb hab, ?_⟩
  simp only [dotProduct, Fin.sum_univ_two, Pi.sub_apply, Pi.add_apply, Pi.smul_apply, smul_eq_mul] at hyz hyz' ⊢
  have hb' : b = 1 - a := by linarith
  subst hb'
  have e0 := mul_nonneg (mul_nonneg ha hb) (sq_nonneg ((y 0 - z 0) - (y' 0 - z' 0)))
  have e1 := mul_nonneg (mul_nonneg ha hb) (sq_nonneg ((y 1 - z 1) - (y' 1 - z' 1)))
  have e2 := mul_le_mul_of_nonneg_left hyz ha
  have e3 := mul_le_mul_of_nonneg_left hyz' hb
  nlinarith

/-- **C134**: with at least three directions of `circle_part` and the support values of a compact convex set `K`, the polygon with the
returned corners contains `K`, and every point of it is within `D/2 · tan(π/n)` of `K`, where `D` is a bound for the distances of points of `K`. -/
theorem C134_circle (L : Lstsq) {n : ℕ} (hn : 3 ≤ n) (K : Set (Fin 2 → ℝ)) (hc : IsCompact K) (hv : Convex ℝ K) (hne : K.Nonempty) (D : ℝ)
    (hD : ∀ p ∈ K, ∀ q ∈ K, (p - q) ⬝ᵥ (p - q) ≤ D ^ 2) (l : List (ℝ × ℝ)) (hl : circlePart n none = .ok l) (sup : List ℝ)
    (hsup : List.Forall₂ (fun c s => IsLUB ((fun y : Fin 2 → ℝ => c ⬝ᵥ y) '' K) s) (l.map fun p => ![p.1, p.2]) sup) :
    ∃ xs, sup2Boundary2 L (l.map fun p => ![p.1, p.2]) sup = .ok xs ∧ xs.length = n ∧ K ⊆ convexHull ℝ {x | x ∈ xs} ∧
      ∀ y ∈ convexHull ℝ {x | x ∈ xs}, ∃ z ∈ K, (y - z) ⬝ᵥ (y - z) ≤ (D / 2 * Real.tan (Real.pi / n)) ^ 2 := by
  haveI : NeZero n := ⟨by omega⟩
  rw [circle_ok n (by omega)] at hl
  cases hl
  have hdirs : ((List.range n).map (fun (k : ℕ) => (Real.cos (k * (2 * Real.pi / n)), Real.sin (k * (2 * Real.pi / n))))).map (fun p => ![p.1, p.2]) =
      List.ofFn (fun i : Fin n => circDir n i) := by
    refine List.ext_getElem (by simp) (fun k h1 h2 => ?_)
    rw [List.getElem_ofFn]
    simp [circDir]
  rw [hdirs] at hsup ⊢
  have hlen : sup.length = n := by rw [← hsup.length_eq]; simp
  obtain ⟨s, rfl⟩ : ∃ s : Fin n → ℝ, sup = List.ofFn s :=
    ⟨fun i => sup[i.val]'(by omega), List.ext_getElem (by simp [hlen]) (fun k _ _ => by rw [List.getElem_ofFn])⟩
  have hs : ∀ i : Fin n, IsLUB ((fun y => circDir n i ⬝ᵥ y) '' K) (s i) := by
    intro i
    have := (List.forall₂_iff_get.mp hsup).2 i.val (by simp) (by simp)
    simpa using this
  obtain ⟨hp, hlt, hsin⟩ := step_sin hn
  have h2δ : 2 * Real.pi / n = 2 * (Real.pi / n) := by ring
  obtain ⟨x, h1, h2, h3, h4⟩ := C134_polygon L (fun i : Fin n => circDir n i) s K hne hs
    (fun i => by rw [circ_ind hn]; exact hsin.ne') (fun i j α β ha hb => circ_out hn i j α β ha hb) (fun c => circ_round hn c)
  have hset : {y | y ∈ List.ofFn x} = Set.range x := by ext y; simp [List.mem_ofFn]
  refine ⟨List.ofFn x, h1, by simp, by rw [hset]; exact h4, ?_⟩
  rw [hset]
  refine convexHull_min ?_ (near_convex hv _)
  rintro _ ⟨i, rfl⟩
  have attained : ∀ j : Fin n, ∃ p ∈ K, circDir n j ⬝ᵥ p = s j := by
    intro j
    have hcont : Continuous (fun y : Fin 2 → ℝ => circDir n j ⬝ᵥ y) := by unfold dotProduct; fun_prop
    obtain ⟨p, hpK, hmax⟩ := hc.exists_isMaxOn hne hcont.continuousOn
    exact ⟨p, hpK, (hs j).unique (IsGreatest.isLUB ⟨⟨p, hpK, rfl⟩, by rintro _ ⟨y, hy, rfl⟩; exact hmax hy⟩) |>.symm⟩
  obtain ⟨p, hpK, hp1⟩ := attained i
  obtain ⟨q, hqK, hq1⟩ := attained (i + 1)
  have hunit : ∀ k, circDir n k ⬝ᵥ circDir n k = 1 := fun k => by
    simp only [circDir, dotProduct, Fin.sum_univ_two, cons_val_zero, cons_val_one]
    have := Real.sin_sq_add_cos_sq (k * (2 * Real.pi / n))
    linarith
  have hcos : circDir n i ⬝ᵥ circDir n (i + 1).val = Real.cos (2 * (Real.pi / n)) := by
    rw [circ_next, ← h2δ]
    have : 2 * Real.pi / n = (i.val + 1 : ℕ) * (2 * Real.pi / n) - i * (2 * Real.pi / n) := by push_cast; ring
    rw [this, Real.cos_sub]
    simp only [circDir, dotProduct, Fin.sum_univ_two, cons_val_zero, cons_val_one]
    ring
  obtain ⟨hx1, hx2⟩ := h2 i
  exact corner_near hv hD (hunit _) (hunit _) (by rw [circ_ind hn, h2δ]) hcos (by rw [← h2δ]; exact hsin) hpK hqK (hp1.trans hx1.symm) (hq1.trans hx2.symm)
    (by rw [hx2]; exact (hs (i + 1)).1 ⟨p, hpK, rfl⟩) (by rw [hx1]; exact (hs i).1 ⟨q, hqK, rfl⟩)

/-! ### Non-triviality -/

/-- The axis directions in turn. -/
private theorem axis_cross (i : Fin 4) : cross ((![![1, 0], ![0, 1], ![-1, 0], ![0, -1]] : Fin 4 → Fin 2 → ℝ) i)
    ((![![1, 0], ![0, 1], ![-1, 0], ![0, -1]] : Fin 4 → Fin 2 → ℝ) (i + 1)) ≠ 0 := by
  fin_cases i <;> simp [cross]

example (L : Lstsq) : ∃ x x' : Fin 4 → Fin 2 → ℝ,
    sup2Boundary2 L (List.ofFn (![![1, 0], ![0, 1], ![-1, 0], ![0, -1]] : Fin 4 → Fin 2 → ℝ)) (List.ofFn ![1, 2, 3, 4]) = .ok (List.ofFn x) ∧
    sup2Boundary2 L (List.ofFn (![![1, 0], ![0, 1], ![-1, 0], ![0, -1]] : Fin 4 → Fin 2 → ℝ)) (List.ofFn ![1, 1, 1, 1]) = .ok (List.ofFn x') ∧
    sup2Boundary2 L (List.ofFn (![![1, 0], ![0, 1], ![-1, 0], ![0, -1]] : Fin 4 → Fin 2 → ℝ)) (List.ofFn fun i => 2 * (![1, 2, 3, 4] : Fin 4 → ℝ) i + 3 * (![1, 1, 1, 1] : Fin 4 → ℝ) i) =
      .ok (List.ofFn fun i => (2 : ℝ) • x i + (3 : ℝ) • x' i) :=
  C134_linear L _ _ _ axis_cross 2 3

example (L : Lstsq) : ∃ x : Fin 4 → Fin 2 → ℝ,
    sup2Boundary2 L (List.ofFn (![![1, 0], ![0, 1], ![-1, 0], ![0, -1]] : Fin 4 → Fin 2 → ℝ)) (List.ofFn ![1, 2, 3, 4]) = .ok (List.ofFn x) ∧
    sup2Boundary2 L (List.ofFn (![![1, 0], ![-1, 1], ![-1, 0], ![1, -1]] : Fin 4 → Fin 2 → ℝ))
      (List.ofFn fun i => (![1, 2, 3, 4] : Fin 4 → ℝ) i + (![![1, 0], ![-1, 1], ![-1, 0], ![1, -1]] : Fin 4 → Fin 2 → ℝ) i ⬝ᵥ ![5, 7]) =
      .ok (List.ofFn fun i => (!![1, 0; 1, 1] : Matrix (Fin 2) (Fin 2) ℝ) *ᵥ x i + ![5, 7]) :=
  C134_affine L _ _ axis_cross _ (by simp) _ _ (by intro i; fin_cases i <;> ext j <;> fin_cases j <;> simp [mulVec, dotProduct, Fin.sum_univ_two])

private theorem disc_lub {c : Fin 2 → ℝ} (hc : c ⬝ᵥ c = 1) : IsLUB ((fun y : Fin 2 → ℝ => c ⬝ᵥ y) '' {u | u ⬝ᵥ u ≤ 1}) 1 := by
  refine IsGreatest.isLUB ⟨⟨c, hc.le, hc⟩, ?_⟩
  rintro _ ⟨y, hy, rfl⟩
  simp only [Set.mem_setOf_eq, dotProduct, Fin.sum_univ_two] at hc hy ⊢
  nlinarith [sq_nonneg (c 0 - y 0), sq_nonneg (c 1 - y 1)]

/-- Five directions around the unit disc meet the hypotheses of `C134_polygon`. -/
example (L : Lstsq) : ∃ x : Fin 5 → Fin 2 → ℝ, sup2Boundary2 L (List.ofFn fun i : Fin 5 => circDir 5 i) (List.ofFn fun _ : Fin 5 => 1) = .ok (List.ofFn x) ∧
    {u : Fin 2 → ℝ | u ⬝ᵥ u ≤ 1} ⊆ convexHull ℝ (Set.range x) := by
  obtain ⟨-, -, hsin⟩ := step_sin (n := 5) (by norm_num)
  obtain ⟨x, h1, -, -, h4⟩ := C134_polygon L (fun i : Fin 5 => circDir 5 i) (fun _ => 1) {u | u ⬝ᵥ u ≤ 1} ⟨0, by simp⟩
    (fun i => disc_lub (by
      simp only [circDir, dotProduct, Fin.sum_univ_two, cons_val_zero, cons_val_one]
      have := Real.sin_sq_add_cos_sq ((i.val : ℝ) * (2 * Real.pi / (5 : ℕ)))
      linarith))
    (fun i => by rw [circ_ind (by norm_num)]; exact hsin.ne') (fun i j α β ha hb => circ_out (by norm_num) i j α β ha hb) (fun c => circ_round (by norm_num) c)
  exact ⟨x, h1, h4⟩

/-- Six directions around the unit disc: every point of the hexagon is within `tan(π/6)` of the disc. -/
example (L : Lstsq) (l : List (ℝ × ℝ)) (hl : circlePart 6 none = .ok l) :
    ∃ xs, sup2Boundary2 L (l.map fun p => ![p.1, p.2]) (List.replicate 6 1) = .ok xs ∧ xs.length = 6 ∧ {u : Fin 2 → ℝ | u ⬝ᵥ u ≤ 1} ⊆ convexHull ℝ {x | x ∈ xs} ∧
      ∀ y ∈ convexHull ℝ {x | x ∈ xs}, ∃ z ∈ {u : Fin 2 → ℝ | u ⬝ᵥ u ≤ 1}, (y - z) ⬝ᵥ (y - z) ≤ (2 / 2 * Real.tan (Real.pi / (6 : ℕ))) ^ 2 := by
  refine C134_circle L (n := 6) (by norm_num) _ (Ell.ball_compact 2) ?_ ⟨0, by simp⟩ 2 ?_ l hl _ ?_
  · have := near_convex (convex_singleton (𝕜 := ℝ) (0 : Fin 2 → ℝ)) 1
    simpa using this
  · intro p hp q hq
    simp only [Set.mem_setOf_eq, dotProduct, Fin.sum_univ_two, Pi.sub_apply] at hp hq ⊢
    nlinarith [sq_nonneg (p 0 + q 0), sq_nonneg (p 1 + q 1)]
  · obtain ⟨l', h', hlen, -, hunit, -⟩ := C59 6 (by norm_num)
    have : l = l' := by rw [show ((6 : ℤ)) = ((6 : ℕ) : ℤ) by norm_num] at hl; rw [hl] at h'; exact Except.ok.inj h'
    subst this
    rw [List.forall₂_iff_get]
    refine ⟨by simp [hlen], fun i h1 h2 => ?_⟩
    simp only [List.get_eq_getElem, List.getElem_map, List.getElem_replicate]
    have hu := hunit _ (List.getElem_mem (l := l) (n := i) (by simpa using h1))
    set p := l[i]'(by simpa using h1)
    exact disc_lub (by simp [dotProduct, Fin.sum_univ_two]; nlinarith)

end Ellipy.Sup
