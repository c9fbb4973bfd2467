import Mathlib.RingTheory.RootsOfUnity.Complex
import Verif.Model.CirclePart

/-! Property theorem C59 (`circle_part`). -/

namespace Ellipy.Geom
open Complex

/-- The point as a complex number. -/
noncomputable def asC (p : ℝ × ℝ) : ℂ := ⟨p.1, p.2⟩

theorem asC_inj {p q : ℝ × ℝ} (h : asC p = asC q) : p = q := by
  have h1 := congrArg Complex.re h
  have h2 := congrArg Complex.im h
  exact Prod.ext h1 h2

theorem asC_cis (t : ℝ) : asC (Real.cos t, Real.sin t) = exp (t * I) := by
  apply Complex.ext
  · simp [asC, Complex.exp_ofReal_mul_I_re]
  · simp [asC, Complex.exp_ofReal_mul_I_im]

theorem circle_ok (n : ℕ) (hn : 1 ≤ n) : circlePart n none = .ok ((List.range n).map (fun (k : ℕ) =>
    (Real.cos (k * (2 * Real.pi / n)), Real.sin (k * (2 * Real.pi / n))))) := by
  unfold circlePart linspaceOpen
  have h : ¬ ((n : ℤ) < 0) := by omega
  simp [h, Function.comp_def]

theorem point_eq (n : ℕ) (hn : 1 ≤ n) (k : ℕ) : asC (Real.cos (k * (2 * Real.pi / n)), Real.sin (k * (2 * Real.pi / n))) =
    exp (2 * Real.pi * I / n) ^ k := by
  rw [asC_cis, ← Complex.exp_nat_mul]
  congr 1
  push_cast
  ring

/-- **C59**: the points lie on the unit circle, point `k` at the angle `2πk/n`, no point occurs twice, and together they are all `n`-th
roots of unity. -/
theorem C59 (n : ℕ) (hn : 1 ≤ n) : ∃ l, circlePart n none = .ok l ∧ l.length = n ∧ l.Nodup ∧ (∀ p ∈ l, p.1 ^ 2 + p.2 ^ 2 = 1) ∧
    (∀ k (hk : k < l.length), asC l[k] = exp ((2 * Real.pi * k / n : ℝ) * I)) ∧ ∀ z : ℂ, z ^ n = 1 ↔ ∃ p ∈ l, asC p = z := by
  haveI : NeZero n := ⟨by omega⟩
  have hprim := Complex.isPrimitiveRoot_exp n (by omega)
  refine ⟨_, circle_ok n hn, by simp, ?_, ?_, ?_, ?_⟩
  · refine List.Nodup.map_on ?_ List.nodup_range
    intro i hi j hj hij
    have h := congrArg asC hij
    rw [point_eq n hn, point_eq n hn] at h
    exact hprim.pow_inj (List.mem_range.mp hi) (List.mem_range.mp hj) h
  · intro p hp
    obtain ⟨k, -, rfl⟩ := List.mem_map.mp hp
    exact Real.cos_sq_add_sin_sq _
  · intro k hk
    rw [List.getElem_map, List.getElem_range, asC_cis]
    congr 2
    push_cast
    ring
  · intro z
    constructor
    · intro hz
      obtain ⟨k, hk, rfl⟩ := hprim.eq_pow_of_pow_eq_one hz
      exact ⟨_, List.mem_map.mpr ⟨k, List.mem_range.mpr hk, rfl⟩, point_eq n hn k⟩
    · rintro ⟨p, hp, rfl⟩
      obtain ⟨k, -, rfl⟩ := List.mem_map.mp hp
      rw [point_eq n hn, pow_right_comm, hprim.pow_eq_one, one_pow]

/-- **C59**, errors: exactly the negative numbers are rejected. -/
theorem C59_raises_iff (n : ℤ) (r : Option (ℝ × ℝ)) : Raises (circlePart n r) ↔ n < 0 := by
  unfold circlePart linspaceOpen
  by_cases h : n < 0
  · simp [h, Raises]
  · simp [h, Raises]

/-- **C59** for a given range of angles: the points are those at `a + k (b - a) / n`. -/
theorem C59_range (n : ℕ) (a b : ℝ) : ∃ l, circlePart n (some (a, b)) = .ok l ∧ l.length = n ∧
    ∀ k (hk : k < l.length), asC l[k] = exp ((a + k * (b - a) / n : ℝ) * I) := by
  have h : ¬ ((n : ℤ) < 0) := by omega
  refine ⟨_, by unfold circlePart linspaceOpen; simp only [h, if_false, Option.getD_some]; rfl, by simp, ?_⟩
  intro k hk
  rw [List.getElem_map, List.getElem_map, List.getElem_range, asC_cis]
  congr 2
  push_cast
  ring

/-- Four points: the second is `i`. -/
example : ∃ l, circlePart 4 none = .ok l ∧ l.length = 4 ∧ ∃ p ∈ l, asC p = I := by
  obtain ⟨l, h, h1, -, -, -, h2⟩ := C59 4 (by norm_num)
  exact ⟨l, h, h1, (h2 I).mp Complex.I_pow_four⟩

end Ellipy.Geom
