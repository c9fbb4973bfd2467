import Verif.Model.SqrtPos

/-! Property theorems C15 (`sqrt_pos`). -/

namespace Ellipy.SqrtPos

/-- `y` is the non-negative root of `x` with negative numbers counted as zero. -/
def IsRootOf (x y : ℝ) : Prop := 0 ≤ y ∧ y ^ 2 = max x 0

/-- At most one number is the root. -/
theorem isRootOf_unique {x y z : ℝ} (hy : IsRootOf x y) (hz : IsRootOf x z) : y = z :=
  (sq_eq_sq₀ hy.1 hz.1).mp (hy.2.trans hz.2.symm)

private theorem root_aux (x : ℝ) : IsRootOf x (Real.sqrt (if x < 0 then 0 else x)) := by
  refine ⟨Real.sqrt_nonneg _, ?_⟩
  by_cases h : x < 0
  · rw [if_pos h, Real.sqrt_zero, max_eq_right h.le]; norm_num
  · rw [if_neg h, Real.sq_sqrt (not_lt.mp h), max_eq_left (not_lt.mp h)]

/-- **C15**, scalars: rejected exactly with a negative tolerance or below minus the tolerance. -/
theorem C15_scalar_raises_iff (x tol : ℝ) : Raises (sqrtPosScalar x tol) ↔ tol < 0 ∨ x < -tol := by
  unfold sqrtPosScalar Raises throwErr
  split_ifs with h1 h2 <;> simp [*]

/-- **C15**, scalars: otherwise the result is the root. -/
theorem C15_scalar_value (x tol y : ℝ) (h : sqrtPosScalar x tol = .ok y) : IsRootOf x y := by
  unfold sqrtPosScalar throwErr at h
  by_cases h1 : tol < 0
  · rw [if_pos h1] at h; cases h
  by_cases h2 : x < -tol
  · rw [if_neg h1, if_pos h2] at h; cases h
  rw [if_neg h1, if_neg h2] at h
  injection h with h
  subst h
  exact root_aux x

/-- **C15**, arrays: rejected exactly with a negative tolerance or an entry below minus the tolerance. -/
theorem C15_array_raises_iff (xs : List ℝ) (tol : ℝ) :
    Raises (sqrtPosArr xs tol) ↔ tol < 0 ∨ ∃ x ∈ xs, x < -tol := by
  unfold sqrtPosArr Raises throwErr
  split_ifs with h1 h2 <;> simp_all

/-- **C15**, arrays: otherwise each entry of the result is the root of the entry at the same place. -/
theorem C15_array_value (xs ys : List ℝ) (tol : ℝ) (h : sqrtPosArr xs tol = .ok ys) :
    List.Forall₂ IsRootOf xs ys := by
  unfold sqrtPosArr throwErr at h
  split_ifs at h
  injection h with h
  subst h
  rw [List.map_map, List.forall₂_map_right_iff, List.forall₂_same]
  exact fun x _ => root_aux x

/-- Scalars and one-element arrays agree, exceptions included. -/
theorem C15_scalar_array (x tol : ℝ) :
    sqrtPosArr [x] tol = (sqrtPosScalar x tol).map (fun y => [y]) := by
  unfold sqrtPosScalar sqrtPosArr throwErr
  by_cases h1 : tol < 0
  · rw [if_pos h1, if_pos h1]; rfl
  rw [if_neg h1, if_neg h1]
  by_cases h2 : x < -tol
  · rw [if_pos ⟨x, by simp, h2⟩, if_pos h2]; rfl
  · rw [if_neg (by simpa using h2), if_neg h2]; rfl

example : ∃ y, sqrtPosScalar (-1) 2 = .ok y ∧ IsRootOf (-1) y := by
  refine ⟨_, ?_, root_aux _⟩
  unfold sqrtPosScalar
  rw [if_neg (by norm_num), if_neg (by norm_num)]

example : Raises (sqrtPosArr [4, -3] 2) := (C15_array_raises_iff _ _).mpr (Or.inr ⟨-3, by simp, by norm_num⟩)

example : ∃ ys, sqrtPosArr [4, -1] 1 = .ok ys ∧ List.Forall₂ IsRootOf [4, -1] ys := by
  refine ⟨_, ?_, List.Forall₂.cons (root_aux 4) (List.Forall₂.cons (root_aux (-1)) .nil)⟩
  unfold sqrtPosArr
  rw [if_neg (by norm_num), if_neg (by norm_num)]
  rfl

end Ellipy.SqrtPos
