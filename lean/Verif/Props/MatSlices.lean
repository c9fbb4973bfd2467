import Verif.Proofs.MatHelpers
import Verif.Spec.MatVector

/-! Property theorems C75 (`MatVector.triu`, `transpose`, `make_symmetric`) and C76 (`MatVector.pinv`). -/

namespace Ellipy.MV
open Matrix Ellipy.LA

/-! ### C75 -/

/-- C75: `triu` returns a batch of the same size with zeros below the diagonals and everything else unchanged; a matrix is a batch of
one. -/
theorem C75_triu (a : Arr) :
    ∃ v, triuArr a = .d3 a.nRows a.nCols (timeLen a) v ∧
      ∀ i j t, (j < i → v i j t = 0) ∧ (i ≤ j → v i j t = a.entry i j t) := by
  cases a with
  | d2 r c v =>
    refine ⟨_, rfl, fun i j t => ⟨fun h => if_neg (by omega), fun h => if_pos h⟩⟩
  | d3 r c T v =>
    refine ⟨_, rfl, fun i j t => ⟨fun h => if_neg (by omega), fun h => if_pos h⟩⟩

/-- C75: `transpose` returns the batch of transposed matrices; a matrix is a batch of one. -/
theorem C75_transpose (a : Arr) :
    ∃ v, transposeArr a = .d3 a.nCols a.nRows (timeLen a) v ∧ ∀ i j t, v i j t = a.entry j i t := by
  cases a with
  | d2 r c v => exact ⟨_, rfl, fun _ _ _ => rfl⟩
  | d3 r c T v => exact ⟨_, rfl, fun _ _ _ => rfl⟩

/-- C75: on a batch of square matrices `make_symmetric` returns the symmetric parts: a symmetric matrix with the same quadratic form. -/
theorem C75_symmetric_partial (n T : ℕ) (v : ℕ → ℕ → ℕ → ℝ) :
    ∃ s, makeSymmetric (.d3 n n T v) = .ok s ∧ s.r = n ∧ s.c = n ∧ s.t = T ∧
      ∀ t, (rectMat n n (fun i j => s.v i j t))ᵀ = rectMat n n (fun i j => s.v i j t) ∧
        ∀ x : Fin n → ℝ, x ⬝ᵥ rectMat n n (fun i j => s.v i j t) *ᵥ x = x ⬝ᵥ rectMat n n (fun i j => v i j t) *ᵥ x := by
  have hb : ∀ i, i < n → bix n i = i := by
    intro i hi
    unfold bix
    by_cases h : n = 1
    · rw [if_pos h]; omega
    · rw [if_neg h]
  unfold makeSymmetric bcast
  simp only [if_true]
  refine ⟨_, rfl, rfl, rfl, rfl, fun t => ?_⟩
  have key : rectMat n n (fun i j => 1 / 2 * (v (bix n i) (bix n j) t + v (bix n j) (bix n i) t)) =
      (1 / 2 : ℝ) • (rectMat n n (fun i j => v i j t) + (rectMat n n (fun i j => v i j t))ᵀ) := by
    ext i j
    simp only [rectMat, of_apply, hb i i.2, hb j j.2, Matrix.smul_apply, Matrix.add_apply, transpose_apply, smul_eq_mul]
  simp only at key ⊢
  rw [key]
  refine ⟨?_, fun x => ?_⟩
  · rw [transpose_smul, transpose_add, transpose_transpose, add_comm]
  · rw [smul_mulVec, add_mulVec, dotProduct_smul, dotProduct_add, mulVec_transpose, dotProduct_comm x (x ᵥ* _),
      ← dotProduct_mulVec, smul_eq_mul]
    ring

/-- A symmetric batch is returned unchanged. -/
theorem C75_symmetric_fixed (n T : ℕ) (v : ℕ → ℕ → ℕ → ℝ) (h : ∀ i j t, i < n → j < n → t < T → v i j t = v j i t) :
    ∃ s, makeSymmetric (.d3 n n T v) = .ok s ∧ s.Is n n T v := by
  have hb : ∀ i, i < n → bix n i = i := by
    intro i hi
    unfold bix
    by_cases h : n = 1
    · rw [if_pos h]; omega
    · rw [if_neg h]
  unfold makeSymmetric bcast
  simp only [if_true]
  refine ⟨_, rfl, rfl, rfl, rfl, fun i j t hi hj ht => ?_⟩
  simp only [hb i hi, hb j hj, h i j t hi hj ht]
  ring

/-- C75: a batch is refused exactly when its matrices are not square and have no axis of length one. -/
theorem C75_raises_iff (r c T : ℕ) (v : ℕ → ℕ → ℕ → ℝ) :
    Raises (makeSymmetric (.d3 r c T v)) ↔ r ≠ c ∧ r ≠ 1 ∧ c ≠ 1 := by
  unfold makeSymmetric bcast Raises
  by_cases h1 : r = c
  · subst h1
    simp
  · by_cases h2 : r = 1
    · subst h2
      simp [h1, Ne.symm h1]
    · by_cases h3 : c = 1
      · subst h3
        simp [h2, Ne.symm h2]
      · simp [h1, h2, h3, Ne.symm h1]

/-- C75 is violated by every `n × n` matrix given without a time axis, `n ≠ 1`: the result has `n` slices instead of one, and entry
`(i, j, k)` is the mean of the entries `(j, k)` and `(j, i)`. -/
theorem C75_violated (n : ℕ) (hn : n ≠ 1) (v : ℕ → ℕ → ℝ) :
    ∃ s, makeSymmetric (.d2 n n v) = .ok s ∧ s.t ≠ 1 ∧ ∀ i j k, s.v i j k = (v j k + v j i) / 2 :=
  ⟨_, rfl, hn, fun i j k => by show 1 / 2 * (v j k + v j i) = _; ring⟩

/-- C75 is violated by a batch of rows: instead of an exception the result is a batch of `c × c` matrices. -/
theorem C75_violated_row (c T : ℕ) (hc : c ≠ 1) (v : ℕ → ℕ → ℕ → ℝ) :
    ∃ s, makeSymmetric (.d3 1 c T v) = .ok s ∧ s.r = c ∧ s.c = c ∧ ∀ i j k, s.v i j k = (v 0 j k + v 0 i k) / 2 := by
  unfold makeSymmetric bcast
  simp only [Ne.symm hc, hc, if_false, if_true]
  refine ⟨_, rfl, rfl, rfl, fun i j k => ?_⟩
  simp only [bix, if_true, if_neg hc]
  ring

/-- The symmetric part of `[[1, 2], [4, 3]]` has 3 off the diagonal. -/
example : ∃ s, makeSymmetric (.d3 2 2 1 (fun i j _ => if i = 0 then (if j = 0 then 1 else 2) else (if j = 0 then 4 else 3))) = .ok s ∧
    s.v 0 1 0 = 3 ∧ s.v 1 0 0 = 3 := by
  refine ⟨_, rfl, ?_, ?_⟩ <;> norm_num [bix]

/-- The same matrix without the time axis. -/
example : ∃ s, makeSymmetric (.d2 2 2 (fun i j => if i = 0 then (if j = 0 then 1 else 2) else (if j = 0 then 4 else 3))) = .ok s ∧
    s.t = 2 ∧ s.v 0 1 0 = 4 := by
  refine ⟨_, rfl, rfl, ?_⟩
  norm_num

/-! ### C76 -/

theorem pinv_ok (P : Pinv) (r c T : ℕ) (v : ℕ → ℕ → ℕ → ℝ) :
    ∃ w, pinvArr P (.d3 r c T v) = .ok ⟨c, r, T, w⟩ ∧
      ∀ t < T, rectMat c r (fun i j => w i j t) = P.inv (rectMat r c (fun i j => v i j t)) := by
  obtain ⟨w, h1, h2⟩ := fill_ok c r T (fun t => onSlice t (.d3 r c T v) (fun m => .ok (rectFun (P.inv (rectMat r c m)))))
    (fun t => rectFun (P.inv (rectMat r c (fun i j => v i j t)))) (fun t ht => by simp [onSlice, slice, ht])
  refine ⟨w, h1, fun t ht => ?_⟩
  rw [← rectMat_rectFun (P.inv (rectMat r c (fun i j => v i j t)))]
  ext i j
  exact h2 i j t ht

/-- C76: the slices of `pinv` of a batch give, for every right-hand side, the shortest least-squares solution of the system of the slice. -/
theorem C76_partial (P : Pinv) (r c T : ℕ) (v : ℕ → ℕ → ℕ → ℝ) :
    ∃ w, pinvArr P (.d3 r c T v) = .ok ⟨c, r, T, w⟩ ∧ ∀ t < T, ∀ y : Fin r → ℝ,
      IsShortestLs (rectMat r c (fun i j => v i j t)) y (rectMat c r (fun i j => w i j t) *ᵥ y) := by
  obtain ⟨w, h1, h2⟩ := pinv_ok P r c T v
  refine ⟨w, h1, fun t ht y => ?_⟩
  rw [h2 t ht]
  exact P.shortest _ y

/-- C76: the slices that are invertible are inverted. -/
theorem C76_inverse (P : Pinv) (n T : ℕ) (v : ℕ → ℕ → ℕ → ℝ) :
    ∃ w, pinvArr P (.d3 n n T v) = .ok ⟨n, n, T, w⟩ ∧ ∀ t < T, IsUnit (rectMat n n (fun i j => v i j t)).det →
      rectMat n n (fun i j => v i j t) * rectMat n n (fun i j => w i j t) = 1 := by
  obtain ⟨w, h1, h2⟩ := pinv_ok P n n T v
  refine ⟨w, h1, fun t ht hA => ?_⟩
  rw [h2 t ht, P.inverse hA, mul_nonsing_inv _ hA]

/-- C76 is violated for every matrix without a time axis: `IndexError`, although the function prepares for this case. -/
theorem C76_violated (P : Pinv) (r c : ℕ) (v : ℕ → ℕ → ℝ) : pinvArr P (.d2 r c v) = .error .indexError := rfl

/-- C76: nothing else is refused. -/
theorem C76_raises_iff (P : Pinv) (a : Arr) : Raises (pinvArr P a) ↔ ∃ r c v, a = .d2 r c v := by
  cases a with
  | d2 r c v => exact iff_of_true ⟨_, rfl⟩ ⟨r, c, v, rfl⟩
  | d3 r c T v =>
    obtain ⟨w, h, _⟩ := pinv_ok P r c T v
    rw [h]
    refine iff_of_false ?_ ?_
    · rintro ⟨e, he⟩; cases he
    · rintro ⟨_, _, _, he⟩; cases he

/-- The contract of `pinv` is satisfiable, and a batch with the slices `[[2]]` and `[[0]]` gives `1/2` and `0`. -/
example : ∃ P : Pinv, ∃ w, pinvArr P (.d3 1 1 2 (fun _ _ t => if t = 0 then 2 else 0)) = .ok ⟨1, 1, 2, w⟩ ∧
    w 0 0 0 = 1 / 2 ∧ w 0 0 1 = 0 := by
  obtain ⟨P⟩ := nonempty_pinv
  obtain ⟨w, h1, h2⟩ := pinv_ok P 1 1 2 (fun _ _ t => if t = 0 then 2 else 0)
  refine ⟨P, w, h1, ?_, ?_⟩
  · have h := P.p1 (rectMat 1 1 (fun _ _ => (2 : ℝ)))
    have e := h2 0 (by norm_num)
    simp only [if_true] at e
    rw [← e] at h
    have h3 := congrFun (congrFun h 0) 0
    simp [mul_apply, rectMat] at h3
    linarith
  · have h := P.p2 (rectMat 1 1 (fun _ _ => (0 : ℝ)))
    have e := h2 1 (by norm_num)
    simp only [show ¬ (1 : ℕ) = 0 by norm_num, if_false] at e
    rw [← e] at h
    have h3 := congrFun (congrFun h 0) 0
    simp [mul_apply, rectMat] at h3
    exact h3.symm

end Ellipy.MV
