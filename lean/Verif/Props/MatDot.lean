import Verif.Spec.MatHelpers

/-! Property theorems C74 (`mat_dot`). -/

namespace Ellipy.MV
open Matrix

theorem trace_sum {n : ℕ} (x y : ℕ → ℕ → ℝ) :
    ∑ i ∈ Finset.range n, ∑ j ∈ Finset.range n, x i j * y i j =
      trace ((of fun i j : Fin n => x i j)ᵀ * (of fun i j : Fin n => y i j)) := by
  rw [Finset.sum_range, trace]
  simp only [diag_apply, mul_apply, transpose_apply, of_apply]
  rw [Finset.sum_comm, Finset.sum_range]

/-- C74: on two batches of `n × n` matrices `mat_dot` returns the batch of `trace (Aᵀ B) / n`. -/
theorem C74_value (a b : Nd) (n : ℕ) (rest : List ℕ) (hn : 0 < n) (ha : a.shape = n :: n :: rest) (hb : b.shape = n :: n :: rest) :
    ∃ r, matDot a b = .ok r ∧ r.shape = 1 :: 1 :: rest ∧
      ∀ k, r.v (0 :: 0 :: k) = .fin (trace ((a.mat n k)ᵀ * b.mat n k) / n) := by
  unfold matDot
  rw [ha, hb, if_neg (by simp)]
  simp only [ne_eq, not_true_eq_false, if_false]
  refine ⟨_, rfl, rfl, fun k => ?_⟩
  simp only [List.drop_succ_cons, List.drop_zero]
  rw [if_neg (by omega), trace_sum (fun i j => a.v (i :: j :: k)) (fun i j => b.v (i :: j :: k))]
  rfl

/-- C74: `mat_dot` raises exactly when the shapes differ, there are fewer than two axes, or the first two differ. -/
theorem C74_raises_iff (a b : Nd) :
    Raises (matDot a b) ↔ a.shape ≠ b.shape ∨ ∀ n rest, a.shape ≠ n :: n :: rest := by
  unfold matDot
  by_cases h : b.shape = a.shape
  · rw [if_neg (by simpa using h)]
    rw [h]
    simp only [ne_eq, not_true_eq_false, false_or]
    match hs : a.shape with
    | [] => exact ⟨fun _ => by simp, fun _ => ⟨_, rfl⟩⟩
    | [x] => exact ⟨fun _ => by simp, fun _ => ⟨_, rfl⟩⟩
    | n :: m :: rest =>
      simp only
      by_cases hnm : n = m
      · subst hnm
        simp only [not_true_eq_false, if_false]
        refine ⟨?_, fun h => absurd rfl (h n rest)⟩
        rintro ⟨e, he⟩
        cases he
      · rw [if_pos hnm]
        refine ⟨fun _ n' rest' h => ?_, fun _ => ⟨_, rfl⟩⟩
        simp only [List.cons.injEq] at h
        exact hnm (h.1.trans h.2.1.symm)
  · rw [if_pos h]
    exact ⟨fun _ => Or.inl (fun h' => h h'.symm), fun _ => ⟨_, rfl⟩⟩

/-- C74: empty matrices give `nan`, not an exception. -/
theorem C74_empty (a b : Nd) (rest : List ℕ) (ha : a.shape = 0 :: 0 :: rest) (hb : b.shape = 0 :: 0 :: rest) :
    ∃ r, matDot a b = .ok r ∧ ∀ ix, r.v ix = .nan := by
  unfold matDot
  rw [ha, hb, if_neg (by simp)]
  exact ⟨_, rfl, fun _ => rfl⟩

theorem trace_gram_nonneg {n : ℕ} (A : Matrix (Fin n) (Fin n) ℝ) : 0 ≤ trace (Aᵀ * A) := by
  rw [trace]
  refine Finset.sum_nonneg (fun i _ => ?_)
  rw [diag_apply, mul_apply]
  exact Finset.sum_nonneg (fun j _ => mul_self_nonneg _)

theorem trace_gram_zero {n : ℕ} {A : Matrix (Fin n) (Fin n) ℝ} (h : trace (Aᵀ * A) = 0) : A = 0 := by
  rw [trace] at h
  have h1 := (Finset.sum_eq_zero_iff_of_nonneg (fun i _ => by
    rw [diag_apply, mul_apply]
    exact Finset.sum_nonneg (fun j _ => mul_self_nonneg (A j i)))).mp h
  ext i j
  have h2 := h1 j (Finset.mem_univ _)
  rw [diag_apply, mul_apply] at h2
  have h3 := (Finset.sum_eq_zero_iff_of_nonneg (fun l _ => mul_self_nonneg (A l j))).mp h2 i (Finset.mem_univ _)
  exact mul_self_eq_zero.mp h3

/-- C74: the result is a normalised inner product on each slice: symmetric, positive on every slice that is not zero, and one on the
identity. -/
theorem C74_inner (a b : Nd) (n : ℕ) (rest : List ℕ) (hn : 0 < n) (ha : a.shape = n :: n :: rest) (hb : b.shape = n :: n :: rest) :
    ∃ ab ba aa, matDot a b = .ok ab ∧ matDot b a = .ok ba ∧ matDot a a = .ok aa ∧
      ∀ k, ab.v (0 :: 0 :: k) = ba.v (0 :: 0 :: k) ∧
        ∃ q, aa.v (0 :: 0 :: k) = .fin q ∧ 0 ≤ q ∧ (q = 0 ↔ a.mat n k = 0) ∧ (a.mat n k = 1 → q = 1) := by
  obtain ⟨ab, h1, -, v1⟩ := C74_value a b n rest hn ha hb
  obtain ⟨ba, h2, -, v2⟩ := C74_value b a n rest hn hb ha
  obtain ⟨aa, h3, -, v3⟩ := C74_value a a n rest hn ha ha
  have hn' : (0 : ℝ) < n := by exact_mod_cast hn
  refine ⟨ab, ba, aa, h1, h2, h3, fun k => ⟨?_, _, v3 k, ?_, ?_, ?_⟩⟩
  · rw [v1, v2]
    congr 2
    rw [← trace_transpose, transpose_mul, transpose_transpose]
  · exact div_nonneg (trace_gram_nonneg _) hn'.le
  · constructor
    · intro h
      rcases div_eq_zero_iff.mp h with h | h
      · exact trace_gram_zero h
      · exact absurd h hn'.ne'
    · intro h
      rw [h]
      simp
  · intro h
    rw [h, transpose_one, Matrix.one_mul, trace_one, Fintype.card_fin]
    exact div_self hn'.ne'

/-- Two time points, `2 × 2` matrices: the product of the identity with `[[1, 2], [3, 5]]` is `(1 + 5) / 2`. -/
example : ∃ r, matDot ⟨[2, 2, 2], fun ix => if ix.getD 0 0 = ix.getD 1 0 then 1 else 0⟩
    ⟨[2, 2, 2], fun ix => if ix.getD 0 0 = 0 then (if ix.getD 1 0 = 0 then 1 else 2) else (if ix.getD 1 0 = 0 then 3 else 5)⟩ = .ok r ∧
      r.v [0, 0, 1] = .fin 3 := by
  obtain ⟨r, h, -, hv⟩ := C74_value ⟨[2, 2, 2], fun ix => if ix.getD 0 0 = ix.getD 1 0 then 1 else 0⟩
    ⟨[2, 2, 2], fun ix => if ix.getD 0 0 = 0 then (if ix.getD 1 0 = 0 then 1 else 2) else (if ix.getD 1 0 = 0 then 3 else 5)⟩
    2 [2] (by norm_num) rfl rfl
  refine ⟨r, h, ?_⟩
  rw [hv [1], trace_fin_two]
  simp [Nd.mat, mul_apply, Fin.sum_univ_two]
  norm_num

/-- A `2 × 3` matrix is refused. -/
example : Raises (matDot ⟨[2, 3], fun _ => 1⟩ ⟨[2, 3], fun _ => 1⟩) :=
  (C74_raises_iff _ _).mpr (Or.inr (fun n rest h => by simp only [List.cons.injEq] at h; omega))

end Ellipy.MV
