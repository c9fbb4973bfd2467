import Verif.Props.MatDot

/-! Property theorems C141: laws of `mat_dot` across calls. -/

namespace Ellipy.MV
open Matrix

/-! ### Auxiliary facts -/

/-- `s·a + t·b`, entry by entry. -/
def Nd.comb (s t : ℝ) (a b : Nd) : Nd := ⟨a.shape, fun ix => s * a.v ix + t * b.v ix⟩

private theorem comb_mat (s t : ℝ) (a b : Nd) (n : ℕ) (k : List ℕ) : (Nd.comb s t a b).mat n k = s • a.mat n k + t • b.mat n k := rfl

/-- Trace form of the Cauchy–Schwarz inequality. -/
private theorem trace_cs {n : ℕ} (A B : Matrix (Fin n) (Fin n) ℝ) : trace (Aᵀ * B) ^ 2 ≤ trace (Aᵀ * A) * trace (Bᵀ * B) := by
  have h := discrim_le_zero (a := trace (Bᵀ * B)) (b := 2 * trace (Aᵀ * B)) (c := trace (Aᵀ * A)) (fun t => by
    have h1 := trace_gram_nonneg (A + t • B)
    have h2 : trace (Bᵀ * A) = trace (Aᵀ * B) := by rw [← trace_transpose, transpose_mul, transpose_transpose]
    have h3 : trace ((A + t • B)ᵀ * (A + t • B)) = trace (Bᵀ * B) * (t * t) + 2 * trace (Aᵀ * B) * t + trace (Aᵀ * A) := by
      rw [transpose_add, transpose_smul, Matrix.add_mul, Matrix.mul_add, Matrix.mul_add, Matrix.smul_mul, Matrix.smul_mul, Matrix.mul_smul, Matrix.mul_smul, trace_add, trace_add,
        trace_add, trace_smul, trace_smul, trace_smul, trace_smul, h2]
      simp only [smul_eq_mul]
      ring
    linarith)
  unfold discrim at h
  nlinarith

/-! ### Linearity -/

/-- **C141**: `mat_dot` is linear in the first argument, and so, by symmetry, in the second. -/
theorem C141_linear (s t : ℝ) (a a' b : Nd) (n : ℕ) (rest : List ℕ) (hn : 0 < n) (ha : a.shape = n :: n :: rest) (ha' : a'.shape = n :: n :: rest)
    (hb : b.shape = n :: n :: rest) :
    ∃ r r' q q', matDot a b = .ok r ∧ matDot a' b = .ok r' ∧ matDot (Nd.comb s t a a') b = .ok q ∧ matDot b (Nd.comb s t a a') = .ok q' ∧
      ∀ k, ∃ x y, r.v (0 :: 0 :: k) = .fin x ∧ r'.v (0 :: 0 :: k) = .fin y ∧ q.v (0 :: 0 :: k) = .fin (s * x + t * y) ∧
        q'.v (0 :: 0 :: k) = .fin (s * x + t * y) := by
  have hc : (Nd.comb s t a a').shape = n :: n :: rest := ha
  obtain ⟨r, h1, -, v1⟩ := C74_value a b n rest hn ha hb
  obtain ⟨r', h2, -, v2⟩ := C74_value a' b n rest hn ha' hb
  obtain ⟨q, h3, -, v3⟩ := C74_value _ b n rest hn hc hb
  obtain ⟨q', h4, -, v4⟩ := C74_value b _ n rest hn hb hc
  refine ⟨r, r', q, q', h1, h2, h3, h4, fun k => ⟨_, _, v1 k, v2 k, ?_, ?_⟩⟩
  · rw [v3, comb_mat, transpose_add, transpose_smul, transpose_smul, Matrix.add_mul, Matrix.smul_mul, Matrix.smul_mul, trace_add, trace_smul, trace_smul, smul_eq_mul,
      smul_eq_mul]
    congr 1
    ring
  · have e : ∀ A B : Matrix (Fin n) (Fin n) ℝ, trace (Bᵀ * A) = trace (Aᵀ * B) := fun A B => by
      rw [← trace_transpose, transpose_mul, transpose_transpose]
    rw [v4, comb_mat, Matrix.mul_add, Matrix.mul_smul, Matrix.mul_smul, trace_add, trace_smul, trace_smul, smul_eq_mul, smul_eq_mul, e (a.mat n k), e (a'.mat n k)]
    congr 1
    ring

/-! ### Inequalities -/

/-- **C141**: the square of the value for two arrays is at most the product of the values for each with itself, and the root of the value of
an array with itself satisfies the triangle inequality. -/
theorem C141_norm (a b : Nd) (n : ℕ) (rest : List ℕ) (hn : 0 < n) (ha : a.shape = n :: n :: rest) (hb : b.shape = n :: n :: rest) :
    ∃ aa ab bb ss, matDot a a = .ok aa ∧ matDot a b = .ok ab ∧ matDot b b = .ok bb ∧ matDot (Nd.comb 1 1 a b) (Nd.comb 1 1 a b) = .ok ss ∧
      ∀ k, ∃ x y z s, aa.v (0 :: 0 :: k) = .fin x ∧ ab.v (0 :: 0 :: k) = .fin y ∧ bb.v (0 :: 0 :: k) = .fin z ∧ ss.v (0 :: 0 :: k) = .fin s ∧
        y ^ 2 ≤ x * z ∧ Real.sqrt s ≤ Real.sqrt x + Real.sqrt z := by
  have hc : (Nd.comb 1 1 a b).shape = n :: n :: rest := ha
  obtain ⟨aa, h1, -, v1⟩ := C74_value a a n rest hn ha ha
  obtain ⟨ab, h2, -, v2⟩ := C74_value a b n rest hn ha hb
  obtain ⟨bb, h3, -, v3⟩ := C74_value b b n rest hn hb hb
  obtain ⟨ss, h4, -, v4⟩ := C74_value _ _ n rest hn hc hc
  have hn' : (0 : ℝ) < n := by exact_mod_cast hn
  refine ⟨aa, ab, bb, ss, h1, h2, h3, h4, fun k => ⟨_, _, _, _, v1 k, v2 k, v3 k, v4 k, ?_, ?_⟩⟩
  · rw [div_pow, div_mul_div_comm, ← sq]
    exact div_le_div_of_nonneg_right (trace_cs _ _) (by positivity)
  · rw [comb_mat, one_smul, one_smul]
    set A := a.mat n k
    set B := b.mat n k
    have hx : 0 ≤ trace (Aᵀ * A) / n := div_nonneg (trace_gram_nonneg _) hn'.le
    have hz : 0 ≤ trace (Bᵀ * B) / n := div_nonneg (trace_gram_nonneg _) hn'.le
    have hy : trace (Aᵀ * B) / n ≤ Real.sqrt (trace (Aᵀ * A) / n) * Real.sqrt (trace (Bᵀ * B) / n) := by
      rw [← Real.sqrt_mul hx]
      refine Real.le_sqrt_of_sq_le ?_
      rw [div_pow, div_mul_div_comm, ← sq]
      exact div_le_div_of_nonneg_right (trace_cs _ _) (by positivity)
    have e : trace (Bᵀ * A) = trace (Aᵀ * B) := by rw [← trace_transpose, transpose_mul, transpose_transpose]
    have h5 : trace ((A + B)ᵀ * (A + B)) / n = trace (Aᵀ * A) / n + 2 * (trace (Aᵀ * B) / n) + trace (Bᵀ * B) / n := by
      rw [transpose_add, Matrix.add_mul, Matrix.mul_add, Matrix.mul_add, trace_add, trace_add, trace_add, e]
      ring
    rw [h5]
    refine Real.sqrt_le_iff.2 ⟨by positivity, ?_⟩
    have q1 := Real.sq_sqrt hx
    have q2 := Real.sq_sqrt hz
    nlinarith

/-! ### Invariance -/

/-- **C141**: multiplying all slices of both arrays by orthogonal matrices, on either side, does not change the values. -/
theorem C141_orthogonal (a b a' b' : Nd) (n : ℕ) (rest : List ℕ) (hn : 0 < n) (ha : a.shape = n :: n :: rest) (hb : b.shape = n :: n :: rest)
    (ha' : a'.shape = n :: n :: rest) (hb' : b'.shape = n :: n :: rest) (U V : List ℕ → Matrix (Fin n) (Fin n) ℝ) (hU : ∀ k, (U k)ᵀ * U k = 1)
    (hV : ∀ k, V k * (V k)ᵀ = 1) (h1 : ∀ k, a'.mat n k = U k * a.mat n k * V k) (h2 : ∀ k, b'.mat n k = U k * b.mat n k * V k) :
    ∃ r r', matDot a b = .ok r ∧ matDot a' b' = .ok r' ∧ ∀ k, r'.v (0 :: 0 :: k) = r.v (0 :: 0 :: k) := by
  obtain ⟨r, g1, -, v1⟩ := C74_value a b n rest hn ha hb
  obtain ⟨r', g2, -, v2⟩ := C74_value a' b' n rest hn ha' hb'
  refine ⟨r, r', g1, g2, fun k => ?_⟩
  rw [v1, v2, h1, h2]
  congr 2
  have e : (U k * a.mat n k * V k)ᵀ * (U k * b.mat n k * V k) = (V k)ᵀ * ((a.mat n k)ᵀ * b.mat n k * V k) := by
    rw [transpose_mul, transpose_mul]
    calc _ = (V k)ᵀ * ((a.mat n k)ᵀ * ((U k)ᵀ * U k) * b.mat n k * V k) := by simp only [Matrix.mul_assoc]
      _ = _ := by rw [hU, Matrix.mul_one]
  rw [e, trace_mul_comm, Matrix.mul_assoc, hV, Matrix.mul_one]

/-- **C141**: the values with all arrays determine an array: two arrays with the same values have the same slices. -/
theorem C141_determines (a a' : Nd) (n : ℕ) (rest : List ℕ) (hn : 0 < n) (ha : a.shape = n :: n :: rest) (ha' : a'.shape = n :: n :: rest)
    (h : ∀ (b : Nd) (r r' : NdX), b.shape = n :: n :: rest → matDot a b = .ok r → matDot a' b = .ok r' → ∀ k, r.v (0 :: 0 :: k) = r'.v (0 :: 0 :: k))
    (k : List ℕ) : a.mat n k = a'.mat n k := by
  have hc : (Nd.comb 1 (-1) a a').shape = n :: n :: rest := ha
  obtain ⟨r, g1, -, v1⟩ := C74_value a _ n rest hn ha hc
  obtain ⟨r', g2, -, v2⟩ := C74_value a' _ n rest hn ha' hc
  have h1 := h _ r r' hc g1 g2 k
  rw [v1, v2] at h1
  have hn' : (n : ℝ) ≠ 0 := by exact_mod_cast hn.ne'
  have h2 := XF.fin.inj h1
  rw [div_left_inj' hn', comb_mat, one_smul] at h2
  rw [← sub_eq_zero]
  refine trace_gram_zero ?_
  rw [transpose_sub, Matrix.sub_mul, trace_sub]
  rw [show a.mat n k - a'.mat n k = a.mat n k + (-1 : ℝ) • a'.mat n k by rw [neg_one_smul, sub_eq_add_neg], h2, sub_self]

/-! ### Examples -/

/-- Two arrays of three `2 × 2` matrices each, turned by a right angle from the left. -/
example : ∃ (a b a' b' : Nd) (U V : List ℕ → Matrix (Fin 2) (Fin 2) ℝ), a.shape = [2, 2, 3] ∧ b.shape = [2, 2, 3] ∧ a'.shape = [2, 2, 3] ∧ b'.shape = [2, 2, 3] ∧
    (∀ k, (U k)ᵀ * U k = 1) ∧ (∀ k, V k * (V k)ᵀ = 1) ∧ (∀ k, a'.mat 2 k = U k * a.mat 2 k * V k) ∧ (∀ k, b'.mat 2 k = U k * b.mat 2 k * V k) ∧
    a'.mat 2 [0] ≠ a.mat 2 [0] ∧ a.mat 2 [0] ≠ 0 := by
  refine ⟨⟨[2, 2, 3], fun ix => if ix.getD 0 0 = 0 ∧ ix.getD 1 0 = 0 then 1 else 0⟩, ⟨[2, 2, 3], fun ix => ix.getD 2 0⟩,
    ⟨[2, 2, 3], fun ix => if ix.getD 0 0 = 1 ∧ ix.getD 1 0 = 0 then 1 else 0⟩, ⟨[2, 2, 3], fun ix => if ix.getD 0 0 = 0 then -(ix.getD 2 0 : ℝ) else ix.getD 2 0⟩,
    fun _ => !![0, -1; 1, 0], fun _ => 1, rfl, rfl, rfl, rfl, fun k => ?_, fun k => by simp, fun k => ?_, fun k => ?_, fun h => ?_, fun h => ?_⟩
  · ext i j; fin_cases i <;> fin_cases j <;> simp [mul_apply, Fin.sum_univ_two]
  · ext i j; fin_cases i <;> fin_cases j <;> simp [mul_apply, Fin.sum_univ_two, Nd.mat, vecHead, vecTail]
  · ext i j; fin_cases i <;> fin_cases j <;> simp [mul_apply, Fin.sum_univ_two, Nd.mat, vecHead, vecTail]
  · have := congrFun (congrFun h 0) 0
    simp [Nd.mat] at this
  · have := congrFun (congrFun h 0) 0
    simp [Nd.mat] at this

end Ellipy.MV
