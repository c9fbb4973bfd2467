import Mathlib.Tactic.FinCases
import Verif.Props.SvdMul
import Verif.Props.LrMultiply

/-! Property theorem C18, continued: `lr_svd_multiply` with the flag 'L', and the arguments for which the spectral products raise. -/

namespace Ellipy.MV
open Matrix Ellipy.LA

private theorem svd_left (E : Eigh) (n m T : ℕ) (b a : ℕ → ℕ → ℕ → ℝ) : ∃ w, lrSvdMultiply E (.d3 n n T b) (.d3 m n T a) "L" =
      lrMultiply (.d3 n n T (fun i j t => matFun (diagonal (E.vals (bMat n b t))) i j)) (.d3 n m T w) "L" ∧
    ∀ i j t, i < n → j < m → t < T → w i j t = ∑ l ∈ Finset.range n, matFun (E.vecs (bMat n b t)) i l * a j l t := by
  obtain ⟨ua, hua, pua⟩ := dense2_ok (ra := n) (T := T) (fun i j t => matFun (E.vecs (bMat n b t)) i j) (b := .d3 n m T (fun i j k => a j i k)) rfl rfl
    (Or.inl trivial)
  have hua' := (rMultiply_dense2 (T := T) (a := fun i j t => matFun (E.vecs (bMat n b t)) i j) (b := .d3 n m T (fun i j k => a j i k))
    (not_takes_false (ra := n) (ca := n))).trans hua
  obtain ⟨r, c, t', w⟩ := ua
  obtain ⟨hr, hc, ht, hval⟩ := pua
  simp only at hr hc ht hval
  have hc : c = m := hc
  subst hr; subst hc; subst ht
  refine ⟨w, ?_, fun i j t hi hj ht => hval i j t hi hj ht⟩
  unfold lrSvdMultiply
  rw [arraySvd_ok]
  simp only [if_true, transposeArr, hua']

/-- **C18**, `flag = 'L'`, for square matrices `A`: the call returns `V Aᵀ D A Vᵀ`, where `V D Vᵀ` is the decomposition of `B`. -/
theorem C18_left_actual (E : Eigh) (n T : ℕ) (b a : ℕ → ℕ → ℕ → ℝ) :
    ∃ v, lrSvdMultiply E (.d3 n n T b) (.d3 n n T a) "L" = .ok (.d3 n n T v) ∧ ∀ (i j : Fin n) (t : ℕ), t < T →
      v i j t = (E.vecs (bMat n b t) * (bMat n a t)ᵀ * diagonal (E.vals (bMat n b t)) * bMat n a t * (E.vecs (bMat n b t))ᵀ) i j := by
  obtain ⟨w, hw, hwv⟩ := svd_left E n n T b a
  obtain ⟨v, hv, hvv⟩ := C118_left n n T (fun i j t => matFun (diagonal (E.vals (bMat n b t))) i j) (.d3 n n T w) rfl rfl rfl
  refine ⟨v, hw.trans hv, fun i j t ht => ?_⟩
  have hW : ∀ i j : Fin n, w i j t = (E.vecs (bMat n b t) * (bMat n a t)ᵀ) i j := by
    intro i j
    rw [hwv i j t i.2 j.2 ht, Matrix.mul_apply, Finset.sum_range]
    exact Finset.sum_congr rfl fun l _ => by rw [matFun_fin]; rfl
  rw [hvv i j t i.2 j.2 ht]
  have hR : E.vecs (bMat n b t) * (bMat n a t)ᵀ * diagonal (E.vals (bMat n b t)) * bMat n a t * (E.vecs (bMat n b t))ᵀ =
      (E.vecs (bMat n b t) * (bMat n a t)ᵀ) * (diagonal (E.vals (bMat n b t)) * (E.vecs (bMat n b t) * (bMat n a t)ᵀ)ᵀ) := by
    rw [transpose_mul, transpose_transpose]; simp only [Matrix.mul_assoc]
  rw [hR, Matrix.mul_apply]
  show (∑ k ∈ Finset.range n, ∑ l ∈ Finset.range n, w i k t * matFun (diagonal (E.vals (bMat n b t))) k l * w j l t) = _
  rw [Finset.sum_range]
  refine Finset.sum_congr rfl fun k _ => ?_
  rw [Finset.sum_range, Matrix.mul_apply (M := diagonal _), Finset.mul_sum]
  refine Finset.sum_congr rfl fun l _ => ?_
  rw [matFun_fin, hW, hW, transpose_apply, mul_assoc]

/-- **C18** fails for `flag = 'L'`: matrices `A` that are not square always raise although `A B Aᵀ` is defined, and for square ones the result can
differ from `A B Aᵀ` even when `B` is diagonal with ascending entries: `diag(1, 2)` and `A` with the only non-zero entry 1 in the right upper corner. -/
theorem C18_left_violated (E : Eigh) :
    (∀ (n m T : ℕ) (b a : ℕ → ℕ → ℕ → ℝ), m ≠ n → 0 < T → Raises (lrSvdMultiply E (.d3 n n T b) (.d3 m n T a) "L")) ∧
    ∃ (b a v : ℕ → ℕ → ℕ → ℝ), bMat 2 b 0 = diagonal ![1, 2] ∧ bMat 2 a 0 = !![0, 1; 0, 0] ∧
      lrSvdMultiply E (.d3 2 2 1 b) (.d3 2 2 1 a) "L" = .ok (.d3 2 2 1 v) ∧ v 0 0 0 = 0 ∧ (bMat 2 a 0 * bMat 2 b 0 * (bMat 2 a 0)ᵀ) 0 0 = 2 := by
  constructor
  · intro n m T b a hm hT
    obtain ⟨w, hw, -⟩ := svd_left E n m T b a
    rw [hw, C118_raises_iff _ _ (by exact hT)]
    exact Or.inr (Or.inr (Or.inr (Or.inl ⟨rfl, Ne.symm hm⟩)))
  · let b : ℕ → ℕ → ℕ → ℝ := fun i j _ => if i = j then (i + 1 : ℝ) else 0
    let a : ℕ → ℕ → ℕ → ℝ := fun i j _ => if i = 0 ∧ j = 1 then 1 else 0
    have hb : bMat 2 b 0 = diagonal ![1, 2] := by
      ext i j
      fin_cases i <;> fin_cases j <;> norm_num [sliceMat, b]
    have ha : bMat 2 a 0 = !![0, 1; 0, 0] := by
      ext i j
      fin_cases i <;> fin_cases j <;> simp [sliceMat, a]
    obtain ⟨v, h1, h2⟩ := C18_left_actual E 2 1 b a
    refine ⟨b, a, v, hb, ha, h1, ?_, ?_⟩
    · have hs : StrictMono ![(1 : ℝ), 2] := by
        rw [Fin.strictMono_iff_lt_succ]
        intro i
        fin_cases i; norm_num
      have hvals : E.vals (diagonal ![(1 : ℝ), 2]) = ![1, 2] := ((diag_vals_strict E hs.injective).range_inj hs).mp (diag_vals_range E _)
      have hz : E.vecs (diagonal ![(1 : ℝ), 2]) 0 1 = 0 := by
        by_contra h
        have := diag_vecs E _ 0 1 h
        rw [hvals] at this
        norm_num at this
      have := h2 0 0 0 one_pos
      rw [hb, ha] at this
      refine this.trans ?_
      have hrow : ∀ k, (E.vecs (diagonal ![(1 : ℝ), 2]) * !![(0 : ℝ), 1; 0, 0]ᵀ) 0 k = 0 := by
        intro k
        rw [Matrix.mul_apply, Fin.sum_univ_two, hz]
        fin_cases k <;> simp
      rw [Matrix.mul_assoc, Matrix.mul_assoc, Matrix.mul_apply]
      exact Finset.sum_eq_zero fun k _ => by rw [hrow, zero_mul]
    · rw [hb, ha, Matrix.mul_apply, Fin.sum_univ_two]
      simp

/-- **C18**: all four spectral products raise for one matrix without a time axis and for matrices that are not square. -/
theorem C18_raises (E : Eigh) (B : Arr) (hB : (∃ r c v, B = .d2 r c v) ∨ ∃ r c T v, B = .d3 r c T v ∧ 0 < T ∧ r ≠ c) (a : Arr) (flag : String) :
    Raises (lrSvdMultiply E B a flag) ∧ Raises (rSvdMultiplyByVec E B a) ∧ Raises (lrSvdMultiplyByVec E B a) ∧ Raises (lrSvdDivideVec E B a) := by
  have h : ∃ x, arraySvd E B = .error x := by
    rcases hB with ⟨r, c, v, rfl⟩ | ⟨r, c, T, v, rfl, hT, hne⟩
    · exact ⟨_, rfl⟩
    · exact ⟨.linAlgError, by unfold arraySvd; exact if_pos ⟨hT, hne⟩⟩
  obtain ⟨x, hx⟩ := h
  refine ⟨⟨x, ?_⟩, ⟨x, ?_⟩, ⟨x, ?_⟩, ⟨x, ?_⟩⟩
  · unfold lrSvdMultiply; rw [hx]
  · unfold rSvdMultiplyByVec; rw [hx]
  · unfold lrSvdMultiplyByVec; rw [hx]
  · unfold lrSvdDivideVec; rw [hx]

/-- **C18**: a flag other than 'L' and 'R' raises. -/
theorem C18_flag (E : Eigh) (B a : Arr) (flag : String) (h1 : flag ≠ "L") (h2 : flag ≠ "R") : Raises (lrSvdMultiply E B a flag) := by
  unfold lrSvdMultiply
  cases arraySvd E B with
  | error x => exact ⟨x, rfl⟩
  | ok us =>
    obtain ⟨u, s⟩ := us
    simp only [if_neg h1, if_neg h2]
    exact ⟨_, rfl⟩

/-- One row of length 2, two matrices: the call raises. -/
example (E : Eigh) : Raises (lrSvdMultiply E (.d3 2 2 2 fun i j _ => if i = j then 1 else 0) (.d3 1 2 2 fun _ _ _ => 1) "L") :=
  (C18_left_violated E).1 2 1 2 _ _ (by norm_num) (by norm_num)

/-- The zero matrices: the result is zero. -/
example (E : Eigh) : ∃ v, lrSvdMultiply E (.d3 2 2 3 fun i j _ => if i = j then 1 else 0) (.d3 2 2 3 fun _ _ _ => 0) "L" = .ok (.d3 2 2 3 v) ∧
    ∀ (i j : Fin 2) (t : ℕ), t < 3 → v i j t = 0 := by
  obtain ⟨v, h1, h2⟩ := C18_left_actual E 2 3 (fun i j _ => if i = j then 1 else 0) (fun _ _ _ => 0)
  refine ⟨v, h1, fun i j t ht => ?_⟩
  have h0 : bMat 2 (fun _ _ _ => (0 : ℝ)) t = 0 := rfl
  rw [h2 i j t ht, h0, Matrix.mul_zero, Matrix.zero_mul]; rfl

/-- A matrix with two rows and three columns. -/
example (E : Eigh) : Raises (lrSvdDivideVec E (.d3 2 3 1 fun _ _ _ => 1) (.d2 2 1 fun _ _ => 1)) :=
  (C18_raises E _ (Or.inr ⟨2, 3, 1, _, rfl, one_pos, by norm_num⟩) _ "R").2.2.2

end Ellipy.MV
