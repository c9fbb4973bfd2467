import Mathlib.Order.WellFounded
import Verif.Model.SquareMatVector
import Verif.Proofs.La
import Verif.Props.MatVector

/-! Property theorem C18 (`SymmetricMatVector`): the spectral products against the direct ones. -/

namespace Ellipy.MV
open Matrix Ellipy.LA

/-! ### Specification: the matrices and vectors an array holds at time `t` -/

/-- The symmetric matrix at time `t`. -/
abbrev bMat (n : ℕ) (b : ℕ → ℕ → ℕ → ℝ) (t : ℕ) : Matrix (Fin n) (Fin n) ℝ := sliceMat n (fun i j => b i j t)

/-- Column `j` of the matrix at time `t`. -/
def colAt (n : ℕ) (a : ℕ → ℕ → ℕ → ℝ) (j t : ℕ) : Fin n → ℝ := fun k => a k j t

/-- The vector at time `t`. -/
def vecAt (n : ℕ) (a : ℕ → ℕ → ℝ) (t : ℕ) : Fin n → ℝ := fun k => a k t

/-- What the code uses in place of `B`: `Vᵀ D V` for the decomposition `B = V D Vᵀ`. -/
noncomputable def twisted (E : Eigh) {n : ℕ} (B : Matrix (Fin n) (Fin n) ℝ) : Matrix (Fin n) (Fin n) ℝ :=
  (E.vecs B)ᵀ * diagonal (E.vals B) * E.vecs B

/-! ### Sums -/

theorem matFun_fin {n : ℕ} (M : Matrix (Fin n) (Fin n) ℝ) (i j : Fin n) : matFun M i j = M i j := by
  unfold matFun
  rw [dif_pos ⟨i.2, j.2⟩]

theorem sum_matFun {n : ℕ} (M : Matrix (Fin n) (Fin n) ℝ) (x : ℕ → ℝ) (i : Fin n) :
    ∑ l ∈ Finset.range n, matFun M i l * x l = (M *ᵥ fun l : Fin n => x l) i := by
  rw [Finset.sum_range]
  exact Finset.sum_congr rfl (fun l _ => by rw [matFun_fin])

theorem quad_range {n : ℕ} (M : Matrix (Fin n) (Fin n) ℝ) (x y : ℕ → ℝ) :
    ∑ l ∈ Finset.range n, (∑ k ∈ Finset.range n, x k * matFun M k l) * y l =
      (fun k : Fin n => x k) ⬝ᵥ M *ᵥ (fun l : Fin n => y l) := by
  rw [dotProduct_mulVec, Finset.sum_range]
  refine Finset.sum_congr rfl (fun l _ => ?_)
  congr 1
  rw [Finset.sum_range]
  exact Finset.sum_congr rfl (fun k _ => by rw [matFun_fin])

theorem twisted_quad (E : Eigh) {n : ℕ} (B : Matrix (Fin n) (Fin n) ℝ) (x y : Fin n → ℝ) :
    (E.vecs B *ᵥ x) ⬝ᵥ diagonal (E.vals B) *ᵥ (E.vecs B *ᵥ y) = x ⬝ᵥ twisted E B *ᵥ y := by
  unfold twisted
  rw [← mulVec_mulVec, ← mulVec_mulVec, dotProduct_mulVec x, vecMul_transpose]

theorem arraySvd_ok (E : Eigh) (n T : ℕ) (b : ℕ → ℕ → ℕ → ℝ) :
    arraySvd E (.d3 n n T b) = .ok (.d3 n n T (fun i j t => matFun (E.vecs (bMat n b t)) i j),
      .d3 n n T (fun i j t => matFun (diagonal (E.vals (bMat n b t))) i j)) := by
  unfold arraySvd
  simp only
  rw [if_neg (fun h => h.2 rfl)]

/-! ### What the code computes -/

/-- `lr_svd_multiply(B, A)` returns `Aᵀ (Vᵀ D V) A`. -/
theorem C18_lr_actual (E : Eigh) (n m T : ℕ) (b a : ℕ → ℕ → ℕ → ℝ) :
    ∃ v, lrSvdMultiply E (.d3 n n T b) (.d3 n m T a) "R" = .ok (.d3 m m T v) ∧
      ∀ i j t, i < m → j < m → t < T →
        v i j t = colAt n a i t ⬝ᵥ twisted E (bMat n b t) *ᵥ colAt n a j t := by
  obtain ⟨ua, hua, pua⟩ := dense2_ok (ra := n) (T := T) (fun i j t => matFun (E.vecs (bMat n b t)) i j) (b := .d3 n m T a) rfl rfl (Or.inl trivial)
  have hua' := (rMultiply_dense2 (T := T) (a := fun i j t => matFun (E.vecs (bMat n b t)) i j) (b := .d3 n m T a)
    (not_takes_false (ra := n) (ca := n))).trans hua
  obtain ⟨r, c, t', w⟩ := ua
  obtain ⟨hr, hc, ht, hval⟩ := pua
  simp only at hr hc ht hval
  have hc : c = m := hc
  subst hr; subst hc; subst ht
  obtain ⟨v, hv, hvv⟩ := fill_ok c c t' (fun t => onSlice t (.d3 r c t' w) (fun at' => lrStep "R" r r r c (fun i j => matFun (diagonal (E.vals (bMat r b t))) i j) at'))
    (fun t i j => ∑ l ∈ Finset.range r, (∑ k ∈ Finset.range r, w k i t * matFun (diagonal (E.vals (bMat r b t))) k l) * w l j t) (fun t ht => by
      simp [onSlice, slice, ht, lrStep, matmul])
  refine ⟨v, ?_, ?_⟩
  · unfold lrSvdMultiply
    rw [arraySvd_ok]
    simp only [hua', show ¬ (("R" : String) = "L") by decide, if_false, if_true]
    unfold lrMultiply
    simp only [if_true, Arr.nCols, true_or, not_true_eq_false, if_false]
    simp only [hv]
  · intro i j t hi hj ht
    rw [hvv i j t ht, quad_range, ← twisted_quad]
    have hcol : ∀ j, j < c → (fun l : Fin r => w l j t) = E.vecs (bMat r b t) *ᵥ colAt r a j t := by
      intro j hj
      funext l
      rw [hval l j t l.2 hj ht]
      exact sum_matFun (E.vecs (bMat r b t)) (fun l => a l j t) l
    rw [hcol i hi, hcol j hj]

theorem svd_vec (E : Eigh) (n T : ℕ) (b : ℕ → ℕ → ℕ → ℝ) (a : ℕ → ℕ → ℝ) :
    ∃ ua, rMultiplyByVec (.d3 n n T (fun i j t => matFun (E.vecs (bMat n b t)) i j)) (.d2 n T a) true = .ok (n, T, ua) ∧
      ∀ t < T, (fun l : Fin n => ua l t) = E.vecs (bMat n b t) *ᵥ vecAt n a t := by
  obtain ⟨ua, h1, h2⟩ := C17_value n n T (fun i j t => matFun (E.vecs (bMat n b t)) i j) a true
  refine ⟨ua, h1, fun t ht => ?_⟩
  funext l
  rw [h2 l t l.2 ht]
  exact sum_matFun (E.vecs (bMat n b t)) (fun l => a l t) l

/-- `lr_svd_multiply_by_vec(B, a)` returns `aᵀ (Vᵀ D V) a`. -/
theorem C18_lr_vec_actual (E : Eigh) (n T : ℕ) (b : ℕ → ℕ → ℕ → ℝ) (a : ℕ → ℕ → ℝ) :
    ∃ v, lrSvdMultiplyByVec E (.d3 n n T b) (.d2 n T a) = .ok v ∧
      ∀ t, t < T → v t = vecAt n a t ⬝ᵥ twisted E (bMat n b t) *ᵥ vecAt n a t := by
  obtain ⟨ua, h1, h2⟩ := svd_vec E n T b a
  obtain ⟨v, hv, hvv⟩ := forRange_ok T (fun t => onSlice t (.d3 n n T (fun i j t => matFun (diagonal (E.vals (bMat n b t))) i j)) (fun bt => quadStep n n n bt (fun k => ua k t)))
    (fun t => ∑ l ∈ Finset.range n, (∑ k ∈ Finset.range n, ua k t * matFun (diagonal (E.vals (bMat n b t))) k l) * ua l t) (fun t ht => by
      simp [onSlice, slice, ht, quadStep])
  refine ⟨v, ?_, ?_⟩
  · unfold lrSvdMultiplyByVec
    rw [arraySvd_ok]
    simp only [h1]
    unfold lrMultiplyByVec
    simp only [hv]
  · intro t ht
    rw [hvv t ht, quad_range _ (fun k => ua k t) (fun k => ua k t), ← twisted_quad, h2 t ht]

/-- `r_svd_multiply_by_vec(B, a)` returns `(Vᵀ D V) a`. -/
theorem C18_r_vec_actual (E : Eigh) (n T : ℕ) (b : ℕ → ℕ → ℕ → ℝ) (a : ℕ → ℕ → ℝ) :
    ∃ v, rSvdMultiplyByVec E (.d3 n n T b) (.d2 n T a) = .ok (n, T, v) ∧
      ∀ (i : Fin n) t, t < T → v i t = (twisted E (bMat n b t) *ᵥ vecAt n a t) i := by
  obtain ⟨ua, h1, h2⟩ := svd_vec E n T b a
  obtain ⟨v, hv, hvv⟩ := forRange_ok T (fun t =>
      onSlice t (.d3 n n T (fun i j t => matFun (E.vecs (bMat n b t)) i j)) (fun ut =>
        onSlice t (.d3 n n T (fun i j t => matFun (diagonal (E.vals (bMat n b t))) i j)) (fun st =>
      (.ok (fun i => ∑ k ∈ Finset.range n,
          (∑ l ∈ Finset.range n, ut l i * st l k) * ua k t) : Py (ℕ → ℝ)))))
    (fun t i => ∑ k ∈ Finset.range n, (∑ l ∈ Finset.range n,
      matFun (E.vecs (bMat n b t)) l i * matFun (diagonal (E.vals (bMat n b t))) l k) * ua k t) (fun t ht => by
      simp [onSlice, slice, ht])
  refine ⟨fun i t => v t i, ?_, ?_⟩
  · unfold rSvdMultiplyByVec
    rw [arraySvd_ok]
    simp only [h1, Arr.nRows]
    simp only [hv]
  · intro i t ht
    show v t i = _
    rw [hvv t ht]
    show ∑ k ∈ Finset.range n, (∑ l ∈ Finset.range n, _ * _) * _ = _
    rw [quad_range _ (fun l => matFun (E.vecs (bMat n b t)) l i) (fun k => ua k t), h2 t ht]
    unfold twisted
    rw [← mulVec_mulVec, ← mulVec_mulVec]
    exact Finset.sum_congr rfl (fun l _ => congrArg (· * _) (matFun_fin _ l i))

/-- `lr_svd_divide_vec(B, a)` returns `aᵀ (Vᵀ D⁻¹ V) a` when there are at least two time points; with one it raises. -/
theorem C18_divide_actual (E : Eigh) (n T : ℕ) (b : ℕ → ℕ → ℕ → ℝ) (a : ℕ → ℕ → ℝ) :
    (T = 1 → Raises (lrSvdDivideVec E (.d3 n n T b) (.d2 n T a))) ∧
    (T ≠ 1 → ∃ v, lrSvdDivideVec E (.d3 n n T b) (.d2 n T a) = .ok v ∧
      ∀ t, t < T → v t = (E.vecs (bMat n b t) *ᵥ vecAt n a t) ⬝ᵥ
        diagonal (fun i => 1 / E.vals (bMat n b t) i) *ᵥ (E.vecs (bMat n b t) *ᵥ vecAt n a t)) := by
  obtain ⟨ua, h1, h2⟩ := svd_vec E n T b a
  constructor
  · intro hT
    refine ⟨.pyValueError, ?_⟩
    unfold lrSvdDivideVec
    rw [arraySvd_ok]
    simp only [h1, if_pos hT]
  · intro hT
    obtain ⟨v, hv, hvv⟩ := forRange_ok T (fun t =>
        onSlice t (.d3 n n T (fun i j t => matFun (diagonal (E.vals (bMat n b t))) i j)) (fun st =>
        (.ok (∑ k ∈ Finset.range n, ua k t * (1 / st k k * ua k t)) : Py ℝ)))
      (fun t => ∑ k ∈ Finset.range n, ua k t * (1 / matFun (diagonal (E.vals (bMat n b t))) k k * ua k t)) (fun t ht => by
        simp [onSlice, slice, ht])
    refine ⟨v, ?_, ?_⟩
    · unfold lrSvdDivideVec
      rw [arraySvd_ok]
      simp only [h1, if_neg hT, Arr.nRows, Arr.nCols]
      simp only [hv]
    · intro t ht
      rw [hvv t ht, ← h2 t ht, Finset.sum_range]
      refine Finset.sum_congr rfl (fun k _ => ?_)
      rw [matFun_fin, diagonal_apply_eq, mulVec_diagonal]

/-! ### When that is the direct product -/

theorem twisted_eq (E : Eigh) {n : ℕ} {B : Matrix (Fin n) (Fin n) ℝ} (hB : Bᵀ = B) (hV : (E.vecs B)ᵀ = E.vecs B) :
    twisted E B = B := by
  have h := E.decomp B
  rw [lowerSym_of_symm hB] at h
  unfold twisted
  rw [hV]
  nth_rw 2 [← hV]
  exact h.symm

/-- **C18**, for slices whose computed eigenvector matrix is symmetric (for instance diagonal slices with ascending entries, see
`C18_diagonal`).  Missing: all other symmetric slices, for which the property fails (`C18_violated`). -/
theorem C18_partial (E : Eigh) (n m T : ℕ) (b : ℕ → ℕ → ℕ → ℝ) (hb : ∀ t < T, (bMat n b t)ᵀ = bMat n b t)
    (hV : ∀ t < T, (E.vecs (bMat n b t))ᵀ = E.vecs (bMat n b t)) :
    (∀ a, ∃ v, lrSvdMultiply E (.d3 n n T b) (.d3 n m T a) "R" = .ok (.d3 m m T v) ∧
      ∀ i j t, i < m → j < m → t < T → v i j t = colAt n a i t ⬝ᵥ bMat n b t *ᵥ colAt n a j t) ∧
    (∀ a, ∃ v, lrSvdMultiplyByVec E (.d3 n n T b) (.d2 n T a) = .ok v ∧
      ∀ t, t < T → v t = vecAt n a t ⬝ᵥ bMat n b t *ᵥ vecAt n a t) ∧
    (∀ a, ∃ v, rSvdMultiplyByVec E (.d3 n n T b) (.d2 n T a) = .ok (n, T, v) ∧
      ∀ (i : Fin n) t, t < T → v i t = (bMat n b t *ᵥ vecAt n a t) i) ∧
    (∀ a, T ≠ 1 → (∀ t < T, (bMat n b t).det ≠ 0) → ∃ v, lrSvdDivideVec E (.d3 n n T b) (.d2 n T a) = .ok v ∧
      ∀ t, t < T → v t = vecAt n a t ⬝ᵥ (bMat n b t)⁻¹ *ᵥ vecAt n a t) := by
  refine ⟨?_, ?_, ?_, ?_⟩
  · intro a
    obtain ⟨v, h1, h2⟩ := C18_lr_actual E n m T b a
    exact ⟨v, h1, fun i j t hi hj ht => by rw [h2 i j t hi hj ht, twisted_eq E (hb t ht) (hV t ht)]⟩
  · intro a
    obtain ⟨v, h1, h2⟩ := C18_lr_vec_actual E n T b a
    exact ⟨v, h1, fun t ht => by rw [h2 t ht, twisted_eq E (hb t ht) (hV t ht)]⟩
  · intro a
    obtain ⟨v, h1, h2⟩ := C18_r_vec_actual E n T b a
    exact ⟨v, h1, fun i t ht => by rw [h2 i t ht, twisted_eq E (hb t ht) (hV t ht)]⟩
  · intro a hT hdet
    obtain ⟨v, h1, h2⟩ := (C18_divide_actual E n T b a).2 hT
    refine ⟨v, h1, fun t ht => ?_⟩
    rw [h2 t ht]
    generalize hBdef : bMat n b t = B at *
    have hVs : (E.vecs B)ᵀ = E.vecs B := by rw [← hBdef]; exact hV t ht
    have hVV := E.orth B
    have hdec := E.decomp B
    rw [lowerSym_of_symm (show Bᵀ = B by rw [← hBdef]; exact hb t ht)] at hdec
    have hd : ∀ i, E.vals B i ≠ 0 := by
      intro i h0
      apply hdet t ht
      rw [hBdef]
      rw [hdec, det_mul, det_mul, det_diagonal, Finset.prod_eq_zero (Finset.mem_univ i) h0, mul_zero, zero_mul]
    have hinv : B⁻¹ = (E.vecs B)ᵀ * diagonal (fun i => 1 / E.vals B i) * E.vecs B := by
      apply inv_eq_right_inv
      nth_rw 1 [hdec]
      rw [hVs] at hVV ⊢
      calc E.vecs B * diagonal (E.vals B) * E.vecs B * (E.vecs B * diagonal (fun i => 1 / E.vals B i) * E.vecs B)
          = E.vecs B * (diagonal (E.vals B) * (E.vecs B * E.vecs B) * diagonal (fun i => 1 / E.vals B i)) * E.vecs B := by
            simp only [Matrix.mul_assoc]
        _ = 1 := by
            rw [hVV, Matrix.mul_one, diagonal_mul_diagonal]
            have : (fun i => E.vals B i * (1 / E.vals B i)) = fun _ => 1 := by
              funext i; exact mul_one_div_cancel (hd i)
            rw [this, diagonal_one, Matrix.mul_one, hVV]
    rw [hinv, ← mulVec_mulVec, ← mulVec_mulVec, dotProduct_mulVec (vecAt n a t), vecMul_transpose]

/-! ### Diagonal slices -/

/-- Entry of the eigenvector matrix of a diagonal matrix. -/
theorem diag_vecs (E : Eigh) {n : ℕ} (d : Fin n → ℝ) (i j : Fin n) (h : E.vecs (diagonal d) i j ≠ 0) :
    d i = E.vals (diagonal d) j := by
  have h1 := E.spec (diagonal d)
  rw [lowerSym_of_symm (diagonal_transpose d)] at h1
  have h2 := congrFun (congrFun h1 i) j
  rw [diagonal_mul, mul_diagonal, mul_comm] at h2
  exact mul_left_cancel₀ h h2

theorem orth_row_ne {n : ℕ} {V : Matrix (Fin n) (Fin n) ℝ} (hV : Vᵀ * V = 1) (i : Fin n) : ∃ j, V i j ≠ 0 := by
  by_contra hn
  push Not at hn
  have h := congrFun (congrFun (orth_comm hV) i) i
  rw [mul_apply, one_apply_eq] at h
  rw [Finset.sum_eq_zero (fun j _ => by rw [hn j, zero_mul])] at h
  exact zero_ne_one h

theorem orth_col_ne {n : ℕ} {V : Matrix (Fin n) (Fin n) ℝ} (hV : Vᵀ * V = 1) (j : Fin n) : ∃ i, V i j ≠ 0 := by
  have := orth_row_ne (V := Vᵀ) (by rw [transpose_transpose]; exact orth_comm hV) j
  exact this

theorem diag_vals_range (E : Eigh) {n : ℕ} (d : Fin n → ℝ) : Set.range (E.vals (diagonal d)) = Set.range d := by
  ext x
  constructor
  · rintro ⟨j, rfl⟩
    obtain ⟨i, hi⟩ := orth_col_ne (E.orth (diagonal d)) j
    exact ⟨i, diag_vecs E d i j hi⟩
  · rintro ⟨i, rfl⟩
    obtain ⟨j, hj⟩ := orth_row_ne (E.orth (diagonal d)) i
    exact ⟨j, (diag_vecs E d i j hj).symm⟩

/-- With distinct diagonal entries the eigenvalues are distinct as well. -/
theorem diag_vals_strict (E : Eigh) {n : ℕ} {d : Fin n → ℝ} (hd : Function.Injective d) : StrictMono (E.vals (diagonal d)) := by
  apply (E.mono (diagonal d)).strictMono_of_injective
  have h2 : ∀ j, ∃ i, d i = E.vals (diagonal d) j := by
    intro j
    have : E.vals (diagonal d) j ∈ Set.range d := by rw [← diag_vals_range E d]; exact ⟨j, rfl⟩
    exact this
  choose p hp using h2
  have hps : Function.Surjective p := by
    intro i
    have : d i ∈ Set.range (E.vals (diagonal d)) := by rw [diag_vals_range E d]; exact ⟨i, rfl⟩
    obtain ⟨j, hj⟩ := this
    exact ⟨j, hd (by rw [hp j, hj])⟩
  have hpi := Finite.injective_iff_surjective.mpr hps
  intro j k hjk
  apply hpi
  apply hd
  rw [hp j, hp k, hjk]

/-- For a diagonal matrix with strictly ascending entries the eigenvector matrix is symmetric. -/
theorem C18_diagonal (E : Eigh) {n : ℕ} {d : Fin n → ℝ} (hd : StrictMono d) :
    (E.vecs (diagonal d))ᵀ = E.vecs (diagonal d) := by
  have hvals : E.vals (diagonal d) = d := by
    have h1 := diag_vals_strict E hd.injective
    exact (h1.range_inj hd).mp (diag_vals_range E d)
  have hz : ∀ i j, i ≠ j → E.vecs (diagonal d) i j = 0 := by
    intro i j hij
    by_contra h
    have := diag_vecs E d i j h
    rw [hvals] at this
    exact hij (hd.injective this)
  ext i j
  rw [transpose_apply]
  by_cases hij : i = j
  · rw [hij]
  · rw [hz i j hij, hz j i (Ne.symm hij)]

/-! ### The violation -/

/-- `diag(2, 3, 1)`. -/
def dv : Fin 3 → ℝ := ![2, 3, 1]

theorem dv_vals (E : Eigh) : E.vals (diagonal dv) = ![1, 2, 3] := by
  have hinj : Function.Injective dv := by
    intro i j h
    fin_cases i <;> fin_cases j <;> simp [dv] at h ⊢ <;> norm_num at h
  have h1 := diag_vals_strict E hinj
  have h2 : StrictMono ![(1 : ℝ), 2, 3] := by
    rw [Fin.strictMono_iff_lt_succ]
    intro i
    fin_cases i <;> simp <;> norm_num
  refine (h1.range_inj h2).mp ?_
  rw [diag_vals_range]
  ext x
  constructor
  · rintro ⟨i, rfl⟩
    fin_cases i
    · exact ⟨1, rfl⟩
    · exact ⟨2, rfl⟩
    · exact ⟨0, rfl⟩
  · rintro ⟨i, rfl⟩
    fin_cases i
    · exact ⟨2, rfl⟩
    · exact ⟨0, rfl⟩
    · exact ⟨1, rfl⟩

/-- The first eigenvector is `± e₂`. -/
theorem dv_col (E : Eigh) : E.vecs (diagonal dv) 0 0 = 0 ∧ E.vecs (diagonal dv) 1 0 = 0 ∧
    E.vecs (diagonal dv) 2 0 * E.vecs (diagonal dv) 2 0 = 1 := by
  have hv := dv_vals E
  have h0 : E.vecs (diagonal dv) 0 0 = 0 := by
    by_contra h
    have := diag_vecs E dv 0 0 h
    rw [hv] at this
    simp [dv] at this
  have h1 : E.vecs (diagonal dv) 1 0 = 0 := by
    by_contra h
    have := diag_vecs E dv 1 0 h
    rw [hv] at this
    simp [dv] at this
  refine ⟨h0, h1, ?_⟩
  have h := congrFun (congrFun (E.orth (diagonal dv)) 0) 0
  rw [mul_apply, Fin.sum_univ_three, one_apply_eq, transpose_apply, transpose_apply, transpose_apply, h0, h1] at h
  linarith

/-- The constant batch `diag(2, 3, 1)` and the constant vector `e₀`. -/
noncomputable def bv : ℕ → ℕ → ℕ → ℝ := fun i j _ => matFun (diagonal dv) i j
def av : ℕ → ℕ → ℝ := fun i _ => if i = 0 then 1 else 0

theorem bMat_bv (t : ℕ) : bMat 3 bv t = diagonal dv := by
  ext i j
  exact matFun_fin _ i j

theorem vecs_av (E : Eigh) (t : ℕ) : E.vecs (diagonal dv) *ᵥ vecAt 3 av t = fun i => E.vecs (diagonal dv) i 0 := by
  funext i
  rw [mulVec, dotProduct, Fin.sum_univ_three]
  simp [vecAt, av]

/-- For every valid eigen-decomposition the four functions differ from the direct products on the batch `diag(2, 3, 1)` with the
first coordinate vector: `3` in place of `2`, `1/3` in place of `1/2`. -/
theorem C18_violated (E : Eigh) :
    (∃ v, lrSvdMultiplyByVec E (.d3 3 3 2 bv) (.d2 3 2 av) = .ok v ∧
      v 0 = 3 ∧ vecAt 3 av 0 ⬝ᵥ bMat 3 bv 0 *ᵥ vecAt 3 av 0 = 2) ∧
    (∃ v, rSvdMultiplyByVec E (.d3 3 3 2 bv) (.d2 3 2 av) = .ok (3, 2, v) ∧
      v 0 0 = 3 ∧ (bMat 3 bv 0 *ᵥ vecAt 3 av 0) 0 = 2) ∧
    (∃ v, lrSvdDivideVec E (.d3 3 3 2 bv) (.d2 3 2 av) = .ok v ∧
      v 0 = 1 / 3 ∧ vecAt 3 av 0 ⬝ᵥ (bMat 3 bv 0)⁻¹ *ᵥ vecAt 3 av 0 = 1 / 2) ∧
    (∃ v, lrSvdMultiply E (.d3 3 3 2 bv) (.d3 3 1 2 (fun i _ t => av i t)) "R" = .ok (.d3 1 1 2 v) ∧
      v 0 0 0 = 3 ∧ colAt 3 (fun i _ t => av i t) 0 0 ⬝ᵥ bMat 3 bv 0 *ᵥ colAt 3 (fun i _ t => av i t) 0 0 = 2) := by
  obtain ⟨c0, c1, c2⟩ := dv_col E
  have hvals := dv_vals E
  have hq : vecAt 3 av 0 ⬝ᵥ twisted E (diagonal dv) *ᵥ vecAt 3 av 0 = 3 := by
    rw [← twisted_quad, vecs_av, quad_diag, Fin.sum_univ_three, hvals]
    simp only [c0, c1, sq, c2]
    simp
  have hdir : vecAt 3 av 0 ⬝ᵥ diagonal dv *ᵥ vecAt 3 av 0 = 2 := by
    rw [quad_diag, Fin.sum_univ_three]
    simp [dv, vecAt, av]
  refine ⟨?_, ?_, ?_, ?_⟩
  · obtain ⟨v, h1, h2⟩ := C18_lr_vec_actual E 3 2 bv av
    refine ⟨v, h1, ?_, ?_⟩
    · rw [h2 0 (by decide), bMat_bv, hq]
    · rw [bMat_bv, hdir]
  · obtain ⟨v, h1, h2⟩ := C18_r_vec_actual E 3 2 bv av
    refine ⟨v, h1, ?_, ?_⟩
    · have := h2 0 0 (by decide)
      rw [bMat_bv] at this
      have h0 : v 0 0 = (twisted E (diagonal dv) *ᵥ vecAt 3 av 0) 0 := this
      rw [h0]
      have : (twisted E (diagonal dv) *ᵥ vecAt 3 av 0) 0 = vecAt 3 av 0 ⬝ᵥ twisted E (diagonal dv) *ᵥ vecAt 3 av 0 := by
        rw [dotProduct, Fin.sum_univ_three]
        simp [vecAt, av]
      rw [this, hq]
    · rw [bMat_bv, mulVec_diagonal]
      simp [dv, vecAt, av]
  · obtain ⟨v, h1, h2⟩ := (C18_divide_actual E 3 2 bv av).2 (by decide)
    refine ⟨v, h1, ?_, ?_⟩
    · rw [h2 0 (by decide), bMat_bv, vecs_av, quad_diag, Fin.sum_univ_three, hvals]
      simp only [c0, c1, sq, c2]
      simp
    · rw [bMat_bv]
      have hinv : (diagonal dv)⁻¹ = diagonal (fun i => 1 / dv i) := by
        apply inv_eq_right_inv
        rw [diagonal_mul_diagonal]
        have : (fun i => dv i * (1 / dv i)) = fun _ => (1 : ℝ) := by
          funext i
          fin_cases i <;> simp [dv]
        rw [this, diagonal_one]
      rw [hinv, quad_diag, Fin.sum_univ_three]
      simp [dv, vecAt, av]
  · obtain ⟨v, h1, h2⟩ := C18_lr_actual E 3 1 2 bv (fun i _ t => av i t)
    refine ⟨v, h1, ?_, ?_⟩
    · rw [h2 0 0 0 (by decide) (by decide) (by decide), bMat_bv]
      exact hq
    · rw [bMat_bv]
      exact hdir

/-! ### Examples -/

/-- `diag(1, 4)` at three time points meets the hypotheses of `C18_partial`. -/
example (E : Eigh) : ∃ v, lrSvdMultiplyByVec E (.d3 2 2 3 (fun i j _ => matFun (diagonal ![(1 : ℝ), 4]) i j))
    (.d2 2 3 (fun k t => (k : ℝ) + t)) = .ok v ∧ v 1 = 17 := by
  have hm : ∀ t, bMat 2 (fun i j _ => matFun (diagonal ![(1 : ℝ), 4]) i j) t = diagonal ![(1 : ℝ), 4] := by
    intro t; ext i j; exact matFun_fin _ i j
  have hd : StrictMono ![(1 : ℝ), 4] := by
    rw [Fin.strictMono_iff_lt_succ]
    intro i
    fin_cases i
    simp
  have h := (C18_partial E 2 1 3 (fun i j _ => matFun (diagonal ![(1 : ℝ), 4]) i j)
    (fun t _ => by rw [hm, diagonal_transpose]) (fun t _ => by rw [hm]; exact C18_diagonal E hd)).2.1 (fun k t => (k : ℝ) + t)
  obtain ⟨v, h1, h2⟩ := h
  refine ⟨v, h1, ?_⟩
  rw [h2 1 (by decide), hm, quad_diag, Fin.sum_univ_two]
  simp [vecAt]
  norm_num

end Ellipy.MV
