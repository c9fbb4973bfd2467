import Verif.Proofs.Ell
import Verif.Props.LaReg
import Verif.Props.MatDot

/-! Property theorems C99: `reg_pos_def_mat`, `reg_mat` and `sqrtm_pos` change a matrix as little as possible. -/

namespace Ellipy.LA
open Matrix Ellipy.Ell Ellipy.MV

/-- The squared Frobenius distance. -/
noncomputable def frob2 {n : ℕ} (A B : Matrix (Fin n) (Fin n) ℝ) : ℝ := ∑ i, ∑ j, (A i j - B i j) ^ 2

private theorem frob2_trace {n : ℕ} (A B : Matrix (Fin n) (Fin n) ℝ) : frob2 A B = trace ((A - B)ᵀ * (A - B)) := by
  rw [frob2, trace, Finset.sum_comm]
  refine Finset.sum_congr rfl (fun j _ => ?_)
  rw [diag_apply, mul_apply]
  refine Finset.sum_congr rfl (fun i _ => ?_)
  rw [transpose_apply, Matrix.sub_apply, sq]

/-- The trace of a product of positive semidefinite matrices is not negative. -/
theorem trace_psd_mul {n : ℕ} {A B : Matrix (Fin n) (Fin n) ℝ} (hA : IsPSD A) (hB : IsPSD B) : 0 ≤ trace (A * B) := by
  obtain ⟨S, hS, rfl⟩ := exists_root hA
  obtain ⟨T, hT, rfl⟩ := exists_root hB
  have h := trace_gram_nonneg (T * S)
  rwa [transpose_mul, hS.1, hT.1, Matrix.mul_assoc, trace_mul_comm, Matrix.mul_assoc, Matrix.mul_assoc, ← Matrix.mul_assoc, trace_mul_comm] at h

/-- The positive part is the only nearest positive semidefinite matrix. -/
theorem posPart_nearest {n : ℕ} {A P X : Matrix (Fin n) (Fin n) ℝ} (h : IsPosPart A P) (hX : IsPSD X) :
    frob2 A P + frob2 P X ≤ frob2 A X := by
  obtain ⟨hP, hN, h0⟩ := h
  rw [frob2_trace, frob2_trace, frob2_trace]
  set N := P - A with hNd
  have e1 : A - P = -N := by rw [hNd]; abel
  have e2 : A - X = -N + (P - X) := by rw [hNd]; abel
  have hPX : (P - X)ᵀ = P - X := by rw [transpose_sub, hP.1, hX.1]
  have hN0 : N * P = 0 := by
    have := congrArg transpose h0
    rwa [transpose_mul, hN.1, hP.1, transpose_zero] at this
  have hNX : 0 ≤ trace (N * X) := trace_psd_mul hN hX
  rw [e1, e2, transpose_add, transpose_neg, hN.1, hPX]
  have : (-N + (P - X)) * (-N + (P - X)) = -N * -N + (P - X) * (P - X) + N * X + X * N := by
    have : (-N + (P - X)) * (-N + (P - X)) = -N * -N + (P - X) * (P - X) + N * X + X * N - N * P - P * N := by noncomm_ring
    rw [this, hN0, h0, sub_zero, sub_zero]
  rw [this, trace_add, trace_add, trace_add, trace_mul_comm X N]
  linarith

theorem frob2_nonneg {n : ℕ} (A B : Matrix (Fin n) (Fin n) ℝ) : 0 ≤ frob2 A B :=
  Finset.sum_nonneg fun _ _ => Finset.sum_nonneg fun _ _ => sq_nonneg _

theorem frob2_eq_zero {n : ℕ} {A B : Matrix (Fin n) (Fin n) ℝ} (h : frob2 A B = 0) : A = B := by
  rw [frob2_trace] at h
  exact sub_eq_zero.1 (trace_gram_zero h)

private theorem nearest_of {n : ℕ} {A P X : Matrix (Fin n) (Fin n) ℝ} (h : frob2 A P + frob2 P X ≤ frob2 A X) :
    frob2 A P ≤ frob2 A X ∧ (frob2 A X = frob2 A P → X = P) :=
  ⟨by linarith [frob2_nonneg P X], fun he => (frob2_eq_zero (le_antisymm (by linarith) (frob2_nonneg P X))).symm⟩

/-- **C99**: with orthonormal eigenvectors `reg_pos_def_mat` returns the matrix nearest to the argument among all symmetric matrices whose
quadratic form is at least the tolerance times the squared length; it is the only nearest one. -/
theorem C99 (E : Eig) {n : ℕ} (Q R : Matrix (Fin n) (Fin n) ℝ) (tol : ℝ) (h : regPosDefMat E Q tol = .ok R)
    (ho : (E.vecs Q)ᵀ * E.vecs Q = 1) :
    (Rᵀ = R ∧ ∀ x : Fin n → ℝ, tol * (x ⬝ᵥ x) ≤ x ⬝ᵥ R *ᵥ x) ∧
    ∀ X : Matrix (Fin n) (Fin n) ℝ, Xᵀ = X → (∀ x : Fin n → ℝ, tol * (x ⬝ᵥ x) ≤ x ⬝ᵥ X *ᵥ x) →
      frob2 Q R ≤ frob2 Q X ∧ (frob2 Q X = frob2 Q R → X = R) := by
  obtain ⟨h1, h2⟩ := C22_lift E Q R tol h ho
  refine ⟨⟨(C22_above E Q R tol h).1, h1⟩, fun X hX hx => ?_⟩
  have hX' : IsPSD (X - tol • 1) := by
    refine ⟨by rw [transpose_sub, transpose_smul, transpose_one, hX], fun x => ?_⟩
    rw [sub_mulVec, smul_mulVec, one_mulVec, dotProduct_sub, dotProduct_smul, smul_eq_mul]
    linarith [hx x]
  have key := posPart_nearest h2 hX'
  have hs : ∀ A B : Matrix (Fin n) (Fin n) ℝ, frob2 (A - tol • 1) (B - tol • 1) = frob2 A B := by
    intro A B
    rw [frob2_trace, frob2_trace, sub_sub_sub_cancel_right]
  rw [hs, hs, hs] at key
  exact nearest_of key

/-- **C99** for `sqrtm_pos`: the square of the result is the positive semidefinite matrix nearest to the (symmetric) argument, so that
slightly negative eigenvalues, which the tolerance lets pass, are repaired as cheaply as possible. -/
theorem C99_sqrtm (E : Eigh) {n : ℕ} (Q S : Matrix (Fin n) (Fin n) ℝ) (tol : ℝ) (hQ : Qᵀ = Q) (h : sqrtmPos E Q tol = .ok S) :
    IsPSD (S * S) ∧ ∀ X : Matrix (Fin n) (Fin n) ℝ, IsPSD X → frob2 Q (S * S) ≤ frob2 Q X ∧ (frob2 Q X = frob2 Q (S * S) → X = S * S) := by
  have := (C21_tol E Q S tol h).2
  rw [lowerSym_of_symm hQ] at this
  exact ⟨this.1, fun X hX => nearest_of (posPart_nearest this hX)⟩

private theorem frob2_orth {n : ℕ} {U V : Matrix (Fin n) (Fin n) ℝ} (hU : Uᵀ * U = 1) (hV : V * Vᵀ = 1) (A B : Matrix (Fin n) (Fin n) ℝ) :
    frob2 (U * A * V) (U * B * V) = frob2 A B := by
  rw [frob2_trace, frob2_trace, ← Matrix.sub_mul, ← Matrix.mul_sub]
  have : (U * (A - B) * V)ᵀ * (U * (A - B) * V) = Vᵀ * ((A - B)ᵀ * (A - B) * V) := by
    rw [transpose_mul, transpose_mul]
    calc Vᵀ * ((A - B)ᵀ * Uᵀ) * (U * (A - B) * V) = Vᵀ * ((A - B)ᵀ * (Uᵀ * U) * (A - B) * V) := by simp only [Matrix.mul_assoc]
      _ = _ := by rw [hU, Matrix.mul_one]
  rw [this, trace_mul_comm, Matrix.mul_assoc, hV, Matrix.mul_one]

/-- Among the matrices with columns not shorter than `tol`, raising the entries of a non-negative diagonal to `tol` is nearest. -/
theorem nearest_diag {n : ℕ} {s : Fin n → ℝ} (hs : ∀ j, 0 ≤ s j) {tol : ℝ} (ht : 0 < tol) {Y : Matrix (Fin n) (Fin n) ℝ}
    (hY : ∀ j, tol ^ 2 ≤ ∑ i, Y i j ^ 2) :
    frob2 (diagonal s) (diagonal fun j => max (s j) tol) +
      ∑ j, s j / max (s j) tol * ∑ i, (Y i j - (diagonal fun j => max (s j) tol : Matrix (Fin n) (Fin n) ℝ) i j) ^ 2 ≤ frob2 (diagonal s) Y := by
  have hcol : ∀ (d : Fin n → ℝ) (Z : Matrix (Fin n) (Fin n) ℝ) j,
      ∑ i, ((diagonal d : Matrix (Fin n) (Fin n) ℝ) i j - Z i j) ^ 2 = d j ^ 2 - 2 * d j * Z j j + ∑ i, Z i j ^ 2 := by
    intro d Z j
    have h1 : ∀ i, ((diagonal d : Matrix (Fin n) (Fin n) ℝ) i j - Z i j) ^ 2 =
        (if i = j then d j ^ 2 - 2 * d j * Z j j else 0) + Z i j ^ 2 := by
      intro i
      by_cases h : i = j
      · subst h; rw [diagonal_apply_eq, if_pos rfl]; ring
      · rw [diagonal_apply_ne _ h, if_neg h]; ring
    rw [Finset.sum_congr rfl (fun i _ => h1 i), Finset.sum_add_distrib, Finset.sum_ite_eq' Finset.univ j, if_pos (Finset.mem_univ _)]
  unfold frob2
  rw [Finset.sum_comm, Finset.sum_comm (f := fun i j => ((diagonal s : Matrix (Fin n) (Fin n) ℝ) i j - Y i j) ^ 2), ← Finset.sum_add_distrib]
  refine Finset.sum_le_sum fun j _ => ?_
  have e0 : ∑ i, (Y i j - (diagonal fun j => max (s j) tol : Matrix (Fin n) (Fin n) ℝ) i j) ^ 2 =
      max (s j) tol ^ 2 - 2 * max (s j) tol * Y j j + ∑ i, Y i j ^ 2 := by
    rw [← hcol (fun j => max (s j) tol) Y j]
    exact Finset.sum_congr rfl fun i _ => by ring
  have e1 : ∑ i, (diagonal (fun j => max (s j) tol) : Matrix (Fin n) (Fin n) ℝ) i j ^ 2 = max (s j) tol ^ 2 := by
    rw [Finset.sum_eq_single j]
    · rw [diagonal_apply_eq]
    · intro i _ h; rw [diagonal_apply_ne _ h]; ring
    · intro h; exact absurd (Finset.mem_univ _) h
  rw [hcol, hcol, e0, e1, diagonal_apply_eq]
  have hB := hY j
  generalize (∑ i, Y i j ^ 2) = B at hB ⊢
  generalize Y j j = y
  rcases le_total tol (s j) with h | h
  · rw [max_eq_left h, div_self (by linarith)]
    linarith
  · rw [max_eq_right h]
    have h1 : s j / tol ≤ 1 := (div_le_one ht).2 h
    have h2 : s j / tol * tol = s j := div_mul_cancel₀ _ ht.ne'
    have h3 : s j / tol * (tol ^ 2 - 2 * tol * y + B) = s j * tol - 2 * s j * y + s j / tol * B := by
      calc s j / tol * (tol ^ 2 - 2 * tol * y + B) = (s j / tol * tol) * tol - 2 * (s j / tol * tol) * y + s j / tol * B := by ring
        _ = _ := by rw [h2]
    have h4 : s j / tol * tol ^ 2 = s j * tol := by rw [sq, ← mul_assoc, h2]
    nlinarith [mul_nonneg (sub_nonneg.2 h1) (sub_nonneg.2 hB)]

/-- **C99** for `reg_mat`: the result is nearest to the argument among all matrices that stretch every vector at least `tol` times; it is the only
nearest one if the argument is invertible. -/
theorem C99_reg_mat (B : Svd) {n : ℕ} (A R : Matrix (Fin n) (Fin n) ℝ) (tol : ℝ) (h : regMat B A tol = .ok R) :
    (∀ x : Fin n → ℝ, tol ^ 2 * (x ⬝ᵥ x) ≤ (R *ᵥ x) ⬝ᵥ (R *ᵥ x)) ∧
    ∀ X : Matrix (Fin n) (Fin n) ℝ, (∀ x : Fin n → ℝ, tol ^ 2 * (x ⬝ᵥ x) ≤ (X *ᵥ x) ⬝ᵥ (X *ᵥ x)) →
      frob2 A R ≤ frob2 A X ∧ (IsUnit A.det → frob2 A X = frob2 A R → X = R) := by
  refine ⟨(C23_bound B A R tol h).1, fun X hX => ?_⟩
  obtain ⟨ht, hR⟩ := regMat_val B h
  have hA := B.spec A
  rw [sigma_square] at hA
  have hU := B.U_orth A
  have hV := B.Vt_orth A
  generalize B.U A = U at hA hR hU
  generalize B.Vt A = V at hA hR hV
  have hs : ∀ j : Fin n, 0 ≤ B.s A ⟨j.val, by omega⟩ := fun j => B.s_nonneg A _
  generalize hsd : (fun j : Fin n => B.s A ⟨j.val, by omega⟩) = s at hA
  have hR' : R = U * diagonal (fun j => max (s j) tol) * V := by rw [hR, ← hsd]
  have hs' : ∀ j, 0 ≤ s j := fun j => by rw [← hsd]; exact hs j
  have hU' : U * Uᵀ = 1 := mul_eq_one_comm.1 hU
  have hV' : Vᵀ * V = 1 := mul_eq_one_comm.1 hV
  have hXY : X = U * (Uᵀ * X * Vᵀ) * V := by
    calc X = (U * Uᵀ) * X * (Vᵀ * V) := by rw [hU', hV', Matrix.one_mul, Matrix.mul_one]
      _ = _ := by simp only [Matrix.mul_assoc]
  have hY : ∀ j, tol ^ 2 ≤ ∑ i, (Uᵀ * X * Vᵀ) i j ^ 2 := by
    intro j
    have h1 := hX (Vᵀ *ᵥ Pi.single j 1)
    rw [dot_orth (V := Vᵀ) (by rw [transpose_transpose]; exact hV)] at h1
    rw [← dot_orth (V := Uᵀ) (by rw [transpose_transpose]; exact hU') (X *ᵥ _), mulVec_mulVec, mulVec_mulVec, mulVec_single_one, single_one_dotProduct,
      Pi.single_eq_same, mul_one, dot_self_eq] at h1
    simpa only [col_apply, Matrix.mul_assoc] using h1
  have key := nearest_diag hs' ht hY
  have k1 : frob2 A R = frob2 (diagonal s) (diagonal fun j => max (s j) tol) := by rw [hR', hA, frob2_orth hU hV]
  have k2 : frob2 A X = frob2 (diagonal s) (Uᵀ * X * Vᵀ) := by rw [hA]; nth_rw 1 [hXY]; rw [frob2_orth hU hV]
  have hterm : ∀ j ∈ Finset.univ, 0 ≤ s j / max (s j) tol *
      ∑ i, ((Uᵀ * X * Vᵀ) i j - (diagonal fun j => max (s j) tol : Matrix (Fin n) (Fin n) ℝ) i j) ^ 2 :=
    fun j _ => mul_nonneg (div_nonneg (hs' j) (le_max_of_le_right ht.le)) (Finset.sum_nonneg fun _ _ => sq_nonneg _)
  have hsum := Finset.sum_nonneg hterm
  refine ⟨by rw [k1, k2]; linarith, fun hdet heq => ?_⟩
  have hpos : ∀ j, 0 < s j := by
    rw [hA, det_mul, det_mul, det_diagonal, isUnit_iff_ne_zero] at hdet
    intro j
    refine lt_of_le_of_ne (hs' j) fun h0 => hdet ?_
    rw [Finset.prod_eq_zero (Finset.mem_univ j) h0.symm]
    ring
  rw [k1, k2] at heq
  have hz := (Finset.sum_eq_zero_iff_of_nonneg hterm).1 (le_antisymm (by linarith) hsum)
  rw [hXY, hR']
  congr 2
  ext i j
  have h1 := hz j (Finset.mem_univ j)
  rcases mul_eq_zero.1 h1 with h2 | h2
  · exact absurd h2 (div_pos (hpos j) (lt_max_of_lt_right ht)).ne'
  · have := (Finset.sum_eq_zero_iff_of_nonneg (fun i _ => sq_nonneg _)).1 h2 i (Finset.mem_univ i)
    exact sub_eq_zero.1 (pow_eq_zero_iff two_ne_zero |>.1 this)

/-- A concrete case of `C99_reg_mat`: `diag(1, 5)` with tolerance `2`; `diag(2, 5)` is the nearest matrix, so it is the result of every routine. -/
example (B : Svd) : regMat B (diagonal ![1, 5] : Matrix (Fin 2) (Fin 2) ℝ) 2 = .ok (diagonal ![2, 5]) := by
  cases h : regMat B (diagonal ![1, 5] : Matrix (Fin 2) (Fin 2) ℝ) 2 with
  | error e => exact absurd ((C23_raises_iff B _ _).mp ⟨e, h⟩) (by norm_num)
  | ok R =>
    have hb : ∀ x : Fin 2 → ℝ, (2 : ℝ) ^ 2 * (x ⬝ᵥ x) ≤ ((diagonal ![2, 5] : Matrix (Fin 2) (Fin 2) ℝ) *ᵥ x) ⬝ᵥ (diagonal ![2, 5] *ᵥ x) := by
      intro x
      rw [dotProduct, dotProduct, Fin.sum_univ_two, Fin.sum_univ_two, mulVec_diagonal, mulVec_diagonal]
      simp only [cons_val_zero, cons_val_one]
      nlinarith [sq_nonneg (x 1)]
    obtain ⟨h1, h2⟩ := C99_reg_mat B _ R 2 h
    obtain ⟨h3, h4⟩ := h2 _ hb
    have hdet : IsUnit (diagonal ![1, 5] : Matrix (Fin 2) (Fin 2) ℝ).det := by
      rw [det_diagonal, Fin.prod_univ_two]; norm_num
    refine congrArg _ (h4 hdet (le_antisymm ?_ h3)).symm
    -- the distance of any admissible matrix is at least one, by its first column
    have h5 := h1 ![1, 0]
    simp only [dotProduct, mulVec, Fin.sum_univ_two, cons_val_zero, cons_val_one] at h5
    simp only [frob2, Fin.sum_univ_two, diagonal_apply, cons_val_zero, cons_val_one, Fin.isValue, one_ne_zero, zero_ne_one, if_true, if_false]
    nlinarith [sq_nonneg (R 0 0 - 2), sq_nonneg (R 1 1 - 5), sq_nonneg (R 0 1), sq_nonneg (R 1 0), sq_nonneg (R 0 0)]

/-- The eigenvalues of `[[0, 1], [1, 0]]` are `1` and `-1`; the positive part is `[[1/2, 1/2], [1/2, 1/2]]`, at
squared distance `1`, and the unit matrix is farther away. -/
example : IsPosPart !![0, 1; 1, 0] !![1 / 2, 1 / 2; 1 / 2, 1 / 2] ∧ frob2 !![0, 1; 1, 0] !![1 / 2, 1 / 2; 1 / 2, 1 / 2] = 1 ∧
    frob2 !![0, 1; 1, 0] (1 : Matrix (Fin 2) (Fin 2) ℝ) = 4 := by
  refine ⟨⟨⟨?_, fun x => ?_⟩, ⟨?_, fun x => ?_⟩, ?_⟩, ?_, ?_⟩
  · ext i j; fin_cases i <;> fin_cases j <;> rfl
  · simp only [dotProduct, mulVec, Fin.sum_univ_two, of_apply, cons_val_zero, cons_val_one]
    nlinarith [sq_nonneg (x 0 + x 1)]
  · ext i j; fin_cases i <;> fin_cases j <;> simp
  · simp only [dotProduct, mulVec, Fin.sum_univ_two, of_apply, cons_val_zero, cons_val_one, Matrix.sub_apply]
    nlinarith [sq_nonneg (x 0 - x 1)]
  · ext i j; fin_cases i <;> fin_cases j <;> simp [mul_apply, Fin.sum_univ_two] <;> norm_num
  · simp [frob2, Fin.sum_univ_two]; norm_num
  · simp [frob2, Fin.sum_univ_two]; norm_num

/-- `C99` applies: `diag(1, 5)` with tolerance `2`, any eigensolver (the eigenvalues are different). -/
example (E : Eig) (hinj : Function.Injective (E.vals (diagonal ![1, 5] : Matrix (Fin 2) (Fin 2) ℝ))) :
    ∃ R, regPosDefMat E (diagonal ![1, 5]) 2 = .ok R ∧ frob2 (diagonal ![1, 5]) R ≤ frob2 (diagonal ![1, 5]) (diagonal ![2, 5]) := by
  cases h : regPosDefMat E (diagonal ![1, 5]) 2 with
  | error e =>
    have : Raises (regPosDefMat E (diagonal ![1, 5]) 2) := ⟨e, h⟩
    rw [C22_raises_iff] at this
    rcases this with h | h
    · norm_num at h
    · exact absurd (diagonal_transpose _) h
  | ok R =>
    refine ⟨R, rfl, ((C99 E _ R 2 h (C22_distinct E _ (diagonal_transpose _) hinj)).2 _ (diagonal_transpose _) fun x => ?_).1⟩
    rw [quad_diag, dotProduct, Fin.sum_univ_two, Fin.sum_univ_two]
    simp only [cons_val_zero, cons_val_one]
    nlinarith [sq_nonneg (x 1)]

end Ellipy.LA
