import Verif.Props.Nearest
import Verif.Props.PosDefByEig
import Verif.Props.LaLaws

/-! Property theorems C148: what `make_pos_definite_by_eig` does to a matrix, and its laws across calls. -/

namespace Ellipy.MV
open Matrix Ellipy.LA Ellipy.Ell

private theorem exists_run (E : Eigh) {n T : ℕ} (Q : Fin T → Matrix (Fin n) (Fin n) ℝ) (value : ℝ) (hs : ∀ t, (Q t)ᵀ = Q t) :
    ∃ R, posDefByEig E Q value = .ok R := by
  cases h : posDefByEig E Q value with
  | ok R => exact ⟨R, rfl⟩
  | error e =>
    obtain ⟨t, ht⟩ := (C19_raises_iff E Q value).1 ⟨e, h⟩
    exact absurd (hs t) ht

private theorem run_symm (E : Eigh) {n T : ℕ} {Q R : Fin T → Matrix (Fin n) (Fin n) ℝ} {value : ℝ} (h : posDefByEig E Q value = .ok R) (t : Fin T) :
    (Q t)ᵀ = Q t := (byEig_slice E h t).1

/-- Matrices that agree on the eigenvectors of a symmetric matrix are equal. -/
private theorem eq_of_eigen (E : Eigh) {n : ℕ} {Q R R' : Matrix (Fin n) (Fin n) ℝ} (hs : Qᵀ = Q)
    (h : ∀ (x : Fin n → ℝ) (lam : ℝ), Q *ᵥ x = lam • x → R *ᵥ x = R' *ᵥ x) : R = R' := by
  have hV : R * E.vecs Q = R' * E.vecs Q := by
    ext k i
    have h1 : Q *ᵥ (fun k => E.vecs Q k i) = E.vals Q i • (fun k => E.vecs Q k i) := by
      funext k
      have := congrFun (congrFun (E.spec Q) k) i
      rw [lowerSym_of_symm hs, mul_diagonal] at this
      rw [Pi.smul_apply, smul_eq_mul, mul_comm, ← this]
      rfl
    exact congrFun (h _ _ h1) k
  have h2 := congrArg (· * (E.vecs Q)ᵀ) hV
  simpa only [Matrix.mul_assoc, orth_comm (E.orth Q), Matrix.mul_one] using h2

/-- **C148**: the result does not depend on the eigenvectors the backend picks; turning the matrices turns the results, and changing the unit of the
matrices and of `value` changes the unit of the results. -/
theorem C148_units (E E' : Eigh) {n T : ℕ} {Q R : Fin T → Matrix (Fin n) (Fin n) ℝ} {value a : ℝ} {O : Matrix (Fin n) (Fin n) ℝ}
    (h : posDefByEig E Q value = .ok R) (ha : 0 < a) (hO : Oᵀ * O = 1) :
    posDefByEig E' (fun t => a • (O * Q t * Oᵀ)) (a * value) = .ok fun t => a • (O * R t * Oᵀ) := by
  have hs : ∀ t, (a • (O * Q t * Oᵀ))ᵀ = a • (O * Q t * Oᵀ) := by
    intro t
    rw [transpose_smul, transpose_mul, transpose_mul, transpose_transpose, run_symm E h t, Matrix.mul_assoc]
  obtain ⟨R', hR'⟩ := exists_run E' (fun t => a • (O * Q t * Oᵀ)) (a * value) hs
  rw [hR']
  congr 1
  funext t
  refine eq_of_eigen E' (hs t) fun x lam hx => ?_
  have h1 := C19_eigenpairs E' hR' t x lam hx
  have hO' := orth_comm hO
  have hq : Q t *ᵥ (Oᵀ *ᵥ x) = (lam / a) • (Oᵀ *ᵥ x) := by
    have h2 : Oᵀ *ᵥ ((a • (O * Q t * Oᵀ)) *ᵥ x) = Oᵀ *ᵥ (lam • x) := by rw [hx]
    rw [smul_mulVec, mulVec_smul, mulVec_smul, mulVec_mulVec, Matrix.mul_assoc O, ← Matrix.mul_assoc, hO, Matrix.one_mul, ← mulVec_mulVec] at h2
    have h3 := congrArg (fun z => a⁻¹ • z) h2
    simp only [smul_smul] at h3
    rwa [inv_mul_cancel₀ ha.ne', one_smul, inv_mul_eq_div] at h3
  have h4 := C19_eigenpairs E h t _ _ hq
  rw [h1, smul_mulVec, Matrix.mul_assoc, ← mulVec_mulVec, ← mulVec_mulVec, h4, mulVec_smul, mulVec_mulVec, hO', one_mulVec, smul_smul]
  congr 1
  have hiff : lam / a < 0 ↔ lam < 0 := by rw [div_lt_iff₀ ha, zero_mul]
  by_cases h0 : lam < 0
  · rw [if_pos h0, if_pos (hiff.2 h0)]
  · rw [if_neg h0, if_neg (fun h => h0 (hiff.1 h))]
    field_simp

/-- **C148**: with `value = 0` the result is the positive part: the nearest positive semidefinite matrix, and the only one. -/
theorem C148_nearest (E : Eigh) {n T : ℕ} {Q R : Fin T → Matrix (Fin n) (Fin n) ℝ} (h : posDefByEig E Q 0 = .ok R) (t : Fin T) :
    IsPosPart (Q t) (R t) ∧
    ∀ X : Matrix (Fin n) (Fin n) ℝ, IsPSD X → frob2 (Q t) (R t) ≤ frob2 (Q t) X ∧ (frob2 (Q t) X = frob2 (Q t) (R t) → X = R t) := by
  have hs := run_symm E h t
  obtain ⟨-, hR⟩ := byEig_slice E h t
  have hP : IsPosPart (Q t) (R t) := by
    have hdec : Q t = E.vecs (Q t) * diagonal (E.vals (Q t)) * (E.vecs (Q t))ᵀ := by rw [← E.decomp, lowerSym_of_symm hs]
    have hN : R t - Q t = E.vecs (Q t) * diagonal (fun i => if E.vals (Q t) i < 0 then -E.vals (Q t) i else 0) * (E.vecs (Q t))ᵀ := by
      refine (congrArg₂ (· - ·) hR hdec).trans ?_
      rw [← Matrix.sub_mul, ← Matrix.mul_sub, diagonal_sub]
      congr 3
      funext i
      split_ifs <;> ring
    refine ⟨C19_psd E h t le_rfl, ?_, ?_⟩
    · rw [hN]
      apply psd_conj
      intro i
      split_ifs with h0
      · linarith
      · exact le_rfl
    · rw [hN, hR, Matrix.mul_assoc (E.vecs (Q t) * _), ← Matrix.mul_assoc (E.vecs (Q t))ᵀ, ← Matrix.mul_assoc (E.vecs (Q t))ᵀ, E.orth, Matrix.one_mul,
        ← Matrix.mul_assoc, Matrix.mul_assoc (E.vecs (Q t)), diagonal_mul_diagonal]
      have : (fun i => (if E.vals (Q t) i < 0 then 0 else E.vals (Q t) i) * if E.vals (Q t) i < 0 then -E.vals (Q t) i else 0) = fun _ => 0 := by
        funext i
        split_ifs <;> ring
      rw [this]
      simp
  refine ⟨hP, fun X hX => ?_⟩
  have := posPart_nearest hP hX
  exact ⟨by linarith [frob2_nonneg (R t) X], fun he => (frob2_eq_zero (le_antisymm (by linarith) (frob2_nonneg _ X))).symm⟩

/-- **C148**: the results for a matrix and for its negative split the matrix: it is their difference, and their product is zero. -/
theorem C148_split (E E' : Eigh) {n T : ℕ} {Q R N : Fin T → Matrix (Fin n) (Fin n) ℝ} (h : posDefByEig E Q 0 = .ok R)
    (h' : posDefByEig E' (fun t => -Q t) 0 = .ok N) (t : Fin T) : Q t = R t - N t ∧ R t * N t = 0 ∧ N t * R t = 0 := by
  have hs := run_symm E h t
  have h1 : Q t = R t - N t := by
    refine eq_of_eigen E hs fun x lam hx => ?_
    have a := C19_eigenpairs E h t x lam hx
    have b := C19_eigenpairs E' h' t x (-lam) (by rw [neg_mulVec, hx, neg_smul])
    rw [sub_mulVec, a, b, hx, ← sub_smul]
    congr 1
    rcases lt_trichotomy lam 0 with h | h | h
    · rw [if_pos h, if_neg (by linarith)]; ring
    · subst h; simp
    · rw [if_neg (by linarith), if_pos (by linarith)]; ring
  have h2 : R t * N t = 0 := by
    refine eq_of_eigen E hs fun x lam hx => ?_
    have a := C19_eigenpairs E h t x lam hx
    have b := C19_eigenpairs E' h' t x (-lam) (by rw [neg_mulVec, hx, neg_smul])
    rw [← mulVec_mulVec, b, mulVec_smul, a, smul_smul, zero_mulVec]
    have : (if -lam < 0 then (0 : ℝ) else -lam) * (if lam < 0 then 0 else lam) = 0 := by
      rcases lt_trichotomy lam 0 with h | h | h
      · rw [if_pos h]; ring
      · subst h; simp
      · rw [if_pos (by linarith : -lam < 0)]; ring
    rw [this, zero_smul]
  refine ⟨h1, h2, ?_⟩
  have h3 := congrArg transpose h2
  rwa [transpose_mul, transpose_zero, (C19_psd E h t le_rfl).1, (C19_psd E' h' t le_rfl).1] at h3

/-- **C148**: how the results depend on `value`: they lie on a line, whose direction is the projector onto the eigenvectors with negative eigenvalues. -/
theorem C148_value (E : Eigh) {n T : ℕ} (Q : Fin T → Matrix (Fin n) (Fin n) ℝ) (hs : ∀ t, (Q t)ᵀ = Q t) :
    ∃ R0 P : Fin T → Matrix (Fin n) (Fin n) ℝ, posDefByEig E Q 0 = .ok R0 ∧
      (∀ t, (P t)ᵀ = P t ∧ P t * P t = P t ∧ P t * R0 t = 0 ∧
        ∀ (x : Fin n → ℝ) (lam : ℝ), Q t *ᵥ x = lam • x → (lam < 0 → P t *ᵥ x = x) ∧ (0 ≤ lam → P t *ᵥ x = 0)) ∧
      ∀ (E' : Eigh) (value : ℝ), posDefByEig E' Q value = .ok fun t => R0 t + value • P t := by
  obtain ⟨R0, h0⟩ := exists_run E Q 0 hs
  obtain ⟨R1, h1⟩ := exists_run E Q 1 hs
  have hP : ∀ t (x : Fin n → ℝ) (lam : ℝ), Q t *ᵥ x = lam • x → (R1 t - R0 t) *ᵥ x = (if lam < 0 then (1 : ℝ) else 0) • x := by
    intro t x lam hx
    rw [sub_mulVec, C19_eigenpairs E h0 t x lam hx, C19_eigenpairs E h1 t x lam hx, ← sub_smul]
    congr 1
    split_ifs <;> ring
  refine ⟨R0, fun t => R1 t - R0 t, h0, fun t => ⟨?_, ?_, ?_, fun x lam hx => ⟨fun hl => ?_, fun hl => ?_⟩⟩, fun E' value => ?_⟩
  · rw [transpose_sub, (C19_psd E h1 t zero_le_one).1, (C19_psd E h0 t le_rfl).1]
  · refine eq_of_eigen E (hs t) fun x lam hx => ?_
    have := hP t x lam hx
    rw [← mulVec_mulVec, this, mulVec_smul, this, smul_smul]
    congr 1
    split_ifs <;> ring
  · refine eq_of_eigen E (hs t) fun x lam hx => ?_
    rw [← mulVec_mulVec, C19_eigenpairs E h0 t x lam hx, mulVec_smul, hP t x lam hx, smul_smul, zero_mulVec]
    split_ifs <;> simp
  · rw [hP t x lam hx, if_pos hl, one_smul]
  · rw [hP t x lam hx, if_neg (not_lt.2 hl), zero_smul]
  · obtain ⟨R, hR⟩ := exists_run E' Q value hs
    rw [hR]
    congr 1
    funext t
    refine eq_of_eigen E (hs t) fun x lam hx => ?_
    rw [C19_eigenpairs E' hR t x lam hx, add_mulVec, smul_mulVec, hP t x lam hx, C19_eigenpairs E h0 t x lam hx, smul_smul, ← add_smul]
    congr 1
    split_ifs <;> ring

/-- **C148**: with `value = 0` two results are no farther apart than the two matrices. -/
theorem C148_contracts (E E' : Eigh) {n T : ℕ} {Q Q' R R' : Fin T → Matrix (Fin n) (Fin n) ℝ} (h : posDefByEig E Q 0 = .ok R)
    (h' : posDefByEig E' Q' 0 = .ok R') (t : Fin T) : frob2 (R t) (R' t) ≤ frob2 (Q t) (Q' t) := by
  obtain ⟨N, hN⟩ := exists_run E (fun t => -Q t) 0 (fun t => by rw [transpose_neg, run_symm E h t])
  obtain ⟨N', hN'⟩ := exists_run E' (fun t => -Q' t) 0 (fun t => by rw [transpose_neg, run_symm E' h' t])
  obtain ⟨a1, a2, a3⟩ := C148_split E E h hN t
  obtain ⟨b1, b2, b3⟩ := C148_split E' E' h' hN' t
  have p := C19_psd E h t le_rfl
  have p' := C19_psd E' h' t le_rfl
  have q := C19_psd E hN t le_rfl
  have q' := C19_psd E' hN' t le_rfl
  have hfr : ∀ A B : Matrix (Fin n) (Fin n) ℝ, Aᵀ = A → Bᵀ = B → frob2 A B = Matrix.trace ((A - B) * (A - B)) := by
    intro A B hA hB
    rw [frob2, Matrix.trace]
    refine Finset.sum_congr rfl fun i _ => ?_
    rw [diag_apply, mul_apply]
    refine Finset.sum_congr rfl fun j _ => ?_
    have e : (A - B) j i = (A - B) i j := by
      have := congrFun (congrFun (show (A - B)ᵀ = A - B by rw [transpose_sub, hA, hB]) i) j
      exact this
    rw [e, Matrix.sub_apply]
    ring
  rw [hfr _ _ p.1 p'.1, hfr _ _ (run_symm E h t) (run_symm E' h' t)]
  have e : (Q t - Q' t) * (Q t - Q' t) = (R t - R' t) * (R t - R' t) + (N t - N' t) * (N t - N' t) +
      (R t * N' t + N' t * R t + R' t * N t + N t * R' t) := by
    have e1 : Q t - Q' t = (R t - R' t) - (N t - N' t) := by rw [a1, b1]; abel
    rw [e1]
    simp only [Matrix.sub_mul, Matrix.mul_sub, a2, a3, b2, b3]
    abel
  rw [e, Matrix.trace_add, Matrix.trace_add, Matrix.trace_add, Matrix.trace_add, Matrix.trace_add]
  have c1 := trace_psd_mul p q'
  have c2 := trace_psd_mul q' p
  have c3 := trace_psd_mul p' q
  have c4 := trace_psd_mul q p'
  have c5 : 0 ≤ Matrix.trace ((N t - N' t) * (N t - N' t)) := by
    rw [← hfr _ _ q.1 q'.1]
    exact frob2_nonneg _ _
  linarith

/-- **C148**: `sqrtm_pos` returns the root of the repaired matrix. -/
theorem C148_root (E E' : Eigh) {n T : ℕ} {Q R : Fin T → Matrix (Fin n) (Fin n) ℝ} {S : Matrix (Fin n) (Fin n) ℝ} {tol : ℝ}
    (h : posDefByEig E Q 0 = .ok R) (t : Fin T) (hS : sqrtmPos E' (Q t) tol = .ok S) : IsPSD S ∧ S * S = R t := by
  obtain ⟨h1, h2⟩ := C21_tol E' (Q t) S tol hS
  rw [lowerSym_of_symm (run_symm E h t)] at h2
  refine ⟨h1, ?_⟩
  obtain ⟨-, h4⟩ := C99_sqrtm E' (Q t) S tol (run_symm E h t) hS
  obtain ⟨h5, h6⟩ := C148_nearest E h t
  exact (h6 (S * S) h2.1).2 (le_antisymm (h4 (R t) h5.1).1 (h6 (S * S) h2.1).1)

/-- A concrete case: `diag(2, -1)` and its negative, and the line of results. -/
example (E : Eigh) : ∃ R N : Fin 1 → Matrix (Fin 2) (Fin 2) ℝ, posDefByEig E (fun _ => diagonal ![2, -1]) 0 = .ok R ∧
    posDefByEig E (fun _ => -diagonal ![2, -1]) 0 = .ok N ∧ R 0 ≠ 0 ∧ N 0 ≠ 0 ∧ diagonal ![2, -1] = R 0 - N 0 ∧ R 0 * N 0 = 0 := by
  obtain ⟨R, hR⟩ := exists_run E (fun _ : Fin 1 => diagonal ![(2 : ℝ), -1]) 0 (fun _ => diagonal_transpose _)
  obtain ⟨N, hN⟩ := exists_run E (fun _ : Fin 1 => -diagonal ![(2 : ℝ), -1]) 0 (fun _ => by rw [transpose_neg, diagonal_transpose])
  obtain ⟨h1, h2, -⟩ := C148_split E E hR hN 0
  refine ⟨R, N, hR, hN, fun h0 => ?_, fun h0 => ?_, h1, h2⟩
  · have := C19_eigenpairs E hR 0 ![1, 0] 2 (by funext i; fin_cases i <;> simp [mulVec_diagonal])
    rw [h0, zero_mulVec, if_neg (by norm_num)] at this
    have := congrFun this 0
    norm_num at this
  · have := C19_eigenpairs E hN 0 ![0, 1] 1 (by funext i; fin_cases i <;> simp [mulVec_diagonal, neg_mulVec])
    rw [h0, zero_mulVec, if_neg (by norm_num)] at this
    have := congrFun this 1
    norm_num at this

end Ellipy.MV
