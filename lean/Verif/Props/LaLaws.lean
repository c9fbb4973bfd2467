import Verif.Props.LaReg
import Verif.Props.PosDefByEig

/-! Property theorems C125: laws of the matrix square root, of the definiteness test and of the repairs of matrices.  Every call may
use its own backend (`E`, `E'`) and its own tolerance. -/

namespace Ellipy.LA
open Matrix

private theorem root_eq (E : Eigh) {n : ℕ} {Q S : Matrix (Fin n) (Fin n) ℝ} {tol : ℝ} (ht : 0 ≤ tol) (hS : IsPSD S) (h : S * S = Q) :
    sqrtmPos E Q tol = .ok S := by
  have hQ : IsPSD Q := by
    rw [← h]
    refine ⟨by rw [transpose_mul, hS.1], fun x => ?_⟩
    have : x ⬝ᵥ (S * S) *ᵥ x = (S *ᵥ x) ⬝ᵥ (S *ᵥ x) := by
      rw [← mulVec_mulVec, dotProduct_mulVec, ← mulVec_transpose, hS.1]
    rw [this]
    exact dot_self_nonneg _
  obtain ⟨T, hT, _, _, hu⟩ := C21_root E Q tol ht hQ
  rw [hT, hu S hS h]

private theorem root_of (E : Eigh) {n : ℕ} {Q S : Matrix (Fin n) (Fin n) ℝ} {tol : ℝ} (hQ : IsPSD Q) (h : sqrtmPos E Q tol = .ok S) :
    0 ≤ tol ∧ IsPSD S ∧ S * S = Q := by
  have ht : 0 ≤ tol := by
    by_contra hcon
    obtain ⟨e, he⟩ := (C21_raises_iff E Q tol).2 (.inl (not_le.1 hcon))
    rw [h] at he
    cases he
  obtain ⟨T, hT, h1, h2, _⟩ := C21_root E Q tol ht hQ
  rw [h] at hT
  injection hT with hT
  subst hT
  exact ⟨ht, h1, h2⟩

/-- **C125** (squares). The root of the square of a positive semidefinite matrix is that matrix. -/
theorem C125_square (E : Eigh) {n : ℕ} {S : Matrix (Fin n) (Fin n) ℝ} {tol : ℝ} (ht : 0 ≤ tol) (hS : IsPSD S) :
    sqrtmPos E (S * S) tol = .ok S := root_eq E ht hS rfl

/-- **C125** (scaling). -/
theorem C125_scale (E E' : Eigh) {n : ℕ} {Q S : Matrix (Fin n) (Fin n) ℝ} {tol tol' a : ℝ} (hQ : IsPSD Q)
    (h : sqrtmPos E Q tol = .ok S) (ht : 0 ≤ tol') (ha : 0 ≤ a) : sqrtmPos E' (a • Q) tol' = .ok (√a • S) := by
  obtain ⟨_, hS, hSS⟩ := root_of E hQ h
  refine root_eq E' ht ⟨by rw [transpose_smul, hS.1], fun x => ?_⟩ ?_
  · rw [smul_mulVec, dotProduct_smul, smul_eq_mul]
    exact mul_nonneg (Real.sqrt_nonneg a) (hS.2 x)
  · rw [Matrix.smul_mul, Matrix.mul_smul, smul_smul, hSS, Real.mul_self_sqrt ha]

/-- **C125** (change of basis). -/
theorem C125_conj (E E' : Eigh) {n : ℕ} {Q S O : Matrix (Fin n) (Fin n) ℝ} {tol tol' : ℝ} (hQ : IsPSD Q)
    (h : sqrtmPos E Q tol = .ok S) (ht : 0 ≤ tol') (hO : Oᵀ * O = 1) :
    sqrtmPos E' (O * Q * Oᵀ) tol' = .ok (O * S * Oᵀ) := by
  obtain ⟨_, hS, hSS⟩ := root_of E hQ h
  refine root_eq E' ht ⟨by rw [transpose_mul, transpose_mul, transpose_transpose, hS.1, Matrix.mul_assoc], fun x => ?_⟩ ?_
  · rw [quad_conj]
    exact hS.2 _
  · rw [← hSS]
    calc O * S * Oᵀ * (O * S * Oᵀ) = O * S * (Oᵀ * O) * S * Oᵀ := by simp only [Matrix.mul_assoc]
      _ = O * (S * S) * Oᵀ := by rw [hO]; simp only [Matrix.mul_one, Matrix.mul_assoc]

/-- **C125** (commuting). Whatever commutes with the matrix commutes with its root. -/
theorem C125_commute (E : Eigh) {n : ℕ} {Q S A : Matrix (Fin n) (Fin n) ℝ} {tol : ℝ} (hQ : IsPSD Q)
    (h : sqrtmPos E Q tol = .ok S) (hA : A * Q = Q * A) : A * S = S * A := by
  obtain ⟨_, hS, hSS⟩ := root_of E hQ h
  obtain ⟨d, V, _, hV, hE⟩ := exists_eigh S hS.1
  have hV' := orth_comm hV
  have hdec : S = V * diagonal d * Vᵀ := by rw [← hE, Matrix.mul_assoc, hV', Matrix.mul_one]
  have hd : ∀ i, 0 ≤ d i := by
    intro i
    have := hS.2 (V *ᵥ Pi.single i 1)
    rw [hdec, quad_conj, mulVec_mulVec, hV, one_mulVec, quad_diag] at this
    simpa [Pi.single_apply] using this
  have hS2 : Vᵀ * S * V = diagonal d := by
    rw [Matrix.mul_assoc, hE, ← Matrix.mul_assoc, hV, Matrix.one_mul]
  have hQ2 : Vᵀ * Q * V = diagonal d * diagonal d := by
    rw [← hSS, ← hS2]
    calc Vᵀ * (S * S) * V = Vᵀ * S * 1 * S * V := by simp only [Matrix.mul_one, Matrix.mul_assoc]
      _ = Vᵀ * S * V * (Vᵀ * S * V) := by rw [← hV']; simp only [Matrix.mul_assoc]
  set B := Vᵀ * A * V with hB
  have hBd : B * (diagonal d * diagonal d) = diagonal d * diagonal d * B := by
    rw [← hQ2, hB]
    calc Vᵀ * A * V * (Vᵀ * Q * V) = Vᵀ * (A * (V * Vᵀ) * Q) * V := by simp only [Matrix.mul_assoc]
      _ = Vᵀ * (Q * (V * Vᵀ) * A) * V := by rw [hV', Matrix.mul_one, Matrix.mul_one, hA]
      _ = Vᵀ * Q * V * (Vᵀ * A * V) := by simp only [Matrix.mul_assoc]
  have hBd1 : B * diagonal d = diagonal d * B := by
    ext i j
    have := congrFun (congrFun hBd i) j
    rw [diagonal_mul_diagonal, mul_diagonal, diagonal_mul] at this
    rw [mul_diagonal, diagonal_mul]
    by_cases hij : d i = d j
    · rw [hij]; ring
    · have h0 : (d j - d i) * (d j + d i) * B i j = 0 := by linear_combination this
      rcases mul_eq_zero.1 h0 with h1 | h1
      · rcases mul_eq_zero.1 h1 with h2 | h2
        · exact absurd (sub_eq_zero.1 h2).symm hij
        · have := hd i; have := hd j
          exact absurd (show d i = d j by linarith) hij
      · rw [h1]; ring
  have hA2 : A = V * B * Vᵀ := by
    rw [hB]
    calc A = (V * Vᵀ) * A * (V * Vᵀ) := by rw [hV', Matrix.one_mul, Matrix.mul_one]
      _ = V * (Vᵀ * A * V) * Vᵀ := by simp only [Matrix.mul_assoc]
  rw [hA2, hdec]
  calc V * B * Vᵀ * (V * diagonal d * Vᵀ) = V * (B * (Vᵀ * V) * diagonal d) * Vᵀ := by simp only [Matrix.mul_assoc]
    _ = V * (diagonal d * (Vᵀ * V) * B) * Vᵀ := by rw [hV, Matrix.mul_one, Matrix.mul_one, hBd1]
    _ = V * diagonal d * Vᵀ * (V * B * Vᵀ) := by simp only [Matrix.mul_assoc]

private theorem psd_comm_mul {n : ℕ} {S T : Matrix (Fin n) (Fin n) ℝ} (hS : IsPSD S) (hT : IsPSD T) (h : S * T = T * S) :
    IsPSD (S * T) := by
  obtain ⟨E⟩ := nonempty_eigh
  obtain ⟨R, hR, hR1, hR2, _⟩ := C21_root E S 0 le_rfl hS
  have hc := C125_commute E hS hR h.symm
  have e : S * T = R * T * Rᵀ := by rw [hR1.1, Matrix.mul_assoc, hc, ← Matrix.mul_assoc, hR2]
  rw [e]
  refine ⟨by rw [transpose_mul, transpose_mul, transpose_transpose, hT.1, Matrix.mul_assoc], fun x => ?_⟩
  rw [quad_conj]
  exact hT.2 _

/-- **C125** (products). The root of the product of two commuting matrices is the product of the roots. -/
theorem C125_product (E E' : Eigh) {n : ℕ} {Q R S T : Matrix (Fin n) (Fin n) ℝ} {tol tol' : ℝ} (hQ : IsPSD Q) (hR : IsPSD R)
    (h : sqrtmPos E Q tol = .ok S) (h' : sqrtmPos E R tol = .ok T) (hc : Q * R = R * Q) (ht : 0 ≤ tol') :
    sqrtmPos E' (Q * R) tol' = .ok (S * T) := by
  obtain ⟨_, hS, hSS⟩ := root_of E hQ h
  obtain ⟨_, hT, hTT⟩ := root_of E hR h'
  have h1 : R * S = S * R := C125_commute E hQ h hc.symm
  have h2 : S * T = T * S := C125_commute E hR h' h1.symm
  refine root_eq E' ht (psd_comm_mul hS hT h2) ?_
  calc S * T * (S * T) = S * (T * S) * T := by simp only [Matrix.mul_assoc]
    _ = S * S * (T * T) := by rw [← h2]; simp only [Matrix.mul_assoc]
    _ = Q * R := by rw [hSS, hTT]

/-- **C125** (inverse). The root of an invertible matrix is invertible, and its inverse is the root of the inverse. -/
theorem C125_inverse (E E' : Eigh) {n : ℕ} {Q P S : Matrix (Fin n) (Fin n) ℝ} {tol tol' : ℝ} (hQ : IsPSD Q)
    (h : sqrtmPos E Q tol = .ok S) (hP : Q * P = 1) (ht : 0 ≤ tol') :
    ∃ R, sqrtmPos E' P tol' = .ok R ∧ S * R = 1 ∧ R * S = 1 := by
  obtain ⟨_, hS, hSS⟩ := root_of E hQ h
  have hP' : P * Q = 1 := mul_eq_one_comm.mp hP
  have hsp : P * S = S * P := by
    have : Q * (P * S) = Q * (S * P) := by
      rw [← Matrix.mul_assoc, hP, Matrix.one_mul, ← Matrix.mul_assoc, ← hSS, Matrix.mul_assoc, Matrix.mul_assoc,
        ← Matrix.mul_assoc S S P, hSS, hP, Matrix.mul_one]
    calc P * S = (P * Q) * (P * S) := by rw [hP', Matrix.one_mul]
      _ = P * (Q * (S * P)) := by rw [Matrix.mul_assoc, this]
      _ = S * P := by rw [← Matrix.mul_assoc, hP', Matrix.one_mul]
  have hPs : Pᵀ = P := by
    have h1 : Pᵀ * Q = 1 := by
      have := congrArg transpose hP
      rwa [transpose_mul, hQ.1, transpose_one] at this
    calc Pᵀ = Pᵀ * (Q * P) := by rw [hP, Matrix.mul_one]
      _ = P := by rw [← Matrix.mul_assoc, h1, Matrix.one_mul]
  have hRs : S * (S * P) = 1 := by rw [← Matrix.mul_assoc, hSS, hP]
  have hpsd : IsPSD (S * P) := by
    refine ⟨by rw [transpose_mul, hS.1, hPs, hsp], fun x => ?_⟩
    set y := (S * P) *ᵥ x with hy
    have hx : x = S *ᵥ y := by rw [hy, mulVec_mulVec, hRs, one_mulVec]
    rw [hx, dotProduct_comm]
    exact hS.2 y
  refine ⟨S * P, root_eq E' ht hpsd ?_, hRs, mul_eq_one_comm.mp hRs⟩
  calc S * P * (S * P) = S * (P * S) * P := by simp only [Matrix.mul_assoc]
    _ = (S * S) * P * P := by rw [hsp]; simp only [Matrix.mul_assoc]
    _ = P := by rw [hSS, hP, Matrix.one_mul]

/-- **C125** (order). A larger matrix has a larger root. -/
theorem C125_mono (E E' : Eigh) {n : ℕ} {Q Q' S S' : Matrix (Fin n) (Fin n) ℝ} {tol tol' : ℝ} (hQ : IsPSD Q) (hQ' : IsPSD Q')
    (h : sqrtmPos E Q tol = .ok S) (h' : sqrtmPos E' Q' tol' = .ok S')
    (hle : ∀ x : Fin n → ℝ, x ⬝ᵥ Q *ᵥ x ≤ x ⬝ᵥ Q' *ᵥ x) (x : Fin n → ℝ) : x ⬝ᵥ S *ᵥ x ≤ x ⬝ᵥ S' *ᵥ x := by
  obtain ⟨_, hS, hSS⟩ := root_of E hQ h
  obtain ⟨_, hS', hSS'⟩ := root_of E' hQ' h'
  have hD : (S' - S)ᵀ = S' - S := by rw [transpose_sub, hS.1, hS'.1]
  have hv : ∀ i, 0 ≤ E.vals (S' - S) i := by
    intro i
    by_contra hcon
    obtain ⟨v, hv1, hv2⟩ := E.eigvec (S' - S) i
    rw [lowerSym_of_symm hD] at hv2
    set l := E.vals (S' - S) i
    have hl : l < 0 := not_le.1 hcon
    have e1 : S' *ᵥ v = S *ᵥ v + l • v := by
      rw [← hv2, sub_mulVec]; abel
    have q1 : v ⬝ᵥ Q *ᵥ v = (S *ᵥ v) ⬝ᵥ (S *ᵥ v) := by
      rw [← hSS, ← mulVec_mulVec, dotProduct_mulVec, ← mulVec_transpose, hS.1]
    have q2 : v ⬝ᵥ Q' *ᵥ v = (S' *ᵥ v) ⬝ᵥ (S' *ᵥ v) := by
      rw [← hSS', ← mulVec_mulVec, dotProduct_mulVec, ← mulVec_transpose, hS'.1]
    have p1 := hS.2 v
    have p2 := hS'.2 v
    have hle' := hle v
    rw [q1, q2, e1] at hle'
    rw [e1] at p2
    simp only [dotProduct_add, add_dotProduct, dotProduct_smul, smul_dotProduct, smul_eq_mul, hv1,
      dotProduct_comm (S *ᵥ v) v] at hle' p2
    nlinarith
  have := (E.le_vals_iff (S' - S) 0).1 hv x
  rw [lowerSym_of_symm hD, zero_mul, sub_mulVec, dotProduct_sub] at this
  linarith

/-- **C125** (definiteness, scaling). -/
theorem C125_test_scale (E E' : Eigh) {n : ℕ} {Q : Matrix (Fin n) (Fin n) ℝ} {tol a : ℝ} (f : Bool) (hn : n ≠ 0) (hs : Qᵀ = Q)
    (ht : 0 ≤ tol) (ha : 0 < a) : isMatPosDef E' (a • Q) (a * tol) f = .ok true ↔ isMatPosDef E Q tol f = .ok true := by
  have hs' : (a • Q)ᵀ = a • Q := by rw [transpose_smul, hs]
  have ht' := mul_nonneg ha.le ht
  have e : ∀ x : Fin n → ℝ, x ⬝ᵥ (a • Q) *ᵥ x = a * (x ⬝ᵥ Q *ᵥ x) := fun x => by
    rw [smul_mulVec, dotProduct_smul, smul_eq_mul]
  cases f
  · rw [C20_pos_def E' _ _ ht' hn hs', C20_pos_def E _ _ ht hn hs]
    refine forall₂_congr (fun x _ => ?_)
    rw [e, mul_assoc]
    exact mul_lt_mul_iff_right₀ ha
  · rw [C20_sem_def E' _ _ ht' hn hs', C20_sem_def E _ _ ht hn hs]
    refine forall_congr' (fun x => ?_)
    rw [e, show -(a * tol) * (x ⬝ᵥ x) = a * (-tol * (x ⬝ᵥ x)) by ring]
    exact mul_le_mul_iff_right₀ ha

/-- **C125** (definiteness, change of basis). -/
theorem C125_test_conj (E E' : Eigh) {n : ℕ} {Q O : Matrix (Fin n) (Fin n) ℝ} {tol : ℝ} (f : Bool) (hn : n ≠ 0) (hs : Qᵀ = Q)
    (ht : 0 ≤ tol) (hO : Oᵀ * O = 1) : isMatPosDef E' (O * Q * Oᵀ) tol f = .ok true ↔ isMatPosDef E Q tol f = .ok true := by
  have hs' : (O * Q * Oᵀ)ᵀ = O * Q * Oᵀ := by rw [transpose_mul, transpose_mul, transpose_transpose, hs, Matrix.mul_assoc]
  have hO' := orth_comm hO
  have hnorm : ∀ x : Fin n → ℝ, (Oᵀ *ᵥ x) ⬝ᵥ (Oᵀ *ᵥ x) = x ⬝ᵥ x := fun x =>
    dot_orth (V := Oᵀ) (by rw [transpose_transpose]; exact hO') x x
  have hback : ∀ x : Fin n → ℝ, Oᵀ *ᵥ (O *ᵥ x) = x := fun x => by rw [mulVec_mulVec, hO, one_mulVec]
  cases f
  · rw [C20_pos_def E' _ _ ht hn hs', C20_pos_def E _ _ ht hn hs]
    constructor
    · intro h x hx
      have := h (O *ᵥ x) (fun h0 => hx (by rw [← hback x, h0, mulVec_zero]))
      rwa [quad_conj, hback, ← hnorm, hback] at this
    · intro h x hx
      have := h (Oᵀ *ᵥ x) (fun h0 => hx (by
        have : O *ᵥ (Oᵀ *ᵥ x) = x := by rw [mulVec_mulVec, hO', one_mulVec]
        rw [← this, h0, mulVec_zero]))
      rwa [quad_conj, ← hnorm]
  · rw [C20_sem_def E' _ _ ht hn hs', C20_sem_def E _ _ ht hn hs]
    constructor
    · intro h x
      have := h (O *ᵥ x)
      rwa [quad_conj, hback, ← hnorm, hback] at this
    · intro h x
      have := h (Oᵀ *ᵥ x)
      rwa [quad_conj, ← hnorm]

/-- **C125** (definiteness, sums and tolerances). Sums of definite matrices are definite with the sum of the tolerances, and a
definite matrix stays definite when the tolerance is lowered. -/
theorem C125_test_add (E : Eigh) {n : ℕ} {Q R : Matrix (Fin n) (Fin n) ℝ} {tol tol' : ℝ} (hn : n ≠ 0) (hQ : Qᵀ = Q) (hR : Rᵀ = R)
    (ht : 0 ≤ tol) (ht' : 0 ≤ tol') (h : isMatPosDef E Q tol false = .ok true) :
    (isMatPosDef E R tol' false = .ok true → isMatPosDef E (Q + R) (tol + tol') false = .ok true) ∧
    (IsPSD R → isMatPosDef E (Q + R) tol false = .ok true) ∧
    (tol' ≤ tol → isMatPosDef E Q tol' false = .ok true) := by
  have hQR : (Q + R)ᵀ = Q + R := by rw [transpose_add, hQ, hR]
  rw [C20_pos_def E _ _ ht hn hQ] at h
  refine ⟨fun h2 => ?_, fun h2 => ?_, fun hle => ?_⟩
  · rw [C20_pos_def E _ _ ht' hn hR] at h2
    rw [C20_pos_def E _ _ (add_nonneg ht ht') hn hQR]
    intro x hx
    rw [add_mulVec, dotProduct_add, add_mul]
    exact add_lt_add (h x hx) (h2 x hx)
  · rw [C20_pos_def E _ _ ht hn hQR]
    intro x hx
    rw [add_mulVec, dotProduct_add]
    linarith [h x hx, h2.2 x]
  · rw [C20_pos_def E _ _ ht' hn hQ]
    intro x hx
    exact lt_of_le_of_lt (mul_le_mul_of_nonneg_right hle (dot_self_nonneg x)) (h x hx)

/-- **C125** (repair of singular values). Repairing twice is repairing once. -/
theorem C125_reg_again (B B' : Svd) {n : ℕ} {A R : Matrix (Fin n) (Fin n) ℝ} {tol : ℝ} (h : regMat B A tol = .ok R) :
    regMat B' R tol = .ok R := by
  refine C23_fixed B' R tol ?_ (C23_bound B A R tol h).1
  by_contra hcon
  obtain ⟨e, he⟩ := (C23_raises_iff B A tol).2 (not_lt.1 hcon)
  rw [h] at he
  cases he

/-- **C125** (repair of eigenvalues). Repairing twice is repairing once, for every value the negative eigenvalues get. -/
theorem C125_by_eig_again (E E' : Eigh) {n T : ℕ} {Q R : Fin T → Matrix (Fin n) (Fin n) ℝ} {value : ℝ}
    (h : MV.posDefByEig E Q value = .ok R) : MV.posDefByEig E' R value = .ok R := by
  have hsym : ∀ t, (Q t)ᵀ = Q t := by
    intro t
    by_contra hcon
    obtain ⟨e, he⟩ := (MV.C19_raises_iff E Q value).2 ⟨t, hcon⟩
    rw [h] at he
    cases he
  have hcol : ∀ t i, ∃ μ : ℝ, R t *ᵥ (fun k => E.vecs (Q t) k i) = μ • (fun k => E.vecs (Q t) k i) ∧ (μ < 0 → μ = value) := by
    intro t i
    have h1 : Q t *ᵥ (fun k => E.vecs (Q t) k i) = E.vals (Q t) i • (fun k => E.vecs (Q t) k i) := by
      funext k
      have := congrFun (congrFun (E.spec (Q t)) k) i
      rw [lowerSym_of_symm (hsym t), mul_diagonal] at this
      rw [Pi.smul_apply, smul_eq_mul, mul_comm, ← this]
      rfl
    refine ⟨_, MV.C19_eigenpairs E h t _ _ h1, ?_⟩
    intro h0
    split_ifs at h0 ⊢ with h2
    · rfl
    · exact absurd h0 h2
  have hRs : ∀ t, (R t)ᵀ = R t := by
    intro t
    have hd : R t * E.vecs (Q t) = E.vecs (Q t) * diagonal (fun i => (hcol t i).choose) := by
      ext k i
      have := congrFun (hcol t i).choose_spec.1 k
      rw [mul_diagonal]
      rw [Pi.smul_apply, smul_eq_mul, mul_comm] at this
      exact this
    have : R t = E.vecs (Q t) * diagonal (fun i => (hcol t i).choose) * (E.vecs (Q t))ᵀ := by
      rw [← hd, Matrix.mul_assoc, orth_comm (E.orth _), Matrix.mul_one]
    rw [this, transpose_mul, transpose_mul, transpose_transpose, diagonal_transpose, Matrix.mul_assoc]
  cases h2 : MV.posDefByEig E' R value with
  | error e =>
    obtain ⟨t, ht⟩ := (MV.C19_raises_iff E' R value).1 ⟨e, h2⟩
    exact absurd (hRs t) ht
  | ok P =>
    congr 1
    funext t
    have key : P t * E.vecs (Q t) = R t * E.vecs (Q t) := by
      ext k i
      obtain ⟨μ, hμ1, hμ2⟩ := hcol t i
      have h3 := MV.C19_eigenpairs E' h2 t _ _ hμ1
      have h4 : (if μ < 0 then value else μ) = μ := by
        split_ifs with h0
        · exact (hμ2 h0).symm
        · rfl
      rw [h4, ← hμ1] at h3
      exact congrFun h3 k
    have := congrArg (fun M => M * (E.vecs (Q t))ᵀ) key
    simpa only [Matrix.mul_assoc, orth_comm (E.orth _), Matrix.mul_one] using this

/-- The hypotheses of C125 are met: two diagonal matrices with different entries commute, have roots and inverses, one is below the
other, and a reflection is orthogonal. -/
example (E : Eigh) : ∃ (Q R S T P O : Matrix (Fin 2) (Fin 2) ℝ), IsPSD Q ∧ IsPSD R ∧ Q * R = R * Q ∧ sqrtmPos E Q 0 = .ok S ∧
    sqrtmPos E R 0 = .ok T ∧ Q * P = 1 ∧ Oᵀ * O = 1 ∧ O ≠ 1 ∧ Q ≠ R ∧ (∀ x : Fin 2 → ℝ, x ⬝ᵥ Q *ᵥ x ≤ x ⬝ᵥ R *ᵥ x) ∧
    isMatPosDef E Q (1 / 2) false = .ok true := by
  have hd : ∀ (d : Fin 2 → ℝ), (∀ i, 0 ≤ d i) → IsPSD (diagonal d) := by
    intro d h
    have := psd_conj (1 : Matrix (Fin 2) (Fin 2) ℝ) h
    rwa [transpose_one, Matrix.one_mul, Matrix.mul_one] at this
  have hQ : IsPSD (diagonal (![1, 4] : Fin 2 → ℝ)) := hd _ (by intro i; fin_cases i <;> simp)
  have hR : IsPSD (diagonal (![9, 5] : Fin 2 → ℝ)) := hd _ (by intro i; fin_cases i <;> simp)
  obtain ⟨S, hS, _⟩ := C21_root E _ 0 le_rfl hQ
  obtain ⟨T, hT, _⟩ := C21_root E _ 0 le_rfl hR
  refine ⟨_, _, S, T, diagonal ![1, 1 / 4], diagonal ![1, -1], hQ, hR, ?_, hS, hT, ?_, ?_, ?_, ?_, ?_, ?_⟩
  · rw [diagonal_mul_diagonal, diagonal_mul_diagonal]
    congr 1; funext i; ring
  · rw [diagonal_mul_diagonal, ← diagonal_one]
    congr 1; funext i; fin_cases i <;> norm_num
  · rw [diagonal_transpose, diagonal_mul_diagonal, ← diagonal_one]
    congr 1; funext i; fin_cases i <;> norm_num
  · intro h
    have := congrFun (congrFun h 1) 1
    norm_num at this
  · intro h
    have := congrFun (congrFun h 0) 0
    norm_num at this
  · intro x
    rw [quad_diag, quad_diag, Fin.sum_univ_two, Fin.sum_univ_two]
    simp only [cons_val_zero, cons_val_one]
    nlinarith [sq_nonneg (x 0), sq_nonneg (x 1)]
  · rw [C20_pos_def E _ _ (by norm_num) (by norm_num) hQ.1]
    intro x hx
    have hpos := dot_self_pos hx
    rw [dot_self_eq, Fin.sum_univ_two] at *
    rw [quad_diag, Fin.sum_univ_two]
    simp only [cons_val_zero, cons_val_one]
    nlinarith [sq_nonneg (x 0), sq_nonneg (x 1)]

end Ellipy.LA
