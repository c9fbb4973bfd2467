import Mathlib.LinearAlgebra.Matrix.Block
import Verif.Props.LaPosDef

/-! Property theorems C22 (`reg_pos_def_mat`) and C23 (`reg_mat`). -/

namespace Ellipy.LA
open Matrix

/-- **C22**: which arguments are rejected. -/
theorem C22_raises_iff (E : Eig) {n : ℕ} (Q : Matrix (Fin n) (Fin n) ℝ) (tol : ℝ) :
    Raises (regPosDefMat E Q tol) ↔ tol ≤ 0 ∨ Qᵀ ≠ Q := by
  unfold regPosDefMat
  by_cases ht : 0 < tol
  · rw [if_neg (not_not.mpr ht), isMatSymm_zero]
    by_cases hs : Qᵀ = Q
    · rw [decide_eq_true hs]
      exact iff_of_false (by rintro ⟨e, he⟩; cases he) (by push Not; exact ⟨ht, hs⟩)
    · rw [decide_eq_false hs]
      exact iff_of_true ⟨_, rfl⟩ (Or.inr hs)
  · rw [if_pos ht]
    exact iff_of_true ⟨_, rfl⟩ (Or.inl (not_lt.mp ht))

theorem reg_val (E : Eig) {n : ℕ} {Q R : Matrix (Fin n) (Fin n) ℝ} {tol : ℝ} (h : regPosDefMat E Q tol = .ok R) :
    0 < tol ∧ Qᵀ = Q ∧ R = Q + E.vecs Q * diagonal (fun i => max 0 (tol - E.vals Q i)) * (E.vecs Q)ᵀ := by
  unfold regPosDefMat throwErr at h
  by_cases ht : 0 < tol
  swap
  · rw [if_pos ht] at h; cases h
  rw [if_neg (not_not.mpr ht), isMatSymm_zero] at h
  by_cases hs : Qᵀ = Q
  swap
  · rw [decide_eq_false hs] at h; cases h
  rw [decide_eq_true hs] at h
  simp only at h
  injection h with h
  refine ⟨ht, hs, ?_⟩
  rw [← h]
  set M := E.vecs Q * diagonal (fun i => max 0 (tol - E.vals Q i)) * (E.vecs Q)ᵀ
  have hM : Mᵀ = M := (psd_conj (E.vecs Q) (fun i => le_max_left _ _)).1
  rw [transpose_add, hs, hM, ← two_smul ℝ (Q + M), smul_smul]
  norm_num

/-- **C22**, any eigensolver: the result is symmetric and its form is nowhere below the form of the argument. -/
theorem C22_above (E : Eig) {n : ℕ} (Q R : Matrix (Fin n) (Fin n) ℝ) (tol : ℝ) (h : regPosDefMat E Q tol = .ok R) :
    Rᵀ = R ∧ ∀ x : Fin n → ℝ, x ⬝ᵥ Q *ᵥ x ≤ x ⬝ᵥ R *ᵥ x := by
  obtain ⟨ht, hs, rfl⟩ := reg_val E h
  have hM := psd_conj (E.vecs Q) (d := fun i => max 0 (tol - E.vals Q i)) (fun i => le_max_left _ _)
  refine ⟨by rw [transpose_add, hs, hM.1], fun x => ?_⟩
  rw [add_mulVec, dotProduct_add]
  have := hM.2 x
  linarith

/-- **C22**, any eigensolver: a matrix that satisfies the bound already comes back unchanged. -/
theorem C22_fixed (E : Eig) {n : ℕ} (Q : Matrix (Fin n) (Fin n) ℝ) (tol : ℝ) (ht : 0 < tol) (hs : Qᵀ = Q)
    (hb : ∀ x : Fin n → ℝ, tol * (x ⬝ᵥ x) ≤ x ⬝ᵥ Q *ᵥ x) : regPosDefMat E Q tol = .ok Q := by
  cases h : regPosDefMat E Q tol with
  | error e =>
    have : Raises (regPosDefMat E Q tol) := ⟨e, h⟩
    rw [C22_raises_iff] at this
    rcases this with h | h
    · exact absurd ht (not_lt.mpr h)
    · exact absurd hs h
  | ok R =>
    obtain ⟨_, _, rfl⟩ := reg_val E h
    have : (fun i => max 0 (tol - E.vals Q i)) = fun _ => (0:ℝ) := by
      funext i
      rw [max_eq_left]
      let v : Fin n → ℝ := fun k => E.vecs Q k i
      have hv1 : v ⬝ᵥ v = 1 := by
        rw [dot_self_eq]; exact E.unit Q hs i
      have hv2 : Q *ᵥ v = E.vals Q i • v := by
        funext k
        have h := congrFun (congrFun (E.spec Q hs) k) i
        rw [mul_diagonal] at h
        rw [Pi.smul_apply, smul_eq_mul, mul_comm, ← h]
        rfl
      have := hb v
      rw [hv2, dotProduct_smul, hv1, smul_eq_mul] at this
      linarith
    rw [this, diagonal_zero, Matrix.mul_zero, Matrix.zero_mul, add_zero]

/-- **C22**: with orthonormal eigenvectors the spectrum is lifted to the tolerance, and nothing else is
changed: `R - tol` is the positive part of `Q - tol`. -/
theorem C22_lift (E : Eig) {n : ℕ} (Q R : Matrix (Fin n) (Fin n) ℝ) (tol : ℝ) (h : regPosDefMat E Q tol = .ok R)
    (ho : (E.vecs Q)ᵀ * E.vecs Q = 1) :
    (∀ x : Fin n → ℝ, tol * (x ⬝ᵥ x) ≤ x ⬝ᵥ R *ᵥ x) ∧ IsPosPart (Q - tol • 1) (R - tol • 1) := by
  obtain ⟨ht, hs, rfl⟩ := reg_val E h
  have hV := orth_comm ho
  set V := E.vecs Q
  set d := E.vals Q
  have hQ : Q = V * diagonal d * Vᵀ := by
    rw [← E.spec Q hs, Matrix.mul_assoc, hV, Matrix.mul_one]
  have h1 : tol • (1 : Matrix (Fin n) (Fin n) ℝ) = V * diagonal (fun _ => tol) * Vᵀ := by
    rw [← smul_one_eq_diagonal, Matrix.mul_smul, Matrix.mul_one, Matrix.smul_mul, hV]
  have hR : Q + V * diagonal (fun i => max 0 (tol - d i)) * Vᵀ - tol • 1 =
      V * diagonal (fun i => max 0 (d i - tol)) * Vᵀ := by
    rw [h1]
    nth_rw 1 [hQ]
    rw [← Matrix.add_mul, ← Matrix.sub_mul, ← Matrix.mul_add, ← Matrix.mul_sub, diagonal_add, diagonal_sub]
    congr 3
    funext i
    rcases le_total (d i) tol with h | h
    · rw [max_eq_right (by linarith), max_eq_left (by linarith)]; ring
    · rw [max_eq_left (by linarith), max_eq_right (by linarith)]; ring
  have hp : IsPSD (Q + V * diagonal (fun i => max 0 (tol - d i)) * Vᵀ - tol • 1) := by
    rw [hR]
    exact psd_conj V (fun i => le_max_left _ _)
  have hdiff : Q + V * diagonal (fun i => max 0 (tol - d i)) * Vᵀ - tol • 1 - (Q - tol • 1) =
      V * diagonal (fun i => max 0 (tol - d i)) * Vᵀ := by abel
  refine ⟨fun x => ?_, hp, ?_, ?_⟩
  · have := hp.2 x
    rw [sub_mulVec, dotProduct_sub, smul_mulVec, one_mulVec, dotProduct_smul, smul_eq_mul] at this
    linarith
  · rw [hdiff]
    exact psd_conj V (fun i => le_max_left _ _)
  · rw [hdiff, hR, conj_mul ho]
    have : (fun i => max 0 (d i - tol) * max 0 (tol - d i)) = fun _ => (0:ℝ) := by
      funext i
      rcases le_total (d i) tol with h | h
      · rw [max_eq_left (by linarith), zero_mul]
      · rw [max_eq_left (b := tol - d i) (by linarith), mul_zero]
    rw [this, diagonal_zero, Matrix.mul_zero, Matrix.zero_mul]

/-- **C22**: regularising twice is regularising once. -/
theorem C22_idempotent (E : Eig) {n : ℕ} (Q R : Matrix (Fin n) (Fin n) ℝ) (tol : ℝ) (h : regPosDefMat E Q tol = .ok R)
    (ho : (E.vecs Q)ᵀ * E.vecs Q = 1) : regPosDefMat E R tol = .ok R :=
  C22_fixed E R tol (reg_val E h).1 (C22_above E Q R tol h).1 (C22_lift E Q R tol h ho).1

/-- The orthonormality assumed in `C22_lift` comes for free when the eigenvalues are distinct. -/
theorem C22_distinct (E : Eig) {n : ℕ} (Q : Matrix (Fin n) (Fin n) ℝ) (hs : Qᵀ = Q)
    (hinj : Function.Injective (E.vals Q)) : (E.vecs Q)ᵀ * E.vecs Q = 1 := by
  have hcol : ∀ j, Q *ᵥ (fun k => E.vecs Q k j) = E.vals Q j • (fun k => E.vecs Q k j) := by
    intro j
    funext k
    have h := congrFun (congrFun (E.spec Q hs) k) j
    rw [mul_diagonal] at h
    rw [Pi.smul_apply, smul_eq_mul, mul_comm, ← h]
    rfl
  ext i j
  have e : ((E.vecs Q)ᵀ * E.vecs Q) i j = (fun k => E.vecs Q k i) ⬝ᵥ (fun k => E.vecs Q k j) := rfl
  rw [e, one_apply]
  by_cases hij : i = j
  · subst hij
    rw [if_pos rfl, dot_self_eq]
    exact E.unit Q hs i
  · rw [if_neg hij]
    have h1 : (fun k => E.vecs Q k i) ⬝ᵥ Q *ᵥ (fun k => E.vecs Q k j) =
        (Q *ᵥ (fun k => E.vecs Q k i)) ⬝ᵥ (fun k => E.vecs Q k j) := by
      rw [dotProduct_mulVec, ← mulVec_transpose, hs]
    rw [hcol, hcol, dotProduct_smul, smul_dotProduct, smul_eq_mul, smul_eq_mul, ← sub_eq_zero, ← sub_mul] at h1
    rcases mul_eq_zero.mp h1 with h | h
    · exact absurd (hinj (sub_eq_zero.mp h)).symm hij
    · exact h

/-- A slanted basis of unit vectors: the first unit vector, and `3/5 e₀ + 4/5 e_j` for `j ≠ 0`. -/
noncomputable def slanted (n : ℕ) : Matrix (Fin n) (Fin n) ℝ :=
  of fun i j => if i = j then (if i.val = 0 then 1 else 4 / 5) else if i.val = 0 then 3 / 5 else 0

/-- `np.linalg.eig` promises less than `C22_lift` assumes: with eigenvectors of length one that are not orthogonal (for
a repeated eigenvalue) the lower bound fails. -/
theorem C22_eig_violated : ∃ (E : Eig) (Q R : Matrix (Fin 2) (Fin 2) ℝ) (tol : ℝ) (x : Fin 2 → ℝ),
    regPosDefMat E Q tol = .ok R ∧ x ⬝ᵥ R *ᵥ x < tol * (x ⬝ᵥ x) := by
  classical
  obtain ⟨E0⟩ := nonempty_eig
  have hdet : ∀ n, IsUnit (slanted n).det := by
    intro n
    have ht : (slanted n).BlockTriangular id := by
      intro i j hij
      have hij' : j < i := hij
      simp only [slanted, of_apply]
      rw [if_neg (ne_of_gt hij'), if_neg (by have := Fin.lt_def.mp hij'; omega)]
    rw [det_of_upperTriangular ht, isUnit_iff_ne_zero, Finset.prod_ne_zero_iff]
    intro i _
    simp only [slanted, of_apply, if_true]
    split_ifs <;> norm_num
  have hunit : ∀ n (j : Fin n), ∑ i, slanted n i j ^ 2 = 1 := by
    intro n j
    cases n with
    | zero => exact j.elim0
    | succ n =>
      rw [Fin.sum_univ_succ]
      refine Fin.cases ?_ ?_ j
      · have : ∀ i : Fin n, slanted (n + 1) i.succ 0 = 0 := by
          intro i
          simp [slanted]
        simp only [this]
        simp [slanted]
      · intro j
        have h1 : slanted (n + 1) 0 j.succ = 3 / 5 := by simp [slanted, (Fin.succ_ne_zero j).symm]
        have h2 : ∀ i : Fin n, slanted (n + 1) i.succ j.succ = if i = j then 4 / 5 else 0 := by
          intro i
          simp [slanted]
        simp only [h1, h2]
        rw [Finset.sum_eq_single j]
        · norm_num
        · intro b _ hb; rw [if_neg hb]; norm_num
        · intro h; exact absurd (Finset.mem_univ _) h
  let E : Eig :=
    { vals := fun {n} Q => if Q = 0 then 0 else E0.vals Q
      vecs := fun {n} Q => if Q = 0 then slanted n else E0.vecs Q
      unit := by
        intro n Q hQ j
        split_ifs
        · exact hunit n j
        · exact E0.unit Q hQ j
      spec := by
        intro n Q hQ
        split_ifs with h
        · subst h
          have : diagonal (0 : Fin n → ℝ) = 0 := diagonal_zero
          rw [Matrix.zero_mul, this, Matrix.mul_zero]
        · exact E0.spec Q hQ
      basis := by
        intro n Q hQ
        split_ifs
        · exact hdet n
        · exact E0.basis Q hQ }
  cases h : regPosDefMat E (0 : Matrix (Fin 2) (Fin 2) ℝ) 1 with
  | error e =>
    have : Raises (regPosDefMat E (0 : Matrix (Fin 2) (Fin 2) ℝ) 1) := ⟨e, h⟩
    rw [C22_raises_iff] at this
    rcases this with h | h
    · norm_num at h
    · exact absurd (transpose_zero) h
  | ok R =>
    refine ⟨E, 0, R, 1, ![1, -1], h, ?_⟩
    obtain ⟨_, _, rfl⟩ := reg_val E h
    have e1 : E.vecs (0 : Matrix (Fin 2) (Fin 2) ℝ) = slanted 2 := if_pos rfl
    have e2 : E.vals (0 : Matrix (Fin 2) (Fin 2) ℝ) = 0 := if_pos rfl
    rw [e1, e2, zero_add, quad_conj, quad_diag]
    simp [Fin.sum_univ_two, mulVec, dotProduct, slanted]
    norm_num

/-- Orthonormal eigensolvers exist, and a matrix below the bound is changed. -/
example : ∃ (E : Eig) (R : Matrix (Fin 2) (Fin 2) ℝ), regPosDefMat E (diagonal ![1, 5]) 2 = .ok R ∧
    ∀ x : Fin 2 → ℝ, 2 * (x ⬝ᵥ x) ≤ x ⬝ᵥ R *ᵥ x := by
  obtain ⟨B⟩ := nonempty_eigh
  let E : Eig :=
    { vals := B.vals, vecs := B.vecs
      unit := by
        intro n Q hQ j
        have h := congrFun (congrFun (B.orth Q) j) j
        rw [mul_apply, one_apply_eq] at h
        rw [← h]
        exact Finset.sum_congr rfl (fun k _ => by simp [sq])
      spec := by
        intro n Q hQ
        have := B.spec Q
        rwa [lowerSym_of_symm hQ] at this
      basis := fun Q _ => isUnit_det_of_orth (B.orth Q) }
  cases h : regPosDefMat E (diagonal ![1, 5]) 2 with
  | error e =>
    have : Raises (regPosDefMat E (diagonal ![1, 5]) 2) := ⟨e, h⟩
    rw [C22_raises_iff] at this
    rcases this with h | h
    · norm_num at h
    · exact absurd (diagonal_transpose _) h
  | ok R => exact ⟨E, R, h, (C22_lift E _ R 2 h (B.orth _)).1⟩

/-! ### C23 -/

theorem sigma_square {n : ℕ} (s : Fin (min n n) → ℝ) :
    (sigma s : Matrix (Fin n) (Fin n) ℝ) = diagonal (fun i => s ⟨i.val, by omega⟩) := by
  ext i j
  rw [sigma, diagonal_apply]
  by_cases h : i = j
  · subst h; simp
  · rw [if_neg h, dif_neg (fun h' => h (Fin.ext h'))]

/-- **C23**: only a non-positive tolerance is rejected. -/
theorem C23_raises_iff (B : Svd) {n : ℕ} (A : Matrix (Fin n) (Fin n) ℝ) (tol : ℝ) :
    Raises (regMat B A tol) ↔ tol ≤ 0 := by
  unfold regMat
  by_cases ht : 0 < tol
  · rw [if_neg (not_not.mpr ht)]
    exact iff_of_false (by rintro ⟨e, he⟩; cases he) (not_le.mpr ht)
  · rw [if_pos ht]
    exact iff_of_true ⟨_, rfl⟩ (not_lt.mp ht)

theorem regMat_val (B : Svd) {n : ℕ} {A R : Matrix (Fin n) (Fin n) ℝ} {tol : ℝ} (h : regMat B A tol = .ok R) :
    0 < tol ∧ R = B.U A * diagonal (fun i => max (B.s A ⟨i.val, by omega⟩) tol) * B.Vt A := by
  unfold regMat throwErr at h
  by_cases ht : 0 < tol
  · rw [if_neg (not_not.mpr ht)] at h
    injection h with h
    exact ⟨ht, h.symm⟩
  · rw [if_pos ht] at h; cases h

/-- **C23**: the result stretches every vector at least by the tolerance (so no singular value is smaller),
in particular it is invertible. -/
theorem C23_bound (B : Svd) {n : ℕ} (A R : Matrix (Fin n) (Fin n) ℝ) (tol : ℝ) (h : regMat B A tol = .ok R) :
    (∀ x : Fin n → ℝ, tol ^ 2 * (x ⬝ᵥ x) ≤ (R *ᵥ x) ⬝ᵥ (R *ᵥ x)) ∧ IsUnit R.det := by
  obtain ⟨ht, rfl⟩ := regMat_val B h
  constructor
  · intro x
    rw [← mulVec_mulVec, ← mulVec_mulVec, dot_orth (B.U_orth A)]
    have h1 : x ⬝ᵥ x = (B.Vt A *ᵥ x) ⬝ᵥ (B.Vt A *ᵥ x) :=
      (dot_orth (orth_comm (V := (B.Vt A)ᵀ) (by rw [transpose_transpose]; exact B.Vt_orth A)) x x).symm
    rw [h1, dot_self_eq, dot_self_eq, Finset.mul_sum]
    refine Finset.sum_le_sum (fun i _ => ?_)
    rw [mulVec_diagonal, mul_pow]
    refine mul_le_mul_of_nonneg_right ?_ (sq_nonneg _)
    exact pow_le_pow_left₀ ht.le (le_max_right _ _) 2
  · rw [det_mul, det_mul, det_diagonal]
    refine IsUnit.mul (IsUnit.mul (isUnit_det_of_orth (B.U_orth A)) ?_) ?_
    · rw [isUnit_iff_ne_zero, Finset.prod_ne_zero_iff]
      exact fun i _ => ne_of_gt (lt_of_lt_of_le ht (le_max_right _ _))
    · have := isUnit_det_of_orth (V := (B.Vt A)ᵀ) (by rw [transpose_transpose]; exact B.Vt_orth A)
      rwa [det_transpose] at this

/-- **C23**: a matrix that satisfies the bound already is returned unchanged. -/
theorem C23_fixed (B : Svd) {n : ℕ} (A : Matrix (Fin n) (Fin n) ℝ) (tol : ℝ) (ht : 0 < tol)
    (hb : ∀ x : Fin n → ℝ, tol ^ 2 * (x ⬝ᵥ x) ≤ (A *ᵥ x) ⬝ᵥ (A *ᵥ x)) : regMat B A tol = .ok A := by
  unfold regMat
  rw [if_neg (not_not.mpr ht)]
  congr 1
  have hA := B.spec A
  rw [sigma_square] at hA
  conv_rhs => rw [hA]
  congr 3
  funext i
  rw [max_eq_left]
  -- test the bound on the `i`-th right singular vector
  have hW : (B.Vt A)ᵀᵀ * (B.Vt A)ᵀ = 1 := by rw [transpose_transpose]; exact B.Vt_orth A
  have h1 := hb ((B.Vt A)ᵀ *ᵥ Pi.single i 1)
  rw [dot_orth hW] at h1
  have h2 : A *ᵥ ((B.Vt A)ᵀ *ᵥ Pi.single i 1) =
      B.U A *ᵥ (diagonal (fun i => B.s A ⟨i.val, by omega⟩) *ᵥ Pi.single i 1) := by
    nth_rw 1 [hA]
    rw [mulVec_mulVec, Matrix.mul_assoc, B.Vt_orth A, Matrix.mul_one, mulVec_mulVec]
  rw [h2, dot_orth (B.U_orth A), dot_self_eq, dot_self_eq] at h1
  have e1 : ∑ k, (Pi.single i 1 : Fin n → ℝ) k ^ 2 = 1 := by
    rw [Finset.sum_eq_single i]
    · simp
    · intro b _ hb; simp [hb]
    · intro h; exact absurd (Finset.mem_univ _) h
  have e2 : ∑ k, (diagonal (fun i => B.s A ⟨i.val, by omega⟩) *ᵥ (Pi.single i 1 : Fin n → ℝ)) k ^ 2 =
      (B.s A ⟨i.val, by omega⟩) ^ 2 := by
    rw [Finset.sum_eq_single i]
    · rw [mulVec_diagonal]; simp
    · intro b _ hb; rw [mulVec_diagonal]; simp [hb]
    · intro h; exact absurd (Finset.mem_univ _) h
  rw [e1, e2, mul_one] at h1
  exact le_of_sq_le_sq h1 (B.s_nonneg A _)

/-- Already regular, and regularised. -/
example (B : Svd) : regMat B (1 : Matrix (Fin 2) (Fin 2) ℝ) 1 = .ok 1 ∧
    ∃ R, regMat B (0 : Matrix (Fin 2) (Fin 2) ℝ) 3 = .ok R ∧ IsUnit R.det := by
  constructor
  · apply C23_fixed B _ _ one_pos
    intro x; rw [one_mulVec]; norm_num
  · cases h : regMat B (0 : Matrix (Fin 2) (Fin 2) ℝ) 3 with
    | error e => exact absurd ((C23_raises_iff B _ _).mp ⟨e, h⟩) (by norm_num)
    | ok R => exact ⟨R, rfl, (C23_bound B _ R 3 h).2⟩

end Ellipy.LA
