import Mathlib.LinearAlgebra.Matrix.Block
import Mathlib.Tactic.NormNum
import Verif.Proofs.La

/-! Property theorems C20-C23: definiteness test, square root, regularisation (gras/la/la.py).

Specifications are in terms of the quadratic form `x ⬝ᵥ Q *ᵥ x` and the squared length `x ⬝ᵥ x`. -/

namespace Ellipy.LA
open Matrix

/-- Symmetric up to `tol`. -/
def SymmWithin {n : ℕ} (Q : Matrix (Fin n) (Fin n) ℝ) (tol : ℝ) : Prop := ∀ i j, |Q i j - Q j i| ≤ tol

/-- Symmetric with a non-negative quadratic form. -/
def IsPSD {n : ℕ} (Q : Matrix (Fin n) (Fin n) ℝ) : Prop := Qᵀ = Q ∧ ∀ x : Fin n → ℝ, 0 ≤ x ⬝ᵥ Q *ᵥ x

theorem symmWithin_of_symm {n : ℕ} {Q : Matrix (Fin n) (Fin n) ℝ} {tol : ℝ} (h : Qᵀ = Q) (ht : 0 ≤ tol) :
    SymmWithin Q tol := by
  intro i j
  have := congrFun (congrFun h i) j
  rw [transpose_apply] at this
  simpa [this] using ht

theorem isMatSymm_of_within {n : ℕ} {Q : Matrix (Fin n) (Fin n) ℝ} {tol : ℝ} (ht : 0 ≤ tol) (h : SymmWithin Q tol) :
    isMatSymm Q tol = .ok true := by
  rw [isMatSymm_square, if_neg (not_lt.mpr ht)]
  congr 1
  exact decide_eq_true h

theorem isMatSymm_of_not_within {n : ℕ} {Q : Matrix (Fin n) (Fin n) ℝ} {tol : ℝ} (ht : 0 ≤ tol)
    (h : ¬ SymmWithin Q tol) : isMatSymm Q tol = .ok false := by
  rw [isMatSymm_square, if_neg (not_lt.mpr ht)]
  congr 1
  exact decide_eq_false h

/-! ### C20 -/

/-- `is_mat_symm` is the entrywise test. -/
theorem C20_symm {n : ℕ} (Q : Matrix (Fin n) (Fin n) ℝ) (tol : ℝ) (ht : 0 ≤ tol) :
    isMatSymm Q tol = .ok true ↔ SymmWithin Q tol := by
  by_cases h : SymmWithin Q tol
  · rw [isMatSymm_of_within ht h]; simp [h]
  · rw [isMatSymm_of_not_within ht h]; simp [h]

private theorem posDef_eq (E : Eigh) {n : ℕ} (Q : Matrix (Fin n) (Fin n) ℝ) (tol : ℝ) (f : Bool) (ht : 0 ≤ tol)
    (hs : SymmWithin Q tol) : isMatPosDef E Q tol f =
      match (List.ofFn (E.vals Q)).min? with
      | none => .error .pyValueError
      | some minEig =>
        if f then (if minEig < -tol then .ok false else .ok true)
        else (if minEig ≤ tol then .ok false else .ok true) := by
  unfold isMatPosDef
  rw [if_neg (not_lt.mpr ht), isMatSymm_of_within ht hs]
  rfl

/-- **C20**: which arguments are rejected. -/
theorem C20_raises_iff (E : Eigh) {n : ℕ} (Q : Matrix (Fin n) (Fin n) ℝ) (tol : ℝ) (f : Bool) :
    Raises (isMatPosDef E Q tol f) ↔ tol < 0 ∨ ¬ SymmWithin Q tol ∨ n = 0 := by
  by_cases ht : tol < 0
  · simp only [ht, true_or, iff_true]
    unfold isMatPosDef
    rw [if_pos ht]
    exact ⟨_, rfl⟩
  by_cases hs : SymmWithin Q tol
  · rw [posDef_eq E Q tol f (not_lt.mp ht) hs]
    rcases min?_ofFn (E.vals Q) with ⟨h0, h⟩ | ⟨i, h, _⟩
    · rw [h]
      simp only [h0, or_true, iff_true]
      exact ⟨_, rfl⟩
    · rw [h]
      have hn : n ≠ 0 := by rintro rfl; exact i.elim0
      simp only [ht, hs, hn, not_true, or_false, iff_false]
      rintro ⟨e, he⟩
      revert he
      split_ifs <;> simp
  · simp only [hs, not_false_iff, true_or, or_true, iff_true]
    unfold isMatPosDef
    rw [if_neg ht, isMatSymm_of_not_within (not_lt.mp ht) hs]
    exact ⟨_, rfl⟩

/-- **C20** for matrices that are symmetric within the tolerance only: the verdict is about the symmetric matrix with
the same lower triangle. -/
theorem C20_nearly (E : Eigh) {n : ℕ} (Q : Matrix (Fin n) (Fin n) ℝ) (tol : ℝ) (ht : 0 ≤ tol) (hn : n ≠ 0)
    (hs : SymmWithin Q tol) :
    (isMatPosDef E Q tol false = .ok true ↔ ∀ x : Fin n → ℝ, x ≠ 0 → tol * (x ⬝ᵥ x) < x ⬝ᵥ lowerSym Q *ᵥ x) ∧
    (isMatPosDef E Q tol true = .ok true ↔ ∀ x : Fin n → ℝ, -tol * (x ⬝ᵥ x) ≤ x ⬝ᵥ lowerSym Q *ᵥ x) := by
  rw [posDef_eq E Q tol false ht hs, posDef_eq E Q tol true ht hs, ← E.lt_vals_iff Q tol, ← E.le_vals_iff Q (-tol)]
  rcases min?_ofFn (E.vals Q) with ⟨h0, _⟩ | ⟨i, h, hi⟩
  · exact absurd h0 hn
  rw [h]
  simp only [if_true, Bool.false_eq_true, if_false]
  constructor
  · by_cases hc : E.vals Q i ≤ tol
    · rw [if_pos hc]
      simp only [Except.ok.injEq, Bool.false_eq_true, false_iff]
      intro hall
      exact absurd (hall i) (not_lt.mpr hc)
    · rw [if_neg hc]
      simp only [true_iff]
      exact fun j => lt_of_lt_of_le (not_le.mp hc) (hi j)
  · by_cases hc : E.vals Q i < -tol
    · rw [if_pos hc]
      simp only [Except.ok.injEq, Bool.false_eq_true, false_iff]
      intro hall
      exact absurd (hall i) (not_le.mpr hc)
    · rw [if_neg hc]
      simp only [true_iff]
      exact fun j => le_trans (not_lt.mp hc) (hi j)

/-- **C20**: positive definiteness above the tolerance. -/
theorem C20_pos_def (E : Eigh) {n : ℕ} (Q : Matrix (Fin n) (Fin n) ℝ) (tol : ℝ) (ht : 0 ≤ tol) (hn : n ≠ 0)
    (hs : Qᵀ = Q) :
    isMatPosDef E Q tol false = .ok true ↔ ∀ x : Fin n → ℝ, x ≠ 0 → tol * (x ⬝ᵥ x) < x ⬝ᵥ Q *ᵥ x := by
  have := (C20_nearly E Q tol ht hn (symmWithin_of_symm hs ht)).1
  rwa [lowerSym_of_symm hs] at this

/-- **C20**: positive semidefiniteness up to the tolerance. -/
theorem C20_sem_def (E : Eigh) {n : ℕ} (Q : Matrix (Fin n) (Fin n) ℝ) (tol : ℝ) (ht : 0 ≤ tol) (hn : n ≠ 0)
    (hs : Qᵀ = Q) :
    isMatPosDef E Q tol true = .ok true ↔ ∀ x : Fin n → ℝ, -tol * (x ⬝ᵥ x) ≤ x ⬝ᵥ Q *ᵥ x := by
  have := (C20_nearly E Q tol ht hn (symmWithin_of_symm hs ht)).2
  rwa [lowerSym_of_symm hs] at this

/-- The identity matrix is positive definite with tolerance `1/2`, not with tolerance `1`. -/
example (E : Eigh) : isMatPosDef E (1 : Matrix (Fin 2) (Fin 2) ℝ) (1 / 2) false = .ok true ∧
    isMatPosDef E (1 : Matrix (Fin 2) (Fin 2) ℝ) 1 false ≠ .ok true := by
  constructor
  · rw [C20_pos_def E _ _ (by norm_num) (by norm_num) (transpose_one)]
    intro x hx
    have := dot_self_pos hx
    rw [one_mulVec]; linarith
  · rw [ne_eq, C20_pos_def E _ _ (by norm_num) (by norm_num) (transpose_one)]
    intro h
    have := h (fun _ => 1) (by intro h; have := congrFun h 0; simp at this)
    rw [one_mulVec] at this
    linarith

/-! ### C21 -/

/-- At most one positive semidefinite root. -/
theorem psd_root_unique {n : ℕ} {S T : Matrix (Fin n) (Fin n) ℝ} (hS : IsPSD S) (hT : IsPSD T)
    (h : S * S = T * T) : S = T := by
  obtain ⟨d, V, _, hV, hE⟩ := exists_eigh T hT.1
  have key : S * V = V * diagonal d := by
    ext i j
    let v : Fin n → ℝ := fun k => V k j
    have hv1 : v ⬝ᵥ v = 1 := by
      have h := congrFun (congrFun hV j) j
      rw [mul_apply, one_apply_eq] at h
      rw [← h]; rfl
    have hv2 : T *ᵥ v = d j • v := by
      funext k
      have h := congrFun (congrFun hE k) j
      rw [mul_diagonal] at h
      rw [Pi.smul_apply, smul_eq_mul, mul_comm, ← h]
      rfl
    have hd : 0 ≤ d j := by
      have := hT.2 v
      rw [hv2, dotProduct_smul, hv1] at this
      simpa using this
    have hSS : S *ᵥ (S *ᵥ v) = (d j * d j) • v := by
      rw [mulVec_mulVec, h, ← mulVec_mulVec, hv2, mulVec_smul, hv2, smul_smul]
    have hSv : S *ᵥ v = d j • v := by
      let w := S *ᵥ v - d j • v
      have hw : S *ᵥ w = -(d j) • w := by
        simp only [w]
        rw [mulVec_sub, hSS, mulVec_smul, smul_sub, smul_smul, neg_smul, neg_mul, neg_smul]
        abel
      have hw2 := hS.2 w
      rw [hw, dotProduct_smul, smul_eq_mul] at hw2
      by_cases hw0 : w = 0
      · exact sub_eq_zero.mp hw0
      · have hpos := dot_self_pos hw0
        have hd0 : d j = 0 := by nlinarith
        -- then `S (S v) = 0`, hence `S v = 0`
        have h0 : (S *ᵥ v) ⬝ᵥ (S *ᵥ v) = 0 := by
          rw [dotProduct_mulVec, ← mulVec_transpose, hS.1, hSS, hd0]
          simp
        by_contra hne
        have : S *ᵥ v ≠ 0 := by
          intro h0'
          apply hne
          rw [h0', hd0, zero_smul]
        exact absurd h0 (ne_of_gt (dot_self_pos this))
    have := congrFun hSv i
    rw [Pi.smul_apply, smul_eq_mul] at this
    rw [mul_diagonal, mul_comm, ← this]
    rfl
  have h3 : S * V = T * V := by rw [key, hE]
  have := congrArg (· * Vᵀ) h3
  simp only [Matrix.mul_assoc, orth_comm hV, Matrix.mul_one] at this
  exact this

/-- `P` is the positive part of `Q`: `Q = P - N` with `P`, `N` positive semidefinite and `P N = 0`. -/
def IsPosPart {n : ℕ} (Q P : Matrix (Fin n) (Fin n) ℝ) : Prop :=
  IsPSD P ∧ IsPSD (P - Q) ∧ P * (P - Q) = 0

theorem psd_conj {m n : ℕ} (V : Matrix (Fin m) (Fin n) ℝ) {d : Fin n → ℝ} (hd : ∀ i, 0 ≤ d i) :
    IsPSD (V * diagonal d * Vᵀ) := by
  constructor
  · rw [transpose_mul, transpose_mul, transpose_transpose, diagonal_transpose, Matrix.mul_assoc]
  · intro x
    rw [quad_conj, quad_diag]
    exact Finset.sum_nonneg (fun i _ => mul_nonneg (hd i) (sq_nonneg _))

theorem conj_mul {n : ℕ} {V : Matrix (Fin n) (Fin n) ℝ} (hV : Vᵀ * V = 1) (d e : Fin n → ℝ) :
    (V * diagonal d * Vᵀ) * (V * diagonal e * Vᵀ) = V * diagonal (fun i => d i * e i) * Vᵀ := by
  calc (V * diagonal d * Vᵀ) * (V * diagonal e * Vᵀ) = V * diagonal d * (Vᵀ * V) * diagonal e * Vᵀ := by
        simp only [Matrix.mul_assoc]
    _ = V * (diagonal d * diagonal e) * Vᵀ := by rw [hV, Matrix.mul_one]; simp only [Matrix.mul_assoc]
    _ = _ := by rw [diagonal_mul_diagonal]

/-- **C21**: which arguments are rejected. -/
theorem C21_raises_iff (E : Eigh) {n : ℕ} (Q : Matrix (Fin n) (Fin n) ℝ) (tol : ℝ) :
    Raises (sqrtmPos E Q tol) ↔
      tol < 0 ∨ ¬ SymmWithin Q tol ∨ ∃ x : Fin n → ℝ, x ⬝ᵥ lowerSym Q *ᵥ x < -tol * (x ⬝ᵥ x) := by
  unfold sqrtmPos
  by_cases ht : tol < 0
  · rw [if_pos ht]; simp only [ht, true_or, iff_true]; exact ⟨_, rfl⟩
  rw [if_neg ht]
  by_cases hs : SymmWithin Q tol
  · rw [isMatSymm_of_within (not_lt.mp ht) hs]
    have key := not_congr (E.le_vals_iff Q (-tol))
    push Not at key
    simp only [ht, hs, not_true, false_or, ← key]
    split_ifs with h
    · exact iff_of_true ⟨_, rfl⟩ h
    · exact iff_of_false (by rintro ⟨e, he⟩; cases he) h
  · rw [isMatSymm_of_not_within (not_lt.mp ht) hs]
    simp only [hs, not_false_iff, true_or, or_true, iff_true]
    exact ⟨_, rfl⟩

/-- **C21** for the tolerance case: the result is the root of the positive part (of the symmetric matrix with
the same lower triangle). -/
theorem C21_tol (E : Eigh) {n : ℕ} (Q S : Matrix (Fin n) (Fin n) ℝ) (tol : ℝ) (h : sqrtmPos E Q tol = .ok S) :
    IsPSD S ∧ IsPosPart (lowerSym Q) (S * S) := by
  unfold sqrtmPos throwErr at h
  by_cases ht : tol < 0
  · rw [if_pos ht] at h; cases h
  rw [if_neg ht] at h
  by_cases hs : SymmWithin Q tol
  swap
  · rw [isMatSymm_of_not_within (not_lt.mp ht) hs] at h; cases h
  rw [isMatSymm_of_within (not_lt.mp ht) hs] at h
  simp only at h
  by_cases hd : ∃ i, E.vals Q i < -tol
  · rw [if_pos hd] at h; cases h
  rw [if_neg hd] at h
  injection h with h
  subst h
  let d' : Fin n → ℝ := fun i => if E.vals Q i < 0 then 0 else E.vals Q i
  have hd' : ∀ i, 0 ≤ d' i := by
    intro i; simp only [d']; split_ifs with h
    · exact le_refl _
    · exact not_lt.mp h
  have hSS : (E.vecs Q * diagonal (fun i => Real.sqrt (d' i)) * (E.vecs Q)ᵀ) *
      (E.vecs Q * diagonal (fun i => Real.sqrt (d' i)) * (E.vecs Q)ᵀ) = E.vecs Q * diagonal d' * (E.vecs Q)ᵀ := by
    rw [conj_mul (E.orth Q)]
    congr 3
    funext i
    exact Real.mul_self_sqrt (hd' i)
  have hdiff : E.vecs Q * diagonal d' * (E.vecs Q)ᵀ - lowerSym Q =
      E.vecs Q * diagonal (fun i => d' i - E.vals Q i) * (E.vecs Q)ᵀ := by
    conv_lhs => rw [E.decomp Q]
    rw [← Matrix.sub_mul, ← Matrix.mul_sub, diagonal_sub]
  refine ⟨psd_conj _ (fun i => Real.sqrt_nonneg _), ?_⟩
  rw [IsPosPart, hSS, hdiff]
  refine ⟨psd_conj _ hd', psd_conj _ ?_, ?_⟩
  · intro i
    simp only [d']; split_ifs with h
    · linarith
    · linarith
  · rw [conj_mul (E.orth Q)]
    have : (fun i => d' i * (d' i - E.vals Q i)) = fun _ => (0:ℝ) := by
      funext i
      simp only [d']; split_ifs <;> ring
    rw [this, diagonal_zero, Matrix.mul_zero, Matrix.zero_mul]

/-- **C21**: the root of a positive semidefinite matrix; it is the only one, so it does not depend on the
eigenvectors the backend chose. -/
theorem C21_root (E : Eigh) {n : ℕ} (Q : Matrix (Fin n) (Fin n) ℝ) (tol : ℝ) (ht : 0 ≤ tol) (hQ : IsPSD Q) :
    ∃ S, sqrtmPos E Q tol = .ok S ∧ IsPSD S ∧ S * S = Q ∧ ∀ S', IsPSD S' → S' * S' = Q → S' = S := by
  have hno : ¬ Raises (sqrtmPos E Q tol) := by
    rw [C21_raises_iff]
    push Not
    refine ⟨ht, symmWithin_of_symm hQ.1 ht, fun x => ?_⟩
    rw [lowerSym_of_symm hQ.1]
    have := hQ.2 x
    have := dot_self_nonneg x
    nlinarith
  cases h : sqrtmPos E Q tol with
  | error e => exact absurd ⟨e, h⟩ hno
  | ok S =>
    obtain ⟨h1, h2, h3, h4⟩ := C21_tol E Q S tol h
    rw [lowerSym_of_symm hQ.1] at h3 h4
    have hSS : S * S = Q := by
      -- `P (P - Q) = 0` with `Q`, `P - Q` psd forces `P = Q`
      set P := S * S
      -- use y = (P - Q) x in the quadratic forms
      have hz : ∀ x : Fin n → ℝ, (P - Q) *ᵥ ((P - Q) *ᵥ x) = 0 := by
        intro x
        by_contra hne
        set y := (P - Q) *ᵥ x
        have hPy : P *ᵥ y = 0 := by rw [mulVec_mulVec, h4, zero_mulVec]
        have e1 : y ⬝ᵥ (P - Q) *ᵥ y = - (y ⬝ᵥ Q *ᵥ y) := by
          rw [sub_mulVec (A := P), hPy, zero_sub, dotProduct_neg]
        have e2 := h3.2 y
        have e3 := hQ.2 y
        have e4 : y ⬝ᵥ (P - Q) *ᵥ y = 0 := by linarith
        -- psd form zero implies kernel
        obtain ⟨d, V, _, hV, hE⟩ := exists_eigh (P - Q) h3.1
        have hdec : P - Q = V * diagonal d * Vᵀ := by
          rw [← hE, Matrix.mul_assoc, orth_comm hV, Matrix.mul_one]
        have hd : ∀ i, 0 ≤ d i := by
          intro i
          have := h3.2 (V *ᵥ Pi.single i 1)
          rw [hdec, quad_conj, mulVec_mulVec, hV, one_mulVec, quad_diag] at this
          simpa [Pi.single_apply] using this
        rw [hdec, quad_conj, quad_diag, Finset.sum_eq_zero_iff_of_nonneg
          (fun i _ => mul_nonneg (hd i) (sq_nonneg _))] at e4
        apply hne
        rw [hdec, ← mulVec_mulVec, ← mulVec_mulVec]
        have : diagonal d *ᵥ (Vᵀ *ᵥ y) = 0 := by
          funext i
          rw [mulVec_diagonal]
          rcases mul_eq_zero.mp (e4 i (Finset.mem_univ _)) with h | h
          · rw [h, zero_mul]; rfl
          · rw [pow_eq_zero_iff two_ne_zero] at h
            rw [h, mul_zero]; rfl
        rw [this, mulVec_zero]
      have hzero : P - Q = 0 := by
        ext i j
        have h0 : ((P - Q) *ᵥ Pi.single j 1) ⬝ᵥ ((P - Q) *ᵥ Pi.single j 1) = 0 := by
          rw [dotProduct_mulVec, ← mulVec_transpose, h3.1, hz, zero_dotProduct]
        have h1 : (P - Q) *ᵥ Pi.single j 1 = 0 := by
          by_contra hne
          exact absurd h0 (ne_of_gt (dot_self_pos hne))
        have := congrFun h1 i
        simpa using this
      exact sub_eq_zero.mp hzero
    exact ⟨S, rfl, h1, hSS, fun S' hS' hS'S' => psd_root_unique hS' h1 (hS'S'.trans hSS.symm)⟩

/-- The root of `diag(4, 9)` is `diag(2, 3)`. -/
example (E : Eigh) : sqrtmPos E (diagonal ![4, 9]) 0 = .ok (diagonal ![2, 3]) := by
  have hp : ∀ a b : ℝ, 0 ≤ a → 0 ≤ b → IsPSD (diagonal ![a, b]) := by
    intro a b ha hb
    refine ⟨diagonal_transpose _, fun x => ?_⟩
    rw [quad_diag]
    refine Finset.sum_nonneg (fun i _ => mul_nonneg ?_ (sq_nonneg _))
    fin_cases i
    · exact ha
    · exact hb
  obtain ⟨S, h1, _, _, h4⟩ := C21_root E (diagonal ![4, 9]) 0 le_rfl (hp 4 9 (by norm_num) (by norm_num))
  rw [h1, h4 (diagonal ![2, 3]) (hp 2 3 (by norm_num) (by norm_num))]
  rw [diagonal_mul_diagonal]
  congr 1
  funext i
  fin_cases i <;> norm_num

end Ellipy.LA
