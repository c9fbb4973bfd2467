import Verif.Model.SquareMatVector
import Verif.Props.LaPosDef

/-! Property theorems C92 (`SquareMatVector.inv`, `make_pos_definite_or_nan`) and C93 (`SquareMatVector.sqrtm_pos`). -/

namespace Ellipy.MV
open Matrix Ellipy.LA

/-! ### C92 -/

/-- **C92** (`inv`): exactly the batches with a singular slice are rejected; a slice is singular when some non-zero vector is
mapped to zero. -/
theorem C92_inv_raises_iff {n T : ℕ} (Q : Fin T → Matrix (Fin n) (Fin n) ℝ) :
    Raises (invBatch Q) ↔ ∃ t, ∃ x : Fin n → ℝ, x ≠ 0 ∧ Q t *ᵥ x = 0 := by
  unfold invBatch
  rw [pyAll_raises]
  refine exists_congr (fun t => ?_)
  rw [exists_mulVec_eq_zero_iff]
  unfold inv1
  by_cases h : (Q t).det = 0
  · rw [if_pos h]; exact iff_of_true ⟨_, rfl⟩ h
  · rw [if_neg h]; exact iff_of_false (by rintro ⟨e, he⟩; cases he) h

/-- **C92** (`inv`): every slice of the result is the two-sided inverse of the slice of the argument. -/
theorem C92_inv {n T : ℕ} (Q R : Fin T → Matrix (Fin n) (Fin n) ℝ) (h : invBatch Q = .ok R) (t : Fin T) :
    Q t * R t = 1 ∧ R t * Q t = 1 := by
  have := (pyAll_ok _ _).mp h t
  unfold inv1 at this
  by_cases h0 : (Q t).det = 0
  · rw [if_pos h0] at this; cases this
  · rw [if_neg h0] at this
    injection this with this
    rw [← this]
    exact ⟨mul_nonsing_inv _ (IsUnit.mk0 _ h0), nonsing_inv_mul _ (IsUnit.mk0 _ h0)⟩

/-- **C92** (`inv`): inverting twice gives the batch back. -/
theorem C92_inv_twice {n T : ℕ} (Q R : Fin T → Matrix (Fin n) (Fin n) ℝ) (h : invBatch Q = .ok R) : invBatch R = .ok Q := by
  unfold invBatch
  rw [pyAll_ok]
  intro t
  obtain ⟨h1, h2⟩ := C92_inv Q R h t
  unfold inv1
  have hd : (R t).det ≠ 0 := by
    intro h0
    have := congrArg det h2
    rw [det_mul, h0, zero_mul, det_one] at this
    exact zero_ne_one this
  rw [if_neg hd, inv_eq_right_inv h2]

/-- **C92** (`make_pos_definite_or_nan`): only a batch of empty matrices is rejected. -/
theorem C92_or_nan_raises_iff (E : Eigh) {n T : ℕ} (Q : Fin T → Matrix (Fin n) (Fin n) ℝ) :
    Raises (posDefOrNan E Q) ↔ n = 0 ∧ 0 < T := by
  unfold posDefOrNan
  rw [pyAll_raises]
  have key : ∀ t, Raises (posDefOrNan1 E (Q t)) ↔ n = 0 := by
    intro t
    unfold posDefOrNan1
    rcases min?_ofFn (E.vals (Q t)) with ⟨h0, h⟩ | ⟨i, h, hi⟩
    · rw [h]; exact iff_of_true ⟨_, rfl⟩ h0
    · rw [h]
      refine iff_of_false ?_ (by rintro rfl; exact i.elim0)
      rintro ⟨e, he⟩
      simp only at he
      split_ifs at he
  simp only [key]
  exact ⟨fun ⟨t, h⟩ => ⟨h, t.pos⟩, fun ⟨h, hT⟩ => ⟨⟨0, hT⟩, h⟩⟩

/-- **C92** (`make_pos_definite_or_nan`): a slice comes back unchanged when the quadratic form of the symmetric matrix with the
same lower triangle is non-negative, and is replaced by NaNs otherwise. -/
theorem C92_or_nan (E : Eigh) {n T : ℕ} (Q : Fin T → Matrix (Fin n) (Fin n) ℝ) (R : Fin T → Option (Matrix (Fin n) (Fin n) ℝ))
    (h : posDefOrNan E Q = .ok R) (t : Fin T) :
    ((∀ x : Fin n → ℝ, 0 ≤ x ⬝ᵥ lowerSym (Q t) *ᵥ x) → R t = some (Q t)) ∧
    ((∃ x : Fin n → ℝ, x ⬝ᵥ lowerSym (Q t) *ᵥ x < 0) → R t = none) := by
  have h1 := (pyAll_ok _ _).mp h t
  have key := E.le_vals_iff (Q t) 0
  simp only [zero_mul] at key
  unfold posDefOrNan1 at h1
  rcases min?_ofFn (E.vals (Q t)) with ⟨h0, h2⟩ | ⟨i, h2, hi⟩
  · rw [h2] at h1; cases h1
  rw [h2] at h1
  simp only at h1
  by_cases hneg : E.vals (Q t) i < 0
  · rw [if_pos hneg] at h1
    injection h1 with h1
    refine ⟨fun hx => absurd (key.mpr hx i) (not_le.mpr hneg), fun _ => h1.symm⟩
  · rw [if_neg hneg] at h1
    injection h1 with h1
    refine ⟨fun _ => h1.symm, fun ⟨x, hx⟩ => absurd (key.mp (fun j => (not_lt.mp hneg).trans (hi j)) x) (not_le.mpr hx)⟩

/-- **C92** for symmetric slices: the slice itself is positive semidefinite or it is replaced. -/
theorem C92_or_nan_symm (E : Eigh) {n T : ℕ} (Q : Fin T → Matrix (Fin n) (Fin n) ℝ) (R : Fin T → Option (Matrix (Fin n) (Fin n) ℝ))
    (h : posDefOrNan E Q = .ok R) (t : Fin T) (hs : (Q t)ᵀ = Q t) :
    (IsPSD (Q t) → R t = some (Q t)) ∧ (¬ IsPSD (Q t) → R t = none) := by
  obtain ⟨h1, h2⟩ := C92_or_nan E Q R h t
  rw [lowerSym_of_symm hs] at h1 h2
  refine ⟨fun hp => h1 hp.2, fun hn => h2 ?_⟩
  by_contra hc
  push Not at hc
  exact hn ⟨hs, hc⟩

/-- There is no test of symmetry: a matrix that is not positive semidefinite, nor symmetric, can come back as it is. -/
theorem C92_or_nan_asymmetric : ∃ Q : Matrix (Fin 2) (Fin 2) ℝ, Qᵀ ≠ Q ∧ (∃ x : Fin 2 → ℝ, x ⬝ᵥ Q *ᵥ x < 0) ∧
    ∀ E : Eigh, posDefOrNan E ![Q] = .ok ![some Q] := by
  refine ⟨!![1, 4; 0, 1], ?_, ⟨![1, -1], ?_⟩, fun E => ?_⟩
  · intro h
    have := congrFun (congrFun h 0) 1
    simp at this
  · simp [dotProduct, mulVec, Fin.sum_univ_two]; norm_num
  · cases hR : posDefOrNan E ![!![(1 : ℝ), 4; 0, 1]] with
    | error e =>
      have := (C92_or_nan_raises_iff E ![!![(1 : ℝ), 4; 0, 1]]).mp ⟨e, hR⟩
      exact absurd this.1 (by norm_num)
    | ok R =>
      congr 1
      funext t
      have ht : t = 0 := Subsingleton.elim _ _
      subst ht
      refine (C92_or_nan E _ R hR 0).1 fun x => ?_
      have : lowerSym (![!![(1 : ℝ), 4; 0, 1]] 0) = 1 := by
        ext i j; fin_cases i <;> fin_cases j <;> simp [lowerSym]
      rw [this, one_mulVec]
      exact dot_self_nonneg x

/-- `diag(2, 4)` and a shear have inverses; `diag(1, 0)` has none. -/
example : ∃ R, invBatch ![diagonal ![2, 4], (!![1, 1; 0, 1] : Matrix (Fin 2) (Fin 2) ℝ)] = .ok R ∧
    R 0 = diagonal ![1 / 2, 1 / 4] ∧ R 1 = !![1, -1; 0, 1] := by
  have hok : ¬ Raises (invBatch ![diagonal ![2, 4], (!![1, 1; 0, 1] : Matrix (Fin 2) (Fin 2) ℝ)]) := by
    rw [C92_inv_raises_iff]
    rintro ⟨t, x, hx, h⟩
    apply hx
    have h0 := congrFun h 0
    have h1 := congrFun h 1
    fin_cases t
    · simp [mulVec_diagonal] at h0 h1
      funext i; fin_cases i <;> simp [h0, h1]
    · simp [mulVec, dotProduct, Fin.sum_univ_two] at h0 h1
      funext i; fin_cases i
      · show x 0 = 0
        rw [h1, add_zero] at h0
        exact h0
      · exact h1
  cases hR : invBatch ![diagonal ![2, 4], (!![1, 1; 0, 1] : Matrix (Fin 2) (Fin 2) ℝ)] with
  | error e => exact absurd ⟨e, hR⟩ hok
  | ok R =>
    have h0 := (C92_inv _ R hR 0).1
    have h1 := (C92_inv _ R hR 1).1
    refine ⟨R, rfl, ?_, ?_⟩
    · refine (left_inv_eq_right_inv (a := diagonal ![2, 4]) ?_ h0).symm
      rw [diagonal_mul_diagonal, ← diagonal_one]
      congr 1; funext i; fin_cases i <;> norm_num
    · refine (left_inv_eq_right_inv (a := !![1, 1; 0, 1]) ?_ h1).symm
      ext i j; fin_cases i <;> fin_cases j <;> simp [mul_apply, Fin.sum_univ_two]

example : Raises (invBatch ![(1 : Matrix (Fin 2) (Fin 2) ℝ), diagonal ![1, 0]]) := by
  rw [C92_inv_raises_iff]
  refine ⟨1, ![0, 1], fun h => by simpa using congrFun h 1, ?_⟩
  funext i; fin_cases i <;> simp [mulVec_diagonal]

/-- The identity stays, `diag(1, -1)` becomes NaN. -/
example (E : Eigh) : ∃ R, posDefOrNan E ![(1 : Matrix (Fin 2) (Fin 2) ℝ), diagonal ![1, -1]] = .ok R ∧ R 0 = some 1 ∧ R 1 = none := by
  cases hR : posDefOrNan E ![(1 : Matrix (Fin 2) (Fin 2) ℝ), diagonal ![1, -1]] with
  | error e => exact absurd ((C92_or_nan_raises_iff E _).mp ⟨e, hR⟩).1 (by norm_num)
  | ok R =>
    refine ⟨R, rfl, (C92_or_nan_symm E _ R hR 0 transpose_one).1 ⟨transpose_one, fun x => ?_⟩,
      (C92_or_nan_symm E _ R hR 1 (diagonal_transpose _)).2 fun hp => ?_⟩
    · show 0 ≤ x ⬝ᵥ (1 : Matrix (Fin 2) (Fin 2) ℝ) *ᵥ x
      rw [one_mulVec]; exact dot_self_nonneg x
    · have := hp.2 ![0, 1]
      simp [dotProduct, mulVec_diagonal, Fin.sum_univ_two] at this
      norm_num at this

/-! ### C93 -/

/-- **C93**: exactly the batches with a slice that is not positive semidefinite are rejected.  The full claim has no
assumption `n ≠ 1`; see `C93_one_by_one`. -/
theorem C93_raises_iff_partial (E : Eigh) {n T : ℕ} (hn : n ≠ 1) (Q : Fin T → Matrix (Fin n) (Fin n) ℝ) :
    Raises (sqrtmBatch E Q) ↔ ∃ t, ¬ IsPSD (Q t) := by
  unfold sqrtmBatch
  rw [pyAll_raises]
  refine exists_congr (fun t => ?_)
  rw [if_neg hn, C21_raises_iff]
  have hsym : SymmWithin (Q t) 0 ↔ (Q t)ᵀ = Q t := by
    unfold SymmWithin
    constructor
    · intro h
      ext i j
      have := h j i
      rw [abs_nonpos_iff, sub_eq_zero] at this
      exact this
    · exact fun h => symmWithin_of_symm h le_rfl
  simp only [lt_irrefl, false_or, neg_zero, zero_mul, hsym]
  constructor
  · rintro (h | ⟨x, hx⟩) hp
    · exact h hp.1
    · rw [lowerSym_of_symm hp.1] at hx
      exact absurd (hp.2 x) (not_le.mpr hx)
  · intro hp
    by_cases hs : (Q t)ᵀ = Q t
    · right
      rw [lowerSym_of_symm hs]
      by_contra hc
      push Not at hc
      exact hp ⟨hs, hc⟩
    · exact Or.inl hs

/-- **C93**: every slice of the result is the positive semidefinite square root of the slice of the argument; it is the only one. -/
theorem C93_root_partial (E : Eigh) {n T : ℕ} (Q S : Fin T → Matrix (Fin n) (Fin n) ℝ) (h : sqrtmBatch E Q = .ok S) (t : Fin T) :
    IsPSD (S t) ∧ S t * S t = Q t ∧ ∀ P, IsPSD P → P * P = Q t → P = S t := by
  have hn : n ≠ 1 := by
    intro hn
    have := (pyAll_ok _ _).mp h t
    rw [if_pos hn] at this; cases this
  have hp : IsPSD (Q t) := by
    by_contra hc
    obtain ⟨e, he⟩ := (C93_raises_iff_partial E hn Q).mpr ⟨t, hc⟩
    rw [h] at he; cases he
  have h1 := (pyAll_ok _ _).mp h t
  rw [if_neg hn] at h1
  obtain ⟨S', hS', h2⟩ := C21_root E (Q t) 0 le_rfl hp
  rw [h1] at hS'
  injection hS' with hS'
  rw [hS']
  exact h2

/-- The roots of `diag(4, 9)` and of the identity; `diag(1, -1)` has none. -/
example (E : Eigh) : sqrtmBatch E ![diagonal ![4, 9], (1 : Matrix (Fin 2) (Fin 2) ℝ)] = .ok ![diagonal ![2, 3], 1] ∧
    Raises (sqrtmBatch E ![(1 : Matrix (Fin 2) (Fin 2) ℝ), diagonal ![1, -1]]) := by
  have hp : ∀ a b : ℝ, 0 ≤ a → 0 ≤ b → IsPSD (diagonal ![a, b]) := by
    intro a b ha hb
    refine ⟨diagonal_transpose _, fun x => ?_⟩
    rw [quad_diag]
    refine Finset.sum_nonneg (fun i _ => mul_nonneg ?_ (sq_nonneg _))
    fin_cases i
    · exact ha
    · exact hb
  have h1 : (1 : Matrix (Fin 2) (Fin 2) ℝ) = diagonal ![1, 1] := by
    rw [← diagonal_one]; congr 1; funext i; fin_cases i <;> rfl
  constructor
  · cases hR : sqrtmBatch E ![diagonal ![4, 9], (1 : Matrix (Fin 2) (Fin 2) ℝ)] with
    | error e =>
      obtain ⟨t, ht⟩ := (C93_raises_iff_partial E (by norm_num) _).mp ⟨e, hR⟩
      exfalso
      apply ht
      fin_cases t
      · exact hp 4 9 (by norm_num) (by norm_num)
      · show IsPSD (1 : Matrix (Fin 2) (Fin 2) ℝ)
        rw [h1]; exact hp 1 1 (by norm_num) (by norm_num)
    | ok R =>
      congr 1
      funext t
      have := (C93_root_partial E _ R hR t).2.2
      fin_cases t
      · refine (this (diagonal ![2, 3]) (hp 2 3 (by norm_num) (by norm_num)) ?_).symm
        show _ = diagonal ![4, 9]
        rw [diagonal_mul_diagonal]
        congr 1
        funext i
        fin_cases i <;> norm_num
      · refine (this 1 ?_ (Matrix.one_mul _)).symm
        rw [h1]; exact hp 1 1 (by norm_num) (by norm_num)
  · rw [C93_raises_iff_partial E (by norm_num)]
    refine ⟨1, fun h => ?_⟩
    have := h.2 ![0, 1]
    simp [dotProduct, mulVec_diagonal, Fin.sum_univ_two] at this
    norm_num at this

/-- **C93** fails for 1×1 slices: the batch that holds the matrix `(4)`, which has the root `(2)`, is rejected. -/
theorem C93_one_by_one (E : Eigh) : ∃ Q : Matrix (Fin 1) (Fin 1) ℝ, IsPSD Q ∧ (∃ S, IsPSD S ∧ S * S = Q) ∧ Raises (sqrtmBatch E ![Q]) := by
  have hpsd : ∀ a : ℝ, 0 ≤ a → IsPSD (diagonal fun _ : Fin 1 => a) := fun a ha =>
    ⟨diagonal_transpose _, fun x => by rw [quad_diag]; exact Finset.sum_nonneg fun i _ => mul_nonneg ha (sq_nonneg _)⟩
  refine ⟨diagonal fun _ => 4, hpsd 4 (by norm_num), ⟨diagonal fun _ => 2, hpsd 2 (by norm_num), ?_⟩, ?_⟩
  · rw [diagonal_mul_diagonal]; norm_num
  · unfold sqrtmBatch
    rw [pyAll_raises]
    exact ⟨0, _, rfl⟩

end Ellipy.MV
