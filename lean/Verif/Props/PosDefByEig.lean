import Verif.Model.SquareMatVector
import Verif.Props.LaPosDef

/-! Property theorem C19 (`make_pos_definite_by_eig`). -/

namespace Ellipy.MV
open Matrix Ellipy.LA

theorem posDefByEig1_eq (E : Eigh) {n : ℕ} {Q : Matrix (Fin n) (Fin n) ℝ} (hs : Qᵀ = Q) (value : ℝ) :
    posDefByEig1 E Q value = .ok (E.vecs Q * diagonal (fun i => if E.vals Q i < 0 then value else E.vals Q i) * (E.vecs Q)ᵀ) := by
  unfold posDefByEig1
  rw [isMatSymm_zero, decide_eq_true hs]

/-- **C19**: exactly the batches with an asymmetric slice are rejected. -/
theorem C19_raises_iff (E : Eigh) {n T : ℕ} (Q : Fin T → Matrix (Fin n) (Fin n) ℝ) (value : ℝ) :
    Raises (posDefByEig E Q value) ↔ ∃ t, (Q t)ᵀ ≠ Q t := by
  unfold posDefByEig
  rw [pyAll_raises]
  refine exists_congr (fun t => ?_)
  by_cases h : (Q t)ᵀ = Q t
  · rw [posDefByEig1_eq E h]
    exact iff_of_false (by rintro ⟨e, he⟩; cases he) (fun h' => h' h)
  · refine iff_of_true ?_ h
    unfold posDefByEig1
    rw [isMatSymm_zero, decide_eq_false h]
    exact ⟨_, rfl⟩

theorem byEig_slice (E : Eigh) {n T : ℕ} {Q R : Fin T → Matrix (Fin n) (Fin n) ℝ} {value : ℝ} (h : posDefByEig E Q value = .ok R) (t : Fin T) :
    (Q t)ᵀ = Q t ∧ R t = E.vecs (Q t) * diagonal (fun i => if E.vals (Q t) i < 0 then value else E.vals (Q t) i) * (E.vecs (Q t))ᵀ := by
  have hs : (Q t)ᵀ = Q t := by
    by_contra hn
    obtain ⟨e, he⟩ := (C19_raises_iff E Q value).mpr ⟨t, hn⟩
    rw [h] at he; cases he
  refine ⟨hs, ?_⟩
  have := (pyAll_ok _ _).mp h t
  rw [posDefByEig1_eq E hs] at this
  injection this with this
  exact this.symm

/-- **C19**: eigenvectors are kept; the eigenvalue stays when it is non-negative and becomes `value` when it is negative. -/
theorem C19_eigenpairs (E : Eigh) {n T : ℕ} {Q R : Fin T → Matrix (Fin n) (Fin n) ℝ} {value : ℝ} (h : posDefByEig E Q value = .ok R) (t : Fin T)
    (x : Fin n → ℝ) (lam : ℝ) (hx : Q t *ᵥ x = lam • x) :
    R t *ᵥ x = (if lam < 0 then value else lam) • x := by
  obtain ⟨hs, hR⟩ := byEig_slice E h t
  have hV := E.orth (Q t)
  have hV' := orth_comm hV
  set V := E.vecs (Q t)
  set d := E.vals (Q t)
  set y := Vᵀ *ᵥ x with hy
  have hxy : x = V *ᵥ y := by rw [hy, mulVec_mulVec, hV', one_mulVec]
  have hdy : ∀ i, d i * y i = lam * y i := by
    intro i
    have h1 : Vᵀ *ᵥ (Q t *ᵥ x) = lam • y := by rw [hx, mulVec_smul]
    have hdec : Q t = V * diagonal d * Vᵀ := by rw [← E.decomp, lowerSym_of_symm hs]
    rw [hdec, ← mulVec_mulVec, ← mulVec_mulVec, mulVec_mulVec _ Vᵀ V, hV, one_mulVec] at h1
    have h2 := congrFun h1 i
    rw [mulVec_diagonal] at h2
    exact h2
  have hfy : ∀ i, (if d i < 0 then value else d i) * y i = (if lam < 0 then value else lam) * y i := by
    intro i
    by_cases h0 : y i = 0
    · rw [h0]; simp
    · have : d i = lam := mul_right_cancel₀ h0 (hdy i)
      rw [this]
  rw [hR, ← mulVec_mulVec, ← mulVec_mulVec]
  have : diagonal (fun i => if d i < 0 then value else d i) *ᵥ (Vᵀ *ᵥ x) = (if lam < 0 then value else lam) • y := by
    funext i
    rw [mulVec_diagonal]
    exact hfy i
  rw [this, mulVec_smul, ← hxy]

/-- **C19**: for `value ≥ 0` every slice of the result is symmetric positive semidefinite. -/
theorem C19_psd (E : Eigh) {n T : ℕ} {Q R : Fin T → Matrix (Fin n) (Fin n) ℝ} {value : ℝ} (h : posDefByEig E Q value = .ok R) (t : Fin T)
    (hv : 0 ≤ value) : IsPSD (R t) := by
  obtain ⟨_, hR⟩ := byEig_slice E h t
  rw [hR]
  apply psd_conj
  intro i
  split_ifs with h0
  · exact hv
  · exact not_lt.mp h0

/-- **C19**: slices that are already positive semidefinite come back unchanged. -/
theorem C19_fixed (E : Eigh) {n T : ℕ} {Q R : Fin T → Matrix (Fin n) (Fin n) ℝ} {value : ℝ} (h : posDefByEig E Q value = .ok R) (t : Fin T)
    (hp : IsPSD (Q t)) : R t = Q t := by
  obtain ⟨hs, hR⟩ := byEig_slice E h t
  have hd : ∀ i, 0 ≤ E.vals (Q t) i := (E.le_vals_iff (Q t) 0).mpr (fun x => by
    rw [zero_mul, lowerSym_of_symm hs]; exact hp.2 x)
  rw [hR]
  have : (fun i => if E.vals (Q t) i < 0 then value else E.vals (Q t) i) = E.vals (Q t) := by
    funext i
    rw [if_neg (not_lt.mpr (hd i))]
  rw [this]
  rw [← E.decomp, lowerSym_of_symm hs]

/-- `diag(2, -1)` next to the identity: the negative eigenvalue becomes `value`, the identity stays. -/
example (E : Eigh) : ∃ R, posDefByEig E ![diagonal ![2, -1], (1 : Matrix (Fin 2) (Fin 2) ℝ)] (1 / 2) = .ok R ∧
    R 0 *ᵥ ![0, 1] = (1 / 2 : ℝ) • ![0, 1] ∧ R 0 *ᵥ ![1, 0] = (2 : ℝ) • ![1, 0] ∧ R 1 = 1 ∧ IsPSD (R 0) := by
  have hok : ¬ Raises (posDefByEig E ![diagonal ![2, -1], (1 : Matrix (Fin 2) (Fin 2) ℝ)] (1 / 2)) := by
    rw [C19_raises_iff]
    rintro ⟨t, ht⟩
    apply ht
    fin_cases t
    · exact diagonal_transpose _
    · exact transpose_one
  cases hR : posDefByEig E ![diagonal ![2, -1], (1 : Matrix (Fin 2) (Fin 2) ℝ)] (1 / 2) with
  | error e => exact absurd ⟨e, hR⟩ hok
  | ok R =>
    refine ⟨R, rfl, ?_, ?_, ?_, C19_psd E hR 0 (by norm_num)⟩
    · have := C19_eigenpairs E hR 0 ![0, 1] (-1) (by
        funext i
        fin_cases i <;> simp [mulVec_diagonal])
      rw [this, if_pos (by norm_num)]
    · have := C19_eigenpairs E hR 0 ![1, 0] 2 (by
        funext i
        fin_cases i <;> simp [mulVec_diagonal])
      rw [this, if_neg (by norm_num)]
    · exact C19_fixed E hR 1 ⟨transpose_one, fun x => by
        show 0 ≤ x ⬝ᵥ (1 : Matrix (Fin 2) (Fin 2) ℝ) *ᵥ x
        rw [one_mulVec]; exact dot_self_nonneg x⟩

end Ellipy.MV
