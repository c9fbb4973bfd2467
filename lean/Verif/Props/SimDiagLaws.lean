import Verif.Props.Core
import Mathlib.LinearAlgebra.FiniteDimensional.Basic
import Mathlib.LinearAlgebra.Dimension.Constructions

/-! Property theorems C133: what the diagonal of `ell_sim_diag` says, and how the results of `ell_valign` fit together. -/

namespace Ellipy.Core
open Matrix Ellipy.LA

/-! ### Specification -/

/-- Positive definite, and not small compared with the tolerance. -/
def AboveTol {n : ℕ} (A : Matrix (Fin n) (Fin n) ℝ) (tol : ℝ) : Prop :=
  Aᵀ = A ∧ ∀ x : Fin n → ℝ, x ≠ 0 → tol * (x ⬝ᵥ x) < x ⬝ᵥ A *ᵥ x

/-- The form of `A` is nowhere larger than that of `B`. -/
def Below {n : ℕ} (A B : Matrix (Fin n) (Fin n) ℝ) : Prop := ∀ x : Fin n → ℝ, x ⬝ᵥ A *ᵥ x ≤ x ⬝ᵥ B *ᵥ x

/-- The call returns a matrix, which takes `A` to the identity and `B` to the diagonal matrix of `d`, in descending order. -/
def Diagonalises {n : ℕ} (r : Py (Matrix (Fin n) (Fin n) ℝ)) (A B : Matrix (Fin n) (Fin n) ℝ) (d : Fin n → ℝ) : Prop :=
  ∃ T, r = .ok T ∧ T * A * Tᵀ = 1 ∧ T * B * Tᵀ = diagonal d ∧ Antitone d

/-! ### Auxiliary facts -/

private theorem unit_of_one {n : ℕ} {A T : Matrix (Fin n) (Fin n) ℝ} (h : T * A * Tᵀ = 1) : IsUnit T.det := by
  have := congrArg det h
  rw [det_mul, det_mul, det_transpose, det_one] at this
  exact isUnit_iff_ne_zero.mpr fun h0 => by rw [h0] at this; simp at this

/-- The forms in the new coordinates. -/
private theorem form_new {n : ℕ} {B T : Matrix (Fin n) (Fin n) ℝ} {d : Fin n → ℝ} (h : T * B * Tᵀ = diagonal d) (y : Fin n → ℝ) :
    (Tᵀ *ᵥ y) ⬝ᵥ B *ᵥ (Tᵀ *ᵥ y) = ∑ i, d i * y i ^ 2 := by
  rw [← quad_diag, ← h, quad_conj]

private theorem form_one {n : ℕ} {A T : Matrix (Fin n) (Fin n) ℝ} (h : T * A * Tᵀ = 1) (y : Fin n → ℝ) :
    (Tᵀ *ᵥ y) ⬝ᵥ A *ᵥ (Tᵀ *ᵥ y) = ∑ i, y i ^ 2 := by
  rw [form_new (d := fun _ => 1) (by rw [h]; exact diagonal_one.symm)]
  simp

/-- Two families of vectors, one from the first `i` coordinates of one system and one from the last of another, have a common vector. -/
private theorem common {n : ℕ} {T T' : Matrix (Fin n) (Fin n) ℝ} (hT' : IsUnit T'.det) (i : Fin n) :
    ∃ y z : Fin n → ℝ, y ≠ 0 ∧ Tᵀ *ᵥ y = T'ᵀ *ᵥ z ∧ (∀ j, i < j → y j = 0) ∧ ∀ j, j < i → z j = 0 := by
  let F : ((Fin n → ℝ) × (Fin n → ℝ)) →ₗ[ℝ] (Fin n → ℝ) × ({j : Fin n // j ≠ i} → ℝ) :=
    { toFun := fun p => (Tᵀ *ᵥ p.1 - T'ᵀ *ᵥ p.2, fun j => if i < j.1 then p.1 j.1 else p.2 j.1)
      map_add' := fun p q => by
        refine Prod.ext ?_ ?_
        · show Tᵀ *ᵥ (p.1 + q.1) - T'ᵀ *ᵥ (p.2 + q.2) = (Tᵀ *ᵥ p.1 - T'ᵀ *ᵥ p.2) + (Tᵀ *ᵥ q.1 - T'ᵀ *ᵥ q.2)
          rw [mulVec_add, mulVec_add]; abel
        · funext j
          show (if i < j.1 then p.1 j.1 + q.1 j.1 else p.2 j.1 + q.2 j.1) = (if i < j.1 then p.1 j.1 else p.2 j.1) + (if i < j.1 then q.1 j.1 else q.2 j.1)
          split_ifs <;> rfl
      map_smul' := fun r p => by
        refine Prod.ext ?_ ?_
        · show Tᵀ *ᵥ (r • p.1) - T'ᵀ *ᵥ (r • p.2) = r • (Tᵀ *ᵥ p.1 - T'ᵀ *ᵥ p.2)
          rw [mulVec_smul, mulVec_smul, smul_sub]
        · funext j
          show (if i < j.1 then r * p.1 j.1 else r * p.2 j.1) = r * (if i < j.1 then p.1 j.1 else p.2 j.1)
          split_ifs <;> rfl }
  have hrank : Module.finrank ℝ ((Fin n → ℝ) × ({j : Fin n // j ≠ i} → ℝ)) < Module.finrank ℝ ((Fin n → ℝ) × (Fin n → ℝ)) := by
    rw [Module.finrank_prod, Module.finrank_prod, Module.finrank_fintype_fun_eq_card, Module.finrank_fintype_fun_eq_card, Fintype.card_fin]
    have : Fintype.card {j : Fin n // j ≠ i} < n := by
      have h := Fintype.card_subtype_lt (p := fun j : Fin n => j ≠ i) (x := i) (by simp)
      simpa using h
    omega
  obtain ⟨p, hp, hne⟩ := Submodule.exists_mem_ne_zero_of_ne_bot (LinearMap.ker_ne_bot_of_finrank_lt hrank : LinearMap.ker F ≠ ⊥)
  have hF : F p = 0 := hp
  have h1 : Tᵀ *ᵥ p.1 - T'ᵀ *ᵥ p.2 = 0 := congrArg Prod.fst hF
  have h2 : ∀ j : {j : Fin n // j ≠ i}, (if i < j.1 then p.1 j.1 else p.2 j.1) = 0 := fun j => congrFun (congrArg Prod.snd hF) j
  have h3 : Tᵀ *ᵥ p.1 = T'ᵀ *ᵥ p.2 := sub_eq_zero.mp h1
  refine ⟨p.1, p.2, fun h0 => hne ?_, h3, fun j hj => ?_, fun j hj => ?_⟩
  · have h4 : p.2 = 0 := by
      rw [h0, mulVec_zero] at h3
      have h5 : (T'ᵀ)⁻¹ *ᵥ (T'ᵀ *ᵥ p.2) = 0 := by rw [← h3, mulVec_zero]
      rwa [mulVec_mulVec, nonsing_inv_mul _ (by rwa [det_transpose]), one_mulVec] at h5
    exact Prod.ext h0 h4
  · have := h2 ⟨j, hj.ne'⟩
    rwa [if_pos hj] at this
  · have := h2 ⟨j, hj.ne⟩
    rwa [if_neg (not_lt.mpr hj.le)] at this

/-- Larger forms have larger diagonals. -/
private theorem diag_le {n : ℕ} {A B A' B' T T' : Matrix (Fin n) (Fin n) ℝ} {d d' : Fin n → ℝ} (h1 : T * A * Tᵀ = 1) (h2 : T * B * Tᵀ = diagonal d)
    (hd : Antitone d) (h1' : T' * A' * T'ᵀ = 1) (h2' : T' * B' * T'ᵀ = diagonal d') (hd' : Antitone d') (hd0 : A = A' ∨ ∀ i, 0 ≤ d' i) (hA : Below A' A) (hB : Below B B')
    (i : Fin n) : d i ≤ d' i := by
  obtain ⟨y, z, hy, hyz, hy0, hz0⟩ := common (T := T) (unit_of_one h1') i
  have e1 := form_one h1 y
  have e2 := form_new h2 y
  have e1' := form_one h1' z
  have e2' := form_new h2' z
  rw [← hyz] at e1' e2'
  have hpos : 0 < ∑ j, y j ^ 2 := by
    obtain ⟨j, hj⟩ := Function.ne_iff.mp hy
    exact Finset.sum_pos' (fun j _ => sq_nonneg _) ⟨j, Finset.mem_univ _, by have : y j ≠ 0 := hj; positivity⟩
  have low : d i * ∑ j, y j ^ 2 ≤ ∑ j, d j * y j ^ 2 := by
    rw [Finset.mul_sum]
    refine Finset.sum_le_sum (fun j _ => ?_)
    rcases lt_or_ge i j with h | h
    · rw [hy0 j h]; simp
    · exact mul_le_mul_of_nonneg_right (hd h) (sq_nonneg _)
  have high : ∑ j, d' j * z j ^ 2 ≤ d' i * ∑ j, z j ^ 2 := by
    rw [Finset.mul_sum]
    refine Finset.sum_le_sum (fun j _ => ?_)
    rcases lt_or_ge j i with h | h
    · rw [hz0 j h]; simp
    · exact mul_le_mul_of_nonneg_right (hd' h) (sq_nonneg _)
  have hAx := hA (Tᵀ *ᵥ y)
  have hBx := hB (Tᵀ *ᵥ y)
  rw [e1, e1'] at hAx
  rw [e2, e2'] at hBx
  have hlast : d' i * ∑ j, z j ^ 2 ≤ d' i * ∑ j, y j ^ 2 := by
    rcases hd0 with rfl | h
    · rw [e1] at e1'; rw [e1']
    · exact mul_le_mul_of_nonneg_left hAx (h i)
  exact le_of_mul_le_mul_right (low.trans (hBx.trans (high.trans hlast))) hpos

private theorem call (E : Eigh) (S : Svd) (L : Lstsq) {n : ℕ} (hn : n ≠ 0) {A B : Matrix (Fin n) (Fin n) ℝ} {tol : ℝ} (ht : 0 ≤ tol) (hA : AboveTol A tol) (hB : IsPSD B) :
    ∃ d, (∀ i, 0 ≤ d i) ∧ Diagonalises (ellSimDiag E S L A B tol) A B d := by
  obtain ⟨T, h1, h2, d, h3, h4, h5⟩ := C29 E S L hn A B tol ht hA.1 hA.2 hB
  exact ⟨d, h3, T, h1, h2, h5, h4⟩

/-! ### `ell_sim_diag` -/

/-- **C133**: larger second and smaller first matrices have larger diagonals, entry by entry, whatever routines are used in the two calls. -/
theorem C133_monotone (E E' : Eigh) (S S' : Svd) (L L' : Lstsq) {n : ℕ} (hn : n ≠ 0) (A B A' B' : Matrix (Fin n) (Fin n) ℝ) (tol tol' : ℝ) (ht : 0 ≤ tol)
    (ht' : 0 ≤ tol') (hA : AboveTol A tol) (hA' : AboveTol A' tol') (hB : IsPSD B) (hB' : IsPSD B') (hAA : Below A' A) (hBB : Below B B') :
    ∃ d d', Diagonalises (ellSimDiag E S L A B tol) A B d ∧ Diagonalises (ellSimDiag E' S' L' A' B' tol') A' B' d' ∧ ∀ i, d i ≤ d' i := by
  obtain ⟨d, h0, h⟩ := call E S L hn ht hA hB
  obtain ⟨d', h0', h'⟩ := call E' S' L' hn ht' hA' hB'
  refine ⟨d, d', h, h', fun i => ?_⟩
  obtain ⟨T, -, h1, h2, h3⟩ := h
  obtain ⟨T', -, h1', h2', h3'⟩ := h'
  exact diag_le h1 h2 h3 h1' h2' h3' (Or.inr h0') hAA hBB i

/-- **C133**: the diagonal is the same for all routines, and when both forms are written in other coordinates. -/
theorem C133_coordinates (E E' : Eigh) (S S' : Svd) (L L' : Lstsq) {n : ℕ} (hn : n ≠ 0) (A B M : Matrix (Fin n) (Fin n) ℝ) (tol tol' : ℝ) (ht : 0 ≤ tol)
    (ht' : 0 ≤ tol') (hM : IsUnit M.det) (hA : AboveTol A tol) (hA' : AboveTol (M * A * Mᵀ) tol') (hB : IsPSD B) :
    ∃ d, Diagonalises (ellSimDiag E S L A B tol) A B d ∧ Diagonalises (ellSimDiag E' S' L' (M * A * Mᵀ) (M * B * Mᵀ) tol') (M * A * Mᵀ) (M * B * Mᵀ) d := by
  obtain ⟨d, h0, h⟩ := call E S L hn ht hA hB
  have hB' : IsPSD (M * B * Mᵀ) := by
    refine ⟨by rw [transpose_mul, transpose_mul, transpose_transpose, hB.1, Matrix.mul_assoc], fun x => ?_⟩
    rw [quad_conj]; exact hB.2 _
  obtain ⟨d', h0', h'⟩ := call E' S' L' hn ht' hA' hB'
  refine ⟨d, h, ?_⟩
  obtain ⟨T, -, h1, h2, h3⟩ := h
  obtain ⟨T', hT', h1', h2', h3'⟩ := h'
  have g : ∀ C : Matrix (Fin n) (Fin n) ℝ, (T' * M) * C * (T' * M)ᵀ = T' * (M * C * Mᵀ) * T'ᵀ := fun C => by
    rw [transpose_mul]; simp only [Matrix.mul_assoc]
  have hdd : d = d' := by
    funext i
    refine le_antisymm ?_ ?_
    · exact diag_le h1 h2 h3 ((g A).trans h1') ((g B).trans h2') h3' (Or.inl rfl) (fun _ => le_refl _) (fun _ => le_refl _) i
    · exact diag_le ((g A).trans h1') ((g B).trans h2') h3' h1 h2 h3 (Or.inl rfl) (fun _ => le_refl _) (fun _ => le_refl _) i
  rw [hdd]
  exact ⟨T', hT', h1', h2', h3'⟩

/-- **C133**: the diagonal consists of the roots of `det (t A - B)`, and its first and last entries are the largest and the smallest ratio of
the two forms. -/
theorem C133_ratios (E : Eigh) (S : Svd) (L : Lstsq) {n : ℕ} (hn : n ≠ 0) (A B : Matrix (Fin n) (Fin n) ℝ) (tol : ℝ) (ht : 0 ≤ tol)
    (hA : AboveTol A tol) (hB : IsPSD B) : ∃ d, Diagonalises (ellSimDiag E S L A B tol) A B d ∧
      (∀ t : ℝ, det (t • A - B) = det A * ∏ i, (t - d i)) ∧ det B = det A * ∏ i, d i ∧ trace (A⁻¹ * B) = ∑ i, d i ∧
      (∀ t : ℝ, Below B (t • A) ↔ d ⟨0, by omega⟩ ≤ t) ∧ ∀ t : ℝ, Below (t • A) B ↔ t ≤ d ⟨n - 1, by omega⟩ := by
  obtain ⟨d, h0, h⟩ := call E S L hn ht hA hB
  refine ⟨d, h, ?_⟩
  obtain ⟨T, -, h1, h2, h3⟩ := h
  have hT := unit_of_one h1
  have hdet : T.det * A.det * T.det = 1 := by
    have := congrArg det h1
    rwa [det_mul, det_mul, det_transpose, det_one] at this
  have hTne : T.det ≠ 0 := hT.ne_zero
  have hbelow : ∀ P Q : Matrix (Fin n) (Fin n) ℝ, Below P Q ↔ ∀ y, (Tᵀ *ᵥ y) ⬝ᵥ P *ᵥ (Tᵀ *ᵥ y) ≤ (Tᵀ *ᵥ y) ⬝ᵥ Q *ᵥ (Tᵀ *ᵥ y) := by
    intro P Q
    refine ⟨fun h y => h _, fun h x => ?_⟩
    have := h (Tᵀ⁻¹ *ᵥ x)
    rwa [mulVec_mulVec, mul_nonsing_inv _ (by rwa [det_transpose]), one_mulVec] at this
  have hform : ∀ (t : ℝ) y, (Tᵀ *ᵥ y) ⬝ᵥ (t • A) *ᵥ (Tᵀ *ᵥ y) = t * ∑ i, y i ^ 2 := fun t y => by
    rw [smul_mulVec, dotProduct_smul, form_one h1, smul_eq_mul]
  refine ⟨fun t => ?_, ?_, ?_, fun t => ?_, fun t => ?_⟩
  · have h4 : T * (t • A - B) * Tᵀ = diagonal (fun i => t - d i) := by
      rw [Matrix.mul_sub, Matrix.sub_mul, Matrix.mul_smul, Matrix.smul_mul, h1, h2, ← diagonal_one, ← diagonal_smul, diagonal_sub]
      congr 1
      funext i
      simp
    have h5 := congrArg det h4
    rw [det_mul, det_mul, det_transpose, det_diagonal] at h5
    rw [← h5]
    linear_combination (-(t • A - B).det) * hdet
  · have h5 := congrArg det h2
    rw [det_mul, det_mul, det_transpose, det_diagonal] at h5
    rw [← h5]
    linear_combination (-B.det) * hdet
  · have hAi : A⁻¹ = Tᵀ * T := by
      refine inv_eq_left_inv ?_
      have h6 : T * (A * Tᵀ) = 1 := by rw [← Matrix.mul_assoc]; exact h1
      have h7 := mul_eq_one_comm.mp h6
      have h8 := congrArg transpose h7
      rw [transpose_mul, transpose_mul, transpose_transpose, transpose_one, hA.1, ← Matrix.mul_assoc] at h8
      exact h8
    rw [hAi, Matrix.mul_assoc, trace_mul_comm, h2, trace_diagonal]
  · rw [hbelow]
    simp only [hform, form_new h2]
    constructor
    · intro h
      have := h (Pi.single ⟨0, by omega⟩ 1)
      simpa [Pi.single_apply, Finset.sum_ite_eq'] using this
    · intro h y
      rw [Finset.mul_sum]
      exact Finset.sum_le_sum fun i _ => mul_le_mul_of_nonneg_right ((h3 (Fin.mk_le_of_le_val (Nat.zero_le _))).trans h) (sq_nonneg _)
  · rw [hbelow]
    simp only [hform, form_new h2]
    constructor
    · intro h
      have := h (Pi.single ⟨n - 1, by omega⟩ 1)
      simpa [Pi.single_apply, Finset.sum_ite_eq'] using this
    · intro h y
      rw [Finset.mul_sum]
      exact Finset.sum_le_sum fun i _ => mul_le_mul_of_nonneg_right (h.trans (h3 (show i.val ≤ n - 1 by omega))) (sq_nonneg _)

/-- **C133**: exchanging the two matrices gives the reciprocals in the opposite order. -/
theorem C133_exchange (E E' : Eigh) (S S' : Svd) (L L' : Lstsq) {n : ℕ} (hn : n ≠ 0) (A B : Matrix (Fin n) (Fin n) ℝ) (tol tol' : ℝ) (ht : 0 ≤ tol)
    (ht' : 0 ≤ tol') (hA : AboveTol A tol) (hB : AboveTol B tol') :
    ∃ d, (∀ i, 0 < d i) ∧ Diagonalises (ellSimDiag E S L A B tol) A B d ∧ Diagonalises (ellSimDiag E' S' L' B A tol') B A (fun i => 1 / d i.rev) := by
  have psd : ∀ {C : Matrix (Fin n) (Fin n) ℝ} {t : ℝ}, 0 ≤ t → AboveTol C t → IsPSD C := by
    intro C t ht h
    refine ⟨h.1, fun x => ?_⟩
    by_cases hx : x = 0
    · rw [hx]; simp
    · exact (lt_of_le_of_lt (mul_nonneg ht (dot_self_nonneg x)) (h.2 x hx)).le
  obtain ⟨d, h0, h⟩ := call E S L hn ht hA (psd ht' hB)
  obtain ⟨d', h0', h'⟩ := call E' S' L' hn ht' hB (psd ht hA)
  obtain ⟨T, hT, h1, h2, h3⟩ := h
  obtain ⟨T', hT', h1', h2', h3'⟩ := h'
  have hpos : ∀ i, 0 < d i := by
    intro i
    have hne : Tᵀ *ᵥ (Pi.single i 1) ≠ 0 := by
      intro h0
      have h5 : (Tᵀ)⁻¹ *ᵥ (Tᵀ *ᵥ Pi.single i 1) = 0 := by rw [h0, mulVec_zero]
      rw [mulVec_mulVec, nonsing_inv_mul _ (by rw [det_transpose]; exact unit_of_one h1), one_mulVec] at h5
      have := congrFun h5 i
      simp at this
    have h6 := lt_of_le_of_lt (mul_nonneg ht' (dot_self_nonneg _)) (hB.2 _ hne)
    rw [form_new h2] at h6
    simpa [Pi.single_apply, Finset.sum_ite_eq'] using h6
  -- the exchanged system in the coordinates of the first call
  let P : Matrix (Fin n) (Fin n) ℝ := of fun i j => if j = i.rev then 1 / Real.sqrt (d j) else 0
  have hP : ∀ c : Fin n → ℝ, P * diagonal c * Pᵀ = diagonal (fun i => c i.rev / d i.rev) := by
    intro c
    ext i j
    rw [mul_apply]
    simp only [mul_diagonal, transpose_apply]
    rw [Finset.sum_eq_single i.rev]
    · show (if i.rev = i.rev then 1 / Real.sqrt (d i.rev) else 0) * c i.rev * (if i.rev = j.rev then 1 / Real.sqrt (d i.rev) else 0) = _
      rw [if_pos rfl, diagonal_apply]
      by_cases hij : i = j
      · rw [if_pos hij, if_pos (by rw [hij])]
        have h9 := (Real.sqrt_pos.mpr (hpos i.rev)).ne'
        field_simp
        rw [Real.sq_sqrt (hpos i.rev).le, mul_div_cancel_left₀ _ (hpos i.rev).ne']
      · rw [if_neg hij, if_neg (fun h => hij (Fin.rev_injective h)), mul_zero]
    · intro k _ hk
      show (if k = i.rev then 1 / Real.sqrt (d k) else 0) * c k * _ = 0
      rw [if_neg hk]; ring
    · simp
  have g : ∀ C : Matrix (Fin n) (Fin n) ℝ, (P * T) * C * (P * T)ᵀ = P * (T * C * Tᵀ) * Pᵀ := fun C => by
    rw [transpose_mul]; simp only [Matrix.mul_assoc]
  have e1 : (P * T) * B * (P * T)ᵀ = 1 := by
    rw [g, h2, hP, ← diagonal_one]
    congr 1
    funext i
    exact div_self (hpos _).ne'
  have e2 : (P * T) * A * (P * T)ᵀ = diagonal (fun i => 1 / d i.rev) := by
    rw [g, h1, ← diagonal_one, hP]
  have e3 : Antitone (fun i : Fin n => 1 / d i.rev) := by
    intro i j hij
    exact one_div_le_one_div_of_le (hpos _) (h3 (Fin.rev_le_rev.mpr hij))
  have hdd : d' = fun i => 1 / d i.rev := by
    funext i
    refine le_antisymm ?_ ?_
    · exact diag_le h1' h2' h3' e1 e2 e3 (Or.inl rfl) (fun _ => le_refl _) (fun _ => le_refl _) i
    · exact diag_le e1 e2 e3 h1' h2' h3' (Or.inl rfl) (fun _ => le_refl _) (fun _ => le_refl _) i
  refine ⟨d, hpos, ⟨T, hT, h1, h2, h3⟩, ?_⟩
  rw [← hdd]
  exact ⟨T', hT', h1', h2', h3'⟩

/-! ### `ell_valign` -/

private theorem valign_eq (S : Svd) {n : ℕ} (hn : 2 ≤ n) (v x : VecArr n) (hv : IsVec v.shape) (hx : IsVec x.shape) :
    ellValign S v x = .ok ((S.Vt (colMat v.data) 0 0 * S.Vt (colMat x.data) 0 0) • (S.U (colMat v.data) * (S.U (colMat x.data))ᵀ)) := by
  have hn0 : n ≠ 0 := by omega
  obtain ⟨a, b, ha⟩ := isVec_shape hv
  obtain ⟨c, d, hc⟩ := isVec_shape hx
  unfold ellValign
  rw [(vecCheck_ok hn0).mpr hv, (vecCheck_ok hn0).mpr hx]
  simp only
  rw [ha, hc, squeeze_vec hn, squeeze_vec hn]
  simp only [pyIndex, List.getElem?_cons_zero]
  rw [if_neg (by simp)]
  rfl

/-- **C133**: turning `w` to `x` and then `x` to `v` is turning `w` to `v`, as long as one routine is used; turning back is the inverse, and
turning a vector to itself is the identity. -/
theorem C133_turns (S : Svd) {n : ℕ} (hn : 2 ≤ n) (v x w : VecArr n) (hv : IsVec v.shape) (hx : IsVec x.shape) (hw : IsVec w.shape) :
    ∃ P Q, ellValign S v x = .ok P ∧ ellValign S x w = .ok Q ∧ ellValign S v w = .ok (P * Q) ∧ ellValign S x v = .ok P⁻¹ ∧ P⁻¹ = Pᵀ ∧ ellValign S v v = .ok 1 := by
  obtain ⟨-, hv2⟩ := svd_col S (by omega : 1 ≤ n) v.data
  obtain ⟨-, hx2⟩ := svd_col S (by omega : 1 ≤ n) x.data
  obtain ⟨P, hP, hPP, -⟩ := C30 S hn v x hv hx
  have hinv : P⁻¹ = Pᵀ := inv_eq_left_inv hPP
  refine ⟨P, _, hP, valign_eq S hn x w hx hw, ?_, ?_, hinv, ?_⟩
  · rw [valign_eq S hn v x hv hx] at hP
    cases hP
    rw [valign_eq S hn v w hv hw, Matrix.smul_mul, Matrix.mul_smul, smul_smul]
    have h1 : S.U (colMat v.data) * (S.U (colMat x.data))ᵀ * (S.U (colMat x.data) * (S.U (colMat w.data))ᵀ) = S.U (colMat v.data) * (S.U (colMat w.data))ᵀ := by
      rw [Matrix.mul_assoc, ← Matrix.mul_assoc _ _ (S.U (colMat w.data))ᵀ, S.U_orth, Matrix.one_mul]
    rw [h1]
    congr 2
    linear_combination (-(S.Vt (colMat v.data) 0 0 * S.Vt (colMat w.data) 0 0)) * hx2
  · rw [hinv]
    rw [valign_eq S hn v x hv hx] at hP
    cases hP
    rw [valign_eq S hn x v hx hv, transpose_smul, transpose_mul, transpose_transpose, mul_comm (S.Vt (colMat x.data) 0 0)]
  · rw [valign_eq S hn v v hv hv, hv2, one_smul, orth_comm (S.U_orth _)]

/-! ### Non-triviality -/

private theorem diag_above (a b t : ℝ) (ha : t < a) (hb : t < b) : AboveTol (diagonal ![a, b]) t := by
  refine ⟨diagonal_transpose _, fun x hx => ?_⟩
  have hne := dot_self_pos hx
  rw [quad_diag, Fin.sum_univ_two]
  rw [dot_self_eq, Fin.sum_univ_two] at hne ⊢
  simp only [cons_val_zero, cons_val_one]
  rcases lt_or_eq_of_le (sq_nonneg (x 0)) with h | h
  · nlinarith [sq_nonneg (x 1)]
  · nlinarith [sq_nonneg (x 1)]

private theorem diag_psd (a b : ℝ) (ha : 0 ≤ a) (hb : 0 ≤ b) : IsPSD (diagonal ![a, b]) :=
  ⟨diagonal_transpose _, fun x => by rw [quad_diag, Fin.sum_univ_two]; simp only [cons_val_zero, cons_val_one]; positivity⟩

/-- `A = diag(1, 4)` and `B = diag(2, 0)`; the second pair has a smaller `A` and a larger `B`. -/
example (E : Eigh) (S S' : Svd) (L : Lstsq) : ∃ d d', Diagonalises (ellSimDiag E S L (diagonal ![1, 4]) (diagonal ![2, 0]) (1 / 2)) (diagonal ![1, 4]) (diagonal ![2, 0]) d ∧
    Diagonalises (ellSimDiag E S' L (diagonal ![1, 2]) (diagonal ![3, 1]) 0) (diagonal ![1, 2]) (diagonal ![3, 1]) d' ∧ ∀ i, d i ≤ d' i :=
  C133_monotone E E S S' L L (by norm_num) _ _ _ _ _ _ (by norm_num) le_rfl (diag_above _ _ _ (by norm_num) (by norm_num))
    (diag_above _ _ _ (by norm_num) (by norm_num)) (diag_psd _ _ (by norm_num) le_rfl) (diag_psd _ _ (by norm_num) (by norm_num))
    (fun x => by
      rw [quad_diag, quad_diag, Fin.sum_univ_two, Fin.sum_univ_two]; simp only [cons_val_zero, cons_val_one]
      nlinarith [sq_nonneg (x 0), sq_nonneg (x 1)])
    (fun x => by
      rw [quad_diag, quad_diag, Fin.sum_univ_two, Fin.sum_univ_two]; simp only [cons_val_zero, cons_val_one]
      nlinarith [sq_nonneg (x 0), sq_nonneg (x 1)])

/-- The largest and the smallest ratio of `diag(2, 12)` to `diag(1, 4)` are 3 and 2. -/
example (E : Eigh) (S : Svd) (L : Lstsq) : ∃ d, Diagonalises (ellSimDiag E S L (diagonal ![1, 4]) (diagonal ![2, 12]) (1 / 2)) (diagonal ![1, 4]) (diagonal ![2, 12]) d ∧
    d 0 ≤ 3 ∧ 2 ≤ d 1 := by
  obtain ⟨d, h, -, -, -, h1, h2⟩ := C133_ratios E S L (by norm_num) (diagonal ![1, 4]) (diagonal ![2, 12]) (1 / 2) (by norm_num)
    (diag_above _ _ _ (by norm_num) (by norm_num)) (diag_psd _ _ (by norm_num) (by norm_num))
  refine ⟨d, h, (h1 3).mp fun x => ?_, (h2 2).mp fun x => ?_⟩
  · rw [← diagonal_smul, quad_diag, quad_diag, Fin.sum_univ_two, Fin.sum_univ_two]
    simp
    nlinarith [sq_nonneg (x 0), sq_nonneg (x 1)]
  · rw [← diagonal_smul, quad_diag, quad_diag, Fin.sum_univ_two, Fin.sum_univ_two]
    simp
    nlinarith [sq_nonneg (x 0), sq_nonneg (x 1)]

/-- Two different SVD routines, and coordinates doubled. -/
example (E : Eigh) (S S' : Svd) (L : Lstsq) : ∃ d, Diagonalises (ellSimDiag E S L (diagonal ![1, 4]) (diagonal ![2, 12]) (1 / 2)) (diagonal ![1, 4]) (diagonal ![2, 12]) d ∧
    Diagonalises (ellSimDiag E S' L (diagonal ![2, 2] * diagonal ![1, 4] * (diagonal ![2, 2])ᵀ) (diagonal ![2, 2] * diagonal ![2, 12] * (diagonal ![2, 2])ᵀ) 1)
      (diagonal ![2, 2] * diagonal ![1, 4] * (diagonal ![2, 2])ᵀ) (diagonal ![2, 2] * diagonal ![2, 12] * (diagonal ![2, 2])ᵀ) d :=
  C133_coordinates E E S S' L L (by norm_num) _ _ (diagonal ![2, 2]) _ _ (by norm_num) (by norm_num) (by simp [det_diagonal, Fin.prod_univ_two])
    (diag_above _ _ _ (by norm_num) (by norm_num)) (by
      rw [diagonal_transpose, diagonal_mul_diagonal, diagonal_mul_diagonal]
      have : (fun i => (![2, 2] : Fin 2 → ℝ) i * ![1, 4] i * ![2, 2] i) = ![4, 16] := by ext i; fin_cases i <;> simp <;> norm_num
      rw [this]
      exact diag_above _ _ _ (by norm_num) (by norm_num)) (diag_psd _ _ (by norm_num) (by norm_num))

example (E : Eigh) (S : Svd) (L : Lstsq) : ∃ d, (∀ i, 0 < d i) ∧ Diagonalises (ellSimDiag E S L (diagonal ![1, 4]) (diagonal ![2, 12]) (1 / 2)) (diagonal ![1, 4]) (diagonal ![2, 12]) d ∧
    Diagonalises (ellSimDiag E S L (diagonal ![2, 12]) (diagonal ![1, 4]) 0) (diagonal ![2, 12]) (diagonal ![1, 4]) (fun i => 1 / d i.rev) :=
  C133_exchange E E S S L L (by norm_num) _ _ _ _ (by norm_num) le_rfl (diag_above _ _ _ (by norm_num) (by norm_num)) (diag_above _ _ _ (by norm_num) (by norm_num))

example (S : Svd) : ∃ P Q, ellValign S (⟨[2, 1], rfl, ![3, 4]⟩ : VecArr 2) (⟨[1, 2], rfl, ![0, 2]⟩ : VecArr 2) = .ok P ∧
    ellValign S (⟨[1, 2], rfl, ![0, 2]⟩ : VecArr 2) (⟨[2], rfl, ![1, 1]⟩ : VecArr 2) = .ok Q ∧
    ellValign S (⟨[2, 1], rfl, ![3, 4]⟩ : VecArr 2) (⟨[2], rfl, ![1, 1]⟩ : VecArr 2) = .ok (P * Q) := by
  obtain ⟨P, Q, h1, h2, h3, -⟩ := C133_turns S (le_refl 2) (⟨[2, 1], rfl, ![3, 4]⟩ : VecArr 2) (⟨[1, 2], rfl, ![0, 2]⟩ : VecArr 2) (⟨[2], rfl, ![1, 1]⟩ : VecArr 2)
    ⟨0, 2, 1, rfl⟩ ⟨1, 2, 0, rfl⟩ ⟨0, 2, 0, rfl⟩
  exact ⟨P, Q, h1, h2, h3⟩

end Ellipy.Core
