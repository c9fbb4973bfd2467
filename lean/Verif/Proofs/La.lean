import Mathlib.Tactic.LinearCombination
import Verif.Model.La
import Verif.Proofs.LinAlg
import Verif.Props.AbsRelCompare

/-! Helper facts for gras/la/la.py. -/

namespace Ellipy.LA
open Matrix

/-! ### Symmetry test -/

theorem forall₂_ofFn {α β : Type} {R : α → β → Prop} {n : ℕ} (f : Fin n → α) (g : Fin n → β) :
    List.Forall₂ R (List.ofFn f) (List.ofFn g) ↔ ∀ i, R (f i) (g i) := by
  rw [List.forall₂_iff_get]
  simp only [List.length_ofFn, List.get_eq_getElem, List.getElem_ofFn, true_and]
  constructor
  · intro h i
    exact h i.val i.2 i.2
  · intro h i h1 h2
    exact h ⟨i, h1⟩

theorem isMatSymm_nonsquare {m n : ℕ} (Q : Matrix (Fin m) (Fin n) ℝ) (tol : ℝ) (h : m ≠ n) :
    Raises (isMatSymm Q tol) := by
  unfold isMatSymm
  rw [if_pos h]
  exact ⟨_, rfl⟩

open Classical in
theorem isMatSymm_square {n : ℕ} (Q : Matrix (Fin n) (Fin n) ℝ) (tol : ℝ) :
    isMatSymm Q tol = if tol < 0 then throwErr "wrongInput:wrongAbsTol"
      else .ok (decide (∀ i j, |Q i j - Q j i| ≤ tol)) := by
  unfold isMatSymm
  rw [if_neg (by simp)]
  by_cases ht : tol < 0
  · rw [if_pos ht]
    have : absRelCompare (matArr Q) (matArr Qᵀ) (.fin tol) none (fun x => |x|) = throwErr "wrongInput:wrongAbsTol" := by
      unfold absRelCompare
      rw [if_neg (by simp [matArr, Kind.isNumeric]), if_pos (by simpa [tolOk] using ht)]
    rw [this]
    rfl
  · rw [if_neg ht]
    have hg : GoodArgs (matArr Q) (matArr Qᵀ) (.fin tol) none := by
      refine ⟨rfl, by simp [matArr], by simp [matArr], by simp [matArr], ?_, by simp⟩
      exact not_lt.mp ht
    obtain ⟨res, h1, h2⟩ := C06_verdict _ _ _ _ hg
    rw [h1]
    simp only
    congr 1
    rw [Bool.eq_iff_iff, h2, decide_eq_true_iff]
    simp only [matArr]
    rw [forall₂_ofFn]
    constructor
    · intro h i j
      have := h (finProdFinEquiv (i, j))
      have e1 : (finProdFinEquiv (i, j)).divNat = i := by
        have := finProdFinEquiv.symm_apply_apply (i, j)
        exact congrArg Prod.fst this
      have e2 : (finProdFinEquiv (i, j)).modNat = j := by
        have := finProdFinEquiv.symm_apply_apply (i, j)
        exact congrArg Prod.snd this
      rw [e1, e2] at this
      simpa [EntryClose, Within] using this
    · intro h k
      simpa [EntryClose, Within] using h k.divNat k.modNat

open Classical in
theorem isMatSymm_zero {n : ℕ} (Q : Matrix (Fin n) (Fin n) ℝ) : isMatSymm Q 0 = .ok (decide (Qᵀ = Q)) := by
  rw [isMatSymm_square, if_neg (lt_irrefl _)]
  congr 1
  rw [Bool.eq_iff_iff, decide_eq_true_iff, decide_eq_true_iff]
  constructor
  · intro h
    ext i j
    have := abs_nonpos_iff.mp (h j i)
    simpa using (sub_eq_zero.mp this)
  · intro h i j
    have := congrFun (congrFun h i) j
    rw [transpose_apply] at this
    simp [this]

/-! ### Orthogonal matrices and quadratic forms -/

theorem orth_comm {n : ℕ} {V : Matrix (Fin n) (Fin n) ℝ} (h : Vᵀ * V = 1) : V * Vᵀ = 1 := mul_eq_one_comm.mp h

theorem dot_orth {m n : ℕ} {V : Matrix (Fin m) (Fin n) ℝ} (h : Vᵀ * V = 1) (x y : Fin n → ℝ) :
    (V *ᵥ x) ⬝ᵥ (V *ᵥ y) = x ⬝ᵥ y := by
  rw [dotProduct_mulVec, ← mulVec_transpose, mulVec_mulVec, h, one_mulVec]

theorem dot_orthT {n : ℕ} {V : Matrix (Fin n) (Fin n) ℝ} (h : Vᵀ * V = 1) (x y : Fin n → ℝ) :
    (Vᵀ *ᵥ x) ⬝ᵥ (Vᵀ *ᵥ y) = x ⬝ᵥ y :=
  dot_orth (by rw [transpose_transpose]; exact orth_comm h) x y

theorem quad_conj {m n : ℕ} (V : Matrix (Fin m) (Fin n) ℝ) (D : Matrix (Fin n) (Fin n) ℝ) (x : Fin m → ℝ) :
    x ⬝ᵥ (V * D * Vᵀ) *ᵥ x = (Vᵀ *ᵥ x) ⬝ᵥ D *ᵥ (Vᵀ *ᵥ x) := by
  rw [← mulVec_mulVec, ← mulVec_mulVec, dotProduct_mulVec, ← mulVec_transpose]

theorem quad_diag {n : ℕ} (d : Fin n → ℝ) (y : Fin n → ℝ) : y ⬝ᵥ diagonal d *ᵥ y = ∑ i, d i * y i ^ 2 := by
  rw [dotProduct]
  refine Finset.sum_congr rfl (fun i _ => ?_)
  rw [mulVec_diagonal]; ring

theorem dot_self_eq {n : ℕ} (y : Fin n → ℝ) : y ⬝ᵥ y = ∑ i, y i ^ 2 := by
  rw [dotProduct]
  exact Finset.sum_congr rfl (fun i _ => (sq _).symm)

theorem dot_self_nonneg {n : ℕ} (y : Fin n → ℝ) : 0 ≤ y ⬝ᵥ y := by
  rw [dot_self_eq]; exact Finset.sum_nonneg (fun i _ => sq_nonneg _)

theorem dot_self_pos {n : ℕ} {y : Fin n → ℝ} (h : y ≠ 0) : 0 < y ⬝ᵥ y := by
  refine lt_of_le_of_ne (dot_self_nonneg y) (fun h0 => h ?_)
  rw [dot_self_eq, eq_comm, Finset.sum_eq_zero_iff_of_nonneg (fun i _ => sq_nonneg _)] at h0
  funext i
  exact pow_eq_zero_iff (two_ne_zero) |>.mp (h0 i (Finset.mem_univ _))

/-- The decomposition `V D Vᵀ` of what `eigh` decomposes. -/
theorem Eigh.decomp (E : Eigh) {n : ℕ} (Q : Matrix (Fin n) (Fin n) ℝ) :
    lowerSym Q = E.vecs Q * diagonal (E.vals Q) * (E.vecs Q)ᵀ := by
  rw [← E.spec Q, Matrix.mul_assoc, orth_comm (E.orth Q), Matrix.mul_one]

theorem Eigh.quad (E : Eigh) {n : ℕ} (Q : Matrix (Fin n) (Fin n) ℝ) (x : Fin n → ℝ) :
    x ⬝ᵥ lowerSym Q *ᵥ x = ∑ i, E.vals Q i * (((E.vecs Q)ᵀ *ᵥ x) i) ^ 2 := by
  rw [E.decomp Q, quad_conj, quad_diag]

theorem Eigh.norm (E : Eigh) {n : ℕ} (Q : Matrix (Fin n) (Fin n) ℝ) (x : Fin n → ℝ) :
    x ⬝ᵥ x = ∑ i, (((E.vecs Q)ᵀ *ᵥ x) i) ^ 2 := by
  rw [← dot_orthT (E.orth Q) x x, dot_self_eq]

/-- The unit eigenvector of the `i`-th eigenvalue. -/
theorem Eigh.eigvec (E : Eigh) {n : ℕ} (Q : Matrix (Fin n) (Fin n) ℝ) (i : Fin n) :
    ∃ v : Fin n → ℝ, v ⬝ᵥ v = 1 ∧ lowerSym Q *ᵥ v = E.vals Q i • v := by
  refine ⟨fun k => E.vecs Q k i, ?_, ?_⟩
  · have h := congrFun (congrFun (E.orth Q) i) i
    rw [mul_apply, one_apply_eq] at h
    rw [← h]; rfl
  · funext k
    have h := congrFun (congrFun (E.spec Q) k) i
    rw [mul_diagonal] at h
    rw [Pi.smul_apply, smul_eq_mul, mul_comm, ← h]
    rfl

/-- All eigenvalues are at least `t` iff the quadratic form is. -/
theorem Eigh.le_vals_iff (E : Eigh) {n : ℕ} (Q : Matrix (Fin n) (Fin n) ℝ) (t : ℝ) :
    (∀ i, t ≤ E.vals Q i) ↔ ∀ x : Fin n → ℝ, t * (x ⬝ᵥ x) ≤ x ⬝ᵥ lowerSym Q *ᵥ x := by
  constructor
  · intro h x
    rw [E.quad Q, E.norm Q, Finset.mul_sum]
    exact Finset.sum_le_sum (fun i _ => mul_le_mul_of_nonneg_right (h i) (sq_nonneg _))
  · intro h i
    obtain ⟨v, hv1, hv2⟩ := E.eigvec Q i
    have := h v
    rw [hv2, dotProduct_smul, hv1] at this
    simpa using this

theorem Eigh.lt_vals_iff (E : Eigh) {n : ℕ} (Q : Matrix (Fin n) (Fin n) ℝ) (t : ℝ) :
    (∀ i, t < E.vals Q i) ↔ ∀ x : Fin n → ℝ, x ≠ 0 → t * (x ⬝ᵥ x) < x ⬝ᵥ lowerSym Q *ᵥ x := by
  constructor
  · intro h x hx
    have hpos := dot_self_pos hx
    rw [E.norm Q] at hpos
    obtain ⟨i, _, hi⟩ := Finset.exists_lt_of_sum_lt (s := Finset.univ) (f := fun _ => (0:ℝ)) (by simpa using hpos)
    rw [E.quad Q, E.norm Q, Finset.mul_sum]
    refine Finset.sum_lt_sum (fun i _ => mul_le_mul_of_nonneg_right (h i).le (sq_nonneg _)) ⟨i, Finset.mem_univ _, ?_⟩
    exact mul_lt_mul_of_pos_right (h i) hi
  · intro h i
    obtain ⟨v, hv1, hv2⟩ := E.eigvec Q i
    have hv : v ≠ 0 := by
      rintro rfl
      simp at hv1
    have := h v hv
    rw [hv2, dotProduct_smul, hv1] at this
    simpa using this

theorem min?_ofFn {n : ℕ} (f : Fin n → ℝ) :
    (n = 0 ∧ (List.ofFn f).min? = none) ∨ ∃ i, (List.ofFn f).min? = some (f i) ∧ ∀ j, f i ≤ f j := by
  cases h : (List.ofFn f).min? with
  | none =>
    left
    rw [List.min?_eq_none_iff] at h
    refine ⟨?_, rfl⟩
    have := congrArg List.length h
    simpa using this
  | some a =>
    right
    rw [List.min?_eq_some_iff] at h
    obtain ⟨h1, h2⟩ := h
    rw [List.mem_ofFn] at h1
    obtain ⟨i, rfl⟩ := h1
    exact ⟨i, rfl, fun j => h2 _ (List.mem_ofFn.mpr ⟨j, rfl⟩)⟩

end Ellipy.LA
