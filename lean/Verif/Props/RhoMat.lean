import Verif.Model.RhoMat
import Verif.Proofs.Ell
import Verif.Props.SqrtPos

/-! Property theorem C31 (`rho_mat`). -/

namespace Ellipy.Ell
open Matrix Ellipy.LA Ellipy.SqrtPos

/-- Column `j` of the matrix of directions. -/
def dirCol {m nd : ℕ} (dirs : Matrix (Fin m) (Fin nd) ℝ) (j : Fin nd) : Fin m → ℝ := fun i => dirs i j

theorem sqrtPosArr_ofFn {k : ℕ} (q : Fin k → ℝ) (tol : ℝ) (ht : 0 ≤ tol) (hq : ∀ j, -tol ≤ q j) :
    ∃ sq, sqrtPosArr (List.ofFn q) tol = .ok sq ∧ ∀ j : Fin k, sq.getD j 0 = Real.sqrt (q j) := by
  refine ⟨((List.ofFn q).map (fun x => if x < 0 then 0 else x)).map Real.sqrt, ?_, ?_⟩
  · unfold sqrtPosArr
    rw [if_neg (not_lt.mpr ht), if_neg]
    rintro ⟨x, hx, hlt⟩
    obtain ⟨j, rfl⟩ := List.mem_ofFn.mp hx
    exact absurd (hq j) (not_le.mpr hlt)
  · intro j
    simp only [List.map_ofFn, List.getD_eq_getElem?_getD, List.getElem?_ofFn]
    rw [dif_pos j.2]
    simp only [Option.getD_some, Function.comp]
    by_cases h : q ⟨j, j.2⟩ < 0
    · rw [if_pos h, Real.sqrt_zero, Real.sqrt_eq_zero_of_nonpos h.le]
    · rw [if_neg h]

/-- **C31**: which arguments are rejected: a direction with a negative value of the form, beyond the tolerance if there are several
directions and without any tolerance if there is one. -/
theorem C31_raises_iff {m nd : ℕ} (Q : Matrix (Fin m) (Fin m) ℝ) (dirs : Matrix (Fin m) (Fin nd) ℝ) (tol : ℝ) (c : Fin m → ℝ) :
    Raises (rhoMat Q dirs tol c) ↔
      if nd = 1 then ∃ j, dirCol dirs j ⬝ᵥ Q *ᵥ dirCol dirs j < 0
      else tol < 0 ∨ ∃ j, dirCol dirs j ⬝ᵥ Q *ᵥ dirCol dirs j < -tol := by
  have hmem : ∀ t : ℝ, (∃ x ∈ List.ofFn (fun j => dirCol dirs j ⬝ᵥ Q *ᵥ dirCol dirs j), x < t) ↔
      ∃ j, dirCol dirs j ⬝ᵥ Q *ᵥ dirCol dirs j < t := by
    intro t
    constructor
    · rintro ⟨x, hx, hlt⟩
      obtain ⟨j, rfl⟩ := List.mem_ofFn.mp hx
      exact ⟨j, hlt⟩
    · rintro ⟨j, hj⟩
      exact ⟨_, List.mem_ofFn.mpr ⟨j, rfl⟩, hj⟩
  unfold rhoMat
  by_cases h1 : nd = 1
  · rw [if_pos h1, if_pos h1]
    have hr := C15_array_raises_iff (List.ofFn (fun j => dirCol dirs j ⬝ᵥ Q *ᵥ dirCol dirs j)) 0
    rw [neg_zero, hmem] at hr
    cases h : sqrtPosArr (List.ofFn (fun j => dirCol dirs j ⬝ᵥ Q *ᵥ dirCol dirs j)) 0 with
    | error e =>
      rw [show sqrtPosArr (List.ofFn fun j => (fun i => dirs i j) ⬝ᵥ Q *ᵥ (fun i => dirs i j)) 0 = .error e from h]
      have := hr.mp ⟨e, h⟩
      exact iff_of_true ⟨e, rfl⟩ (this.resolve_left (lt_irrefl _))
    | ok s =>
      rw [show sqrtPosArr (List.ofFn fun j => (fun i => dirs i j) ⬝ᵥ Q *ᵥ (fun i => dirs i j)) 0 = .ok s from h]
      refine iff_of_false (by rintro ⟨e, he⟩; cases he) (fun hx => ?_)
      obtain ⟨e, he⟩ := hr.mpr (Or.inr hx)
      rw [h] at he; cases he
  · rw [if_neg h1, if_neg h1]
    have hr := C15_array_raises_iff (List.ofFn (fun j => dirCol dirs j ⬝ᵥ Q *ᵥ dirCol dirs j)) tol
    rw [hmem] at hr
    cases h : sqrtPosArr (List.ofFn (fun j => dirCol dirs j ⬝ᵥ Q *ᵥ dirCol dirs j)) tol with
    | error e =>
      rw [show sqrtPosArr (List.ofFn fun j => (fun i => dirs i j) ⬝ᵥ Q *ᵥ (fun i => dirs i j)) tol = .error e from h]
      exact iff_of_true ⟨e, rfl⟩ (hr.mp ⟨e, h⟩)
    | ok s =>
      rw [show sqrtPosArr (List.ofFn fun j => (fun i => dirs i j) ⬝ᵥ Q *ᵥ (fun i => dirs i j)) tol = .ok s from h]
      refine iff_of_false (by rintro ⟨e, he⟩; cases he) (fun hx => ?_)
      obtain ⟨e, he⟩ := hr.mpr hx
      rw [h] at he; cases he

theorem bp_fin {m : ℕ} {Q : Matrix (Fin m) (Fin m) ℝ} (hQ : IsPSD Q) (l c : Fin m → ℝ) (i : Fin m) :
    addX (nanToZero (fun i => divX ((Q *ᵥ l) i) (Real.sqrt (l ⬝ᵥ Q *ᵥ l))) i) (c i) =
      .fin ((c + (1 / Real.sqrt (l ⬝ᵥ Q *ᵥ l)) • Q *ᵥ l) i) := by
  by_cases h0 : l ⬝ᵥ Q *ᵥ l = 0
  · rw [psd_null hQ h0, dotProduct_zero, Real.sqrt_zero, smul_zero, add_zero]
    unfold nanToZero divX
    rw [if_pos ⟨i, by simp [XF.isNan]⟩]
    simp [addX]
  · have hs : Real.sqrt (l ⬝ᵥ Q *ᵥ l) ≠ 0 := by
      have : 0 < l ⬝ᵥ Q *ᵥ l := lt_of_le_of_ne (hQ.2 l) (Ne.symm h0)
      exact (Real.sqrt_pos.mpr this).ne'
    unfold nanToZero divX
    rw [if_neg]
    · rw [if_neg hs]
      simp only [addX, Pi.add_apply, Pi.smul_apply, smul_eq_mul]
      congr 1
      field_simp
      ring
    · rintro ⟨j, hj⟩
      simp only [if_neg hs] at hj
      simp [XF.isNan] at hj

/-- **C31**: for a positive semidefinite shape matrix, degenerate or not, and a non-negative tolerance `rho_mat` returns for every
direction the value of the support function and a finite point of the ellipsoid at which it is attained. -/
theorem C31 {m nd : ℕ} (Q : Matrix (Fin m) (Fin m) ℝ) (hQ : IsPSD Q) (dirs : Matrix (Fin m) (Fin nd) ℝ) (tol : ℝ) (ht : 0 ≤ tol)
    (c : Fin m → ℝ) : ∃ sup bp, rhoMat Q dirs tol c = .ok (sup, bp) ∧ ∀ j, IsSupport (Ell c Q) (dirCol dirs j) (sup j) ∧
      ∃ x ∈ Ell c Q, (∀ i, bp j i = .fin (x i)) ∧ dirCol dirs j ⬝ᵥ x = sup j := by
  have key : ∀ t : ℝ, 0 ≤ t → ∃ sq, sqrtPosArr (List.ofFn (fun j => dirCol dirs j ⬝ᵥ Q *ᵥ dirCol dirs j)) t = .ok sq ∧
      ∀ j : Fin nd, sq.getD j 0 = Real.sqrt (dirCol dirs j ⬝ᵥ Q *ᵥ dirCol dirs j) := fun t ht =>
    sqrtPosArr_ofFn _ t ht (fun j => le_trans (neg_nonpos.mpr ht) (hQ.2 _))
  have fin : ∀ sq : List ℝ, (∀ j : Fin nd, sq.getD j 0 = Real.sqrt (dirCol dirs j ⬝ᵥ Q *ᵥ dirCol dirs j)) → ∀ j,
      IsSupport (Ell c Q) (dirCol dirs j) (c ⬝ᵥ dirCol dirs j + sq.getD j 0) ∧
      ∃ x ∈ Ell c Q, (∀ i, addX (nanToZero (fun i => divX ((Q *ᵥ dirCol dirs j) i) (sq.getD j 0)) i) (c i) = .fin (x i)) ∧
        dirCol dirs j ⬝ᵥ x = c ⬝ᵥ dirCol dirs j + sq.getD j 0 := by
    intro sq hsq j
    rw [hsq j, dotProduct_comm c]
    refine ⟨ell_support hQ _, _, (support_point hQ (dirCol dirs j)).1, fun i => bp_fin hQ _ c i, (support_point hQ (dirCol dirs j)).2⟩
  unfold rhoMat
  by_cases h1 : nd = 1
  · obtain ⟨sq, hsq, hv⟩ := key 0 (le_refl _)
    rw [if_pos h1]
    rw [show sqrtPosArr (List.ofFn fun j => (fun i => dirs i j) ⬝ᵥ Q *ᵥ (fun i => dirs i j)) 0 = .ok sq from hsq]
    exact ⟨_, _, rfl, fin sq hv⟩
  · obtain ⟨sq, hsq, hv⟩ := key tol ht
    rw [if_neg h1]
    rw [show sqrtPosArr (List.ofFn fun j => (fun i => dirs i j) ⬝ᵥ Q *ᵥ (fun i => dirs i j)) tol = .ok sq from hsq]
    exact ⟨_, _, rfl, fin sq hv⟩

/-- The tolerance is not used for a single direction: a form that is negative by less than the tolerance (such a shape matrix is
accepted by the constructor of `Ellipsoid`) is rejected for one direction and accepted for two. -/
theorem C31_single_no_tol (tol : ℝ) (ht : 0 < tol) :
    Raises (rhoMat (diagonal ![1, -tol]) (of fun (i : Fin 2) (_ : Fin 1) => ![(0 : ℝ), 1] i) tol 0) ∧
      ¬ Raises (rhoMat (diagonal ![1, -tol]) (of fun (i : Fin 2) (_ : Fin 2) => ![(0 : ℝ), 1] i) tol 0) := by
  have h : ∀ {k : ℕ} (j : Fin k), dirCol (of fun (i : Fin 2) (_ : Fin k) => ![(0 : ℝ), 1] i) j ⬝ᵥ
      diagonal ![1, -tol] *ᵥ dirCol (of fun (i : Fin 2) (_ : Fin k) => ![(0 : ℝ), 1] i) j = -tol := by
    intro k j
    rw [quad_diag, Fin.sum_univ_two]
    simp [dirCol]
  constructor
  · rw [C31_raises_iff, if_pos rfl]
    exact ⟨0, by rw [h]; linarith⟩
  · rw [C31_raises_iff, if_neg (by decide)]
    push Not
    exact ⟨ht.le, fun j => by rw [h]⟩

/-- The degenerate ellipse `diag(4, 0)` around `(1, 1)` with the directions `e₀` and `e₁`: the values are 3 and 1. -/
example : ∃ sup bp, rhoMat (diagonal ![(4 : ℝ), 0]) (1 : Matrix (Fin 2) (Fin 2) ℝ) 0 ![1, 1] = .ok (sup, bp) ∧
    sup 0 = 3 ∧ sup 1 = 1 := by
  have hQ : IsPSD (diagonal ![(4 : ℝ), 0]) := ⟨diagonal_transpose _, fun x => by
    rw [quad_diag, Fin.sum_univ_two]; simp; positivity⟩
  obtain ⟨sup, bp, h, hv⟩ := C31 _ hQ (1 : Matrix (Fin 2) (Fin 2) ℝ) 0 (le_refl _) ![1, 1]
  refine ⟨sup, bp, h, ?_, ?_⟩
  · refine (hv 0).1.unique ?_
    have := ell_support (c := ![1, 1]) hQ (dirCol (1 : Matrix (Fin 2) (Fin 2) ℝ) 0)
    refine cast (congrArg (IsSupport _ _) ?_) this
    rw [quad_diag, Fin.sum_univ_two]
    simp only [dirCol, dotProduct, Fin.sum_univ_two]
    simp
    rw [show (4 : ℝ) = 2 ^ 2 by norm_num, Real.sqrt_sq (by norm_num)]
    norm_num
  · refine (hv 1).1.unique ?_
    have := ell_support (c := ![1, 1]) hQ (dirCol (1 : Matrix (Fin 2) (Fin 2) ℝ) 1)
    refine cast (congrArg (IsSupport _ _) ?_) this
    rw [quad_diag, Fin.sum_univ_two]
    simp [dirCol, dotProduct, Fin.sum_univ_two]

end Ellipy.Ell
