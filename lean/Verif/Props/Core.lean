import Verif.Model.Core
import Verif.Proofs.Lstsq
import Verif.Props.LaReg

/-! Property theorems C29 (`ell_sim_diag`) and C30 (`ell_valign`). -/

namespace Ellipy.Core
open Matrix Ellipy.LA

/-! ### C29 -/

/-- In a singular value decomposition of a positive semidefinite matrix the right factor may be replaced by the left one. -/
theorem psd_svd (S : Svd) {n : ℕ} {A : Matrix (Fin n) (Fin n) ℝ} (hA : IsPSD A) :
    A = S.U A * diagonal (fun i : Fin n => S.s A ⟨i.val, by omega⟩) * (S.U A)ᵀ := by
  have h1 := S.spec A
  rw [sigma_square] at h1
  set s : Fin n → ℝ := fun i => S.s A ⟨i.val, by omega⟩ with hs
  refine psd_root_unique hA (psd_conj _ (fun i => S.s_nonneg A _)) ?_
  rw [conj_mul (S.U_orth A)]
  have h2 : A * A = A * Aᵀ := by rw [hA.1]
  rw [h2]
  have h3 : A * Aᵀ = (S.U A * diagonal s * S.Vt A) * (S.U A * diagonal s * S.Vt A)ᵀ := by rw [← h1]
  rw [h3, transpose_mul, transpose_mul, diagonal_transpose]
  calc S.U A * diagonal s * S.Vt A * ((S.Vt A)ᵀ * (diagonal s * (S.U A)ᵀ))
      = S.U A * diagonal s * (S.Vt A * (S.Vt A)ᵀ) * (diagonal s * (S.U A)ᵀ) := by simp only [Matrix.mul_assoc]
    _ = S.U A * (diagonal s * diagonal s) * (S.U A)ᵀ := by rw [S.Vt_orth, Matrix.mul_one]; simp only [Matrix.mul_assoc]
    _ = _ := by rw [diagonal_mul_diagonal]

/-- **C29**: which arguments are rejected. -/
theorem C29_raises_iff (E : Eigh) (S : Svd) (L : Lstsq) {n m k : ℕ} (A : Matrix (Fin n) (Fin n) ℝ) (B : Matrix (Fin m) (Fin k) ℝ)
    (tol : ℝ) : Raises (ellSimDiag E S L A B tol) ↔
      ¬ (0 ≤ tol ∧ n ≠ 0 ∧ SymmWithin A tol ∧ (∀ x : Fin n → ℝ, x ≠ 0 → tol * (x ⬝ᵥ x) < x ⬝ᵥ lowerSym A *ᵥ x) ∧
        ∃ h : k = m, (∀ i j, B i j = B (Fin.cast h j) (Fin.cast h.symm i)) ∧ m = n) := by
  unfold ellSimDiag
  cases hp : isMatPosDef E A tol false with
  | error e =>
    refine iff_of_true ⟨e, rfl⟩ ?_
    rintro ⟨ht, hn, hs, _⟩
    rcases (C20_raises_iff E A tol false).mp ⟨e, hp⟩ with h | h | h
    · exact absurd ht (not_le.mpr h)
    · exact h hs
    · exact hn h
  | ok b =>
    have hno : ¬ Raises (isMatPosDef E A tol false) := by rw [hp]; rintro ⟨e, he⟩; cases he
    rw [C20_raises_iff] at hno
    push Not at hno
    obtain ⟨ht, hs, hn⟩ := hno
    have hpd := (C20_nearly E A tol ht hn hs).1
    rw [hp] at hpd
    cases b with
    | false =>
      refine iff_of_true ⟨_, rfl⟩ ?_
      rintro ⟨_, _, _, h, _⟩
      exact absurd (hpd.mpr h) (by simp)
    | true =>
      have hpd := hpd.mp rfl
      by_cases hmk : m = k
      swap
      · obtain ⟨e, he⟩ := isMatSymm_nonsquare B 0 hmk
        rw [he]
        refine iff_of_true ⟨_, rfl⟩ ?_
        rintro ⟨_, _, _, _, h, _⟩
        exact hmk h.symm
      subst hmk
      simp only [isMatSymm_zero]
      by_cases hB : Bᵀ = B
      swap
      · rw [decide_eq_false hB]
        refine iff_of_true ⟨_, rfl⟩ ?_
        rintro ⟨_, _, _, _, h, h2, _⟩
        exact hB (by ext i j; exact (h2 i j).symm)
      rw [decide_eq_true hB]
      simp only
      by_cases hnm : n = m
      swap
      · rw [dif_neg (fun h => hnm h.1)]
        refine iff_of_true ⟨_, rfl⟩ ?_
        rintro ⟨_, _, _, _, _, _, h⟩
        exact hnm h.symm
      rw [dif_pos ⟨hnm, hnm⟩]
      obtain ⟨r, hr, -⟩ := C21_root E (diagonal (fun i : Fin n => S.s A ⟨i.val, by omega⟩)) tol ht
        ⟨diagonal_transpose _, fun x => by rw [quad_diag]; exact Finset.sum_nonneg (fun i _ => mul_nonneg (S.s_nonneg A _) (sq_nonneg _))⟩
      rw [hr]
      refine iff_of_false (by rintro ⟨e, he⟩; cases he) (not_not.mpr ⟨ht, hn, hs, hpd, trivial, ?_, hnm.symm⟩)
      intro i j
      exact (congrFun (congrFun hB i) j).symm

/-- **C29**: for a positive definite `A` (above the tolerance) and a positive semidefinite `B` the result exists and diagonalises
both matrices, the second one with non-negative entries in descending order. -/
theorem C29 (E : Eigh) (S : Svd) (L : Lstsq) {n : ℕ} (hn : n ≠ 0) (A B : Matrix (Fin n) (Fin n) ℝ) (tol : ℝ) (ht : 0 ≤ tol)
    (hA : Aᵀ = A) (hpos : ∀ x : Fin n → ℝ, x ≠ 0 → tol * (x ⬝ᵥ x) < x ⬝ᵥ A *ᵥ x) (hB : IsPSD B) :
    ∃ T, ellSimDiag E S L A B tol = .ok T ∧ T * A * Tᵀ = 1 ∧
      ∃ d : Fin n → ℝ, (∀ i, 0 ≤ d i) ∧ Antitone d ∧ T * B * Tᵀ = diagonal d := by
  have hAP : IsPSD A := by
    refine ⟨hA, fun x => ?_⟩
    by_cases hx : x = 0
    · rw [hx]; simp
    · exact le_trans (mul_nonneg ht (dot_self_nonneg x)) (hpos x hx).le
  have h1 := (C20_pos_def E A tol ht hn hA).mpr hpos
  have hs0 : ∀ i : Fin n, 0 ≤ S.s A ⟨i.val, by omega⟩ := fun i => S.s_nonneg A _
  obtain ⟨r, hr, hrP, hrr, -⟩ := C21_root E (diagonal (fun i : Fin n => S.s A ⟨i.val, by omega⟩)) tol ht
    ⟨diagonal_transpose _, fun x => by rw [quad_diag]; exact Finset.sum_nonneg (fun i _ => mul_nonneg (hs0 i) (sq_nonneg _))⟩
  have hdec := psd_svd S hAP
  set s : Fin n → ℝ := fun i => S.s A ⟨i.val, by omega⟩ with hs
  set U := S.U A with hU
  have hUU : Uᵀ * U = 1 := S.U_orth A
  have hUAU : Uᵀ * A * U = diagonal s := by
    rw [hdec]
    calc Uᵀ * (U * diagonal s * Uᵀ) * U = (Uᵀ * U) * diagonal s * (Uᵀ * U) := by simp only [Matrix.mul_assoc]
      _ = _ := by rw [hUU, Matrix.one_mul, Matrix.mul_one]
  have hspos : ∀ i, 0 < s i := by
    intro i
    have hne : U *ᵥ (Pi.single i 1) ≠ 0 := by
      intro h0
      have := congrArg (fun y => Uᵀ *ᵥ y) h0
      simp only [mulVec_mulVec, hUU, one_mulVec, mulVec_zero] at this
      have h1 := congrFun this i
      simp at h1
    have h2 := lt_of_le_of_lt (mul_nonneg ht (dot_self_nonneg _)) (hpos _ hne)
    have h3 : (U *ᵥ Pi.single i 1) ⬝ᵥ A *ᵥ (U *ᵥ Pi.single i 1) = s i := by
      have h4 : (U *ᵥ Pi.single i 1) ⬝ᵥ A *ᵥ (U *ᵥ Pi.single i 1) = Pi.single i 1 ⬝ᵥ (Uᵀ * A * U) *ᵥ Pi.single i 1 := by
        rw [← mulVec_mulVec, ← mulVec_mulVec, dotProduct_mulVec (Pi.single i 1), vecMul_transpose]
      rw [h4, hUAU, quad_diag, Finset.sum_eq_single i]
      · simp
      · intro j _ hj; simp [Pi.single_eq_of_ne hj]
      · intro h; exact absurd (Finset.mem_univ _) h
    rwa [h3] at h2
  have hrdet : IsUnit r.det := by
    have h := congrArg det hrr
    rw [det_mul, det_diagonal] at h
    refine isUnit_iff_ne_zero.mpr (fun h0 => ?_)
    rw [h0, zero_mul] at h
    exact absurd h (ne_of_lt (Finset.prod_pos (fun i _ => hspos i)))
  have hrt : rᵀ = r := hrP.1
  have hu : L.sol rᵀ Uᵀ = r⁻¹ * Uᵀ := by rw [hrt]; exact L.solve hrdet _
  have hri : r⁻¹ᵀ = r⁻¹ := by rw [transpose_nonsing_inv, hrt]
  have huA : (r⁻¹ * Uᵀ) * A * (r⁻¹ * Uᵀ)ᵀ = 1 := by
    rw [transpose_mul, transpose_transpose, hri]
    calc r⁻¹ * Uᵀ * A * (U * r⁻¹) = r⁻¹ * (Uᵀ * A * U) * r⁻¹ := by simp only [Matrix.mul_assoc]
      _ = (r⁻¹ * r) * (r * r⁻¹) := by rw [hUAU, ← hrr]; simp only [Matrix.mul_assoc]
      _ = 1 := by rw [nonsing_inv_mul _ hrdet, mul_nonsing_inv _ hrdet, Matrix.one_mul]
  set C : Matrix (Fin n) (Fin n) ℝ := (r⁻¹ * Uᵀ) * B * (r⁻¹ * Uᵀ)ᵀ with hC
  have hCP : IsPSD C := by
    refine ⟨?_, fun x => ?_⟩
    · rw [hC, transpose_mul, transpose_mul _ B, transpose_transpose, hB.1]
      simp only [Matrix.mul_assoc]
    · rw [hC, quad_conj]; exact hB.2 _
  have hCdec := psd_svd S hCP
  have hWW := S.U_orth C
  refine ⟨(S.U C)ᵀ * (r⁻¹ * Uᵀ), ?_, ?_, _, fun i => S.s_nonneg C ⟨i.val, by omega⟩, fun i j hij => S.s_anti C hij, ?_⟩
  · unfold ellSimDiag
    simp only [h1, isMatSymm_zero, decide_eq_true hB.1]
    rw [dif_pos ⟨trivial, trivial⟩]
    simp only [transpose_transpose]
    have hr' : sqrtmPos E (diagonal (fun i : Fin n => S.s A ⟨i.val, by omega⟩)) tol = .ok r := hr
    rw [hr']
    have hu' : L.sol rᵀ (S.U A)ᵀ = r⁻¹ * Uᵀ := hu
    simp only [hu']
    rfl
  · rw [transpose_mul, transpose_transpose]
    calc (S.U C)ᵀ * (r⁻¹ * Uᵀ) * A * ((r⁻¹ * Uᵀ)ᵀ * S.U C) = (S.U C)ᵀ * ((r⁻¹ * Uᵀ) * A * (r⁻¹ * Uᵀ)ᵀ) * S.U C := by
          simp only [Matrix.mul_assoc]
      _ = 1 := by rw [huA, Matrix.mul_one, hWW]
  · rw [transpose_mul, transpose_transpose]
    calc (S.U C)ᵀ * (r⁻¹ * Uᵀ) * B * ((r⁻¹ * Uᵀ)ᵀ * S.U C) = (S.U C)ᵀ * C * S.U C := by
          rw [hC]; simp only [Matrix.mul_assoc]
      _ = ((S.U C)ᵀ * S.U C) * diagonal (fun i : Fin n => S.s C ⟨i.val, by omega⟩) * ((S.U C)ᵀ * S.U C) := by
          nth_rw 2 [hCdec]; simp only [Matrix.mul_assoc]
      _ = _ := by rw [hWW, Matrix.one_mul, Matrix.mul_one]

/-- An SVD routine that answers `U = 1`, `s = 1`, `Vt = A` for orthogonal matrices is valid. -/
theorem svd_with_id : ∃ S : Svd, ∀ {n : ℕ} (A : Matrix (Fin n) (Fin n) ℝ), A * Aᵀ = 1 → S.U A = 1 ∧ S.s A = fun _ => 1 := by
  have key : ∀ (m n : ℕ) (A : Matrix (Fin m) (Fin n) ℝ), ∃ (U : Matrix (Fin m) (Fin m) ℝ) (s : Fin (min m n) → ℝ)
      (W : Matrix (Fin n) (Fin n) ℝ), (Uᵀ * U = 1 ∧ W * Wᵀ = 1 ∧ (∀ i, 0 ≤ s i) ∧ Antitone s ∧ A = U * sigma s * W) ∧
        (m = n → A * Aᵀ = 1 → U = 1 ∧ s = fun _ => 1) := by
    intro m n A
    by_cases h : m = n ∧ A * Aᵀ = 1
    · obtain ⟨rfl, hA⟩ := h
      refine ⟨1, fun _ => 1, A, ⟨by rw [transpose_one, Matrix.one_mul], hA, fun _ => zero_le_one, fun _ _ _ => le_refl _, ?_⟩,
        fun _ _ => ⟨rfl, rfl⟩⟩
      rw [sigma_square, diagonal_one, Matrix.one_mul, Matrix.one_mul]
    · obtain ⟨U, s, W, hv⟩ := exists_svd A
      exact ⟨U, s, W, hv, fun h1 h2 => absurd ⟨h1, h2⟩ h⟩
  choose U s W h hx using key
  exact ⟨⟨fun {m n} => U m n, fun {m n} => s m n, fun {m n} => W m n, fun {m n} A => (h m n A).1, fun {m n} A => (h m n A).2.1,
    fun {m n} A => (h m n A).2.2.1, fun {m n} A => (h m n A).2.2.2.1, fun {m n} A => (h m n A).2.2.2.2⟩,
    fun {n} A hA => hx n n A rfl hA⟩

/-- The symmetric matrix that exchanges the coordinates. -/
def swapMat : Matrix (Fin 2) (Fin 2) ℝ := !![0, 1; 1, 0]

/-- For an indefinite `B` (which the function accepts) the result need not diagonalise: some valid SVD gives `T = 1` for `A = 1` and
the exchange matrix `B`. -/
theorem C29_indefinite : ∃ S : Svd, ∀ (E : Eigh) (L : Lstsq) (tol : ℝ), 0 ≤ tol → tol < 1 →
    ∃ T, ellSimDiag E S L (1 : Matrix (Fin 2) (Fin 2) ℝ) swapMat tol = .ok T ∧ ¬ ∃ d, T * swapMat * Tᵀ = diagonal d := by
  obtain ⟨S, hS⟩ := svd_with_id
  refine ⟨S, fun E L tol ht ht1 => ?_⟩
  have hpd := (C20_pos_def E (1 : Matrix (Fin 2) (Fin 2) ℝ) tol ht (by decide) transpose_one).mpr (fun x hx => by
    rw [one_mulVec]; nlinarith [dot_self_pos hx])
  have hsw : swapMatᵀ = swapMat := by ext i j; fin_cases i <;> fin_cases j <;> rfl
  have hso : swapMat * swapMatᵀ = 1 := by
    rw [hsw]; ext i j; fin_cases i <;> fin_cases j <;> simp [swapMat]
  obtain ⟨hU1, hs1⟩ := hS (1 : Matrix (Fin 2) (Fin 2) ℝ) (by rw [transpose_one, Matrix.one_mul])
  obtain ⟨hUs, -⟩ := hS swapMat hso
  have h1P : IsPSD (1 : Matrix (Fin 2) (Fin 2) ℝ) := ⟨transpose_one, fun x => by rw [one_mulVec]; exact dot_self_nonneg x⟩
  obtain ⟨r, hr, -, -, hru⟩ := C21_root E (1 : Matrix (Fin 2) (Fin 2) ℝ) tol ht h1P
  have hr1 := hru 1 h1P (by rw [Matrix.one_mul])
  subst hr1
  refine ⟨1, ?_, ?_⟩
  · unfold ellSimDiag
    simp only [hpd, isMatSymm_zero, decide_eq_true hsw]
    rw [dif_pos ⟨trivial, trivial⟩]
    simp only [hU1, hs1, diagonal_one, hr, transpose_one]
    rw [L.solve (by rw [det_one]; exact isUnit_one), inv_one, Matrix.one_mul, transpose_one, transpose_one]
    have : swapMat.submatrix (Fin.cast rfl) (Fin.cast rfl) = swapMat := rfl
    rw [Matrix.one_mul, Matrix.mul_one, Matrix.mul_one]
    show Except.ok (S.U swapMat)ᵀ = _
    rw [hUs, transpose_one]
  · rintro ⟨d, hd⟩
    rw [Matrix.one_mul, transpose_one, Matrix.mul_one] at hd
    have := congrFun (congrFun hd 0) 1
    simp [swapMat] at this

/-- `A = diag(1, 4)`, `B = [[2, 2], [2, 2]]` (degenerate) with tolerance `1/2` meet the hypotheses of `C29`. -/
example (E : Eigh) (S : Svd) (L : Lstsq) : ∃ T, ellSimDiag E S L (diagonal ![1, 4]) !![2, 2; 2, 2] (1 / 2) = .ok T ∧
    T * diagonal ![1, 4] * Tᵀ = 1 ∧ ∃ d : Fin 2 → ℝ, (∀ i, 0 ≤ d i) ∧ Antitone d ∧ T * !![2, 2; 2, 2] * Tᵀ = diagonal d := by
  apply C29 E S L (by decide) _ _ _ (by norm_num) (diagonal_transpose _)
  · intro x hx
    have := dot_self_pos hx
    rw [quad_diag, Fin.sum_univ_two]
    rw [dot_self_eq, Fin.sum_univ_two] at this ⊢
    simp only [cons_val_zero, cons_val_one]
    nlinarith [sq_nonneg (x 0), sq_nonneg (x 1)]
  · refine ⟨by ext i j; fin_cases i <;> fin_cases j <;> rfl, fun x => ?_⟩
    have : x ⬝ᵥ !![(2 : ℝ), 2; 2, 2] *ᵥ x = 2 * (x 0 + x 1) ^ 2 := by
      simp only [dotProduct, mulVec, Fin.sum_univ_two, of_apply, cons_val_zero, cons_val_one, cons_val']
      ring
    rw [this]; positivity

/-! ### C30 -/

/-- A vector in numpy terms: every axis but one has length one. -/
def IsVec (shape : List ℕ) : Prop := ∃ a k b, shape = List.replicate a 1 ++ k :: List.replicate b 1

theorem max_eq_prod_iff {shape : List ℕ} (h : shape.prod ≠ 0) : shape.max? = some shape.prod ↔ IsVec shape := by
  constructor
  · intro hm
    have hmem := List.max?_mem hm
    obtain ⟨s, t, hst⟩ := List.append_of_mem hmem
    have hp : shape.prod = s.prod * (shape.prod * t.prod) := by
      conv_lhs => rw [hst]
      rw [List.prod_append, List.prod_cons]
    have h1 : s.prod * t.prod = 1 := by
      have : shape.prod * (s.prod * t.prod) = shape.prod * 1 := by rw [mul_one, mul_left_comm]; exact hp.symm
      exact Nat.eq_of_mul_eq_mul_left (Nat.pos_of_ne_zero h) this
    have hs : s.prod = 1 := Nat.eq_one_of_mul_eq_one_right h1
    have ht : t.prod = 1 := Nat.eq_one_of_mul_eq_one_left h1
    have key : ∀ l : List ℕ, l.prod = 1 → l = List.replicate l.length 1 := by
      intro l
      induction l with
      | nil => intro _; rfl
      | cons a l ih =>
        intro hl
        rw [List.prod_cons] at hl
        rw [List.length_cons, List.replicate_succ, ← ih (Nat.eq_one_of_mul_eq_one_left hl), Nat.eq_one_of_mul_eq_one_right hl]
    exact ⟨s.length, shape.prod, t.length, by rw [← key s hs, ← key t ht]; exact hst⟩
  · rintro ⟨a, k, b, rfl⟩
    have hp : (List.replicate a 1 ++ k :: List.replicate b 1).prod = k := by simp
    rw [hp] at h ⊢
    rw [List.max?_eq_some_iff]
    constructor
    · simp
    · intro x hx
      simp only [List.mem_append, List.mem_replicate, List.mem_cons] at hx
      omega

theorem squeeze_vec {a k b : ℕ} (hk : 2 ≤ k) : squeeze (List.replicate a 1 ++ k :: List.replicate b 1) = [k] := by
  unfold squeeze
  rw [List.filter_append, List.filter_cons, List.filter_replicate, List.filter_replicate]
  simp
  omega

theorem isVec_shape {n : ℕ} {v : VecArr n} (h : IsVec v.shape) : ∃ a b, v.shape = List.replicate a 1 ++ n :: List.replicate b 1 := by
  obtain ⟨a, k, b, hk⟩ := h
  have := v.prod
  rw [hk] at this
  simp at this
  exact ⟨a, b, by rw [hk, this]⟩

theorem vecCheck_ok {tag : String} {n : ℕ} {v : VecArr n} (hn : n ≠ 0) : vecCheck tag v = .ok () ↔ IsVec v.shape := by
  have hp : v.shape.prod ≠ 0 := by rw [v.prod]; exact hn
  rw [← max_eq_prod_iff hp, v.prod]
  unfold vecCheck throwErr
  cases hm : v.shape.max? with
  | none => simp
  | some k =>
    simp only [ne_eq, Option.some.injEq]
    by_cases h : n = k
    · simp [h]
    · rw [if_pos h]
      simp
      exact fun h' => h h'.symm

/-- First column of the SVD of a one-column matrix. -/
theorem svd_col (S : Svd) {n : ℕ} (hn : 1 ≤ n) (v : Fin n → ℝ) :
    v = (S.s (colMat v) ⟨0, by omega⟩ * S.Vt (colMat v) 0 0) • (fun i => S.U (colMat v) i ⟨0, hn⟩) ∧
      S.Vt (colMat v) 0 0 * S.Vt (colMat v) 0 0 = 1 := by
  constructor
  · have h := S.spec (colMat v)
    funext i
    have hi := congrFun (congrFun h i) 0
    rw [mul_apply, Fin.sum_univ_one, mul_apply, Finset.sum_eq_single ⟨0, hn⟩] at hi
    · have h0 : colMat v i 0 = v i := rfl
      rw [h0] at hi
      rw [hi]
      simp only [Pi.smul_apply, smul_eq_mul]
      have : (sigma (S.s (colMat v)) : Matrix (Fin n) (Fin 1) ℝ) ⟨0, hn⟩ 0 = S.s (colMat v) ⟨0, by omega⟩ := by
        unfold sigma; exact dif_pos rfl
      rw [this]; ring
    · intro j _ hj
      have : (sigma (S.s (colMat v)) : Matrix (Fin n) (Fin 1) ℝ) j 0 = 0 := by
        unfold sigma
        rw [dif_neg]
        intro hj0
        exact hj (Fin.ext hj0)
      rw [this, mul_zero]
    · intro h; exact absurd (Finset.mem_univ _) h
  · have := congrFun (congrFun (S.Vt_orth (colMat v)) 0) 0
    rw [mul_apply, Fin.sum_univ_one, transpose_apply, one_apply_eq] at this
    exact this

theorem orth_col_unit {n : ℕ} {U : Matrix (Fin n) (Fin n) ℝ} (h : Uᵀ * U = 1) (j : Fin n) :
    (fun i => U i j) ⬝ᵥ (fun i => U i j) = 1 ∧ Uᵀ *ᵥ (fun i => U i j) = Pi.single j 1 := by
  have key : ∀ k, ∑ i, U i k * U i j = (1 : Matrix (Fin n) (Fin n) ℝ) k j := fun k => by
    rw [← h, mul_apply]; rfl
  constructor
  · rw [dotProduct, key, one_apply_eq]
  · funext k
    show ∑ i, U i k * U i j = _
    rw [key, one_apply, Pi.single_apply]

/-- The singular value of a one-column matrix is the length of the column. -/
theorem svd_col_norm (S : Svd) {n : ℕ} (hn : 1 ≤ n) (v : Fin n → ℝ) :
    S.s (colMat v) ⟨0, by omega⟩ = Real.sqrt (v ⬝ᵥ v) := by
  obtain ⟨h1, h2⟩ := svd_col S hn v
  have h3 := (orth_col_unit (S.U_orth (colMat v)) ⟨0, hn⟩).1
  have hs := S.s_nonneg (colMat v) ⟨0, by omega⟩
  have : v ⬝ᵥ v = S.s (colMat v) ⟨0, by omega⟩ ^ 2 := by
    nth_rw 1 2 [h1]
    rw [smul_dotProduct, dotProduct_smul, h3, smul_eq_mul, smul_eq_mul]
    linear_combination (S.s (colMat v) ⟨0, by omega⟩) ^ 2 * h2
  rw [this, Real.sqrt_sq hs]

/-- **C30**: which arrays are rejected. -/
theorem C30_raises_iff (S : Svd) {n m : ℕ} (hn : n ≠ 0) (hm : m ≠ 0) (v : VecArr n) (x : VecArr m) :
    Raises (ellValign S v x) ↔ ¬ (IsVec v.shape ∧ IsVec x.shape ∧ n = m ∧ 2 ≤ n) := by
  unfold ellValign
  cases hv : vecCheck "wrongInput:v" v with
  | error e =>
    refine iff_of_true ⟨_, rfl⟩ (fun h => ?_)
    rw [(vecCheck_ok (tag := "wrongInput:v") hn).mpr h.1] at hv; cases hv
  | ok u =>
    have hv := (vecCheck_ok hn).mp hv
    cases hx : vecCheck "wrongInput:x" x with
    | error e =>
      refine iff_of_true ⟨_, rfl⟩ (fun h => ?_)
      rw [(vecCheck_ok (tag := "wrongInput:x") hm).mpr h.2.1] at hx; cases hx
    | ok u =>
      have hx := (vecCheck_ok hm).mp hx
      obtain ⟨a, b, ha⟩ := isVec_shape hv
      obtain ⟨c, d, hc⟩ := isVec_shape hx
      simp only
      have h1 : squeeze (List.replicate a 1 ++ 1 :: List.replicate b 1) = [] := by
        unfold squeeze; simp
      have h1' : squeeze (List.replicate c 1 ++ 1 :: List.replicate d 1) = [] := by
        unfold squeeze; simp
      by_cases hn2 : 2 ≤ n
      swap
      · have : n = 1 := by omega
        subst this
        rw [ha, h1]
        exact iff_of_true ⟨_, rfl⟩ (fun h => by omega)
      rw [ha, squeeze_vec hn2]
      by_cases hm2 : 2 ≤ m
      swap
      · have : m = 1 := by omega
        subst this
        rw [hc, h1']
        exact iff_of_true ⟨_, rfl⟩ (fun h => by omega)
      rw [hc, squeeze_vec hm2]
      simp only [pyIndex, List.getElem?_cons_zero]
      by_cases hnm : n = m
      · subst hnm
        rw [if_neg (by simp), dif_pos rfl]
        refine iff_of_false (by rintro ⟨e, he⟩; cases he) (not_not.mpr ⟨⟨a, n, b, rfl⟩, ⟨c, n, d, rfl⟩, rfl, hn2⟩)
      · rw [if_pos hnm]
        exact iff_of_true ⟨_, rfl⟩ (fun h => hnm h.2.2.1)

/-- **C30**: for vectors of length at least two the result is orthogonal and takes `x` to the direction of `v`. -/
theorem C30 (S : Svd) {n : ℕ} (hn : 2 ≤ n) (v x : VecArr n) (hv : IsVec v.shape) (hx : IsVec x.shape) :
    ∃ T, ellValign S v x = .ok T ∧ Tᵀ * T = 1 ∧
      (v.data ≠ 0 → T *ᵥ x.data = (Real.sqrt (x.data ⬝ᵥ x.data) / Real.sqrt (v.data ⬝ᵥ v.data)) • v.data) := by
  have hn0 : n ≠ 0 := by omega
  obtain ⟨a, b, ha⟩ := isVec_shape hv
  obtain ⟨c, d, hc⟩ := isVec_shape hx
  obtain ⟨hv1, hv2⟩ := svd_col S (by omega : 1 ≤ n) v.data
  obtain ⟨hx1, hx2⟩ := svd_col S (by omega : 1 ≤ n) x.data
  have hvn := svd_col_norm S (by omega : 1 ≤ n) v.data
  have hxn := svd_col_norm S (by omega : 1 ≤ n) x.data
  set p := S.Vt (colMat v.data) 0 0
  set q := S.Vt (colMat x.data) 0 0
  set U := S.U (colMat v.data) with hU
  set W := S.U (colMat x.data) with hW
  have hUU : Uᵀ * U = 1 := S.U_orth _
  have hWW : Wᵀ * W = 1 := S.U_orth _
  refine ⟨(p * q) • (U * Wᵀ), ?_, ?_, ?_⟩
  · unfold ellValign
    rw [(vecCheck_ok hn0).mpr hv, (vecCheck_ok hn0).mpr hx]
    simp only
    rw [ha, hc, squeeze_vec hn, squeeze_vec hn]
    simp only [pyIndex, List.getElem?_cons_zero]
    rw [if_neg (by simp)]
    rfl
  · rw [transpose_smul, transpose_mul, transpose_transpose, Matrix.smul_mul, Matrix.mul_smul, smul_smul]
    have : W * Uᵀ * (U * Wᵀ) = 1 := by
      rw [Matrix.mul_assoc, ← Matrix.mul_assoc Uᵀ, hUU, Matrix.one_mul, orth_comm hWW]
    rw [this]
    have : p * q * (p * q) = 1 := by linear_combination (q * q) * hv2 + hx2
    rw [this, one_smul]
  · intro hne
    have hWx : Wᵀ *ᵥ x.data = (Real.sqrt (x.data ⬝ᵥ x.data) * q) • Pi.single ⟨0, by omega⟩ 1 := by
      nth_rw 1 [hx1]
      rw [mulVec_smul, (orth_col_unit hWW _).2, hxn]
    have hUe : U *ᵥ Pi.single ⟨0, by omega⟩ 1 = fun i => U i ⟨0, by omega⟩ := by
      rw [mulVec_single_one]; rfl
    have hpos : 0 < Real.sqrt (v.data ⬝ᵥ v.data) := Real.sqrt_pos.mpr (dot_self_pos hne)
    rw [smul_mulVec, ← mulVec_mulVec, hWx, mulVec_smul, hUe]
    have hv1' : v.data = (Real.sqrt (v.data ⬝ᵥ v.data) * p) • (fun i => U i ⟨0, by omega⟩) := by
      rw [← hvn]; exact hv1
    have hv3 : (fun i => U i ⟨0, by omega⟩) = (p / Real.sqrt (v.data ⬝ᵥ v.data)) • v.data := by
      funext i
      have hi := congrFun hv1' i
      simp only [Pi.smul_apply, smul_eq_mul] at hi ⊢
      generalize Real.sqrt (v.data ⬝ᵥ v.data) = w at hi hpos
      rw [hi]
      field_simp
      linear_combination (-U i ⟨0, by omega⟩) * hv2
    rw [hv3, smul_smul, smul_smul]
    congr 1
    field_simp
    linear_combination (q * q * Real.sqrt (x.data ⬝ᵥ x.data)) * hv2 + Real.sqrt (x.data ⬝ᵥ x.data) * hx2

/-- A column `(3, 4)` and a row `(0, 2)`: the result takes `(0, 2)` to `(6/5, 8/5)`. -/
example (S : Svd) : ∃ T : Matrix (Fin 2) (Fin 2) ℝ, ellValign S (⟨[2, 1], rfl, ![3, 4]⟩ : VecArr 2) (⟨[1, 2], rfl, ![0, 2]⟩ : VecArr 2) = .ok T ∧ Tᵀ * T = 1 ∧
    T *ᵥ ![0, 2] = ![6 / 5, 8 / 5] := by
  obtain ⟨T, h1, h2, h3⟩ := C30 S (le_refl 2) (⟨[2, 1], rfl, ![3, 4]⟩ : VecArr 2) (⟨[1, 2], rfl, ![0, 2]⟩ : VecArr 2) ⟨0, 2, 1, rfl⟩ ⟨1, 2, 0, rfl⟩
  refine ⟨T, h1, h2, ?_⟩
  have h4 := h3 (fun h => by have := congrFun h 0; simp at this)
  simp only at h4
  rw [h4]
  have e1 : Real.sqrt ((![0, 2] : Fin 2 → ℝ) ⬝ᵥ ![0, 2]) = 2 := by
    rw [show ((![0, 2] : Fin 2 → ℝ) ⬝ᵥ ![0, 2]) = 2 ^ 2 by simp [dotProduct, Fin.sum_univ_two]; norm_num, Real.sqrt_sq (by norm_num)]
  have e2 : Real.sqrt ((![3, 4] : Fin 2 → ℝ) ⬝ᵥ ![3, 4]) = 5 := by
    rw [show ((![3, 4] : Fin 2 → ℝ) ⬝ᵥ ![3, 4]) = 5 ^ 2 by simp [dotProduct, Fin.sum_univ_two]; norm_num, Real.sqrt_sq (by norm_num)]
  simp only [e1, e2]
  funext i
  fin_cases i <;> simp <;> norm_num

end Ellipy.Core

