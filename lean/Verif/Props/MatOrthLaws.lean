import Verif.Props.TranslOpt
import Mathlib.LinearAlgebra.Matrix.ToLin
import Mathlib.LinearAlgebra.Dimension.Constructions
import Mathlib.LinearAlgebra.FiniteDimensional.Basic

/-! Property theorems C132: which columns `mat_orth` and `math_orth_col` return. -/

namespace Ellipy.LA
open Matrix

/-! ### Specification: one step of orthonormalisation -/

/-- `u` is the unit vector in the span of the first vectors up to `c`, orthogonal to the vectors before `c` and on the side of vector `c`. -/
def IsNext {m n : ℕ} (a : Fin n → Fin m → ℝ) (c : Fin n) (u : Fin m → ℝ) : Prop :=
  u ∈ Submodule.span ℝ (a '' {j | j ≤ c}) ∧ u ⬝ᵥ u = 1 ∧ (∀ j < c, u ⬝ᵥ a j = 0) ∧ 0 < u ⬝ᵥ a c

/-- The columns of `A` are linearly independent. -/
def Indep {m n : ℕ} (A : Matrix (Fin m) (Fin n) ℝ) : Prop := ∀ x, A *ᵥ x = 0 → x = 0

/-! ### Auxiliary facts -/

private theorem Indep.lin {m n : ℕ} {A : Matrix (Fin m) (Fin n) ℝ} (h : Indep A) : LinearIndependent ℝ A.col := by
  rw [← mulVec_injective_iff]
  intro x y hxy
  exact sub_eq_zero.mp (h _ (by rw [mulVec_sub, hxy, sub_self]))

private theorem Indep.le {m n : ℕ} {A : Matrix (Fin m) (Fin n) ℝ} (h : Indep A) : n ≤ m := by
  have := h.lin.fintype_card_le_finrank
  simpa using this

private theorem orth_to_span {m : ℕ} {s : Set (Fin m → ℝ)} {w : Fin m → ℝ} (h : ∀ x ∈ s, w ⬝ᵥ x = 0) (hw : w ∈ Submodule.span ℝ s) : w = 0 := by
  have : ∀ x ∈ Submodule.span ℝ s, w ⬝ᵥ x = 0 := by
    intro x hx
    induction hx using Submodule.span_induction with
    | mem x hx => exact h x hx
    | zero => exact dotProduct_zero _
    | add x y _ _ hx hy => rw [dotProduct_add, hx, hy, add_zero]
    | smul r x _ hx => rw [dotProduct_smul, hx, smul_zero]
  exact dotProduct_self_eq_zero.mp (this w hw)

/-- There is only one such vector. -/
private theorem IsNext.unique {m n : ℕ} {a : Fin n → Fin m → ℝ} {c : Fin n} {u v : Fin m → ℝ} (hu : IsNext a c u) (hv : IsNext a c v) : u = v := by
  obtain ⟨u1, u2, u3, u4⟩ := hu
  obtain ⟨v1, v2, v3, v4⟩ := hv
  set r := u ⬝ᵥ a c
  set s := v ⬝ᵥ a c
  have hw : s • u - r • v = 0 := by
    refine orth_to_span (s := a '' {j | j ≤ c}) ?_ (Submodule.sub_mem _ (Submodule.smul_mem _ _ u1) (Submodule.smul_mem _ _ v1))
    rintro x ⟨j, hj, rfl⟩
    rw [sub_dotProduct, smul_dotProduct, smul_dotProduct]
    rcases lt_or_eq_of_le (show j ≤ c from hj) with h | rfl
    · rw [u3 j h, v3 j h]; simp
    · show s * r - r * s = 0
      ring
  have he : s • u = r • v := sub_eq_zero.mp hw
  have hsq : s * s = r * r := by
    have h1 : (s • u) ⬝ᵥ (s • u) = s * s := by rw [smul_dotProduct, dotProduct_smul, u2]; simp
    have h2 : (r • v) ⬝ᵥ (r • v) = r * r := by rw [smul_dotProduct, dotProduct_smul, v2]; simp
    rw [← h1, he, h2]
  have hrs : s = r := by nlinarith
  rw [hrs] at he
  exact smul_right_injective _ u4.ne' he

/-- The columns of the orthogonal factor. -/
private theorem fact_next {m n : ℕ} {A : Matrix (Fin m) (Fin n) ℝ} (hA : Indep A) {O : Matrix (Fin m) (Fin m) ℝ} {R : Matrix (Fin m) (Fin n) ℝ}
    (hO : Oᵀ * O = 1) (he : A = O * R) (hup : ∀ i j, j.val < i.val → R i j = 0) (hd : ∀ (i : Fin m) (j : Fin n), i.val = j.val → 0 ≤ R i j) :
    ∀ (c : Fin n) (h : c.val < m), IsNext A.col c (O.col ⟨c, h⟩) := by
  have hdot : ∀ (i : Fin m) (j : Fin n), O.col i ⬝ᵥ A.col j = R i j := by
    intro i j
    have : Oᵀ * A = R := by rw [he, ← Matrix.mul_assoc, hO, Matrix.one_mul]
    rw [← this]; rfl
  have hunit : ∀ i, O.col i ⬝ᵥ O.col i = 1 := fun i => by
    have := congrFun (congrFun hO i) i
    rw [one_apply_eq] at this
    exact this
  have hcol : ∀ j, A.col j = ∑ i, R i j • O.col i := by
    intro j
    ext k
    show A k j = _
    rw [he, mul_apply, Finset.sum_apply]
    exact Finset.sum_congr rfl (fun i _ => mul_comm _ _)
  have key : ∀ (k : ℕ) (c : Fin n) (h : c.val < m), c.val = k → O.col ⟨c, h⟩ ∈ Submodule.span ℝ (A.col '' {j | j ≤ c}) ∧ R ⟨c, h⟩ c ≠ 0 := by
    intro k
    induction k using Nat.strong_induction_on with
    | _ k ih =>
    intro c h hk
    have hsplit : A.col c = R ⟨c, h⟩ c • O.col ⟨c, h⟩ + ∑ i ∈ Finset.univ.filter (fun i : Fin m => i.val < c.val), R i c • O.col i := by
      rw [hcol c, ← Finset.add_sum_erase Finset.univ _ (Finset.mem_univ (⟨c, h⟩ : Fin m))]
      congr 1
      symm
      apply Finset.sum_subset_zero_on_sdiff
      · intro i hi
        have := (Finset.mem_filter.mp hi).2
        refine Finset.mem_erase.mpr ⟨fun hh => ?_, Finset.mem_univ _⟩
        rw [hh] at this
        exact lt_irrefl _ this
      · intro i hi
        rw [Finset.mem_sdiff, Finset.mem_erase, Finset.mem_filter] at hi
        have h1 : i.val ≠ c.val := fun hh => hi.1.1 (Fin.ext hh)
        have h2 : ¬ i.val < c.val := fun hh => hi.2 ⟨Finset.mem_univ _, hh⟩
        rw [hup i c (by omega), zero_smul]
      · intro i _; rfl
    have hrest : ∑ i ∈ Finset.univ.filter (fun i : Fin m => i.val < c.val), R i c • O.col i ∈ Submodule.span ℝ (A.col '' {j | j < c}) := by
      refine Submodule.sum_mem _ (fun i hi => Submodule.smul_mem _ _ ?_)
      have hi' := (Finset.mem_filter.mp hi).2
      have h3 := (ih i.val (by omega) ⟨i.val, by omega⟩ i.2 rfl).1
      refine Submodule.span_mono (Set.image_mono ?_) h3
      intro j hj
      exact lt_of_le_of_lt (show j ≤ ⟨i.val, by omega⟩ from hj) hi'
    have hne : R ⟨c, h⟩ c ≠ 0 := by
      intro h0
      rw [h0, zero_smul, zero_add] at hsplit
      rw [← hsplit] at hrest
      exact hA.lin.notMem_span_image (s := {j | j < c}) (x := c) (by simp) hrest
    refine ⟨?_, hne⟩
    have h4 : O.col ⟨c, h⟩ = (R ⟨c, h⟩ c)⁻¹ • (A.col c - ∑ i ∈ Finset.univ.filter (fun i : Fin m => i.val < c.val), R i c • O.col i) := by
      rw [hsplit, add_sub_cancel_right, smul_smul, inv_mul_cancel₀ hne, one_smul]
    rw [h4]
    refine Submodule.smul_mem _ _ (Submodule.sub_mem _ (Submodule.subset_span ⟨c, by simp, rfl⟩) ?_)
    refine Submodule.span_mono (Set.image_mono ?_) hrest
    intro j hj
    exact le_of_lt (show j < c from hj)
  intro c h
  obtain ⟨h1, h2⟩ := key c.val c h rfl
  refine ⟨h1, hunit _, fun j hj => ?_, ?_⟩
  · rw [hdot]; exact hup _ _ hj
  · rw [hdot]; exact lt_of_le_of_ne (hd _ _ rfl) h2.symm

/-! ### The theorems -/

/-- **C132**: for linearly independent columns, column `c` of `mat_orth` is the unit vector in the span of the columns up to `c` that is
orthogonal to the columns before and on the side of column `c`, and the only one; so it does not depend on the routine. -/
theorem C132_columns (B : QrC) {m n : ℕ} (A : Matrix (Fin m) (Fin n) ℝ) (hA : Indep A) : n ≤ m ∧
    ∀ (c : Fin n) (h : c.val < m) (u : Fin m → ℝ), IsNext A.col c u ↔ u = (matOrth B A).col ⟨c, h⟩ := by
  refine ⟨hA.le, fun c h u => ?_⟩
  obtain ⟨R, h1, h2, h3⟩ := C28_triangular B A
  have := fact_next hA (C28_orth B A) h1 h2 h3 c h
  exact ⟨fun hu => hu.unique this, fun hu => hu ▸ this⟩

/-- **C132**: `math_orth_col` of independent columns is the same for all routines, and so is `mat_orth` of an invertible matrix. -/
theorem C132_routines (B B' : QrC) {m n : ℕ} (A : Matrix (Fin m) (Fin n) ℝ) (hA : Indep A) :
    matOrthCol B A = matOrthCol B' A ∧ (m ≤ n → matOrth B A = matOrth B' A) := by
  have key : ∀ (c : Fin n) (h : c.val < m), (matOrth B A).col ⟨c, h⟩ = (matOrth B' A).col ⟨c, h⟩ := fun c h =>
    ((C132_columns B' A hA).2 c h _).mp (((C132_columns B A hA).2 c h _).mpr rfl)
  constructor
  · ext i j
    exact congrFun (key ⟨j, by omega⟩ (by show j.val < m; omega)) i
  · intro hmn
    ext i j
    exact congrFun (key ⟨j, by omega⟩ j.2) i

/-- **C132**: orthonormal columns stay as they are. -/
theorem C132_fixed (B : QrC) {m n : ℕ} (A : Matrix (Fin m) (Fin n) ℝ) (hA : Aᵀ * A = 1) :
    n ≤ m ∧ ∀ (c : Fin n) (h : c.val < m), (matOrth B A).col ⟨c, h⟩ = A.col c := by
  have hI : Indep A := by
    intro x hx
    have : (Aᵀ * A) *ᵥ x = 0 := by rw [← mulVec_mulVec, hx, mulVec_zero]
    rwa [hA, one_mulVec] at this
  have hdot : ∀ i j, A.col i ⬝ᵥ A.col j = if i = j then 1 else 0 := fun i j => by
    rw [← one_apply, ← hA]; rfl
  refine ⟨hI.le, fun c h => (((C132_columns B A hI).2 c h _).mp ⟨Submodule.subset_span ⟨c, by simp, rfl⟩, ?_, fun j hj => ?_, ?_⟩).symm⟩
  · rw [hdot, if_pos rfl]
  · rw [hdot, if_neg hj.ne']
  · rw [hdot, if_pos rfl]; exact one_pos

/-- **C132**: applying `mat_orth` twice is applying it once, and orthogonal matrices stay as they are. -/
theorem C132_twice (B B' : QrC) {m n : ℕ} (A : Matrix (Fin m) (Fin n) ℝ) (O : Matrix (Fin m) (Fin m) ℝ) (hO : Oᵀ * O = 1) :
    matOrth B (matOrth B' A) = matOrth B' A ∧ matOrth B O = O := by
  have key : ∀ O : Matrix (Fin m) (Fin m) ℝ, Oᵀ * O = 1 → matOrth B O = O := by
    intro O hO
    ext i j
    exact congrFun ((C132_fixed B O hO).2 j j.2) i
  exact ⟨key _ (C28_orth B' A), key O hO⟩

/-- **C132**: turning or mirroring the columns turns or mirrors the result. -/
theorem C132_turned (B B' : QrC) {m n : ℕ} (A : Matrix (Fin m) (Fin n) ℝ) (hA : Indep A) (W : Matrix (Fin m) (Fin m) ℝ) (hW : Wᵀ * W = 1) :
    ∀ (c : Fin n) (h : c.val < m), (matOrth B (W * A)).col ⟨c, h⟩ = W *ᵥ (matOrth B' A).col ⟨c, h⟩ := by
  intro c h
  have hI : Indep (W * A) := by
    intro x hx
    apply hA
    have : (Wᵀ * (W * A)) *ᵥ x = 0 := by rw [← mulVec_mulVec, hx, mulVec_zero]
    rwa [← Matrix.mul_assoc, hW, Matrix.one_mul] at this
  obtain ⟨R, h1, h2, h3⟩ := C28_triangular B' A
  have h4 := fact_next hI (O := W * matOrth B' A) (R := R) (by
    rw [transpose_mul, Matrix.mul_assoc, ← Matrix.mul_assoc Wᵀ, hW, Matrix.one_mul, C28_orth]) (by
    rw [Matrix.mul_assoc, ← h1]) h2 h3 c h
  rw [← ((C132_columns B (W * A) hI).2 c h _).mp h4]
  rfl

/-- **C132**: replacing each column by a positive multiple of it plus a combination of the columns before it changes nothing. -/
theorem C132_steps (B B' : QrC) {m n : ℕ} (A : Matrix (Fin m) (Fin n) ℝ) (hA : Indep A) (T : Matrix (Fin n) (Fin n) ℝ)
    (hT : ∀ i j, j < i → T i j = 0) (hpos : ∀ j, 0 < T j j) :
    ∀ (c : Fin n) (h : c.val < m), (matOrth B (A * T)).col ⟨c, h⟩ = (matOrth B' A).col ⟨c, h⟩ := by
  intro c h
  have hdet : IsUnit T.det := by
    rw [det_of_upperTriangular (fun i j hij => hT i j hij), isUnit_iff_ne_zero]
    exact Finset.prod_ne_zero_iff.mpr fun j _ => (hpos j).ne'
  have hI : Indep (A * T) := by
    intro x hx
    have h1 : T *ᵥ x = 0 := hA _ (by rw [mulVec_mulVec, hx])
    have : (T⁻¹ * T) *ᵥ x = 0 := by rw [← mulVec_mulVec, h1, mulVec_zero]
    rwa [nonsing_inv_mul _ hdet, one_mulVec] at this
  obtain ⟨R, h1, h2, h3⟩ := C28_triangular B' A
  have h4 := fact_next hI (O := matOrth B' A) (R := R * T) (C28_orth B' A) (by rw [← Matrix.mul_assoc, ← h1]) (by
    intro i j hij
    rw [mul_apply]
    refine Finset.sum_eq_zero (fun k _ => ?_)
    rcases lt_or_ge k.val i.val with hk | hk
    · rw [h2 i k hk, zero_mul]
    · rw [hT k j (show j.val < k.val by omega), mul_zero]) (by
    intro i j hij
    rw [mul_apply, Finset.sum_eq_single j]
    · exact mul_nonneg (h3 i j hij) (hpos j).le
    · intro k _ hk
      rcases lt_or_ge k.val i.val with h5 | h5
      · rw [h2 i k h5, zero_mul]
      · rw [hT k j (show j.val < k.val by have : k.val ≠ j.val := fun hh => hk (Fin.ext hh)
                                          omega), mul_zero]
    · simp) c h
  exact (((C132_columns B (A * T) hI).2 c h _).mp h4).symm

/-- **C132**: a column replaced by its negative gives the negative of the column of the result, and nothing else changes. -/
theorem C132_signs (B B' : QrC) {m n : ℕ} (A : Matrix (Fin m) (Fin n) ℝ) (hA : Indep A) (s : Fin n → ℝ) (hs : ∀ j, s j = 1 ∨ s j = -1) :
    ∀ (c : Fin n) (h : c.val < m), (matOrth B (A * diagonal s)).col ⟨c, h⟩ = s c • (matOrth B' A).col ⟨c, h⟩ := by
  intro c h
  have hss : ∀ j, s j * s j = 1 := fun j => by rcases hs j with h | h <;> rw [h] <;> norm_num
  have hI : Indep (A * diagonal s) := by
    intro x hx
    have h1 : diagonal s *ᵥ x = 0 := hA _ (by rw [mulVec_mulVec, hx])
    funext j
    have := congrFun h1 j
    rw [mulVec_diagonal] at this
    have h2 : s j ≠ 0 := fun h0 => by have := hss j; rw [h0] at this; norm_num at this
    exact (mul_eq_zero.mp this).resolve_left h2
  have hc : ∀ j, (A * diagonal s).col j = s j • A.col j := fun j => by
    ext i
    show (A * diagonal s) i j = s j * A i j
    rw [mul_diagonal, mul_comm]
  obtain ⟨u1, u2, u3, u4⟩ := ((C132_columns B' A hA).2 c h _).mpr rfl
  refine (((C132_columns B (A * diagonal s) hI).2 c h _).mp ⟨?_, ?_, fun j hj => ?_, ?_⟩).symm
  · refine Submodule.smul_mem _ _ ?_
    refine (Submodule.span_le.mpr ?_) u1
    rintro x ⟨j, hj, rfl⟩
    have : A.col j = s j • (A * diagonal s).col j := by rw [hc, smul_smul, hss, one_smul]
    rw [this]
    exact Submodule.smul_mem _ _ (Submodule.subset_span ⟨j, hj, rfl⟩)
  · rw [smul_dotProduct, dotProduct_smul, u2, smul_eq_mul, smul_eq_mul, mul_one, hss]
  · rw [hc, smul_dotProduct, dotProduct_smul, u3 j hj, smul_zero, smul_zero]
  · rw [hc, smul_dotProduct, dotProduct_smul, smul_smul, hss, one_smul]; exact u4

/-- **C132**: the first `k` columns of the result depend on the first `k` columns only. -/
theorem C132_first (B B' : QrC) {m n k : ℕ} (A : Matrix (Fin m) (Fin n) ℝ) (hA : Indep A) (hk : k ≤ n) :
    ∀ (c : Fin k) (h : c.val < m), (matOrth B (A.submatrix id (Fin.castLE hk))).col ⟨c, h⟩ = (matOrth B' A).col ⟨c, h⟩ := by
  intro c h
  have hI : Indep (A.submatrix id (Fin.castLE hk)) := by
    intro x hx
    have hinj : Function.Injective (A.submatrix id (Fin.castLE hk)).mulVec := by
      rw [mulVec_injective_iff]
      exact hA.lin.comp (Fin.castLE hk) (Fin.castLE_injective hk)
    exact hinj (by rw [hx, mulVec_zero])
  obtain ⟨u1, u2, u3, u4⟩ := ((C132_columns B' A hA).2 (Fin.castLE hk c) h _).mpr rfl
  refine (((C132_columns B _ hI).2 c h _).mp ⟨?_, u2, fun j hj => u3 (Fin.castLE hk j) hj, u4⟩).symm
  refine Submodule.span_mono ?_ u1
  rintro x ⟨j, hj, rfl⟩
  exact ⟨⟨j.val, lt_of_le_of_lt (show j.val ≤ c.val from hj) c.2⟩, hj, rfl⟩

/-- The same factorisation with both factors negated. -/
def negQr (B : QrC) : QrC where
  Q A := -B.Q A
  R A := -B.R A
  orth A := by rw [transpose_neg, Matrix.neg_mul, Matrix.mul_neg, neg_neg, B.orth]
  upper A i j h := by rw [neg_apply, B.upper A i j h, neg_zero]
  spec A := by rw [Matrix.neg_mul, Matrix.mul_neg, neg_neg, ← B.spec]

/-- **C132**: without independence the routine matters: for the zero matrix two valid routines give opposite results. -/
theorem C132_dependent (B : QrC) {m n : ℕ} (hm : m ≠ 0) (Z : Matrix (Fin m) (Fin n) ℝ) (hZ : Z = 0) :
    matOrth (negQr B) Z = -matOrth B Z ∧ matOrth (negQr B) Z ≠ matOrth B Z := by
  have hR : B.R Z = 0 := by
    have h : (B.Q Z)ᵀ * Z = (B.Q Z)ᵀ * (B.Q Z * B.R Z) := by rw [← B.spec Z]
    rw [← Matrix.mul_assoc, B.orth, Matrix.one_mul] at h
    rw [← h, hZ, Matrix.mul_zero]
  have h1 : matOrth B Z = B.Q Z := by
    ext i j; simp [matOrth, hR]
  have h2 : matOrth (negQr B) Z = -B.Q Z := by
    ext i j; simp [matOrth, negQr, hR]
  refine ⟨by rw [h1, h2], fun h => ?_⟩
  rw [h1, h2] at h
  have h0 : B.Q Z = 0 := by
    ext i j
    have := congrFun (congrFun h i) j
    rw [neg_apply] at this
    show _ = (0 : ℝ)
    linarith
  have := B.orth Z
  rw [h0, Matrix.mul_zero] at this
  have := congrFun (congrFun this ⟨0, by omega⟩) ⟨0, by omega⟩
  rw [one_apply_eq] at this
  simp at this

/-! ### Non-triviality -/

/-- Two independent columns. -/
def wedge : Matrix (Fin 3) (Fin 2) ℝ := !![3, 1; 4, 2; 0, -5]

private theorem wedge_indep : Indep wedge := by
  intro x hx
  unfold wedge at hx
  have h1 := congrFun hx 0
  have h3 := congrFun hx 2
  simp [mulVec, dotProduct, Fin.sum_univ_two] at h1 h3
  have h2 : x 1 = 0 := by linarith
  funext i
  fin_cases i
  · show x 0 = 0
    rw [h2] at h1
    simpa using h1
  · exact h2

/-- The first column of the result. -/
example (B : QrC) : (matOrth B wedge).col 0 = ![3 / 5, 4 / 5, 0] := by
  refine (((C132_columns B _ wedge_indep).2 0 (by norm_num) _).mp ⟨?_, ?_, fun j hj => absurd hj (by simp), ?_⟩).symm
  · have : (![3 / 5, 4 / 5, 0] : Fin 3 → ℝ) = (1 / 5 : ℝ) • wedge.col 0 := by
      ext i; fin_cases i <;> simp [wedge] <;> norm_num
    rw [this]
    exact Submodule.smul_mem _ _ (Submodule.subset_span ⟨0, by simp, rfl⟩)
  · simp [dotProduct, Fin.sum_univ_three, wedge]; norm_num
  · simp [dotProduct, Fin.sum_univ_three, wedge]; norm_num

example (B B' : QrC) : matOrthCol B wedge = matOrthCol B' wedge :=
  (C132_routines B B' _ wedge_indep).1

/-- A quarter turn stays as it is. -/
example (B : QrC) : matOrth B (!![0, -1; 1, 0] : Matrix (Fin 2) (Fin 2) ℝ) = !![0, -1; 1, 0] :=
  (C132_twice B B (!![0, -1; 1, 0] : Matrix (Fin 2) (Fin 2) ℝ) _ (by ext i j; fin_cases i <;> fin_cases j <;> simp [mul_apply, Fin.sum_univ_two])).2

/-- Stretching the columns and adding a multiple of the first to the second. -/
example (B : QrC) : ∀ (c : Fin 2) (h : c.val < 3), (matOrth B (wedge * (!![7, -2; 0, 3] : Matrix (Fin 2) (Fin 2) ℝ))).col ⟨c, h⟩ =
    (matOrth B wedge).col ⟨c, h⟩ :=
  C132_steps B B _ wedge_indep _ (by intro i j h; fin_cases i <;> fin_cases j <;> simp at h ⊢) (by intro j; fin_cases j <;> simp)

example (B : QrC) : ∀ (c : Fin 2) (h : c.val < 3), (matOrth B (wedge * diagonal (![1, -1] : Fin 2 → ℝ))).col ⟨c, h⟩ =
    (![1, -1] : Fin 2 → ℝ) c • (matOrth B wedge).col ⟨c, h⟩ :=
  C132_signs B B _ wedge_indep _ (by intro j; fin_cases j <;> simp)

example (B : QrC) : ∀ (c : Fin 2) (h : c.val < 3), (matOrth B ((!![0, 0, 1; 1, 0, 0; 0, 1, 0] : Matrix (Fin 3) (Fin 3) ℝ) * wedge)).col ⟨c, h⟩ =
    (!![0, 0, 1; 1, 0, 0; 0, 1, 0] : Matrix (Fin 3) (Fin 3) ℝ) *ᵥ (matOrth B wedge).col ⟨c, h⟩ :=
  C132_turned B B _ wedge_indep _ (by ext i j; fin_cases i <;> fin_cases j <;> simp [mul_apply, Fin.sum_univ_three])

example (B : QrC) : ∀ (c : Fin 1) (h : c.val < 3), (matOrth B (wedge.submatrix id (Fin.castLE (show 1 ≤ 2 by norm_num)))).col ⟨c, h⟩ =
    (matOrth B wedge).col ⟨c, h⟩ :=
  C132_first B B _ wedge_indep (by norm_num)

end Ellipy.LA
