import Mathlib.LinearAlgebra.Matrix.Rank
import Verif.Props.IsBigger
import Verif.Props.EllEigs

/-! Property theorem C83 (`dimension`). -/

namespace Ellipy.Ell
open Matrix Ellipy.LA Ellipy.Core

/-- **C83**: `dimension` rejects exactly the arguments with something that is not an ellipsoid. -/
theorem C83_raises_iff (arg : ObjArg EllObj) (e : Exc) : dimension arg = .error e ↔ arg.Foreign ∧ e = .valueError "wrongInput" := by
  have h1 := C80_raises_iff "wrongInput" "" arg e
  simp only [if_true] at h1
  rw [← h1]
  unfold dimension
  cases h : checkIsMe "wrongInput" "" arg with
  | error e' =>
    constructor <;> intro h <;> (injection h with h; rw [h])
  | ok a =>
    simp only [reshape]
    rw [dif_pos (by rw [List.length_map, a.len])]
    exact iff_of_false (fun h => by cases h) (fun h => by cases h)

/-- **C83**: the result has the shape of the argument and contains the dimension of each ellipsoid (0 for the empty one). -/
theorem C83_dim (arg : ObjArg EllObj) (a : Arr EllObj) (ha : arg.Is a) :
    ∃ d : Arr ℕ, dimension arg = .ok d ∧ d.shape = a.shape ∧ d.data = a.data.map (fun x => x.n) := by
  unfold dimension
  rw [(C80_ok_iff _ _ _ _).mpr ha]
  simp only [reshape]
  rw [dif_pos (by rw [List.length_map, a.len])]
  exact ⟨_, rfl, rfl, rfl⟩

theorem rank_count (S : Svd) {n : ℕ} {Q : Matrix (Fin n) (Fin n) ℝ} (hQ : IsPSD Q) :
    Q.rank = (Finset.univ.filter (fun i => singVals S Q i ≠ 0)).card := by
  have hd := psd_svd S hQ
  have hU := isUnit_det_of_orth (S.U_orth Q)
  have hU' : IsUnit ((S.U Q)ᵀ).det := by rwa [det_transpose]
  conv_lhs => rw [hd]
  rw [rank_mul_eq_left_of_isUnit_det _ _ hU', rank_mul_eq_right_of_isUnit_det _ _ hU, rank_diagonal, Fintype.card_subtype]
  rfl

theorem affDim_ell {n : ℕ} (c : Fin n → ℝ) {Q : Matrix (Fin n) (Fin n) ℝ} (hQ : IsPSD Q) : affDim (Ell c Q) = Q.rank := by
  obtain ⟨S, hS, hSS⟩ := exists_root hQ
  have hM : S * Sᵀ = Q := by rw [hS.1, hSS]
  have h : vectorSpan ℝ (Ell c Q) = LinearMap.range S.mulVecLin := by
    apply le_antisymm
    · rw [vectorSpan_def, Submodule.span_le]
      rintro _ ⟨x, hx, y, hy, rfl⟩
      obtain ⟨u, _, rfl⟩ := (mem_ell_factor hM _).mp hx
      obtain ⟨w, _, rfl⟩ := (mem_ell_factor hM _).mp hy
      refine ⟨u - w, ?_⟩
      rw [mulVecLin_apply, mulVec_sub]
      change _ = (c + S *ᵥ u) - (c + S *ᵥ w)
      rw [add_sub_add_left_eq_sub]
    · rintro _ ⟨y, rfl⟩
      rw [mulVecLin_apply]
      by_cases hy : y = 0
      · subst hy; rw [mulVec_zero]; exact zero_mem _
      obtain ⟨v, hv, hyv⟩ := exists_unit hy
      rw [hyv, mulVec_smul]
      refine Submodule.smul_mem _ _ ?_
      have h1 : c + S *ᵥ v ∈ Ell c Q := (mem_ell_factor hM _).mpr ⟨v, hv.le, rfl⟩
      have := vsub_mem_vectorSpan ℝ h1 (center_mem (c := c) hQ)
      rwa [vsub_eq_sub, add_sub_cancel_left] at this
  rw [affDim, h, ← hM, rank_self_mul_transpose]
  rfl

theorem svd_eigen (S : Svd) {n : ℕ} {Q : Matrix (Fin n) (Fin n) ℝ} (hQ : IsPSD Q) (i : Fin n) : IsEigenvalue Q (singVals S Q i) := by
  have hd := psd_svd S hQ
  have hUU := S.U_orth Q
  refine ⟨S.U Q *ᵥ Pi.single i 1, ?_, ?_⟩
  · intro h0
    have h1 := congrArg (fun v => (S.U Q)ᵀ *ᵥ v) h0
    simp only [mulVec_mulVec, hUU, one_mulVec, mulVec_zero] at h1
    have := congrFun h1 i
    simp at this
  · nth_rw 1 [hd]
    rw [← mulVec_mulVec, ← mulVec_mulVec, mulVec_mulVec _ _ (S.U Q), hUU, one_mulVec, ← mulVec_smul]
    congr 1
    funext j
    rw [mulVec_diagonal, Pi.smul_apply, smul_eq_mul]
    by_cases hj : j = i
    · subst hj; rfl
    · rw [Pi.single_eq_of_ne hj, mul_zero, mul_zero]

/-- The numerical rank never exceeds the dimension of the affine hull. -/
theorem matRank_le_affDim (S : Svd) {n : ℕ} (c : Fin n → ℝ) {Q : Matrix (Fin n) (Fin n) ℝ} (hQ : IsPSD Q) {r : ℕ} (h : matRank S Q = .ok r) :
    r ≤ affDim (Ell c Q) := by
  rw [affDim_ell c hQ, rank_count S hQ]
  unfold matRank at h
  by_cases hn : n = 0
  · rw [dif_pos hn] at h; cases h
  rw [dif_neg hn] at h
  injection h with h
  subst h
  refine Finset.card_le_card (fun i hi => ?_)
  rw [Finset.mem_filter] at hi ⊢
  refine ⟨hi.1, ne_of_gt (lt_of_le_of_lt ?_ hi.2)⟩
  have h0 : 0 ≤ singVals S Q ⟨0, by omega⟩ := S.s_nonneg _ _
  have : (0 : ℝ) ≤ eps64 := by unfold eps64; positivity
  positivity

/-- For matrices whose non-zero eigenvalues exceed the largest one times the size times the machine epsilon it is exact. -/
theorem matRank_eq_affDim (S : Svd) {n : ℕ} (hn : n ≠ 0) (c : Fin n → ℝ) {Q : Matrix (Fin n) (Fin n) ℝ} (hQ : IsPSD Q)
    (hw : ∀ r s, IsEigenvalue Q r → IsEigenvalue Q s → r ≠ 0 → s * n / 2 ^ 52 < r) : matRank S Q = .ok (affDim (Ell c Q)) := by
  rw [affDim_ell c hQ, rank_count S hQ]
  unfold matRank
  rw [dif_neg hn]
  congr 2
  ext i
  rw [Finset.mem_filter, Finset.mem_filter]
  refine and_congr_right (fun _ => ⟨fun h h0 => ?_, fun h => ?_⟩)
  · rw [h0] at h
    have h1 : 0 ≤ singVals S Q ⟨0, by omega⟩ := S.s_nonneg _ _
    have : (0 : ℝ) ≤ eps64 := by unfold eps64; positivity
    have h2 : 0 ≤ singVals S Q ⟨0, by omega⟩ * n * eps64 := by positivity
    linarith
  · have := hw _ _ (svd_eigen S hQ i) (svd_eigen S hQ ⟨0, by omega⟩) h
    rw [div_eq_mul_one_div] at this
    exact this

/-- **C83**: with `return_rank` there are more reasons for an error: an array without elements and an empty ellipsoid. -/
theorem C83_rank_raises_iff (S : Svd) (arg : ObjArg EllObj) : Raises (dimensionRank S arg) ↔
    arg.Foreign ∨ ∃ a, arg.Is a ∧ (a.data = [] ∨ ∃ x ∈ a.data, x.n = 0) := by
  unfold dimensionRank
  cases h : checkIsMe "wrongInput" "" arg with
  | error e' => exact iff_of_true ⟨e', rfl⟩ (Or.inl ((C80_raises_iff _ _ _ _).mp h).1)
  | ok a =>
    have ha := (C80_ok_iff _ _ _ _).mp h
    have hnf : ¬ arg.Foreign := by
      intro hf
      rw [(C80_raises_iff "wrongInput" "" arg _).mpr ⟨hf, rfl⟩] at h
      cases h
    have huniq : ∀ a', arg.Is a' → a' = a := by
      intro a' ha'
      rw [(C80_ok_iff _ _ _ _).mpr ha'] at h
      injection h
    simp only
    cases hm : pyMap (fun e : EllObj => matRank S e.Q) a.data with
    | error e' =>
      refine iff_of_true ⟨e', rfl⟩ (Or.inr ⟨a, ha, Or.inr ?_⟩)
      obtain ⟨x, hx, y, hy⟩ := (pyMap_raises _ _).mp ⟨e', hm⟩
      refine ⟨x, hx, ?_⟩
      by_contra hn
      obtain ⟨r, hr, _⟩ := matRank_le S hn x.Q
      rw [hr] at hy; cases hy
    | ok rs =>
      simp only
      have hlen : a.data.length = rs.length := ((pyMap_ok_iff _ _ _).mp hm).length_eq
      have hall : ¬ ∃ x ∈ a.data, x.n = 0 := by
        rintro ⟨x, hx, h0⟩
        have : Raises (pyMap (fun e : EllObj => matRank S e.Q) a.data) := by
          rw [pyMap_raises]
          refine ⟨x, hx, .pyValueError, ?_⟩
          unfold matRank
          rw [dif_pos h0]
        rw [hm] at this
        obtain ⟨e, he⟩ := this
        cases he
      by_cases hl : a.data.length = 0
      · rw [if_pos hl]
        exact iff_of_true ⟨_, rfl⟩ (Or.inr ⟨a, ha, Or.inl (List.length_eq_zero_iff.mp hl)⟩)
      · rw [if_neg hl]
        simp only [reshape]
        rw [dif_pos (by rw [List.length_map, a.len]), dif_pos (by rw [← hlen, a.len])]
        refine iff_of_false (by rintro ⟨e, he⟩; cases he) ?_
        rintro (hf | ⟨a', ha', h1 | h1⟩)
        · exact hnf hf
        · rw [huniq a' ha'] at h1; rw [h1] at hl; exact hl rfl
        · rw [huniq a' ha'] at h1; exact hall h1

/-- **C83** (part): with `return_rank` both arrays have the shape of the argument; the second one contains the dimension of the affine hull
of each ellipsoid whose non-zero eigenvalues exceed the largest one times the size times `2⁻⁵²`, and never more than that dimension.
Missing: exactness for other ellipsoids, which fails (`C83_violated`). -/
theorem C83_rank_partial (S : Svd) (arg : ObjArg EllObj) (a : Arr EllObj) (ha : arg.Is a) (hd : a.data ≠ [])
    (hne : ∀ x ∈ a.data, x.n ≠ 0 ∧ IsPSD x.Q) :
    ∃ d r : Arr ℕ, dimensionRank S arg = .ok (d, r) ∧ d.shape = a.shape ∧ d.data = a.data.map (fun x => x.n) ∧ r.shape = a.shape ∧
      List.Forall₂ (fun (x : EllObj) k => k ≤ affDim (Ell x.c x.Q) ∧
        ((∀ r s, IsEigenvalue x.Q r → IsEigenvalue x.Q s → r ≠ 0 → s * x.n / 2 ^ 52 < r) → k = affDim (Ell x.c x.Q))) a.data r.data := by
  obtain ⟨rs, hrs, hf⟩ := forall₂_ok (f := fun e : EllObj => matRank S e.Q) (l := a.data)
    (P := fun x k => k ≤ affDim (Ell x.c x.Q) ∧
        ((∀ r s, IsEigenvalue x.Q r → IsEigenvalue x.Q s → r ≠ 0 → s * x.n / 2 ^ 52 < r) → k = affDim (Ell x.c x.Q))) (by
    intro x hx
    obtain ⟨hn, hQ⟩ := hne x hx
    obtain ⟨r, hr, _⟩ := matRank_le S hn x.Q
    refine ⟨r, hr, matRank_le_affDim S x.c hQ hr, fun hw => ?_⟩
    rw [matRank_eq_affDim S hn x.c hQ hw] at hr
    injection hr with hr
    exact hr.symm)
  unfold dimensionRank
  rw [(C80_ok_iff _ _ _ _).mpr ha]
  simp only [hrs]
  have hl : ¬ a.data.length = 0 := fun h => hd (List.length_eq_zero_iff.mp h)
  rw [if_neg hl]
  simp only [reshape]
  rw [dif_pos (by rw [List.length_map, a.len]), dif_pos (by rw [← hf.length_eq, a.len])]
  exact ⟨_, _, rfl, rfl, rfl, rfl, hf⟩

/-- **C83** fails for flat ellipsoids: the ellipse with the semiaxes 1 and `2⁻³⁰` spans the plane, and its rank is reported as 1. -/
theorem C83_violated (S : Svd) : ∃ x : EllObj, x.n = 2 ∧ IsPSD x.Q ∧ affDim (Ell x.c x.Q) = 2 ∧
    ∃ d r : Arr ℕ, dimensionRank S (.single (.inst x)) = .ok (d, r) ∧ d.data = [2] ∧ r.data = [1] := by
  have hb : (0 : ℝ) < (1 / 2 ^ 30) ^ 2 := by positivity
  have hQ : IsPSD (diagonal ![1, (1 / 2 ^ 30) ^ 2] : Matrix (Fin 2) (Fin 2) ℝ) := by
    refine ⟨diagonal_transpose _, fun x => ?_⟩
    rw [quad_diag, Fin.sum_univ_two]
    simp only [cons_val_zero, cons_val_one]
    positivity
  obtain ⟨h1, h2, h3, h4⟩ := svd_two S (a := 1) (b := (1 / 2 ^ 30) ^ 2) (by norm_num) hb.le
  refine ⟨⟨2, 0, diagonal ![1, (1 / 2 ^ 30) ^ 2], 1, 1, 1, 1⟩, rfl, hQ, ?_, ?_⟩
  · rw [affDim_ell _ hQ]
    refine (rank_of_isUnit _ ?_).trans (Fintype.card_fin 2)
    rw [isUnit_iff_isUnit_det, det_diagonal, Fin.prod_univ_two]
    simp
  · have hr : matRank S (diagonal ![1, (1 / 2 ^ 30) ^ 2] : Matrix (Fin 2) (Fin 2) ℝ) = .ok 1 := by
      unfold matRank
      rw [dif_neg (by norm_num)]
      congr 1
      set p := singVals S (diagonal ![1, (1 / 2 ^ 30) ^ 2] : Matrix (Fin 2) (Fin 2) ℝ) 0
      set q := singVals S (diagonal ![1, (1 / 2 ^ 30) ^ 2] : Matrix (Fin 2) (Fin 2) ℝ) 1
      have hp : 1 / 2 ≤ p := by nlinarith
      have hq : q ≤ 2 * (1 / 2 ^ 30) ^ 2 := by nlinarith
      have : (Finset.univ.filter (fun i : Fin 2 => p * (2 : ℕ) * eps64 <
          singVals S (diagonal ![1, (1 / 2 ^ 30) ^ 2] : Matrix (Fin 2) (Fin 2) ℝ) i)) = {0} := by
        ext i
        rw [Finset.mem_filter, Finset.mem_singleton]
        fin_cases i
        · refine iff_of_true ⟨Finset.mem_univ _, ?_⟩ rfl
          show p * (2 : ℕ) * eps64 < p
          unfold eps64
          have : p * 1 = p := mul_one p
          norm_num
          nlinarith
        · refine iff_of_false ?_ (by simp)
          rintro ⟨_, h⟩
          change p * (2 : ℕ) * eps64 < q at h
          unfold eps64 at h
          norm_num at h hq
          linarith
      exact (congrArg Finset.card this).trans (Finset.card_singleton _)
    have hm : pyMap (fun e : EllObj => matRank S e.Q)
        (Arr.scalar (⟨2, 0, diagonal ![1, (1 / 2 ^ 30) ^ 2], 1, 1, 1, 1⟩ : EllObj)).data = .ok [1] := by
      simp only [Arr.scalar, pyMap, hr]
    refine ⟨⟨[], [2], rfl⟩, ⟨[], [1], rfl⟩, ?_, rfl, rfl⟩
    unfold dimensionRank
    rw [(C80_ok_iff _ _ _ _).mpr (Or.inl ⟨_, rfl, rfl⟩)]
    simp only [hm]
    rfl

/-- A segment in the plane: dimension 2, rank 1, whatever the singular value decomposition. -/
example (S : Svd) : ∃ d r : Arr ℕ, dimensionRank S (.many ⟨[1, 1], [.inst ⟨2, 0, diagonal ![4, 0], 1, 1, 1, 1⟩], rfl⟩) = .ok (d, r) ∧
    d.shape = [1, 1] ∧ d.data = [2] ∧ r.data = [1] := by
  have hQ : IsPSD (diagonal ![4, 0] : Matrix (Fin 2) (Fin 2) ℝ) := by
    refine ⟨diagonal_transpose _, fun x => ?_⟩
    rw [quad_diag, Fin.sum_univ_two]
    simp only [cons_val_zero, cons_val_one]
    positivity
  obtain ⟨d, r, h1, h2, h3, h4, h5⟩ := C83_rank_partial S (.many ⟨[1, 1], [.inst ⟨2, 0, diagonal ![4, 0], 1, 1, 1, 1⟩], rfl⟩)
    ⟨[1, 1], [⟨2, 0, diagonal ![4, 0], 1, 1, 1, 1⟩], rfl⟩ (Or.inr ⟨_, rfl, rfl, rfl⟩) (by simp) (by
      intro x hx
      simp only [List.mem_singleton] at hx
      subst hx
      exact ⟨by norm_num, hQ⟩)
  refine ⟨d, r, h1, h2, h3, ?_⟩
  match hr : r.data, h5 with
  | [k], .cons hk .nil =>
    have h6 : ∀ t, IsEigenvalue (diagonal ![4, 0] : Matrix (Fin 2) (Fin 2) ℝ) t → t = 4 ∨ t = 0 := by
      rintro t ⟨v, hv, he⟩
      have e0 := congrFun he 0
      have e1 := congrFun he 1
      rw [mulVec_diagonal] at e0 e1
      simp at e0 e1
      rcases e0 with h | h
      · exact Or.inl h.symm
      · rcases e1 with h' | h'
        · exact Or.inr h'
        · exact absurd (by ext i; fin_cases i; exacts [h, h']) hv
    have h7 := hk.2 (by
      intro r s hr hs hr0
      rcases h6 r hr with rfl | rfl
      · rcases h6 s hs with rfl | rfl <;> norm_num
      · exact absurd rfl hr0)
    have h8 : affDim (Ell (0 : Fin 2 → ℝ) (diagonal ![4, 0])) = 1 := by
      rw [affDim_ell _ hQ, rank_diagonal, Fintype.card_subtype]
      have : (Finset.univ.filter (fun i : Fin 2 => (![4, 0] : Fin 2 → ℝ) i ≠ 0)) = {0} := by
        ext i; fin_cases i <;> simp
      rw [this]; rfl
    rw [h7]
    exact congrArg (fun k => [k]) h8

end Ellipy.Ell
