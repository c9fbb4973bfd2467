import Mathlib.LinearAlgebra.Matrix.Charpoly.Basic
import Mathlib.Algebra.Polynomial.Roots
import Verif.Props.EllDim

/-! Property theorem C83 (`dimension`): for which ellipsoids the reported rank is the dimension of the affine hull, and
its value in all cases; property theorem C42 (`is_bigger`): the verdict in all cases. -/

namespace Ellipy.Ell
open Matrix Ellipy.LA Ellipy.Core

/-- Every eigenvalue of a positive semidefinite matrix is one of its singular values. -/
theorem eigen_singVals (S : Svd) {n : ℕ} {Q : Matrix (Fin n) (Fin n) ℝ} (hQ : IsPSD Q) {r : ℝ} (h : IsEigenvalue Q r) :
    ∃ i, singVals S Q i = r := by
  obtain ⟨v, hv, he⟩ := h
  have hd := psd_svd S hQ
  have hUU := S.U_orth Q
  have hw : (S.U Q)ᵀ *ᵥ v ≠ 0 := by
    intro h0
    have h1 := congrArg (fun u => S.U Q *ᵥ u) h0
    simp only [mulVec_mulVec, mul_eq_one_comm.mp hUU, one_mulVec, mulVec_zero] at h1
    exact hv h1
  obtain ⟨i, hi⟩ := Function.ne_iff.mp hw
  refine ⟨i, ?_⟩
  have h2 := congrArg (fun u => (S.U Q)ᵀ *ᵥ u) he
  nth_rw 2 [hd] at h2
  rw [mulVec_mulVec, ← Matrix.mul_assoc, ← Matrix.mul_assoc, hUU, Matrix.one_mul, ← mulVec_mulVec, mulVec_smul] at h2
  have h3 := congrFun h2 i
  rw [mulVec_diagonal, Pi.smul_apply, smul_eq_mul] at h3
  exact mul_right_cancel₀ hi h3

/-- **C83**: with `return_rank` the number reported for an ellipsoid is the dimension of its affine hull exactly when every non-zero
eigenvalue of the shape matrix exceeds every eigenvalue times the size times `2⁻⁵²`; otherwise the number is smaller. -/
theorem C83_rank_iff (S : Svd) (arg : ObjArg EllObj) (a : Arr EllObj) (ha : arg.Is a) (hd : a.data ≠ [])
    (hne : ∀ x ∈ a.data, x.n ≠ 0 ∧ IsPSD x.Q) :
    ∃ d r : Arr ℕ, dimensionRank S arg = .ok (d, r) ∧ r.shape = a.shape ∧
      List.Forall₂ (fun (x : EllObj) k =>
        (k = affDim (Ell x.c x.Q) ↔ ∀ r s, IsEigenvalue x.Q r → IsEigenvalue x.Q s → r ≠ 0 → s * x.n / 2 ^ 52 < r) ∧
        (k < affDim (Ell x.c x.Q) ↔ ∃ r s, IsEigenvalue x.Q r ∧ IsEigenvalue x.Q s ∧ r ≠ 0 ∧ r ≤ s * x.n / 2 ^ 52)) a.data r.data := by
  obtain ⟨rs, hrs, hf⟩ := forall₂_ok (f := fun e : EllObj => matRank S e.Q) (l := a.data)
    (P := fun x k => (k = affDim (Ell x.c x.Q) ↔ ∀ r s, IsEigenvalue x.Q r → IsEigenvalue x.Q s → r ≠ 0 → s * x.n / 2 ^ 52 < r) ∧
        (k < affDim (Ell x.c x.Q) ↔ ∃ r s, IsEigenvalue x.Q r ∧ IsEigenvalue x.Q s ∧ r ≠ 0 ∧ r ≤ s * x.n / 2 ^ 52)) (by
    intro x hx
    obtain ⟨hn, hQ⟩ := hne x hx
    obtain ⟨k, hk, _⟩ := matRank_le S hn x.Q
    have hle := matRank_le_affDim S x.c hQ hk
    have hiff : k = affDim (Ell x.c x.Q) ↔ ∀ r s, IsEigenvalue x.Q r → IsEigenvalue x.Q s → r ≠ 0 → s * x.n / 2 ^ 52 < r := by
      refine ⟨fun he r s hr hs h0 => ?_, fun hw => ?_⟩
      · obtain ⟨i, rfl⟩ := eigen_singVals S hQ hr
        obtain ⟨j, rfl⟩ := eigen_singVals S hQ hs
        rw [affDim_ell x.c hQ, rank_count S hQ] at he
        unfold matRank at hk
        rw [dif_neg hn] at hk
        injection hk with hk
        rw [← hk] at he
        have heq := Finset.eq_of_subset_of_card_le (fun i hi => by
          rw [Finset.mem_filter] at hi ⊢
          refine ⟨hi.1, ne_of_gt (lt_of_le_of_lt ?_ hi.2)⟩
          have h0 : 0 ≤ singVals S x.Q ⟨0, by omega⟩ := S.s_nonneg _ _
          have : (0 : ℝ) ≤ eps64 := by unfold eps64; positivity
          positivity) he.ge
        have hi : i ∈ Finset.univ.filter (fun i => singVals S x.Q i ≠ 0) := Finset.mem_filter.mpr ⟨Finset.mem_univ _, h0⟩
        rw [← heq, Finset.mem_filter] at hi
        have hj : singVals S x.Q j ≤ singVals S x.Q ⟨0, by omega⟩ := S.s_anti _ (Fin.mk_le_mk.mpr (Nat.zero_le _))
        refine lt_of_le_of_lt ?_ hi.2
        unfold eps64
        rw [div_eq_mul_one_div]
        gcongr
      · rw [matRank_eq_affDim S hn x.c hQ hw] at hk
        injection hk with hk
        exact hk.symm
    refine ⟨k, hk, hiff, ?_⟩
    rw [lt_iff_le_and_ne, and_iff_right hle, Ne, hiff]
    push Not
    rfl)
  unfold dimensionRank
  rw [(C80_ok_iff _ _ _ _).mpr ha]
  simp only [hrs]
  have hl : ¬ a.data.length = 0 := fun h => hd (List.length_eq_zero_iff.mp h)
  rw [if_neg hl]
  simp only [reshape]
  rw [dif_pos (by rw [List.length_map, a.len]), dif_pos (by rw [← hf.length_eq, a.len])]
  exact ⟨_, _, rfl, rfl, hf⟩

/-- The eigenvalues of two orthogonal diagonalisations are the same, with multiplicities. -/
theorem diag_unique {n : ℕ} {Q U V : Matrix (Fin n) (Fin n) ℝ} {d g : Fin n → ℝ} (hU : Uᵀ * U = 1) (hV : Vᵀ * V = 1)
    (h1 : Q = U * diagonal d * Uᵀ) (h2 : Q = V * diagonal g * Vᵀ) :
    Finset.univ.val.map d = (Finset.univ : Finset (Fin n)).val.map g := by
  have key : ∀ {W : Matrix (Fin n) (Fin n) ℝ} {c : Fin n → ℝ}, Wᵀ * W = 1 → Q = W * diagonal c * Wᵀ →
      Q.charpoly.roots = (Finset.univ : Finset (Fin n)).val.map c := by
    intro W c hW h
    rw [h, charpoly_mul_comm, ← Matrix.mul_assoc, hW, Matrix.one_mul, charpoly_diagonal]
    have := Polynomial.roots_multiset_prod_X_sub_C ((Finset.univ : Finset (Fin n)).val.map c)
    rw [Multiset.map_map] at this
    exact this
  rw [← key hU h1, key hV h2]

/-- The numerical rank counts the eigenvalues above all eigenvalues times the size times `2⁻⁵²`. -/
theorem matRank_diag (S : Svd) {n : ℕ} (hn : n ≠ 0) {Q U : Matrix (Fin n) (Fin n) ℝ} {d : Fin n → ℝ} (hQ : IsPSD Q) (hU : Uᵀ * U = 1)
    (h : Q = U * diagonal d * Uᵀ) : matRank S Q = .ok {i | ∀ j, d j * n / 2 ^ 52 < d i}.ncard := by
  classical
  have hm := diag_unique (S.U_orth Q) hU (psd_svd S hQ) h
  change (Finset.univ : Finset (Fin n)).val.map (singVals S Q) = _ at hm
  have key : ∀ c : Fin n → ℝ, {i | ∀ j, c j * n / 2 ^ 52 < c i}.ncard =
      Multiset.countP (fun x => ∀ y ∈ (Finset.univ : Finset (Fin n)).val.map c, y * n / 2 ^ 52 < x) (Finset.univ.val.map c) := by
    intro c
    rw [Multiset.countP_map, Set.ncard_eq_toFinset_card']
    change Multiset.card _ = _
    congr 1
    have : {i | ∀ j, c j * n / 2 ^ 52 < c i}.toFinset = Finset.univ.filter (fun i =>
        ∀ y ∈ (Finset.univ : Finset (Fin n)).val.map c, y * n / 2 ^ 52 < c i) := by
      ext i
      simp
    rw [this]
    rfl
  rw [key d, ← hm, ← key]
  unfold matRank
  rw [dif_neg hn, Set.ncard_eq_toFinset_card']
  congr 2
  ext i
  rw [Finset.mem_filter, Set.mem_toFinset, and_iff_right (Finset.mem_univ _), Set.mem_ofPred_eq]
  unfold eps64
  refine ⟨fun hi j => lt_of_le_of_lt ?_ hi, fun hi => ?_⟩
  · have hj : singVals S Q j ≤ singVals S Q ⟨0, by omega⟩ := S.s_anti _ (Fin.mk_le_mk.mpr (Nat.zero_le _))
    rw [div_eq_mul_one_div]
    gcongr
  · have := hi ⟨0, by omega⟩
    rwa [div_eq_mul_one_div] at this

/-- **C83**: the number reported with `return_rank` in all cases, for any orthogonal diagonalisation of the shape matrix. -/
theorem C83_rank_value (S : Svd) (x : EllObj) (hn : x.n ≠ 0) (hQ : IsPSD x.Q) (U : Matrix (Fin x.n) (Fin x.n) ℝ) (d : Fin x.n → ℝ)
    (hU : Uᵀ * U = 1) (h : x.Q = U * diagonal d * Uᵀ) :
    ∃ k r : Arr ℕ, dimensionRank S (.single (.inst x)) = .ok (k, r) ∧ k.data = [x.n] ∧
      r.data = [{i | ∀ j, d j * x.n / 2 ^ 52 < d i}.ncard] := by
  have hm : pyMap (fun e : EllObj => matRank S e.Q) (Arr.scalar x).data = .ok [{i | ∀ j, d j * x.n / 2 ^ 52 < d i}.ncard] := by
    simp only [Arr.scalar, pyMap, matRank_diag S hn hQ hU h]
  refine ⟨⟨[], [x.n], rfl⟩, ⟨[], [{i | ∀ j, d j * x.n / 2 ^ 52 < d i}.ncard], rfl⟩, ?_, rfl, rfl⟩
  unfold dimensionRank
  rw [(C80_ok_iff _ _ _ _).mpr (Or.inl ⟨_, rfl, rfl⟩)]
  simp only [hm]
  rfl

/-- **C42**: the verdict in all cases for a non-degenerate first ellipsoid, for any orthogonal diagonalisations of the two shape
matrices: the second one is inside, and it has not more eigenvalues that count than the first one. -/
theorem C42_iff (E : Eigh) (G : Eig) (S : Svd) (L : Lstsq) {n : ℕ} (hn : n ≠ 0) (e f : EllN n) (he : e.NonDeg) (hf : f.PSD)
    (U V : Matrix (Fin n) (Fin n) ℝ) (d g : Fin n → ℝ) (hU : Uᵀ * U = 1) (hV : Vᵀ * V = 1) (h1 : e.Q = U * diagonal d * Uᵀ)
    (h2 : f.Q = V * diagonal g * Vᵀ) :
    ∃ b, isBigger E G S L e.obj (Arr.vec [f.obj]) = .ok b ∧
      (b = true ↔ {i | ∀ j, g j * n / 2 ^ 52 < g i}.ncard ≤ {i | ∀ j, d j * n / 2 ^ 52 < d i}.ncard ∧ InsideEnlarged e f) :=
  isBigger_of E G S L hn e f he hf (matRank_diag S hn he.psd.2 hU h1) (matRank_diag S hn hf.2 hV h2)

/-- The ellipse with the semiaxes 2 and 1: all eigenvalues are 4 and 1, so the rank is exact. -/
example (S : Svd) : ∃ d r : Arr ℕ, dimensionRank S (.single (.inst ⟨2, 0, diagonal ![4, 1], 1, 1, 1, 1⟩)) = .ok (d, r) ∧
    r.data = [affDim (Ell (0 : Fin 2 → ℝ) (diagonal ![4, 1]))] := by
  have hQ : IsPSD (diagonal ![4, 1] : Matrix (Fin 2) (Fin 2) ℝ) := by
    refine ⟨diagonal_transpose _, fun x => ?_⟩
    rw [quad_diag, Fin.sum_univ_two]
    simp only [cons_val_zero, cons_val_one]
    positivity
  have hev : ∀ r, IsEigenvalue (diagonal ![4, 1] : Matrix (Fin 2) (Fin 2) ℝ) r → r = 4 ∨ r = 1 := by
    rintro r ⟨v, hv, he⟩
    have h0 := congrFun he 0
    have h1 := congrFun he 1
    rw [mulVec_diagonal] at h0 h1
    simp only [cons_val_zero, cons_val_one, Pi.smul_apply, smul_eq_mul] at h0 h1
    by_cases hz : v 0 = 0
    · have h2 : v 1 ≠ 0 := fun h => hv (by funext i; fin_cases i <;> assumption)
      exact Or.inr (mul_right_cancel₀ h2 h1).symm
    · exact Or.inl (mul_right_cancel₀ hz h0).symm
  obtain ⟨d, r, h1, _, h3⟩ := C83_rank_iff S (.single (.inst ⟨2, 0, diagonal ![4, 1], 1, 1, 1, 1⟩)) (Arr.scalar ⟨2, 0, diagonal ![4, 1], 1, 1, 1, 1⟩)
    (Or.inl ⟨_, rfl, rfl⟩) (by simp [Arr.scalar])
    (fun x hx => by
      have : x = ⟨2, 0, diagonal ![4, 1], 1, 1, 1, 1⟩ := by simpa only [Arr.scalar, List.mem_singleton] using hx
      subst this
      exact ⟨by norm_num, hQ⟩)
  refine ⟨d, r, h1, ?_⟩
  match hr : r.data, h3 with
  | [k], .cons hk .nil =>
    refine congrArg (fun k => [k]) (hk.1.mpr ?_)
    intro r s hr hs _
    rcases hev r hr with rfl | rfl <;> rcases hev s hs with rfl | rfl <;> norm_num

theorem ncard_flat :
    {i : Fin 2 | ∀ j : Fin 2, (![1, 1 / 2 ^ 60] : Fin 2 → ℝ) j * (2 : ℕ) / 2 ^ 52 < (![1, 1 / 2 ^ 60] : Fin 2 → ℝ) i}.ncard = 1 := by
  have : {i : Fin 2 | ∀ j : Fin 2, (![1, 1 / 2 ^ 60] : Fin 2 → ℝ) j * (2 : ℕ) / 2 ^ 52 < (![1, 1 / 2 ^ 60] : Fin 2 → ℝ) i} = {0} := by
    ext i
    fin_cases i
    · refine iff_of_true (fun j => ?_) rfl
      fin_cases j <;> norm_num
    · refine iff_of_false (fun h => ?_) (by simp)
      have := h 0
      norm_num at this
  rw [this, Set.ncard_singleton]

/-- The ellipse with the semiaxes 1 and `2⁻³⁰`: the number reported is 1. -/
example (S : Svd) : ∃ k r : Arr ℕ, dimensionRank S (.single (.inst ⟨2, 0, diagonal ![1, 1 / 2 ^ 60], 1, 1, 1, 1⟩)) = .ok (k, r) ∧
    k.data = [2] ∧ r.data = [1] := by
  have hQ : IsPSD (diagonal ![1, 1 / 2 ^ 60] : Matrix (Fin 2) (Fin 2) ℝ) := by
    refine ⟨diagonal_transpose _, fun x => ?_⟩
    rw [quad_diag, Fin.sum_univ_two]
    simp only [cons_val_zero, cons_val_one]
    positivity
  obtain ⟨k, r, h1, h2, h3⟩ := C83_rank_value S ⟨2, 0, diagonal ![1, 1 / 2 ^ 60], 1, 1, 1, 1⟩ (by norm_num) hQ 1 ![1, 1 / 2 ^ 60]
    (by simp) (by simp)
  exact ⟨k, r, h1, h2, h3.trans (congrArg (fun k => [k]) ncard_flat)⟩

/-- The disc of radius `2⁻³¹` lies inside that ellipse, and the answer is `False`. -/
example (E : Eigh) (G : Eig) (S : Svd) (L : Lstsq) (e f : EllN 2) (he : e.NonDeg) (hf : f.PSD) (h1 : e.Q = diagonal ![1, 1 / 2 ^ 60])
    (h2 : f.Q = diagonal ![1 / 2 ^ 62, 1 / 2 ^ 62]) : isBigger E G S L e.obj (Arr.vec [f.obj]) = .ok false := by
  obtain ⟨b, hb, hbi⟩ := C42_iff E G S L (by norm_num) e f he hf 1 1 ![1, 1 / 2 ^ 60] ![1 / 2 ^ 62, 1 / 2 ^ 62] (by simp) (by simp)
    (h1.trans (by simp)) (h2.trans (by simp))
  rw [hb]
  cases b with
  | false => rfl
  | true =>
    have h := (hbi.mp rfl).1
    rw [ncard_flat] at h
    have hu : {i : Fin 2 | ∀ j : Fin 2, (![1 / 2 ^ 62, 1 / 2 ^ 62] : Fin 2 → ℝ) j * (2 : ℕ) / 2 ^ 52 <
        (![1 / 2 ^ 62, 1 / 2 ^ 62] : Fin 2 → ℝ) i} = Set.univ := by
      ext i
      refine iff_of_true (fun j => ?_) trivial
      fin_cases i <;> fin_cases j <;> norm_num
    rw [hu, Set.ncard_univ, Nat.card_eq_fintype_card, Fintype.card_fin] at h
    omega

end Ellipy.Ell
