import Verif.Base.LinAlg

/-! The contracts of `Base/LinAlg.lean` are satisfiable, and basic facts about them. -/

namespace Ellipy.LA
open Matrix

theorem lowerSym_of_symm {n : ℕ} {Q : Matrix (Fin n) (Fin n) ℝ} (h : Qᵀ = Q) : lowerSym Q = Q := by
  ext i j
  unfold lowerSym
  split_ifs
  · rfl
  · exact congrFun (congrFun h i) j

theorem lowerSym_symm {n : ℕ} (Q : Matrix (Fin n) (Fin n) ℝ) : (lowerSym Q)ᵀ = lowerSym Q := by
  ext i j
  simp only [transpose_apply, lowerSym]
  by_cases h1 : i ≤ j <;> by_cases h2 : j ≤ i
  · rw [if_pos h1, if_pos h2, le_antisymm h1 h2]
  · rw [if_pos h1, if_neg h2]
  · rw [if_neg h1, if_pos h2]
  · exact absurd (le_total i j) (by tauto)

/-- A symmetric matrix has an ordered orthonormal eigen-decomposition. -/
theorem exists_eigh {n : ℕ} (Q : Matrix (Fin n) (Fin n) ℝ) (hQ : Qᵀ = Q) :
    ∃ (d : Fin n → ℝ) (V : Matrix (Fin n) (Fin n) ℝ), Monotone d ∧ Vᵀ * V = 1 ∧ Q * V = V * diagonal d := by
  have hH : Q.IsHermitian := by rw [IsHermitian, conjTranspose_eq_transpose_of_trivial, hQ]
  set b := hH.eigenvectorBasis
  set d0 := hH.eigenvalues
  let e : Equiv.Perm (Fin n) := Tuple.sort d0
  refine ⟨d0 ∘ e, of fun i j => b (e j) i, Tuple.monotone_sort d0, ?_, ?_⟩
  · ext i j
    have h := b.inner_eq_ite (e i) (e j)
    rw [EuclideanSpace.inner_eq_star_dotProduct, star_trivial] at h
    rw [mul_apply, one_apply]
    simp only [transpose_apply, of_apply]
    have h2 : (e i = e j) ↔ (i = j) := e.injective.eq_iff
    rw [if_congr h2 rfl rfl] at h
    rw [← h, dotProduct]
    exact Finset.sum_congr rfl (fun k _ => mul_comm _ _)
  · ext i j
    have h := congrFun (hH.mulVec_eigenvectorBasis (e j)) i
    rw [mul_diagonal]
    simp only [of_apply, Function.comp_apply]
    rw [mul_apply]
    have : (Q *ᵥ (b (e j)).ofLp) i = ∑ k, Q i k * b (e j) k := rfl
    rw [this] at h
    simp only [of_apply]
    rw [h]
    simp [d0, b, mul_comm]

theorem nonempty_eigh : Nonempty Eigh := by
  classical
  choose d V h1 h2 h3 using fun (n : ℕ) (Q : Matrix (Fin n) (Fin n) ℝ) => exists_eigh (lowerSym Q) (lowerSym_symm Q)
  exact ⟨⟨fun {n} => d n, fun {n} => V n, fun {n} => h1 n, fun {n} => h2 n, fun {n} => h3 n⟩⟩

theorem isUnit_det_of_orth {n : ℕ} {V : Matrix (Fin n) (Fin n) ℝ} (h : Vᵀ * V = 1) : IsUnit V.det := by
  have := congrArg det h
  rw [det_mul, det_one] at this
  exact IsUnit.of_mul_eq_one_right _ this

theorem nonempty_eig : Nonempty Eig := by
  obtain ⟨E⟩ := nonempty_eigh
  refine ⟨⟨fun Q => E.vals Q, fun Q => E.vecs Q, ?_, ?_, ?_⟩⟩
  · intro n Q hQ j
    have h := congrFun (congrFun (E.orth Q) j) j
    rw [mul_apply, one_apply_eq] at h
    rw [← h]
    exact Finset.sum_congr rfl (fun k _ => by simp [sq])
  · intro n Q hQ
    have := E.spec Q
    rwa [lowerSym_of_symm hQ] at this
  · intro n Q _
    exact isUnit_det_of_orth (E.orth Q)

theorem exists_qrC {m n : ℕ} (A : Matrix (Fin m) (Fin n) ℝ) :
    ∃ (Q : Matrix (Fin m) (Fin m) ℝ) (R : Matrix (Fin m) (Fin n) ℝ), Qᵀ * Q = 1 ∧
      (∀ i j, j.val < i.val → R i j = 0) ∧ A = Q * R := by
  classical
  let f : Fin m → EuclideanSpace ℝ (Fin m) := fun j =>
    if h : j.val < n then WithLp.toLp 2 (fun i => A i ⟨j, h⟩) else 0
  have hc : Module.finrank ℝ (EuclideanSpace ℝ (Fin m)) = Fintype.card (Fin m) := by simp
  let b := InnerProductSpace.gramSchmidtOrthonormalBasis hc f
  let Q : Matrix (Fin m) (Fin m) ℝ := of fun i j => b j i
  have hQ : Qᵀ * Q = 1 := by
    ext i j
    have h := b.inner_eq_ite i j
    rw [EuclideanSpace.inner_eq_star_dotProduct, star_trivial] at h
    rw [mul_apply, one_apply, ← h, dotProduct]
    exact Finset.sum_congr rfl (fun k _ => mul_comm _ _)
  refine ⟨Q, Qᵀ * A, hQ, ?_, ?_⟩
  · intro i j hij
    have hj : j.val < m := by omega
    have h := InnerProductSpace.gramSchmidtOrthonormalBasis_inv_triangular hc f (i := ⟨j, hj⟩) (j := i) hij
    rw [EuclideanSpace.inner_eq_star_dotProduct, star_trivial] at h
    have hf : f ⟨j, hj⟩ = WithLp.toLp 2 (fun i => A i j) := by
      simp [f]
    rw [hf] at h
    rw [mul_apply]
    rw [dotProduct] at h
    rw [← h]
    exact Finset.sum_congr rfl (fun k _ => mul_comm _ _)
  · rw [← Matrix.mul_assoc, mul_eq_one_comm.mp hQ, Matrix.one_mul]

theorem nonempty_qrC : Nonempty QrC := by
  choose Q R h1 h2 h3 using fun (m n : ℕ) (A : Matrix (Fin m) (Fin n) ℝ) => exists_qrC A
  exact ⟨⟨fun {m n} => Q m n, fun {m n} => R m n, fun {m n} => h1 m n, fun {m n} => h2 m n, fun {m n} => h3 m n⟩⟩

theorem nonempty_qrR : Nonempty QrR := by
  obtain ⟨B⟩ := nonempty_qrC
  refine ⟨⟨fun {m n} A => of fun i j => B.Q A i ⟨j, by omega⟩, fun {m n} A => of fun i j => B.R A ⟨i, by omega⟩ j, ?_, ?_, ?_⟩⟩
  · intro m n A
    ext i j
    have h := congrFun (congrFun (B.orth A) ⟨i, by omega⟩) ⟨j, by omega⟩
    rw [mul_apply, one_apply] at h
    rw [mul_apply, one_apply]
    simp only [transpose_apply, of_apply] at h ⊢
    rw [h]
    simp [Fin.ext_iff]
  · intro m n A i j hij
    exact B.upper A _ j hij
  · intro m n A
    ext i j
    conv_lhs => rw [B.spec A]
    rw [mul_apply, mul_apply]
    simp only [of_apply]
    let e : Fin (min m n) ↪ Fin m := Fin.castLEEmb (by omega)
    have : ∑ k : Fin (min m n), B.Q A i ⟨k, by omega⟩ * B.R A ⟨k, by omega⟩ j =
        ∑ k ∈ Finset.univ.map e, B.Q A i k * B.R A k j := by
      rw [Finset.sum_map]; rfl
    rw [this]
    symm
    apply Finset.sum_subset (Finset.subset_univ _)
    intro k _ hk
    have hk' : min m n ≤ k.val := by
      by_contra hlt
      push Not at hlt
      exact hk (Finset.mem_map.mpr ⟨⟨k, hlt⟩, Finset.mem_univ _, rfl⟩)
    rw [B.upper A k j (by have := j.2; have := k.2; omega), mul_zero]

/-- Every real matrix has a full singular value decomposition. -/
theorem exists_svd {m n : ℕ} (A : Matrix (Fin m) (Fin n) ℝ) :
    ∃ (U : Matrix (Fin m) (Fin m) ℝ) (s : Fin (min m n) → ℝ) (W : Matrix (Fin n) (Fin n) ℝ),
      Uᵀ * U = 1 ∧ W * Wᵀ = 1 ∧ (∀ i, 0 ≤ s i) ∧ Antitone s ∧ A = U * sigma s * W := by
  classical
  -- descending orthonormal eigenbasis of `AᵀA`
  obtain ⟨d0, V0, hd0, hV0, hE0⟩ := exists_eigh (Aᵀ * A) (by rw [transpose_mul, transpose_transpose])
  let d : Fin n → ℝ := fun i => d0 (Fin.rev i)
  let V : Matrix (Fin n) (Fin n) ℝ := of fun i j => V0 i (Fin.rev j)
  have hd : Antitone d := fun i j hij => hd0 (Fin.rev_le_rev.mpr hij)
  have hV : Vᵀ * V = 1 := by
    ext i j
    have h := congrFun (congrFun hV0 (Fin.rev i)) (Fin.rev j)
    rw [mul_apply, one_apply] at h
    rw [mul_apply, one_apply]
    simp only [transpose_apply] at h
    simp only [transpose_apply, V, of_apply]
    rw [h]
    simp [Fin.rev_inj]
  have hE : (A * V)ᵀ * (A * V) = diagonal d := by
    have h1 : Aᵀ * A * V = V * diagonal d := by
      ext i j
      have h := congrFun (congrFun hE0 i) (Fin.rev j)
      rw [mul_diagonal] at h ⊢
      simp only [V, of_apply, d]
      rw [← h]
      rfl
    rw [transpose_mul, Matrix.mul_assoc, ← Matrix.mul_assoc Aᵀ, h1, ← Matrix.mul_assoc, hV, Matrix.one_mul]
  have hEij : ∀ i j, ∑ k, (A * V) k i * (A * V) k j = if i = j then d i else 0 := by
    intro i j
    have h := congrFun (congrFun hE i) j
    rw [mul_apply, diagonal_apply] at h
    exact h
  have hdn : ∀ i, 0 ≤ d i := by
    intro i
    have h := hEij i i
    rw [if_pos rfl] at h
    rw [← h]
    exact Finset.sum_nonneg (fun k _ => mul_self_nonneg _)
  let u : Fin n → EuclideanSpace ℝ (Fin m) := fun j => WithLp.toLp 2 (fun i => (A * V) i j / Real.sqrt (d j))
  have hu : ∀ i j, d i ≠ 0 → d j ≠ 0 → inner ℝ (u i) (u j) = if i = j then (1:ℝ) else 0 := by
    intro i j hi hj
    rw [EuclideanSpace.inner_eq_star_dotProduct, star_trivial, dotProduct]
    have : ∀ k, (u j).ofLp k * (u i).ofLp k = ((A * V) k i * (A * V) k j) / (Real.sqrt (d i) * Real.sqrt (d j)) := by
      intro k
      simp only [u]
      ring
    simp_rw [this]
    rw [← Finset.sum_div, hEij]
    by_cases hij : i = j
    · subst hij
      rw [if_pos rfl, if_pos rfl, Real.mul_self_sqrt (hdn i), div_self hi]
    · rw [if_neg hij, if_neg hij, zero_div]
  -- at most `m` of the eigenvalues are non-zero
  have hrank : ∀ j : Fin n, m ≤ j.val → d j = 0 := by
    intro j hj
    by_contra hne
    let g : Fin (m + 1) → Fin n := fun i => ⟨i.val, by omega⟩
    have hg : ∀ i, d (g i) ≠ 0 := by
      intro i h0
      have := hd (show g i ≤ j by simp only [g, Fin.le_def]; omega)
      exact hne (le_antisymm (h0 ▸ this) (hdn j))
    have ho : Orthonormal ℝ (fun i => u (g i)) := by
      rw [orthonormal_iff_ite]
      intro i k
      rw [hu _ _ (hg i) (hg k)]
      have : (g i = g k) ↔ (i = k) := by simp [g, Fin.ext_iff]
      rw [if_congr this rfl rfl]
    have := ho.linearIndependent.fintype_card_le_finrank
    simp at this
  -- extend the left vectors to an orthonormal basis
  let v : Fin m → EuclideanSpace ℝ (Fin m) := fun i => if h : i.val < n then u ⟨i, h⟩ else 0
  let S : Set (Fin m) := {i | ∃ h : i.val < n, d ⟨i, h⟩ ≠ 0}
  have hv : Orthonormal ℝ (S.domRestrict v) := by
    rw [orthonormal_iff_ite]
    rintro ⟨i, hi, hi'⟩ ⟨k, hk, hk'⟩
    have e1 : S.domRestrict v ⟨i, hi, hi'⟩ = u ⟨i, hi⟩ := by simp [Set.domRestrict, v, hi]
    have e2 : S.domRestrict v ⟨k, hk, hk'⟩ = u ⟨k, hk⟩ := by simp [Set.domRestrict, v, hk]
    rw [e1, e2, hu _ _ hi' hk']
    simp [Fin.ext_iff, Subtype.ext_iff]
  obtain ⟨b, hb⟩ := hv.exists_orthonormalBasis_extension_of_card_eq (by simp)
  let U : Matrix (Fin m) (Fin m) ℝ := of fun i j => b j i
  have hU : Uᵀ * U = 1 := by
    ext i j
    have h := b.inner_eq_ite i j
    rw [EuclideanSpace.inner_eq_star_dotProduct, star_trivial] at h
    rw [mul_apply, one_apply, ← h, dotProduct]
    exact Finset.sum_congr rfl (fun k _ => mul_comm _ _)
  let s : Fin (min m n) → ℝ := fun i => Real.sqrt (d ⟨i, by omega⟩)
  have hAV : A * V = U * sigma s := by
    ext i j
    by_cases hd0 : d j = 0
    · have h := hEij j j
      rw [if_pos rfl, hd0, Finset.sum_eq_zero_iff_of_nonneg (fun k _ => mul_self_nonneg _)] at h
      rw [mul_self_eq_zero.mp (h i (Finset.mem_univ _)), mul_apply]
      symm
      apply Finset.sum_eq_zero
      intro k _
      by_cases hk : k.val = j.val
      · have : sigma s k j = Real.sqrt (d j) := by
          simp only [sigma, dif_pos hk, s]
          congr 2
          exact Fin.ext hk
        rw [this, hd0, Real.sqrt_zero, mul_zero]
      · simp [sigma, hk]
    · have hjm : j.val < m := by
        by_contra h
        exact hd0 (hrank j (by omega))
      have hR : (U * sigma s) i j = ∑ k, U i k * sigma s k j := mul_apply
      rw [hR, Finset.sum_eq_single (⟨j, hjm⟩ : Fin m)]
      · have h1 : sigma s ⟨j, hjm⟩ j = Real.sqrt (d j) := by
          simp [sigma, s]
        have h2 : U i ⟨j, hjm⟩ = (A * V) i j / Real.sqrt (d j) := by
          have : (⟨j, hjm⟩ : Fin m) ∈ S := ⟨j.2, hd0⟩
          have h3 := hb _ this
          simp only [U, of_apply, h3, v, u]
          simp
        rw [h1, h2, div_mul_cancel₀]
        exact (Real.sqrt_ne_zero (hdn j)).mpr hd0
      · intro k _ hk
        have : k.val ≠ j.val := fun h => hk (Fin.ext h)
        simp [sigma, this]
      · intro h
        exact absurd (Finset.mem_univ _) h
  refine ⟨U, s, Vᵀ, hU, ?_, fun i => Real.sqrt_nonneg _, ?_, ?_⟩
  · rw [transpose_transpose, hV]
  · intro i j hij
    exact Real.sqrt_le_sqrt (hd (Fin.le_def.mpr (Fin.le_def.mp hij)))
  · rw [← hAV, Matrix.mul_assoc, mul_eq_one_comm.mp hV, Matrix.mul_one]

theorem nonempty_svd : Nonempty Svd := by
  choose U s W h1 h2 h3 h4 h5 using fun (m n : ℕ) (A : Matrix (Fin m) (Fin n) ℝ) => exists_svd A
  exact ⟨⟨fun {m n} => U m n, fun {m n} => s m n, fun {m n} => W m n, fun {m n} => h1 m n, fun {m n} => h2 m n,
    fun {m n} => h3 m n, fun {m n} => h4 m n, fun {m n} => h5 m n⟩⟩

end Ellipy.LA
