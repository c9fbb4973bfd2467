import Verif.Proofs.MatHelpers

/-! Property theorems C79 (`SquareMatVector.lr_divide_vec`). -/

namespace Ellipy.MV
open Matrix Ellipy.LA

/-- Column `t` of a matrix of vectors of length `n`. -/
def colVec (n : ℕ) (v : ℕ → ℕ → ℝ) (t : ℕ) : Fin n → ℝ := fun i => v i t

theorem divStep_apply (L : Lstsq) (n m : ℕ) (b x : ℕ → ℕ → ℝ) :
    ∃ y, divStep L n n n m b x = .ok y ∧ ∀ i j, i < m → j < m → ∃ s : Fin n → ℝ,
      IsShortestLs (rectMat n n b) (colVec n x j) s ∧ y i j = colVec n x i ⬝ᵥ s := by
  unfold divStep
  rw [if_neg (by simp), if_neg (by simp)]
  refine ⟨_, rfl, fun i j hi hj => ⟨fun l => L.sol (rectMat n n b) (rectMat n m x) l ⟨j, hj⟩, ?_, ?_⟩⟩
  · have hcol : ∀ M : Matrix (Fin n) (Fin m) ℝ, ∀ A : Matrix (Fin n) (Fin n) ℝ, A *ᵥ (fun l => M l ⟨j, hj⟩) = fun l => (A * M) l ⟨j, hj⟩ := by
      intro M A
      funext l
      rw [mul_apply]
      rfl
    apply shortest_of_normal
    · have e : colVec n x j = fun l => rectMat n m x l ⟨j, hj⟩ := rfl
      rw [e, hcol, hcol, hcol, ← Matrix.mul_assoc, L.normal]
    · obtain ⟨y, hy⟩ := L.row (rectMat n n b) (rectMat n m x)
      refine ⟨fun l => y l ⟨j, hj⟩, ?_⟩
      rw [hcol, ← hy]
  · rw [rectMat_rectFun, rectFun_apply _ hi hj, mul_apply]
    rfl

/-- On an invertible matrix the shortest least-squares solution is the solution. -/
theorem shortest_inv {n : ℕ} {A : Matrix (Fin n) (Fin n) ℝ} (hA : IsUnit A.det) {y s : Fin n → ℝ} (h : IsShortestLs A y s) :
    s = A⁻¹ *ᵥ y := by
  have h1 := h.1 (A⁻¹ *ᵥ y)
  have e : A *ᵥ (A⁻¹ *ᵥ y) = y := by rw [mulVec_mulVec, mul_nonsing_inv _ hA, one_mulVec]
  rw [e, sub_self] at h1
  have h0 : sqNorm (0 : Fin n → ℝ) = 0 := by simp [sqNorm]
  rw [h0] at h1
  have h2 := sub_eq_zero.mp (sqNorm_zero (le_antisymm h1 (sqNorm_nonneg _)))
  rw [← h2, mulVec_mulVec, nonsing_inv_mul _ hA, one_mulVec]

theorem divNum_apply (L : Lstsq) (n : ℕ) (b x : ℕ → ℕ → ℝ) :
    ∃ q s, divNum L n n n b x = .ok q ∧ IsShortestLs (rectMat n n b) (colVec n x 0) s ∧ q = colVec n x 0 ⬝ᵥ s := by
  obtain ⟨y, hy, h⟩ := divStep_apply L n 1 b x
  obtain ⟨s, h1, h2⟩ := h 0 0 (by norm_num) (by norm_num)
  exact ⟨y 0 0, s, by unfold divNum; rw [hy], h1, h2⟩

/-- C79: one vector and a batch: number `t` is `aᵀ s` for the shortest least-squares solution `s` of `B_t s = a`. -/
theorem C79_one_vector (L : Lstsq) (n T : ℕ) (b : ℕ → ℕ → ℕ → ℝ) (arg : VecArg) (hr : arg.asMat.r = n) (hc : arg.asMat.c = 1) :
    ∃ v, (lrDivideVec L (.d3 n n T b) arg).1 = .ok (.vec T v) ∧ ∀ t < T, ∃ s,
      IsShortestLs (rectMat n n (fun i j => b i j t)) (colVec n arg.asMat.v 0) s ∧ v t = colVec n arg.asMat.v 0 ⬝ᵥ s := by
  choose q s h1 h2 h3 using fun t => divNum_apply L n (fun i j => b i j t) arg.asMat.v
  obtain ⟨v, hv, hvv⟩ := forRange_ok T (fun t => divNum L n n n (fun i j => b i j t) arg.asMat.v) q (fun t _ => h1 t)
  refine ⟨v, ?_, fun t ht => ⟨s t, h2 t, by rw [hvv t ht, h3 t]⟩⟩
  unfold lrDivideVec
  simp only
  rw [if_pos hc, hr, hv]

/-- C79: as many vectors as slices: number `t` is `a_tᵀ s` for the shortest least-squares solution `s` of `B_t s = a_t`. -/
theorem C79_many_vectors (L : Lstsq) (n m T : ℕ) (hm : m ≠ 1) (hT : m ≤ T) (b : ℕ → ℕ → ℕ → ℝ) (a : ℕ → ℕ → ℝ) :
    ∃ v, (lrDivideVec L (.d3 n n T b) (.d2 n m a)).1 = .ok (.vec m v) ∧ ∀ t < m, ∃ s,
      IsShortestLs (rectMat n n (fun i j => b i j t)) (colVec n a t) s ∧ v t = colVec n a t ⬝ᵥ s := by
  choose q s h1 h2 h3 using fun t => divNum_apply L n (fun i j => b i j t) (fun i _ => a i t)
  obtain ⟨v, hv, hvv⟩ := forRange_ok m (fun t => onSlice t (.d3 n n T b) (fun bt => divNum L n n n bt (fun i _ => a i t))) q
    (fun t ht => by simp only [onSlice, slice, if_pos (lt_of_lt_of_le ht hT)]; exact h1 t)
  refine ⟨v, ?_, fun t ht => ⟨s t, h2 t, by rw [hvv t ht, h3 t]; rfl⟩⟩
  unfold lrDivideVec
  simp only
  rw [if_neg (show ¬ (VecArg.d2 n m a).asMat.c = 1 from hm)]
  simp only [VecArg.asMat, hv]

/-- C79: on a batch of invertible matrices the numbers are `a_tᵀ B_t⁻¹ a_t`, for one vector or for one vector per time. -/
theorem C79_partial (L : Lstsq) (n m T : ℕ) (b : ℕ → ℕ → ℕ → ℝ) (a : ℕ → ℕ → ℝ)
    (hb : ∀ t < T, IsUnit (rectMat n n (fun i j => b i j t)).det) (hm : m = 1 ∨ m = T) :
    ∃ v, (lrDivideVec L (.d3 n n T b) (.d2 n m a)).1 = .ok (.vec T v) ∧ ∀ t < T,
      v t = colVec n a (if m = 1 then 0 else t) ⬝ᵥ (rectMat n n (fun i j => b i j t))⁻¹ *ᵥ colVec n a (if m = 1 then 0 else t) := by
  by_cases h1 : m = 1
  · obtain ⟨v, hv, h⟩ := C79_one_vector L n T b (.d2 n m a) rfl h1
    refine ⟨v, hv, fun t ht => ?_⟩
    obtain ⟨s, hs, e⟩ := h t ht
    rw [e, shortest_inv (hb t ht) hs, if_pos h1]
    rfl
  · have h2 : m = T := hm.resolve_left h1
    subst h2
    obtain ⟨v, hv, h⟩ := C79_many_vectors L n m m h1 le_rfl b a
    refine ⟨v, hv, fun t ht => ?_⟩
    obtain ⟨s, hs, e⟩ := h t ht
    rw [e, shortest_inv (hb t ht) hs, if_neg h1]

/-- C79: a single matrix and a single vector give a `1 × 1` array with `aᵀ B⁻¹ a`. -/
theorem C79_matrix (L : Lstsq) (n : ℕ) (b : ℕ → ℕ → ℝ) (arg : VecArg) (hr : arg.asMat.r = n) (hc : arg.asMat.c = 1)
    (hb : IsUnit (rectMat n n b).det) :
    ∃ v, (lrDivideVec L (.d2 n n b) arg).1 = .ok (.mat 1 v) ∧
      v 0 0 = colVec n arg.asMat.v 0 ⬝ᵥ (rectMat n n b)⁻¹ *ᵥ colVec n arg.asMat.v 0 := by
  obtain ⟨y, hy, h⟩ := divStep_apply L n 1 b arg.asMat.v
  obtain ⟨s, hs, e⟩ := h 0 0 (by norm_num) (by norm_num)
  refine ⟨y, ?_, by rw [e, shortest_inv hb hs]⟩
  unfold lrDivideVec
  simp only
  rw [hr, hc, hy]

/-- C79 is violated for a matrix without a time axis and `m` vectors: the result is the `m × m` matrix of all `a_iᵀ B⁻¹ a_j`, not the `m`
numbers `a_tᵀ B⁻¹ a_t`. -/
theorem C79_violated (L : Lstsq) (n m : ℕ) (b a : ℕ → ℕ → ℝ) (hb : IsUnit (rectMat n n b).det) :
    ∃ v, (lrDivideVec L (.d2 n n b) (.d2 n m a)).1 = .ok (.mat m v) ∧
      ∀ i j, i < m → j < m → v i j = colVec n a i ⬝ᵥ (rectMat n n b)⁻¹ *ᵥ colVec n a j := by
  obtain ⟨y, hy, h⟩ := divStep_apply L n m b a
  refine ⟨y, ?_, fun i j hi hj => ?_⟩
  · unfold lrDivideVec
    simp only [VecArg.asMat]
    rw [hy]
  · obtain ⟨s, hs, e⟩ := h i j hi hj
    rw [e, shortest_inv hb hs]

theorem divStep_raises (L : Lstsq) (rb cb ra m : ℕ) (b x : ℕ → ℕ → ℝ) : Raises (divStep L rb cb ra m b x) ↔ ¬ (ra = rb ∧ ra = cb) := by
  unfold divStep
  by_cases h1 : ra = rb
  · rw [if_neg (by simpa using h1)]
    by_cases h2 : ra = cb
    · rw [if_neg (by simpa using h2)]
      exact iff_of_false (by rintro ⟨e, he⟩; cases he) (fun h => h ⟨h1, h2⟩)
    · rw [if_pos h2]
      exact iff_of_true ⟨_, rfl⟩ (fun h => h2 h.2)
  · rw [if_pos h1]
    exact iff_of_true ⟨_, rfl⟩ (fun h => h1 h.1)

theorem divNum_raises (L : Lstsq) (rb cb ra : ℕ) (b x : ℕ → ℕ → ℝ) : Raises (divNum L rb cb ra b x) ↔ ¬ (ra = rb ∧ ra = cb) := by
  rw [← divStep_raises L rb cb ra 1 b x]
  unfold divNum
  cases divStep L rb cb ra 1 b x with
  | error e => exact iff_of_true ⟨e, rfl⟩ ⟨e, rfl⟩
  | ok y => exact iff_of_false (by rintro ⟨e, he⟩; cases he) (by rintro ⟨e, he⟩; cases he)

/-- C79: the call is refused exactly when it has something to divide and the matrices are not square of the size of the vectors, or when
there are more vectors than slices. -/
theorem C79_raises_iff (L : Lstsq) (b : Arr) (arg : VecArg) :
    Raises (lrDivideVec L b arg).1 ↔
      match b with
      | .d2 rb cb _ => ¬ (arg.asMat.r = rb ∧ arg.asMat.r = cb)
      | .d3 rb cb T _ =>
        if arg.asMat.c = 1 then 0 < T ∧ ¬ (arg.asMat.r = rb ∧ arg.asMat.r = cb)
        else T < arg.asMat.c ∨ (0 < arg.asMat.c ∧ ¬ (arg.asMat.r = rb ∧ arg.asMat.r = cb)) := by
  unfold lrDivideVec
  cases b with
  | d2 rb cb bv =>
    simp only
    rw [← divStep_raises L rb cb arg.asMat.r arg.asMat.c bv arg.asMat.v]
    cases divStep L rb cb arg.asMat.r arg.asMat.c bv arg.asMat.v with
    | error e => exact iff_of_true ⟨e, rfl⟩ ⟨e, rfl⟩
    | ok y => exact iff_of_false (by rintro ⟨e, he⟩; cases he) (by rintro ⟨e, he⟩; cases he)
  | d3 rb cb T bv =>
    simp only
    by_cases hc : arg.asMat.c = 1
    · rw [if_pos hc, if_pos hc]
      have h := forRange_raises T (fun t => divNum L rb cb arg.asMat.r (fun i j => bv i j t) arg.asMat.v)
      have h' : (∃ t < T, Raises (divNum L rb cb arg.asMat.r (fun i j => bv i j t) arg.asMat.v)) ↔
          0 < T ∧ ¬ (arg.asMat.r = rb ∧ arg.asMat.r = cb) := by
        simp only [divNum_raises]
        exact ⟨fun ⟨t, ht, hh⟩ => ⟨by omega, hh⟩, fun ⟨ht, hh⟩ => ⟨0, ht, hh⟩⟩
      rw [← h', ← h]
      cases forRange T (fun t => divNum L rb cb arg.asMat.r (fun i j => bv i j t) arg.asMat.v) with
      | error e => exact iff_of_true ⟨e, rfl⟩ ⟨e, rfl⟩
      | ok y => exact iff_of_false (by rintro ⟨e, he⟩; cases he) (by rintro ⟨e, he⟩; cases he)
    · rw [if_neg hc, if_neg hc]
      have h := forRange_raises arg.asMat.c
        (fun t => onSlice t (.d3 rb cb T bv) (fun bt => divNum L rb cb arg.asMat.r bt (fun i _ => arg.asMat.v i t)))
      have h' : (∃ t < arg.asMat.c, Raises (onSlice t (.d3 rb cb T bv) (fun bt => divNum L rb cb arg.asMat.r bt (fun i _ => arg.asMat.v i t)))) ↔
          T < arg.asMat.c ∨ (0 < arg.asMat.c ∧ ¬ (arg.asMat.r = rb ∧ arg.asMat.r = cb)) := by
        have hs : ∀ t, Raises (onSlice t (.d3 rb cb T bv) (fun bt => divNum L rb cb arg.asMat.r bt (fun i _ => arg.asMat.v i t))) ↔
            T ≤ t ∨ ¬ (arg.asMat.r = rb ∧ arg.asMat.r = cb) := by
          intro t
          unfold onSlice slice
          by_cases ht : t < T
          · simp only [if_pos ht]
            rw [divNum_raises]
            exact ⟨Or.inr, fun hh => hh.resolve_left (by omega)⟩
          · simp only [if_neg ht]
            exact iff_of_true ⟨_, rfl⟩ (Or.inl (by omega))
        simp only [hs]
        constructor
        · rintro ⟨t, ht, h1 | h1⟩
          · exact Or.inl (by omega)
          · exact Or.inr ⟨by omega, h1⟩
        · rintro (h1 | ⟨h1, h2⟩)
          · exact ⟨T, h1, Or.inl le_rfl⟩
          · exact ⟨0, h1, Or.inr h2⟩
      rw [← h', ← h]
      cases forRange arg.asMat.c
        (fun t => onSlice t (.d3 rb cb T bv) (fun bt => divNum L rb cb arg.asMat.r bt (fun i _ => arg.asMat.v i t))) with
      | error e => exact iff_of_true ⟨e, rfl⟩ ⟨e, rfl⟩
      | ok y => exact iff_of_false (by rintro ⟨e, he⟩; cases he) (by rintro ⟨e, he⟩; cases he)

/-- C79 is violated: the caller's vector of length `n` has the shape `(n, 1)` after the call, whatever the outcome. -/
theorem C79_argument_changed (L : Lstsq) (b : Arr) (n : ℕ) (v : ℕ → ℝ) :
    (lrDivideVec L b (.d1 n v)).2.r = n ∧ (lrDivideVec L b (.d1 n v)).2.c = 1 ∧ ∀ i, (lrDivideVec L b (.d1 n v)).2.v i 0 = v i :=
  ⟨rfl, rfl, fun _ => rfl⟩

/-- C79: slices beyond the last vector are ignored. -/
theorem C79_extra_slices (L : Lstsq) (n m T : ℕ) (hm : m ≠ 1) (hT : m ≤ T) (b : ℕ → ℕ → ℕ → ℝ) (a : ℕ → ℕ → ℝ) :
    ∃ v, (lrDivideVec L (.d3 n n T b) (.d2 n m a)).1 = .ok (.vec m v) :=
  let ⟨v, h, _⟩ := C79_many_vectors L n m T hm hT b a
  ⟨v, h⟩

/-- The slices `[[2]]` and `[[4]]` and the vector `[6]`: 18 and 9. -/
example : ∃ L : Lstsq, ∃ v, (lrDivideVec L (.d3 1 1 2 (fun _ _ t => if t = 0 then 2 else 4)) (.d1 1 (fun _ => 6))).1 = .ok (.vec 2 v) ∧
    v 0 = 18 ∧ v 1 = 9 := by
  obtain ⟨L⟩ := nonempty_lstsq
  have hd : ∀ x : ℝ, x ≠ 0 → ∀ s : Fin 1 → ℝ, IsShortestLs (rectMat 1 1 (fun _ _ => x)) (colVec 1 (fun _ _ => 6) 0) s → s 0 = 6 / x := by
    intro x hx s hs
    have hu : IsUnit (rectMat 1 1 (fun _ _ => x)).det := by
      rw [det_fin_one]
      exact isUnit_iff_ne_zero.mpr hx
    have h := shortest_inv hu hs
    have h2 := congrArg (fun y => (rectMat 1 1 (fun _ _ => x)) *ᵥ y) h
    simp only [mulVec_mulVec, mul_nonsing_inv _ hu, one_mulVec] at h2
    have h3 := congrFun h2 0
    simp [mulVec, dotProduct, rectMat, colVec] at h3
    field_simp
    linarith
  obtain ⟨v, hv, h⟩ := C79_one_vector L 1 2 (fun _ _ t => if t = 0 then 2 else 4) (.d1 1 (fun _ => 6)) rfl rfl
  refine ⟨L, v, hv, ?_, ?_⟩
  · obtain ⟨s, hs, e⟩ := h 0 (by norm_num)
    have := hd 2 (by norm_num) s (by simpa [VecArg.asMat] using hs)
    rw [e]
    simp only [dotProduct, Fin.sum_univ_one, this, colVec, VecArg.asMat]
    norm_num
  · obtain ⟨s, hs, e⟩ := h 1 (by norm_num)
    have := hd 4 (by norm_num) s (by simpa [VecArg.asMat] using hs)
    rw [e]
    simp only [dotProduct, Fin.sum_univ_one, this, colVec, VecArg.asMat]
    norm_num

end Ellipy.MV
