import Verif.Proofs.LinImage
import Verif.Props.LrDivide
import Verif.Props.QuadMat

/-! Property theorems C154 (`SquareMatVector.lr_divide_vec`): laws across calls and what the values say about ellipsoids. -/

namespace Ellipy.MV
open Matrix Ellipy.LA Ellipy.Ell

/-- Slice `t` of an array of square matrices. -/
def slab (n : ℕ) (b : ℕ → ℕ → ℕ → ℝ) (t : ℕ) : Matrix (Fin n) (Fin n) ℝ := rectMat n n (fun i j => b i j t)

private theorem divide_eq (L : Lstsq) {n T : ℕ} {b : ℕ → ℕ → ℕ → ℝ} (a : ℕ → ℕ → ℝ) (hb : ∀ t < T, (slab n b t).det ≠ 0) :
    ∃ v, (lrDivideVec L (.d3 n n T b) (.d2 n T a)).1 = .ok (.vec T v) ∧ ∀ t < T, v t = colVec n a t ⬝ᵥ (slab n b t)⁻¹ *ᵥ colVec n a t := by
  obtain ⟨v, h, hv⟩ := C79_partial L n T T b a (fun t ht => isUnit_iff_ne_zero.mpr (hb t ht)) (Or.inr rfl)
  refine ⟨v, h, fun t ht => ?_⟩
  have h1 := hv t ht
  have h2 : (if T = 1 then 0 else t) = t := by split_ifs with h3 <;> omega
  rw [h2] at h1
  exact h1

/-- **C154**, units: vectors `α` times as long and matrices `β` times as large give the value times `α²/β`. -/
theorem C154_units (L : Lstsq) (n T : ℕ) (b : ℕ → ℕ → ℕ → ℝ) (a : ℕ → ℕ → ℝ) (α β : ℝ) (hβ : β ≠ 0) (hb : ∀ t < T, (slab n b t).det ≠ 0) :
    ∃ v w, (lrDivideVec L (.d3 n n T b) (.d2 n T a)).1 = .ok (.vec T v) ∧
      (lrDivideVec L (.d3 n n T (fun i j t => β * b i j t)) (.d2 n T (fun i t => α * a i t))).1 = .ok (.vec T w) ∧ ∀ t < T, w t = α ^ 2 / β * v t := by
  have hs : ∀ t, slab n (fun i j t => β * b i j t) t = β • slab n b t := fun t => by ext i j; rfl
  obtain ⟨v, h1, hv⟩ := divide_eq L a hb
  obtain ⟨w, h2, hw⟩ := divide_eq L (b := fun i j t => β * b i j t) (fun i t => α * a i t) (T := T) (n := n) (fun t ht => by
    rw [hs, det_smul]; exact mul_ne_zero (pow_ne_zero _ hβ) (hb t ht))
  refine ⟨v, w, h1, h2, fun t ht => ?_⟩
  have hc : colVec n (fun i t => α * a i t) t = α • colVec n a t := rfl
  have hu : Invertible β := invertibleOfNonzero hβ
  have hinv : (β • slab n b t)⁻¹ = β⁻¹ • (slab n b t)⁻¹ := by
    refine inv_eq_left_inv ?_
    rw [Matrix.smul_mul, Matrix.mul_smul, smul_smul, inv_mul_cancel₀ hβ, one_smul, nonsing_inv_mul _ (isUnit_iff_ne_zero.mpr (hb t ht))]
  rw [hw t ht, hv t ht, hs, hc, hinv, smul_mulVec, mulVec_smul, dotProduct_smul, dotProduct_smul, smul_dotProduct]
  simp only [smul_eq_mul]
  field_simp

/-- **C154**, coordinates: the change of coordinates `M_t`, applied to the vectors and the matrices, does not change the values. -/
theorem C154_coordinates (L : Lstsq) (n T : ℕ) (b b' : ℕ → ℕ → ℕ → ℝ) (a a' : ℕ → ℕ → ℝ) (M : ℕ → Matrix (Fin n) (Fin n) ℝ)
    (hM : ∀ t < T, (M t).det ≠ 0) (hb : ∀ t < T, (slab n b t).det ≠ 0) (hb' : ∀ t < T, slab n b' t = M t * slab n b t * (M t)ᵀ)
    (ha' : ∀ t < T, colVec n a' t = M t *ᵥ colVec n a t) :
    ∃ v w, (lrDivideVec L (.d3 n n T b) (.d2 n T a)).1 = .ok (.vec T v) ∧ (lrDivideVec L (.d3 n n T b') (.d2 n T a')).1 = .ok (.vec T w) ∧
      ∀ t < T, w t = v t := by
  obtain ⟨v, h1, hv⟩ := divide_eq L a hb
  obtain ⟨w, h2, hw⟩ := divide_eq L (b := b') a' (T := T) (n := n) (fun t ht => by
    rw [hb' t ht, det_mul, det_mul, det_transpose]; exact mul_ne_zero (mul_ne_zero (hM t ht) (hb t ht)) (hM t ht))
  refine ⟨v, w, h1, h2, fun t ht => ?_⟩
  have hu : IsUnit (M t).det := isUnit_iff_ne_zero.mpr (hM t ht)
  rw [hw t ht, hv t ht, hb' t ht, ha' t ht]
  generalize slab n b t = B
  generalize colVec n a t = x
  have h3 : (M t *ᵥ x) ⬝ᵥ (M t * B * (M t)ᵀ)⁻¹ *ᵥ (M t *ᵥ x) = x ⬝ᵥ ((M t)ᵀ *ᵥ ((M t * B * (M t)ᵀ)⁻¹ *ᵥ (M t *ᵥ x))) := by
    rw [dotProduct_comm, dotProduct_mulVec, ← mulVec_transpose, dotProduct_comm]
  rw [h3, mulVec_mulVec, mulVec_mulVec, Matrix.mul_inv_rev, Matrix.mul_inv_rev, ← Matrix.mul_assoc, ← Matrix.mul_assoc,
    mul_nonsing_inv _ (by rw [det_transpose]; exact hu), Matrix.one_mul, Matrix.mul_assoc, nonsing_inv_mul _ hu, Matrix.mul_one]

private theorem form_cs {n : ℕ} {B : Matrix (Fin n) (Fin n) ℝ} (hB : IsPSD B) (hd : B.det ≠ 0) (a x : Fin n → ℝ) :
    (x ⬝ᵥ a) ^ 2 ≤ (x ⬝ᵥ B *ᵥ x) * (a ⬝ᵥ B⁻¹ *ᵥ a) := by
  have hu := isUnit_iff_ne_zero.mpr hd
  set z := B⁻¹ *ᵥ a with hz
  have ha : a = B *ᵥ z := by rw [hz, mulVec_mulVec, mul_nonsing_inv _ hu, one_mulVec]
  obtain ⟨S, hS, hSS⟩ := exists_root hB
  have key : ∀ u y : Fin n → ℝ, u ⬝ᵥ B *ᵥ y = (S *ᵥ u) ⬝ᵥ (S *ᵥ y) := fun u y => by rw [← hSS, ← mulVec_mulVec, symm_dot hS.1]
  have h1 : a ⬝ᵥ z = (S *ᵥ z) ⬝ᵥ (S *ᵥ z) := by
    rw [← key, dotProduct_comm, ← ha]
  rw [h1, key x x, ha, key x z]
  have := Finset.sum_mul_sq_le_sq_mul_sq Finset.univ (S *ᵥ x) (S *ᵥ z)
  simpa [dotProduct, pow_two] using this

/-- **C154**, extremal values: for positive definite matrices the value is the largest `⟨x, a_t⟩² / ⟨x, B_t x⟩`; it is attained. -/
theorem C154_extremal (L : Lstsq) (n T : ℕ) (b : ℕ → ℕ → ℕ → ℝ) (a : ℕ → ℕ → ℝ) (hb : ∀ t < T, IsPSD (slab n b t) ∧ (slab n b t).det ≠ 0) :
    ∃ v, (lrDivideVec L (.d3 n n T b) (.d2 n T a)).1 = .ok (.vec T v) ∧ ∀ t < T,
      (∀ x, (x ⬝ᵥ colVec n a t) ^ 2 ≤ (x ⬝ᵥ slab n b t *ᵥ x) * v t) ∧ ∃ x, x ⬝ᵥ colVec n a t = v t ∧ x ⬝ᵥ slab n b t *ᵥ x = v t := by
  obtain ⟨v, h1, hv⟩ := divide_eq L a (fun t ht => (hb t ht).2)
  refine ⟨v, h1, fun t ht => ⟨fun x => ?_, (slab n b t)⁻¹ *ᵥ colVec n a t, ?_, ?_⟩⟩
  · rw [hv t ht]; exact form_cs (hb t ht).1 (hb t ht).2 _ _
  · rw [hv t ht, dotProduct_comm]
  · rw [hv t ht, mulVec_mulVec, mul_nonsing_inv _ (isUnit_iff_ne_zero.mpr (hb t ht).2), one_mulVec, dotProduct_comm]

/-- **C154**, ellipsoids: the value is nonnegative, and at most `r²` exactly if the vector lies in the ellipsoid with the shape matrix of the slice,
enlarged by the factor `r`. -/
theorem C154_ellipsoid (L : Lstsq) (n T : ℕ) (b : ℕ → ℕ → ℕ → ℝ) (a : ℕ → ℕ → ℝ) (hb : ∀ t < T, IsPSD (slab n b t) ∧ (slab n b t).det ≠ 0) :
    ∃ v, (lrDivideVec L (.d3 n n T b) (.d2 n T a)).1 = .ok (.vec T v) ∧ ∀ t < T, 0 ≤ v t ∧
      ∀ r : ℝ, 0 < r → (v t ≤ r ^ 2 ↔ (1 / r) • colVec n a t ∈ Ell 0 (slab n b t)) := by
  obtain ⟨v, h1, hv⟩ := divide_eq L a (fun t ht => (hb t ht).2)
  refine ⟨v, h1, fun t ht => ⟨?_, fun r hr => ?_⟩⟩
  · have hu := isUnit_iff_ne_zero.mpr (hb t ht).2
    have h2 := (hb t ht).1.2 ((slab n b t)⁻¹ *ᵥ colVec n a t)
    rw [mulVec_mulVec, mul_nonsing_inv _ hu, one_mulVec, dotProduct_comm] at h2
    rw [hv t ht]
    exact h2
  · rw [mem_ell_inv (hb t ht).1 (isUnit_iff_ne_zero.mpr (hb t ht).2), sub_zero, hv t ht, mulVec_smul, dotProduct_smul, smul_dotProduct]
    simp only [smul_eq_mul]
    generalize colVec n a t ⬝ᵥ (slab n b t)⁻¹ *ᵥ colVec n a t = s
    rw [show 1 / r * (1 / r * s) = s / r ^ 2 by field_simp, div_le_one (by positivity)]

/-- **C154**, order: larger matrices give smaller values. -/
theorem C154_order (L : Lstsq) (n T : ℕ) (b b' : ℕ → ℕ → ℕ → ℝ) (a : ℕ → ℕ → ℝ) (hb : ∀ t < T, IsPSD (slab n b t) ∧ (slab n b t).det ≠ 0)
    (hb' : ∀ t < T, IsPSD (slab n b' t) ∧ (slab n b' t).det ≠ 0)
    (hle : ∀ t < T, ∀ x, x ⬝ᵥ slab n b t *ᵥ x ≤ x ⬝ᵥ slab n b' t *ᵥ x) :
    ∃ v w, (lrDivideVec L (.d3 n n T b) (.d2 n T a)).1 = .ok (.vec T v) ∧ (lrDivideVec L (.d3 n n T b') (.d2 n T a)).1 = .ok (.vec T w) ∧
      ∀ t < T, w t ≤ v t := by
  obtain ⟨v, h1, hv⟩ := C154_extremal L n T b a hb
  obtain ⟨w, h2, hw⟩ := C154_extremal L n T b' a hb'
  refine ⟨v, w, h1, h2, fun t ht => ?_⟩
  obtain ⟨x, hx1, hx2⟩ := (hw t ht).2
  have h3 := (hv t ht).1 x
  have h4 := hle t ht x
  rw [hx1] at h3
  rw [hx2] at h4
  obtain ⟨y, -, hy⟩ := (hv t ht).2
  have h5 : 0 ≤ v t := by rw [← hy]; exact (hb t ht).1.2 y
  by_contra hlt
  push Not at hlt
  have hw0 : 0 < w t := lt_of_le_of_lt h5 hlt
  nlinarith [mul_le_mul_of_nonneg_right h4 h5]

/-- **C154**, parallelograms: the values at sums and differences of vectors. -/
theorem C154_parallelogram (L : Lstsq) (n T : ℕ) (b : ℕ → ℕ → ℕ → ℝ) (a a' : ℕ → ℕ → ℝ) (hb : ∀ t < T, (slab n b t).det ≠ 0) :
    ∃ v v' s d, (lrDivideVec L (.d3 n n T b) (.d2 n T a)).1 = .ok (.vec T v) ∧ (lrDivideVec L (.d3 n n T b) (.d2 n T a')).1 = .ok (.vec T v') ∧
      (lrDivideVec L (.d3 n n T b) (.d2 n T (fun i t => a i t + a' i t))).1 = .ok (.vec T s) ∧
      (lrDivideVec L (.d3 n n T b) (.d2 n T (fun i t => a i t - a' i t))).1 = .ok (.vec T d) ∧ ∀ t < T, s t + d t = 2 * v t + 2 * v' t := by
  obtain ⟨v, h1, hv⟩ := divide_eq L a hb
  obtain ⟨v', h2, hv'⟩ := divide_eq L a' hb
  obtain ⟨s, h3, hs⟩ := divide_eq L (fun i t => a i t + a' i t) hb
  obtain ⟨d, h4, hd⟩ := divide_eq L (fun i t => a i t - a' i t) hb
  refine ⟨v, v', s, d, h1, h2, h3, h4, fun t ht => ?_⟩
  have e1 : colVec n (fun i t => a i t + a' i t) t = colVec n a t + colVec n a' t := rfl
  have e2 : colVec n (fun i t => a i t - a' i t) t = colVec n a t - colVec n a' t := rfl
  rw [hv t ht, hv' t ht, hs t ht, hd t ht, e1, e2, mulVec_add, mulVec_sub]
  simp only [add_dotProduct, sub_dotProduct, dotProduct_add, dotProduct_sub]
  ring

/-- **C154**, slices: each value is the one that `quad_mat` computes from the slice and the vector alone. -/
theorem C154_quad_mat (L : Lstsq) (n T : ℕ) (hn : n ≠ 0) (b : ℕ → ℕ → ℕ → ℝ) (a : ℕ → ℕ → ℝ) (hb : ∀ t < T, (slab n b t).det ≠ 0) :
    ∃ v, (lrDivideVec L (.d3 n n T b) (.d2 n T a)).1 = .ok (.vec T v) ∧ ∀ t < T, ∀ q x c : Ellipy.Arr ℝ, Ell.IsSquare q (slab n b t) →
      IsVecArr x (colVec n a t) → IsCenterArr c (0 : Fin n → ℝ) → ∀ mode, (mode = "inv" ∨ mode = "invadv") → quadMat L q x c mode = .ok (oneByOne (v t)) := by
  obtain ⟨v, h1, hv⟩ := divide_eq L a hb
  refine ⟨v, h1, fun t ht q x c hq hx hc mode hm => ?_⟩
  obtain ⟨z, hz, h2⟩ := C62_inv L hn q x c _ _ _ hq hx hc (hb t ht) mode hm
  have hzz : z = (slab n b t)⁻¹ *ᵥ (colVec n a t - 0) := by
    rw [← hz, mulVec_mulVec, nonsing_inv_mul _ (isUnit_iff_ne_zero.mpr (hb t ht)), one_mulVec]
  rw [h2, hv t ht, hzz, sub_zero]

/-! A batch of two slices, `diag(1, 4)` and the unit matrix, with the vectors `(1, 2)` and `(3, 4)`. -/

private def exB : ℕ → ℕ → ℕ → ℝ := fun i j t => if i = j then (if t = 0 ∧ i = 1 then 4 else 1) else 0
private def exA : ℕ → ℕ → ℝ := fun i t => if t = 0 then (if i = 0 then 1 else 2) else (if i = 0 then 3 else 4)

private theorem exB_zero : slab 2 exB 0 = !![1, 0; 0, 4] := by
  ext i j; fin_cases i <;> fin_cases j <;> simp [slab, rectMat, exB]

private theorem exB_one : slab 2 exB 1 = 1 := by
  ext i j; fin_cases i <;> fin_cases j <;> simp [slab, rectMat, exB]

private theorem exB_ok : ∀ t < 2, IsPSD (slab 2 exB t) ∧ (slab 2 exB t).det ≠ 0 := by
  intro t ht
  rcases (by omega : t = 0 ∨ t = 1) with rfl | rfl
  · rw [exB_zero]
    refine ⟨⟨?_, fun x => ?_⟩, ?_⟩
    · ext i j; fin_cases i <;> fin_cases j <;> simp
    · simp [dotProduct, mulVec, Fin.sum_univ_two]; nlinarith [mul_self_nonneg (x 0), mul_self_nonneg (x 1)]
    · rw [det_fin_two]; simp
  · rw [exB_one]
    exact ⟨⟨transpose_one, fun x => by rw [one_mulVec]; exact dot_self_nonneg x⟩, by simp⟩

/-- The value of the second slice is 25: the vector (3, 4) lies on the circle with the radius 5. -/
example (L : Lstsq) : ∃ v, (lrDivideVec L (.d3 2 2 2 exB) (.d2 2 2 exA)).1 = .ok (.vec 2 v) ∧ v 1 = 25 ∧
    (1 / 5 : ℝ) • colVec 2 exA 1 ∈ Ell 0 (slab 2 exB 1) ∧ (1 / 4 : ℝ) • colVec 2 exA 1 ∉ Ell 0 (slab 2 exB 1) := by
  obtain ⟨v, h, hv⟩ := C154_ellipsoid L 2 2 exB exA exB_ok
  obtain ⟨v', h', hv'⟩ := divide_eq L (n := 2) (T := 2) (b := exB) exA (fun t ht => (exB_ok t ht).2)
  have e : v = v' := by
    have := h.symm.trans h'
    simpa using this
  subst e
  have h25 : v 1 = 25 := by
    rw [hv' 1 (by norm_num), exB_one, inv_one, one_mulVec]
    simp [dotProduct, colVec, exA, Fin.sum_univ_two]
    norm_num
  refine ⟨v, h, h25, ((hv 1 (by norm_num)).2 5 (by norm_num)).mp (by rw [h25]; norm_num), fun hm => ?_⟩
  have := ((hv 1 (by norm_num)).2 4 (by norm_num)).mpr hm
  rw [h25] at this
  norm_num at this

end Ellipy.MV
