import Verif.Props.QuadMat
import Verif.Proofs.Support

/-! Property theorems C140: what the values of `quad_mat` say about the ellipsoid. -/

namespace Ellipy.Ell
open Matrix Ellipy.LA Filter Topology

/-! ### Auxiliary facts -/

private theorem inv_value (L : Lstsq) {n : ℕ} (hn : n ≠ 0) {q x c : Arr ℝ} {Q : Matrix (Fin n) (Fin n) ℝ} {v w : Fin n → ℝ} (hq : IsSquare q Q)
    (hx : IsVecArr x v) (hc : IsCenterArr c w) (hd : Q.det ≠ 0) {mode : String} (hm : mode = "inv" ∨ mode = "invadv") :
    quadMat L q x c mode = .ok (oneByOne ((v - w) ⬝ᵥ Q⁻¹ *ᵥ (v - w))) := by
  obtain ⟨z, h1, h2⟩ := C62_inv L hn q x c Q v w hq hx hc hd mode hm
  rw [h2, ← h1, mulVec_mulVec, nonsing_inv_mul _ (isUnit_iff_ne_zero.2 hd), one_mulVec]

private theorem plain_value (L : Lstsq) {n : ℕ} (hn : n ≠ 0) {q x c : Arr ℝ} {Q : Matrix (Fin n) (Fin n) ℝ} {v w : Fin n → ℝ} (hq : IsSquare q Q)
    (hx : IsVecArr x v) (hc : IsCenterArr c w) : quadMat L q x c "plain" = .ok (oneByOne ((v - w) ⬝ᵥ Q *ᵥ (v - w))) := by
  rw [C62_plain L hn q x c Q v w hq hx hc]
  congr 2
  simp only [dotProduct, mulVec, Finset.mul_sum, Pi.sub_apply]
  exact Finset.sum_congr rfl (fun i _ => Finset.sum_congr rfl (fun j _ => by ring))

private theorem sq_null {n : ℕ} {Q : Matrix (Fin n) (Fin n) ℝ} (hs : Qᵀ = Q) {a : Fin n → ℝ} (h : Q *ᵥ (Q *ᵥ a) = 0) : Q *ᵥ a = 0 := by
  by_contra hne
  have h4 := dot_self_pos hne
  rw [dotProduct_mulVec, ← mulVec_transpose, hs, h, zero_dotProduct] at h4
  exact lt_irrefl _ h4

/-! ### Membership -/

/-- **C140**, any nonnegative matrix, mode `inv`: the value is at most one exactly for the points that differ from a point of the ellipsoid by
a vector orthogonal to its plane. -/
theorem C140_flat (L : Lstsq) {n : ℕ} (hn : n ≠ 0) (q x c : Arr ℝ) (Q : Matrix (Fin n) (Fin n) ℝ) (v w : Fin n → ℝ) (hq : IsSquare q Q)
    (hx : IsVecArr x v) (hc : IsCenterArr c w) (hQ : IsPSD Q) :
    ∃ r, quadMat L q x c "inv" = .ok (oneByOne r) ∧ 0 ≤ r ∧ (r ≤ 1 ↔ ∃ p ∈ Ell w Q, Q *ᵥ (v - p) = 0) := by
  obtain ⟨t, ht⟩ := L.row Q (colMat (v - w))
  have hnorm := congrArg (fun M => fun i => M i (0 : Fin 1)) (L.normal Q (colMat (v - w)))
  rw [hQ.1] at ht
  simp only [hQ.1] at hnorm
  set u : Fin n → ℝ := fun i => L.sol Q (colMat (v - w)) i 0 with hu
  have h1 : (Q * Q) *ᵥ u = Q *ᵥ (v - w) := hnorm
  have h2 : u = Q *ᵥ fun i => t i 0 := by
    funext i
    exact congrFun (congrFun ht i) 0
  rw [← mulVec_mulVec] at h1
  have hval : quadMat L q x c "inv" = .ok (oneByOne ((v - w) ⬝ᵥ u)) := by
    rw [quadMat_eval L hn hq hx hc, if_neg (by decide), if_neg (by decide), if_neg (by decide)]
  have hr : (v - w) ⬝ᵥ u = u ⬝ᵥ Q *ᵥ u := by
    calc (v - w) ⬝ᵥ u = (v - w) ⬝ᵥ Q *ᵥ (fun i => t i 0) := by rw [← h2]
      _ = (Q *ᵥ (v - w)) ⬝ᵥ (fun i => t i 0) := symm_dot hQ.1 _ _
      _ = (Q *ᵥ (Q *ᵥ u)) ⬝ᵥ (fun i => t i 0) := by rw [h1]
      _ = (Q *ᵥ u) ⬝ᵥ Q *ᵥ (fun i => t i 0) := (symm_dot hQ.1 _ _).symm
      _ = (Q *ᵥ u) ⬝ᵥ u := by rw [← h2]
      _ = u ⬝ᵥ Q *ᵥ u := dotProduct_comm _ _
  refine ⟨_, hval, by rw [hr]; exact hQ.2 u, ?_⟩
  rw [hr]
  constructor
  · intro hle
    obtain ⟨S, hS, hSS⟩ := exists_root hQ
    refine ⟨w + Q *ᵥ u, ⟨S, hS, hSS, S *ᵥ u, ?_, ?_⟩, ?_⟩
    · rw [← symm_dot hS.1, mulVec_mulVec, hSS]
      exact hle
    · rw [mulVec_mulVec, hSS]
    · rw [show v - (w + Q *ᵥ u) = (v - w) - Q *ᵥ u by abel, mulVec_sub, h1, sub_self]
  · rintro ⟨p, hp, hperp⟩
    obtain ⟨z, hz, hle⟩ := support_witness hQ ((mem_ell_support hQ p).1 hp)
    have h3 : Q *ᵥ (Q *ᵥ (z - u)) = 0 := by
      rw [mulVec_sub, mulVec_sub, hz, h1, ← mulVec_sub, show p - w - (v - w) = -(v - p) by abel, mulVec_neg, hperp, neg_zero]
    have h4 := sq_null hQ.1 h3
    rw [mulVec_sub, sub_eq_zero] at h4
    have h5 : u ⬝ᵥ Q *ᵥ u = (p - w) ⬝ᵥ z := by
      rw [← h4, symm_dot hQ.1, ← h4, hz]
    rw [h5]
    exact hle

/-- **C140**, an invertible matrix, modes `inv` and `invadv`: the value is at most one exactly for the points of the ellipsoid, and less than
one exactly for its inner points. -/
theorem C140_member (L : Lstsq) {n : ℕ} (hn : n ≠ 0) (q x c : Arr ℝ) (Q : Matrix (Fin n) (Fin n) ℝ) (v w : Fin n → ℝ) (hq : IsSquare q Q)
    (hx : IsVecArr x v) (hc : IsCenterArr c w) (hQ : IsPSD Q) (hd : Q.det ≠ 0) (mode : String) (hm : mode = "inv" ∨ mode = "invadv") :
    ∃ r, quadMat L q x c mode = .ok (oneByOne r) ∧ (r ≤ 1 ↔ v ∈ Ell w Q) ∧ (r < 1 ↔ v ∈ interior (Ell w Q)) := by
  have hu : IsUnit Q.det := isUnit_iff_ne_zero.2 hd
  have hmem := fun x => mem_ell_inv (c := w) hQ hu x
  refine ⟨_, inv_value L hn hq hx hc hd hm, (hmem v).symm, ?_, ?_⟩
  · intro hlt
    refine mem_interior.2 ⟨{x | (x - w) ⬝ᵥ Q⁻¹ *ᵥ (x - w) < 1}, fun y hy => (hmem y).2 (le_of_lt hy), ?_, hlt⟩
    refine isOpen_lt ?_ continuous_const
    unfold dotProduct mulVec dotProduct
    fun_prop
  · intro hin
    have hle := (hmem v).1 (interior_subset hin)
    refine lt_of_le_of_ne hle (fun h1 => ?_)
    have hcont : Continuous fun s : ℝ => w + s • (v - w) := by fun_prop
    have hev : ∀ᶠ s in 𝓝 (1 : ℝ), w + s • (v - w) ∈ Ell w Q := by
      have : Ell w Q ∈ 𝓝 (w + (1 : ℝ) • (v - w)) := by
        rw [one_smul, add_sub_cancel]
        exact mem_interior_iff_mem_nhds.1 hin
      exact hcont.continuousAt.eventually this
    obtain ⟨s, hs, hs1⟩ := ((hev.filter_mono nhdsWithin_le_nhds).and (self_mem_nhdsWithin : Set.Ioi (1 : ℝ) ∈ 𝓝[>] (1 : ℝ))).exists
    have h2 := (hmem _).1 hs
    rw [add_sub_cancel_left, mulVec_smul, smul_dotProduct, dotProduct_smul, smul_eq_mul, smul_eq_mul, h1, mul_one] at h2
    have : (1 : ℝ) < s := hs1
    nlinarith

/-! ### Width and gauge -/

/-- **C140**, mode `plain` at a direction with the centre zero: the root of the value is the width of the ellipsoid in this direction, from
the centre. -/
theorem C140_width (L : Lstsq) {n : ℕ} (hn : n ≠ 0) (q x c : Arr ℝ) (Q : Matrix (Fin n) (Fin n) ℝ) (l : Fin n → ℝ) (hq : IsSquare q Q)
    (hx : IsVecArr x l) (hc : IsCenterArr c (0 : Fin n → ℝ)) (hQ : IsPSD Q) (w : Fin n → ℝ) :
    ∃ r, quadMat L q x c "plain" = .ok (oneByOne r) ∧ IsSupport (Ell w Q) l (l ⬝ᵥ w + Real.sqrt r) := by
  refine ⟨_, plain_value L hn hq hx hc, ?_⟩
  rw [sub_zero]
  exact ell_support hQ l

/-- **C140**: the value in the modes `inv` and `invadv` is the least `r` for which the square of `⟨l, x - c⟩` never exceeds `r` times the
value in the mode `plain` at `l`. -/
theorem C140_least (L : Lstsq) {n : ℕ} (hn : n ≠ 0) (q x c : Arr ℝ) (Q : Matrix (Fin n) (Fin n) ℝ) (v w : Fin n → ℝ) (hq : IsSquare q Q)
    (hx : IsVecArr x v) (hc : IsCenterArr c w) (hQ : IsPSD Q) (hd : Q.det ≠ 0) (mode : String) (hm : mode = "inv" ∨ mode = "invadv") :
    ∃ r, quadMat L q x c mode = .ok (oneByOne r) ∧
      IsLeast {s | 0 ≤ s ∧ ∀ (a b : Arr ℝ) (l : Fin n → ℝ) (m : ℝ), IsVecArr a l → IsCenterArr b (0 : Fin n → ℝ) →
        quadMat L q a b "plain" = .ok (oneByOne m) → (l ⬝ᵥ (v - w)) ^ 2 ≤ s * m} r := by
  have hu : IsUnit Q.det := isUnit_iff_ne_zero.2 hd
  obtain ⟨S, hS, hSS⟩ := exists_root hQ
  set z := Q⁻¹ *ᵥ (v - w) with hz
  have hy : v - w = Q *ᵥ z := by rw [hz, mulVec_mulVec, mul_nonsing_inv _ hu, one_mulVec]
  have hq2 : ∀ a b : Fin n → ℝ, a ⬝ᵥ Q *ᵥ b = (S *ᵥ a) ⬝ᵥ (S *ᵥ b) := fun a b => by rw [← symm_dot hS.1, mulVec_mulVec, hSS]
  have hr : (v - w) ⬝ᵥ z = z ⬝ᵥ Q *ᵥ z := by rw [hy, dotProduct_comm]
  have hone : ∀ {s m : ℝ}, (.ok (oneByOne s) : Py (Arr ℝ)) = .ok (oneByOne m) → s = m := by
    intro s m h
    have h1 := congrArg Arr.data (Except.ok.inj h)
    simpa [oneByOne] using h1
  refine ⟨_, inv_value L hn hq hx hc hd hm, ⟨?_, ?_⟩, ?_⟩
  · rw [← hz, hr]
    exact hQ.2 z
  · intro a b l m ha hb h
    rw [plain_value L hn hq ha hb, sub_zero] at h
    rw [← hone h, ← hz, hr, hy, hq2 l z, hq2 z z, hq2 l l]
    have := dot_sq_le_mul (S *ᵥ l) (S *ᵥ z)
    linarith
  · rintro s ⟨hs0, hs⟩
    have ha : IsVecArr (⟨[n], List.ofFn z, by simp⟩ : Arr ℝ) z := ⟨Or.inl rfl, fun i => by simp⟩
    have hb : IsCenterArr (⟨[1], [0], rfl⟩ : Arr ℝ) (0 : Fin n → ℝ) := Or.inr (Or.inl ⟨rfl, rfl⟩)
    have h := hs _ _ z (z ⬝ᵥ Q *ᵥ z) ha hb (by rw [plain_value L hn hq ha hb, sub_zero])
    rw [← hz, hr]
    rw [hy] at h
    by_contra hlt
    push_neg at hlt
    nlinarith

/-- **C140**: the values at `c + t·(x - c)` are `t²` times those at `x`, in all modes. -/
theorem C140_scale (L : Lstsq) {n : ℕ} (hn : n ≠ 0) (q x x' c : Arr ℝ) (Q : Matrix (Fin n) (Fin n) ℝ) (v w : Fin n → ℝ) (t : ℝ) (hq : IsSquare q Q)
    (hx : IsVecArr x v) (hx' : IsVecArr x' (w + t • (v - w))) (hc : IsCenterArr c w) (mode : String)
    (hm : mode = "plain" ∨ Q.det ≠ 0 ∧ (mode = "inv" ∨ mode = "invadv")) :
    ∃ r, quadMat L q x c mode = .ok (oneByOne r) ∧ quadMat L q x' c mode = .ok (oneByOne (t ^ 2 * r)) := by
  have key : ∀ P : Matrix (Fin n) (Fin n) ℝ, (w + t • (v - w) - w) ⬝ᵥ P *ᵥ (w + t • (v - w) - w) = t ^ 2 * ((v - w) ⬝ᵥ P *ᵥ (v - w)) := by
    intro P
    rw [add_sub_cancel_left, mulVec_smul, smul_dotProduct, dotProduct_smul, smul_eq_mul, smul_eq_mul]
    ring
  rcases hm with rfl | ⟨hd, hm⟩
  · exact ⟨_, plain_value L hn hq hx hc, by rw [plain_value L hn hq hx' hc, key]⟩
  · exact ⟨_, inv_value L hn hq hx hc hd hm, by rw [inv_value L hn hq hx' hc hd hm, key]⟩

/-! ### The modes and coordinates -/

/-- **C140**: with the inverse that `inv_mat` returns, the modes `plain` and `inv` change their roles. -/
theorem C140_inverse (L : Lstsq) {n : ℕ} (hn : n ≠ 0) (q q' x c : Arr ℝ) (Q B : Matrix (Fin n) (Fin n) ℝ) (v w : Fin n → ℝ) (hq : IsSquare q Q)
    (hB : invMat q = .ok ⟨n, B⟩) (hq' : IsSquare q' B) (hx : IsVecArr x v) (hc : IsCenterArr c w) (mode : String)
    (hm : mode = "inv" ∨ mode = "invadv") :
    (∃ r, quadMat L q x c mode = .ok (oneByOne r) ∧ quadMat L q' x c "plain" = .ok (oneByOne r)) ∧
      ∃ r, quadMat L q x c "plain" = .ok (oneByOne r) ∧ quadMat L q' x c mode = .ok (oneByOne r) := by
  have h1 : B * Q = 1 := ((C62_inv_mat q Q hq).1 B).1 hB
  have hdet : B.det * Q.det = 1 := by rw [← det_mul, h1, det_one]
  have hd : Q.det ≠ 0 := fun h => by rw [h, mul_zero] at hdet; exact zero_ne_one hdet
  have hd' : B.det ≠ 0 := fun h => by rw [h, zero_mul] at hdet; exact zero_ne_one hdet
  have hBQ : Q⁻¹ = B := inv_eq_left_inv h1
  have hQB : B⁻¹ = Q := inv_eq_right_inv h1
  exact ⟨⟨_, inv_value L hn hq hx hc hd hm, by rw [plain_value L hn hq' hx hc, hBQ]⟩,
    ⟨_, plain_value L hn hq hx hc, by rw [inv_value L hn hq' hx hc hd' hm, hQB]⟩⟩

/-- **C140**: a change of coordinates `x ↦ A x + b` of the points, with the matrix of the image of the ellipsoid, does not change the values
in the modes `inv` and `invadv`. -/
theorem C140_coordinates (L : Lstsq) {n : ℕ} (hn : n ≠ 0) (q x c q' x' c' : Arr ℝ) (Q A : Matrix (Fin n) (Fin n) ℝ) (v w b : Fin n → ℝ)
    (hq : IsSquare q Q) (hx : IsVecArr x v) (hc : IsCenterArr c w) (hq' : IsSquare q' (A * Q * Aᵀ)) (hx' : IsVecArr x' (A *ᵥ v + b))
    (hc' : IsCenterArr c' (A *ᵥ w + b)) (hd : Q.det ≠ 0) (hA : A.det ≠ 0) (mode : String) (hm : mode = "inv" ∨ mode = "invadv") :
    quadMat L q' x' c' mode = quadMat L q x c mode := by
  have hu : IsUnit A.det := isUnit_iff_ne_zero.2 hA
  have hd' : (A * Q * Aᵀ).det ≠ 0 := by
    rw [det_mul, det_mul, det_transpose]
    exact mul_ne_zero (mul_ne_zero hA hd) hA
  rw [inv_value L hn hq' hx' hc' hd' hm, inv_value L hn hq hx hc hd hm]
  congr 2
  rw [add_sub_add_right_eq_sub, ← mulVec_sub, Matrix.mul_inv_rev, Matrix.mul_inv_rev, mulVec_mulVec, ← Matrix.mul_assoc, Matrix.mul_assoc (Aᵀ⁻¹ * Q⁻¹),
    nonsing_inv_mul _ hu, Matrix.mul_one, ← mulVec_mulVec, dotProduct_mulVec, ← mulVec_transpose, mulVec_mulVec, ← transpose_nonsing_inv,
    transpose_transpose, nonsing_inv_mul _ hu, one_mulVec]

/-! ### Examples -/

/-- The segment from `(-1, 0)` to `(1, 0)`: the value at `(0, 5)` is at most one although this point is not in the segment. -/
example (L : Lstsq) : ∃ (q x c : Arr ℝ) (Q : Matrix (Fin 2) (Fin 2) ℝ) (v w : Fin 2 → ℝ), IsSquare q Q ∧ IsVecArr x v ∧ IsCenterArr c w ∧ IsPSD Q ∧
    v ∉ Ell w Q ∧ ∃ r, quadMat L q x c "inv" = .ok (oneByOne r) ∧ r ≤ 1 := by
  have hQ : IsPSD (!![1, 0; 0, 0] : Matrix (Fin 2) (Fin 2) ℝ) := by
    refine ⟨by ext i j; fin_cases i <;> fin_cases j <;> rfl, fun x => ?_⟩
    simp only [dotProduct, mulVec, Fin.sum_univ_two, of_apply, cons_val_zero, cons_val_one]
    nlinarith [mul_self_nonneg (x 0)]
  have hq : IsSquare (⟨[2, 2], [1, 0, 0, 0], rfl⟩ : Arr ℝ) !![1, 0; 0, 0] := ⟨rfl, fun i j => by fin_cases i <;> fin_cases j <;> rfl⟩
  have hx : IsVecArr (⟨[2], [0, 5], rfl⟩ : Arr ℝ) ![0, 5] := ⟨Or.inl rfl, fun i => by fin_cases i <;> rfl⟩
  have hc : IsCenterArr (⟨[1], [0], rfl⟩ : Arr ℝ) (0 : Fin 2 → ℝ) := Or.inr (Or.inl ⟨rfl, rfl⟩)
  refine ⟨_, _, _, _, _, _, hq, hx, hc, hQ, ?_, ?_⟩
  · intro h
    have := (mem_ell_support hQ _).1 h ![0, 1]
    simp [dotProduct, mulVec, Fin.sum_univ_two] at this
  · obtain ⟨r, h1, -, h2⟩ := C140_flat L (by norm_num) _ _ _ _ _ _ hq hx hc hQ
    refine ⟨r, h1, h2.2 ⟨0, center_mem hQ, ?_⟩⟩
    funext i
    fin_cases i <;> simp [mulVec, dotProduct, Fin.sum_univ_two]

/-- A nonsingular matrix with the arrays of the other theorems. -/
example : IsSquare (⟨[2, 2], [2, 1, 1, 2], rfl⟩ : Arr ℝ) !![2, 1; 1, 2] ∧ IsVecArr (⟨[2], [3, 4], rfl⟩ : Arr ℝ) ![3, 4] ∧
    IsCenterArr (⟨[2], [1, 0], rfl⟩ : Arr ℝ) ![1, 0] ∧ IsPSD (!![2, 1; 1, 2] : Matrix (Fin 2) (Fin 2) ℝ) ∧
    (!![2, 1; 1, 2] : Matrix (Fin 2) (Fin 2) ℝ).det ≠ 0 ∧
    invMat (⟨[2, 2], [2, 1, 1, 2], rfl⟩ : Arr ℝ) = .ok ⟨2, !![2 / 3, -1 / 3; -1 / 3, 2 / 3]⟩ := by
  have hq : IsSquare (⟨[2, 2], [2, 1, 1, 2], rfl⟩ : Arr ℝ) !![2, 1; 1, 2] := ⟨rfl, fun i j => by fin_cases i <;> fin_cases j <;> rfl⟩
  refine ⟨hq, ⟨Or.inl rfl, fun i => by fin_cases i <;> rfl⟩, Or.inl ⟨Or.inl rfl, fun i => by fin_cases i <;> rfl⟩, ⟨?_, fun x => ?_⟩, ?_, ?_⟩
  · ext i j; fin_cases i <;> fin_cases j <;> rfl
  · simp only [dotProduct, mulVec, Fin.sum_univ_two, of_apply, cons_val_zero, cons_val_one]
    nlinarith [mul_self_nonneg (x 0), mul_self_nonneg (x 1), mul_self_nonneg (x 0 + x 1)]
  · rw [det_fin_two_of]; norm_num
  · rw [(C62_inv_mat _ _ hq).1]
    ext i j
    fin_cases i <;> fin_cases j <;> norm_num [mul_apply, Fin.sum_univ_two]

end Ellipy.Ell
