import Verif.Proofs.MinksumEq
import Verif.Spec.LinImage

/-! Helpers for C120. -/

namespace Ellipy.Ell
open Matrix Ellipy.LA

theorem image_symm {n m : ℕ} (A : Matrix (Fin m) (Fin n) ℝ) {Q : Matrix (Fin n) (Fin n) ℝ} (hQ : Qᵀ = Q) :
    (A * Q * Aᵀ)ᵀ = A * Q * Aᵀ := by
  rw [transpose_mul, transpose_mul, transpose_transpose, hQ, Matrix.mul_assoc]

theorem image_psd {n m : ℕ} (A : Matrix (Fin m) (Fin n) ℝ) {Q : Matrix (Fin n) (Fin n) ℝ} (hQ : IsPSD Q) : IsPSD (A * Q * Aᵀ) :=
  ⟨image_symm A hQ.1, fun x => by rw [quad_conj]; exact hQ.2 _⟩

/-- The other order of the product. -/
theorem orth_comm {n : ℕ} {U : Matrix (Fin n) (Fin n) ℝ} (hU : IsOrth U) : Uᵀ * U = 1 := mul_eq_one_comm.mp hU

theorem orth_dot {n : ℕ} {U : Matrix (Fin n) (Fin n) ℝ} (hU : IsOrth U) (x y : Fin n → ℝ) : (U *ᵥ x) ⬝ᵥ (U *ᵥ y) = x ⬝ᵥ y := by
  rw [dotProduct_mulVec, vecMul_mulVec, orth_comm hU, vecMul_one]

theorem orth_dot' {n : ℕ} {U : Matrix (Fin n) (Fin n) ℝ} (hU : IsOrth U) (x y : Fin n → ℝ) : (Uᵀ *ᵥ x) ⬝ᵥ (Uᵀ *ᵥ y) = x ⬝ᵥ y := by
  rw [dotProduct_mulVec, vecMul_mulVec, transpose_transpose, hU, vecMul_one]

theorem orth_ne {n : ℕ} {U : Matrix (Fin n) (Fin n) ℝ} (hU : IsOrth U) {x : Fin n → ℝ} (hx : x ≠ 0) : U *ᵥ x ≠ 0 := by
  intro h
  have := orth_dot hU x x
  rw [h, dotProduct_zero] at this
  exact absurd (dot_self_pos hx) (by rw [← this]; exact lt_irrefl _)

theorem orth_ne' {n : ℕ} {U : Matrix (Fin n) (Fin n) ℝ} (hU : IsOrth U) {x : Fin n → ℝ} (hx : x ≠ 0) : Uᵀ *ᵥ x ≠ 0 := by
  intro h
  have := orth_dot' hU x x
  rw [h, dotProduct_zero] at this
  exact absurd (dot_self_pos hx) (by rw [← this]; exact lt_irrefl _)

theorem nonDeg_turn {n : ℕ} {U : Matrix (Fin n) (Fin n) ℝ} (hU : IsOrth U) {e : EllN n} (he : e.NonDeg) : (e.image U).NonDeg := by
  refine ⟨he.1, image_symm U he.2.1, fun x hx => ?_⟩
  show e.props.absTol * (x ⬝ᵥ x) < x ⬝ᵥ (U * e.Q * Uᵀ) *ᵥ x
  rw [quad_conj, ← orth_dot' hU x x]
  exact he.2.2 _ (orth_ne' hU hx)

/-- Sums of centres. -/
theorem sum_c_image {n m : ℕ} (A : Matrix (Fin m) (Fin n) ℝ) (l : List (EllN n)) :
    ((l.map (EllN.image A)).map EllN.c).sum = A *ᵥ (l.map EllN.c).sum := by
  induction l with
  | nil => simp
  | cons e l ih => rw [List.map_cons, List.map_cons, List.sum_cons, ih, List.map_cons, List.sum_cons, mulVec_add]; rfl

theorem sum_conj {n m : ℕ} {α : Type} (A : Matrix (Fin m) (Fin n) ℝ) (f : α → Matrix (Fin n) (Fin n) ℝ) (l : List α) :
    (l.map fun a => A * f a * Aᵀ).sum = A * (l.map f).sum * Aᵀ := by
  induction l with
  | nil => simp
  | cons e l ih => rw [List.map_cons, List.sum_cons, ih, List.map_cons, List.sum_cons, Matrix.mul_add, Matrix.add_mul]

theorem eaShape_image {n m : ℕ} (A : Matrix (Fin m) (Fin n) ℝ) (es : List (EllN n)) (w : Fin m → ℝ) :
    eaShape (es.map (EllN.image A)) w = A * eaShape es (Aᵀ *ᵥ w) * Aᵀ := by
  unfold eaShape
  have hq : ∀ e : EllN n, w ⬝ᵥ (e.image A).Q *ᵥ w = (Aᵀ *ᵥ w) ⬝ᵥ e.Q *ᵥ (Aᵀ *ᵥ w) := fun e => quad_conj A e.Q w
  rw [List.map_map, List.map_map, Matrix.mul_smul, Matrix.smul_mul, ← sum_conj]
  congr 2
  · exact List.map_congr_left fun e _ => by show Real.sqrt (w ⬝ᵥ (e.image A).Q *ᵥ w) = _; rw [hq]
  · refine congrArg (fun f => es.map f) (funext fun e => ?_)
    show (1 / Real.sqrt (w ⬝ᵥ (e.image A).Q *ᵥ w)) • (A * e.Q * Aᵀ) = _
    rw [hq, Matrix.mul_smul, Matrix.smul_mul]

/-! ### `orth_transl` -/

theorem dir_turn {n : ℕ} {U : Matrix (Fin n) (Fin n) ℝ} (hU : IsOrth U) (x : Fin n → ℝ) : dir (U *ᵥ x) = U *ᵥ dir x := by
  unfold dir
  rw [orth_dot hU, mulVec_smul]

theorem sinSq_turn {n : ℕ} {U : Matrix (Fin n) (Fin n) ℝ} (hU : IsOrth U) (x y : Fin n → ℝ) : sinSq (U *ᵥ x) (U *ᵥ y) = sinSq x y := by
  unfold sinSq
  rw [dir_turn hU, dir_turn hU, orth_dot hU]

theorem planeRot_turn {n : ℕ} {U : Matrix (Fin n) (Fin n) ℝ} (hU : IsOrth U) (d w : Fin n → ℝ) (c s : ℝ) :
    planeRot (U *ᵥ d) (U *ᵥ w) c s = U * planeRot d w c s * Uᵀ := by
  have h : (of fun i => ![(U *ᵥ d) i, (U *ᵥ w) i] : Matrix (Fin n) (Fin 2) ℝ) = U * (of fun i => ![d i, w i]) := by
    ext i j
    fin_cases j <;> rfl
  unfold planeRot
  rw [h, Matrix.mul_add, Matrix.add_mul, Matrix.mul_one, hU, transpose_mul]
  simp only [Matrix.mul_assoc]

theorem orthTransl_turn {n : ℕ} {U : Matrix (Fin n) (Fin n) ℝ} (hU : IsOrth U) {x y : Fin n → ℝ} (hx : x ≠ 0) (hy : y ≠ 0) :
    orthTransl (U *ᵥ x) (U *ᵥ y) = (orthTransl x y).map fun O => U * O * Uᵀ := by
  rw [orthTransl_eq hx hy, orthTransl_eq (orth_ne hU hx) (orth_ne hU hy), sinSq_turn hU, dir_turn hU, dir_turn hU, orth_dot hU]
  show _ = Except.ok (U * _ * Uᵀ)
  rw [← planeRot_turn hU]
  congr 2
  split_ifs
  · rw [← mulVec_smul, ← mulVec_sub, ← mulVec_smul]
  · rw [mulVec_zero]

end Ellipy.Ell
