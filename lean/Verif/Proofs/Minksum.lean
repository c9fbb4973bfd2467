import Verif.Model.Minksum
import Verif.Spec.Minksum
import Verif.Props.EllHeap
import Verif.Props.QuadMat
import Verif.Props.LaReg
import Verif.Proofs.Transl
import Verif.Props.Transl
import Verif.Proofs.TranslOpt
import Verif.Proofs.IsEqual

/-! Lemmas for the approximations of Minkowski sums. -/

namespace Ellipy.Ell
open Matrix Ellipy.LA

theorem EllN.obj_inj {n : ℕ} {x e : EllN n} (h : x.obj = e.obj) : x = e := by
  obtain ⟨c, Q, ⟨a1, a2, a3, a4⟩⟩ := x
  obtain ⟨c', Q', ⟨b1, b2, b3, b4⟩⟩ := e
  simp only [EllN.obj, EllObj.mk.injEq, heq_iff_eq, true_and] at h
  obtain ⟨rfl, rfl, rfl, rfl, rfl, rfl⟩ := h
  rfl

theorem shapeAs_self {n : ℕ} (e : EllN n) : shapeAs n e.obj = e.Q := by
  ext i j
  show (if h : _ then _ else _) = _
  rw [dif_pos ⟨i.2, j.2⟩]; rfl

theorem centerAs_self {n : ℕ} (e : EllN n) : centerAs n e.obj = e.c := by
  funext i
  show (if h : i.val < n then e.c ⟨i, h⟩ else 0) = _
  rw [dif_pos i.2]

theorem centSum_self {n : ℕ} (es : List (EllN n)) : centSum n (es.map EllN.obj) = (es.map EllN.c).sum := by
  unfold centSum
  rw [List.map_map]
  congr 1
  exact List.map_congr_left (fun e _ => centerAs_self e)

theorem exists_ellN {n : ℕ} (l : List EllObj) (h : ∀ e ∈ l, e.n = n) : ∃ es : List (EllN n), l = es.map EllN.obj := by
  induction l with
  | nil => exact ⟨[], rfl⟩
  | cons e l ih =>
    obtain ⟨es, hes⟩ := ih (fun x hx => h x (by simp [hx]))
    obtain ⟨m, c, Q, t1, t2, n2, n3⟩ := e
    have hm : m = n := h ⟨m, c, Q, t1, t2, n2, n3⟩ (by simp)
    subst hm
    exact ⟨⟨c, Q, ⟨t1, t2, n2, n3⟩⟩ :: es, by rw [hes]; rfl⟩

theorem ellMake_psd (E : Eigh) {n : ℕ} (c : Fin n → ℝ) {Q : Matrix (Fin n) (Fin n) ℝ} {p : PropVals} (hp : p.ok) (hQ : IsPSD Q) :
    ellMake E [.arr (encVec c), .arr (encMat Q)] p = .ok ⟨n, c, Q, p.absTol, p.relTol, p.n2d, p.n3d⟩ := by
  unfold ellMake
  rw [if_neg (not_not.mpr hp), C33]
  have hv := valid_of_psd (t1 := p.absTol) (t2 := p.relTol) (n2 := p.n2d) (n3 := p.n3d) c hQ hp
  exact ⟨n, c, Q, rfl, Or.inr (Or.inr ⟨_, _, _, rfl, encVec_good c hp.1, encMat_good hp.1 hv.symm hv.eig⟩)⟩

theorem EllN.NonDeg.psd {n : ℕ} {e : EllN n} (h : e.NonDeg) : e.PSD := by
  refine ⟨h.1, h.2.1, fun x => ?_⟩
  by_cases hx : x = 0
  · rw [hx, zero_dotProduct]
  · have h1 := h.2.2 x hx
    have h2 := dot_self_nonneg x
    have h3 : 0 < e.props.absTol := h.1.1
    nlinarith [mul_nonneg h3.le h2]

theorem EllN.NonDeg.pos {n : ℕ} {e : EllN n} (h : e.NonDeg) {x : Fin n → ℝ} (hx : x ≠ 0) : 0 < x ⬝ᵥ e.Q *ᵥ x := by
  have h1 := h.2.2 x hx
  have h2 := dot_self_nonneg x
  have h3 : 0 < e.props.absTol := h.1.1
  nlinarith [mul_nonneg h3.le h2]

theorem forall₂_right {α β : Type} {R : α → β → Prop} {l : List α} {m : List β} (h : List.Forall₂ R l m) :
    ∀ b ∈ m, ∃ a ∈ l, R a b := by
  induction h with
  | nil => intro b hb; cases hb
  | cons h _ ih =>
    intro b hb
    rcases List.mem_cons.mp hb with rfl | hb
    · exact ⟨_, by simp, h⟩
    · obtain ⟨a, ha, h'⟩ := ih b hb
      exact ⟨a, by simp [ha], h'⟩

/-! ### Sums over lists -/

theorem dot_list_sum {n : ℕ} (m : Fin n → ℝ) (xs : List (Fin n → ℝ)) : m ⬝ᵥ xs.sum = (xs.map (fun x => m ⬝ᵥ x)).sum := by
  induction xs with
  | nil => simp
  | cons x xs ih => rw [List.sum_cons, dotProduct_add, ih]; simp

theorem quad_list_sum {n : ℕ} {α : Type} (m : Fin n → ℝ) (l : List α) (f : α → Matrix (Fin n) (Fin n) ℝ) :
    m ⬝ᵥ (l.map f).sum *ᵥ m = (l.map (fun t => m ⬝ᵥ f t *ᵥ m)).sum := by
  induction l with
  | nil => simp
  | cons x xs ih => simp only [List.map_cons, List.sum_cons]; rw [add_mulVec, dotProduct_add, ih]

theorem transpose_list_sum {n : ℕ} {α : Type} (l : List α) (f : α → Matrix (Fin n) (Fin n) ℝ) :
    ((l.map f).sum)ᵀ = (l.map (fun t => (f t)ᵀ)).sum := by
  induction l with
  | nil => simp
  | cons x xs ih => simp only [List.map_cons, List.sum_cons]; rw [transpose_add, ih]

theorem list_sum_pos {α : Type} (l : List α) (f : α → ℝ) (h : ∀ t ∈ l, 0 ≤ f t) : 0 ≤ (l.map f).sum :=
  List.sum_nonneg (by simpa using h)

/-- One step of the inequality of Cauchy and Schwarz. -/
theorem cauchy_step {a A b B p P : ℝ} (hp : 0 < p) (hP : 0 ≤ P) (hB : 0 ≤ B) (ha : a ^ 2 ≤ b) (hA : A ^ 2 ≤ P * B) :
    (a + A) ^ 2 ≤ (p + P) * (1 / p * b + B) := by
  have hb : 0 ≤ b := le_trans (sq_nonneg a) ha
  have h1 : p * (1 / p * b) = b := by field_simp
  have hu : 0 ≤ p * B := mul_nonneg hp.le hB
  have hv : 0 ≤ P * (1 / p * b) := mul_nonneg hP (mul_nonneg (by positivity) hb)
  have huv : (p * B) * (P * (1 / p * b)) = P * B * b := by field_simp
  have h2 : (a * A) ^ 2 ≤ (p * B) * (P * (1 / p * b)) := by
    rw [huv, mul_pow, mul_comm (a ^ 2)]
    exact mul_le_mul hA ha (sq_nonneg a) (mul_nonneg hP hB)
  have h3 : (2 * (a * A)) ^ 2 ≤ (p * B + P * (1 / p * b)) ^ 2 := by
    nlinarith [sq_nonneg (p * B - P * (1 / p * b))]
  have h4 := abs_le_of_sq_le_sq' h3 (by positivity)
  nlinarith [h4.2]

/-- The weighted sum of the matrices dominates. -/
theorem ea_inequality {n : ℕ} (m : Fin n → ℝ) (es : List (EllN n)) (ts : List (Matrix (Fin n) (Fin n) ℝ × ℝ)) (xs : List (Fin n → ℝ))
    (hpsd : ∀ e ∈ es, IsPSD e.Q) (ht : List.Forall₂ (fun e t => (∀ x : Fin n → ℝ, x ⬝ᵥ e.Q *ᵥ x ≤ x ⬝ᵥ t.1 *ᵥ x) ∧ 0 < t.2) es ts)
    (hx : List.Forall₂ (fun y X => y ∈ X) xs (es.map EllN.set)) :
    (m ⬝ᵥ xs.sum - m ⬝ᵥ (es.map EllN.c).sum) ^ 2 ≤
      (ts.map (fun t => Real.sqrt t.2)).sum * (ts.map (fun t => 1 / Real.sqrt t.2 * (m ⬝ᵥ t.1 *ᵥ m))).sum ∧
    0 ≤ (ts.map (fun t => 1 / Real.sqrt t.2 * (m ⬝ᵥ t.1 *ᵥ m))).sum := by
  induction ht generalizing xs with
  | nil => cases hx; simp
  | @cons e t es ts h1 h2 ih =>
    obtain ⟨x, xs, rfl⟩ : ∃ x xs', xs = x :: xs' := by cases hx; exact ⟨_, _, rfl⟩
    rw [List.map_cons, List.forall₂_cons] at hx
    obtain ⟨ih1, ih2⟩ := ih xs (fun e' he' => hpsd e' (by simp [he'])) hx.2
    have hp := Real.sqrt_pos.mpr h1.2
    have ha := (mem_ell_support (hpsd e (by simp)) x).mp hx.1 m
    have hb := h1.1 m
    simp only [List.sum_cons, List.map_cons]
    constructor
    · have h3 := cauchy_step (a := m ⬝ᵥ (x - e.c)) (b := m ⬝ᵥ t.1 *ᵥ m) hp (list_sum_pos ts (fun t => Real.sqrt t.2) (fun t _ => Real.sqrt_nonneg _)) ih2 (le_trans ha hb) ih1
      rw [dotProduct_add, dotProduct_add]
      rw [dotProduct_sub] at h3
      refine le_trans (le_of_eq ?_) h3
      ring
    · have : 0 ≤ m ⬝ᵥ t.1 *ᵥ m := le_trans ((hpsd e (by simp)).2 m) hb
      positivity

theorem ea_quad {n : ℕ} (m : Fin n → ℝ) (ts : List (Matrix (Fin n) (Fin n) ℝ × ℝ)) (s : ℝ) (S : Matrix (Fin n) (Fin n) ℝ)
    (hS : S = (ts.map (fun t => (1 / Real.sqrt t.2) • t.1)).sum) (hsym : ∀ t ∈ ts, t.1ᵀ = t.1) :
    (0.5 * s) • (S + Sᵀ) = s • S ∧ Sᵀ = S ∧ m ⬝ᵥ (s • S) *ᵥ m = s * (ts.map (fun t => 1 / Real.sqrt t.2 * (m ⬝ᵥ t.1 *ᵥ m))).sum := by
  have h1 : Sᵀ = S := by
    rw [hS, transpose_list_sum]
    congr 1
    exact List.map_congr_left (fun t ht => by rw [transpose_smul, hsym t ht])
  refine ⟨?_, h1, ?_⟩
  · rw [h1, ← two_smul ℝ S, smul_smul]; congr 1; norm_num; ring
  · rw [smul_mulVec, dotProduct_smul, smul_eq_mul, hS, quad_list_sum]
    congr 2
    exact List.map_congr_left (fun t _ => by rw [smul_mulVec, dotProduct_smul, smul_eq_mul])

/-- The support function of a Minkowski sum. -/
theorem minkSum_support {n : ℕ} (l : Fin n → ℝ) (es : List (EllN n)) (hpsd : ∀ e ∈ es, IsPSD e.Q) :
    IsSupport (minkSum (es.map EllN.set)) l (l ⬝ᵥ (es.map EllN.c).sum + (es.map (fun e => Real.sqrt (l ⬝ᵥ e.Q *ᵥ l))).sum) := by
  constructor
  · refine ⟨(es.map (fun e => e.c + (1 / Real.sqrt (l ⬝ᵥ e.Q *ᵥ l)) • e.Q *ᵥ l)).sum, ⟨_, ?_, rfl⟩, ?_⟩
    · rw [List.forall₂_map_left_iff, List.forall₂_map_right_iff, List.forall₂_same]
      exact fun e he => (support_point (hpsd e he) l).1
    · simp only
      rw [dot_list_sum, dot_list_sum]
      induction es with
      | nil => simp
      | cons e es ih =>
        simp only [List.map_cons, List.sum_cons]
        rw [ih (fun e' he' => hpsd e' (by simp [he'])), (support_point (hpsd e (by simp)) l).2]
        ring
  · rintro _ ⟨x, ⟨xs, hxs, rfl⟩, rfl⟩
    simp only
    rw [dot_list_sum, dot_list_sum]
    induction es generalizing xs with
    | nil => cases hxs; simp
    | cons e es ih =>
      obtain ⟨x, xs, rfl⟩ : ∃ x xs', xs = x :: xs' := by cases hxs; exact ⟨_, _, rfl⟩
      rw [List.map_cons, List.forall₂_cons] at hxs
      have h1 := ih (fun e' he' => hpsd e' (by simp [he'])) xs hxs.2
      have h2 := (mem_ell_sqrt (hpsd e (by simp)) x).mp hxs.1 l
      simp only [List.map_cons, List.sum_cons]
      linarith

/-! ### Terms of the external approximation -/

theorem regShape_psd (E : Eigh) (G : Eig) {n : ℕ} (hn : n ≠ 0) {e : EllN n} (he : e.PSD) :
    ∃ R, regShape E G n e.obj = .ok R ∧ Rᵀ = R ∧ ∀ x : Fin n → ℝ, x ⬝ᵥ e.Q *ᵥ x ≤ x ⬝ᵥ R *ᵥ x := by
  have ht : 0 < e.props.absTol := he.1.1
  unfold regShape isDegenerate
  have hne : ¬ anyEmpty [e.obj] := by
    rintro ⟨x, hx, h0⟩
    rw [List.mem_singleton] at hx
    subst hx
    exact hn h0
  rw [if_neg hne]
  have hno : ¬ Raises (isMatPosDef E e.obj.Q e.obj.absTol false) := by
    rw [C20_raises_iff]
    push Not
    exact ⟨ht.le, symmWithin_of_symm he.2.1 ht.le, hn⟩
  cases hd : isMatPosDef E e.obj.Q e.obj.absTol false with
  | error x => exact absurd ⟨x, hd⟩ hno
  | ok b =>
    have : pyMap (fun e => isMatPosDef E e.Q e.absTol false) [e.obj] = .ok [b] := by simp only [pyMap, hd]
    simp only [this, List.map_cons, List.map_nil]
    rw [shapeAs_self]
    by_cases hb : [!b] = [true]
    · rw [if_pos hb]
      have hno : ¬ Raises (regPosDefMat G e.Q e.obj.absTol) := by
        rw [C22_raises_iff]
        push Not
        exact ⟨ht, he.2.1⟩
      cases hr : regPosDefMat G e.Q e.obj.absTol with
      | error x => exact absurd ⟨x, hr⟩ hno
      | ok R => exact ⟨R, rfl, C22_above G _ _ _ hr⟩
    · rw [if_neg hb]; exact ⟨e.Q, rfl, he.2.1, fun x => le_refl _⟩

theorem regShape_nonDeg (E : Eigh) (G : Eig) {n : ℕ} (hn : n ≠ 0) {e : EllN n} (he : e.NonDeg) : regShape E G n e.obj = .ok e.Q := by
  have ht : 0 < e.props.absTol := he.1.1
  unfold regShape isDegenerate
  have hne : ¬ anyEmpty [e.obj] := by
    rintro ⟨x, hx, h0⟩
    rw [List.mem_singleton] at hx
    subst hx
    exact hn h0
  rw [if_neg hne]
  have hd : isMatPosDef E e.obj.Q e.obj.absTol false = .ok true := (C20_pos_def E e.Q _ ht.le hn he.2.1).mpr he.2.2
  have : pyMap (fun e => isMatPosDef E e.Q e.absTol false) [e.obj] = .ok [true] := by simp only [pyMap, hd]
  simp only [this, List.map_cons, List.map_nil]
  rw [if_neg (by decide), shapeAs_self]

theorem matR_square {n : ℕ} (hn : n ≠ 0) (R : Matrix (Fin n) (Fin n) ℝ) : IsSquare (matR R) R := by
  refine ⟨rfl, fun i j => ?_⟩
  have hk : i.val * n + j.val < n * n := idx_lt i j
  have hn : 0 < n := Nat.pos_of_ne_zero hn
  unfold matR
  simp only [List.getElem?_ofFn, hk, dif_pos]
  congr 2
  · ext; simp only [Fin.divNat]; rw [mul_comm, Nat.mul_add_div hn, Nat.div_eq_of_lt j.2, add_zero]
  · ext; simp only [Fin.modNat]; rw [mul_comm, Nat.mul_add_mod, Nat.mod_eq_of_lt j.2]

theorem vecR_vec {n : ℕ} (v : Fin n → ℝ) : IsVecArr (vecR v) v := ⟨Or.inl rfl, fun i => by simp [vecR]⟩

theorem quadMat_plain (L : Lstsq) {n : ℕ} (hn : n ≠ 0) (R : Matrix (Fin n) (Fin n) ℝ) (v : Fin n → ℝ) :
    quadMat L (matR R) (vecR v) (Arr.scalar 0) "plain" = .ok (oneByOne (v ⬝ᵥ R *ᵥ v)) := by
  have h1 := matR_square hn R
  have h2 := vecR_vec v
  have h3 : IsCenterArr (Arr.scalar (0 : ℝ)) (0 : Fin n → ℝ) := Or.inr (Or.inl ⟨rfl, rfl⟩)
  rw [C62_plain L hn _ _ _ R v 0 h1 h2 h3]
  congr 2
  simp only [dotProduct, mulVec, Finset.mul_sum, Pi.zero_apply, sub_zero]
  exact Finset.sum_congr rfl (fun i _ => Finset.sum_congr rfl (fun j _ => by ring))

theorem eaTerm_of (E : Eigh) (G : Eig) (L : Lstsq) {n : ℕ} (hn : n ≠ 0) (v : Fin n → ℝ) {e : EllObj} {R : Matrix (Fin n) (Fin n) ℝ}
    (h : regShape E G n e = .ok R) : eaTerm E G L v e = .ok (R, v ⬝ᵥ R *ᵥ v) := by
  unfold eaTerm
  rw [h]
  simp only [quadMat_plain L hn R v]
  rfl

end Ellipy.Ell

namespace Ellipy.Ell
open Matrix Ellipy.LA

/-! ### Terms of the internal approximation -/

theorem planeRot_zero_mulVec {n : ℕ} (d : Fin n → ℝ) (c s : ℝ) (x : Fin n → ℝ) :
    planeRot d 0 c s *ᵥ x = x + ((c - 1) * (d ⬝ᵥ x)) • d := by
  rw [planeRot_mulVec]
  simp

/-- The result of `orth_transl` in either branch: orthogonal and exact, or the identity up to a multiple of a projection. -/
theorem orthTransl_branches {n : ℕ} {src dst : Fin n → ℝ} {O : Matrix (Fin n) (Fin n) ℝ} (h : orthTransl src dst = .ok O) :
    src ≠ 0 ∧ dst ≠ 0 ∧ (Feasible O src dst ∨
      (O = planeRot (dir dst) 0 (dir src ⬝ᵥ dir dst) (Real.sqrt (sinSq src dst)) ∧ sinSq src dst ≤ (1 / 10 ^ 7 : ℝ) ^ 2)) := by
  have hne : ¬ (src = 0 ∨ dst = 0) := by
    rw [← C24_raises_iff]; rintro ⟨e, he⟩; rw [h] at he; cases he
  push Not at hne
  refine ⟨hne.1, hne.2, ?_⟩
  by_cases ha : (1 / 10 ^ 7 : ℝ) ^ 2 < sinSq src dst
  · obtain ⟨O', hO', hf⟩ := orthTransl_spec hne.1 hne.2 (Or.inr ha)
    rw [h] at hO'
    injection hO' with hO'
    exact Or.inl (hO' ▸ hf)
  · right
    have h0 := sinSq_nonneg hne.1 hne.2
    rw [orthTransl_eq hne.1 hne.2] at h
    injection h with h
    rw [if_neg] at h
    · exact ⟨h.symm, not_lt.mp ha⟩
    · intro hlt
      apply ha
      have h1 : (0 : ℝ) ≤ translTol := translTol_pos.le
      have h2 := Real.sq_sqrt h0
      unfold translTol at hlt h1
      nlinarith [Real.sqrt_nonneg (sinSq src dst)]

/-- The transpose of the result of `orth_transl` never lengthens a vector. -/
theorem orthTransl_contracts {n : ℕ} {src dst : Fin n → ℝ} {O : Matrix (Fin n) (Fin n) ℝ} (h : orthTransl src dst = .ok O)
    (u : Fin n → ℝ) : (Oᵀ *ᵥ u) ⬝ᵥ (Oᵀ *ᵥ u) ≤ u ⬝ᵥ u := by
  obtain ⟨hs, hd, hf | ⟨rfl, -⟩⟩ := orthTransl_branches h
  · apply le_of_eq
    rw [mulVec_transpose, ← dotProduct_mulVec, ← mulVec_transpose, mulVec_mulVec, hf.1, one_mulVec]
  · rw [planeRot_transpose, planeRot_zero_mulVec]
    have h1 := dot_sq_le (dir_dot hs) (dir_dot hd)
    have h2 := dir_dot hd
    set c := dir src ⬝ᵥ dir dst
    set d := dir dst
    set r := d ⬝ᵥ u with hr
    have h3 : u ⬝ᵥ d = r := by rw [dotProduct_comm]
    simp only [add_dotProduct, dotProduct_add, smul_dotProduct, dotProduct_smul, smul_eq_mul, h2, h3, ← hr]
    nlinarith [mul_nonneg (sub_nonneg.mpr h1) (sq_nonneg r)]

/-- The image of the direction of `src` has almost the direction of `dst`. -/
theorem orthTransl_towards {n : ℕ} {src dst : Fin n → ℝ} {O : Matrix (Fin n) (Fin n) ℝ} (h : orthTransl src dst = .ok O) :
    1 - 1 / 10 ^ 14 ≤ dir dst ⬝ᵥ O *ᵥ dir src := by
  obtain ⟨hs, hd, hf | ⟨rfl, hle⟩⟩ := orthTransl_branches h
  · rw [hf.2, dir_dot hd]; norm_num
  · rw [planeRot_zero_mulVec]
    have h2 := dir_dot hd
    unfold sinSq at hle
    rw [dotProduct_comm (dir src)] at hle ⊢
    set c := dir dst ⬝ᵥ dir src with hc
    simp only [dotProduct_add, dotProduct_smul, smul_eq_mul, h2, ← hc]
    have : (1 / 10 ^ 7 : ℝ) ^ 2 = 1 / 10 ^ 14 := by norm_num
    rw [this] at hle
    linarith [show c + (c - 1) * c * 1 = c ^ 2 by ring]

theorem root_ne_zero {n : ℕ} {e : EllN n} (he : e.NonDeg) {S : Matrix (Fin n) (Fin n) ℝ} (hS : IsPSD S) (hSS : S * S = e.Q)
    {l : Fin n → ℝ} (hl : l ≠ 0) : S *ᵥ l ≠ 0 := by
  intro h0
  have h1 := he.pos hl
  rw [← hSS, ← mulVec_mulVec, h0, mulVec_zero, dotProduct_zero] at h1
  exact lt_irrefl _ h1

theorem root_dot {n : ℕ} {Q S : Matrix (Fin n) (Fin n) ℝ} (hS : IsPSD S) (hSS : S * S = Q) (l : Fin n → ℝ) :
    (S *ᵥ l) ⬝ᵥ (S *ᵥ l) = l ⬝ᵥ Q *ᵥ l := by
  rw [← symm_dot hS.1, mulVec_mulVec, hSS]

/-- The properties of a term. -/
def IaSpec {n k : ℕ} (M src : Matrix (Fin n) (Fin k) ℝ) (e : EllN n)
    (t : Matrix (Fin n) (Fin n) ℝ × (Fin k → Matrix (Fin n) (Fin n) ℝ)) : Prop :=
  IsPSD t.1 ∧ t.1 * t.1 = e.Q ∧ ∀ j, orthTransl (t.1 *ᵥ fun i => M i j) (fun i => src i j) = .ok (t.2 j)

theorem col_mul {n k : ℕ} (S : Matrix (Fin n) (Fin n) ℝ) (M : Matrix (Fin n) (Fin k) ℝ) (j : Fin k) :
    (fun i => (S * M) i j) = S *ᵥ fun i => M i j := by
  funext i; rfl

theorem iaTerm_iff (E : Eigh) (G : Eig) {n k : ℕ} (hn : n ≠ 0) (M src : Matrix (Fin n) (Fin k) ℝ) {e : EllN n} (he : e.NonDeg)
    (t : Matrix (Fin n) (Fin n) ℝ × (Fin k → Matrix (Fin n) (Fin n) ℝ)) :
    iaTerm E G M src e.obj = .ok t ↔ IaSpec M src e t := by
  have ht : 0 < e.props.absTol := he.1.1
  obtain ⟨S, hS, h1, h2, h3⟩ := C21_root E e.Q e.obj.absTol ht.le he.psd.2
  unfold iaTerm
  rw [regShape_nonDeg E G hn he]
  simp only [hS]
  constructor
  · intro h
    cases hm : mlOrthTransl (fun i v => (S * M) i v) (fun i v (_ : Fin 1) => src i v) with
    | error x => rw [hm] at h; cases h
    | ok O =>
      rw [hm] at h
      injection h with h
      subst h
      exact ⟨h1, h2, fun j => C24_ml _ _ O hm j 0⟩
  · rintro ⟨h4, h5, h6⟩
    obtain ⟨T, O⟩ := t
    obtain rfl := h3 T h4 h5
    have hm : mlOrthTransl (fun i v => (T * M) i v) (fun i v (_ : Fin 1) => src i v) = .ok (fun v _ => O v) := by
      unfold mlOrthTransl
      rw [pyAll_ok]
      intro v
      rw [pyAll_ok]
      intro _
      exact h6 v
    rw [hm]

/-- The internal approximation is inside. -/
theorem ia_inside {n k : ℕ} (M src : Matrix (Fin n) (Fin k) ℝ) (es : List (EllN n))
    (ts : List (Matrix (Fin n) (Fin n) ℝ × (Fin k → Matrix (Fin n) (Fin n) ℝ))) (h : List.Forall₂ (IaSpec M src) es ts) (j : Fin k)
    (u : Fin n → ℝ) (hu : u ⬝ᵥ u ≤ 1) :
    (es.map EllN.c).sum + ((ts.map (fun t => t.2 j * t.1)).sum)ᵀ *ᵥ u ∈ minkSum (es.map EllN.set) := by
  induction h with
  | nil => exact ⟨[], .nil, by simp⟩
  | @cons e t es ts h1 _ ih =>
    obtain ⟨xs, hxs, hsum⟩ := ih
    refine ⟨(e.c + t.1 *ᵥ ((t.2 j)ᵀ *ᵥ u)) :: xs, .cons ?_ hxs, ?_⟩
    · show _ ∈ Ell e.c e.Q
      rw [mem_ell_factor (M := t.1) (by rw [h1.1.1, h1.2.1])]
      exact ⟨_, le_trans (orthTransl_contracts (h1.2.2 j) u) hu, rfl⟩
    · rw [List.sum_cons, hsum]
      simp only [List.map_cons, List.sum_cons]
      rw [transpose_add, transpose_mul, h1.1.1, add_mulVec, ← mulVec_mulVec]
      abel

/-- The length of the image of the direction. -/
theorem ia_towards {n k : ℕ} (M src : Matrix (Fin n) (Fin k) ℝ) (es : List (EllN n))
    (ts : List (Matrix (Fin n) (Fin n) ℝ × (Fin k → Matrix (Fin n) (Fin n) ℝ))) (h : List.Forall₂ (IaSpec M src) es ts) (j : Fin k) :
    (1 - 1 / 10 ^ 14) * (es.map (fun e => Real.sqrt ((fun i => M i j) ⬝ᵥ e.Q *ᵥ (fun i => M i j)))).sum ≤
      dir (fun i => src i j) ⬝ᵥ (ts.map (fun t => t.2 j * t.1)).sum *ᵥ (fun i => M i j) := by
  induction h with
  | nil => simp
  | @cons e t es ts h1 _ ih =>
    simp only [List.map_cons, List.sum_cons]
    rw [add_mulVec, dotProduct_add, mul_add]
    refine add_le_add ?_ ih
    have h2 := orthTransl_towards (h1.2.2 j)
    have hne := (orthTransl_branches (h1.2.2 j)).1
    rw [← mulVec_mulVec, ← root_dot h1.1 h1.2.1]
    set w := t.1 *ᵥ fun i => M i j
    have hw : w = Real.sqrt (w ⬝ᵥ w) • dir w := by
      rw [dir, smul_smul, mul_one_div, div_self (Real.sqrt_pos.mpr (dot_self_pos hne)).ne', one_smul]
    have h3 : dir (fun i => src i j) ⬝ᵥ t.2 j *ᵥ w = Real.sqrt (w ⬝ᵥ w) * (dir (fun i => src i j) ⬝ᵥ t.2 j *ᵥ dir w) := by
      conv_lhs => rw [hw]
      rw [mulVec_smul, dotProduct_smul, smul_eq_mul]
    rw [h3, mul_comm]
    exact mul_le_mul_of_nonneg_left h2 (Real.sqrt_nonneg _)

/-- The exact image of the direction when the rotations are exact. -/
theorem ia_exact {n k : ℕ} (M src : Matrix (Fin n) (Fin k) ℝ) (es : List (EllN n))
    (ts : List (Matrix (Fin n) (Fin n) ℝ × (Fin k → Matrix (Fin n) (Fin n) ℝ))) (h : List.Forall₂ (IaSpec M src) es ts) (j : Fin k)
    (hap : ∀ e ∈ es, ∀ S, IsPSD S → S * S = e.Q → Apart (S *ᵥ fun i => M i j) (fun i => src i j)) :
    (ts.map (fun t => t.2 j * t.1)).sum *ᵥ (fun i => M i j) =
      (es.map (fun e => Real.sqrt ((fun i => M i j) ⬝ᵥ e.Q *ᵥ (fun i => M i j)))).sum • dir (fun i => src i j) := by
  induction h with
  | nil => simp
  | @cons e t es ts h1 _ ih =>
    simp only [List.map_cons, List.sum_cons]
    rw [add_mulVec, ih (fun e' he' => hap e' (by simp [he'])), add_smul, ← root_dot h1.1 h1.2.1, ← mulVec_mulVec]
    congr 1
    obtain ⟨hne, hne', -⟩ := orthTransl_branches (h1.2.2 j)
    obtain ⟨O, hO, hf⟩ := orthTransl_spec hne hne' (hap e (by simp) t.1 h1.1 h1.2.1)
    rw [h1.2.2 j] at hO
    injection hO with hO
    subst hO
    set w := t.1 *ᵥ fun i => M i j
    have hw : w = Real.sqrt (w ⬝ᵥ w) • dir w := by
      rw [dir, smul_smul, mul_one_div, div_self (Real.sqrt_pos.mpr (dot_self_pos hne)).ne', one_smul]
    conv_lhs => rw [hw]
    rw [mulVec_smul, hf.2]

end Ellipy.Ell
