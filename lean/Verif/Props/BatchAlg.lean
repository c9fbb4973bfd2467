import Verif.Props.LrDivide
import Verif.Props.LrMultiply
import Verif.Props.MatBatch
import Verif.Props.MatSlices

/-! Property theorems C123: the operations on arrays of matrices obey the laws of matrix algebra together. -/

namespace Ellipy.MV
open Finset

/-! ### Helpers -/

private theorem sum_assoc (m p : ℕ) (a : ℕ → ℝ) (b : ℕ → ℕ → ℝ) (c : ℕ → ℝ) :
    ∑ l ∈ range p, (∑ k ∈ range m, a k * b k l) * c l = ∑ k ∈ range m, a k * ∑ l ∈ range p, b k l * c l := by
  simp only [sum_mul, mul_sum]
  rw [sum_comm]
  exact sum_congr rfl fun k _ => sum_congr rfl fun l _ => by ring

private theorem prod2 (n m p T : ℕ) (hm : 0 < m) (hp : 0 < p) (a b : ℕ → ℕ → ℕ → ℝ) (s : Bool) :
    ∃ v, rMultiply (.d3 n m T a) (.d3 m p T b) none s = .ok ⟨n, p, T, v⟩ ∧
      ∀ i j t, i < n → j < p → t < T → v i j t = ∑ l ∈ range m, a i l t * b l j t := by
  obtain ⟨⟨r, c, t, v⟩, h1, r1, c1, t1, v1⟩ := C16_two_partial n m T a (.d3 m p T b) s ⟨hm, hp⟩ rfl rfl (Or.inl trivial)
  cases r1; cases c1; cases t1
  exact ⟨v, h1, v1⟩

private theorem prod3 (n m p q T : ℕ) (hm : 0 < m) (hp : 0 < p) (hq : 0 < q) (a b c : ℕ → ℕ → ℕ → ℝ) (s : Bool) :
    ∃ v, rMultiply (.d3 n m T a) (.d3 m p T b) (some (.d3 p q T c)) s = .ok ⟨n, q, T, v⟩ ∧
      ∀ i j t, i < n → j < q → t < T → v i j t = ∑ k ∈ range p, (∑ l ∈ range m, a i l t * b l k t) * c k j t := by
  obtain ⟨⟨r, c, t, v⟩, h1, r1, c1, t1, v1⟩ := C16_three_partial n m T a (.d3 m p T b) (.d3 p q T c) s ⟨hm, hp⟩ ⟨hp, hq⟩ rfl rfl rfl rfl
    (Or.inl ⟨trivial, trivial⟩)
  cases r1; cases c1; cases t1
  exact ⟨v, h1, v1⟩

open Matrix in
private theorem inv_of_right {n T : ℕ} {X Y : Fin T → Matrix (Fin n) (Fin n) ℝ} (h : ∀ t, X t * Y t = 1) : invBatch X = .ok Y := by
  unfold invBatch
  rw [pyAll_ok]
  intro t
  unfold inv1
  have hd : (X t).det ≠ 0 := by
    intro h0
    have := congrArg det (h t)
    rw [det_mul, h0, zero_mul, det_one] at this
    exact zero_ne_one this
  rw [if_neg hd, inv_eq_right_inv (h t)]

private theorem rect_mul {n m p : ℕ} (a b : ℕ → ℕ → ℝ) (i : Fin n) (j : Fin p) :
    (rectMat n m a * rectMat m p b) i j = ∑ l ∈ range m, a i l * b l j := by
  rw [Matrix.mul_apply, ← Fin.sum_univ_eq_sum_range (fun l => a i l * b l j)]
  rfl

/-! ### Property theorems -/

/-- **C123**: the product is associative, whichever of the two ways of computing is used in which call, and the product of three
factors is the same array. -/
theorem C123_assoc (n m p q T : ℕ) (hm : 0 < m) (hp : 0 < p) (hq : 0 < q) (a b c : ℕ → ℕ → ℕ → ℝ) (s1 s2 s3 s4 s5 : Bool) :
    ∃ ab bc abc abc' abc'', rMultiply (.d3 n m T a) (.d3 m p T b) none s1 = .ok ⟨n, p, T, ab⟩ ∧
      rMultiply (.d3 n p T ab) (.d3 p q T c) none s2 = .ok abc ∧
      rMultiply (.d3 m p T b) (.d3 p q T c) none s3 = .ok ⟨m, q, T, bc⟩ ∧ rMultiply (.d3 n m T a) (.d3 m q T bc) none s4 = .ok abc' ∧
      rMultiply (.d3 n m T a) (.d3 m p T b) (some (.d3 p q T c)) s5 = .ok abc'' ∧
      SameArr abc abc' ∧ SameArr abc abc'' := by
  obtain ⟨ab, h1, v1⟩ := prod2 n m p T hm hp a b s1
  obtain ⟨abc, h2, v2⟩ := prod2 n p q T hp hq ab c s2
  obtain ⟨bc, h3, v3⟩ := prod2 m p q T hp hq b c s3
  obtain ⟨abc', h4, v4⟩ := prod2 n m q T hm hq a bc s4
  obtain ⟨abc'', h5, v5⟩ := prod3 n m p q T hm hp hq a b c s5
  have key : ∀ i j t, i < n → j < q → t < T → abc i j t = ∑ k ∈ range p, (∑ l ∈ range m, a i l t * b l k t) * c k j t := by
    intro i j t hi hj ht
    rw [v2 i j t hi hj ht]
    exact sum_congr rfl fun l hl => by rw [v1 i l t hi (mem_range.1 hl) ht]
  refine ⟨ab, bc, _, _, _, h1, h2, h3, h4, h5, ⟨rfl, rfl, rfl, fun i j t hi hj ht => ?_⟩, rfl, rfl, rfl, fun i j t hi hj ht => ?_⟩
  · show abc i j t = abc' i j t
    rw [key i j t hi hj ht, v4 i j t hi hj ht, sum_assoc m p (fun k => a i k t) (fun k l => b k l t)]
    exact sum_congr rfl fun k hk => by rw [v3 k j t (mem_range.1 hk) hj ht]
  · show abc i j t = abc'' i j t
    rw [key i j t hi hj ht, v5 i j t hi hj ht]

/-- **C123**: the transpose of a product is the product of the transposes in the other order. -/
theorem C123_transpose (n m p T : ℕ) (hn : 0 < n) (hm : 0 < m) (hp : 0 < p) (a b : ℕ → ℕ → ℕ → ℝ) (s s' : Bool) :
    ∃ ab ba x, rMultiply (.d3 n m T a) (.d3 m p T b) none s = .ok ⟨n, p, T, ab⟩ ∧
      rMultiply (transposeArr (.d3 m p T b)) (transposeArr (.d3 n m T a)) none s' = .ok ba ∧
      transposeArr (.d3 n p T ab) = .d3 p n T x ∧ SameArr ba ⟨p, n, T, x⟩ := by
  obtain ⟨ab, h1, v1⟩ := prod2 n m p T hm hp a b s
  obtain ⟨ba, h2, v2⟩ := prod2 p m n T hm hn (fun i j k => b j i k) (fun i j k => a j i k) s'
  refine ⟨ab, _, _, h1, h2, rfl, rfl, rfl, rfl, fun i j t hi hj ht => ?_⟩
  show ba i j t = ab j i t
  rw [v2 i j t hi hj ht, v1 j i t hj hi ht]
  exact sum_congr rfl fun l _ => mul_comm _ _

/-- **C123**: applying a product to a series of vectors is applying the factors one after the other. -/
theorem C123_vec (n m p T : ℕ) (hm : 0 < m) (hp : 0 < p) (a b : ℕ → ℕ → ℕ → ℝ) (x : ℕ → ℕ → ℝ) (s1 s2 s3 s4 : Bool) :
    ∃ ab y z z', rMultiply (.d3 n m T a) (.d3 m p T b) none s1 = .ok ⟨n, p, T, ab⟩ ∧
      rMultiplyByVec (.d3 n p T ab) (.d2 p T x) s2 = .ok (n, T, z) ∧
      rMultiplyByVec (.d3 m p T b) (.d2 p T x) s3 = .ok (m, T, y) ∧
      rMultiplyByVec (.d3 n m T a) (.d2 m T y) s4 = .ok (n, T, z') ∧ ∀ i t, i < n → t < T → z i t = z' i t := by
  obtain ⟨ab, h1, v1⟩ := prod2 n m p T hm hp a b s1
  obtain ⟨z, h2, v2⟩ := C17_value n p T ab x s2
  obtain ⟨y, h3, v3⟩ := C17_value m p T b x s3
  obtain ⟨z', h4, v4⟩ := C17_value n m T a y s4
  refine ⟨ab, y, z, z', h1, h2, h3, h4, fun i t hi ht => ?_⟩
  rw [v2 i t hi ht, v4 i t hi ht]
  rw [show ∑ l ∈ range p, ab i l t * x l t = ∑ l ∈ range p, (∑ k ∈ range m, a i k t * b k l t) * x l t from
    sum_congr rfl fun l hl => by rw [v1 i l t hi (mem_range.1 hl) ht], sum_assoc m p (fun k => a i k t) (fun k l => b k l t)]
  exact sum_congr rfl fun k hk => by rw [v3 k t (mem_range.1 hk) ht]

/-- **C123**: the product distributes over sums and commutes with factors. -/
theorem C123_linear (n m p T : ℕ) (hm : 0 < m) (hp : 0 < p) (a b c : ℕ → ℕ → ℕ → ℝ) (r : ℝ) (s1 s2 s3 : Bool) :
    ∃ ab ac x, rMultiply (.d3 n m T a) (.d3 m p T b) none s1 = .ok ⟨n, p, T, ab⟩ ∧
      rMultiply (.d3 n m T a) (.d3 m p T c) none s2 = .ok ⟨n, p, T, ac⟩ ∧
      rMultiply (.d3 n m T a) (.d3 m p T fun i j t => r * b i j t + c i j t) none s3 = .ok x ∧
      SameArr x ⟨n, p, T, fun i j t => r * ab i j t + ac i j t⟩ := by
  obtain ⟨ab, h1, v1⟩ := prod2 n m p T hm hp a b s1
  obtain ⟨ac, h2, v2⟩ := prod2 n m p T hm hp a c s2
  obtain ⟨x, h3, v3⟩ := prod2 n m p T hm hp a (fun i j t => r * b i j t + c i j t) s3
  refine ⟨ab, ac, _, h1, h2, h3, rfl, rfl, rfl, fun i j t hi hj ht => ?_⟩
  show x i j t = r * ab i j t + ac i j t
  rw [v1 i j t hi hj ht, v2 i j t hi hj ht, v3 i j t hi hj ht, mul_sum, ← sum_add_distrib]
  exact sum_congr rfl fun l _ => by ring

open Matrix in
/-- **C123**: inverses of products and of transposes: if the factors can be inverted, so can the product, and its inverse is the product
of the inverses in the other order. -/
theorem C123_inv {n T : ℕ} (A B A' B' : Fin T → Matrix (Fin n) (Fin n) ℝ) (hA : invBatch A = .ok A') (hB : invBatch B = .ok B') :
    invBatch (fun t => A t * B t) = .ok (fun t => B' t * A' t) ∧ invBatch (fun t => (A t)ᵀ) = .ok fun t => (A' t)ᵀ := by
  have key : ∀ {X Y : Fin T → Matrix (Fin n) (Fin n) ℝ}, (∀ t, X t * Y t = 1) → invBatch X = .ok Y := by
    intro X Y h
    exact inv_of_right h
  refine ⟨key fun t => ?_, key fun t => ?_⟩
  · rw [Matrix.mul_assoc, ← Matrix.mul_assoc (B t), (C92_inv B B' hB t).1, Matrix.one_mul, (C92_inv A A' hA t).1]
  · rw [← transpose_mul, (C92_inv A A' hA t).2, transpose_one]

/-- **C123**: `inv` against `r_multiply`: `inv` returns the array `a'` exactly if the slice-by-slice product of `a` and `a'` is the
identity matrix at every time, and then so is the product in the other order. -/
theorem C123_inv_product (n T : ℕ) (hn : 0 < n) (a a' : ℕ → ℕ → ℕ → ℝ) (s s' : Bool) :
    ∃ x y, rMultiply (.d3 n n T a) (.d3 n n T a') none s = .ok ⟨n, n, T, x⟩ ∧ rMultiply (.d3 n n T a') (.d3 n n T a) none s' = .ok ⟨n, n, T, y⟩ ∧
      (invBatch (fun t : Fin T => rectMat n n fun i j => a i j t) = .ok (fun t => rectMat n n fun i j => a' i j t) ↔
        ∀ i j t, i < n → j < n → t < T → x i j t = if i = j then 1 else 0) ∧
      ((∀ i j t, i < n → j < n → t < T → x i j t = if i = j then 1 else 0) →
        ∀ i j t, i < n → j < n → t < T → y i j t = if i = j then 1 else 0) := by
  obtain ⟨x, h1, v1⟩ := prod2 n n n T hn hn a a' s
  obtain ⟨y, h2, v2⟩ := prod2 n n n T hn hn a' a s'
  have hone : ∀ i j : Fin n, (1 : Matrix (Fin n) (Fin n) ℝ) i j = if i.val = j.val then 1 else 0 := fun i j => by
    rw [Matrix.one_apply]; simp only [Fin.ext_iff]
  have hx : (∀ i j t, i < n → j < n → t < T → x i j t = if i = j then 1 else 0) ↔
      ∀ t : Fin T, (rectMat n n fun i j => a i j t) * (rectMat n n fun i j => a' i j t) = 1 := by
    constructor
    · intro h t
      ext i j
      rw [rect_mul, hone, ← h i j t i.2 j.2 t.2, v1 i j t i.2 j.2 t.2]
    · intro h i j t hi hj ht
      rw [v1 i j t hi hj ht]
      have := congrFun (congrFun (h ⟨t, ht⟩) ⟨i, hi⟩) ⟨j, hj⟩
      rw [rect_mul, hone] at this
      exact this
  refine ⟨x, y, h1, h2, ?_, fun h i j t hi hj ht => ?_⟩
  · rw [hx]
    exact ⟨fun h t => (C92_inv _ _ h t).1, inv_of_right⟩
  · have := mul_eq_one_comm.1 (hx.1 h ⟨t, ht⟩)
    have := congrFun (congrFun this ⟨i, hi⟩) ⟨j, hj⟩
    rw [rect_mul, hone] at this
    rw [v2 i j t hi hj ht]
    exact this

/-- **C123**: `sqrtm_pos` against `r_multiply`: the product of the returned array with itself is the argument. -/
theorem C123_root (E : LA.Eigh) (n T : ℕ) (hn : 0 < n) (q r : ℕ → ℕ → ℕ → ℝ) (s : Bool)
    (h : sqrtmBatch E (fun t : Fin T => rectMat n n fun i j => q i j t) = .ok (fun t => rectMat n n fun i j => r i j t)) :
    ∃ x, rMultiply (.d3 n n T r) (.d3 n n T r) none s = .ok x ∧ SameArr x ⟨n, n, T, q⟩ := by
  obtain ⟨x, h1, v1⟩ := prod2 n n n T hn hn r r s
  refine ⟨_, h1, rfl, rfl, rfl, fun i j t hi hj ht => ?_⟩
  show x i j t = q i j t
  have := congrFun (congrFun (C93_root_partial E _ _ h ⟨t, ht⟩).2.1 ⟨i, hi⟩) ⟨j, hj⟩
  rw [rect_mul] at this
  rw [v1 i j t hi hj ht]
  exact this

/-- **C123**: `lr_divide_vec` is `lr_multiply_by_vec` with the inverse matrices. -/
theorem C123_divide (L : LA.Lstsq) (n T : ℕ) (b b' : ℕ → ℕ → ℕ → ℝ) (a : ℕ → ℕ → ℝ)
    (h : invBatch (fun t : Fin T => rectMat n n fun i j => b i j t) = .ok (fun t => rectMat n n fun i j => b' i j t)) :
    ∃ v w, (lrDivideVec L (.d3 n n T b) (.d2 n T a)).1 = .ok (.vec T v) ∧ lrMultiplyByVec (.d3 n n T b') n T a = .ok w ∧
      ∀ t < T, v t = w t := by
  have hinv := C92_inv _ _ h
  obtain ⟨v, h1, v1⟩ := C79_partial L n T T b a (fun t ht => Matrix.isUnit_det_of_right_inverse (hinv ⟨t, ht⟩).1) (Or.inr rfl)
  obtain ⟨w, h2, v2⟩ := C118_vec (.d3 n n T b') n T a rfl rfl (fun r c T' v h => by cases h; exact le_rfl)
  refine ⟨v, w, h1, h2, fun t ht => ?_⟩
  rw [v1 t ht, v2 t ht, Matrix.inv_eq_right_inv (hinv ⟨t, ht⟩).1]
  have h0 : (if T = 1 then 0 else t) = t := by split_ifs <;> omega
  rw [h0]
  simp only [dotProduct, Matrix.mulVec, colVec, rectMat, Matrix.of_apply, mul_sum]
  rw [← Fin.sum_univ_eq_sum_range (fun k => ∑ l ∈ range n, a k t * Arr.entry (.d3 n n T b') k l t * a l t)]
  refine sum_congr rfl fun k _ => ?_
  rw [← Fin.sum_univ_eq_sum_range (fun l => a k t * Arr.entry (.d3 n n T b') k l t * a l t)]
  exact sum_congr rfl fun l _ => (mul_assoc _ _ _).symm

/-! ### Examples -/

/-- Two series of two matrices: all the laws at once. -/
example (a b c : ℕ → ℕ → ℕ → ℝ) (ha : a = fun i j t => ((i + 2 * j + t : ℕ) : ℝ)) (hb : b = fun i j _ => ((i * j + 1 : ℕ) : ℝ)) (hc : c = fun (i j t : ℕ) => (t : ℝ) - ((i * j : ℕ) : ℝ)) :
    ∃ ab bc abc abc' abc'', rMultiply (.d3 2 3 2 a) (.d3 3 2 2 b) none true = .ok ⟨2, 2, 2, ab⟩ ∧
      rMultiply (.d3 2 2 2 ab) (.d3 2 4 2 c) none false = .ok abc ∧
      rMultiply (.d3 3 2 2 b) (.d3 2 4 2 c) none false = .ok ⟨3, 4, 2, bc⟩ ∧ rMultiply (.d3 2 3 2 a) (.d3 3 4 2 bc) none true = .ok abc' ∧
      rMultiply (.d3 2 3 2 a) (.d3 3 2 2 b) (some (.d3 2 4 2 c)) true = .ok abc'' ∧ SameArr abc abc' ∧ SameArr abc abc'' :=
  C123_assoc 2 3 2 4 2 (by norm_num) (by norm_num) (by norm_num) a b c true false false true true

/-- A series of shears and its inverse. -/
example (L : LA.Lstsq) (b b' : ℕ → ℕ → ℕ → ℝ) (hb : b = fun (i j t : ℕ) => if i = j then 1 else if i < j then ((t : ℕ) : ℝ) else 0)
    (hb' : b' = fun (i j t : ℕ) => if i = j then 1 else if i < j then -((t : ℕ) : ℝ) else 0) (a : ℕ → ℕ → ℝ) :
    invBatch (fun t : Fin 3 => rectMat 2 2 fun i j => b i j t) = .ok (fun t => rectMat 2 2 fun i j => b' i j t) ∧
    ∃ v w, (lrDivideVec L (.d3 2 2 3 b) (.d2 2 3 a)).1 = .ok (.vec 3 v) ∧ lrMultiplyByVec (.d3 2 2 3 b') 2 3 a = .ok w ∧ ∀ t < 3, v t = w t := by
  have h : invBatch (fun t : Fin 3 => rectMat 2 2 fun i j => b i j t) = .ok (fun t => rectMat 2 2 fun i j => b' i j t) := by
    refine inv_of_right fun t => ?_
    ext i j
    rw [rect_mul]
    subst hb hb'
    fin_cases i <;> fin_cases j <;> simp [sum_range_succ]
  exact ⟨h, C123_divide L 2 3 b b' a h⟩

end Ellipy.MV
