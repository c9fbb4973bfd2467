import Mathlib.Tactic.FinCases
import Verif.Proofs.Lstsq
import Verif.Props.EllCtor
import Verif.Spec.QuadMat

/-! Property theorem C62 (`inv_mat` and `quad_mat`). -/

namespace Ellipy.Ell
open Matrix Ellipy.LA

theorem arrMat_eq {a : Arr ℝ} {n : ℕ} {Q : Matrix (Fin n) (Fin n) ℝ} (h : IsSquare a Q) : arrMat n a.data = Q := by
  ext i j
  show a.data.getD (i.val * n + j.val) 0 = Q i j
  rw [List.getD_eq_getElem?_getD, h.2 i j]
  rfl

/-- Every array of shape `(n, n)` holds a matrix. -/
theorem isSquare_of_shape {a : Arr ℝ} {n : ℕ} (h : a.shape = [n, n]) : IsSquare a (arrMat n a.data) := by
  refine ⟨h, fun i j => ?_⟩
  have hl : i.val * n + j.val < a.data.length := by
    rw [a.len, h]
    simpa using idx_lt i j
  show _ = some (a.data.getD (i.val * n + j.val) 0)
  rw [List.getD_eq_getElem?_getD, List.getElem?_eq_getElem hl]
  rfl

theorem npInv_unit {n : ℕ} {A : Matrix (Fin n) (Fin n) ℝ} (h : A.det ≠ 0) : npInv A = .ok A⁻¹ := by
  rw [npInv, if_neg h]

theorem invSq_unit {n : ℕ} {Q : Matrix (Fin n) (Fin n) ℝ} (h : Q.det ≠ 0) : invSq Q = .ok Q⁻¹ := by
  have hu : IsUnit Q.det := isUnit_iff_ne_zero.mpr h
  unfold invSq
  rw [npInv_unit h]
  simp only
  rw [nonsing_inv_mul _ hu, npInv_unit (by simp)]
  simp

theorem invSq_sing {n : ℕ} {Q : Matrix (Fin n) (Fin n) ℝ} (h : Q.det = 0) : invSq Q = .error .linAlgError := by
  unfold invSq npInv
  rw [if_pos h]

/-- **C62**, `inv_mat`: for a non-singular matrix the result is the inverse. -/
theorem C62_inv_mat (a : Arr ℝ) {n : ℕ} (Q : Matrix (Fin n) (Fin n) ℝ) (ha : IsSquare a Q) :
    (∀ B : Matrix (Fin n) (Fin n) ℝ, invMat a = .ok ⟨n, B⟩ ↔ B * Q = 1) ∧ (invMat a = .error .linAlgError ↔ Q.det = 0) := by
  have hs := ha.1
  unfold invMat
  simp only [hs, arrMat_eq ha, ne_eq, not_true_eq_false, if_false]
  by_cases hd : Q.det = 0
  · rw [invSq_sing hd]
    refine ⟨fun B => iff_of_false (by simp) (fun h => ?_), by simp [hd]⟩
    have := congrArg det h
    rw [det_mul, hd, mul_zero, det_one] at this
    exact zero_ne_one this
  · rw [invSq_unit hd]
    refine ⟨fun B => ⟨fun h => ?_, fun h => ?_⟩, by simp [hd]⟩
    · simp only [Except.ok.injEq, Sigma.mk.injEq, heq_eq_eq, true_and] at h
      rw [← h, nonsing_inv_mul _ (isUnit_iff_ne_zero.mpr hd)]
    · simp only [Except.ok.injEq, Sigma.mk.injEq, heq_eq_eq, true_and]
      exact inv_eq_left_inv h

/-- **C62**, `inv_mat`: exactly the arrays that are not square matrices and the singular matrices are rejected. -/
theorem C62_inv_mat_raises_iff (a : Arr ℝ) :
    Raises (invMat a) ↔ ¬ ∃ n, ∃ Q : Matrix (Fin n) (Fin n) ℝ, IsSquare a Q ∧ Q.det ≠ 0 := by
  by_cases h : ∃ n, a.shape = [n, n]
  · obtain ⟨n, hs⟩ := h
    have hq := isSquare_of_shape hs
    obtain ⟨h1, h2⟩ := C62_inv_mat a _ hq
    by_cases hd : (arrMat n a.data).det = 0
    · refine iff_of_true ⟨_, h2.mpr hd⟩ ?_
      rintro ⟨n', Q, hQ, hd'⟩
      have hn : n' = n := by have := hQ.1; rw [hs] at this; simpa using this.symm
      subst hn
      rw [arrMat_eq hQ] at hd
      exact hd' hd
    · refine iff_of_false ?_ (not_not.mpr ⟨n, _, hq, hd⟩)
      rintro ⟨e, he⟩
      rw [(h1 _).mpr (nonsing_inv_mul _ (isUnit_iff_ne_zero.mpr hd))] at he
      cases he
  · refine iff_of_true ?_ ?_
    · unfold invMat
      split
      · rename_i m n hs
        rw [if_pos (fun hmn => h ⟨n, by rw [hs, hmn]⟩)]
        exact ⟨_, rfl⟩
      · exact ⟨_, rfl⟩
    · rintro ⟨n, Q, hQ, -⟩
      exact h ⟨n, hQ.1⟩

example : IsSquare (⟨[1, 1], [4], rfl⟩ : Arr ℝ) (of fun (_ _ : Fin 1) => (4 : ℝ)) ∧ (of fun (_ _ : Fin 1) => (4 : ℝ)).det ≠ 0 := by
  refine ⟨⟨rfl, fun i j => ?_⟩, by simp⟩
  have hi : i.val = 0 := by omega
  have hj : j.val = 0 := by omega
  simp [hj]

/-- The row shape of a vector. -/
theorem rowShape_vec {a : Arr ℝ} {n : ℕ} (hn : n ≠ 0) (tag : String) :
    rowShape tag a.shape = .ok (1, n) ↔ a.shape = [n] ∨ a.shape = [1, n] ∨ a.shape = [n, 1] := by
  unfold rowShape throwErr
  split
  · rename_i h; rw [h]; simp
  · rename_i k h; rw [h]; simp
  · rename_i p q h
    rw [h]
    by_cases h1 : 1 < p ∧ 1 < q
    · rw [if_pos h1]
      simp
      omega
    · rw [if_neg h1]
      by_cases h2 : 1 < p
      · rw [if_pos h2]
        simp
        omega
      · rw [if_neg h2]
        simp
        omega
  · rename_i h0 h1 h2
    refine iff_of_false (by simp) ?_
    rintro (h | h | h)
    · exact h1 _ h
    · exact h2 _ _ h
    · exact h2 _ _ h

theorem getD_of_get {l : List ℝ} {i : ℕ} {r : ℝ} (h : l[i]? = some r) : l.getD i 0 = r := by
  rw [List.getD_eq_getElem?_getD, h]; rfl

theorem vec_length {a : Arr ℝ} {n : ℕ} (h : a.shape = [n] ∨ a.shape = [1, n] ∨ a.shape = [n, 1]) : a.data.length = n := by
  rw [a.len]
  rcases h with h | h | h <;> simp [h]

/-- What `quad_mat` does with arguments of the right shapes. -/
theorem quadMat_eval (L : Lstsq) {n : ℕ} (hn : n ≠ 0) {q x c : Arr ℝ} {Q : Matrix (Fin n) (Fin n) ℝ} {v w : Fin n → ℝ} (hq : IsSquare q Q)
    (hx : IsVecArr x v) (hc : IsCenterArr c w) (mode : String) :
    quadMat L q x c mode =
      if pyLower mode ∉ ["plain".toList, "inv".toList, "invadv".toList] then throwErr "wrongInput:mode"
      else if pyLower mode = "plain".toList then .ok (oneByOne ((v - w) ⬝ᵥ Q *ᵥ (v - w)))
      else if pyLower mode = "invadv".toList then
        match invSq Q with
        | .error e => .error e
        | .ok B => .ok (oneByOne ((v - w) ⬝ᵥ B *ᵥ (v - w)))
      else .ok (oneByOne ((v - w) ⬝ᵥ fun i => L.sol Q (colMat (v - w)) i 0)) := by
  unfold quadMat
  by_cases hm : pyLower mode ∉ ["plain".toList, "inv".toList, "invadv".toList]
  · rw [if_pos hm, if_pos hm]
  rw [if_neg hm, if_neg hm]
  simp only [hq.1, ne_eq, not_true_eq_false, if_false, (rowShape_vec (a := x) hn "wrongInput:x_vec").mpr hx.1, arrMat_eq hq]
  have hlen : ¬ (¬ c.data = [0] ∧ 2 < c.shape.length) := by
    rintro ⟨h0, h2⟩
    rcases hc with hc | hc | hc
    · rcases hc.1 with h | h | h <;> rw [h] at h2 <;> simp at h2
    · exact h0 hc.1
    · rw [hc.1] at h2; simp at h2
  rw [if_neg hlen]
  have hrow : rowShape "wrongInput:c_vec" (if c.data = [0] then [1, n] else if c.shape.length ≤ 1 then [1, c.data.length] else c.shape) =
      .ok (1, n) := by
    by_cases h0 : c.data = [0]
    · rw [if_pos h0]; simp [rowShape]
    rw [if_neg h0]
    rcases hc with hc | hc | hc
    · by_cases h1 : c.shape.length ≤ 1
      · rw [if_pos h1, vec_length hc.1]; simp [rowShape]
      · rw [if_neg h1]; exact (rowShape_vec (a := c) hn _).mpr hc.1
    · exact absurd hc.1 h0
    · have hl := c.len
      rw [hc.1] at hl
      rw [if_pos (by rw [hc.1]; simp), hl, hc.2.1]
      simp [rowShape]
  have hy : (fun i : Fin n => x.data.getD i 0 - (if c.data = [0] then List.replicate n 0 else c.data).getD i 0) = v - w := by
    funext i
    rw [getD_of_get (hx.2 i), Pi.sub_apply]
    congr 1
    by_cases h0 : c.data = [0]
    · rw [if_pos h0]
      have hw : w i = 0 := by
        rcases hc with hc | hc | hc
        · have hl := vec_length hc.1
          rw [h0] at hl
          have hi : i.val = 0 := by have := i.2; simp at hl; omega
          have h3 := hc.2 i
          rw [h0, hi] at h3
          simpa using h3.symm
        · rw [hc.2]; rfl
        · have hi : i.val = 0 := by have := i.2; have := hc.2.1; omega
          have h3 := hc.2.2 i
          rw [h0, hi] at h3
          simpa using h3.symm
      rw [hw, List.getD_eq_getElem?_getD, List.getElem?_replicate]
      split <;> rfl
    · rw [if_neg h0]
      rcases hc with hc | hc | hc
      · exact getD_of_get (hc.2 i)
      · exact absurd hc.1 h0
      · exact getD_of_get (hc.2.2 i)
  simp only [hrow, hy, not_true_eq_false, if_false]
  rfl

theorem lstsq_unit (L : Lstsq) {n p : ℕ} {Q : Matrix (Fin n) (Fin n) ℝ} (hd : Q.det ≠ 0) (b : Matrix (Fin n) (Fin p) ℝ) :
    L.sol Q b = Q⁻¹ * b := by
  have hu : IsUnit Q.det := isUnit_iff_ne_zero.mpr hd
  have hut : IsUnit Qᵀ.det := by rwa [det_transpose]
  have h := congrArg (fun M => Q⁻¹ * (Qᵀ⁻¹ * M)) (L.normal Q b)
  simp only [← Matrix.mul_assoc] at h
  rwa [Matrix.mul_assoc Q⁻¹ Qᵀ⁻¹ Qᵀ, nonsing_inv_mul _ hut, Matrix.mul_one, nonsing_inv_mul _ hu, Matrix.one_mul] at h

theorem mulCol {n m : ℕ} (A : Matrix (Fin n) (Fin m) ℝ) (v : Fin m → ℝ) : (fun i => (A * colMat v) i 0) = A *ᵥ v := by
  funext i
  rfl

/-- **C62**, mode `plain`: the quadratic form at `x - c`. -/
theorem C62_plain (L : Lstsq) {n : ℕ} (hn : n ≠ 0) (q x c : Arr ℝ) (Q : Matrix (Fin n) (Fin n) ℝ) (v w : Fin n → ℝ) (hq : IsSquare q Q)
    (hx : IsVecArr x v) (hc : IsCenterArr c w) :
    quadMat L q x c "plain" = .ok (oneByOne (∑ i, ∑ j, (v i - w i) * Q i j * (v j - w j))) := by
  rw [quadMat_eval L hn hq hx hc, if_neg (by decide), if_pos (by decide)]
  congr 2
  simp only [dotProduct, mulVec, Finset.mul_sum, Pi.sub_apply]
  exact Finset.sum_congr rfl (fun i _ => Finset.sum_congr rfl (fun j _ => by ring))

/-- **C62**, modes `inv` and `invadv` with a non-singular matrix: the quadratic form of the inverse at `x - c`, that is `⟨x - c, z⟩` for
the solution of `Q z = x - c`. -/
theorem C62_inv (L : Lstsq) {n : ℕ} (hn : n ≠ 0) (q x c : Arr ℝ) (Q : Matrix (Fin n) (Fin n) ℝ) (v w : Fin n → ℝ) (hq : IsSquare q Q)
    (hx : IsVecArr x v) (hc : IsCenterArr c w) (hd : Q.det ≠ 0) (mode : String) (hm : mode = "inv" ∨ mode = "invadv") :
    ∃ z : Fin n → ℝ, Q *ᵥ z = v - w ∧ quadMat L q x c mode = .ok (oneByOne ((v - w) ⬝ᵥ z)) := by
  have hu : IsUnit Q.det := isUnit_iff_ne_zero.mpr hd
  refine ⟨Q⁻¹ *ᵥ (v - w), by rw [mulVec_mulVec, mul_nonsing_inv _ hu, one_mulVec], ?_⟩
  rw [quadMat_eval L hn hq hx hc]
  rcases hm with rfl | rfl
  · rw [if_neg (by decide), if_neg (by decide), if_neg (by decide), lstsq_unit L hd, mulCol]
  · rw [if_neg (by decide), if_neg (by decide), if_pos (by decide), invSq_unit hd]

/-- **C62**, mode `inv` with a singular symmetric matrix: the least-squares solution takes the place of the inverse; if `Q z = x - c` has a
solution, the result is `⟨x - c, z⟩` for each of them. -/
theorem C62_inv_singular (L : Lstsq) {n : ℕ} (hn : n ≠ 0) (q x c : Arr ℝ) (Q : Matrix (Fin n) (Fin n) ℝ) (v w : Fin n → ℝ)
    (hq : IsSquare q Q) (hx : IsVecArr x v) (hc : IsCenterArr c w) (hs : Qᵀ = Q) (z : Fin n → ℝ) (hz : Q *ᵥ z = v - w) :
    quadMat L q x c "inv" = .ok (oneByOne ((v - w) ⬝ᵥ z)) := by
  rw [quadMat_eval L hn hq hx hc, if_neg (by decide), if_neg (by decide), if_neg (by decide)]
  congr 2
  have h := congrArg (fun M => fun i => M i (0 : Fin 1)) (L.normal Q (colMat (v - w)))
  simp only [hs] at h
  set u : Fin n → ℝ := fun i => L.sol Q (colMat (v - w)) i 0 with hu
  have h1 : (Q * Q) *ᵥ u = Q *ᵥ (v - w) := h
  -- `Q (Q u - y) = 0` and `Q u - y` is in the image of `Q`
  have h2 : Q *ᵥ (u - z) = 0 := by
    have h3 : Q *ᵥ (Q *ᵥ (u - z)) = 0 := by
      rw [mulVec_sub, hz, mulVec_sub, mulVec_mulVec, h1, sub_self]
    by_contra hne
    have h4 := dot_self_pos hne
    rw [dotProduct_mulVec, ← mulVec_transpose, hs, h3, zero_dotProduct] at h4
    exact lt_irrefl _ h4
  have h5 : (v - w) ⬝ᵥ (u - z) = 0 := by
    rw [← hz, dotProduct_comm, dotProduct_mulVec, ← mulVec_transpose, hs, h2, zero_dotProduct]
  rw [dotProduct_sub] at h5
  linarith

/-- **C62**: exactly the unknown modes, the arrays that are not a square matrix, vectors of other lengths and, in the mode `invadv`, the
singular matrices are rejected (arrays without entries left aside). -/
theorem C62_raises_iff (L : Lstsq) (q x c : Arr ℝ) (hq0 : q.data ≠ []) (hx0 : x.data ≠ []) (hc0 : c.data ≠ []) (mode : String) :
    Raises (quadMat L q x c mode) ↔
      pyLower mode ∉ ["plain".toList, "inv".toList, "invadv".toList] ∨
      ¬ ∃ n, ∃ (Q : Matrix (Fin n) (Fin n) ℝ) (v w : Fin n → ℝ), IsSquare q Q ∧ IsVecArr x v ∧ IsCenterArr c w ∧
        (pyLower mode = "invadv".toList → Q.det ≠ 0) := by
  by_cases hm : pyLower mode ∉ ["plain".toList, "inv".toList, "invadv".toList]
  · refine iff_of_true ?_ (Or.inl hm)
    unfold quadMat
    rw [if_pos hm]
    exact ⟨_, rfl⟩
  simp only [hm, false_or]
  have hne : ∀ {n : ℕ} {Q : Matrix (Fin n) (Fin n) ℝ}, IsSquare q Q → n ≠ 0 := by
    rintro n Q hQ rfl
    have := q.len
    rw [hQ.1] at this
    simp at this
    exact hq0 this
  have hpos : ∀ {a : Arr ℝ}, a.data ≠ [] → ∀ k ∈ a.shape, k ≠ 0 := by
    rintro a ha k hk rfl
    have := a.len
    have h0 : a.shape.foldr (· * ·) 1 = 0 := List.prod_eq_zero hk
    rw [h0, List.length_eq_zero_iff] at this
    exact ha this
  by_cases hg : ∃ n, ∃ (Q : Matrix (Fin n) (Fin n) ℝ) (v w : Fin n → ℝ), IsSquare q Q ∧ IsVecArr x v ∧ IsCenterArr c w
  · obtain ⟨n, Q, v, w, hQ, hx, hc⟩ := hg
    rw [quadMat_eval L (hne hQ) hQ hx hc, if_neg hm]
    by_cases hp : pyLower mode = "plain".toList
    · rw [if_pos hp]
      refine iff_of_false (by rintro ⟨e, he⟩; cases he) (not_not.mpr ⟨n, Q, v, w, hQ, hx, hc, fun h => ?_⟩)
      rw [hp] at h
      exact absurd h (by decide)
    rw [if_neg hp]
    by_cases hi : pyLower mode = "invadv".toList
    · rw [if_pos hi]
      by_cases hd : Q.det = 0
      · rw [invSq_sing hd]
        refine iff_of_true ⟨_, rfl⟩ ?_
        rintro ⟨n', Q', v', w', hQ', -, -, hd'⟩
        have hnn : n' = n := by have := hQ'.1; rw [hQ.1] at this; simpa using this.symm
        subst hnn
        have : Q' = Q := by rw [← arrMat_eq hQ, ← arrMat_eq hQ']
        exact hd' hi (this ▸ hd)
      · rw [invSq_unit hd]
        exact iff_of_false (by rintro ⟨e, he⟩; cases he) (not_not.mpr ⟨n, Q, v, w, hQ, hx, hc, fun _ => hd⟩)
    · rw [if_neg hi]
      exact iff_of_false (by rintro ⟨e, he⟩; cases he) (not_not.mpr ⟨n, Q, v, w, hQ, hx, hc, fun h => absurd h hi⟩)
  · refine iff_of_true ?_ (fun ⟨n, Q, v, w, h1, h2, h3, _⟩ => hg ⟨n, Q, v, w, h1, h2, h3⟩)
    cases hr : quadMat L q x c mode with
    | error e => exact ⟨e, rfl⟩
    | ok r =>
      exfalso
      unfold quadMat throwErr at hr
      rw [if_neg hm] at hr
      split at hr
      swap
      · cases hr
      rename_i m n hs
      by_cases hmn : m ≠ n
      · rw [if_pos hmn] at hr; cases hr
      rw [if_neg hmn] at hr
      rw [not_not] at hmn
      subst hmn
      have hm0 : m ≠ 0 := hpos hq0 m (by rw [hs]; simp)
      cases hxr : rowShape "wrongInput:x_vec" x.shape with
      | error e => rw [hxr] at hr; cases hr
      | ok p =>
        obtain ⟨xr, xn⟩ := p
        rw [hxr] at hr
        simp only at hr
        by_cases h1 : ¬ c.data = [0] ∧ 2 < c.shape.length
        · rw [if_pos h1] at hr; cases hr
        rw [if_neg h1] at hr
        by_cases h2 : xn ≠ m
        · rw [if_pos h2] at hr; cases hr
        rw [if_neg h2] at hr
        rw [not_not] at h2
        subst h2
        -- the vector
        have hxs : x.shape = [xn] ∨ x.shape = [1, xn] ∨ x.shape = [xn, 1] := by
          rw [← rowShape_vec hm0 "wrongInput:x_vec", hxr]
          congr 2
          unfold rowShape throwErr at hxr
          split at hxr
          · cases hxr
          · simp at hxr; exact hxr.1.symm
          · rename_i a b hab
            have ha := hpos hx0 a (by rw [hab]; simp)
            have hb := hpos hx0 b (by rw [hab]; simp)
            split_ifs at hxr <;> (simp at hxr; omega)
          · cases hxr
        have hxv : IsVecArr x (fun i : Fin xn => x.data.getD i 0) := by
          refine ⟨hxs, fun i => ?_⟩
          have : i.val < x.data.length := by rw [vec_length hxs]; exact i.2
          simp only
          rw [List.getD_eq_getElem?_getD, List.getElem?_eq_getElem this]; rfl
        -- the centre
        have hcv : ∃ w : Fin xn → ℝ, IsCenterArr c w := by
          by_cases h0 : c.data = [0]
          · exact ⟨0, Or.inr (Or.inl ⟨h0, rfl⟩)⟩
          simp only [h0, if_false] at hr
          have h3 : ¬ 2 < c.shape.length := fun h => h1 ⟨h0, h⟩
          have hcs : (c.shape = [xn] ∨ c.shape = [1, xn] ∨ c.shape = [xn, 1]) ∨ (c.shape = [] ∧ xn = 1) := by
            by_cases h4 : c.shape.length ≤ 1
            · rw [if_pos h4] at hr
              simp only [rowShape, lt_irrefl, false_and, if_false] at hr
              by_cases h5 : c.data.length ≠ xn
              · rw [if_pos h5] at hr; cases hr
              rw [not_not] at h5
              have hl := c.len
              match hsh : c.shape with
              | [] =>
                rw [hsh, h5] at hl
                exact Or.inr ⟨rfl, hl⟩
              | [k] =>
                rw [hsh, h5] at hl
                left; left
                simp at hl
                rw [hl]
              | _ :: _ :: _ => rw [hsh] at h4; simp at h4
            · rw [if_neg h4] at hr
              left
              rw [← rowShape_vec hm0 "wrongInput:c_vec"]
              cases hcr : rowShape "wrongInput:c_vec" c.shape with
              | error e => rw [hcr] at hr; cases hr
              | ok p =>
                obtain ⟨cr, cn⟩ := p
                rw [hcr] at hr
                simp only at hr
                by_cases h5 : cn ≠ xn
                · rw [if_pos h5] at hr; cases hr
                rw [not_not] at h5
                subst h5
                congr 2
                unfold rowShape throwErr at hcr
                split at hcr
                · cases hcr
                · simp at hcr; exact hcr.1.symm
                · rename_i a b hab
                  have ha := hpos hc0 a (by rw [hab]; simp)
                  have hb := hpos hc0 b (by rw [hab]; simp)
                  split_ifs at hcr <;> (simp at hcr; omega)
                · cases hcr
          have hlen : c.data.length = xn := by
            rcases hcs with hcs | ⟨hcs, h1⟩
            · exact vec_length hcs
            · rw [c.len, hcs, h1]; rfl
          have hget : ∀ i : Fin xn, c.data[i.val]? = some (c.data.getD i 0) := fun i => by
            have : i.val < c.data.length := by rw [hlen]; exact i.2
            rw [List.getD_eq_getElem?_getD, List.getElem?_eq_getElem this]; rfl
          refine ⟨fun i => c.data.getD i 0, ?_⟩
          rcases hcs with hcs | ⟨hcs, h1⟩
          · exact Or.inl ⟨hcs, hget⟩
          · exact Or.inr (Or.inr ⟨hcs, h1, hget⟩)
        obtain ⟨w, hw⟩ := hcv
        exact hg ⟨xn, _, _, w, isSquare_of_shape hs, hxv, hw⟩

/-- A row as point and a column as centre. -/
example : IsSquare (⟨[2, 2], [2, 1, 1, 2], rfl⟩ : Arr ℝ) !![2, 1; 1, 2] ∧ IsVecArr (⟨[1, 2], [3, 4], rfl⟩ : Arr ℝ) ![3, 4] ∧
    IsCenterArr (⟨[2, 1], [1, 0], rfl⟩ : Arr ℝ) ![1, 0] ∧ (!![2, 1; 1, 2] : Matrix (Fin 2) (Fin 2) ℝ).det ≠ 0 := by
  refine ⟨⟨rfl, fun i j => ?_⟩, ⟨Or.inr (Or.inl rfl), fun i => ?_⟩, Or.inl ⟨Or.inr (Or.inr rfl), fun i => ?_⟩, ?_⟩
  · fin_cases i <;> fin_cases j <;> rfl
  · fin_cases i <;> rfl
  · fin_cases i <;> rfl
  · rw [det_fin_two_of]; norm_num

end Ellipy.Ell
