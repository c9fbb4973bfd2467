import Verif.Props.Rho
import Verif.Props.CalcDiff

/-! Property theorems C130: what the support values and the boundary points of `rho` say about an ellipsoid. -/

namespace Ellipy.Ell
open Matrix Ellipy.LA

/-- The values and the points of one ellipsoid. -/
private theorem rho_vals {n k : ℕ} {s : Arr ℝ} {b : Arr (XF ℝ)} {e : EllN n} (he : e.PSD) {ls : Fin k → Fin n → ℝ}
    (h : IsRho s b (fun _ => e) ls) (j : Fin k) : s.data[j.val]? = some (ls j ⬝ᵥ e.c + Real.sqrt (ls j ⬝ᵥ e.Q *ᵥ ls j)) ∧
      ∃ x ∈ e.set, ls j ⬝ᵥ x = ls j ⬝ᵥ e.c + Real.sqrt (ls j ⬝ᵥ e.Q *ᵥ ls j) ∧ ∀ i : Fin n, b.data[i.val * k + j.val]? = some (.fin (x i)) := by
  obtain ⟨r, x, h1, h2, h3, h4, h5⟩ := h.2.2 j
  have hr : r = ls j ⬝ᵥ e.c + Real.sqrt (ls j ⬝ᵥ e.Q *ᵥ ls j) := h2.unique (ell_support he.2 (ls j))
  exact ⟨by rw [h1, hr], x, h3, by rw [h4, hr], h5⟩

/-- The boundary point in column `j`. -/
def IsCol {n : ℕ} (k : ℕ) (b : Arr (XF ℝ)) (j : Fin k) (x : Fin n → ℝ) : Prop := ∀ i : Fin n, b.data[i.val * k + j.val]? = some (.fin (x i))

/-- **C130**: the value for a direction does not depend on the other directions of the call, nor does the boundary point, unless the
ellipsoid is flat in this direction. -/
theorem C130_calls {n k k' : ℕ} (a : Arr EllObj) (e : EllN n) (ha : a.data = [e.obj]) (he : e.PSD) (d d' : Arr ℝ) (rest rest' : List ℕ)
    (hrest : rest ≠ []) (hrest' : rest' ≠ []) (ls : Fin k → Fin n → ℝ) (ls' : Fin k' → Fin n → ℝ) (hd : IsDirs d rest ls) (hd' : IsDirs d' rest' ls') :
    ∃ s b s' b', rho a d = .ok (s, b) ∧ rho a d' = .ok (s', b') ∧ ∀ j j', ls j = ls' j' →
      (∃ r, s.data[j.val]? = some r ∧ s'.data[j'.val]? = some r) ∧
      ((∃ x ∈ e.set, ls j ⬝ᵥ x ≠ ls j ⬝ᵥ e.c) → ∃ x : Fin n → ℝ, IsCol k b j x ∧ IsCol k' b' j' x) := by
  obtain ⟨s, b, h1, g1, -⟩ := C40_one_ell a e ha he d rest hrest ls hd
  obtain ⟨s', b', h2, g2, -⟩ := C40_one_ell a e ha he d' rest' hrest' ls' hd'
  refine ⟨s, b, s', b', h1, h2, fun j j' hjj => ?_⟩
  obtain ⟨v1, x, x1, x2, x3⟩ := rho_vals he g1 j
  obtain ⟨v2, y, y1, y2, y3⟩ := rho_vals he g2 j'
  rw [← hjj] at v2 y2
  refine ⟨⟨_, v1, v2⟩, ?_⟩
  rintro ⟨z, hz, hne⟩
  have hpos : 0 < ls j ⬝ᵥ e.Q *ᵥ ls j := by
    refine lt_of_le_of_ne (he.2.2 _) fun h0 => hne ?_
    have := (mem_ell_support he.2 z).mp hz (ls j)
    rw [← h0, dotProduct_sub] at this
    have := pow_eq_zero_iff two_ne_zero |>.mp (le_antisymm this (sq_nonneg _))
    linarith
  refine ⟨x, x3, ?_⟩
  have hxy : x = y := (support_unique he.2 hpos x1 x2).trans (support_unique he.2 hpos y1 y2).symm
  rw [hxy]; exact y3

/-- **C130**: a direction and its opposite.  The sum of the two values is the width of the ellipsoid, the largest difference of the values
of the direction on it; it is not negative, and zero exactly when the direction is constant on the ellipsoid.  The difference is twice
the value at the centre. -/
theorem C130_width {n k : ℕ} (a : Arr EllObj) (e : EllN n) (ha : a.data = [e.obj]) (he : e.PSD) (d : Arr ℝ) (rest : List ℕ)
    (hrest : rest ≠ []) (ls : Fin k → Fin n → ℝ) (hd : IsDirs d rest ls) :
    ∃ s b, rho a d = .ok (s, b) ∧ ∀ i j, ls j = -ls i → ∃ p q, s.data[i.val]? = some p ∧ s.data[j.val]? = some q ∧ 0 ≤ p + q ∧
      p - q = 2 * (ls i ⬝ᵥ e.c) ∧ IsGreatest {w | ∃ x ∈ e.set, ∃ y ∈ e.set, w = ls i ⬝ᵥ x - ls i ⬝ᵥ y} (p + q) ∧
      (p + q = 0 ↔ ∀ x ∈ e.set, ls i ⬝ᵥ x = ls i ⬝ᵥ e.c) := by
  obtain ⟨s, b, h1, g1, -⟩ := C40_one_ell a e ha he d rest hrest ls hd
  refine ⟨s, b, h1, fun i j hij => ?_⟩
  obtain ⟨v1, x, x1, x2, -⟩ := rho_vals he g1 i
  obtain ⟨v2, y, y1, y2, -⟩ := rho_vals he g1 j
  have hq : ls j ⬝ᵥ e.Q *ᵥ ls j = ls i ⬝ᵥ e.Q *ᵥ ls i := by rw [hij, mulVec_neg, neg_dotProduct_neg]
  rw [hq] at v2 y2
  rw [hij, neg_dotProduct] at v2
  rw [hij, neg_dotProduct, neg_dotProduct] at y2
  have hs := Real.sqrt_nonneg (ls i ⬝ᵥ e.Q *ᵥ ls i)
  refine ⟨_, _, v1, v2, by linarith, by ring, ⟨⟨x, x1, y, y1, by linarith⟩, ?_⟩, ?_⟩
  · rintro w ⟨x', hx', y', hy', rfl⟩
    have h3 := (mem_ell_sqrt he.2 x').mp hx' (ls i)
    have h4 := (mem_ell_sqrt he.2 y').mp hy' (-ls i)
    rw [mulVec_neg, neg_dotProduct_neg, neg_dotProduct, neg_dotProduct] at h4
    linarith
  · constructor
    · intro h0 z hz
      have h5 : Real.sqrt (ls i ⬝ᵥ e.Q *ᵥ ls i) = 0 := by linarith
      have h3 := (mem_ell_sqrt he.2 z).mp hz (ls i)
      have h4 := (mem_ell_sqrt he.2 z).mp hz (-ls i)
      rw [mulVec_neg, neg_dotProduct_neg, neg_dotProduct, neg_dotProduct] at h4
      linarith
    · intro h
      have := h x x1
      linarith

/-- **C130**: the boundary points are consistent with each other: the point for one direction does not go beyond the value for another
one, so the points turn with the directions. -/
theorem C130_points {n k : ℕ} (a : Arr EllObj) (e : EllN n) (ha : a.data = [e.obj]) (he : e.PSD) (d : Arr ℝ) (rest : List ℕ)
    (hrest : rest ≠ []) (ls : Fin k → Fin n → ℝ) (hd : IsDirs d rest ls) :
    ∃ s b, rho a d = .ok (s, b) ∧ ∀ i j, ∃ (p q : ℝ) (x y : Fin n → ℝ), s.data[i.val]? = some p ∧ s.data[j.val]? = some q ∧ IsCol k b i x ∧ IsCol k b j y ∧
      q + (ls i - ls j) ⬝ᵥ y ≤ p ∧ 0 ≤ (ls i - ls j) ⬝ᵥ (x - y) := by
  obtain ⟨s, b, h1, g1, -⟩ := C40_one_ell a e ha he d rest hrest ls hd
  refine ⟨s, b, h1, fun i j => ?_⟩
  obtain ⟨v1, x, x1, x2, x3⟩ := rho_vals he g1 i
  obtain ⟨v2, y, y1, y2, y3⟩ := rho_vals he g1 j
  have h3 := (mem_ell_sqrt he.2 y).mp y1 (ls i)
  have h4 := (mem_ell_sqrt he.2 x).mp x1 (ls j)
  refine ⟨_, _, x, y, v1, v2, x3, y3, ?_, ?_⟩
  · rw [sub_dotProduct]; linarith
  · rw [sub_dotProduct, dotProduct_sub, dotProduct_sub]; linarith

/-- **C130**: the value changes at most `R` times as fast as the direction, when the ellipsoid lies in the ball of radius `R` about the
origin. -/
theorem C130_lipschitz {n k : ℕ} (a : Arr EllObj) (e : EllN n) (ha : a.data = [e.obj]) (he : e.PSD) (d : Arr ℝ) (rest : List ℕ)
    (hrest : rest ≠ []) (ls : Fin k → Fin n → ℝ) (hd : IsDirs d rest ls) (R : ℝ) (hR : 0 ≤ R) (hball : ∀ x ∈ e.set, x ⬝ᵥ x ≤ R ^ 2) :
    ∃ s b, rho a d = .ok (s, b) ∧ ∀ i j, ∃ p q, s.data[i.val]? = some p ∧ s.data[j.val]? = some q ∧
      |p - q| ≤ R * Real.sqrt ((ls i - ls j) ⬝ᵥ (ls i - ls j)) := by
  obtain ⟨s, b, h1, g1, -⟩ := C40_one_ell a e ha he d rest hrest ls hd
  refine ⟨s, b, h1, fun i j => ?_⟩
  obtain ⟨v1, x, x1, x2, x3⟩ := rho_vals he g1 i
  obtain ⟨v2, y, y1, y2, y3⟩ := rho_vals he g1 j
  refine ⟨_, _, v1, v2, ?_⟩
  have cs : ∀ u ∈ e.set, |(ls i - ls j) ⬝ᵥ u| ≤ R * Real.sqrt ((ls i - ls j) ⬝ᵥ (ls i - ls j)) := by
    intro u hu
    have h5 : ((ls i - ls j) ⬝ᵥ u) ^ 2 ≤ ((ls i - ls j) ⬝ᵥ (ls i - ls j)) * (u ⬝ᵥ u) := by
      have := Finset.sum_mul_sq_le_sq_mul_sq Finset.univ (ls i - ls j) u
      simpa only [dotProduct, sq] using this
    have h0 : 0 ≤ (ls i - ls j) ⬝ᵥ (ls i - ls j) := Finset.sum_nonneg fun t _ => mul_self_nonneg _
    refine abs_le_of_sq_le_sq ?_ (by positivity)
    rw [mul_pow, Real.sq_sqrt h0]
    have := mul_le_mul_of_nonneg_left (hball u hu) h0
    linarith
  have h3 := (mem_ell_sqrt he.2 y).mp y1 (ls i)
  have h4 := (mem_ell_sqrt he.2 x).mp x1 (ls j)
  have hx := abs_le.mp (cs x x1)
  have hy := abs_le.mp (cs y y1)
  rw [show (ls i - ls j) ⬝ᵥ x = ls i ⬝ᵥ x - ls j ⬝ᵥ x from sub_dotProduct _ _ _] at hx
  rw [show (ls i - ls j) ⬝ᵥ y = ls i ⬝ᵥ y - ls j ⬝ᵥ y from sub_dotProduct _ _ _] at hy
  rw [abs_le]
  constructor <;> linarith

/-- **C130**: finitely many values determine the ellipsoid: when two ellipsoids have the same values for the directions `±(e_i + e_j)`,
their centres and their shapes are the same. -/
theorem C130_determine {n k : ℕ} (a a' : Arr EllObj) (e f : EllN n) (ha : a.data = [e.obj]) (ha' : a'.data = [f.obj]) (he : e.PSD) (hf : f.PSD)
    (d : Arr ℝ) (rest : List ℕ) (hrest : rest ≠ []) (ls : Fin k → Fin n → ℝ) (hd : IsDirs d rest ls)
    (hall : ∀ i j : Fin n, (∃ p, ls p = Pi.single i 1 + Pi.single j 1) ∧ ∃ q, ls q = -(Pi.single i 1 + Pi.single j 1)) :
    ∃ s b s' b', rho a d = .ok (s, b) ∧ rho a' d = .ok (s', b') ∧ (s.data = s'.data → e.c = f.c ∧ e.Q = f.Q) := by
  obtain ⟨s, b, h1, g1, -⟩ := C40_one_ell a e ha he d rest hrest ls hd
  obtain ⟨s', b', h2, g2, -⟩ := C40_one_ell a' f ha' hf d rest hrest ls hd
  refine ⟨s, b, s', b', h1, h2, fun hs => ?_⟩
  have val : ∀ p, ls p ⬝ᵥ e.c + Real.sqrt (ls p ⬝ᵥ e.Q *ᵥ ls p) = ls p ⬝ᵥ f.c + Real.sqrt (ls p ⬝ᵥ f.Q *ᵥ ls p) := by
    intro p
    have h3 := (rho_vals he g1 p).1
    have h4 := (rho_vals hf g2 p).1
    rw [hs, h4] at h3
    exact (Option.some_inj.mp h3).symm
  have key : ∀ i j : Fin n, (Pi.single i 1 + Pi.single j 1 : Fin n → ℝ) ⬝ᵥ e.c = (Pi.single i 1 + Pi.single j 1 : Fin n → ℝ) ⬝ᵥ f.c ∧
      (Pi.single i 1 + Pi.single j 1 : Fin n → ℝ) ⬝ᵥ e.Q *ᵥ (Pi.single i 1 + Pi.single j 1) =
        (Pi.single i 1 + Pi.single j 1 : Fin n → ℝ) ⬝ᵥ f.Q *ᵥ (Pi.single i 1 + Pi.single j 1) := by
    intro i j
    obtain ⟨⟨p, hp⟩, q, hq⟩ := hall i j
    have h3 := val p
    have h4 := val q
    rw [hp] at h3
    rw [hq] at h4
    generalize (Pi.single i 1 + Pi.single j 1 : Fin n → ℝ) = l at h3 h4
    rw [mulVec_neg, mulVec_neg, neg_dotProduct_neg, neg_dotProduct_neg, neg_dotProduct, neg_dotProduct] at h4
    refine ⟨by linarith, ?_⟩
    have h5 : Real.sqrt (l ⬝ᵥ e.Q *ᵥ l) = Real.sqrt (l ⬝ᵥ f.Q *ᵥ l) := by linarith
    exact (Real.sqrt_inj (he.2.2 l) (hf.2.2 l)).mp h5
  have ent : ∀ (Q : Matrix (Fin n) (Fin n) ℝ) (i j : Fin n),
      (Pi.single i 1 + Pi.single j 1 : Fin n → ℝ) ⬝ᵥ Q *ᵥ (Pi.single i 1 + Pi.single j 1) = Q i i + Q i j + Q j i + Q j j := by
    intro Q i j
    simp only [mulVec_add, add_dotProduct, dotProduct_add, mulVec_single_one, single_dotProduct, one_mul, col_apply]
    ring
  have diag : ∀ i, e.Q i i = f.Q i i := by
    intro i
    have := (key i i).2
    rw [ent, ent] at this
    linarith
  constructor
  · funext i
    have := (key i i).1
    simp only [add_dotProduct, single_dotProduct, one_mul] at this
    linarith
  · ext i j
    have := (key i j).2
    rw [ent, ent, diag i, diag j] at this
    have h6 : e.Q j i = e.Q i j := congrFun (congrFun he.2.1 i) j
    have h7 : f.Q j i = f.Q i j := congrFun (congrFun hf.2.1 i) j
    linarith

/-- Six directions in the plane. -/
private def six : Arr ℝ := ⟨[2, 6], [2, -2, 0, 0, 1, -1, 0, 0, 2, -2, 1, -1], rfl⟩

private def sixDirs : Fin 6 → Fin 2 → ℝ := ![![2, 0], ![-2, 0], ![0, 2], ![0, -2], ![1, 1], ![-1, -1]]

private theorem six_dirs : IsDirs six [6] sixDirs :=
  ⟨rfl, rfl, by intro j i; fin_cases j <;> fin_cases i <;> rfl⟩

/-- The width of the disc in the direction `(2, 0)`. -/
example : ∃ s b, rho (Arr.vec [discN.obj]) six = .ok (s, b) ∧ ∃ p q, s.data[0]? = some p ∧ s.data[1]? = some q ∧ 0 ≤ p + q := by
  obtain ⟨s, b, h, g⟩ := C130_width (Arr.vec [discN.obj]) discN rfl discN_nonDeg.psd six [6] (by simp) sixDirs six_dirs
  obtain ⟨p, q, h1, h2, h3, -⟩ := g 0 1 (by ext i; fin_cases i <;> simp [sixDirs])
  exact ⟨s, b, h, p, q, h1, h2, h3⟩

/-- The six directions determine the disc. -/
example (e : EllN 2) (he : e.PSD) : ∃ s b s' b', rho (Arr.vec [e.obj]) six = .ok (s, b) ∧ rho (Arr.vec [discN.obj]) six = .ok (s', b') ∧
    (s.data = s'.data → e.c = discN.c ∧ e.Q = discN.Q) := by
  refine C130_determine _ _ e discN rfl rfl he discN_nonDeg.psd six [6] (by simp) sixDirs six_dirs fun i j => ?_
  fin_cases i <;> fin_cases j
  · exact ⟨⟨0, by ext t; fin_cases t <;> simp [sixDirs] <;> norm_num⟩, 1, by ext t; fin_cases t <;> simp [sixDirs] <;> norm_num⟩
  · exact ⟨⟨4, by ext t; fin_cases t <;> simp [sixDirs]⟩, 5, by ext t; fin_cases t <;> simp [sixDirs]⟩
  · exact ⟨⟨4, by ext t; fin_cases t <;> simp [sixDirs]⟩, 5, by ext t; fin_cases t <;> simp [sixDirs]⟩
  · exact ⟨⟨2, by ext t; fin_cases t <;> simp [sixDirs] <;> norm_num⟩, 3, by ext t; fin_cases t <;> simp [sixDirs] <;> norm_num⟩

end Ellipy.Ell
