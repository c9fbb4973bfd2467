import Verif.Model.CalcDiff
import Verif.Props.Rho
import Verif.Props.TypeChecks
import Verif.Spec.SupGeomDiff

/-! Property theorem C86 (`_calc_diff_one_dir`). -/

namespace Ellipy.Ell
open Matrix Ellipy.LA Ellipy.Sup

/-- The point of an ellipsoid farthest in a direction is unique unless the ellipsoid is flat there. -/
theorem support_unique {n : ℕ} {c : Fin n → ℝ} {Q : Matrix (Fin n) (Fin n) ℝ} (hQ : IsPSD Q) {l x : Fin n → ℝ} (hl : 0 < l ⬝ᵥ Q *ᵥ l)
    (hx : x ∈ Ell c Q) (hd : l ⬝ᵥ x = l ⬝ᵥ c + Real.sqrt (l ⬝ᵥ Q *ᵥ l)) : x = c + (1 / Real.sqrt (l ⬝ᵥ Q *ᵥ l)) • Q *ᵥ l := by
  obtain ⟨S, hS, hSS, u, hu, rfl⟩ := hx
  have hs := Real.sqrt_pos.mpr hl
  have hss : Real.sqrt (l ⬝ᵥ Q *ᵥ l) * Real.sqrt (l ⬝ᵥ Q *ᵥ l) = l ⬝ᵥ Q *ᵥ l := Real.mul_self_sqrt hl.le
  have hw : (S *ᵥ l) ⬝ᵥ (S *ᵥ l) = l ⬝ᵥ Q *ᵥ l := by rw [← symm_dot hS.1, mulVec_mulVec, hSS]
  rw [dotProduct_add, symm_dot hS.1] at hd
  have hd' : (S *ᵥ l) ⬝ᵥ u = Real.sqrt (l ⬝ᵥ Q *ᵥ l) := by linarith
  generalize Real.sqrt (l ⬝ᵥ Q *ᵥ l) = q at *
  have hz : (q • u - S *ᵥ l) ⬝ᵥ (q • u - S *ᵥ l) ≤ 0 := by
    rw [sub_dotProduct, dotProduct_sub, dotProduct_sub, smul_dotProduct, dotProduct_smul, smul_dotProduct, dotProduct_smul, hw,
      dotProduct_comm u (S *ᵥ l), hd', ← hss]
    simp only [smul_eq_mul]
    nlinarith [mul_pos hs hs]
  have hz' : q • u - S *ᵥ l = 0 := by
    by_contra hne
    exact absurd hz (not_le.mpr (dot_self_pos hne))
  have hu' : u = (1 / q) • S *ᵥ l := by
    rw [← sub_eq_zero.mp hz', smul_smul, one_div, inv_mul_cancel₀ hs.ne', one_smul]
  rw [hu', mulVec_smul, mulVec_mulVec, hSS]

theorem support_eq {n : ℕ} {X : Set (Fin n → ℝ)} {l : Fin n → ℝ} {r s : ℝ} (hr : IsSupport X l r) (hs : IsSupport X l s) : r = s :=
  IsGreatest.unique hr hs

/-- If the difference of two ellipsoids has a point where the difference of the support values is attained, this is the difference of
any two support points. -/
theorem diff_points {n : ℕ} {c1 c2 : Fin n → ℝ} {Q1 Q2 : Matrix (Fin n) (Fin n) ℝ} (hQ1 : IsPSD Q1) {l x1 x2 : Fin n → ℝ}
    (hl : 0 < l ⬝ᵥ Q1 *ᵥ l) {r1 r2 : ℝ} (h1 : IsSupport (Ell c1 Q1) l r1) (hx1 : x1 ∈ Ell c1 Q1) (hd1 : l ⬝ᵥ x1 = r1)
    (hx2 : x2 ∈ Ell c2 Q2) (hd2 : l ⬝ᵥ x2 = r2) (hg : IsSupport (GeomDiff (Ell c1 Q1) (Ell c2 Q2)) l (r1 - r2)) :
    x1 - x2 ∈ GeomDiff (Ell c1 Q1) (Ell c2 Q2) := by
  obtain ⟨⟨d, hd, hld⟩, _⟩ := hg
  simp only at hld
  have hr := support_eq h1 (ell_support hQ1 l)
  have e1 := support_unique hQ1 hl hx1 (by rw [hd1, hr])
  have e2 := support_unique hQ1 hl (hd x2 hx2) (by rw [dotProduct_add, hld, hd2, ← hr]; ring)
  have : x1 - x2 = d := by rw [e1, ← e2]; abel
  rw [this]; exact hd

/-- The difference of two ellipsoids contains the difference of the centres unless it is empty. -/
theorem center_diff {n : ℕ} {c1 c2 : Fin n → ℝ} {Q1 Q2 : Matrix (Fin n) (Fin n) ℝ} (hQ1 : IsPSD Q1) (hQ2 : IsPSD Q2) {d : Fin n → ℝ}
    (hd : d ∈ GeomDiff (Ell c1 Q1) (Ell c2 Q2)) : c1 - c2 ∈ GeomDiff (Ell c1 Q1) (Ell c2 Q2) := by
  intro b hb
  rw [mem_ell_support hQ1]
  intro m
  have hb' : c2 + (c2 - b) ∈ Ell c2 Q2 := by
    rw [mem_ell_support hQ2] at hb ⊢
    intro m
    have := hb m
    have e : c2 + (c2 - b) - c2 = -(b - c2) := by abel
    rw [e, dotProduct_neg, neg_sq]
    exact this
  have h1 := (mem_ell_support hQ1 _).mp (hd b hb) m
  have h2 := (mem_ell_support hQ1 _).mp (hd _ hb') m
  have e1 : d + b - c1 = (d - (c1 - c2)) + (b - c2) := by abel
  have e2 : d + (c2 + (c2 - b)) - c1 = (d - (c1 - c2)) - (b - c2) := by abel
  have e3 : c1 - c2 + b - c1 = b - c2 := by abel
  rw [e1, dotProduct_add] at h1
  rw [e2, dotProduct_sub] at h2
  rw [e3]
  nlinarith [sq_nonneg (m ⬝ᵥ (d - (c1 - c2)))]

theorem dirsArr_is {n k : ℕ} (L : Fin k → Fin n → ℝ) : IsDirs (dirsArr L) [k] L :=
  ⟨rfl, by simp, fun j i => rowMajor_get L i j⟩

/-- **C86** (part): when all directions are good, row `j` of the result is a point `x` whose product with the direction is the difference of
the support values, up to `10⁻¹⁴` if `x` is the difference of the centres; it belongs to the geometric difference of the ellipsoids
if that has the same support value.  The point is the difference of farthest points of the two ellipsoids, replaced by the difference of the centres exactly
when all coordinates are nearer to it than `10⁻¹⁴`.  The flag tells whether the space has dimension three and all points coincide with the difference of the centres.
Missing: bad directions, for which the code always raises (`C86_violated`). -/
theorem C86_partial {n k : ℕ} (e1 e2 : EllN n) (h1 : e1.PSD) (h2 : e2.PSD) (L : Fin k → Fin n → ℝ) :
    ∃ (xs : Fin k → Fin n → ℝ) (flag : Bool),
      calcDiffOneDir e1.obj e2.obj L (List.replicate k true) = .ok (List.ofFn (fun j i => .fin (xs j i)), flag) ∧
      (∀ j, ∃ r1 r2, IsSupport e1.set (L j) r1 ∧ IsSupport e2.set (L j) r2 ∧
        |L j ⬝ᵥ xs j - (r1 - r2)| ≤ 1e-14 * ∑ i, |L j i| ∧ (xs j ≠ e1.c - e2.c → L j ⬝ᵥ xs j = r1 - r2) ∧
        (0 < L j ⬝ᵥ e1.Q *ᵥ L j → IsSupport (GeomDiff e1.set e2.set) (L j) (r1 - r2) → xs j ∈ GeomDiff e1.set e2.set) ∧
        ∃ y1 ∈ e1.set, ∃ y2 ∈ e2.set, L j ⬝ᵥ y1 = r1 ∧ L j ⬝ᵥ y2 = r2 ∧
          (((∀ i, |y1 i - y2 i - (e1.c i - e2.c i)| < 1e-14) ∧ xs j = e1.c - e2.c) ∨
            ((∃ i, 1e-14 ≤ |y1 i - y2 i - (e1.c i - e2.c i)|) ∧ xs j = y1 - y2))) ∧
      (flag = true ↔ n = 3 ∧ ∀ j, xs j = e1.c - e2.c) := by
  classical
  obtain ⟨s1, b1, hr1, hi1, -, -⟩ := C40_one_ell (Arr.scalar e1.obj) e1 rfl h1 (dirsArr L) [k] (by simp) L (dirsArr_is L)
  obtain ⟨s2, b2, hr2, hi2, -, -⟩ := C40_one_ell (Arr.scalar e2.obj) e2 rfl h2 (dirsArr L) [k] (by simp) L (dirsArr_is L)
  choose r1 x1 hs1 hsup1 hx1 hd1 hb1 using hi1.2.2
  choose r2 x2 hs2 hsup2 hx2 hd2 hb2 using hi2.2.2
  let near : Fin k → Prop := fun j => ∀ i, |x1 j i - x2 j i - (e1.c i - e2.c i)| < 1e-14
  let xs : Fin k → Fin n → ℝ := fun j => if near j then e1.c - e2.c else x1 j - x2 j
  have hstep : ∀ j : Fin k, calcDiff k b1 b2 (fun i => centerAs n e1.obj i - centerAs n e2.obj i) true j.val =
      .ok (fun i => .fin (xs j i), decide (near j)) := by
    intro j
    have hdiff : ∀ i : Fin n, subX (b1.data.getD (i.val * k + j.val) .nan) (b2.data.getD (i.val * k + j.val) .nan) =
        .fin (x1 j i - x2 j i) := by
      intro i
      rw [List.getD_eq_getElem?_getD, List.getD_eq_getElem?_getD, hb1 j i, hb2 j i]
      rfl
    unfold calcDiff
    simp only [if_true, hdiff, centerAs_self, nearX]
    by_cases hn : near j
    · rw [if_pos hn]
      simp only [xs, if_pos hn, hn, decide_true, Pi.sub_apply]
    · rw [if_neg hn]
      simp only [xs, if_neg hn, hn, decide_false, Pi.sub_apply]
  have hmap : pyMap (fun x : Bool × ℕ => calcDiff k b1 b2 (fun i => centerAs n e1.obj i - centerAs n e2.obj i) x.1 x.2)
      ((List.replicate k true).zip (List.range k)) = .ok (List.ofFn (fun j : Fin k => ((fun i => .fin (xs j i) : Fin n → XF ℝ), decide (near j)))) := by
    rw [pyMap_ok_iff, List.forall₂_iff_get]
    refine ⟨by simp, fun i h1 h2 => ?_⟩
    have hi : i < k := by simpa using h2
    simp only [List.get_eq_getElem, List.getElem_zip, List.getElem_replicate, List.getElem_range, List.getElem_ofFn]
    exact hstep ⟨i, hi⟩
  have hsnap : ∀ j, xs j = e1.c - e2.c ↔ near j := by
    intro j
    simp only [xs]
    by_cases hn : near j
    · rw [if_pos hn]; exact iff_of_true rfl hn
    · rw [if_neg hn]
      refine iff_of_false (fun h => hn ?_) hn
      intro i
      have := congrFun h i
      simp only [Pi.sub_apply] at this
      rw [this, sub_self, abs_zero]
      norm_num
  refine ⟨xs, decide (n = 3) && (List.ofFn (fun j : Fin k => ((fun i => .fin (xs j i) : Fin n → XF ℝ), decide (near j)))).all Prod.snd, ?_, ?_, ?_⟩
  · unfold calcDiffOneDir
    rw [hr1, hr2]
    simp only [hmap]
    rw [List.map_ofFn]
    rfl
  · intro j
    refine ⟨r1 j, r2 j, hsup1 j, hsup2 j, ?_, ?_, ?_, x1 j, hx1 j, x2 j, hx2 j, hd1 j, hd2 j, ?_⟩
    · by_cases hn : near j
      · have hx : xs j = e1.c - e2.c := (hsnap j).mpr hn
        rw [hx, ← hd1 j, ← hd2 j, ← dotProduct_sub, ← dotProduct_sub, Finset.mul_sum]
        refine (Finset.abs_sum_le_sum_abs _ _).trans (Finset.sum_le_sum fun i _ => ?_)
        rw [abs_mul, mul_comm]
        refine mul_le_mul_of_nonneg_right ?_ (abs_nonneg _)
        have := hn i
        simp only [Pi.sub_apply]
        rw [abs_sub_comm]
        exact this.le
      · have hx : xs j = x1 j - x2 j := if_neg hn
        rw [hx, dotProduct_sub, hd1, hd2, sub_self, abs_zero]
        exact mul_nonneg (by norm_num) (Finset.sum_nonneg fun i _ => abs_nonneg _)
    · intro hne
      have hx : xs j = x1 j - x2 j := if_neg (fun h => hne ((hsnap j).mpr h))
      rw [hx, dotProduct_sub, hd1, hd2]
    · intro hl hg
      by_cases hn : near j
      · rw [(hsnap j).mpr hn]
        obtain ⟨⟨d, hd, _⟩, _⟩ := hg
        exact center_diff h1.2 h2.2 hd
      · have hx : xs j = x1 j - x2 j := if_neg hn
        rw [hx]
        exact diff_points h1.2 hl (hsup1 j) (hx1 j) (hd1 j) (hx2 j) (hd2 j) hg
    · by_cases hn : near j
      · exact Or.inl ⟨hn, (hsnap j).mpr hn⟩
      · refine Or.inr ⟨?_, if_neg hn⟩
        by_contra hc
        exact hn fun i => not_le.mp fun h => hc ⟨i, h⟩
  · simp only [Bool.and_eq_true, decide_eq_true_eq, List.all_eq_true, List.mem_ofFn, forall_exists_index, forall_apply_eq_imp_iff, hsnap]

/-- **C86**: a criterion for good directions: with `p` the quotient of the half widths, the matrix `(1 - 1/p) Q₁ + (1 - p) Q₂` is nonnegative. -/
theorem C86_good {n : ℕ} (e1 e2 : EllN n) (h1 : e1.PSD) (h2 : e2.PSD) (l : Fin n → ℝ) (p : ℝ) (hp : 1 < p)
    (hl : 0 < l ⬝ᵥ e2.Q *ᵥ l) (hq : Real.sqrt (l ⬝ᵥ e1.Q *ᵥ l) = p * Real.sqrt (l ⬝ᵥ e2.Q *ᵥ l))
    (hM : IsPSD ((1 - 1 / p) • e1.Q + (1 - p) • e2.Q)) {r1 r2 : ℝ} (hr1 : IsSupport e1.set l r1) (hr2 : IsSupport e2.set l r2) :
    IsSupport (GeomDiff e1.set e2.set) l (r1 - r2) := by
  have hp0 : 0 < p := by linarith
  have k1 := support_eq hr1 (ell_support h1.2 l)
  have k2 := support_eq hr2 (ell_support h2.2 l)
  have hform : ∀ m : Fin n → ℝ, m ⬝ᵥ ((1 - 1 / p) • e1.Q + (1 - p) • e2.Q) *ᵥ m =
      (1 - 1 / p) * (m ⬝ᵥ e1.Q *ᵥ m) + (1 - p) * (m ⬝ᵥ e2.Q *ᵥ m) := by
    intro m
    rw [add_mulVec, smul_mulVec, smul_mulVec, dotProduct_add, dotProduct_smul, dotProduct_smul, smul_eq_mul, smul_eq_mul]
  have hs2 := Real.sqrt_pos.mpr hl
  have q2 : Real.sqrt (l ⬝ᵥ e2.Q *ᵥ l) * Real.sqrt (l ⬝ᵥ e2.Q *ᵥ l) = l ⬝ᵥ e2.Q *ᵥ l := Real.mul_self_sqrt hl.le
  have q1 : Real.sqrt (l ⬝ᵥ e1.Q *ᵥ l) * Real.sqrt (l ⬝ᵥ e1.Q *ᵥ l) = l ⬝ᵥ e1.Q *ᵥ l := Real.mul_self_sqrt (h1.2.2 l)
  constructor
  · obtain ⟨hy, hly⟩ := support_point (c := e1.c - e2.c) hM l
    refine ⟨_, ?_, hly.trans ?_⟩
    · intro b hb
      show _ ∈ Ell e1.c e1.Q
      rw [mem_ell_support h1.2]
      intro m
      have a1 := (mem_ell_support hM _).mp hy m
      have a2 := (mem_ell_support h2.2 _).mp hb m
      rw [hform m] at a1
      generalize (e1.c - e2.c) + (1 / Real.sqrt (l ⬝ᵥ ((1 - 1 / p) • e1.Q + (1 - p) • e2.Q) *ᵥ l)) •
        ((1 - 1 / p) • e1.Q + (1 - p) • e2.Q) *ᵥ l = y at a1 ⊢
      have e : y + b - e1.c = (y - (e1.c - e2.c)) + (b - e2.c) := by abel
      rw [e, dotProduct_add]
      generalize m ⬝ᵥ (y - (e1.c - e2.c)) = A at *
      generalize m ⬝ᵥ (b - e2.c) = B at *
      generalize m ⬝ᵥ e1.Q *ᵥ m = μ at *
      generalize m ⬝ᵥ e2.Q *ᵥ m = β at *
      have hA : p * A ^ 2 ≤ (p - 1) * μ + p * (1 - p) * β := by
        have := mul_le_mul_of_nonneg_left a1 hp0.le
        have e : p * ((1 - 1 / p) * μ + (1 - p) * β) = (p - 1) * μ + p * (1 - p) * β := by field_simp
        linarith
      have hB : (p - 1) * p * B ^ 2 ≤ (p - 1) * p * β := mul_le_mul_of_nonneg_left a2 (by nlinarith)
      have : (p - 1) * (A + B) ^ 2 ≤ (p - 1) * μ := by nlinarith [sq_nonneg (A - (p - 1) * B)]
      exact le_of_mul_le_mul_left this (by linarith)
    · have e : (1 - 1 / p) * (l ⬝ᵥ e1.Q *ᵥ l) + (1 - p) * (l ⬝ᵥ e2.Q *ᵥ l) = ((p - 1) * Real.sqrt (l ⬝ᵥ e2.Q *ᵥ l)) ^ 2 := by
        rw [hq] at q1
        generalize Real.sqrt (l ⬝ᵥ e2.Q *ᵥ l) = q at *
        rw [← q1, ← q2]
        field_simp
        ring
      rw [hform l, e, Real.sqrt_sq (mul_nonneg (by linarith) hs2.le), k1, k2, hq, dotProduct_sub]
      ring
  · rintro _ ⟨d, hd, rfl⟩
    obtain ⟨⟨x2, hx2, hd2⟩, _⟩ := hr2
    have := hr1.2 ⟨_, hd x2 hx2, rfl⟩
    simp only [dotProduct_add] at this hd2
    simp only
    linarith

/-- **C86** fails for bad directions: as soon as one of the directions is bad, the function raises. -/
theorem C86_violated {n k : ℕ} (e1 e2 : EllN n) (h1 : e1.PSD) (h2 : e2.PSD) (L : Fin k → Fin n → ℝ) (good : List Bool)
    (hb : ∃ j, j < k ∧ good[j]? = some false) : calcDiffOneDir e1.obj e2.obj L good = .error .indexError := by
  obtain ⟨s1, b1, hr1, -, -, -⟩ := C40_one_ell (Arr.scalar e1.obj) e1 rfl h1 (dirsArr L) [k] (by simp) L (dirsArr_is L)
  obtain ⟨s2, b2, hr2, -, -, -⟩ := C40_one_ell (Arr.scalar e2.obj) e2 rfl h2 (dirsArr L) [k] (by simp) L (dirsArr_is L)
  obtain ⟨j, hj, hg⟩ := hb
  unfold calcDiffOneDir
  rw [hr1, hr2]
  simp only
  have hmem : (false, j) ∈ good.zip (List.range k) := by
    obtain ⟨hjl, hgj⟩ := List.getElem?_eq_some_iff.mp hg
    refine List.mem_iff_getElem.mpr ⟨j, by simp [hjl, hj], ?_⟩
    simp [hgj]
  have hr : Raises (pyMap (fun x : Bool × ℕ => calcDiff k b1 b2 (fun i => centerAs n e1.obj i - centerAs n e2.obj i) x.1 x.2)
      (good.zip (List.range k))) := (pyMap_raises _ _).mpr ⟨_, hmem, _, rfl⟩
  obtain ⟨e, he⟩ := hr
  have htag : ∀ (x : Bool × ℕ) e, calcDiff k b1 b2 (fun i => centerAs n e1.obj i - centerAs n e2.obj i) x.1 x.2 = .error e → e = .indexError := by
    rintro ⟨g, i⟩ e h
    unfold calcDiff at h
    cases g with
    | false => simp at h; exact h.symm
    | true =>
      simp only [if_true] at h
      split at h <;> cases h
  have : e = .indexError := pyMap_error_tag htag _ _ he
  rw [he, this]

/-- The discs of radius two and one in the plane and the direction of the first axis. -/
example : ∃ (e1 e2 : EllN 2) (_ : e1.PSD) (_ : e2.PSD) (x : Fin 2 → ℝ) (flag : Bool),
    e1.set ≠ e2.set ∧ calcDiffOneDir e1.obj e2.obj (fun _ : Fin 1 => ![1, 0]) [true] = .ok ([fun i => .fin (x i)], flag) ∧
    x ∈ GeomDiff e1.set e2.set ∧ ![1, 0] ⬝ᵥ x = 1 ∧ flag = false := by
  have hp : (⟨1, 1, 1, 1⟩ : PropVals).ok := ⟨one_pos, one_pos, ⟨1, by norm_num⟩, ⟨1, by norm_num⟩⟩
  have hv4 : IsPSD (diagonal ![4, 4] : Matrix (Fin 2) (Fin 2) ℝ) := ⟨diagonal_transpose _, fun x => by
    simp [dotProduct, mulVec_diagonal, Fin.sum_univ_two]; nlinarith [sq_nonneg (x 0), sq_nonneg (x 1)]⟩
  have hv1 : IsPSD (diagonal ![1, 1] : Matrix (Fin 2) (Fin 2) ℝ) := ⟨diagonal_transpose _, fun x => by
    simp [dotProduct, mulVec_diagonal, Fin.sum_univ_two]; nlinarith [sq_nonneg (x 0), sq_nonneg (x 1)]⟩
  let e1 : EllN 2 := ⟨0, diagonal ![4, 4], ⟨1, 1, 1, 1⟩⟩
  let e2 : EllN 2 := ⟨0, diagonal ![1, 1], ⟨1, 1, 1, 1⟩⟩
  have f1 : (![1, 0] : Fin 2 → ℝ) ⬝ᵥ e1.Q *ᵥ ![1, 0] = 4 := by simp [e1, dotProduct, mulVec_diagonal, Fin.sum_univ_two]
  have f2 : (![1, 0] : Fin 2 → ℝ) ⬝ᵥ e2.Q *ᵥ ![1, 0] = 1 := by simp [e2, dotProduct, mulVec_diagonal, Fin.sum_univ_two]
  have s4 : Real.sqrt 4 = 2 := by rw [show (4 : ℝ) = 2 ^ 2 by norm_num]; exact Real.sqrt_sq (by norm_num)
  obtain ⟨xs, flag, h, hx, hf⟩ := C86_partial e1 e2 ⟨hp, hv4⟩ ⟨hp, hv1⟩ (fun _ : Fin 1 => ![1, 0])
  obtain ⟨r1, r2, hr1, hr2, h1, h2, h3, -⟩ := hx 0
  have k1 : r1 = 2 := by
    have := support_eq hr1 (ell_support hv4 _)
    rw [this, f1, s4]; simp [e1]
  have k2 : r2 = 1 := by
    have := support_eq hr2 (ell_support hv1 _)
    rw [this, f2, Real.sqrt_one]; simp [e2]
  have hne : xs 0 ≠ e1.c - e2.c := by
    intro h0
    rw [h0, k1, k2] at h1
    simp [e1, e2, Fin.sum_univ_two] at h1
    norm_num at h1
  refine ⟨e1, e2, ⟨hp, hv4⟩, ⟨hp, hv1⟩, xs 0, flag, ?_, ?_, ?_, ?_, ?_⟩
  · intro he
    rw [he] at hr1
    have := support_eq hr1 hr2
    rw [k1, k2] at this
    norm_num at this
  · rw [show [true] = List.replicate 1 true from rfl, h]
    simp [List.ofFn_succ]
  · refine h3 (by rw [f1]; norm_num) (C86_good e1 e2 ⟨hp, hv4⟩ ⟨hp, hv1⟩ _ 2 (by norm_num) (by rw [f2]; norm_num) (by rw [f1, f2, s4, Real.sqrt_one]; norm_num) ?_ hr1 hr2)
    refine ⟨?_, fun x => ?_⟩
    · rw [transpose_add, transpose_smul, transpose_smul]
      simp [e1, e2]
    · simp [e1, e2, add_mulVec, smul_mulVec, dotProduct, mulVec_diagonal, Fin.sum_univ_two]
      nlinarith [sq_nonneg (x 0), sq_nonneg (x 1)]
  · rw [h2 hne, k1, k2]; norm_num
  · cases flag with
    | false => rfl
    | true => exact absurd (hf.mp rfl).1 (by norm_num)

end Ellipy.Ell
