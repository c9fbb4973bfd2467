import Verif.Model.SupGeomDiff
import Verif.Proofs.Hull
import Verif.Spec.Ell
import Verif.Spec.SupGeomDiff
import Mathlib.Algebra.Group.Pointwise.Set.Scalar

/-! What both versions of the geometric difference share: the tests of the arguments, and the support function of the difference in terms
of the facets of the polar polytope. -/

namespace Ellipy.Sup
open scoped Pointwise
open Matrix Ellipy.LA Ellipy.Ell

/-- All numbers of the array lie along one axis. -/
def VecShape (sh : List ℕ) (n : ℕ) : Prop := n ∈ sh ∧ sh.prod = n ∧ ∀ k ∈ sh, k ≤ n

theorem foldr_prod (sh : List ℕ) : sh.foldr (· * ·) 1 = sh.prod := rfl

theorem vecArg_ok (tag : String) (r : Arr ℝ) : vecArg tag r = .ok () ↔ VecShape r.shape r.data.length := by
  unfold vecArg VecShape
  cases h : r.shape.max? with
  | none =>
    have : r.shape = [] := List.max?_eq_none_iff.mp h
    rw [this]
    refine iff_of_false (by intro h; cases h) (by simp)
  | some k =>
    have hk := (List.max?_eq_some_iff).mp h
    simp only
    by_cases hl : r.data.length = k
    · rw [if_neg (not_not.mpr hl)]
      refine iff_of_true rfl ⟨hl ▸ hk.1, by rw [← foldr_prod]; exact r.len.symm, fun j hj => hl ▸ hk.2 j hj⟩
    · rw [if_pos hl]
      refine iff_of_false (by intro h; cases h) ?_
      rintro ⟨h1, -, h3⟩
      exact hl (le_antisymm (hk.2 _ h1) (h3 k hk.1))

theorem prod_one {l : List ℕ} (h : l.prod = 1) : ∀ k ∈ l, k = 1 := by
  induction l with
  | nil => intro k hk; cases hk
  | cons a l ih =>
    rw [List.prod_cons] at h
    obtain ⟨h1, h2⟩ := mul_eq_one.mp h
    intro k hk
    rcases List.mem_cons.mp hk with rfl | hk
    · exact h1
    · exact ih h2 k hk

theorem squeeze_vec {sh : List ℕ} {n : ℕ} (h : VecShape sh n) :
    pyIndex (Core.squeeze sh) 0 = if n = 1 then .error .indexError else .ok n := by
  obtain ⟨h1, h2, h3⟩ := h
  by_cases hn : n = 1
  · subst hn
    rw [if_pos rfl]
    have : Core.squeeze sh = [] := by
      unfold Core.squeeze
      rw [List.filter_eq_nil_iff]
      intro k hk
      simp [prod_one h2 k hk]
    rw [this]
    rfl
  · rw [if_neg hn]
    obtain ⟨a, b, rfl⟩ := List.append_of_mem h1
    by_cases h0 : n = 0
    · subst h0
      cases a with
      | nil => simp [Core.squeeze, pyIndex]
      | cons x a =>
        have : x = 0 := Nat.le_zero.mp (h3 x (by simp))
        subst this
        simp [Core.squeeze, pyIndex]
    · rw [List.prod_append, List.prod_cons] at h2
      have h4 : (a ++ b).prod = 1 := by
        rw [List.prod_append]
        have : n * (a.prod * b.prod) = n * 1 := by rw [mul_one]; nth_rw 2 [← h2]; ring
        exact Nat.eq_of_mul_eq_mul_left (Nat.pos_of_ne_zero h0) this
      have h5 : ∀ c : List ℕ, (∀ k ∈ c, k = 1) → c.filter (· ≠ 1) = [] := by
        intro c hc
        rw [List.filter_eq_nil_iff]
        intro k hk
        simp [hc k hk]
      have ha := h5 a (fun k hk => prod_one h4 k (by simp [hk]))
      unfold Core.squeeze
      rw [List.filter_append, ha, List.filter_cons_of_pos (by simpa using hn)]
      rfl

/-- Which arguments pass the tests common to both functions. -/
theorem diffArgs_ok_iff (d : ℕ) (sep : String) (r1 r2 l : Arr ℝ) (cols : List (Fin d → ℝ)) (rho : List ℝ) :
    diffArgs d sep r1 r2 l = .ok (cols, rho) ↔ ∃ n ≠ 1, l.shape = [d, n] ∧ r1.data.length = n ∧ r2.data.length = n ∧ VecShape r1.shape n ∧
      VecShape r2.shape n ∧ (∀ x ∈ List.zipWith (· - ·) r1.data r2.data, 0 < x) ∧ cols = columns d n l.data ∧
      rho = List.zipWith (· - ·) r1.data r2.data := by
  unfold diffArgs
  constructor
  · intro h
    split at h
    · rename_i k n hsh
      cases h1 : vecArg "wrongInput:rho1_vec" r1 with
      | error e => rw [h1] at h; cases h
      | ok u1 =>
        cases h2 : vecArg "wrongInput:rho2_vec" r2 with
        | error e => rw [h1, h2] at h; cases h
        | ok u2 =>
          have v1 := (vecArg_ok _ r1).mp h1
          have v2 := (vecArg_ok _ r2).mp h2
          rw [h1, h2, squeeze_vec v1, squeeze_vec v2] at h
          simp only at h
          by_cases e1 : r1.data.length = 1
          · rw [if_pos e1] at h; cases h
          rw [if_neg e1] at h
          by_cases e2 : r2.data.length = 1
          · rw [if_pos e2] at h; cases h
          rw [if_neg e2] at h
          simp only at h
          by_cases e3 : r1.data.length = r2.data.length
          swap
          · rw [if_pos e3] at h; cases h
          rw [if_neg (not_not.mpr e3)] at h
          by_cases e4 : r1.data.length = n
          swap
          · rw [if_pos e4] at h; cases h
          rw [if_neg (not_not.mpr e4)] at h
          by_cases e5 : k = d
          swap
          · rw [if_pos e5] at h; cases h
          rw [if_neg (not_not.mpr e5)] at h
          by_cases e6 : ∃ x ∈ List.zipWith (· - ·) r1.data r2.data, x ≤ 0
          · rw [if_pos e6] at h; cases h
          rw [if_neg e6] at h
          push Not at e6
          injection h with h
          injection h with h h'
          subst e5
          refine ⟨n, e4 ▸ e1, hsh, e4, e3 ▸ e4, e4 ▸ v1, ?_, e6, h.symm, h'.symm⟩
          rw [← e4, e3]; exact v2
    · cases h
  · rintro ⟨n, hn, hsh, e1, e2, v1, v2, hp, rfl, rfl⟩
    have h1 := (vecArg_ok "wrongInput:rho1_vec" r1).mpr (e1.symm ▸ v1)
    have h2 := (vecArg_ok "wrongInput:rho2_vec" r2).mpr (e2.symm ▸ v2)
    have hp' : ¬ ∃ x ∈ List.zipWith (· - ·) r1.data r2.data, x ≤ 0 := by push Not; exact hp
    rw [hsh, h1, h2, squeeze_vec v1, squeeze_vec v2, if_neg hn]
    simp only
    rw [if_neg (not_not.mpr rfl), if_neg (not_not.mpr rfl), if_neg (not_not.mpr rfl), if_neg hp']

/-- The columns of the array built from columns. -/
theorem columns_colsArr {d : ℕ} (l : List (Fin d → ℝ)) : columns d l.length (colsArr l).data = l := by
  unfold columns
  refine List.ext_getElem (by simp) (fun j h1 h2 => ?_)
  rw [List.getElem_map, List.getElem_range]
  funext i
  have hlt : i.val * l.length + j < d * l.length := by
    have : (i.val + 1) * l.length ≤ d * l.length := Nat.mul_le_mul_right _ i.isLt
    rw [Nat.add_mul, one_mul] at this
    omega
  have hl : 0 < l.length := by omega
  have hlen : (colsArr l).data.length = d * l.length := by simp [colsArr]
  rw [List.getD_eq_getElem?_getD, List.getElem?_eq_getElem (by rw [hlen]; exact hlt)]
  simp only [colsArr, List.getElem_ofFn, Option.getD_some]
  have e1 : (i.val * l.length + j) % l.length = j := by
    rw [Nat.add_comm, Nat.add_mul_mod_self_right, Nat.mod_eq_of_lt h2]
  have e2 : (i.val * l.length + j) / l.length = i.val := by
    rw [Nat.add_comm, Nat.add_mul_div_right _ _ hl, Nat.div_eq_of_lt h2, zero_add]
  simp only [e1, e2]
  rw [List.getD_eq_getElem?_getD, List.getElem?_eq_getElem h2]
  rfl

theorem diffArgs_vec {d : ℕ} (sep : String) (l : List (Fin d → ℝ)) (r1 r2 : List ℝ) (h1 : r1.length = l.length) (h2 : r2.length = l.length)
    (hn : l.length ≠ 1) (hp : ∀ x ∈ List.zipWith (· - ·) r1 r2, 0 < x) :
    diffArgs d sep (Arr.vec r1) (Arr.vec r2) (colsArr l) = .ok (l, List.zipWith (· - ·) r1 r2) := by
  rw [diffArgs_ok_iff]
  refine ⟨l.length, hn, rfl, h1, h2, ?_, ?_, hp, (columns_colsArr l).symm, rfl⟩
  · simp [VecShape, Arr.vec, h1]
  · simp [VecShape, Arr.vec, h2]

/-! ### The support function of the difference -/

theorem mem_geomDiff {d : ℕ} {l : List (Fin d → ℝ)} {r1 r2 : List ℝ} {B : Set (Fin d → ℝ)} (h1 : r1.length = l.length)
    (hB : List.Forall₂ (fun c ρ => IsLUB ((fun b => c ⬝ᵥ b) '' B) ρ) l r2) (x : Fin d → ℝ) :
    x ∈ GeomDiff (Poly l r1) B ↔ List.Forall₂ (fun c ρ => c ⬝ᵥ x ≤ ρ) l (List.zipWith (· - ·) r1 r2) := by
  obtain ⟨h2, hB⟩ := List.forall₂_iff_get.mp hB
  have hlen : (List.zipWith (· - ·) r1 r2).length = l.length := by rw [List.length_zipWith, h1, ← h2, Nat.min_self]
  constructor
  · intro hx
    refine List.forall₂_iff_get.mpr ⟨hlen.symm, fun i hi hi' => ?_⟩
    have hlub := hB i hi (h2 ▸ hi)
    rw [List.get_eq_getElem, List.get_eq_getElem, List.getElem_zipWith]
    have : r2[i] ≤ r1[i] - l[i] ⬝ᵥ x := by
      refine hlub.2 ?_
      rintro _ ⟨b, hb, rfl⟩
      have h3 := (List.forall₂_iff_get.mp (hx b hb)).2 i hi (h1.symm ▸ hi)
      rw [List.get_eq_getElem, List.get_eq_getElem, dotProduct_add] at h3
      show l[i] ⬝ᵥ b ≤ _
      linarith
    show l[i] ⬝ᵥ x ≤ r1[i] - r2[i]
    linarith
  · intro hx b hb
    refine List.forall₂_iff_get.mpr ⟨h1.symm, fun i hi hi' => ?_⟩
    have h3 := (List.forall₂_iff_get.mp hx).2 i hi (hlen.symm ▸ hi)
    rw [List.get_eq_getElem, List.get_eq_getElem, List.getElem_zipWith] at h3
    have h4 := (hB i hi (h2 ▸ hi)).1 ⟨b, hb, rfl⟩
    rw [List.get_eq_getElem, List.get_eq_getElem, dotProduct_add]
    simp only [List.get_eq_getElem] at h4
    linarith

theorem scaled_length {d : ℕ} {l : List (Fin d → ℝ)} {rho : List ℝ} (h : rho.length = l.length) : (scaled l rho).length = l.length := by
  unfold scaled; rw [List.length_zipWith, h, Nat.min_self]

theorem scaled_get {d : ℕ} {l : List (Fin d → ℝ)} {rho : List ℝ} (h : rho.length = l.length) {i : ℕ} (hi : i < l.length) :
    (scaled l rho)[i]'((scaled_length h).symm ▸ hi) = (rho[i])⁻¹ • l[i] := by
  unfold scaled
  rw [List.getElem_zipWith]
  funext j
  rw [Pi.smul_apply, smul_eq_mul, div_eq_inv_mul]

/-- The difference is the polar set of the scaled directions. -/
theorem mem_polar {d : ℕ} {l : List (Fin d → ℝ)} {rho : List ℝ} (h : rho.length = l.length) (hp : ∀ x ∈ rho, 0 < x) (x : Fin d → ℝ) :
    List.Forall₂ (fun c ρ => c ⬝ᵥ x ≤ ρ) l rho ↔ ∀ p ∈ scaled l rho, p ⬝ᵥ x ≤ 1 := by
  constructor
  · intro hx p hpm
    obtain ⟨i, hi, rfl⟩ := List.getElem_of_mem hpm
    have hi' : i < l.length := by rwa [scaled_length h] at hi
    have := (List.forall₂_iff_get.mp hx).2 i hi' (h.symm ▸ hi')
    simp only [List.get_eq_getElem] at this
    rw [scaled_get h hi', smul_dotProduct, smul_eq_mul, inv_mul_le_iff₀ (hp _ (List.getElem_mem _)), mul_one]
    exact this
  · intro hx
    refine List.forall₂_iff_get.mpr ⟨h.symm, fun i hi hi' => ?_⟩
    have := hx _ (List.getElem_mem ((scaled_length h).symm ▸ hi : i < (scaled l rho).length))
    rw [scaled_get h hi, smul_dotProduct, smul_eq_mul, inv_mul_le_iff₀ (hp _ (List.getElem_mem _)), mul_one] at this
    exact this

/-- A facet of the polar polytope whose cone contains a scaled direction determines the support value in this direction. -/
theorem facet_support {d : ℕ} {l : List (Fin d → ℝ)} {rho : List ℝ} (h : rho.length = l.length) (hp : ∀ x ∈ rho, 0 < x)
    {D : Set (Fin d → ℝ)} (hD : ∀ x, x ∈ D ↔ List.Forall₂ (fun c ρ => c ⬝ᵥ x ≤ ρ) l rho) {v : Fin d → ℝ}
    (hv : ∀ p ∈ scaled l rho, v ⬝ᵥ p ≤ 1) {m : ℕ} (hm : m < l.length) {ι : Type} [Fintype ι] {w : ι → ℝ} {z : ι → Fin d → ℝ}
    (hw : ∀ i, 0 ≤ w i) (hz : ∀ i, z i ∈ scaled l rho) (hvz : ∀ i, v ⬝ᵥ z i = 1)
    (hs : (scaled l rho)[m]'((scaled_length h).symm ▸ hm) = ∑ i, w i • z i) :
    IsSupport D l[m] (rho[m] * (v ⬝ᵥ (scaled l rho)[m]'((scaled_length h).symm ▸ hm))) := by
  have hr : 0 < rho[m] := hp _ (List.getElem_mem _)
  have hl : ∀ x, l[m] ⬝ᵥ x = rho[m] * ((scaled l rho)[m]'((scaled_length h).symm ▸ hm) ⬝ᵥ x) := by
    intro x
    rw [scaled_get h hm, smul_dotProduct, smul_eq_mul, ← mul_assoc, mul_inv_cancel₀ hr.ne', one_mul]
  constructor
  · refine ⟨v, (hD v).mpr ((mem_polar h hp v).mpr (fun p hpm => by rw [dotProduct_comm]; exact hv p hpm)), ?_⟩
    show l[m] ⬝ᵥ v = _
    rw [hl, dotProduct_comm v]
  · rintro _ ⟨x, hx, rfl⟩
    have hx := (mem_polar h hp x).mp ((hD x).mp hx)
    show l[m] ⬝ᵥ x ≤ _
    rw [hl]
    refine mul_le_mul_of_nonneg_left ?_ hr.le
    rw [hs, dotProduct_comm, dot_sum, dot_sum]
    refine Finset.sum_le_sum (fun i _ => mul_le_mul_of_nonneg_left ?_ (hw i))
    rw [hvz i, dotProduct_comm]
    exact hx _ (hz i)

/-- If the origin is inside the hull of the directions, it is inside the hull of the scaled ones. -/
theorem interior_scaled {d : ℕ} {l : List (Fin d → ℝ)} {rho : List ℝ} (h : rho.length = l.length) (hp : ∀ x ∈ rho, 0 < x)
    (h0 : (0 : Fin d → ℝ) ∈ interior (convexHull ℝ {x | x ∈ l})) :
    (0 : Fin d → ℝ) ∈ interior (convexHull ℝ {x | x ∈ scaled l rho}) := by
  have hrange : {x | x ∈ l} = Set.range l.get := by
    ext x
    exact List.mem_iff_get
  have hpos : ∀ i : Fin l.length, 0 < rho[i.val]'(h.symm ▸ i.isLt) := fun i => hp _ (List.getElem_mem _)
  have hsm : ∀ i : Fin l.length, (rho[i.val]'(h.symm ▸ i.isLt))⁻¹ • l.get i ∈ {x | x ∈ scaled l rho} := by
    intro i
    have := List.getElem_mem ((scaled_length h).symm ▸ i.isLt : i.val < (scaled l rho).length)
    rw [scaled_get h i.isLt] at this
    exact this
  have hz : (0 : Fin d → ℝ) ∈ convexHull ℝ {x | x ∈ scaled l rho} := by
    have h1 := interior_subset h0
    rw [hrange, mem_hull_range] at h1
    obtain ⟨w, hw, hw1, hsum⟩ := h1
    have hex : ∃ i, 0 < w i := by
      by_contra hno
      push Not at hno
      have : ∑ i, w i ≤ 0 := Finset.sum_nonpos (fun i _ => hno i)
      linarith
    obtain ⟨i0, hi0⟩ := hex
    have hW : 0 < ∑ i : Fin l.length, w i * rho[i.val]'(h.symm ▸ i.isLt) :=
      Finset.sum_pos' (fun i _ => mul_nonneg (hw i) (hpos i).le) ⟨i0, Finset.mem_univ _, mul_pos hi0 (hpos i0)⟩
    set W := ∑ i : Fin l.length, w i * rho[i.val]'(h.symm ▸ i.isLt) with hWd
    refine mem_convexHull_of_exists_fintype (fun i : Fin l.length => W⁻¹ * (w i * rho[i.val]'(h.symm ▸ i.isLt)))
      (fun i => (rho[i.val]'(h.symm ▸ i.isLt))⁻¹ • l.get i) (fun i => mul_nonneg (inv_nonneg.mpr hW.le) (mul_nonneg (hw i) (hpos i).le))
      ?_ hsm ?_
    · rw [← Finset.mul_sum, ← hWd, inv_mul_cancel₀ hW.ne']
    · have : ∀ i : Fin l.length, (W⁻¹ * (w i * rho[i.val]'(h.symm ▸ i.isLt))) • (rho[i.val]'(h.symm ▸ i.isLt))⁻¹ • l.get i =
          W⁻¹ • (w i • l.get i) := by
        intro i
        rw [smul_smul, smul_smul]
        congr 1
        have := (hpos i).ne'
        field_simp
      rw [Finset.sum_congr rfl (fun i _ => this i), ← Finset.smul_sum, hsum, smul_zero]
  obtain ⟨M, hM0, hM⟩ : ∃ M : ℝ, 0 < M ∧ ∀ i : Fin l.length, rho[i.val]'(h.symm ▸ i.isLt) ≤ M := by
    refine ⟨1 + ∑ i : Fin l.length, rho[i.val]'(h.symm ▸ i.isLt), ?_, fun i => ?_⟩
    · have := Finset.sum_nonneg (s := Finset.univ) (fun (i : Fin l.length) _ => (hpos i).le)
      linarith
    · have := Finset.single_le_sum (s := Finset.univ) (f := fun i : Fin l.length => rho[i.val]'(h.symm ▸ i.isLt)) (fun i _ => (hpos i).le)
        (Finset.mem_univ i)
      linarith
  have hsub : convexHull ℝ {x | x ∈ l} ⊆ M • convexHull ℝ {x | x ∈ scaled l rho} := by
    refine convexHull_min ?_ ((convex_convexHull ℝ _).smul M)
    intro x hx
    rw [hrange] at hx
    obtain ⟨i, rfl⟩ := hx
    refine ⟨(rho[i.val]'(h.symm ▸ i.isLt) / M) • ((rho[i.val]'(h.symm ▸ i.isLt))⁻¹ • l.get i), ?_, ?_⟩
    · have := (convex_convexHull ℝ {x | x ∈ scaled l rho}) (subset_convexHull ℝ _ (hsm i)) hz
        (a := rho[i.val]'(h.symm ▸ i.isLt) / M) (b := 1 - rho[i.val]'(h.symm ▸ i.isLt) / M) (div_nonneg (hpos i).le hM0.le)
        (by rw [sub_nonneg, div_le_one hM0]; exact hM i) (by ring)
      rwa [smul_zero, add_zero] at this
    · show M • _ = _
      rw [smul_smul, smul_smul]
      have : M * (rho[i.val]'(h.symm ▸ i.isLt) / M) * (rho[i.val]'(h.symm ▸ i.isLt))⁻¹ = 1 := by
        have := (hpos i).ne'
        field_simp
      rw [this, one_smul]
  have h1 := interior_mono hsub h0
  rw [interior_smul₀ hM0.ne'] at h1
  obtain ⟨y, hy, hy0⟩ := h1
  have : y = 0 := (smul_eq_zero.mp hy0).resolve_left hM0.ne'
  rwa [this] at hy

theorem polarPts_eq {d : ℕ} (l : List (Fin d → ℝ)) (r1 r2 : List ℝ) : polarPts l r1 r2 = scaled l (List.zipWith (· - ·) r1 r2) := by
  unfold polarPts scaled
  congr 1
  funext c ρ i
  rw [Pi.smul_apply, smul_eq_mul, div_eq_inv_mul]

theorem getD_get {α : Type} {l : List α} {i : ℕ} (h : i < l.length) (z : α) : l.getD i z = l[i] := by
  rw [List.getD_eq_getElem?_getD, List.getElem?_eq_getElem h]; rfl

end Ellipy.Sup
