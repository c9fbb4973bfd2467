import Verif.Proofs.Support
import Verif.Props.SphereApart
import Verif.Props.SphereDense
import Verif.Props.SphereFan
import Verif.Props.SupBoundary

/-! Property theorems C136: the polyhedron whose corners `sup_2_boundary_3` returns. -/

namespace Ellipy.Sup
open Matrix Ellipy.LA Ellipy.Tri

/-- The row of `face_mat` for a triangle. -/
def faceZ (f : ℕ × ℕ × ℕ) : List ℤ := [(f.1 : ℤ), (f.2.1 : ℤ), (f.2.2 : ℤ)]

/-- The triangles have existing vertices, and the directions of each are independent. -/
def Independent (V : List (Fin 3 → ℝ)) (F : List (ℕ × ℕ × ℕ)) : Prop :=
  ∀ f ∈ F, RowLt V.length f ∧ triple (V.getD f.1 0) (V.getD f.2.1 0) (V.getD f.2.2 0) ≠ 0

/-- `x` is on the supporting planes of the vertices of the triangle. -/
private def OnFace (V : List (Fin 3 → ℝ)) (s : List ℝ) (f : ℕ × ℕ × ℕ) (x : Fin 3 → ℝ) : Prop :=
  V.getD f.1 0 ⬝ᵥ x = s.getD f.1 0 ∧ V.getD f.2.1 0 ⬝ᵥ x = s.getD f.2.1 0 ∧ V.getD f.2.2 0 ⬝ᵥ x = s.getD f.2.2 0

private theorem dot_three (a b : Fin 3 → ℝ) : a ⬝ᵥ b = a 0 * b 0 + a 1 * b 1 + a 2 * b 2 := by
  simp [dotProduct, Fin.sum_univ_three]

private theorem three_unique {a b c x y : Fin 3 → ℝ} (ht : triple a b c ≠ 0) (h1 : a ⬝ᵥ x = a ⬝ᵥ y) (h2 : b ⬝ᵥ x = b ⬝ᵥ y) (h3 : c ⬝ᵥ x = c ⬝ᵥ y) : x = y := by
  rw [dot_three, dot_three] at h1 h2 h3
  have key : ∀ t, triple a b c * (x t - y t) = 0 := by
    intro t
    unfold triple
    fin_cases t
    · simp only [Fin.zero_eta]
      linear_combination (b 1 * c 2 - b 2 * c 1) * h1 + (c 1 * a 2 - c 2 * a 1) * h2 + (a 1 * b 2 - a 2 * b 1) * h3
    · simp only [Fin.mk_one]
      linear_combination (b 2 * c 0 - b 0 * c 2) * h1 + (c 2 * a 0 - c 0 * a 2) * h2 + (a 2 * b 0 - a 0 * b 2) * h3
    · simp only [Fin.reduceFinMk]
      linear_combination (b 0 * c 1 - b 1 * c 0) * h1 + (c 0 * a 1 - c 1 * a 0) * h2 + (a 0 * b 1 - a 1 * b 0) * h3
  funext t
  exact sub_eq_zero.mp ((mul_eq_zero.mp (key t)).resolve_left ht)

private theorem three_solve {a b c : Fin 3 → ℝ} (ht : triple a b c ≠ 0) (p q r : ℝ) : ∃ y, a ⬝ᵥ y = p ∧ b ⬝ᵥ y = q ∧ c ⬝ᵥ y = r := by
  refine ⟨![(p * (b 1 * c 2 - b 2 * c 1) + q * (c 1 * a 2 - c 2 * a 1) + r * (a 1 * b 2 - a 2 * b 1)) / triple a b c,
    (p * (b 2 * c 0 - b 0 * c 2) + q * (c 2 * a 0 - c 0 * a 2) + r * (a 2 * b 0 - a 0 * b 2)) / triple a b c,
    (p * (b 0 * c 1 - b 1 * c 0) + q * (c 0 * a 1 - c 1 * a 0) + r * (a 0 * b 1 - a 1 * b 0)) / triple a b c], ?_, ?_, ?_⟩
  all_goals
    rw [dot_three]
    simp only [cons_val_zero, cons_val_one, cons_val]
    rw [← mul_div_assoc, ← mul_div_assoc, ← mul_div_assoc, ← add_div, ← add_div, div_eq_iff ht]
    unfold triple
    ring

private theorem index_ok {α : Type} (l : List α) (d : α) {k : ℕ} (h : k < l.length) : pyIndexZ l (k : ℤ) = .ok (l.getD k d) := by
  unfold pyIndexZ pyIndex
  rw [if_pos (by omega), Int.toNat_natCast, List.getElem?_eq_getElem h, List.getD_eq_getElem?_getD, List.getElem?_eq_getElem h]
  rfl

private theorem face_ok (L : Lstsq) {V : List (Fin 3 → ℝ)} {s : List ℝ} (hs : s.length = V.length) {f : ℕ × ℕ × ℕ} (hf : RowLt V.length f)
    (ht : triple (V.getD f.1 0) (V.getD f.2.1 0) (V.getD f.2.2 0) ≠ 0) : ∃ x, faceRow L V s (faceZ f) = .ok x ∧ OnFace V s f x := by
  obtain ⟨h1, h2, h3⟩ := hf
  have e1 : pyMap (pyIndexZ V) (faceZ f) = .ok [V.getD f.1 0, V.getD f.2.1 0, V.getD f.2.2 0] := by
    rw [pyMap_ok_iff]
    exact .cons (index_ok V 0 h1) (.cons (index_ok V 0 h2) (.cons (index_ok V 0 h3) .nil))
  have e2 : pyMap (pyIndexZ s) (faceZ f) = .ok [s.getD f.1 0, s.getD f.2.1 0, s.getD f.2.2 0] := by
    rw [pyMap_ok_iff]
    exact .cons (index_ok s 0 (by omega)) (.cons (index_ok s 0 (by omega)) (.cons (index_ok s 0 (by omega)) .nil))
  obtain ⟨y, y1, y2, y3⟩ := three_solve ht (s.getD f.1 0) (s.getD f.2.1 0) (s.getD f.2.2 0)
  obtain ⟨x, hx, hx'⟩ := lstsqRows_exact L (rows := [V.getD f.1 0, V.getD f.2.1 0, V.getD f.2.2 0]) (b := [s.getD f.1 0, s.getD f.2.1 0, s.getD f.2.2 0])
    (y := y) (.cons y1 (.cons y2 (.cons y3 .nil)))
  refine ⟨x, ?_, ?_⟩
  · unfold faceRow
    rw [e1]; simp only
    rw [e2]; exact hx
  · cases hx' with
    | cons p1 hx' =>
      cases hx' with
      | cons p2 hx' =>
        cases hx' with
        | cons p3 _ => exact ⟨p1, p2, p3⟩

/-- The call returns the meeting points, and they are determined. -/
private theorem rows3 (L : Lstsq) {V : List (Fin 3 → ℝ)} {F : List (ℕ × ℕ × ℕ)} {s : List ℝ} (hs : s.length = V.length) (hF : Independent V F) :
    ∃ xs, sup2Boundary3 L V s (F.map faceZ) = .ok xs ∧ List.Forall₂ (OnFace V s) F xs := by
  unfold sup2Boundary3
  induction F with
  | nil => exact ⟨[], rfl, .nil⟩
  | cons f F ih =>
    obtain ⟨xs, h1, h2⟩ := ih (fun g hg => hF g (by simp [hg]))
    obtain ⟨x, h3, h4⟩ := face_ok L hs (hF f (by simp)).1 (hF f (by simp)).2
    refine ⟨x :: xs, ?_, .cons h4 h2⟩
    rw [pyMap_ok_iff] at h1 ⊢
    exact .cons h3 h1

private theorem rows3_unique {V : List (Fin 3 → ℝ)} {F : List (ℕ × ℕ × ℕ)} {s : List ℝ} (hF : Independent V F) {xs ys : List (Fin 3 → ℝ)}
    (h : List.Forall₂ (OnFace V s) F xs) (h' : List.Forall₂ (OnFace V s) F ys) : xs = ys := by
  induction h generalizing ys with
  | nil => cases h'; rfl
  | @cons f x F xs hx _ ih =>
    cases h' with
    | cons hy h' =>
      rw [ih (fun g hg => hF g (by simp [hg])) h',
        three_unique (hF f (by simp)).2 (hx.1.trans hy.1.symm) (hx.2.1.trans hy.2.1.symm) (hx.2.2.trans hy.2.2.symm)]

private theorem rel_left {α β : Type} {R : α → β → Prop} {l : List α} {l' : List β} (h : List.Forall₂ R l l') : ∀ x ∈ l, ∃ y ∈ l', R x y := by
  induction h with
  | nil => intro x hx; cases hx
  | @cons a b l l' hab _ ih =>
    intro x hx
    rcases List.mem_cons.mp hx with rfl | hx
    · exact ⟨b, by simp, hab⟩
    · obtain ⟨y, hy, h⟩ := ih x hx
      exact ⟨y, by simp [hy], h⟩

/-! ### Relations between calls -/

private theorem zip_getD {s s' : List ℝ} (hs : s.length = s'.length) (a b : ℝ) (k : ℕ) :
    (List.zipWith (fun p q => a * p + b * q) s s').getD k 0 = a * s.getD k 0 + b * s'.getD k 0 := by
  simp only [List.getD_eq_getElem?_getD, List.getElem?_zipWith]
  by_cases h : k < s.length
  · rw [List.getElem?_eq_getElem h, List.getElem?_eq_getElem (hs ▸ h)]; rfl
  · rw [List.getElem?_eq_none (not_lt.mp h), List.getElem?_eq_none (hs ▸ not_lt.mp h)]; simp

/-- **C136**: the corners depend linearly on the values, so the corners for the support values of a sum are the sums of the corners. -/
theorem C136_linear (L : Lstsq) (V : List (Fin 3 → ℝ)) (F : List (ℕ × ℕ × ℕ)) (hF : Independent V F) (s s' : List ℝ) (hs : s.length = V.length)
    (hs' : s'.length = V.length) (a b : ℝ) :
    ∃ xs xs', sup2Boundary3 L V s (F.map faceZ) = .ok xs ∧ sup2Boundary3 L V s' (F.map faceZ) = .ok xs' ∧
      sup2Boundary3 L V (List.zipWith (fun p q => a * p + b * q) s s') (F.map faceZ) = .ok (List.zipWith (fun x y => a • x + b • y) xs xs') := by
  obtain ⟨xs, h1, h2⟩ := rows3 L hs hF
  obtain ⟨xs', h1', h2'⟩ := rows3 L hs' hF
  obtain ⟨ys, g1, g2⟩ := rows3 L (s := List.zipWith (fun p q => a * p + b * q) s s') (by simp [hs, hs']) hF
  refine ⟨xs, xs', h1, h1', ?_⟩
  rw [g1]
  congr 1
  refine rows3_unique hF g2 ?_
  clear g1 g2 h1 h1' hF
  induction h2 generalizing xs' with
  | nil => cases h2'; exact .nil
  | cons hx _ ih =>
    cases h2' with
    | cons hy h2' =>
      refine .cons ?_ (ih _ h2')
      unfold OnFace
      simp only [zip_getD (hs.trans hs'.symm), dotProduct_add, dotProduct_smul, smul_eq_mul, hx.1, hx.2.1, hx.2.2, hy.1, hy.2.1, hy.2.2, and_self]

/-- **C136**: an invertible affine map of the space: the values of the image in the directions taken back belong to the images of the corners. -/
theorem C136_affine (L : Lstsq) (V V' : List (Fin 3 → ℝ)) (F : List (ℕ × ℕ × ℕ)) (hF : Independent V F) (s : List ℝ) (hs : s.length = V.length)
    (M : Matrix (Fin 3) (Fin 3) ℝ) (hM : M.det ≠ 0) (v : Fin 3 → ℝ) (hV : List.Forall₂ (fun d' d => Mᵀ *ᵥ d' = d) V' V) :
    ∃ xs, sup2Boundary3 L V s (F.map faceZ) = .ok xs ∧
      sup2Boundary3 L V' (List.zipWith (fun d' p => p + d' ⬝ᵥ v) V' s) (F.map faceZ) = .ok (xs.map fun x => M *ᵥ x + v) := by
  obtain ⟨hlen, hget⟩ := List.forall₂_iff_get.mp hV
  have hVd : ∀ k, Mᵀ *ᵥ V'.getD k 0 = V.getD k 0 := by
    intro k
    by_cases h : k < V'.length
    · have := hget k h (hlen ▸ h)
      rw [List.getD_eq_getElem?_getD, List.getD_eq_getElem?_getD, List.getElem?_eq_getElem h, List.getElem?_eq_getElem (hlen ▸ h)]
      exact this
    · rw [List.getD_eq_getElem?_getD, List.getD_eq_getElem?_getD, List.getElem?_eq_none (not_lt.mp h), List.getElem?_eq_none (hlen ▸ not_lt.mp h)]
      simp
  have hdot : ∀ k z, V'.getD k 0 ⬝ᵥ M *ᵥ z = V.getD k 0 ⬝ᵥ z := fun k z => by
    rw [← hVd k, dotProduct_mulVec, ← mulVec_transpose]
  have htr : ∀ a b c : Fin 3 → ℝ, triple (Mᵀ *ᵥ a) (Mᵀ *ᵥ b) (Mᵀ *ᵥ c) = M.det * triple a b c := by
    intro a b c
    simp only [triple, mulVec, dotProduct, Fin.sum_univ_three, transpose_apply, det_fin_three]
    ring
  have hF' : Independent V' F := by
    intro f hf
    refine ⟨?_, fun h0 => (hF f hf).2 ?_⟩
    · have := (hF f hf).1; rw [← hlen] at this; exact this
    · rw [← hVd, ← hVd, ← hVd, htr, h0, mul_zero]
  obtain ⟨xs, h1, h2⟩ := rows3 L hs hF
  obtain ⟨ys, g1, g2⟩ := rows3 L (V := V') (s := List.zipWith (fun d' p => p + d' ⬝ᵥ v) V' s) (by simp [hs, hlen]) hF'
  refine ⟨xs, h1, ?_⟩
  rw [g1]
  congr 1
  refine rows3_unique hF' g2 ?_
  have hz : ∀ k, (List.zipWith (fun d' p => p + d' ⬝ᵥ v) V' s).getD k 0 = s.getD k 0 + V'.getD k 0 ⬝ᵥ v := by
    intro k
    simp only [List.getD_eq_getElem?_getD, List.getElem?_zipWith]
    by_cases h : k < s.length
    · rw [List.getElem?_eq_getElem h, List.getElem?_eq_getElem (by omega)]; rfl
    · rw [List.getElem?_eq_none (not_lt.mp h), List.getElem?_eq_none (by omega)]; simp
  clear g1 g2 h1
  induction h2 with
  | nil => exact .nil
  | cons hx _ ih =>
    refine .cons ?_ (ih (fun g hg => hF g (by simp [hg])) (fun g hg => hF' g (by simp [hg])))
    unfold OnFace
    simp only [hz, dotProduct_add, hdot, hx.1, hx.2.1, hx.2.2, and_self]

/-! ### The polyhedron -/

/-- **C136**: when the cones over the triangles cover the space, the polyhedron with the returned corners contains every set that satisfies the
inequalities. -/
theorem C136_hull (L : Lstsq) (V : List (Fin 3 → ℝ)) (F : List (ℕ × ℕ × ℕ)) (hF : Independent V F) (s : List ℝ) (hs : s.length = V.length)
    (hfan : ∀ c, ∃ f ∈ F, ∃ w, IsComb V f w c) (K : Set (Fin 3 → ℝ)) (hK : ∀ i < V.length, ∀ y ∈ K, V.getD i 0 ⬝ᵥ y ≤ s.getD i 0) :
    ∃ xs, sup2Boundary3 L V s (F.map faceZ) = .ok xs ∧ xs.length = F.length ∧ K ⊆ convexHull ℝ {x | x ∈ xs} := by
  obtain ⟨xs, h1, h2⟩ := rows3 L hs hF
  refine ⟨xs, h1, h2.length_eq.symm, fun y hy => ?_⟩
  have hmem : ∀ f ∈ F, ∃ x ∈ xs, OnFace V s f x := fun f hf => rel_left h2 f hf
  refine Ell.mem_of_support (K := convexHull ℝ {x | x ∈ xs}) (convex_convexHull ℝ _) ((List.finite_toSet xs).isClosed_convexHull ℝ) ?_ ?_
  · obtain ⟨f, hf, -⟩ := hfan 0
    obtain ⟨x, hx, -⟩ := hmem f hf
    exact ⟨x, subset_convexHull ℝ _ hx⟩
  · intro c _
    obtain ⟨f, hf, w, hw0, -, hc⟩ := hfan c
    obtain ⟨x, hx, e1, e2, e3⟩ := hmem f hf
    refine ⟨x, subset_convexHull ℝ _ hx, ?_⟩
    obtain ⟨r1, r2, r3⟩ := (hF f hf).1
    rw [hc]
    simp only [add_dotProduct, smul_dotProduct, smul_eq_mul, e1, e2, e3]
    have k1 := mul_le_mul_of_nonneg_left (hK _ r1 y hy) (hw0 f.1)
    have k2 := mul_le_mul_of_nonneg_left (hK _ r2 y hy) (hw0 f.2.1)
    have k3 := mul_le_mul_of_nonneg_left (hK _ r3 y hy) (hw0 f.2.2)
    linarith

/-! ### The grids of `sphere_tri` -/

/-- **C136**: with the grid of `sphere_tri` and the support values of a set the polyhedron with the returned corners contains the set. -/
theorem C136_sphere (L : Lstsq) (argsort : List ℕ → List ℕ) (hsort : IsArgsort argsort) (n fuel : ℕ) (hf : n < fuel) :
    ∃ V F, sphereTri argsort fuel n = .ok (some (V, F)) ∧ ∀ (K : Set (Fin 3 → ℝ)) (s : List ℝ),
      List.Forall₂ (fun d r => IsLUB ((fun y : Fin 3 → ℝ => d ⬝ᵥ y) '' K) r) V s →
      ∃ xs, sup2Boundary3 L V s (F.map faceZ) = .ok xs ∧ xs.length = 20 * 4 ^ n ∧ K ⊆ convexHull ℝ {x | x ∈ xs} := by
  obtain ⟨V, F, h1, -, hlen, -, -, hrow, -, htri⟩ := C56 argsort hsort n fuel hf
  obtain ⟨V0, F0, h2, -, -, hfan, -⟩ := C56_fan argsort hsort n fuel hf
  rw [h1] at h2
  obtain ⟨rfl, rfl⟩ : V = V0 ∧ F = F0 := by simpa using h2
  refine ⟨V, F, h1, fun K s hs => ?_⟩
  obtain ⟨hl, hget⟩ := List.forall₂_iff_get.mp hs
  obtain ⟨xs, e1, e2, e3⟩ := C136_hull L V F (fun f hf => ⟨(hrow f hf).1, (htri f hf).ne'⟩) s hl.symm
    (fun c => by obtain ⟨w, ⟨f, hf, hw⟩, -⟩ := hfan c; exact ⟨f, hf, w, hw⟩) K (fun i hi y hy => by
      have := (hget i hi (hl ▸ hi)).1 ⟨y, hy, rfl⟩
      rw [List.getD_eq_getElem?_getD, List.getD_eq_getElem?_getD, List.getElem?_eq_getElem hi, List.getElem?_eq_getElem (hl ▸ hi)]
      exact this)
  exact ⟨xs, e1, e2.trans hlen, e3⟩

private theorem cross_le {a b : Fin 3 → ℝ} (ha : a ⬝ᵥ a = 1) (hb : b ⬝ᵥ b = 1) {ε : ℝ} (h : (a - b) ⬝ᵥ (a - b) ≤ ε) :
    (a 1 * b 2 - a 2 * b 1) ^ 2 + (a 2 * b 0 - a 0 * b 2) ^ 2 + (a 0 * b 1 - a 1 * b 0) ^ 2 ≤ ε := by
  rw [dot_three] at ha hb h
  simp only [Pi.sub_apply] at h
  have e : (a 1 * b 2 - a 2 * b 1) ^ 2 + (a 2 * b 0 - a 0 * b 2) ^ 2 + (a 0 * b 1 - a 1 * b 0) ^ 2 =
      (a 0 * a 0 + a 1 * a 1 + a 2 * a 2) * (b 0 * b 0 + b 1 * b 1 + b 2 * b 2) - (a 0 * b 0 + a 1 * b 1 + a 2 * b 2) ^ 2 := by ring
  rw [e, ha, hb]
  nlinarith [sq_nonneg (1 - (a 0 * b 0 + a 1 * b 1 + a 2 * b 2))]

/-- A vector orthogonal to one vertex and nearly orthogonal to the other two is short. -/
private theorem short {a b c y : Fin 3 → ℝ} (ha : a ⬝ᵥ a = 1) (hb : b ⬝ᵥ b = 1) (hc : c ⬝ᵥ c = 1) {ε β τ : ℝ} (hab : (a - b) ⬝ᵥ (a - b) ≤ ε)
    (hca : (c - a) ⬝ᵥ (c - a) ≤ ε) (hτ : 0 ≤ τ) (ht : τ ≤ triple a b c) (h0 : a ⬝ᵥ y = 0) (h1 : |b ⬝ᵥ y| ≤ β) (h2 : |c ⬝ᵥ y| ≤ β) :
    τ ^ 2 * (y ⬝ᵥ y) ≤ 4 * β ^ 2 * ε := by
  have k1 := cross_le ha hb hab
  have k2 := cross_le hc ha hca
  have b1 : (b ⬝ᵥ y) ^ 2 ≤ β ^ 2 := sq_le_sq' (abs_le.mp h1).1 (abs_le.mp h1).2
  have b2 : (c ⬝ᵥ y) ^ 2 ≤ β ^ 2 := sq_le_sq' (abs_le.mp h2).1 (abs_le.mp h2).2
  set B := b ⬝ᵥ y with hB
  set C := c ⬝ᵥ y with hC
  rw [dot_three] at h0 hB hC
  have hy : 0 ≤ y ⬝ᵥ y := by rw [dot_three]; nlinarith [mul_self_nonneg (y 0), mul_self_nonneg (y 1), mul_self_nonneg (y 2)]
  have e0 : triple a b c * y 0 = B * (c 1 * a 2 - c 2 * a 1) + C * (a 1 * b 2 - a 2 * b 1) := by
    rw [hB, hC]; unfold triple; linear_combination (b 1 * c 2 - b 2 * c 1) * h0
  have e1 : triple a b c * y 1 = B * (c 2 * a 0 - c 0 * a 2) + C * (a 2 * b 0 - a 0 * b 2) := by
    rw [hB, hC]; unfold triple; linear_combination (b 2 * c 0 - b 0 * c 2) * h0
  have e2 : triple a b c * y 2 = B * (c 0 * a 1 - c 1 * a 0) + C * (a 0 * b 1 - a 1 * b 0) := by
    rw [hB, hC]; unfold triple; linear_combination (b 0 * c 1 - b 1 * c 0) * h0
  have two : ∀ p q : ℝ, (p + q) ^ 2 ≤ 2 * p ^ 2 + 2 * q ^ 2 := fun p q => by nlinarith [sq_nonneg (p - q)]
  have e3 : triple a b c ^ 2 * (y ⬝ᵥ y) = (triple a b c * y 0) ^ 2 + (triple a b c * y 1) ^ 2 + (triple a b c * y 2) ^ 2 := by
    rw [dot_three]; ring
  have e4 : triple a b c ^ 2 * (y ⬝ᵥ y) ≤
      2 * (B ^ 2 * ((c 1 * a 2 - c 2 * a 1) ^ 2 + (c 2 * a 0 - c 0 * a 2) ^ 2 + (c 0 * a 1 - c 1 * a 0) ^ 2)) +
      2 * (C ^ 2 * ((a 1 * b 2 - a 2 * b 1) ^ 2 + (a 2 * b 0 - a 0 * b 2) ^ 2 + (a 0 * b 1 - a 1 * b 0) ^ 2)) := by
    rw [e3, e0, e1, e2]
    have t0 := two (B * (c 1 * a 2 - c 2 * a 1)) (C * (a 1 * b 2 - a 2 * b 1))
    have t1 := two (B * (c 2 * a 0 - c 0 * a 2)) (C * (a 2 * b 0 - a 0 * b 2))
    have t2 := two (B * (c 0 * a 1 - c 1 * a 0)) (C * (a 0 * b 1 - a 1 * b 0))
    simp only [mul_pow] at t0 t1 t2
    linarith
  have e5 : τ ^ 2 ≤ triple a b c ^ 2 := pow_le_pow_left₀ hτ ht 2
  have f1 := mul_le_mul b1 k2 (by positivity) (sq_nonneg β)
  have f2 := mul_le_mul b2 k1 (by positivity) (sq_nonneg β)
  have f3 := mul_le_mul_of_nonneg_right e5 hy
  linarith

/-- How far the support values of an ellipsoid are above the supporting plane of another direction. -/
private theorem smooth {n : ℕ} {c : Fin n → ℝ} {Q : Matrix (Fin n) (Fin n) ℝ} (hQ : IsPSD Q) {lo hi : ℝ} (hlo : 0 < lo)
    (h1 : ∀ x, lo * (x ⬝ᵥ x) ≤ x ⬝ᵥ Q *ᵥ x) (h2 : ∀ x, x ⬝ᵥ Q *ᵥ x ≤ hi * (x ⬝ᵥ x)) {a : Fin n → ℝ} (ha : a ⬝ᵥ a = 1) :
    ∃ p ∈ Ell.Ell c Q, a ⬝ᵥ p = a ⬝ᵥ c + Real.sqrt (a ⬝ᵥ Q *ᵥ a) ∧ ∀ b, 0 ≤ b ⬝ᵥ c + Real.sqrt (b ⬝ᵥ Q *ᵥ b) - b ⬝ᵥ p ∧
      b ⬝ᵥ c + Real.sqrt (b ⬝ᵥ Q *ᵥ b) - b ⬝ᵥ p ≤ hi * ((a - b) ⬝ᵥ (a - b)) / (2 * Real.sqrt lo) := by
  obtain ⟨hp, hp'⟩ := Ell.support_point (c := c) hQ a
  refine ⟨_, hp, hp', fun b => ⟨?_, ?_⟩⟩
  · have := (Ell.ell_support (c := c) hQ b).2 ⟨_, hp, rfl⟩
    simp only at this
    linarith
  · have hA : lo ≤ a ⬝ᵥ Q *ᵥ a := by have := h1 a; rwa [ha, mul_one] at this
    have hr : 0 < Real.sqrt lo := Real.sqrt_pos.mpr hlo
    have hrA : Real.sqrt lo ≤ Real.sqrt (a ⬝ᵥ Q *ᵥ a) := Real.sqrt_le_sqrt hA
    have hpos : 0 < Real.sqrt (a ⬝ᵥ Q *ᵥ a) := hr.trans_le hrA
    have sA := Real.mul_self_sqrt (hlo.le.trans hA)
    have sB := Real.mul_self_sqrt (hQ.2 b)
    have hsym : a ⬝ᵥ Q *ᵥ b = b ⬝ᵥ Q *ᵥ a := by
      rw [Ell.symm_dot hQ.1, dotProduct_comm]
    have hquad : (a - b) ⬝ᵥ Q *ᵥ (a - b) = a ⬝ᵥ Q *ᵥ a + b ⬝ᵥ Q *ᵥ b - 2 * (b ⬝ᵥ Q *ᵥ a) := by
      rw [mulVec_sub, sub_dotProduct, dotProduct_sub, dotProduct_sub, hsym]; ring
    have h3 := h2 (a - b)
    rw [hquad] at h3
    rw [dotProduct_add, dotProduct_smul, smul_eq_mul]
    set A := Real.sqrt (a ⬝ᵥ Q *ᵥ a)
    set B := Real.sqrt (b ⬝ᵥ Q *ᵥ b)
    have e : b ⬝ᵥ c + B - (b ⬝ᵥ c + 1 / A * (b ⬝ᵥ Q *ᵥ a)) = (A * B - b ⬝ᵥ Q *ᵥ a) / A := by field_simp; ring
    have h4 : A * B - b ⬝ᵥ Q *ᵥ a ≤ hi * ((a - b) ⬝ᵥ (a - b)) / 2 := by nlinarith [sq_nonneg (A - B)]
    have h5 : 0 ≤ hi * ((a - b) ⬝ᵥ (a - b)) / 2 := by
      have := hQ.2 (a - b); rw [hquad] at this; linarith
    rw [e]
    calc (A * B - b ⬝ᵥ Q *ᵥ a) / A ≤ hi * ((a - b) ⬝ᵥ (a - b)) / 2 / A := div_le_div_of_nonneg_right h4 hpos.le
      _ ≤ hi * ((a - b) ⬝ᵥ (a - b)) / 2 / Real.sqrt lo := div_le_div_of_nonneg_left h5 hr hrA
      _ = hi * ((a - b) ⬝ᵥ (a - b)) / (2 * Real.sqrt lo) := by rw [div_div]

private theorem near_convex3 {K : Set (Fin 3 → ℝ)} (hv : Convex ℝ K) (r : ℝ) : Convex ℝ {y : Fin 3 → ℝ | ∃ z ∈ K, (y - z) ⬝ᵥ (y - z) ≤ r} := by
  rintro y ⟨z, hz, hyz⟩ y' ⟨z', hz', hyz'⟩ a b ha hb hab
  refine ⟨a • z + b • z', hv hz hz' ha hb hab, ?_⟩
  simp only [dot_three, Pi.sub_apply, Pi.add_apply, Pi.smul_apply, smul_eq_mul] at hyz hyz' ⊢
  have hb' : b = 1 - a := by linarith
  subst hb'
  have e0 := mul_nonneg (mul_nonneg ha hb) (sq_nonneg ((y 0 - z 0) - (y' 0 - z' 0)))
  have e1 := mul_nonneg (mul_nonneg ha hb) (sq_nonneg ((y 1 - z 1) - (y' 1 - z' 1)))
  have e2 := mul_nonneg (mul_nonneg ha hb) (sq_nonneg ((y 2 - z 2) - (y' 2 - z' 2)))
  have e3 := mul_le_mul_of_nonneg_left hyz ha
  have e4 := mul_le_mul_of_nonneg_left hyz' hb
  nlinarith

/-- **C136**: for a non-degenerate ellipsoid with eigenvalues between `lo` and `hi` the polyhedron contains the ellipsoid, and every point of it is within
`4 √2 · hi / √lo / 2ⁿ` of the ellipsoid. -/
theorem C136_ellipsoid (L : Lstsq) (argsort : List ℕ → List ℕ) (hsort : IsArgsort argsort) (n fuel : ℕ) (hf : n < fuel) (c : Fin 3 → ℝ)
    (Q : Matrix (Fin 3) (Fin 3) ℝ) (hQ : IsPSD Q) (lo hi : ℝ) (hlo : 0 < lo) (h1 : ∀ x, lo * (x ⬝ᵥ x) ≤ x ⬝ᵥ Q *ᵥ x)
    (h2 : ∀ x, x ⬝ᵥ Q *ᵥ x ≤ hi * (x ⬝ᵥ x)) :
    ∃ V F, sphereTri argsort fuel n = .ok (some (V, F)) ∧ ∀ s : List ℝ, List.Forall₂ (Ell.IsSupport (Ell.Ell c Q)) V s →
      ∃ xs, sup2Boundary3 L V s (F.map faceZ) = .ok xs ∧ xs.length = 20 * 4 ^ n ∧ Ell.Ell c Q ⊆ convexHull ℝ {x | x ∈ xs} ∧
        ∀ y ∈ convexHull ℝ {x | x ∈ xs}, ∃ z ∈ Ell.Ell c Q, (y - z) ⬝ᵥ (y - z) ≤ (4 * Real.sqrt 2 * hi / Real.sqrt lo / 2 ^ n) ^ 2 := by
  obtain ⟨V, F, g1, -, hlen, -, hunit, hrow, -, htri⟩ := C56 argsort hsort n fuel hf
  obtain ⟨V1, F1, g2, hapart, -⟩ := C56_apart argsort hsort n fuel hf
  obtain ⟨V2, F2, g3, hdense, -⟩ := C56_dense argsort hsort n fuel hf
  obtain ⟨V3, F3, g4, hsph⟩ := C136_sphere L argsort hsort n fuel hf
  rw [g1] at g2 g3 g4
  obtain ⟨rfl, rfl⟩ : V = V1 ∧ F = F1 := by simpa using g2
  obtain ⟨rfl, rfl⟩ : V = V2 ∧ F = F2 := by simpa using g3
  obtain ⟨rfl, rfl⟩ : V = V3 ∧ F = F3 := by simpa using g4
  refine ⟨V, F, g1, fun s hs => ?_⟩
  obtain ⟨xs, e1, e2, e3⟩ := hsph (Ell.Ell c Q) s (hs.imp fun d r h => h.isLUB)
  refine ⟨xs, e1, e2, e3, ?_⟩
  obtain ⟨hl, hget⟩ := List.forall₂_iff_get.mp hs
  have hval : ∀ i < V.length, s.getD i 0 = V.getD i 0 ⬝ᵥ c + Real.sqrt (V.getD i 0 ⬝ᵥ Q *ᵥ V.getD i 0) := by
    intro i hi
    have := hget i hi (hl ▸ hi)
    rw [List.getD_eq_getElem?_getD, List.getD_eq_getElem?_getD, List.getElem?_eq_getElem hi, List.getElem?_eq_getElem (hl ▸ hi)]
    exact this.unique (Ell.ell_support hQ _)
  obtain ⟨ys, k1, k2⟩ := rows3 L (V := V) (F := F) (s := s) hl.symm (fun f hf => ⟨(hrow f hf).1, (htri f hf).ne'⟩)
  rw [e1] at k1
  obtain rfl : xs = ys := Except.ok.inj k1
  refine convexHull_min ?_ (near_convex3 (Ell.ell_convex hQ) _)
  intro x hx
  obtain ⟨f, hfF, o1, o2, o3⟩ := rel_left k2.flip x hx
  obtain ⟨r1, r2, r3⟩ := (hrow f hfF).1
  have hu : ∀ i < V.length, V.getD i 0 ⬝ᵥ V.getD i 0 = 1 := by
    intro i hi
    rw [List.getD_eq_getElem?_getD, List.getElem?_eq_getElem hi, dot_three]
    have := hunit _ (List.getElem_mem hi)
    simp only [Option.getD_some]
    linarith
  have hclose : ∀ i ∈ [f.1, f.2.1, f.2.2], ∀ j ∈ [f.1, f.2.1, f.2.2], (V.getD i 0 - V.getD j 0) ⬝ᵥ (V.getD i 0 - V.getD j 0) ≤ 2 / 4 ^ n := by
    intro i hi j hj
    have h := hdense f hfF i hi j hj
    have h0 : 0 ≤ ∑ t, (V.getD i 0 t - V.getD j 0 t) ^ 2 := Finset.sum_nonneg fun t _ => sq_nonneg _
    have h' := pow_le_pow_left₀ (Real.sqrt_nonneg _) h 2
    rw [Real.sq_sqrt h0, div_pow, Real.sq_sqrt (by norm_num), ← pow_mul, mul_comm n 2, pow_mul] at h'
    rw [show (2 : ℝ) ^ 2 = 4 by norm_num] at h'
    rw [dot_three]
    simp only [Fin.sum_univ_three] at h'
    simp only [Pi.sub_apply]
    linarith
  obtain ⟨p, hp, hp1, hp2⟩ := smooth (c := c) hQ hlo h1 h2 (hu _ r1)
  have hhi : 0 ≤ hi := by have := h1 (V.getD f.1 0); have h' := h2 (V.getD f.1 0); rw [hu _ r1] at this h'; linarith
  have hr : 0 < Real.sqrt lo := Real.sqrt_pos.mpr hlo
  have hβ : ∀ i ∈ [f.1, f.2.1, f.2.2], i < V.length → V.getD i 0 ⬝ᵥ x = s.getD i 0 → |V.getD i 0 ⬝ᵥ (x - p)| ≤ hi * (2 / 4 ^ n) / (2 * Real.sqrt lo) := by
    intro i hi' hiV hx
    obtain ⟨q1, q2⟩ := hp2 (V.getD i 0)
    rw [dotProduct_sub, hx, hval i hiV, abs_of_nonneg q1]
    refine q2.trans (div_le_div_of_nonneg_right ?_ (by positivity))
    exact mul_le_mul_of_nonneg_left (hclose f.1 (by simp) i hi') hhi
  have hfin := short (y := x - p) (hu _ r1) (hu _ r2) (hu _ r3) (hclose f.1 (by simp) f.2.1 (by simp)) (hclose f.2.2 (by simp) f.1 (by simp))
    (by positivity) (hapart f hfF) (by rw [dotProduct_sub, o1, hval _ r1, hp1, sub_self]) (hβ f.2.1 (by simp) r2 o2) (hβ f.2.2 (by simp) r3 o3)
  refine ⟨p, hp, ?_⟩
  have h4 : (0 : ℝ) < 4 ^ n := by positivity
  have e4 : (4 * Real.sqrt 2 * hi / Real.sqrt lo / 2 ^ n) ^ 2 = 32 * hi ^ 2 / (lo * 4 ^ n) := by
    rw [div_pow, div_pow, mul_pow, mul_pow, Real.sq_sqrt (by norm_num), Real.sq_sqrt hlo.le, ← pow_mul, mul_comm n 2, pow_mul, div_div]
    norm_num
  rw [e4]
  have e5 : 4 * (hi * (2 / 4 ^ n) / (2 * Real.sqrt lo)) ^ 2 * (2 / 4 ^ n) = (1 / (2 * 4 ^ n)) ^ 2 * (32 * hi ^ 2 / (lo * 4 ^ n)) := by
    rw [div_pow, mul_pow 2 (Real.sqrt lo), Real.sq_sqrt hlo.le]
    field_simp
    ring
  rw [e5] at hfin
  exact le_of_mul_le_mul_left hfin (by positivity)

/-! ### Non-triviality -/

/-- The eight triangles of the octahedron. -/
private def octV : List (Fin 3 → ℝ) := [![1, 0, 0], ![0, 1, 0], ![0, 0, 1], ![-1, 0, 0], ![0, -1, 0], ![0, 0, -1]]

private def octF : List (ℕ × ℕ × ℕ) := [(0, 1, 2), (0, 2, 4), (0, 4, 5), (0, 5, 1), (3, 2, 1), (3, 4, 2), (3, 5, 4), (3, 1, 5)]

private theorem oct_indep : Independent octV octF := by
  intro f hf
  simp only [octF, List.mem_cons, List.not_mem_nil, or_false] at hf
  rcases hf with rfl | rfl | rfl | rfl | rfl | rfl | rfl | rfl <;> refine ⟨by simp [RowLt, octV], ?_⟩ <;> simp [triple, octV]

example (L : Lstsq) : ∃ xs xs', sup2Boundary3 L octV [1, 2, 3, 4, 5, 6] (octF.map faceZ) = .ok xs ∧ sup2Boundary3 L octV [1, 1, 1, 1, 1, 1] (octF.map faceZ) = .ok xs' ∧
    sup2Boundary3 L octV (List.zipWith (fun p q => 2 * p + 3 * q) [1, 2, 3, 4, 5, 6] [1, 1, 1, 1, 1, 1]) (octF.map faceZ) =
      .ok (List.zipWith (fun x y => (2 : ℝ) • x + (3 : ℝ) • y) xs xs') :=
  C136_linear L octV octF oct_indep _ _ rfl rfl 2 3

/-- Directions divided by two for a set stretched twice and moved. -/
example (L : Lstsq) : ∃ xs, sup2Boundary3 L octV [1, 2, 3, 4, 5, 6] (octF.map faceZ) = .ok xs ∧
    sup2Boundary3 L (octV.map fun d => (1 / 2 : ℝ) • d) (List.zipWith (fun d' p => p + d' ⬝ᵥ ![1, 2, 3]) (octV.map fun d => (1 / 2 : ℝ) • d) [1, 2, 3, 4, 5, 6])
      (octF.map faceZ) = .ok (xs.map fun x => (diagonal fun _ => (2 : ℝ)) *ᵥ x + ![1, 2, 3]) := by
  refine C136_affine L octV _ octF oct_indep _ rfl _ (by simp [det_diagonal]) _ ?_
  rw [List.forall₂_map_left_iff, List.forall₂_same]
  intro d _
  rw [diagonal_transpose, mulVec_smul]
  ext t
  rw [Pi.smul_apply, mulVec_diagonal, smul_eq_mul]
  ring

/-- The grid with 42 directions around an ellipsoid; the proof of `C136_sphere` shows that the grids meet the hypotheses of `C136_hull`. -/
example (L : Lstsq) : ∃ V F s xs, sphereTri stableArgsort 2 1 = .ok (some (V, F)) ∧ List.Forall₂ (Ell.IsSupport (Ell.Ell ![1, 2, 3] (diagonal ![1, 4, 4]))) V s ∧
    sup2Boundary3 L V s (F.map faceZ) = .ok xs ∧ xs.length = 80 ∧ Ell.Ell ![1, 2, 3] (diagonal ![1, 4, 4]) ⊆ convexHull ℝ {x | x ∈ xs} := by
  have hQ : IsPSD (diagonal ![(1 : ℝ), 4, 4]) := by
    refine ⟨diagonal_transpose _, fun x => ?_⟩
    rw [dot_three]
    simp [mulVec_diagonal]
    nlinarith [mul_self_nonneg (x 0), mul_self_nonneg (x 1), mul_self_nonneg (x 2)]
  obtain ⟨V, F, h, h'⟩ := C136_ellipsoid L stableArgsort stableArgsort_ok 1 2 (by norm_num) ![1, 2, 3] (diagonal ![1, 4, 4]) hQ 1 4 one_pos
    (fun x => by rw [dot_three, dot_three]; simp [mulVec_diagonal]; nlinarith [mul_self_nonneg (x 0), mul_self_nonneg (x 1), mul_self_nonneg (x 2)])
    (fun x => by rw [dot_three, dot_three]; simp [mulVec_diagonal]; nlinarith [mul_self_nonneg (x 0), mul_self_nonneg (x 1), mul_self_nonneg (x 2)])
  have hs : List.Forall₂ (Ell.IsSupport (Ell.Ell ![1, 2, 3] (diagonal ![1, 4, 4]))) V
      (V.map fun d => d ⬝ᵥ ![1, 2, 3] + Real.sqrt (d ⬝ᵥ (diagonal ![1, 4, 4]) *ᵥ d)) := by
    rw [List.forall₂_map_right_iff, List.forall₂_same]
    exact fun d _ => Ell.ell_support hQ d
  obtain ⟨xs, e1, e2, e3, -⟩ := h' _ hs
  exact ⟨V, F, _, xs, by exact_mod_cast h, hs, e1, e2, e3⟩

end Ellipy.Sup
