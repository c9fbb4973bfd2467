import Verif.Props.CalcDiff
import Verif.Props.EllEigs
import Verif.Props.SupPolygon
import Verif.Props.SupPolyhedron
import Verif.Proofs.Support

/-! Property theorems C160: the polygons and polyhedra made by `circle_part`, `sphere_tri`, `rho`, `sup_2_boundary_2` and `sup_2_boundary_3` together. -/

namespace Ellipy.Ell
open Matrix Ellipy.LA Ellipy.Sup Ellipy.Geom Ellipy.Tri
open scoped Pointwise

/-- The directions of a list as the columns of a matrix. -/
noncomputable def dirsOf {m : ℕ} (V : List (Fin m → ℝ)) : Arr ℝ := dirsArr (fun j : Fin V.length => V.get j)

/-- The points of a circle as vectors. -/
def vecs (l : List (ℝ × ℝ)) : List (Fin 2 → ℝ) := l.map fun p => ![p.1, p.2]

/-- Row `j` of the points returned by `rho` is the vector number `j` of the list. -/
def PointsAre {m : ℕ} (b : Arr (XF ℝ)) (k : ℕ) (ps : List (Fin m → ℝ)) : Prop :=
  ps.length = k ∧ b.shape = [m, k] ∧ ∀ (j : Fin ps.length) (i : Fin m), b.data[i.val * k + j.val]? = some (.fin (ps.get j i))

private theorem rho_list {m : ℕ} {e : EllN m} (he : e.PSD) (V : List (Fin m → ℝ)) :
    ∃ s b ps, rho (Arr.scalar e.obj) (dirsOf V) = .ok (s, b) ∧ List.Forall₂ (IsSupport e.set) V s.data ∧ PointsAre b V.length ps ∧ ∀ p ∈ ps, p ∈ e.set := by
  obtain ⟨s, b, hr, ⟨hs, hb, hj⟩, hbs, -⟩ := C40_one_ell (Arr.scalar e.obj) e rfl he (dirsOf V) [V.length] (by simp) _ (dirsArr_is _)
  choose r x h1 h2 h3 h4 h5 using hj
  refine ⟨s, b, List.ofFn x, hr, ?_, ⟨by simp, hbs, fun j i => ?_⟩, fun p hp => ?_⟩
  · rw [List.forall₂_iff_get]
    refine ⟨hs.symm, fun i hi hi' => ?_⟩
    have h6 := h1 ⟨i, hi⟩
    simp only at h6
    rw [List.getElem?_eq_getElem hi'] at h6
    rw [List.get_eq_getElem (l := s.data), Option.some.inj h6]
    exact h2 ⟨i, hi⟩
  · have hjl : j.val < V.length := by simpa using j.2
    rw [h5 ⟨j, hjl⟩ i]
    simp
  · rw [List.mem_ofFn] at hp
    obtain ⟨j, rfl⟩ := hp
    exact h3 j

private theorem max_eig_ball (E : Eigh) {m : ℕ} (hm : m ≠ 0) {e : EllN m} (he : e.PSD) :
    ∃ r, maxEig E (.single (.inst e.obj)) = .ok [r] ∧ 0 ≤ r ∧ e.set ⊆ Ball e.c (Real.sqrt r) := by
  obtain ⟨-, rs, h1, h2⟩ := C81_balls E (.single (.inst e.obj)) (Arr.scalar e.obj) (Or.inl ⟨_, rfl, rfl⟩) (fun x hx => by
    rw [show (Arr.scalar e.obj).data = [e.obj] from rfl, List.mem_singleton] at hx
    subst hx
    exact ⟨hm, he.2⟩)
  rw [show (Arr.scalar e.obj).data = [e.obj] from rfl] at h2
  cases h2 with
  | cons h t =>
    cases t
    exact ⟨_, h1, h.1, h.2.1.2⟩

private theorem dot_le {a b : Fin 2 → ℝ} {A B : ℝ} (hA : 0 ≤ A) (hB : 0 ≤ B) (ha : a ⬝ᵥ a ≤ A ^ 2) (hb : b ⬝ᵥ b ≤ B ^ 2) :
    (a + b) ⬝ᵥ (a + b) ≤ (A + B) ^ 2 ∧ (a - b) ⬝ᵥ (a - b) ≤ (A + B) ^ 2 := by
  simp only [dotProduct, Fin.sum_univ_two, Pi.add_apply, Pi.sub_apply] at *
  have h0 : (a 0 * b 0 + a 1 * b 1) ^ 2 ≤ (A * B) ^ 2 := by
    have h1 : (a 0 * b 0 + a 1 * b 1) ^ 2 ≤ (a 0 * a 0 + a 1 * a 1) * (b 0 * b 0 + b 1 * b 1) := by nlinarith [sq_nonneg (a 0 * b 1 - a 1 * b 0)]
    have h2 : (a 0 * a 0 + a 1 * a 1) * (b 0 * b 0 + b 1 * b 1) ≤ A ^ 2 * B ^ 2 :=
      mul_le_mul ha hb (by nlinarith [mul_self_nonneg (b 0), mul_self_nonneg (b 1)]) (sq_nonneg _)
    nlinarith
  have h3 := abs_le_of_sq_le_sq' h0 (mul_nonneg hA hB)
  constructor <;> nlinarith [h3.1, h3.2]

private theorem width {e : EllN 2} {r : ℝ} (h : e.set ⊆ Ball e.c (Real.sqrt r)) : ∀ p ∈ e.set, ∀ q ∈ e.set, (p - q) ⬝ᵥ (p - q) ≤ (2 * Real.sqrt r) ^ 2 := by
  intro p hp q hq
  have := (dot_le (Real.sqrt_nonneg r) (Real.sqrt_nonneg r) (h hp) (h hq)).2
  rw [show p - e.c - (q - e.c) = p - q by abel] at this
  rw [two_mul]
  exact this

/-- **C160**, ellipses: with the directions of `circle_part`, the support values of `rho` lead `sup_2_boundary_2` to the corners of a polygon that contains the
ellipse, nowhere farther from it than the larger half axis, as found from `max_eig`, times `tan (π / n)`.  The points of `rho` are in the ellipse. -/
theorem C160_ellipse (L : Lstsq) (E : Eigh) {n : ℕ} (hn : 3 ≤ n) (e : EllN 2) (he : e.PSD) :
    ∃ l s b ps xs r, circlePart n none = .ok l ∧ rho (Arr.scalar e.obj) (dirsOf (vecs l)) = .ok (s, b) ∧ PointsAre b n ps ∧
      sup2Boundary2 L (vecs l) s.data = .ok xs ∧ xs.length = n ∧ maxEig E (.single (.inst e.obj)) = .ok [r] ∧
      convexHull ℝ {p | p ∈ ps} ⊆ e.set ∧ e.set ⊆ convexHull ℝ {x | x ∈ xs} ∧
      ∀ y ∈ convexHull ℝ {x | x ∈ xs}, ∃ z ∈ e.set, (y - z) ⬝ᵥ (y - z) ≤ (Real.sqrt r * Real.tan (Real.pi / n)) ^ 2 := by
  obtain ⟨l, hl, hlen, -⟩ := C59 n (by omega)
  obtain ⟨s, b, ps, hr, hs, hp, hpe⟩ := rho_list he (vecs l)
  obtain ⟨r, hmax, -, hball⟩ := max_eig_ball E (by norm_num) he
  obtain ⟨xs, hx, hxl, hin, hnear⟩ := C134_circle L hn e.set (ell_compact he.2) (ell_convex he.2) ⟨e.c, ell_center he.2⟩ (2 * Real.sqrt r) (width hball) l hl s.data
    (hs.imp fun _ _ h => h.isLUB)
  refine ⟨l, s, b, ps, xs, r, hl, hr, ?_, hx, hxl, hmax, convexHull_min (fun p hp => hpe p hp) (ell_convex he.2), hin, fun y hy => ?_⟩
  · rwa [show (vecs l).length = n by simp [vecs, hlen]] at hp
  · obtain ⟨z, hz, hyz⟩ := hnear y hy
    exact ⟨z, hz, by rwa [show 2 * Real.sqrt r / 2 = Real.sqrt r by ring] at hyz⟩

/-- **C160**, sums of ellipses: the sums of the support values lead to a polygon around the sum of the ellipses. -/
theorem C160_sum (L : Lstsq) (E : Eigh) {n : ℕ} (hn : 3 ≤ n) (e f : EllN 2) (he : e.PSD) (hf : f.PSD) :
    ∃ l s s' b b' xs r r', circlePart n none = .ok l ∧ rho (Arr.scalar e.obj) (dirsOf (vecs l)) = .ok (s, b) ∧
      rho (Arr.scalar f.obj) (dirsOf (vecs l)) = .ok (s', b') ∧ sup2Boundary2 L (vecs l) (List.zipWith (· + ·) s.data s'.data) = .ok xs ∧
      maxEig E (.single (.inst e.obj)) = .ok [r] ∧ maxEig E (.single (.inst f.obj)) = .ok [r'] ∧
      (∀ x ∈ e.set, ∀ y ∈ f.set, x + y ∈ convexHull ℝ {x | x ∈ xs}) ∧
      ∀ z ∈ convexHull ℝ {x | x ∈ xs}, ∃ x ∈ e.set, ∃ y ∈ f.set,
        (z - (x + y)) ⬝ᵥ (z - (x + y)) ≤ ((Real.sqrt r + Real.sqrt r') * Real.tan (Real.pi / n)) ^ 2 := by
  obtain ⟨l, hl, hlen, -⟩ := C59 n (by omega)
  obtain ⟨s, b, ps, hr, hs, -, -⟩ := rho_list he (vecs l)
  obtain ⟨s', b', ps', hr', hs', -, -⟩ := rho_list hf (vecs l)
  obtain ⟨r, hmax, -, hball⟩ := max_eig_ball E (by norm_num) he
  obtain ⟨r', hmax', -, hball'⟩ := max_eig_ball E (by norm_num) hf
  have hsum : List.Forall₂ (fun (c : Fin 2 → ℝ) t => IsLUB ((fun y : Fin 2 → ℝ => c ⬝ᵥ y) '' (e.set + f.set)) t) (vecs l) (List.zipWith (· + ·) s.data s'.data) := by
    have h1 := hs.length_eq
    have h2 := hs'.length_eq
    rw [List.forall₂_iff_get] at hs hs' ⊢
    refine ⟨by rw [List.length_zipWith, ← h1, ← h2, min_self], fun i hi hi' => ?_⟩
    have g := hs.2 i hi (h1 ▸ hi)
    have g' := hs'.2 i hi (h2 ▸ hi)
    simp only [List.get_eq_getElem, List.getElem_zipWith] at g g' ⊢
    obtain ⟨⟨x, hx, hxs⟩, hu⟩ := g
    obtain ⟨⟨y, hy, hys⟩, hu'⟩ := g'
    refine IsGreatest.isLUB ⟨⟨x + y, Set.add_mem_add hx hy, ?_⟩, ?_⟩
    · show _ ⬝ᵥ (x + y) = _
      rw [dotProduct_add, ← hxs, ← hys]
    · rintro _ ⟨w, ⟨p, hp, q, hq, rfl⟩, rfl⟩
      show _ ⬝ᵥ (p + q) ≤ _
      rw [dotProduct_add]
      exact add_le_add (hu ⟨p, hp, rfl⟩) (hu' ⟨q, hq, rfl⟩)
  obtain ⟨xs, hx, -, hin, hnear⟩ := C134_circle L hn (e.set + f.set) ((ell_compact he.2).add (ell_compact hf.2)) ((ell_convex he.2).add (ell_convex hf.2))
    ⟨e.c + f.c, Set.add_mem_add (ell_center he.2) (ell_center hf.2)⟩ (2 * Real.sqrt r + 2 * Real.sqrt r') (by
      rintro _ ⟨p, hp, q, hq, rfl⟩ _ ⟨p', hp', q', hq', rfl⟩
      have := (dot_le (by positivity) (by positivity) (width hball p hp p' hp') (width hball' q hq q' hq')).1
      rwa [show p - p' + (q - q') = p + q - (p' + q') by abel] at this) l hl _ hsum
  refine ⟨l, s, s', b, b', xs, r, r', hl, hr, hr', hx, hmax, hmax', fun x hx y hy => hin (Set.add_mem_add hx hy), fun z hz => ?_⟩
  obtain ⟨w, ⟨x, hx, y, hy, rfl⟩, hzw⟩ := hnear z hz
  exact ⟨x, hx, y, hy, by rwa [show (2 * Real.sqrt r + 2 * Real.sqrt r') / 2 = Real.sqrt r + Real.sqrt r' by ring] at hzw⟩

/-- **C160**, ellipsoids in space: with the vertices and faces of `sphere_tri`, the support values of `rho` lead `sup_2_boundary_3` to corners of a polyhedron that
contains the ellipsoid; the distance from it is bounded in terms of `min_eig`, `max_eig` and the depth. -/
theorem C160_space (L : Lstsq) (E : Eigh) (argsort : List ℕ → List ℕ) (hsort : IsArgsort argsort) (n fuel : ℕ) (hf : n < fuel) (e : EllN 3) (he : e.PSD)
    (hpos : ∀ x : Fin 3 → ℝ, x ≠ 0 → 0 < x ⬝ᵥ e.Q *ᵥ x) :
    ∃ V F s b ps xs lo hi, sphereTri argsort fuel n = .ok (some (V, F)) ∧ rho (Arr.scalar e.obj) (dirsOf V) = .ok (s, b) ∧ PointsAre b V.length ps ∧
      sup2Boundary3 L V s.data (F.map faceZ) = .ok xs ∧ xs.length = 20 * 4 ^ n ∧ minEig E (.single (.inst e.obj)) = .ok [lo] ∧
      maxEig E (.single (.inst e.obj)) = .ok [hi] ∧ convexHull ℝ {p | p ∈ ps} ⊆ e.set ∧ e.set ⊆ convexHull ℝ {x | x ∈ xs} ∧
      ∀ y ∈ convexHull ℝ {x | x ∈ xs}, ∃ z ∈ e.set, (y - z) ⬝ᵥ (y - z) ≤ (4 * Real.sqrt 2 * hi / Real.sqrt lo / 2 ^ n) ^ 2 := by
  obtain ⟨⟨rs, h1, h2⟩, ss, h3, h4⟩ := C81_form E (.single (.inst e.obj)) (Arr.scalar e.obj) (Or.inl ⟨_, rfl, rfl⟩) (fun x hx => by
    rw [show (Arr.scalar e.obj).data = [e.obj] from rfl, List.mem_singleton] at hx
    subst hx
    exact (by norm_num : (3 : ℕ) ≠ 0))
  rw [show (Arr.scalar e.obj).data = [e.obj] from rfl] at h2 h4
  rcases h2 with _ | ⟨h2, _ | _⟩
  rcases h4 with _ | ⟨h4, _ | _⟩
  rename_i lo hi
  change IsLeast (formValues (lowerSym e.Q)) lo at h2
  change IsGreatest (formValues (lowerSym e.Q)) hi at h4
  rw [lowerSym_of_symm he.2.1] at h2 h4
  have hlo : 0 < lo := by
    obtain ⟨x, hx, rfl⟩ := h2.1
    refine hpos x ?_
    rintro rfl
    simp at hx
  obtain ⟨V, F, hV, hall⟩ := C136_ellipsoid L argsort hsort n fuel hf e.c e.Q he.2 lo hi hlo (least_form h2) (greatest_form h4)
  obtain ⟨s, b, ps, hr, hs, hp, hpe⟩ := rho_list he V
  obtain ⟨xs, hx, hxl, hin, hnear⟩ := hall s.data hs
  exact ⟨V, F, s, b, ps, xs, lo, hi, hV, hr, hp, hx, hxl, h1, h3, convexHull_min (fun p hp => hpe p hp) (ell_convex he.2), hin, hnear⟩

/-! A disc, a segment and a ball. -/

private noncomputable def exDisc2 : EllN 2 := ⟨![1, 2], 1, ⟨1, 1, 1, 1⟩⟩

private theorem exDisc2_psd : exDisc2.PSD := by
  refine ⟨⟨one_pos, one_pos, ⟨1, by norm_num [exDisc2]⟩, ⟨1, by norm_num [exDisc2]⟩⟩, transpose_one, fun x => ?_⟩
  show 0 ≤ x ⬝ᵥ (1 : Matrix (Fin 2) (Fin 2) ℝ) *ᵥ x
  rw [one_mulVec]
  exact Finset.sum_nonneg fun i _ => mul_self_nonneg _

private noncomputable def exSeg2 : EllN 2 := ⟨0, !![4, 0; 0, 0], ⟨1, 1, 1, 1⟩⟩

private theorem exSeg2_psd : exSeg2.PSD := by
  refine ⟨⟨one_pos, one_pos, ⟨1, by norm_num [exSeg2]⟩, ⟨1, by norm_num [exSeg2]⟩⟩, by ext i j; fin_cases i <;> fin_cases j <;> rfl, fun x => ?_⟩
  show 0 ≤ x ⬝ᵥ !![4, 0; 0, 0] *ᵥ x
  simp [dotProduct, mulVec, Fin.sum_univ_two]
  nlinarith [mul_self_nonneg (x 0)]

private noncomputable def exBall3 : EllN 3 := ⟨![1, 2, 3], 1, ⟨1, 1, 1, 1⟩⟩

private theorem exBall3_psd : exBall3.PSD := by
  refine ⟨⟨one_pos, one_pos, ⟨1, by norm_num [exBall3]⟩, ⟨1, by norm_num [exBall3]⟩⟩, transpose_one, fun x => ?_⟩
  show 0 ≤ x ⬝ᵥ (1 : Matrix (Fin 3) (Fin 3) ℝ) *ᵥ x
  rw [one_mulVec]
  exact Finset.sum_nonneg fun i _ => mul_self_nonneg _

example (L : Lstsq) (E : Eigh) : ∃ l s b xs, circlePart 100 none = .ok l ∧ rho (Arr.scalar exSeg2.obj) (dirsOf (vecs l)) = .ok (s, b) ∧
    sup2Boundary2 L (vecs l) s.data = .ok xs ∧ exSeg2.set ⊆ convexHull ℝ {x | x ∈ xs} := by
  obtain ⟨l, s, b, ps, xs, r, h1, h2, -, h3, -, -, -, h4, -⟩ := C160_ellipse L E (n := 100) (by norm_num) exSeg2 exSeg2_psd
  exact ⟨l, s, b, xs, h1, h2, h3, h4⟩

example (L : Lstsq) (E : Eigh) : ∃ l s s' b b' xs, circlePart 100 none = .ok l ∧ rho (Arr.scalar exDisc2.obj) (dirsOf (vecs l)) = .ok (s, b) ∧
    rho (Arr.scalar exSeg2.obj) (dirsOf (vecs l)) = .ok (s', b') ∧ sup2Boundary2 L (vecs l) (List.zipWith (· + ·) s.data s'.data) = .ok xs := by
  obtain ⟨l, s, s', b, b', xs, r, r', h1, h2, h3, h4, -⟩ := C160_sum L E (n := 100) (by norm_num) exDisc2 exSeg2 exDisc2_psd exSeg2_psd
  exact ⟨l, s, s', b, b', xs, h1, h2, h3, h4⟩

example (L : Lstsq) (E : Eigh) : ∃ V F s b xs, sphereTri stableArgsort 4 (3 : ℕ) = .ok (some (V, F)) ∧ rho (Arr.scalar exBall3.obj) (dirsOf V) = .ok (s, b) ∧
    sup2Boundary3 L V s.data (F.map faceZ) = .ok xs ∧ exBall3.set ⊆ convexHull ℝ {x | x ∈ xs} := by
  obtain ⟨V, F, s, b, ps, xs, lo, hi, h1, h2, -, h3, -, -, -, -, h4, -⟩ := C160_space L E stableArgsort stableArgsort_ok 3 4 (by norm_num) exBall3 exBall3_psd
    (fun x hx => by
      show 0 < x ⬝ᵥ (1 : Matrix (Fin 3) (Fin 3) ℝ) *ᵥ x
      rw [one_mulVec]
      exact lt_of_le_of_ne (Finset.sum_nonneg fun i _ => mul_self_nonneg _) (fun h => hx (dotProduct_self_eq_zero.mp h.symm)))
  exact ⟨V, F, s, b, xs, h1, h2, h3, h4⟩

end Ellipy.Ell
