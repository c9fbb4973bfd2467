import Verif.Props.ProjAlg
import Verif.Props.LinImage

/-! Property theorems C157 (`projection` against `polar`, `is_internal`, `is_bigger` and `minksum_ia`). -/

namespace Ellipy.Ell
open Matrix Ellipy.LA

/-- The columns of `B` are orthogonal and none is zero; `projection` asks for this, up to the tolerance. -/
def IsBasis {n m : ℕ} (B : Matrix (Fin n) (Fin m) ℝ) : Prop := (∀ j, ∃ i, B i j ≠ 0) ∧ ∀ i j, i ≠ j → (Bᵀ * B) i j = 0

private theorem proj_set {n m : ℕ} (e : EllN n) (he : IsPSD e.Q) (B : Matrix (Fin n) (Fin m) ℝ) : (e.proj B).set = (fun x => (unitCols B)ᵀ *ᵥ x) '' e.set :=
  ell_image (unitCols B) e.c he

private theorem unit_dot {n m : ℕ} {U : Matrix (Fin n) (Fin m) ℝ} (hU : Uᵀ * U = 1) (x : Fin m → ℝ) : (U *ᵥ x) ⬝ᵥ (U *ᵥ x) = x ⬝ᵥ x := by
  rw [dotProduct_mulVec, ← mulVec_transpose, mulVec_mulVec, hU, one_mulVec]

private theorem unit_ne {n m : ℕ} {U : Matrix (Fin n) (Fin m) ℝ} (hU : Uᵀ * U = 1) {x : Fin m → ℝ} (hx : x ≠ 0) : U *ᵥ x ≠ 0 := by
  intro h
  have : Uᵀ *ᵥ (U *ᵥ x) = x := by rw [mulVec_mulVec, hU, one_mulVec]
  rw [h, mulVec_zero] at this
  exact hx this.symm

private theorem quad_proj {n m : ℕ} (U : Matrix (Fin n) (Fin m) ℝ) (Q : Matrix (Fin n) (Fin n) ℝ) (x : Fin m → ℝ) :
    x ⬝ᵥ (Uᵀ * Q * U) *ᵥ x = (U *ᵥ x) ⬝ᵥ Q *ᵥ (U *ᵥ x) := by
  rw [← mulVec_mulVec, ← mulVec_mulVec, dotProduct_mulVec, vecMul_transpose]

theorem proj_nonDeg {n m : ℕ} {e : EllN n} (he : e.NonDeg) {B : Matrix (Fin n) (Fin m) ℝ} (hU : (unitCols B)ᵀ * unitCols B = 1) : (e.proj B).NonDeg := by
  refine ⟨he.1, (psd_proj (unitCols B) he.psd.2).1, fun x hx => ?_⟩
  show e.props.absTol * (x ⬝ᵥ x) < x ⬝ᵥ ((unitCols B)ᵀ * e.Q * unitCols B) *ᵥ x
  rw [quad_proj, ← unit_dot hU x]
  exact he.2.2 _ (unit_ne hU hx)

private theorem dot_shift {n m : ℕ} (U : Matrix (Fin n) (Fin m) ℝ) (y : Fin m → ℝ) (x : Fin n → ℝ) : y ⬝ᵥ Uᵀ *ᵥ x = (U *ᵥ y) ⬝ᵥ x := by
  rw [dotProduct_mulVec, vecMul_transpose]

/-- **C157**, `polar`: the polar of the projection is the section of the polar with the subspace.  If the origin is inside the ellipsoid, it is inside
the projection. -/
theorem C157_polar (E : Eigh) (L : Lstsq) (p : PropVals) (hp : p.ok) {n m : ℕ} (hn : n ≠ 0) (hm : m ≠ 0) (e : EllN n) (he : e.NonDeg)
    (h0 : OriginInside e.set) (B : Matrix (Fin n) (Fin m) ℝ) (hB : IsBasis B) :
    OriginInside (e.proj B).set ∧ ∃ (r : EllN n) (s : EllN m), polar E L p (Arr.vec [e.obj]) = .ok (Arr.vec [r.obj]) ∧
      polar E L p (Arr.vec [projVal e.obj B rfl]) = .ok (Arr.vec [s.obj]) ∧ ∀ y, y ∈ s.set ↔ unitCols B *ᵥ y ∈ r.set := by
  have hU := unitCols_orth hB.1 hB.2
  have h0' : OriginInside (e.proj B).set := by
    obtain ⟨ε, hε, h⟩ := h0
    refine ⟨ε, hε, fun y hy => ?_⟩
    rw [proj_set e he.psd.2]
    refine ⟨unitCols B *ᵥ y, h _ (by rw [unit_dot hU]; exact hy), ?_⟩
    simp only
    rw [mulVec_mulVec, hU, one_mulVec]
  obtain ⟨r, hr, -, hrs⟩ := C46_partial E L p hp hn e he h0
  obtain ⟨s, hs, -, hss⟩ := C46_partial E L p hp hm (e.proj B) (proj_nonDeg he hU) h0'
  refine ⟨h0', r, s, hr, hs, fun y => ?_⟩
  rw [hrs, hss, proj_set e he.psd.2]
  constructor
  · intro h x hx
    rw [← dot_shift]
    exact h _ ⟨x, hx, rfl⟩
  · rintro h _ ⟨x, hx, rfl⟩
    simp only
    rw [dot_shift]
    exact h x hx

private theorem near_proj {n m : ℕ} {e : EllN n} (he : IsPSD e.Q) (B : Matrix (Fin n) (Fin m) ℝ) (y : Fin m → ℝ) :
    (e.proj B).Near y ↔ ∃ x, e.Near x ∧ (unitCols B)ᵀ *ᵥ x = y := by
  have h : ∀ s : ℝ, Ell (e.proj B).c (s ^ 2 • (e.proj B).Q) = (fun x => (unitCols B)ᵀ *ᵥ x) '' Ell e.c (s ^ 2 • e.Q) := by
    intro s
    have := ell_image (unitCols B) e.c (Q := s ^ 2 • e.Q) ⟨by rw [transpose_smul, he.1], fun y => by
      rw [smul_mulVec, dotProduct_smul, smul_eq_mul]; exact mul_nonneg (sq_nonneg s) (he.2 y)⟩
    rw [Matrix.mul_smul, Matrix.smul_mul] at this
    exact this
  unfold EllN.Near
  constructor
  · rintro ⟨s, h1, h2, hy⟩
    rw [h] at hy
    obtain ⟨x, hx, rfl⟩ := hy
    exact ⟨x, ⟨s, h1, h2, hx⟩, rfl⟩
  · rintro ⟨x, ⟨s, h1, h2, hx⟩, rfl⟩
    refine ⟨s, h1, h2, ?_⟩
    show _ ∈ Ell (e.proj B).c (s ^ 2 • (e.proj B).Q)
    rw [h]
    exact ⟨x, hx, rfl⟩

/-- **C157**, `is_internal`: the projection of a point that belongs to all (or some) of the ellipsoids belongs to all (or some) of the projections. -/
theorem C157_internal (E : Eigh) (G : Eig) {n m k : ℕ} (hn : n ≠ 0) (hm : m ≠ 0) (es : List (EllN n)) (hne : es ≠ []) (hes : ∀ e ∈ es, e.NonDeg)
    (B : Matrix (Fin n) (Fin m) ℝ) (hB : IsBasis B) (a a' : Arr EllObj) (ha : a.data = es.map EllN.obj) (ha' : a'.data = es.map fun e => projVal e.obj B rfl)
    (hc : IsColumn a) (hc' : IsColumn a') (x x' : Arr ℝ) (X : Fin k → Fin n → ℝ) (hx : IsPoints x X) (hx' : IsPoints x' fun j => (unitCols B)ᵀ *ᵥ X j)
    (mode : String) (hmode : mode = "u" ∨ mode = "i") :
    ∃ r r', isInternal E G a x (some mode) = .ok r ∧ isInternal E G a' x' (some mode) = .ok r' ∧
      ∀ j : Fin k, r.data[j.val]? = some true → r'.data[j.val]? = some true := by
  have hU := unitCols_orth hB.1 hB.2
  have hes' : ∀ e ∈ es.map (fun e => e.proj B), e.NonDeg := by
    intro e he
    obtain ⟨f, hf, rfl⟩ := List.mem_map.mp he
    exact proj_nonDeg (hes f hf) hU
  have ha'' : a'.data = (es.map fun e => e.proj B).map EllN.obj := by rw [ha', List.map_map]; rfl
  obtain ⟨⟨r, hr, -, hrb⟩, q, hq, -, hqb⟩ := C41_partial E G hn a es ha hne hes hc x X hx
  obtain ⟨⟨r', hr', -, hrb'⟩, q', hq', -, hqb'⟩ := C41_partial E G hm a' _ ha'' (by simpa using hne) hes' hc' x' _ hx'
  rcases hmode with rfl | rfl
  · refine ⟨r, r', hr, hr', fun j hj => ?_⟩
    obtain ⟨b, hb, hbe⟩ := hrb j
    obtain ⟨b', hb', hbe'⟩ := hrb' j
    rw [hb] at hj
    cases hj
    obtain ⟨e, he, hne⟩ := hbe.mp rfl
    rw [hb', hbe'.mpr ⟨_, List.mem_map.mpr ⟨e, he, rfl⟩, (near_proj (hes e he).psd.2 B _).mpr ⟨_, hne, rfl⟩⟩]
  · refine ⟨q, q', hq, hq', fun j hj => ?_⟩
    obtain ⟨b, hb, hbe⟩ := hqb j
    obtain ⟨b', hb', hbe'⟩ := hqb' j
    rw [hb] at hj
    cases hj
    have hall := hbe.mp rfl
    rw [hb', hbe'.mpr]
    intro f hf
    obtain ⟨e, he, rfl⟩ := List.mem_map.mp hf
    exact (near_proj (hes e he).psd.2 B _).mpr ⟨_, hall e he, rfl⟩

/-- **C157**, `is_internal` backwards: over every family of points of the subspace there are points of the space with these projections and, for one
ellipsoid, exactly the same answers. -/
theorem C157_internal_lift (E : Eigh) (G : Eig) {n m k : ℕ} (hn : n ≠ 0) (hm : m ≠ 0) (e : EllN n) (he : e.NonDeg)
    (B : Matrix (Fin n) (Fin m) ℝ) (hB : IsBasis B) (a a' : Arr EllObj) (ha : a.data = [e.obj]) (ha' : a'.data = [projVal e.obj B rfl])
    (hc : IsColumn a) (hc' : IsColumn a') (x' : Arr ℝ) (Y : Fin k → Fin m → ℝ) (hx' : IsPoints x' Y) :
    ∃ X : Fin k → Fin n → ℝ, (∀ j, (unitCols B)ᵀ *ᵥ X j = Y j) ∧ ∀ x, IsPoints x X →
      ∃ r r', isInternal E G a x (some "u") = .ok r ∧ isInternal E G a' x' (some "u") = .ok r' ∧ ∀ j : Fin k, ∃ b, r.data[j.val]? = some b ∧ r'.data[j.val]? = some b := by
  have hU := unitCols_orth hB.1 hB.2
  have hX : ∀ j, ∃ X : Fin n → ℝ, (unitCols B)ᵀ *ᵥ X = Y j ∧ ((e.proj B).Near (Y j) → e.Near X) := by
    intro j
    by_cases hj : (e.proj B).Near (Y j)
    · obtain ⟨x, hx, hxy⟩ := (near_proj he.psd.2 B _).mp hj
      exact ⟨x, hxy, fun _ => hx⟩
    · exact ⟨unitCols B *ᵥ Y j, by rw [mulVec_mulVec, hU, one_mulVec], fun h => absurd h hj⟩
  choose X hX1 hX2 using hX
  refine ⟨X, hX1, fun x hx => ?_⟩
  obtain ⟨⟨r, hr, -, hrb⟩, -⟩ := C41_partial E G hn a [e] ha (by simp) (by simpa using he) hc x X hx
  obtain ⟨⟨r', hr', -, hrb'⟩, -⟩ := C41_partial E G hm a' [e.proj B] ha' (by simp) (by simpa using proj_nonDeg he hU) hc' x' Y hx'
  refine ⟨r, r', hr, hr', fun j => ?_⟩
  obtain ⟨b, hb, hbe⟩ := hrb j
  obtain ⟨b', hb', hbe'⟩ := hrb' j
  simp only [List.mem_singleton, exists_eq_left] at hbe hbe'
  have : b' = b := by
    rw [Bool.eq_iff_iff, hbe, hbe']
    exact ⟨hX2 j, fun h => (near_proj he.psd.2 B _).mpr ⟨_, h, hX1 j⟩⟩
  exact ⟨b, hb, this ▸ hb'⟩

/-- **C157**, `is_bigger`: if one ellipsoid is bigger than another, its projection is bigger than that of the other. -/
theorem C157_bigger (E : Eigh) (G : Eig) (S : Svd) (L : Lstsq) {n m : ℕ} (hn : n ≠ 0) (hm : m ≠ 0) (hmn : m ≤ n) (e f : EllN n) (he : e.NonDeg) (hf : f.PSD)
    (hw : WellCond e.Q machEps) (B : Matrix (Fin n) (Fin m) ℝ) (hB : IsBasis B) (h : isBigger E G S L e.obj (Arr.vec [f.obj]) = .ok true) :
    isBigger E G S L (projVal e.obj B rfl) (Arr.vec [projVal f.obj B rfl]) = .ok true := by
  have hU := unitCols_orth hB.1 hB.2
  obtain ⟨b, hb, hbi⟩ := C42_sound E G S L hn e f he hf
  rw [h] at hb
  cases hb
  have hin := hbi rfl
  have hw' : WellCond (e.proj B).Q machEps := by
    intro x y hx hy
    show (y ⬝ᵥ ((unitCols B)ᵀ * e.Q * unitCols B) *ᵥ y) * m * machEps < x ⬝ᵥ ((unitCols B)ᵀ * e.Q * unitCols B) *ᵥ x
    rw [quad_proj, quad_proj]
    have h1 := hw (unitCols B *ᵥ x) (unitCols B *ᵥ y) (by rw [unit_dot hU, hx]) (by rw [unit_dot hU, hy])
    refine lt_of_le_of_lt ?_ h1
    have h2 : (m : ℝ) ≤ n := by exact_mod_cast hmn
    have h3 : (0 : ℝ) ≤ machEps := by unfold machEps; positivity
    exact mul_le_mul_of_nonneg_right (mul_le_mul_of_nonneg_left h2 (he.psd.2.2 _)) h3
  have hf' : (f.proj B).PSD := ⟨hf.1, psd_proj _ hf.2⟩
  obtain ⟨b, hb, hbi⟩ := C42_partial E G S L hm (e.proj B) (f.proj B) (proj_nonDeg he hU) hf' hw'
  have : b = true := by
    rw [hbi]
    intro l hl r hr R hR
    have key : ∀ (Q : Matrix (Fin n) (Fin n) ℝ), IsPSD Q → ∀ t, IsSupport (Ell 0 ((unitCols B)ᵀ * Q * unitCols B)) l t →
        IsSupport (Ell 0 Q) (unitCols B *ᵥ l) t := by
      intro Q hQ t ht
      have h1 := ell_support (c := (0 : Fin m → ℝ)) (psd_proj (unitCols B) hQ) l
      have h2 := ell_support (c := (0 : Fin n → ℝ)) hQ (unitCols B *ᵥ l)
      rw [quad_proj, dotProduct_zero] at h1
      rw [dotProduct_zero] at h2
      rw [IsGreatest.unique ht h1]
      exact h2
    exact hin _ (unit_ne hU hl) r (key f.Q hf.2 r hr) R (key e.Q he.psd.2 R hR)
  rw [← this]
  exact hb

/-- The Minkowski sum of the projections is the projection of the sum. -/
private theorem minkSum_proj {n m : ℕ} (B : Matrix (Fin n) (Fin m) ℝ) (es : List (EllN n)) (hes : ∀ e ∈ es, IsPSD e.Q) :
    minkSum (es.map fun e => (e.proj B).set) = (fun x => (unitCols B)ᵀ *ᵥ x) '' minkSum (es.map EllN.set) := by
  induction es with
  | nil =>
    rw [List.map_nil, List.map_nil, minkSum_nil, minkSum_nil, Set.image_singleton, mulVec_zero]
  | cons e es ih =>
    rw [List.map_cons, List.map_cons, minkSum_cons, minkSum_cons, ih (fun f hf => hes f (List.mem_cons_of_mem _ hf)), proj_set e (hes e (by simp))]
    ext y
    constructor
    · rintro ⟨_, ⟨u, hu, rfl⟩, _, ⟨v, hv, rfl⟩, rfl⟩
      exact ⟨u + v, ⟨u, hu, v, hv, rfl⟩, mulVec_add _ _ _⟩
    · rintro ⟨_, ⟨u, hu, v, hv, rfl⟩, rfl⟩
      exact ⟨_, ⟨u, hu, rfl⟩, _, ⟨v, hv, rfl⟩, (mulVec_add _ _ _).symm⟩

private theorem support_proj {n m : ℕ} {U : Matrix (Fin n) (Fin m) ℝ} {X : Set (Fin n → ℝ)} {l : Fin m → ℝ} {r : ℝ} (h : IsSupport X (U *ᵥ l) r) :
    IsSupport ((fun x => Uᵀ *ᵥ x) '' X) l r := by
  obtain ⟨⟨x, hx, hxr⟩, hub⟩ := h
  refine ⟨⟨Uᵀ *ᵥ x, ⟨x, hx, rfl⟩, ?_⟩, ?_⟩
  · simp only at hxr ⊢
    rw [dot_shift, hxr]
  · rintro _ ⟨_, ⟨y, hy, rfl⟩, rfl⟩
    simp only
    rw [dot_shift]
    exact hub ⟨y, hy, rfl⟩

/-- **C157**, `minksum_ia`: the projections of the internal approximations of a sum lie in the sum of the projections and touch it in the directions given,
as precisely as the approximations themselves. -/
theorem C157_minksum_ia (E : Eigh) (G : Eig) (p : PropVals) (hp : p.ok) {n m k : ℕ} (hn : n ≠ 0) (es : List (EllN n)) (h2 : 2 ≤ es.length)
    (hes : ∀ e ∈ es, e.NonDeg) (B : Matrix (Fin n) (Fin m) ℝ) (hB : IsBasis B) (W : Matrix (Fin m) (Fin k) ℝ) (hW : ∀ j, (fun i => W i j) ≠ 0) :
    ∃ rs : Fin k → EllN n, minksumIa E G p (es.map EllN.obj) (unitCols B * W) = .ok (Arr.vec (List.ofFn fun j => (rs j).obj)) ∧
      ∀ j, ((rs j).proj B).set ⊆ minkSum (es.map fun e => (e.proj B).set) ∧
        ∃ r w w', IsSupport (minkSum (es.map fun e => (e.proj B).set)) (fun i => W i j) (r + w) ∧ IsSupport ((rs j).proj B).set (fun i => W i j) (r + w') ∧
          r = (fun i => W i j) ⬝ᵥ ((rs j).proj B).c ∧ (1 - 1 / 10 ^ 14) * w ≤ w' ∧ w' ≤ w := by
  have hU := unitCols_orth hB.1 hB.2
  have hcol : ∀ j, (fun i => (unitCols B * W) i j) = unitCols B *ᵥ fun i => W i j := fun j => rfl
  obtain ⟨Qs, hQ, h⟩ := C44 E G p hp hn es h2 hes (unitCols B * W) (fun j => by rw [hcol]; exact unit_ne hU (hW j))
  refine ⟨fun j => ⟨(es.map EllN.c).sum, Qs j, p⟩, hQ, fun j => ?_⟩
  obtain ⟨hpsd, hsub, r, w, w', s1, s2, hr, hw1, hw2⟩ := h j
  rw [hcol] at s1 s2 hr
  rw [minkSum_proj B es (fun e he => (hes e he).psd.2), proj_set _ hpsd]
  refine ⟨Set.image_mono hsub, r, w, w', support_proj s1, support_proj s2, ?_, hw1, hw2⟩
  show r = (fun i => W i j) ⬝ᵥ (unitCols B)ᵀ *ᵥ (es.map EllN.c).sum
  rw [dot_shift]
  exact hr

/-! Two ellipses and their shadows on the line through (3, 4). -/

private def exB : Matrix (Fin 2) (Fin 1) ℝ := !![3; 4]

private theorem exB_basis : IsBasis exB := by
  refine ⟨fun j => ⟨0, ?_⟩, fun i j hij => absurd (Subsingleton.elim i j) hij⟩
  fin_cases j
  simp [exB]

example (E : Eigh) (L : Lstsq) : ∃ r s, polar E L stdProps (Arr.vec [(⟨0, !![1, 0; 0, 4], stdProps⟩ : EllN 2).obj]) = .ok (Arr.vec [EllN.obj (n := 2) r]) ∧
    polar E L stdProps (Arr.vec [projVal (⟨0, !![1, 0; 0, 4], stdProps⟩ : EllN 2).obj exB rfl]) = .ok (Arr.vec [EllN.obj (n := 1) s]) ∧
      ∀ y, y ∈ s.set ↔ unitCols exB *ᵥ y ∈ r.set := by
  have hnd := nonDeg_diagSh (a := 1) (b := 4) (by norm_num) (by norm_num) 0
  refine (C157_polar E L stdProps stdProps_ok (by norm_num) (by norm_num) ⟨0, !![1, 0; 0, 4], stdProps⟩ hnd ?_ exB exB_basis).2
  by_contra hcon
  have h1 := k_interior hnd hcon
  simp only [EllN.k, zero_dotProduct] at h1
  linarith

example (E : Eigh) (G : Eig) : ∃ rs : Fin 1 → EllN 2, minksumIa E G stdProps (twoEll.map EllN.obj) (unitCols exB * (1 : Matrix (Fin 1) (Fin 1) ℝ)) = .ok (Arr.vec (List.ofFn fun j => (rs j).obj)) ∧
    ∀ j, ((rs j).proj exB).set ⊆ minkSum (twoEll.map fun e => (e.proj exB).set) := by
  obtain ⟨rs, h1, h2⟩ := C157_minksum_ia E G stdProps stdProps_ok (by norm_num) twoEll (by simp [twoEll]) twoEll_nonDeg exB exB_basis (1 : Matrix (Fin 1) (Fin 1) ℝ) (fun j h => by
    have := congrFun h j
    simp at this)
  exact ⟨rs, h1, fun j => (h2 j).1⟩

end Ellipy.Ell
