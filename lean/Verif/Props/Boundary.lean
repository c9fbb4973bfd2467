import Verif.Model.Boundary
import Verif.Spec.Boundary
import Verif.Props.SphereTriExt
import Verif.Props.RhoMat
import Verif.Props.Polar

/-! Property theorems C47, C65 and C66 (`get_boundary`, `get_rho_boundary`, `_get_grid_by_factor`). -/

namespace Ellipy.Ell
open Matrix Ellipy.LA Ellipy.Tri

theorem nonDeg_psd {n : ℕ} {e : EllN n} (he : e.NonDeg) : IsPSD e.Q := by
  refine ⟨he.2.1, fun x => ?_⟩
  by_cases hx : x = 0
  · rw [hx, zero_dotProduct]
  · have h1 := he.2.2 x hx
    have h2 := he.1.1
    have h3 := dot_self_nonneg x
    have : 0 ≤ e.props.absTol * (x ⬝ᵥ x) := mul_nonneg h2.le h3
    linarith

theorem asVec_self {n : ℕ} (d : Fin n → ℝ) : asVec n d = d := by
  funext i; simp [asVec]

theorem root_inj {n : ℕ} {e : EllN n} (he : e.NonDeg) {S : Matrix (Fin n) (Fin n) ℝ} (hSS : S * S = e.Q) {u v : Fin n → ℝ} (h : S *ᵥ u = S *ᵥ v) : u = v := by
  by_contra hne
  have hd : u - v ≠ 0 := sub_ne_zero.mpr hne
  have h1 := he.2.2 _ hd
  have h2 : e.Q *ᵥ (u - v) = 0 := by rw [← hSS, ← mulVec_mulVec, mulVec_sub, h, sub_self, mulVec_zero]
  rw [h2, dotProduct_zero] at h1
  have h3 : 0 ≤ e.props.absTol * ((u - v) ⬝ᵥ (u - v)) := mul_nonneg he.1.1.le (dot_self_nonneg _)
  linarith

theorem mem_scaled {n : ℕ} {e : EllN n} (he : e.NonDeg) {S : Matrix (Fin n) (Fin n) ℝ} (hS : IsPSD S) (hSS : S * S = e.Q) (u : Fin n → ℝ) {t : ℝ} (ht : 0 ≤ t) :
    e.c + S *ᵥ u ∈ Ell e.c (t • e.Q) ↔ u ⬝ᵥ u ≤ t := by
  have hM : (Real.sqrt t • S) * (Real.sqrt t • S)ᵀ = t • e.Q := by
    rw [transpose_smul, hS.1, smul_mul_smul_comm, Real.mul_self_sqrt ht, hSS]
  rw [mem_ell_factor hM]
  constructor
  · rintro ⟨v, hv, h⟩
    have h1 : S *ᵥ u = S *ᵥ (Real.sqrt t • v) := by
      have := add_left_cancel h
      rw [this, smul_mulVec, mulVec_smul]
    rw [root_inj he hSS h1, smul_dotProduct, dotProduct_smul, smul_eq_mul, smul_eq_mul, ← mul_assoc, Real.mul_self_sqrt ht]
    nlinarith
  · intro h
    rcases eq_or_lt_of_le ht with h0 | h0
    · subst h0
      have hu : u = 0 := by
        by_contra hne
        have := dot_self_pos hne
        linarith
      exact ⟨0, by simp, by rw [hu]; simp⟩
    · have hs : 0 < Real.sqrt t := Real.sqrt_pos.mpr h0
      refine ⟨(1 / Real.sqrt t) • u, ?_, ?_⟩
      · rw [smul_dotProduct, dotProduct_smul, smul_eq_mul, smul_eq_mul, ← mul_assoc, div_mul_div_comm, Real.mul_self_sqrt ht, mul_one, one_div, inv_mul_le_iff₀ h0]
        linarith
      · rw [smul_mulVec, mulVec_smul, smul_smul, mul_one_div_cancel hs.ne', one_smul]

theorem shell_of {n : ℕ} {e : EllN n} (he : e.NonDeg) {S : Matrix (Fin n) (Fin n) ℝ} (hS : IsPSD S) (hSS : S * S = e.Q) {u : Fin n → ℝ} {r : ℝ}
    (h1 : 1 ≤ u ⬝ᵥ u) (h2 : u ⬝ᵥ u ≤ 1 + r) : Shell e.c e.Q r (e.c + S *ᵥ u) := by
  refine ⟨(mem_scaled he hS hSS u (by linarith)).mpr h2, fun t ht0 ht1 h => ?_⟩
  have := (mem_scaled he hS hSS u ht0).mp h
  linarith

theorem row_mul {n : ℕ} {S : Matrix (Fin n) (Fin n) ℝ} (hS : Sᵀ = S) (d c : Fin n → ℝ) : asVec n d ᵥ* S + c = c + S *ᵥ d := by
  rw [asVec_self, ← mulVec_transpose, hS, add_comm]

theorem attr_nat (n : ℕ) : attrPts (n : ℝ) = .int n := by
  unfold attrPts
  rw [if_pos (by simp)]
  simp

theorem asked_two {e : EllN 2} {num : Option NPts} {n : ℕ} (h : Asked num e.props.n2d n) : boundaryPts e.obj num = .ok (.int n) := by
  unfold boundaryPts
  rw [if_pos (show e.obj.n = 2 from rfl)]
  rcases h with rfl | ⟨rfl, h⟩
  · rfl
  · show Except.ok (attrPts e.props.n2d) = _
    rw [h, attr_nat]

theorem asked_three {e : EllN 3} {num : Option NPts} {n : ℕ} (h : Asked num e.props.n3d n) : boundaryPts e.obj num = .ok (.int n) := by
  unfold boundaryPts
  rw [if_neg (by show ¬ (3 = 2); omega), if_pos (show e.obj.n = 3 from rfl)]
  rcases h with rfl | ⟨rfl, h⟩
  · rfl
  · show Except.ok (attrPts e.props.n3d) = _
    rw [h, attr_nat]

/-! ### `get_boundary` -/

/-- **C47**, the plane: there are `n` points, point `k` is the image of the direction at the angle `2πk/n` (up to the replacement of
zeros) under the root of the shape matrix, all points lie on the boundary up to the factor `√(1 + eps²)`, and the segments form a closed
line through all points. -/
theorem C47 (E : Eigh) (argsort : List ℕ → List ℕ) (fuel : ℕ) (e : EllN 2) (he : e.NonDeg) (num : Option NPts) (n : ℕ) (hn : 1 ≤ n)
    (hnum : Asked num e.props.n2d n) : ∃ V : List (Fin 2 → ℝ), getBoundary E argsort fuel e.obj num false = .ok (some (V, none)) ∧
      (∃ F, getBoundary E argsort fuel e.obj num true = .ok (some (V, some (.seg F))) ∧ F.length = n ∧ ∀ k (hk : k < F.length), F[k] = (k, (k + 1) % n)) ∧
      V.length = n ∧
      (∃ S, IsPSD S ∧ S * S = e.Q ∧ ∀ k (hk : k < V.length), ∃ d : Fin 2 → ℝ, |d 0 - Real.cos (2 * Real.pi * k / n)| ≤ machEps ∧
        |d 1 - Real.sin (2 * Real.pi * k / n)| ≤ machEps ∧ V[k] = e.c + S *ᵥ d) ∧
      ∀ x ∈ V, Shell e.c e.Q (machEps ^ 2) x := by
  obtain ⟨V, h1, ⟨F, h2, hF, hFk⟩, hV, hVk, hsh⟩ := C57_plane argsort fuel n hn
  obtain ⟨S, hS0, hS, hSS, -⟩ := C21_root E e.Q e.props.absTol he.1.1.le (nonDeg_psd he)
  refine ⟨V.map (fun d => e.c + S *ᵥ d), ?_, ⟨F, ?_, hF, hFk⟩, by rw [List.length_map, hV], ⟨S, hS, hSS, ?_⟩, ?_⟩
  · unfold getBoundary
    rw [asked_two hnum]
    have h1' : sphereTriExt argsort fuel (e.obj.n : ℤ) (.int n) false = .ok (some (.pts2 V)) := h1
    have hS' : sqrtmPos E e.obj.Q e.obj.absTol = .ok S := hS0
    simp only [h1', hS']
    congr 3
    exact List.map_congr_left (fun d _ => row_mul hS.1 d e.c)
  · unfold getBoundary
    rw [asked_two hnum]
    have h1' : sphereTriExt argsort fuel (e.obj.n : ℤ) (.int n) true = .ok (some (.grid2 V F)) := h2
    have hS' : sqrtmPos E e.obj.Q e.obj.absTol = .ok S := hS0
    simp only [h1', hS']
    congr 3
    exact List.map_congr_left (fun d _ => row_mul hS.1 d e.c)
  · intro k hk
    rw [List.length_map] at hk
    exact ⟨V[k], (hVk k hk).1, (hVk k hk).2, by rw [List.getElem_map]⟩
  · intro x hx
    obtain ⟨d, hd, rfl⟩ := List.mem_map.mp hx
    obtain ⟨-, a, b⟩ := hsh d hd
    refine shell_of he hS hSS ?_ ?_ <;> (rw [dotProduct, Fin.sum_univ_two]; linarith [sq (d 0), sq (d 1)])

/-- **C47**, space, with the faces asked for: the points are the images of the vertices of the least sufficient triangulation of the
sphere, with the same triangles, and lie on the boundary up to the factor `√(1 + 2 eps²)`. -/
theorem C47_space (E : Eigh) (argsort : List ℕ → List ℕ) (hsort : IsArgsort argsort) (e : EllN 3) (he : e.NonDeg) (num : Option NPts) (n : ℕ) (hn : 1 ≤ n)
    (hnum : Asked num e.props.n3d n) : ∃ d, IsLeast {d | 1 ≤ d ∧ n ≤ 10 * 4 ^ d + 2} d ∧ ∀ fuel, d < fuel → ∃ (V V0 W : List (Fin 3 → ℝ)) (F : List Row),
      getBoundary E argsort fuel e.obj num true = .ok (some (V, some (.tri F))) ∧ sphereTri argsort fuel d = .ok (some (V0, F)) ∧ CloseTo machEps W V0 ∧
      (∃ S, IsPSD S ∧ S * S = e.Q ∧ V = W.map (fun w => e.c + S *ᵥ w)) ∧ V.length = 10 * 4 ^ d + 2 ∧ ∀ x ∈ V, Shell e.c e.Q (2 * machEps ^ 2) x := by
  obtain ⟨d, hd, h⟩ := C57 argsort hsort 3 (by norm_num) (.int n) n hn (Or.inl rfl) true
  refine ⟨d, hd, fun fuel hf => ?_⟩
  obtain ⟨W, V0, F, h1, h2, h3, h4, h5⟩ := h fuel hf
  obtain ⟨S, hS0, hS, hSS, -⟩ := C21_root E e.Q e.props.absTol he.1.1.le (nonDeg_psd he)
  refine ⟨W.map (fun d => e.c + S *ᵥ d), V0, W, F, ?_, h2, h3, ⟨S, hS, hSS, rfl⟩, by rw [List.length_map, h4], ?_⟩
  · unfold getBoundary
    rw [asked_three hnum]
    have h1' : sphereTriExt argsort fuel (e.obj.n : ℤ) (.int n) true = .ok (some (.grid3 W F)) := h1
    have hS' : sqrtmPos E e.obj.Q e.obj.absTol = .ok S := hS0
    simp only [h1', hS', if_true]
    congr 3
    exact List.map_congr_left (fun d _ => row_mul hS.1 d e.c)
  · intro x hx
    obtain ⟨w, hw, rfl⟩ := List.mem_map.mp hx
    obtain ⟨-, a, b⟩ := h5 w hw
    refine shell_of he hS hSS ?_ ?_ <;> (rw [dotProduct, Fin.sum_univ_three]; linarith [sq (w 0), sq (w 1), sq (w 2)])

/-- **C47** fails in space when the faces are not asked for: the call raises, for every ellipsoid and every number of points. -/
theorem C47_violated (E : Eigh) (argsort : List ℕ → List ℕ) (hsort : IsArgsort argsort) (e : EllN 3) (num : Option NPts) (n : ℕ) (hn : 1 ≤ n)
    (hnum : Asked num e.props.n3d n) : ∃ d, ∀ fuel, d < fuel → Raises (getBoundary E argsort fuel e.obj num false) := by
  obtain ⟨d, hd, h⟩ := C57 argsort hsort 3 (by norm_num) (.int n) n hn (Or.inl rfl) false
  refine ⟨d, fun fuel hf => ?_⟩
  obtain ⟨W, V0, F, h1, -⟩ := h fuel hf
  unfold getBoundary
  rw [asked_three hnum]
  have h1' : sphereTriExt argsort fuel (e.obj.n : ℤ) (.int n) false = .ok (some (.grid3 W F)) := h1
  simp only [h1']
  rcases sqrtmPos E e.obj.Q e.obj.absTol with x | S
  · exact ⟨_, rfl⟩
  · exact ⟨_, rfl⟩

/-- **C47**, errors: the other dimensions are rejected. -/
theorem C47_raises (E : Eigh) (argsort : List ℕ → List ℕ) (fuel : ℕ) (e : EllObj) (h2 : e.n ≠ 2) (h3 : e.n ≠ 3) (num : Option NPts) (grid : Bool)
    (f : FactorArg) : Raises (getBoundary E argsort fuel e num grid) ∧ Raises (getBoundaryByFactor E argsort fuel e f grid) := by
  constructor
  · unfold getBoundary boundaryPts
    rw [if_neg h2, if_neg h3]
    exact ⟨_, rfl⟩
  · unfold getBoundaryByFactor
    rw [if_pos (by omega)]
    exact ⟨_, rfl⟩

/-- **C47**, errors: numbers of points that are not positive are rejected. -/
theorem C47_raises_num (E : Eigh) (argsort : List ℕ → List ℕ) (hsort : IsArgsort argsort) (fuel : ℕ) (e : EllObj) (z : ℤ) (hz : z ≤ 0) (grid : Bool) :
    Raises (getBoundary E argsort fuel e (some (.int z)) grid) := by
  unfold getBoundary
  rcases hb : boundaryPts e (some (.int z)) with x | num
  · exact ⟨_, rfl⟩
  have hnum : num = .int z := by
    unfold boundaryPts at hb
    by_cases h2 : e.n = 2
    · rw [if_pos h2] at hb; exact (Except.ok.inj hb).symm
    · rw [if_neg h2] at hb
      by_cases h3 : e.n = 3
      · rw [if_pos h3] at hb; exact (Except.ok.inj hb).symm
      · rw [if_neg h3] at hb; cases hb
  obtain ⟨x, hx⟩ := (C57_raises_iff argsort hsort fuel e.n num grid).mpr (Or.inl (by
    rw [hnum]
    rintro (h | ⟨n, hn, h | h⟩)
    · cases h
    · injection h with h; omega
    · cases h))
  simp only [hx]
  exact ⟨_, rfl⟩

/-- The number of points with a factor. -/
theorem scaled_eq {pts f : ℝ} {n : ℕ} (hp : ∃ z : ℤ, pts = z) (h : ⌊pts * f⌋ = n) : scaledPts pts f = .int n := by
  unfold scaledPts
  by_cases hf : f = 1
  · rw [if_neg (not_not.mpr hf)]
    rw [hf, mul_one] at h
    obtain ⟨z, rfl⟩ := hp
    rw [Int.floor_intCast] at h
    rw [h]
    exact attr_nat n
  · rw [if_pos hf, h]

/-- **C47**, `get_boundary_by_factor` with an integer or a vector: the boundary with the rounded down product of the attribute and the
factor as the number of points. -/
theorem C47_factor (E : Eigh) (argsort : List ℕ → List ℕ) (fuel : ℕ) (e : EllN 2) (he : e.NonDeg) (fa : FactorArg) (f : ℝ)
    (hf : (fa = .none ∧ f = 1) ∨ (∃ z : ℤ, fa = .int z ∧ f = z) ∨ ∃ rest, fa = .vec (f :: rest)) (n : ℕ) (hn : ⌊e.props.n2d * f⌋ = n) (grid : Bool) :
    getBoundaryByFactor E argsort fuel e.obj fa grid = getBoundary E argsort fuel e.obj (some (.int n)) grid := by
  unfold getBoundaryByFactor
  rw [if_neg (by show ¬ (2 < 2 ∨ 3 < 2); omega)]
  have h1 : factorOf e.obj.n fa = .ok f := by
    show factorOf 2 fa = .ok f
    rcases hf with ⟨rfl, rfl⟩ | ⟨z, rfl, rfl⟩ | ⟨rest, rfl⟩
    · rfl
    · rfl
    · simp [factorOf]
  rw [h1]
  have h2 : scaledPts (if e.obj.n = 2 then e.obj.n2d else e.obj.n3d) f = .int n := by
    rw [if_pos (show e.obj.n = 2 from rfl)]
    exact scaled_eq he.1.2.2.1 hn
  simp only [h2]

/-- **C47**, `get_boundary_by_factor` with a float fails, though the annotation allows it. -/
theorem C47_factor_float (E : Eigh) (argsort : List ℕ → List ℕ) (fuel : ℕ) (e : EllObj) (x : ℝ) (grid : Bool) :
    Raises (getBoundaryByFactor E argsort fuel e (.flt x) grid) ∧ Raises (getRhoBoundaryByFactor argsort fuel e (.flt x)) := by
  constructor
  · unfold getBoundaryByFactor
    by_cases h : e.n < 2 ∨ 3 < e.n
    · rw [if_pos h]; exact ⟨_, rfl⟩
    · rw [if_neg h]; exact ⟨_, rfl⟩
  · exact ⟨_, rfl⟩

/-! ### `get_rho_boundary` -/

theorem rhoPart_ok {n : ℕ} (e : EllN n) (he : e.PSD) (dirs : List (Fin n → ℝ)) (F : Faces) : ∃ r : RhoBoundary n, rhoPart e.Q e.props.absTol e.c dirs F = .ok r ∧
    r.faces = F ∧ r.dirs = dirs ++ dirs.take 1 ∧ r.sup.length = r.dirs.length ∧ r.bp.length = r.dirs.length ∧
    ∀ k (h1 : k < r.dirs.length) (h2 : k < r.sup.length) (h3 : k < r.bp.length), IsSupport e.set r.dirs[k] r.sup[k] ∧
      ∃ x ∈ e.set, (∀ i, r.bp[k] i = .fin (x i)) ∧ r.dirs[k] ⬝ᵥ x = r.sup[k] := by
  obtain ⟨sup, bp, h, hj⟩ := C31 e.Q he.2 (of fun (i : Fin n) (j : Fin (dirs ++ dirs.take 1).length) => (dirs ++ dirs.take 1)[j] i) e.props.absTol he.1.1.le e.c
  refine ⟨⟨List.ofFn bp, F, List.ofFn sup, dirs ++ dirs.take 1⟩, ?_, rfl, rfl, by simp, by simp, ?_⟩
  · unfold rhoPart
    simp only [h]
  · intro k h1 h2 h3
    obtain ⟨a, x, hx, b, c⟩ := hj ⟨k, h1⟩
    simp only [List.getElem_ofFn]
    exact ⟨a, x, hx, b, c⟩

/-- **C65**: `get_rho_boundary` in the plane.  The directions are those of the grid followed by the first one; every support value is
the value of the support function in its direction, and the point belongs to the ellipsoid and attains it (for flat ellipsoids too). -/
theorem C65 (argsort : List ℕ → List ℕ) (fuel : ℕ) (e : EllN 2) (he : e.PSD) (num : Option NPts) (n : ℕ) (hn : 1 ≤ n) (hnum : Asked num e.props.n2d n) :
    ∃ (r : RhoBoundary 2) (F : List (ℕ × ℕ)), getRhoBoundary argsort fuel e.obj num = .ok (some r) ∧ r.faces = .seg F ∧
      F.length = n ∧ (∀ k (hk : k < F.length), F[k] = (k, (k + 1) % n)) ∧
      r.dirs.length = n + 1 ∧ r.sup.length = n + 1 ∧ r.bp.length = n + 1 ∧
      (∀ k (hk : k < r.dirs.length), |r.dirs[k] 0 - Real.cos (2 * Real.pi * k / n)| ≤ machEps ∧ |r.dirs[k] 1 - Real.sin (2 * Real.pi * k / n)| ≤ machEps) ∧
      ∀ k (h1 : k < r.dirs.length) (h2 : k < r.sup.length) (h3 : k < r.bp.length), IsSupport e.set r.dirs[k] r.sup[k] ∧
        ∃ x ∈ e.set, (∀ i, r.bp[k] i = .fin (x i)) ∧ r.dirs[k] ⬝ᵥ x = r.sup[k] := by
  obtain ⟨V, -, ⟨F, h2, hF, hFk⟩, hV, hVk, -⟩ := C57_plane argsort fuel n hn
  obtain ⟨r, hr, r1, r2, r3, r4, r5⟩ := rhoPart_ok e he V (.seg F)
  have hlen : r.dirs.length = n + 1 := by rw [r2, List.length_append, List.length_take, hV]; omega
  refine ⟨r, F, ?_, r1, hF, hFk, hlen, by rw [r3, hlen], by rw [r4, hlen], ?_, r5⟩
  · unfold getRhoBoundary
    rw [asked_two hnum]
    have h1' : sphereTriExt argsort fuel (e.obj.n : ℤ) (.int n) true = .ok (some (.grid2 V F)) := h2
    have hm : V.map (asVec e.obj.n) = V := (List.map_congr_left (fun d _ => asVec_self (n := 2) d)).trans (List.map_id V)
    have hr' : rhoPart e.obj.Q e.obj.absTol e.obj.c (V.map (asVec e.obj.n)) (.seg F) = .ok r := by rw [hm]; exact hr
    simp only [h1', hr']
    rfl
  · intro k hk
    rcases Nat.lt_or_ge k V.length with h | h
    · have : r.dirs[k] = V[k] := by simp only [r2, List.getElem_append_left h]
      rw [this]
      exact hVk k h
    · have hk' : k = V.length := by omega
      have h0 : 0 < V.length := by omega
      have : r.dirs[k] = V[0] := by
        subst hk'
        simp only [r2, List.getElem_append_right (le_refl _), Nat.sub_self]
        simp
      rw [this]
      have := hVk 0 h0
      have hn' : (n : ℝ) ≠ 0 := by positivity
      have e1 : 2 * Real.pi * (k : ℝ) / n = 2 * Real.pi := by rw [hk', hV]; field_simp
      rw [e1, Real.cos_two_pi, Real.sin_two_pi]
      simpa using this

/-- **C65**, space: the same with the triangles of the least sufficient triangulation of the sphere. -/
theorem C65_space (argsort : List ℕ → List ℕ) (hsort : IsArgsort argsort) (e : EllN 3) (he : e.PSD) (num : Option NPts) (n : ℕ) (hn : 1 ≤ n) (hnum : Asked num e.props.n3d n) :
    ∃ d, IsLeast {d | 1 ≤ d ∧ n ≤ 10 * 4 ^ d + 2} d ∧ ∀ fuel, d < fuel → ∃ (r : RhoBoundary 3) (F : List Row) (V0 W : List (Fin 3 → ℝ)),
      getRhoBoundary argsort fuel e.obj num = .ok (some r) ∧ r.faces = .tri F ∧ sphereTri argsort fuel d = .ok (some (V0, F)) ∧ CloseTo machEps W V0 ∧
      r.dirs = W ++ W.take 1 ∧ r.sup.length = r.dirs.length ∧ r.bp.length = r.dirs.length ∧
      ∀ k (h1 : k < r.dirs.length) (h2 : k < r.sup.length) (h3 : k < r.bp.length), IsSupport e.set r.dirs[k] r.sup[k] ∧
        ∃ x ∈ e.set, (∀ i, r.bp[k] i = .fin (x i)) ∧ r.dirs[k] ⬝ᵥ x = r.sup[k] := by
  obtain ⟨d, hd, h⟩ := C57 argsort hsort 3 (by norm_num) (.int n) n hn (Or.inl rfl) true
  refine ⟨d, hd, fun fuel hf => ?_⟩
  obtain ⟨W, V0, F, h1, h2, h3, h4, h5⟩ := h fuel hf
  obtain ⟨r, hr, r1, r2, r3, r4, r5⟩ := rhoPart_ok e he W (.tri F)
  refine ⟨r, F, V0, W, ?_, r1, h2, h3, r2, r3, r4, r5⟩
  unfold getRhoBoundary
  rw [asked_three hnum]
  have h1' : sphereTriExt argsort fuel (e.obj.n : ℤ) (.int n) true = .ok (some (.grid3 W F)) := h1
  have hm : W.map (asVec e.obj.n) = W := (List.map_congr_left (fun d _ => asVec_self (n := 3) d)).trans (List.map_id W)
  have hr' : rhoPart e.obj.Q e.obj.absTol e.obj.c (W.map (asVec e.obj.n)) (.tri F) = .ok r := by rw [hm]; exact hr
  simp only [h1', hr']
  rfl

/-- **C65**, errors: the other dimensions are rejected. -/
theorem C65_raises (argsort : List ℕ → List ℕ) (fuel : ℕ) (e : EllObj) (h2 : e.n ≠ 2) (h3 : e.n ≠ 3) (num : Option NPts) (f : FactorArg) :
    Raises (getRhoBoundary argsort fuel e num) ∧ Raises (getRhoBoundaryByFactor argsort fuel e f) := by
  constructor
  · unfold getRhoBoundary boundaryPts
    rw [if_neg h2, if_neg h3]
    exact ⟨_, rfl⟩
  · unfold getRhoBoundaryByFactor
    rcases factorOf e.n f with x | y
    · exact ⟨_, rfl⟩
    · simp only [if_neg h2, if_neg h3]
      exact ⟨_, rfl⟩

/-- **C65**, `get_rho_boundary_by_factor` with an integer or a vector. -/
theorem C65_factor (argsort : List ℕ → List ℕ) (fuel : ℕ) (e : EllN 2) (he : e.props.ok) (fa : FactorArg) (f : ℝ)
    (hf : (fa = .none ∧ f = 1) ∨ (∃ z : ℤ, fa = .int z ∧ f = z) ∨ ∃ rest, fa = .vec (f :: rest)) (n : ℕ) (hn : ⌊e.props.n2d * f⌋ = n) :
    getRhoBoundaryByFactor argsort fuel e.obj fa = getRhoBoundary argsort fuel e.obj (some (.int n)) := by
  unfold getRhoBoundaryByFactor
  have h1 : factorOf e.obj.n fa = .ok f := by
    show factorOf 2 fa = .ok f
    rcases hf with ⟨rfl, rfl⟩ | ⟨z, rfl, rfl⟩ | ⟨rest, rfl⟩
    · rfl
    · rfl
    · simp [factorOf]
  rw [h1]
  have h2 : scaledPts e.obj.n2d f = .int n := scaled_eq he.2.2.1 hn
  simp only [h2]
  rw [if_pos (show e.obj.n = 2 from rfl)]

/-! ### `_get_grid_by_factor` -/

/-- **C66**, space: the grid of the least sufficient triangulation for the rounded down product of the attribute and the factor. -/
theorem C66_partial (argsort : List ℕ → List ℕ) (hsort : IsArgsort argsort) (e : EllN 3) (he : e.props.ok) (fa : ℝ ⊕ List ℝ) (f : ℝ)
    (hf : fa = .inl f ∨ ∃ x rest, fa = .inr (x :: f :: rest)) (n : ℕ) (hn : 1 ≤ n) (hfl : ⌊e.props.n3d * f⌋ = n) :
    ∃ d, IsLeast {d | 1 ≤ d ∧ n ≤ 10 * 4 ^ d + 2} d ∧ ∀ fuel, d < fuel → ∃ V V0 F, getGridByFactor argsort fuel e.obj fa = .ok (some (.grid3 V F)) ∧
      sphereTri argsort fuel d = .ok (some (V0, F)) ∧ CloseTo machEps V V0 := by
  set num : NPts := if f = 1 then attrPts e.props.n3d else .flt (.fin (⌊e.props.n3d * f⌋ : ℝ)) with hnumd
  have hnum : IsNum num n := by
    rw [hnumd]
    by_cases h1 : f = 1
    · rw [if_pos h1]
      rw [h1, mul_one] at hfl
      obtain ⟨z, hz⟩ := he.2.2.2
      rw [hz, Int.floor_intCast] at hfl
      rw [hz, hfl]
      exact Or.inl (attr_nat n)
    · rw [if_neg h1, hfl]
      exact Or.inr (by simp)
  obtain ⟨d, hd, h⟩ := C57 argsort hsort 3 (by norm_num) num n hn hnum false
  refine ⟨d, hd, fun fuel hf' => ?_⟩
  obtain ⟨W, V0, F, h1, h2, h3, -⟩ := h fuel hf'
  refine ⟨W, V0, F, ?_, h2, h3⟩
  unfold getGridByFactor
  rw [if_neg (by show ¬ (3 < 2 ∨ 3 < 3); omega)]
  have hfe : gridFactor e.obj.n fa = .ok f := by
    show gridFactor 3 fa = .ok f
    rcases hf with rfl | ⟨x, rest, rfl⟩
    · rfl
    · rfl
  have hpe : (if e.obj.n = 2 then e.obj.n2d else e.obj.n3d) = e.props.n3d := by rw [if_neg (by show ¬ (3 = 2); omega)]; rfl
  have h1' : sphereTriExt argsort fuel (e.obj.n : ℤ) num false = .ok (some (.grid3 W F)) := h1
  simp only [hfe, hpe, ← hnumd, h1']

/-- **C66** fails in the plane: for every ellipse, every factor and every number of points other than two the call raises, and
with two points it gives the two points instead of the points and the segments. -/
theorem C66_violated (argsort : List ℕ → List ℕ) (hsort : IsArgsort argsort) (fuel : ℕ) (e : EllN 2) (he : e.props.ok) (fa : ℝ ⊕ List ℝ) :
    Raises (getGridByFactor argsort fuel e.obj fa) ∨ (e.props.n2d = 2 ∧ ∃ V, getGridByFactor argsort fuel e.obj fa = .ok (some (.pts2 V))) := by
  unfold getGridByFactor
  rw [if_neg (by show ¬ (2 < 2 ∨ 3 < 2); omega)]
  have hpe : (if e.obj.n = 2 then e.obj.n2d else e.obj.n3d) = e.props.n2d := by rw [if_pos (show e.obj.n = 2 from rfl)]; rfl
  generalize gridFactor e.obj.n fa = q
  rcases q with x | f
  · exact Or.inl ⟨_, rfl⟩
  simp only [hpe]
  by_cases h1 : f = 1
  swap
  · rw [if_neg h1]
    obtain ⟨x, hx⟩ := (C57_raises_iff argsort hsort fuel 2 (.flt (.fin (⌊e.props.n2d * f⌋ : ℝ))) false).mpr (Or.inr ⟨rfl, _, rfl⟩)
    have hx' : sphereTriExt argsort fuel (e.obj.n : ℤ) (.flt (.fin (⌊e.props.n2d * f⌋ : ℝ))) false = .error x := hx
    simp only [hx']
    exact Or.inl ⟨_, rfl⟩
  · rw [if_pos h1]
    obtain ⟨z, hz⟩ := he.2.2.1
    rcases le_or_gt z 0 with hz0 | hz0
    · have ha : attrPts e.props.n2d = .int z := by unfold attrPts; rw [hz, if_pos (by simp)]; simp
      obtain ⟨x, hx⟩ := (C57_raises_iff argsort hsort fuel 2 (.int z) false).mpr (Or.inl (by
        rintro (h | ⟨n, hn, h | h⟩)
        · cases h
        · injection h with h; omega
        · cases h))
      have hx' : sphereTriExt argsort fuel (e.obj.n : ℤ) (.int z) false = .error x := hx
      simp only [ha, hx']
      exact Or.inl ⟨_, rfl⟩
    · obtain ⟨n, rfl⟩ := Int.eq_ofNat_of_zero_le hz0.le
      have ha : attrPts e.props.n2d = .int n := by rw [hz]; exact attr_nat n
      obtain ⟨V, hV, -, hl, -⟩ := C57_plane argsort fuel n (by omega)
      have hx' : sphereTriExt argsort fuel (e.obj.n : ℤ) (.int n) false = .ok (some (.pts2 V)) := hV
      simp only [ha, hx']
      by_cases h2 : V.length = 2
      · rw [if_pos h2]
        refine Or.inr ⟨?_, V, rfl⟩
        rw [hz, ← hl, h2]; norm_num
      · rw [if_neg h2]; exact Or.inl ⟨_, rfl⟩

/-! ### Examples -/

/-- The unit circle at `(1/2, 0)` with a thousand points. -/
example (E : Eigh) : ∃ V : List (Fin 2 → ℝ), getBoundary E stableArgsort 0 discN.obj (some (.int 1000)) false = .ok (some (V, none)) ∧ V.length = 1000 ∧
    ∀ x ∈ V, Shell discN.c discN.Q (machEps ^ 2) x := by
  obtain ⟨V, h, -, hl, -, hs⟩ := C47 E stableArgsort 0 discN discN_nonDeg (some (.int 1000)) 1000 (by norm_num) (Or.inl rfl)
  exact ⟨V, h, hl, hs⟩

/-- The same with the default number of points, and with the factor 2. -/
example (E : Eigh) : (∃ V : List (Fin 2 → ℝ), getBoundary E stableArgsort 0 discN.obj none false = .ok (some (V, none)) ∧ V.length = 200) ∧
    ∃ V : List (Fin 2 → ℝ), getBoundaryByFactor E stableArgsort 0 discN.obj (.int 2) false = .ok (some (V, none)) ∧ V.length = 400 := by
  constructor
  · obtain ⟨V, h, -, hl, -⟩ := C47 E stableArgsort 0 discN discN_nonDeg none 200 (by norm_num) (Or.inr ⟨rfl, by simp [discN, stdProps]⟩)
    exact ⟨V, h, hl⟩
  · obtain ⟨V, h, -, hl, -⟩ := C47 E stableArgsort 0 discN discN_nonDeg (some (.int 400)) 400 (by norm_num) (Or.inl rfl)
    refine ⟨V, ?_, hl⟩
    rw [C47_factor E stableArgsort 0 discN discN_nonDeg (.int 2) 2 (Or.inr (Or.inl ⟨2, rfl, by norm_num⟩)) 400 (by
      simp only [discN, stdProps]; norm_num)]
    exact h

/-- The unit ball. -/
noncomputable def ballN : EllN 3 := ⟨0, 1, stdProps⟩

theorem ballN_nonDeg : ballN.NonDeg := by
  refine ⟨stdProps_ok, by simp [ballN], fun x hx => ?_⟩
  have := dot_self_pos hx
  simp only [ballN, stdProps, one_mulVec]
  nlinarith

example (E : Eigh) : ∃ V F, getBoundary E stableArgsort 10 ballN.obj (some (.int 100)) true = .ok (some (V, some (.tri F))) ∧ V.length = 162 := by
  obtain ⟨d, hd, h⟩ := C47_space E stableArgsort stableArgsort_ok ballN ballN_nonDeg (some (.int 100)) 100 (by norm_num) (Or.inl rfl)
  have h2 : d = 2 := by
    have h1 : d ≤ 2 := hd.2 ⟨by norm_num, by norm_num⟩
    have h3 := hd.1
    rcases Nat.lt_or_ge d 2 with h' | h'
    · have : d = 1 := by have := h3.1; omega
      subst this
      have := h3.2
      norm_num at this
    · omega
  subst h2
  obtain ⟨V, -, -, F, h, -, -, -, hl, -⟩ := h 10 (by norm_num)
  exact ⟨V, F, h, hl.trans (by norm_num)⟩

example (E : Eigh) : ∃ d, ∀ fuel, d < fuel → Raises (getBoundary E stableArgsort fuel ballN.obj none false) :=
  C47_violated E stableArgsort stableArgsort_ok ballN none 200 (by norm_num) (Or.inr ⟨rfl, by simp [ballN, stdProps]⟩)

/-- A segment: a flat ellipse. -/
example : ∃ r : RhoBoundary 2, getRhoBoundary stableArgsort 0 (⟨![1, 2], !![1, 0; 0, 0], stdProps⟩ : EllN 2).obj (some (.int 7)) = .ok (some r) ∧ r.sup.length = 8 := by
  obtain ⟨r, F, h, -, -, -, -, h1, -⟩ := C65 stableArgsort 0 (⟨![1, 2], !![1, 0; 0, 0], stdProps⟩ : EllN 2)
    ⟨stdProps_ok, by ext i j; fin_cases i <;> fin_cases j <;> rfl, fun x => by
      simp [dotProduct, mulVec, Fin.sum_univ_two]; exact mul_self_nonneg _⟩ (some (.int 7)) 7 (by norm_num) (Or.inl rfl)
  exact ⟨r, h, h1⟩

example : ∃ V F, getGridByFactor stableArgsort 10 ballN.obj (.inl (1 / 2)) = .ok (some (.grid3 V F)) := by
  obtain ⟨d, hd, h⟩ := C66_partial stableArgsort stableArgsort_ok ballN stdProps_ok (.inl (1 / 2)) (1 / 2) (Or.inl rfl) 100 (by norm_num) (by
    simp only [ballN, stdProps]; norm_num)
  have : d ≤ 2 := hd.2 ⟨by norm_num, by norm_num⟩
  obtain ⟨V, -, F, h, -⟩ := h 10 (by omega)
  exact ⟨V, F, h⟩

/-- The default call for the unit circle raises. -/
example : Raises (getGridByFactor stableArgsort 10 discN.obj (.inl 1)) := by
  rcases C66_violated stableArgsort stableArgsort_ok 10 discN stdProps_ok (.inl 1) with h | ⟨h, -⟩
  · exact h
  · simp only [discN, stdProps] at h
    norm_num at h

end Ellipy.Ell
