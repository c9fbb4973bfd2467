import Verif.Props.SphereFan
import Verif.Props.Boundary
import Verif.Props.LinImage

/-! Property theorems C131: finer grids contain the coarser ones. -/

namespace Ellipy.Tri
open Ellipy.Geom

variable {d : ℕ}

private theorem loop_prefix (maxLen : ℝ) (nMax : Option ℕ) (adj : Option (List (Fin d → ℝ) → List (Fin d → ℝ))) : ∀ (fuel i : ℕ) (m m' : Mesh d),
    shrinkLoop maxLen nMax adj fuel i m = some m' → m.verts <+: m'.verts
  | 0, _, _, _, h => by cases h
  | fuel + 1, i, m, m', h => by
    unfold shrinkLoop at h
    split at h
    · exact List.IsPrefix.trans ⟨_, rfl⟩ (loop_prefix maxLen nMax adj fuel (i + 1) _ _ h)
    · cases h; exact List.prefix_refl _

/-- **C131**: `shrink_face_tri` keeps the given vertices, with their numbers, and appends the new ones. -/
theorem C131_kept (argsort : List ℕ → List ℕ) (fuel : ℕ) (verts : List (Fin d → ℝ)) (F : FMat) (maxLen : ℝ) (nMax : Option ℕ)
    (adj : Option (List (Fin d → ℝ) → List (Fin d → ℝ))) (m : Mesh d) (h : shrinkFaceTri argsort fuel verts F maxLen nMax adj = .ok (some m)) :
    verts <+: m.verts := by
  unfold shrinkFaceTri at h
  cases hi : initMesh argsort verts F with
  | error e => rw [hi] at h; cases h
  | ok m0 =>
    rw [hi] at h
    have hv : m0.verts = verts := by
      unfold initMesh at hi
      split at hi
      · split at hi
        · cases hi; rfl
        · cases hi
      · cases hi
      · cases hi
    simp only at h
    rw [← hv]
    split at h
    · split at h
      · cases h
      · cases h; exact List.prefix_refl _
    · exact loop_prefix _ _ _ _ _ _ _ (Except.ok.inj h)

private theorem iter_prefix (maxLen : ℝ) (adj : Option (List (Fin d → ℝ) → List (Fin d → ℝ))) (m : Mesh d) (n k : ℕ) :
    ((shrinkStep maxLen adj)^[n] m).verts <+: ((shrinkStep maxLen adj)^[n + k] m).verts := by
  induction k with
  | zero => exact List.prefix_refl _
  | succ k ih =>
    rw [← add_assoc, Function.iterate_succ_apply']
    exact ih.trans ⟨_, rfl⟩

/-- **C131**: the vertices of `sphere_tri` of a smaller depth are the first ones of those of a larger depth. -/
theorem C131_sphere (argsort : List ℕ → List ℕ) (hsort : IsArgsort argsort) (n n' fuel : ℕ) (hn : n ≤ n') (hf : n' < fuel) :
    ∃ V F V' F', sphereTri argsort fuel n = .ok (some (V, F)) ∧ sphereTri argsort fuel n' = .ok (some (V', F')) ∧ V <+: V' := by
  obtain ⟨m0, -, -, -, hrun⟩ := sphere_start argsort hsort
  obtain ⟨k, rfl⟩ := Nat.exists_eq_add_of_le hn
  exact ⟨_, _, _, _, hrun n fuel (by omega), hrun (n + k) fuel hf, iter_prefix _ _ _ _ _⟩

/-- The point of the sphere above the middle of the segment between `a` and `b`. -/
def IsMid (a b x : Fin 3 → ℝ) : Prop := ∑ t, x t ^ 2 = 1 ∧ ∃ s : ℝ, 0 < s ∧ x = s • (a + b)

private theorem isMid {a b : Fin 3 → ℝ} (h : 0 < sq ((1 / 2 : ℝ) • (a + b))) : IsMid a b (mid a b) := by
  constructor
  · have := mid_unit h
    rw [sq_eq] at this
    rw [Fin.sum_univ_three, ← this]; ring
  · obtain ⟨s, hs, h1⟩ := mid_form h
    exact ⟨s, hs, funext fun i => h1 i⟩

private theorem mids {m : Mesh 3} (h : Sph m) {a b c : Fin 3 → ℝ} (ht : HasTri m.verts (rowsOf m) a b c) :
    IsMid a b (mid a b) ∧ IsMid b c (mid b c) ∧ IsMid a c (mid a c) := by
  obtain ⟨r, hr, hp⟩ := ht
  obtain ⟨f, hf, rfl⟩ := List.mem_map.mp hr
  obtain ⟨p1, p2, p3⟩ := triple_ne (h.pos f hf)
  have q1 := p1; have q2 := p2; have q3 := p3
  rw [add_comm] at q1 q2 q3
  rcases triple_perm hp with h | h | h | h | h | h <;> obtain ⟨rfl, rfl, rfl⟩ := h <;>
    exact ⟨isMid (by assumption), isMid (by assumption), isMid (by assumption)⟩

/-- **C131**: the triangles of the next depth are exactly the four parts of the triangles of this depth: with the points above the middles
of the three sides, the part in the middle and the three parts at the corners. -/
theorem C131_parts (argsort : List ℕ → List ℕ) (hsort : IsArgsort argsort) (n fuel : ℕ) (hf : n + 1 < fuel) :
    ∃ V F V' F', sphereTri argsort fuel n = .ok (some (V, F)) ∧ sphereTri argsort fuel (n + 1 : ℕ) = .ok (some (V', F')) ∧
      (∀ a b c, HasTri V F a b c → ∃ p q r, IsMid a b p ∧ IsMid b c q ∧ IsMid a c r ∧
        HasTri V' F' p q r ∧ HasTri V' F' p r a ∧ HasTri V' F' p q b ∧ HasTri V' F' q r c) ∧
      ∀ f ∈ F', ∃ a b c, HasTri V F a b c ∧ ∃ p q r, IsMid a b p ∧ IsMid b c q ∧ IsMid a c r ∧
        ([V'.getD f.1 0, V'.getD f.2.1 0, V'.getD f.2.2 0].Perm [p, q, r] ∨ [V'.getD f.1 0, V'.getD f.2.1 0, V'.getD f.2.2 0].Perm [p, r, a]) := by
  obtain ⟨m0, ⟨hs, -⟩, -, -, hrun⟩ := sphere_start argsort hsort
  have h1 := hrun n fuel (by omega)
  have h2 := hrun (n + 1) fuel hf
  rw [Function.iterate_succ_apply'] at h2
  have hm := hs.iter n
  refine ⟨_, _, _, _, h1, h2, fun a b c ht => ?_, fun f hf => ?_⟩
  · obtain ⟨i1, i2, i3⟩ := mids hm ht
    obtain ⟨t1, t2⟩ := tri_up hm ht
    obtain ⟨-, t3⟩ := tri_up hm ht.rot
    obtain ⟨-, t4⟩ := tri_up hm ht.rot.rot
    refine ⟨_, _, _, i1, i2, i3, t1, t2, ?_, ?_⟩
    · rw [mid_comm b a] at t3; exact t3.swap
    · rw [mid_comm c a, mid_comm c b] at t4; exact t4.swap
  · obtain ⟨a, b, c, ht, h⟩ := tri_down hm hf
    obtain ⟨i1, i2, i3⟩ := mids hm ht
    refine ⟨a, b, c, ht, _, _, _, i1, i2, i3, ?_⟩
    rcases h with h | h
    · left
      show List.Perm [(newVerts 0 _ sphAdj).getD f.1 0, (newVerts 0 _ sphAdj).getD f.2.1 0, (newVerts 0 _ sphAdj).getD f.2.2 0] _
      rw [h]
    · right
      show List.Perm [(newVerts 0 _ sphAdj).getD f.1 0, (newVerts 0 _ sphAdj).getD f.2.1 0, (newVerts 0 _ sphAdj).getD f.2.2 0] _
      rw [h]

/-- The depth grows with the number of points. -/
private theorem depth_mono {n n' a b : ℕ} (hn : n ≤ n') (ha : IsLeast {d | 1 ≤ d ∧ n ≤ 10 * 4 ^ d + 2} a)
    (hb : IsLeast {d | 1 ≤ d ∧ n' ≤ 10 * 4 ^ d + 2} b) : a ≤ b := ha.2 ⟨hb.1.1, hn.trans hb.1.2⟩

/-- **C131**: the points of `sphere_tri_ext` in space for a smaller number are the first ones of those for a larger number. -/
theorem C131_ext (argsort : List ℕ → List ℕ) (hsort : IsArgsort argsort) (dim : ℤ) (hdim : dim ≠ 2) (num num' : NPts) (n n' : ℕ) (hn : 1 ≤ n)
    (hnn : n ≤ n') (hnum : IsNum num n) (hnum' : IsNum num' n') (grid : Bool) :
    ∃ k, ∀ fuel, k < fuel → ∃ V F V' F', sphereTriExt argsort fuel dim num grid = .ok (some (.grid3 V F)) ∧
      sphereTriExt argsort fuel dim num' grid = .ok (some (.grid3 V' F')) ∧ V <+: V' := by
  obtain ⟨a, ha⟩ := depth_exists n
  obtain ⟨b, hb⟩ := depth_exists n'
  have hab := depth_mono hnn ha hb
  refine ⟨b, fun fuel hf => ?_⟩
  obtain ⟨V, F, V', F', h1, h2, h3⟩ := C131_sphere argsort hsort a b fuel hab hf
  refine ⟨V.map (fun v => fun i => fixZero (v i)), F, V'.map (fun v => fun i => fixZero (v i)), F', ?_, ?_, h3.map _⟩
  · unfold sphereTriExt
    rw [if_neg (not_not.mpr (num_ok hnum hn)), if_neg hdim, calcDepth_eq hnum ha (by omega)]
    simp only [h1]
  · unfold sphereTriExt
    rw [if_neg (not_not.mpr (num_ok hnum' (by omega))), if_neg hdim, calcDepth_eq hnum' hb (by omega)]
    simp only [h2]

/-- **C131**: point `k` of the division of the circle by `n` points is point `k · m` of the division by `n · m` points. -/
theorem C131_circle (n m : ℕ) (hn : 1 ≤ n) (hm : 1 ≤ m) : ∃ l l', circlePart n none = .ok l ∧ circlePart (n * m : ℕ) none = .ok l' ∧
    ∀ k < n, ∃ p, l[k]? = some p ∧ l'[k * m]? = some p := by
  refine ⟨_, _, circle_ok n hn, circle_ok (n * m) (Nat.mul_pos hn hm), fun k hk => ?_⟩
  have hkm : k * m < n * m := Nat.mul_lt_mul_of_pos_right hk hm
  refine ⟨_, by rw [List.getElem?_map, List.getElem?_range hk]; rfl, ?_⟩
  rw [List.getElem?_map, List.getElem?_range hkm]
  have hm' : (m : ℝ) ≠ 0 := by exact_mod_cast (by omega : m ≠ 0)
  have hn' : (n : ℝ) ≠ 0 := by exact_mod_cast (by omega : n ≠ 0)
  have : ((k * m : ℕ) : ℝ) * (2 * Real.pi / ((n * m : ℕ) : ℝ)) = k * (2 * Real.pi / n) := by
    push_cast
    field_simp
  simp only [Option.map_some, this]

/-- The points of `sphere_tri_ext` in the plane. -/
private theorem plane_pts (argsort : List ℕ → List ℕ) (fuel n : ℕ) (hn : 1 ≤ n) (g : Bool) : sphereTriExt argsort fuel 2 (.int n) g =
    .ok (some (if g then .grid2 (((List.range n).map (fun (k : ℕ) => (Real.cos (k * (2 * Real.pi / n)), Real.sin (k * (2 * Real.pi / n))))).map
        (fun p => fun i => fixZero (![p.1, p.2] i))) (circleFaces n)
      else .pts2 (((List.range n).map (fun (k : ℕ) => (Real.cos (k * (2 * Real.pi / n)), Real.sin (k * (2 * Real.pi / n))))).map
        (fun p => fun i => fixZero (![p.1, p.2] i))))) := by
  have hok : (NPts.int n).ok := by simp only [NPts.ok]; omega
  unfold sphereTriExt
  rw [if_neg (not_not.mpr hok), if_pos rfl]
  simp only [circle_ok n hn, Int.toNat_natCast]

/-- The points of `sphere_tri_ext` in the plane, with and without the grid. -/
theorem plane_nested (argsort : List ℕ → List ℕ) (fuel n m : ℕ) (hn : 1 ≤ n) (hm : 1 ≤ m) :
    ∃ V V', (sphereTriExt argsort fuel 2 (.int n) false = .ok (some (.pts2 V)) ∧ sphereTriExt argsort fuel 2 (.int n) true = .ok (some (.grid2 V (circleFaces n)))) ∧
      (sphereTriExt argsort fuel 2 (.int (n * m : ℕ)) false = .ok (some (.pts2 V')) ∧
        sphereTriExt argsort fuel 2 (.int (n * m : ℕ)) true = .ok (some (.grid2 V' (circleFaces (n * m))))) ∧
      V.length = n ∧ V'.length = n * m ∧ ∀ k < n, ∃ p, V[k]? = some p ∧ V'[k * m]? = some p := by
  obtain ⟨l, l', h1, h2, h3⟩ := C131_circle n m hn hm
  rw [circle_ok n hn] at h1
  rw [circle_ok (n * m) (Nat.mul_pos hn hm)] at h2
  cases h1; cases h2
  have hnm := Nat.mul_pos hn hm
  refine ⟨_, _, ⟨plane_pts argsort fuel n hn false, plane_pts argsort fuel n hn true⟩,
    ⟨plane_pts argsort fuel (n * m) hnm false, plane_pts argsort fuel (n * m) hnm true⟩, by simp, by simp, fun k hk => ?_⟩
  obtain ⟨p, hp, hp'⟩ := h3 k hk
  refine ⟨fun i => fixZero (![p.1, p.2] i), ?_, ?_⟩
  · rw [List.getElem?_map, hp]; rfl
  · rw [List.getElem?_map, hp']; rfl

/-! ### Non-triviality -/

/-- The kite, refined to sides of at most 1/100. -/
example : ∃ fuel, ∃ m : Mesh 2, shrinkFaceTri stableArgsort fuel kite (.mat [(0, 1, 2), (0, 1, 3)]) (1 / 100) none none = .ok (some m) ∧ kite <+: m.verts := by
  have hp : ∀ f ∈ [((0, 1, 2) : Row), (0, 1, 3)], Proper f := by intro f hf; simp at hf; rcases hf with rfl | rfl <;> simp [Proper]
  have hr : ∀ f ∈ [((0, 1, 2) : Row), (0, 1, 3)], RowLt kite.length f := by
    intro f hf; simp at hf; rcases hf with rfl | rfl <;> simp [RowLt, kite]
  obtain ⟨fuel, m, h1, -, -⟩ := C55_partial stableArgsort stableArgsort_ok kite (.mat [(0, 1, 2), (0, 1, 3)]) [(0, 1, 2), (0, 1, 3)] rfl (by simp)
    hp hr (by simp) (1 / 100) (by norm_num)
  exact ⟨fuel, m, h1 fuel le_rfl, C131_kept _ _ _ _ _ _ _ m (h1 fuel le_rfl)⟩

/-- The icosahedron is the beginning of depth 3. -/
example : ∃ V F V' F', sphereTri stableArgsort 10 0 = .ok (some (V, F)) ∧ sphereTri stableArgsort 10 3 = .ok (some (V', F')) ∧ V <+: V' := by
  have := C131_sphere stableArgsort stableArgsort_ok 0 3 10 (by norm_num) (by norm_num)
  exact_mod_cast this

/-- The parts of the faces of the icosahedron. -/
example : ∃ V F V' F', sphereTri stableArgsort 10 0 = .ok (some (V, F)) ∧ sphereTri stableArgsort 10 1 = .ok (some (V', F')) ∧
    ∀ a b c, HasTri V F a b c → ∃ p q r, HasTri V' F' p q r ∧ HasTri V' F' p r a := by
  obtain ⟨V, F, V', F', h1, h2, h3, -⟩ := C131_parts stableArgsort stableArgsort_ok 0 10 (by norm_num)
  refine ⟨V, F, V', F', by exact_mod_cast h1, by exact_mod_cast h2, fun a b c ht => ?_⟩
  obtain ⟨p, q, r, -, -, -, t1, t2, -⟩ := h3 a b c ht
  exact ⟨p, q, r, t1, t2⟩

/-- A hundred and a thousand points. -/
example : ∃ k, ∀ fuel, k < fuel → ∃ V F V' F', sphereTriExt stableArgsort fuel 3 (.int 100) true = .ok (some (.grid3 V F)) ∧
    sphereTriExt stableArgsort fuel 3 (.int 1000) true = .ok (some (.grid3 V' F')) ∧ V <+: V' :=
  C131_ext stableArgsort stableArgsort_ok 3 (by norm_num) (.int 100) (.int 1000) 100 1000 (by norm_num) (by norm_num) (Or.inl rfl) (Or.inl rfl) true

/-- The second of three points is the third of six. -/
example : ∃ l l', circlePart 3 none = .ok l ∧ circlePart 6 none = .ok l' ∧ ∃ p, l[1]? = some p ∧ l'[2]? = some p := by
  obtain ⟨l, l', h1, h2, h3⟩ := C131_circle 3 2 (by norm_num) (by norm_num)
  exact ⟨l, l', by exact_mod_cast h1, by exact_mod_cast h2, h3 1 (by norm_num)⟩

end Ellipy.Tri

namespace Ellipy.Ell
open Matrix Ellipy.LA Ellipy.Tri

/-- **C131**, space: the points of `get_boundary` for a smaller number are the first ones of those for a larger number. -/
theorem C131_boundary (E : Eigh) (argsort : List ℕ → List ℕ) (hsort : IsArgsort argsort) (e : EllN 3) (he : e.PSD) (n n' : ℕ) (hn : 1 ≤ n) (hnn : n ≤ n') :
    ∃ k, ∀ fuel, k < fuel → ∃ (V V' : List (Fin 3 → ℝ)) (F F' : List Row), getBoundary E argsort fuel e.obj (some (.int n)) true = .ok (some (V, some (.tri F))) ∧
      getBoundary E argsort fuel e.obj (some (.int n')) true = .ok (some (V', some (.tri F'))) ∧ n ≤ V.length ∧ n' ≤ V'.length ∧ V <+: V' := by
  obtain ⟨k, h⟩ := C131_ext argsort hsort 3 (by norm_num) (.int n) (.int n') n n' hn hnn (Or.inl rfl) (Or.inl rfl) true
  obtain ⟨a, ha, ga⟩ := C57 argsort hsort 3 (by norm_num) (.int n) n hn (Or.inl rfl) true
  obtain ⟨b, hb, gb⟩ := C57 argsort hsort 3 (by norm_num) (.int n') n' (by omega) (Or.inl rfl) true
  refine ⟨max k (max a b), fun fuel hf => ?_⟩
  obtain ⟨V, F, V', F', h1, h2, h3⟩ := h fuel (by omega)
  obtain ⟨W, W0, G, g1, -, -, g2, -⟩ := ga fuel (by omega)
  obtain ⟨W', W0', G', g1', -, -, g2', -⟩ := gb fuel (by omega)
  rw [h1] at g1; cases g1
  rw [h2] at g1'; cases g1'
  obtain ⟨S, hS0, hS, hSS, -⟩ := C21_root E e.Q e.props.absTol he.1.1.le he.2
  refine ⟨V.map (fun d => e.c + S *ᵥ d), V'.map (fun d => e.c + S *ᵥ d), F, F', ?_, ?_, by rw [List.length_map, g2]; exact ha.1.2,
    by rw [List.length_map, g2']; exact hb.1.2, h3.map _⟩
  · unfold getBoundary
    rw [asked_three (Or.inl rfl)]
    have h1' : sphereTriExt argsort fuel (e.obj.n : ℤ) (.int n) true = .ok (some (.grid3 V F)) := h1
    have hS' : sqrtmPos E e.obj.Q e.obj.absTol = .ok S := hS0
    simp only [h1', hS', if_true]
    congr 3
    exact List.map_congr_left (fun d _ => row_mul hS.1 d e.c)
  · unfold getBoundary
    rw [asked_three (Or.inl rfl)]
    have h1' : sphereTriExt argsort fuel (e.obj.n : ℤ) (.int n') true = .ok (some (.grid3 V' F')) := h2
    have hS' : sqrtmPos E e.obj.Q e.obj.absTol = .ok S := hS0
    simp only [h1', hS', if_true]
    congr 3
    exact List.map_congr_left (fun d _ => row_mul hS.1 d e.c)

/-- **C131**, plane: point `k` of `get_boundary` for `n` points is point `k · m` for `n · m` points. -/
theorem C131_boundary_plane (E : Eigh) (argsort : List ℕ → List ℕ) (fuel : ℕ) (e : EllN 2) (he : e.PSD) (n m : ℕ) (hn : 1 ≤ n) (hm : 1 ≤ m) :
    ∃ V V' : List (Fin 2 → ℝ), getBoundary E argsort fuel e.obj (some (.int n)) false = .ok (some (V, none)) ∧
      getBoundary E argsort fuel e.obj (some (.int (n * m : ℕ))) false = .ok (some (V', none)) ∧ V.length = n ∧ V'.length = n * m ∧
      ∀ k < n, ∃ p, V[k]? = some p ∧ V'[k * m]? = some p := by
  obtain ⟨V, V', ⟨h1, -⟩, ⟨h2, -⟩, h3, h4, h5⟩ := plane_nested argsort fuel n m hn hm
  obtain ⟨S, hS0, hS, hSS, -⟩ := C21_root E e.Q e.props.absTol he.1.1.le he.2
  refine ⟨V.map (fun d => e.c + S *ᵥ d), V'.map (fun d => e.c + S *ᵥ d), ?_, ?_, by rw [List.length_map, h3], by rw [List.length_map, h4], fun k hk => ?_⟩
  · unfold getBoundary
    rw [asked_two (Or.inl rfl)]
    have h1' : sphereTriExt argsort fuel (e.obj.n : ℤ) (.int n) false = .ok (some (.pts2 V)) := h1
    have hS' : sqrtmPos E e.obj.Q e.obj.absTol = .ok S := hS0
    simp only [h1', hS']
    congr 3
    exact List.map_congr_left (fun d _ => row_mul hS.1 d e.c)
  · unfold getBoundary
    rw [asked_two (Or.inl rfl)]
    have h1' : sphereTriExt argsort fuel (e.obj.n : ℤ) (.int (n * m : ℕ)) false = .ok (some (.pts2 V')) := h2
    have hS' : sqrtmPos E e.obj.Q e.obj.absTol = .ok S := hS0
    simp only [h1', hS']
    congr 3
    exact List.map_congr_left (fun d _ => row_mul hS.1 d e.c)
  · obtain ⟨p, hp, hp'⟩ := h5 k hk
    exact ⟨e.c + S *ᵥ p, by rw [List.getElem?_map, hp]; rfl, by rw [List.getElem?_map, hp']; rfl⟩

/-! ### Non-triviality -/

example (E : Eigh) : ∃ k, ∀ fuel, k < fuel → ∃ (V V' : List (Fin 3 → ℝ)) (F F' : List Row),
    getBoundary E stableArgsort fuel ballN.obj (some (.int 30)) true = .ok (some (V, some (.tri F))) ∧
      getBoundary E stableArgsort fuel ballN.obj (some (.int 300)) true = .ok (some (V', some (.tri F'))) ∧ 30 ≤ V.length ∧ 300 ≤ V'.length ∧ V <+: V' :=
  C131_boundary E stableArgsort stableArgsort_ok ballN ballN_nonDeg.psd 30 300 (by norm_num) (by norm_num)

example (E : Eigh) : ∃ V V' : List (Fin 2 → ℝ), getBoundary E stableArgsort 0 discN.obj (some (.int 3)) false = .ok (some (V, none)) ∧
    getBoundary E stableArgsort 0 discN.obj (some (.int 12)) false = .ok (some (V', none)) ∧ ∃ p, V[2]? = some p ∧ V'[8]? = some p := by
  obtain ⟨V, V', h1, h2, -, -, h3⟩ := C131_boundary_plane E stableArgsort 0 discN discN_nonDeg.psd 3 4 (by norm_num) (by norm_num)
  exact ⟨V, V', by exact_mod_cast h1, by exact_mod_cast h2, h3 2 (by norm_num)⟩

end Ellipy.Ell
