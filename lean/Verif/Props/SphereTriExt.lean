import Verif.Spec.Constants
import Verif.Spec.SphereTriExt
import Verif.Props.SphereTri
import Verif.Props.CirclePart

/-! Property theorem C57 (`sphere_tri_ext`). -/

namespace Ellipy.Tri
open Ellipy.Geom

/-! ### The depth -/

theorem depth_run (num : NPts) (d : ℕ) (hd : num.leNat (10 * 4 ^ d + 2)) : ∀ (fuel k : ℕ), k < d → d ≤ k + fuel →
    (∀ j, k < j → j < d → ¬ num.leNat (10 * 4 ^ j + 2)) →
    depthLoop num fuel (10 * 4 ^ k + 2) (30 * 4 ^ k) (20 * 4 ^ k) k = some d := by
  intro fuel
  induction fuel with
  | zero => intro k h1 h2; omega
  | succ fuel ih =>
    intro k h1 h2 h3
    unfold depthLoop
    have e1 : 10 * 4 ^ k + 2 + 30 * 4 ^ k = 10 * 4 ^ (k + 1) + 2 := by ring
    have e2 : 2 * (30 * 4 ^ k) + 3 * (20 * 4 ^ k) = 30 * 4 ^ (k + 1) := by ring
    have e3 : 4 * (20 * 4 ^ k) = 20 * 4 ^ (k + 1) := by ring
    simp only [e1, e2, e3]
    rcases Nat.lt_or_ge (k + 1) d with h | h
    · rw [if_neg (by rw [e1]; exact h3 (k + 1) (by omega) h)]
      exact ih (k + 1) h (by omega) (fun j hj => h3 j (by omega))
    · have : k + 1 = d := by omega
      subst this
      rw [if_pos (by rw [e1]; exact hd)]

theorem depth_inf (fuel : ℕ) : ∀ v e f k, depthLoop (.flt .pinf) fuel v e f k = none := by
  induction fuel with
  | zero => intros; rfl
  | succ fuel ih => intro v e f k; unfold depthLoop; simp only; rw [if_neg (by simp [NPts.leNat])]; exact ih _ _ _ _

theorem le_iff {num : NPts} {n : ℕ} (h : IsNum num n) (v : ℕ) : num.leNat v ↔ n ≤ v := by
  rcases h with rfl | rfl
  · simp [NPts.leNat]
  · simp [NPts.leNat]

theorem num_ok {num : NPts} {n : ℕ} (h : IsNum num n) (hn : 1 ≤ n) : num.ok := by
  rcases h with rfl | rfl
  · simp only [NPts.ok]; omega
  · simp only [NPts.ok]
    refine ⟨by exact_mod_cast hn, by simp⟩

theorem ok_cases {num : NPts} (h : num.ok) : num = .flt .pinf ∨ ∃ n, 1 ≤ n ∧ IsNum num n := by
  rcases num with z | (x | _ | _ | _)
  · right
    obtain ⟨n, rfl⟩ := Int.eq_ofNat_of_zero_le (le_of_lt h)
    exact ⟨n, by have : (0 : ℤ) < n := h; omega, Or.inl rfl⟩
  · right
    obtain ⟨h1, h2⟩ := h
    have h3 : 0 ≤ ⌊x⌋ := Int.floor_nonneg.mpr h1.le
    obtain ⟨n, hn⟩ := Int.eq_ofNat_of_zero_le h3
    rw [hn] at h2
    have hx : x = (n : ℝ) := by rw [h2]; simp
    refine ⟨n, ?_, Or.inr (by rw [hx])⟩
    rw [hx] at h1
    exact_mod_cast h1
  · exact h.elim
  · exact Or.inl rfl
  · exact h.elim

theorem pow_big (n : ℕ) : n ≤ 10 * 4 ^ n + 2 := by
  have : n < 4 ^ n := Nat.lt_pow_self (by norm_num)
  omega

theorem depth_exists (n : ℕ) : ∃ d, IsLeast {d | 1 ≤ d ∧ n ≤ 10 * 4 ^ d + 2} d := by
  classical
  have hex : ∃ d, 1 ≤ d ∧ n ≤ 10 * 4 ^ d + 2 := ⟨n + 1, by omega, le_trans (by omega) (pow_big (n + 1))⟩
  exact ⟨Nat.find hex, Nat.find_spec hex, fun j hj => Nat.find_min' hex hj⟩

theorem calcDepth_eq {num : NPts} {n d fuel : ℕ} (h : IsNum num n) (hd : IsLeast {d | 1 ≤ d ∧ n ≤ 10 * 4 ^ d + 2} d) (hf : d ≤ fuel) :
    calcDepth num fuel = some d := by
  have := depth_run num d ((le_iff h _).mpr hd.1.2) fuel 0 hd.1.1 (by omega) (by
    intro j h1 h2 h3
    have := hd.2 ⟨h1, (le_iff h _).mp h3⟩
    omega)
  exact this

/-! ### The zeros -/

theorem eps_pos : 0 < machEps := by unfold machEps; positivity

/-- The number written over zeros is the one of the specification. -/
theorem fixZero_eq (x : ℝ) : fixZero x = open Classical in if x = 0 then machEps else x := rfl

theorem fixZero_close (x : ℝ) : |fixZero x - x| ≤ machEps := by
  rw [fixZero_eq]
  by_cases h : x = 0
  · rw [if_pos h, h, sub_zero, abs_of_pos eps_pos]
  · rw [if_neg h, sub_self, abs_zero]; exact eps_pos.le

theorem fixZero_ne (x : ℝ) : fixZero x ≠ 0 := by
  rw [fixZero_eq]
  by_cases h : x = 0
  · rw [if_pos h]; exact eps_pos.ne'
  · rw [if_neg h]; exact h

theorem fixZero_sq (x : ℝ) : x ^ 2 ≤ fixZero x ^ 2 ∧ fixZero x ^ 2 ≤ x ^ 2 + machEps ^ 2 ∧ (x ≠ 0 → fixZero x = x) := by
  rw [fixZero_eq]
  have := eps_pos
  by_cases h : x = 0
  · rw [if_pos h, h]; refine ⟨by nlinarith, by nlinarith, fun h => (h rfl).elim⟩
  · rw [if_neg h]; exact ⟨le_refl _, by nlinarith, fun _ => rfl⟩

theorem shell2 {x y : ℝ} (h : x ^ 2 + y ^ 2 = 1) : 1 ≤ fixZero x ^ 2 + fixZero y ^ 2 ∧ fixZero x ^ 2 + fixZero y ^ 2 ≤ 1 + machEps ^ 2 := by
  obtain ⟨a1, a2, a3⟩ := fixZero_sq x
  obtain ⟨b1, b2, b3⟩ := fixZero_sq y
  refine ⟨by linarith, ?_⟩
  by_cases hx : x = 0
  · have hy : y ≠ 0 := by rintro rfl; rw [hx] at h; norm_num at h
    rw [b3 hy]; linarith
  · rw [a3 hx]; linarith

theorem shell3 {x y z : ℝ} (h : x ^ 2 + y ^ 2 + z ^ 2 = 1) :
    1 ≤ fixZero x ^ 2 + fixZero y ^ 2 + fixZero z ^ 2 ∧ fixZero x ^ 2 + fixZero y ^ 2 + fixZero z ^ 2 ≤ 1 + 2 * machEps ^ 2 := by
  obtain ⟨a1, a2, a3⟩ := fixZero_sq x
  obtain ⟨b1, b2, b3⟩ := fixZero_sq y
  obtain ⟨c1, c2, c3⟩ := fixZero_sq z
  refine ⟨by linarith, ?_⟩
  by_cases hx : x = 0
  · by_cases hy : y = 0
    · have hz : z ≠ 0 := by rintro rfl; rw [hx, hy] at h; norm_num at h
      rw [c3 hz]; linarith
    · rw [b3 hy]; linarith
  · rw [a3 hx]; linarith

theorem close_map {k : ℕ} (V : List (Fin k → ℝ)) : CloseTo machEps (V.map (fun v => fun i => fixZero (v i))) V := by
  unfold CloseTo
  rw [List.forall₂_map_left_iff, List.forall₂_same]
  intro v _ i
  exact fixZero_close (v i)

/-! ### The theorems -/

/-- **C57**: in space (and in any other dimension than two) the depth is the least one from one on whose triangulation has the
requested number of vertices.  The grid is that triangulation with its zero coordinates replaced. -/
theorem C57 (argsort : List ℕ → List ℕ) (hsort : IsArgsort argsort) (dim : ℤ) (hdim : dim ≠ 2) (num : NPts) (n : ℕ) (hn : 1 ≤ n) (hnum : IsNum num n) (grid : Bool) :
    ∃ d, IsLeast {d | 1 ≤ d ∧ n ≤ 10 * 4 ^ d + 2} d ∧ ∀ fuel, d < fuel → ∃ V V0 F, sphereTriExt argsort fuel dim num grid = .ok (some (.grid3 V F)) ∧
      sphereTri argsort fuel d = .ok (some (V0, F)) ∧ CloseTo machEps V V0 ∧ V.length = 10 * 4 ^ d + 2 ∧
      ∀ v ∈ V, (∀ i, v i ≠ 0) ∧ 1 ≤ v 0 ^ 2 + v 1 ^ 2 + v 2 ^ 2 ∧ v 0 ^ 2 + v 1 ^ 2 + v 2 ^ 2 ≤ 1 + 2 * machEps ^ 2 := by
  obtain ⟨d, hd⟩ := depth_exists n
  refine ⟨d, hd, fun fuel hf => ?_⟩
  obtain ⟨V0, F, h, hl, -, -, hu, -⟩ := C56 argsort hsort d fuel hf
  refine ⟨V0.map (fun v => fun i => fixZero (v i)), V0, F, ?_, h, close_map V0, by rw [List.length_map, hl], ?_⟩
  · unfold sphereTriExt
    rw [if_neg (not_not.mpr (num_ok hnum hn)), if_neg hdim, calcDepth_eq hnum hd hf.le]
    simp only [h]
  · intro v hv
    obtain ⟨w, hw, rfl⟩ := List.mem_map.mp hv
    exact ⟨fun i => fixZero_ne _, shell3 (hu w hw)⟩

/-- **C57**, the plane: the `n` directions of the circle with their zero coordinates replaced; the segments run from each point to the
next one and from the last one to the first. -/
theorem C57_plane (argsort : List ℕ → List ℕ) (fuel n : ℕ) (hn : 1 ≤ n) : ∃ V, (sphereTriExt argsort fuel 2 (.int n) false = .ok (some (.pts2 V))) ∧
    (∃ F, sphereTriExt argsort fuel 2 (.int n) true = .ok (some (.grid2 V F)) ∧ F.length = n ∧ ∀ k (hk : k < F.length), F[k] = (k, (k + 1) % n)) ∧
    V.length = n ∧ (∀ k (hk : k < V.length), |V[k] 0 - Real.cos (2 * Real.pi * k / n)| ≤ machEps ∧ |V[k] 1 - Real.sin (2 * Real.pi * k / n)| ≤ machEps) ∧
    ∀ v ∈ V, (∀ i, v i ≠ 0) ∧ 1 ≤ v 0 ^ 2 + v 1 ^ 2 ∧ v 0 ^ 2 + v 1 ^ 2 ≤ 1 + machEps ^ 2 := by
  have hok : (NPts.int n).ok := by simp only [NPts.ok]; omega
  have hrun : ∀ g, sphereTriExt argsort fuel 2 (.int n) g = .ok (some (if g then
      .grid2 (((List.range n).map (fun (k : ℕ) => (Real.cos (k * (2 * Real.pi / n)), Real.sin (k * (2 * Real.pi / n))))).map
        (fun p => fun i => fixZero (![p.1, p.2] i))) (circleFaces n)
      else .pts2 (((List.range n).map (fun (k : ℕ) => (Real.cos (k * (2 * Real.pi / n)), Real.sin (k * (2 * Real.pi / n))))).map
        (fun p => fun i => fixZero (![p.1, p.2] i))))) := by
    intro g
    unfold sphereTriExt
    rw [if_neg (not_not.mpr hok), if_pos rfl]
    simp only [circle_ok n hn, Int.toNat_natCast]
  refine ⟨_, by rw [hrun false]; rfl, ⟨_, by rw [hrun true]; rfl, by simp [circleFaces], ?_⟩, by simp, ?_, ?_⟩
  · intro k hk
    have hk' : k < n := by simpa [circleFaces] using hk
    simp only [circleFaces, List.getElem_map, List.getElem_range]
    by_cases h : k + 1 = n
    · rw [if_pos h, h, Nat.mod_self]
    · rw [if_neg h, Nat.mod_eq_of_lt (by omega)]
  · intro k hk
    simp only [List.getElem_map, List.getElem_range, Matrix.cons_val_zero, Matrix.cons_val_one]
    rw [show 2 * Real.pi * k / n = k * (2 * Real.pi / n) by ring]
    exact ⟨fixZero_close _, fixZero_close _⟩
  · intro v hv
    obtain ⟨p, hp, rfl⟩ := List.mem_map.mp hv
    obtain ⟨k, -, rfl⟩ := List.mem_map.mp hp
    refine ⟨fun i => fixZero_ne _, ?_⟩
    simp only [Matrix.cons_val_zero, Matrix.cons_val_one]
    exact shell2 (Real.cos_sq_add_sin_sq _)

/-- **C57**, errors: exactly the numbers that are not positive and whole (or infinite) are rejected, in the plane all floats as well. -/
theorem C57_raises_iff (argsort : List ℕ → List ℕ) (hsort : IsArgsort argsort) (fuel : ℕ) (dim : ℤ) (num : NPts) (grid : Bool) :
    Raises (sphereTriExt argsort fuel dim num grid) ↔
      ¬ (num = .flt .pinf ∨ ∃ n, 1 ≤ n ∧ IsNum num n) ∨ (dim = 2 ∧ ∃ x, num = .flt x) := by
  have hiff : num.ok ↔ (num = .flt .pinf ∨ ∃ n, 1 ≤ n ∧ IsNum num n) := by
    refine ⟨ok_cases, ?_⟩
    rintro (rfl | ⟨n, hn, h⟩)
    · trivial
    · exact num_ok h hn
  rw [← hiff]
  unfold sphereTriExt
  by_cases hok : num.ok
  swap
  · rw [if_pos hok]; exact ⟨fun _ => Or.inl hok, fun _ => ⟨_, rfl⟩⟩
  rw [if_neg (not_not.mpr hok)]
  by_cases hdim : dim = 2
  · rw [if_pos hdim]
    rcases num with z | x
    · obtain ⟨n, rfl⟩ := Int.eq_ofNat_of_zero_le (le_of_lt hok)
      have hn : 1 ≤ n := by have : (0 : ℤ) < n := hok; omega
      simp [circle_ok n hn, Raises, hok]
    · exact ⟨fun _ => Or.inr ⟨hdim, x, rfl⟩, fun _ => ⟨_, rfl⟩⟩
  · rw [if_neg hdim]
    have hr : ¬ (¬ num.ok ∨ dim = 2 ∧ ∃ x, num = .flt x) := by
      rintro (h | h)
      · exact h hok
      · exact hdim h.1
    refine ⟨fun hra => ?_, fun h => (hr h).elim⟩
    exfalso
    rcases hc : calcDepth num fuel with _ | d
    · rw [hc] at hra; obtain ⟨e, he⟩ := hra; cases he
    · rw [hc] at hra
      simp only at hra
      have hns : ¬ Raises (sphereTri argsort fuel (d : ℚ)) := by
        unfold sphereTri
        rw [if_neg (by simp)]
        obtain ⟨m0, h0, -⟩ := ico_init argsort hsort
        unfold shrinkFaceTri icoFaces at *
        simp only at h0 ⊢
        rw [h0]
        rintro ⟨e, he⟩
        simp only at he
        split at he
        · rename_i h; cases h
        · cases he
        · cases he
      rcases hs : sphereTri argsort fuel (d : ℚ) with e | o
      · exact hns ⟨e, hs⟩
      · rw [hs] at hra
        obtain ⟨e, he⟩ := hra
        rcases o with _ | ⟨V, F⟩ <;> cases he

/-- **C57**, the infinite number: it is accepted, and in space the search for the depth does not end. -/
theorem C57_inf (argsort : List ℕ → List ℕ) (dim : ℤ) (hdim : dim ≠ 2) (grid : Bool) (fuel : ℕ) :
    sphereTriExt argsort fuel dim (.flt .pinf) grid = .ok none := by
  unfold sphereTriExt calcDepth
  rw [if_neg (by simp [NPts.ok]), if_neg hdim, depth_inf]

/-- 42 points need depth one, 43 points depth two. -/
example : IsLeast {d | 1 ≤ d ∧ 42 ≤ 10 * 4 ^ d + 2} 1 ∧ IsLeast {d | 1 ≤ d ∧ 43 ≤ 10 * 4 ^ d + 2} 2 := by
  refine ⟨⟨⟨le_refl _, by norm_num⟩, fun d hd => hd.1⟩, ⟨by norm_num, by norm_num⟩, fun d hd => ?_⟩
  obtain ⟨h1, h2⟩ := hd
  by_contra h
  have : d = 1 := by omega
  subst this
  norm_num at h2

/-- Two hundred points in space. -/
example : ∃ V F, sphereTriExt stableArgsort 10 3 (.int 200) true = .ok (some (.grid3 V F)) := by
  obtain ⟨d, hd, h⟩ := C57 stableArgsort stableArgsort_ok 3 (by norm_num) (.int 200) 200 (by norm_num) (Or.inl rfl) true
  have : d ≤ 3 := hd.2 ⟨by norm_num, by norm_num⟩
  obtain ⟨V, -, F, h, -⟩ := h 10 (by omega)
  exact ⟨V, F, h⟩

/-- Four points in the plane. -/
example : ∃ V F, sphereTriExt stableArgsort 0 2 (.int 4) true = .ok (some (.grid2 V F)) ∧ F.length = 4 := by
  obtain ⟨V, -, ⟨F, h, h1, -⟩, -⟩ := C57_plane stableArgsort 0 4 (by norm_num)
  exact ⟨V, F, by exact_mod_cast h, h1⟩

end Ellipy.Tri
