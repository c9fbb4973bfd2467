import Verif.Props.SpherePart
import Verif.Props.Nested

/-! Property theorems C159 (`sphere_part` across calls). -/

namespace Ellipy.Geom
open Ellipy.Tri Matrix
noncomputable section

/-- What a call of `sphere_part` does: the vertices, the first of which is the upper pole, the chosen vertices and the rows. -/
private theorem part_run (argsort : List ℕ → List ℕ) (hsort : IsArgsort argsort) (n d fuel : ℕ) (h1 : 1 ≤ n)
    (hd : IsLeast {d | 1 ≤ d ∧ n ≤ 5 * 4 ^ d + 1} d) (hf : d < fuel) : ∃ V F, sphereTri argsort fuel d = .ok (some (V, F)) ∧ (∀ v ∈ V, v ⬝ᵥ v = 1) ∧
      ![0, 0, 1] ∈ uniqueDirections V 1e-8 ∧ spherePart argsort fuel n = .ok (some ((List.range n).map (partRow (uniqueDirections V 1e-8)))) := by
  obtain ⟨m0, ⟨hs, hfan, hu, ha⟩, ⟨hv, hr, -⟩, ⟨c1, c2, c3⟩, hrun⟩ := sphere_start argsort hsort
  have hs' := hs.iter d
  have hu' := hu.iter hs d
  have hV := hrun d fuel hf
  obtain ⟨V0, F0, V', F', hV0, hV', hpre⟩ := C131_sphere argsort hsort 0 d fuel (Nat.zero_le _) hf
  have h00 := hrun 0 fuel (by omega)
  rw [hV0] at h00
  have hVV : V' = ((shrinkStep 0 sphAdj)^[d] m0).verts := by
    rw [hV] at hV'
    exact (congrArg Prod.fst (Option.some.inj (Except.ok.inj hV'))).symm
  have hV00 : V0 = icoVerts := by
    rw [← hv]
    exact congrArg Prod.fst (Option.some.inj (Except.ok.inj h00))
  set V := ((shrinkStep 0 sphAdj)^[d] m0).verts with hVd
  rw [hVV, hV00] at hpre
  have hunit : ∀ v ∈ V, v ⬝ᵥ v = 1 := fun v hv => by
    have := hs'.unit v hv
    rw [← this]; rfl
  have hlen : V.length = 10 * 4 ^ d + 2 := (hs.counts c1 c2 c3 d).1
  have h0 : 0 < V.length := by omega
  have hpole : V.getD 0 0 = ![0, 0, 1] := by
    obtain ⟨t, ht⟩ := hpre
    rw [← ht, icoVerts_nat]
    rfl
  have hmem : ![0, 0, 1] ∈ uniqueDirections V 1e-8 := by
    classical
    obtain ⟨j, hj, he⟩ := mem_getD ((ha.iter hs d).verts hs' hu' (getD_mem h0))
    rw [← hVd] at hj he
    have hj0 : 0 < j := by
      rcases Nat.eq_zero_or_pos j with rfl | h
      · exfalso
        rw [hpole] at he
        have h9 : (1 : ℝ) = -1 := congrFun he 2
        norm_num at h9
      · exact h
    have hnear : nearOpp 1e-8 V 0 j := by
      unfold nearOpp
      rw [he]
      simp only [Pi.neg_apply, neg_add_cancel, mul_zero, Finset.sum_const_zero, Real.sqrt_zero]
      norm_num
    have hm : markAt 1e-8 V 0 = some 0 := by
      unfold markAt
      rcases hf : (List.range' (0 + 1) (V.length - 0 - 1)).find? (fun j => decide (nearOpp 1e-8 V 0 j)) with _ | q
      · have := List.find?_eq_none.mp hf j (by rw [List.mem_range']; exact ⟨j - 1, by omega, by omega⟩)
        simp only [decide_eq_true_eq] at this
        exact absurd hnear this
      · simp only
        rw [if_neg]
        rw [hpole]
        rw [Fin.sum_univ_three]
        show ¬ ((0 : ℝ) + 0 + 1 < 0)
        norm_num
    rw [← hpole]
    unfold uniqueDirections
    refine List.mem_map.mpr ⟨0, List.mem_filter.mpr ⟨List.mem_range.mpr h0, ?_⟩, rfl⟩
    rw [List.any_eq_true]
    exact ⟨0, List.mem_range.mpr (by omega), by simpa using hm⟩
  exact ⟨V, _, hV, hunit, hmem, spherePart_eq h1 hd hV (fun h => by rw [h] at hmem; cases hmem)⟩

/-- **C159**, prefixes: of two calls of `sphere_part` that use the same triangulation, the one for fewer points returns the first rows of the other. -/
theorem C159_prefix (argsort : List ℕ → List ℕ) (hsort : IsArgsort argsort) (n n' d fuel : ℕ) (h1 : 1 ≤ n) (hn : n ≤ n')
    (hd : IsLeast {d | 1 ≤ d ∧ n ≤ 5 * 4 ^ d + 1} d) (hd' : n' ≤ 5 * 4 ^ d + 1) (hf : d < fuel) :
    ∃ R R', spherePart argsort fuel n = .ok (some R) ∧ spherePart argsort fuel n' = .ok (some R') ∧ R.length = n ∧ R'.length = n' ∧ R <+: R' := by
  obtain ⟨V, F, hV, -, -, hR⟩ := part_run argsort hsort n d fuel h1 hd hf
  obtain ⟨V', F', hV', -, -, hR'⟩ := part_run argsort hsort n' d fuel (by omega) ⟨⟨hd.1.1, hd'⟩, fun e he => hd.2 ⟨he.1, hn.trans he.2⟩⟩ hf
  rw [hV] at hV'
  cases hV'
  refine ⟨_, _, hR, hR', by simp, by simp, List.IsPrefix.map _ ?_⟩
  obtain ⟨m, rfl⟩ := Nat.exists_eq_add_of_le hn
  rw [List.range_add]
  exact List.prefix_append _ _

/-- **C159**, the first row of `sphere_part` is the upper pole. -/
theorem C159_pole (argsort : List ℕ → List ℕ) (hsort : IsArgsort argsort) (n d fuel : ℕ) (h1 : 1 ≤ n)
    (hd : IsLeast {d | 1 ≤ d ∧ n ≤ 5 * 4 ^ d + 1} d) (hf : d < fuel) :
    ∃ R, spherePart argsort fuel n = .ok (some R) ∧ R[0]? = some ![0, 0, 1] := by
  obtain ⟨V, F, hV, hunit, hmem, hR⟩ := part_run argsort hsort n d fuel h1 hd hf
  refine ⟨_, hR, ?_⟩
  rw [List.getElem?_map, List.getElem?_range (by omega), Option.map_some]
  refine congrArg some ?_
  unfold partRow
  rw [show axisOf (sphereDistance (uniqueDirections V 1e-8) ![1, 0, 0]) (sphereDistance (uniqueDirections V 1e-8) ![0, 1, 0])
    (sphereDistance (uniqueDirections V 1e-8) ![0, 0, 1]) 0 = sphereDistance (uniqueDirections V 1e-8) ![0, 0, 1] by
      unfold axisOf; rw [if_neg (by norm_num), if_neg (by norm_num)]]
  have hsub : ∀ v ∈ uniqueDirections V 1e-8, v ⬝ᵥ v = 1 := fun v hv => hunit v (unique_sub hv)
  generalize uniqueDirections V 1e-8 = P at *
  have hx : sphereDistance P ![0, 0, 1] ≠ [] := by
    intro h0
    have := dist_length P ![0, 0, 1]
    rw [h0] at this
    rw [List.length_eq_zero_iff.mp this.symm] at hmem
    cases hmem
  obtain ⟨i, hi, hiz⟩ := mem_getD hmem
  obtain ⟨-, hlt, hmin, -⟩ := amin_spec hx
  rw [dist_length] at hlt hmin
  have h2 := hmin i hi
  rw [dist_get hlt, dist_get hi, hiz] at h2
  show P.getD (amin (sphereDistance P ![0, 0, 1])) 0 = _
  have hz : (![0, 0, 1] : Fin 3 → ℝ) ⬝ᵥ ![0, 0, 1] = 1 := by simp [dotProduct, Fin.sum_univ_three]
  have hp := hsub _ (getD_mem hlt)
  generalize P.getD (amin (sphereDistance P ![0, 0, 1])) 0 = p at *
  have h3 := arccos_rev (dot_bound hz hp) (dot_bound hz hz) h2
  rw [hz] at h3
  simp only [dotProduct, Fin.sum_univ_three, Matrix.cons_val_zero, Matrix.cons_val_one, Matrix.cons_val, zero_mul, one_mul, zero_add] at h3 hp
  have h4 : p 2 = 1 := by nlinarith [mul_self_nonneg (p 0), mul_self_nonneg (p 1)]
  have h5 : p 0 = 0 := by nlinarith [mul_self_nonneg (p 0), mul_self_nonneg (p 1)]
  have h6 : p 1 = 0 := by nlinarith [mul_self_nonneg (p 0), mul_self_nonneg (p 1)]
  funext t
  fin_cases t
  · exact h5
  · exact h6
  · exact h4

/-- **C159**, repetitions: equal rows of `sphere_part` belong to different axes, so that no vector is returned more than three times, and at least a third of the
rows are different. -/
theorem C159_repeats (argsort : List ℕ → List ℕ) (hsort : IsArgsort argsort) (n d fuel : ℕ) (h1 : 1 ≤ n) (h2 : n ≤ 5 * 4 ^ 12 + 1)
    (hd : IsLeast {d | 1 ≤ d ∧ n ≤ 5 * 4 ^ d + 1} d) (hf : d < fuel) :
    ∃ R, spherePart argsort fuel n = .ok (some R) ∧ (∀ i j, i < n → j < n → i ≠ j → R[i]? = R[j]? → i % 3 ≠ j % 3) ∧
      ∃ L : List (Fin 3 → ℝ), L.Nodup ∧ (∀ v ∈ L, v ∈ R) ∧ n ≤ 3 * L.length := by
  obtain ⟨V, F, C, R, X, Y, Z, -, -, -, -, hR, hlen, -, -, hZ, hZn, hX, hXn, hY, hYn⟩ := C87_partial argsort hsort n d fuel h1 h2 hd hf
  have key : ∀ r < 3, ∀ L, IsThird r R L → L.Nodup → ∀ i j, i < n → j < n → i ≠ j → R[i]? = R[j]? → i % 3 = r → j % 3 = r → False := by
    intro r hr L hL hLn i j hi hj hij he hir hjr
    have h3 := hL (i / 3)
    have h4 := hL (j / 3)
    rw [show 3 * (i / 3) + r = i by omega] at h3
    rw [show 3 * (j / 3) + r = j by omega] at h4
    have hiR : i < R.length := by omega
    rw [List.getElem?_eq_getElem hiR] at h3 he
    have hiL : i / 3 < L.length := by
      by_contra hcon
      rw [List.getElem?_eq_none (by omega)] at h3
      cases h3
    have h5 := (List.getElem?_inj hiL hLn).mp (h3.trans (he.trans h4.symm))
    omega
  refine ⟨R, hR, fun i j hi hj hij he hm => ?_, Z, hZn.1, fun v hv => ?_, ?_⟩
  · have : i % 3 = 0 ∨ i % 3 = 1 ∨ i % 3 = 2 := by omega
    rcases this with h | h | h
    · exact key 0 (by norm_num) Z hZ hZn.1 i j hi hj hij he h (hm ▸ h)
    · exact key 1 (by norm_num) X hX hXn.1 i j hi hj hij he h (hm ▸ h)
    · exact key 2 (by norm_num) Y hY hYn.1 i j hi hj hij he h (hm ▸ h)
  · obtain ⟨k, hk, rfl⟩ := List.getElem_of_mem hv
    have := hZ k
    rw [List.getElem?_eq_getElem hk] at this
    exact List.mem_of_getElem? this.symm
  · by_contra hcon
    have := hZ Z.length
    rw [List.getElem?_eq_none (le_refl _), List.getElem?_eq_getElem (by omega)] at this
    cases this

private theorem depth3 : IsLeast {d | 1 ≤ d ∧ 100 ≤ 5 * 4 ^ d + 1} 3 := ⟨⟨by norm_num, by norm_num⟩, fun d hd => by
  by_contra hlt
  obtain ⟨h1, h2⟩ := hd
  have : d = 1 ∨ d = 2 := by omega
  rcases this with rfl | rfl <;> norm_num at h2⟩

/-! The first rows of `sphere_part(300)` are those of `sphere_part(100)`; the first of them is the pole. -/
example : ∃ R R', spherePart stableArgsort 4 100 = .ok (some R) ∧ spherePart stableArgsort 4 300 = .ok (some R') ∧ R <+: R' := by
  obtain ⟨R, R', h1, h2, -, -, h3⟩ := C159_prefix stableArgsort stableArgsort_ok 100 300 3 4 (by norm_num) (by norm_num) depth3 (by norm_num) (by norm_num)
  exact ⟨R, R', h1, h2, h3⟩

example : ∃ R, spherePart stableArgsort 4 100 = .ok (some R) ∧ R[0]? = some ![0, 0, 1] := by
  exact_mod_cast C159_pole stableArgsort stableArgsort_ok 100 3 4 (by norm_num) depth3 (by norm_num)

example : ∃ R, spherePart stableArgsort 4 100 = .ok (some R) ∧ ∃ L : List (Fin 3 → ℝ), L.Nodup ∧ (∀ v ∈ L, v ∈ R) ∧ 34 ≤ L.length := by
  obtain ⟨R, h1, -, L, h2, h3, h4⟩ := C159_repeats stableArgsort stableArgsort_ok 100 3 4 (by norm_num) (by norm_num) depth3 (by norm_num)
  exact ⟨R, h1, L, h2, h3, by omega⟩

end
end Ellipy.Geom
