import Mathlib.Analysis.SpecialFunctions.Trigonometric.Bounds
import Verif.Props.Boundary
import Verif.Props.SphereDense

/-! Property theorem C88 (`get_boundary`): the points approximate the boundary. -/

namespace Ellipy.Ell
open Matrix Ellipy.LA Ellipy.Tri

theorem dot_sq_le {n : ℕ} (x y : Fin n → ℝ) : (x ⬝ᵥ y) ^ 2 ≤ (x ⬝ᵥ x) * (y ⬝ᵥ y) := by
  unfold dotProduct
  have := Finset.sum_mul_sq_le_sq_mul_sq Finset.univ x y
  simpa [pow_two] using this

/-- The triangle inequality. -/
theorem norm_add_le' {n : ℕ} {x y : Fin n → ℝ} {a b : ℝ} (ha : 0 ≤ a) (hb : 0 ≤ b) (hx : x ⬝ᵥ x ≤ a ^ 2) (hy : y ⬝ᵥ y ≤ b ^ 2) :
    (x + y) ⬝ᵥ (x + y) ≤ (a + b) ^ 2 := by
  have h := dot_sq_le x y
  have h1 : (x ⬝ᵥ y) ^ 2 ≤ (a * b) ^ 2 := by
    rw [mul_pow]
    exact h.trans (mul_le_mul hx hy (dot_self_nonneg y) (sq_nonneg a))
  have h2 := abs_le_of_sq_le_sq' h1 (mul_nonneg ha hb)
  rw [add_dotProduct, dotProduct_add, dotProduct_add, dotProduct_comm y x]
  nlinarith [h2.2]

/-- A set of directions near to every unit vector. -/
def Net {n : ℕ} (r δ : ℝ) (W : List (Fin n → ℝ)) : Prop :=
  ∀ x, x ⬝ᵥ x = 1 → ∃ w ∈ W, (w - x) ⬝ᵥ (w - x) ≤ r ^ 2 ∧ 1 - δ ≤ w ⬝ᵥ x

/-- A small change of a net. -/
theorem Net.change {n : ℕ} (hn : n ≤ 3) {r δ : ℝ} (hr : 0 ≤ r) {W W' : List (Fin n → ℝ)} (h : Net r δ W) (hc : CloseTo machEps W' W) : Net (r + 2 * machEps) (δ + 2 * machEps) W' := by
  intro x hx
  obtain ⟨w, hw, h1, h2⟩ := h x hx
  obtain ⟨i, hi, rfl⟩ := List.getElem_of_mem hw
  have hlen := hc.length_eq
  have hi' : i < W'.length := by omega
  have hcl : ∀ t, |W'[i] t - W[i] t| ≤ machEps := (List.forall₂_iff_get.mp hc).2 i hi' hi
  have heps : 0 ≤ machEps := by unfold machEps; positivity
  have hd : (W'[i] - W[i]) ⬝ᵥ (W'[i] - W[i]) ≤ (2 * machEps) ^ 2 := by
    unfold dotProduct
    calc ∑ t, (W'[i] - W[i]) t * (W'[i] - W[i]) t ≤ ∑ _t : Fin n, machEps ^ 2 := by
          refine Finset.sum_le_sum (fun t _ => ?_)
          rw [← pow_two, ← sq_abs]
          exact pow_le_pow_left₀ (abs_nonneg _) (hcl t) 2
      _ = n * machEps ^ 2 := by simp
      _ ≤ _ := by
        have : (n : ℝ) ≤ 3 := by exact_mod_cast hn
        nlinarith [sq_nonneg machEps]
  refine ⟨W'[i], List.getElem_mem hi', ?_, ?_⟩
  · have := norm_add_le' hr (by linarith) h1 hd
    have e : W'[i] - x = (W[i] - x) + (W'[i] - W[i]) := by abel
    rw [e]; exact this
  · have h3 := dot_sq_le (W'[i] - W[i]) x
    rw [hx, mul_one] at h3
    have h4 := abs_le_of_sq_le_sq' (h3.trans hd) (by linarith)
    have e : W'[i] ⬝ᵥ x = W[i] ⬝ᵥ x + (W'[i] - W[i]) ⬝ᵥ x := by rw [← add_dotProduct]; congr 1; abel
    rw [e]; linarith [h4.1]

/-- The image of a net. -/
theorem Net.image {n : ℕ} {e : EllN n} (he : e.NonDeg) {S : Matrix (Fin n) (Fin n) ℝ} (hS : IsPSD S) (hSS : S * S = e.Q) {r δ : ℝ} (hr : 0 ≤ r)
    {W : List (Fin n → ℝ)} (hW : Net r δ W) (hne : W ≠ []) : Approximates e.c e.Q r δ (W.map (fun w => e.c + S *ᵥ w)) := by
  refine ⟨fun y hy => ?_, fun l s hs => ?_⟩
  · obtain ⟨h1, h2⟩ := hy
    have hM : S * Sᵀ = e.Q := by rw [hS.1, hSS]
    rw [add_zero, one_smul, mem_ell_factor hM] at h1
    obtain ⟨u, hu, rfl⟩ := h1
    have hu1 : u ⬝ᵥ u = 1 := by
      refine le_antisymm hu ?_
      by_contra hlt
      push Not at hlt
      exact h2 _ (dot_self_nonneg u) hlt ((mem_scaled he hS hSS u (dot_self_nonneg u)).mpr le_rfl)
    obtain ⟨w, hw, hd, -⟩ := hW u hu1
    refine ⟨_, List.mem_map_of_mem (f := fun w => e.c + S *ᵥ w) hw, ?_⟩
    have e1 : e.c + S *ᵥ w - (e.c + S *ᵥ u) = 0 + S *ᵥ (w - u) := by rw [mulVec_sub]; abel
    have hM' : (r • S) * (r • S)ᵀ = r ^ 2 • e.Q := by
      rw [transpose_smul, hS.1, smul_mul_smul_comm, hSS, pow_two]
    rw [e1, mem_ell_factor hM']
    rcases eq_or_lt_of_le hr with h0 | h0
    · subst h0
      have : w - u = 0 := by
        by_contra hne
        have := dot_self_pos hne
        rw [zero_pow two_ne_zero] at hd
        linarith
      exact ⟨0, by simp, by rw [this]; simp⟩
    · refine ⟨(1 / r) • (w - u), ?_, ?_⟩
      · rw [smul_dotProduct, dotProduct_smul, smul_eq_mul, smul_eq_mul, ← mul_assoc, div_mul_div_comm, one_mul, ← pow_two, one_div, inv_mul_le_iff₀ (by positivity)]
        linarith
      · rw [smul_mulVec, mulVec_smul, smul_smul, mul_one_div_cancel h0.ne', one_smul]
  · have hs' := hs.unique (ell_support (nonDeg_psd he) l)
    subst hs'
    have hQ : l ⬝ᵥ e.Q *ᵥ l = (S *ᵥ l) ⬝ᵥ (S *ᵥ l) := by
      rw [← hSS, ← mulVec_mulVec, dotProduct_mulVec, ← mulVec_transpose, hS.1]
    rw [hQ, add_sub_cancel_left]
    have hl : ∀ w, l ⬝ᵥ (e.c + S *ᵥ w) = l ⬝ᵥ e.c + w ⬝ᵥ (S *ᵥ l) := by
      intro w
      rw [dotProduct_add]
      congr 1
      rw [dotProduct_mulVec, ← mulVec_transpose, hS.1, dotProduct_comm]
    generalize S *ᵥ l = g at hl
    by_cases hg : g = 0
    · obtain ⟨w, W', rfl⟩ := List.exists_cons_of_ne_nil hne
      refine ⟨_, List.mem_map_of_mem (f := fun w => e.c + S *ᵥ w) (List.mem_cons_self), ?_⟩
      rw [hl, hg]
      simp
    · have hgp := dot_self_pos hg
      have hsq : 0 < Real.sqrt (g ⬝ᵥ g) := Real.sqrt_pos.mpr hgp
      obtain ⟨w, hw, -, hd⟩ := hW ((1 / Real.sqrt (g ⬝ᵥ g)) • g) (by
        rw [smul_dotProduct, dotProduct_smul, smul_eq_mul, smul_eq_mul, ← mul_assoc, div_mul_div_comm, Real.mul_self_sqrt hgp.le, one_mul, one_div_mul_cancel hgp.ne'])
      refine ⟨_, List.mem_map_of_mem (f := fun w => e.c + S *ᵥ w) hw, ?_⟩
      rw [hl]
      rw [dotProduct_smul, smul_eq_mul, one_div, ← div_eq_inv_mul, le_div_iff₀ hsq] at hd
      linarith

/-- The directions `k · 2π/n`. -/
theorem circle_net {n : ℕ} (hn : 1 ≤ n) {V : List (Fin 2 → ℝ)} (hV : V.length = n)
    (h : ∀ k (hk : k < V.length), |V[k] 0 - Real.cos (2 * Real.pi * k / n)| ≤ machEps ∧ |V[k] 1 - Real.sin (2 * Real.pi * k / n)| ≤ machEps) :
    Net (Real.pi / n + 2 * machEps) ((Real.pi / n) ^ 2 / 2 + 2 * machEps) V := by
  have hn0 : (0 : ℝ) < n := by exact_mod_cast hn
  set W : List (Fin 2 → ℝ) := (List.range n).map (fun k : ℕ => ![Real.cos (2 * Real.pi * k / n), Real.sin (2 * Real.pi * k / n)]) with hWd
  have hWl : W.length = n := by rw [hWd, List.length_map, List.length_range]
  have hc : CloseTo machEps V W := by
    refine List.forall₂_iff_get.mpr ⟨by rw [hV, hWl], fun k h1 h2 t => ?_⟩
    have hWk : W.get ⟨k, h2⟩ = ![Real.cos (2 * Real.pi * k / n), Real.sin (2 * Real.pi * k / n)] := by simp [hWd]
    rw [hWk]
    obtain ⟨a, b⟩ := h k h1
    fin_cases t
    · exact a
    · exact b
  refine Net.change (by norm_num) (by positivity) ?_ hc
  intro x hx
  rw [dotProduct, Fin.sum_univ_two] at hx
  set z : ℂ := ⟨x 0, x 1⟩ with hz
  have hnorm : ‖z‖ = 1 := by
    rw [Complex.norm_def, Real.sqrt_eq_one, Complex.normSq_apply]; exact hx
  set θ := Complex.arg z with hθ
  have hc0 : Real.cos θ = x 0 := by
    have := Complex.norm_mul_cos_arg z; rw [hnorm, one_mul] at this; exact this
  have hs0 : Real.sin θ = x 1 := by
    have := Complex.norm_mul_sin_arg z; rw [hnorm, one_mul] at this; exact this
  set j : ℤ := round (θ * n / (2 * Real.pi)) with hj
  have hpi := Real.pi_pos
  have hround : |θ - 2 * Real.pi * j / n| ≤ Real.pi / n := by
    have h1 := abs_sub_round (θ * n / (2 * Real.pi))
    have e : θ - 2 * Real.pi * j / n = (θ * n / (2 * Real.pi) - j) * (2 * Real.pi / n) := by field_simp
    rw [e, abs_mul, abs_of_pos (by positivity : 0 < 2 * Real.pi / n)]
    calc _ ≤ 1 / 2 * (2 * Real.pi / n) := mul_le_mul_of_nonneg_right h1 (by positivity)
      _ = _ := by ring
  set k : ℕ := (j % n).toNat with hk
  have hkj : (k : ℤ) = j % n := Int.toNat_of_nonneg (Int.emod_nonneg _ (by omega))
  have hkn : k < n := by have := Int.emod_lt_of_pos j (show (0 : ℤ) < n by omega); omega
  have hcs : Real.cos (2 * Real.pi * k / n) = Real.cos (2 * Real.pi * j / n) ∧ Real.sin (2 * Real.pi * k / n) = Real.sin (2 * Real.pi * j / n) := by
    have e : (2 * Real.pi * j / n : ℝ) = 2 * Real.pi * k / n + (j / (n : ℤ) : ℤ) * (2 * Real.pi) := by
      have h1 : (j : ℝ) = (n : ℝ) * ((j / (n : ℤ) : ℤ) : ℝ) + k := by
        have := Int.mul_ediv_add_emod j n
        rw [← hkj] at this
        exact_mod_cast this.symm
      nth_rw 1 [h1]
      field_simp
      ring
    rw [e]
    exact ⟨(Real.cos_add_int_mul_two_pi _ _).symm, (Real.sin_add_int_mul_two_pi _ _).symm⟩
  set φ := 2 * Real.pi * j / n with hφ
  have hcos := Real.one_sub_sq_div_two_le_cos (x := θ - φ)
  have hsq : (θ - φ) ^ 2 ≤ (Real.pi / n) ^ 2 := by
    rw [← sq_abs]; exact pow_le_pow_left₀ (abs_nonneg _) hround 2
  rw [Real.cos_sub] at hcos
  refine ⟨![Real.cos φ, Real.sin φ], ?_, ?_, ?_⟩
  · rw [hWd, ← hcs.1, ← hcs.2]
    exact List.mem_map.mpr ⟨k, List.mem_range.mpr hkn, rfl⟩
  · rw [dotProduct, Fin.sum_univ_two]
    simp only [Pi.sub_apply, Matrix.cons_val_zero, Matrix.cons_val_one]
    rw [← hc0, ← hs0]
    nlinarith [Real.sin_sq_add_cos_sq θ, Real.sin_sq_add_cos_sq φ]
  · rw [dotProduct, Fin.sum_univ_two]
    simp only [Matrix.cons_val_zero, Matrix.cons_val_one]
    rw [← hc0, ← hs0]
    linarith

/-- **C88**, the plane: `n` points approximate the boundary of the ellipse up to `π/n`, and its support values up to `(π/n)²/2`, apart from the
replacement of zeros. -/
theorem C88 (E : Eigh) (argsort : List ℕ → List ℕ) (fuel : ℕ) (e : EllN 2) (he : e.NonDeg) (num : Option NPts) (n : ℕ) (hn : 1 ≤ n)
    (hnum : Asked num e.props.n2d n) : ∃ V : List (Fin 2 → ℝ), getBoundary E argsort fuel e.obj num false = .ok (some (V, none)) ∧ V.length = n ∧
      Approximates e.c e.Q (Real.pi / n + 2 * machEps) ((Real.pi / n) ^ 2 / 2 + 2 * machEps) V := by
  obtain ⟨V, h1, -, hV, hVk, -⟩ := C57_plane argsort fuel n hn
  obtain ⟨S, hS0, hS, hSS, -⟩ := C21_root E e.Q e.props.absTol he.1.1.le (nonDeg_psd he)
  have heps : 0 ≤ machEps := by unfold machEps; positivity
  have hpi := Real.pi_pos
  refine ⟨V.map (fun d => e.c + S *ᵥ d), ?_, by rw [List.length_map, hV],
    (circle_net hn hV hVk).image he hS hSS (by positivity) (by rintro rfl; simp at hV; omega)⟩
  unfold getBoundary
  rw [asked_two hnum]
  have h1' : sphereTriExt argsort fuel (e.obj.n : ℤ) (.int n) false = .ok (some (.pts2 V)) := h1
  have hS' : sqrtmPos E e.obj.Q e.obj.absTol = .ok S := hS0
  simp only [h1', hS']
  congr 3
  exact List.map_congr_left (fun d _ => row_mul hS.1 d e.c)

/-- **C88**, space: the points of the least sufficient triangulation approximate the boundary of the ellipsoid up to `√2/2ᵈ`, and its support values
up to `1/4ᵈ`, apart from the replacement of zeros. -/
theorem C88_space (E : Eigh) (argsort : List ℕ → List ℕ) (hsort : IsArgsort argsort) (e : EllN 3) (he : e.NonDeg) (num : Option NPts) (n : ℕ) (hn : 1 ≤ n)
    (hnum : Asked num e.props.n3d n) : ∃ d, IsLeast {d | 1 ≤ d ∧ n ≤ 10 * 4 ^ d + 2} d ∧ ∀ fuel, d < fuel → ∃ (V : List (Fin 3 → ℝ)) (F : List Row),
      getBoundary E argsort fuel e.obj num true = .ok (some (V, some (.tri F))) ∧
      Approximates e.c e.Q (Real.sqrt 2 / 2 ^ d + 2 * machEps) (1 / 4 ^ d + 2 * machEps) V := by
  obtain ⟨d, hd, h⟩ := C47_space E argsort hsort e he num n hn hnum
  refine ⟨d, hd, fun fuel hf => ?_⟩
  obtain ⟨V, V0, W, F, h1, h2, h3, ⟨S, hS, hSS, rfl⟩, h4, -⟩ := h fuel hf
  refine ⟨_, F, h1, ?_⟩
  obtain ⟨V0', F', h2', -, hx⟩ := C56_dense argsort hsort d fuel hf
  have hvv : V0 = V0' := by
    have := h2.symm.trans h2'
    simp only [Except.ok.injEq, Option.some.injEq, Prod.mk.injEq] at this
    exact this.1
  subst hvv
  have heps : 0 ≤ machEps := by unfold machEps; positivity
  have hnet : Net (Real.sqrt 2 / 2 ^ d) (1 / 4 ^ d) V0 := by
    intro x hx1
    obtain ⟨f, -, -, hi⟩ := hx x (by rw [← hx1, dotProduct]; exact Finset.sum_congr rfl (fun t _ => by ring))
    obtain ⟨hl, k1, k2⟩ := hi f.1 (by simp)
    have hg : V0.getD f.1 0 = V0[f.1] := by rw [List.getD_eq_getElem?_getD, List.getElem?_eq_getElem hl]; rfl
    rw [hg] at k1 k2
    refine ⟨V0[f.1], List.getElem_mem hl, ?_, k2⟩
    have : (V0[f.1] - x) ⬝ᵥ (V0[f.1] - x) = ∑ t, (V0[f.1] t - x t) ^ 2 := by
      rw [dotProduct]; exact Finset.sum_congr rfl (fun t _ => by rw [Pi.sub_apply]; ring)
    rw [this]
    exact (Real.sqrt_le_left (by positivity)).mp k1
  refine (hnet.change le_rfl (by positivity) h3).image he hS hSS (by positivity) ?_
  rintro rfl
  simp at h4

/-- The unit circle around (1/2, 0) with 1000 points: in the direction (3, 4) one of them reaches almost the support value 3/2 + 5. -/
example (E : Eigh) : ∃ V : List (Fin 2 → ℝ), getBoundary E stableArgsort 0 discN.obj (some (.int 1000)) false = .ok (some (V, none)) ∧ V.length = 1000 ∧
    ∃ v ∈ V, 3 / 2 + 5 * (1 - ((Real.pi / 1000) ^ 2 / 2 + 2 * machEps)) ≤ 3 * v 0 + 4 * v 1 := by
  obtain ⟨V, h, hl, -, hs⟩ := C88 E stableArgsort 0 discN discN_nonDeg (some (.int 1000)) 1000 (by norm_num) (Or.inl rfl)
  obtain ⟨v, hv, h1⟩ := hs ![3, 4] _ (ell_support (nonDeg_psd discN_nonDeg) ![3, 4])
  refine ⟨V, h, hl, v, hv, ?_⟩
  have e1 : (![3, 4] : Fin 2 → ℝ) ⬝ᵥ discN.Q *ᵥ ![3, 4] = 25 := by simp [discN, dotProduct, Fin.sum_univ_two]; norm_num
  have e2 : Real.sqrt 25 = 5 := by rw [show (25 : ℝ) = 5 ^ 2 by norm_num]; exact Real.sqrt_sq (by norm_num)
  have e3 : (![3, 4] : Fin 2 → ℝ) ⬝ᵥ v = 3 * v 0 + 4 * v 1 := by simp [dotProduct, Fin.sum_univ_two]
  have e4 : (![3, 4] : Fin 2 → ℝ) ⬝ᵥ discN.c = 3 / 2 := by simp [discN, dotProduct, Fin.sum_univ_two]; norm_num
  rw [e1, e2, e3, e4] at h1
  push_cast at h1
  linarith

/-- The unit ball with at least 100 points. -/
example (E : Eigh) : ∃ V F, getBoundary E stableArgsort 10 ballN.obj (some (.int 100)) true = .ok (some (V, some (.tri F))) ∧
    Approximates ballN.c ballN.Q (Real.sqrt 2 / 4 + 2 * machEps) (1 / 16 + 2 * machEps) V := by
  obtain ⟨d, hd, h⟩ := C88_space E stableArgsort stableArgsort_ok ballN ballN_nonDeg (some (.int 100)) 100 (by norm_num) (Or.inl rfl)
  have h2 : d = 2 := by
    have h1 : d ≤ 2 := hd.2 ⟨by norm_num, by norm_num⟩
    have h3 := hd.1
    rcases Nat.lt_or_ge d 2 with h' | h'
    · have : d = 1 := by have := h3.1; omega
      subst this
      have := h3.2
      norm_num at this
    · omega
  subst h2
  obtain ⟨V, F, h, h1⟩ := h 10 (by norm_num)
  refine ⟨V, F, h, ?_⟩
  rw [show (2 : ℝ) ^ 2 = 4 by norm_num, show (4 : ℝ) ^ 2 = 16 by norm_num] at h1
  exact h1

end Ellipy.Ell
