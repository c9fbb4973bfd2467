import Mathlib.Analysis.Real.Pi.Bounds
import Verif.Props.Boundary
import Verif.Props.BrunnMinkowski
import Verif.Props.PolarDual
import Verif.Props.TriOrient
import Verif.Props.SphereApart

/-! Property theorems C162: the area and the volume enclosed by the points of `get_boundary` against `volume`. -/

namespace Ellipy.Ell
open Matrix Ellipy.LA Ellipy.Tri

/-- The area inside the closed line with the corners `V` and the sides `F`, as a sum over the sides (the shoelace formula). -/
noncomputable def lineArea (V : List (Fin 2 → ℝ)) (F : List (ℕ × ℕ)) : ℝ :=
  (F.map fun s => V.getD s.1 0 0 * V.getD s.2 0 1 - V.getD s.1 0 1 * V.getD s.2 0 0).sum / 2

/-- The volume inside the closed surface with the corners `V` and the triangles `F`, as a sum over the triangles. -/
noncomputable def surfVolume (V : List (Fin 3 → ℝ)) (F : List (ℕ × ℕ × ℕ)) : ℝ :=
  (F.map fun f => triple (V.getD f.1 0) (V.getD f.2.1 0) (V.getD f.2.2 0)).sum / 6

private theorem eps_pos : 0 < machEps := by norm_num [machEps]

private theorem eps_small : machEps ≤ 1 / 1000 := by norm_num [machEps]

private theorem det_root {n : ℕ} {S Q : Matrix (Fin n) (Fin n) ℝ} (hS : IsPSD S) (h : S * S = Q) : S.det = Real.sqrt Q.det := by
  rw [← h, det_mul, Real.sqrt_mul_self (psd_det_nonneg hS)]

/-! ### The plane -/

private def cr (a b : Fin 2 → ℝ) : ℝ := a 0 * b 1 - a 1 * b 0

private theorem cr_map (S : Matrix (Fin 2) (Fin 2) ℝ) (a b : Fin 2 → ℝ) : cr (S *ᵥ a) (S *ᵥ b) = S.det * cr a b := by
  simp only [cr, mulVec, dotProduct, Fin.sum_univ_two, det_fin_two]
  ring

private theorem shift_sum (n : ℕ) (hn : 1 ≤ n) (f : ℕ → ℝ) : ∑ k ∈ Finset.range n, f ((k + 1) % n) = ∑ k ∈ Finset.range n, f k := by
  obtain ⟨m, rfl⟩ : ∃ m, n = m + 1 := ⟨n - 1, by omega⟩
  rw [Finset.sum_range_succ, Nat.mod_self, Finset.sum_range_succ' f]
  congr 1
  refine Finset.sum_congr rfl fun k hk => ?_
  rw [Nat.mod_eq_of_lt]
  have := Finset.mem_range.1 hk
  omega

private theorem cr_shift (n : ℕ) (hn : 1 ≤ n) (c : Fin 2 → ℝ) (u : ℕ → Fin 2 → ℝ) :
    ∑ k ∈ Finset.range n, cr (c + u k) (c + u ((k + 1) % n)) = ∑ k ∈ Finset.range n, cr (u k) (u ((k + 1) % n)) := by
  have h0 := shift_sum n hn (fun k => u k 0)
  have h1 := shift_sum n hn (fun k => u k 1)
  have : ∀ k, cr (c + u k) (c + u ((k + 1) % n)) = cr (u k) (u ((k + 1) % n)) + (c 0 * (u ((k + 1) % n) 1 - u k 1) - c 1 * (u ((k + 1) % n) 0 - u k 0)) := by
    intro k
    simp only [cr, Pi.add_apply]
    ring
  rw [Finset.sum_congr rfl fun k _ => this k, Finset.sum_add_distrib, Finset.sum_sub_distrib, ← Finset.mul_sum, ← Finset.mul_sum,
    Finset.sum_sub_distrib, Finset.sum_sub_distrib, h0, h1]
  simp

private theorem prod_close {a b x y : ℝ} {ε : ℝ} (h0 : 0 ≤ ε) (h1 : ε ≤ 1 / 1000) (ha : |a - x| ≤ ε) (hb : |b - y| ≤ ε) (hx : |x| ≤ 1) (hy : |y| ≤ 1) :
    |a * b - x * y| ≤ 5 / 2 * ε := by
  have hb1 : |b| ≤ 1 + ε := by
    calc |b| = |(b - y) + y| := by ring_nf
      _ ≤ |b - y| + |y| := abs_add_le _ _
      _ ≤ _ := by linarith
  calc |a * b - x * y| = |(a - x) * b + x * (b - y)| := by ring_nf
    _ ≤ |a - x| * |b| + |x| * |b - y| := by
      refine (abs_add_le _ _).trans ?_
      rw [abs_mul, abs_mul]
    _ ≤ ε * (1 + ε) + 1 * ε := by gcongr
    _ ≤ _ := by nlinarith

private theorem range_sum (n : ℕ) (f : ℕ → ℝ) : ((List.range n).map f).sum = ∑ k ∈ Finset.range n, f k := by
  induction n with
  | zero => simp
  | succ n ih => rw [List.range_succ, List.map_append, List.sum_append, ih, Finset.sum_range_succ]; simp

/-- **C162**, the plane: the area inside the closed line that `get_boundary` returns for an ellipse is the part `sin (2π/n) / (2π/n)` of what `volume`
returns, up to the replacement of zeros by the machine epsilon. -/
theorem C162_plane (E : Eigh) (argsort : List ℕ → List ℕ) (fuel : ℕ) (e : EllN 2) (he : e.NonDeg) (num : Option NPts) (n : ℕ) (hn : 1 ≤ n)
    (hnum : Asked num e.props.n2d n) : ∃ V F v, getBoundary E argsort fuel e.obj num true = .ok (some (V, some (.seg F))) ∧
      Ell.volume E [e.obj] = .ok [⟨false, v⟩] ∧
      |lineArea V F - v * (Real.sin (2 * Real.pi / n) / (2 * Real.pi / n))| ≤ n * machEps * v := by
  obtain ⟨V, -, ⟨F, hb, hF, hFk⟩, hV, ⟨S, hS, hSS, hd⟩, -⟩ := C47 E argsort fuel e he num n hn hnum
  have hv := volume_nonDeg E (by norm_num : (2 : ℕ) ≠ 0) [e] (fun x hx => by rw [List.mem_singleton] at hx; subst hx; exact he)
  have hbf : ballFactor 2 = Real.pi := by simp [ballFactor]
  rw [List.map_singleton, List.map_singleton, hbf] at hv
  refine ⟨V, F, _, hb, hv, ?_⟩
  have hdet := det_root hS hSS
  set q := Real.sqrt e.Q.det with hq
  have hq0 : 0 ≤ q := Real.sqrt_nonneg _
  have hn0 : (0 : ℝ) < n := by exact_mod_cast hn
  have hd' : ∀ k, ∃ d : Fin 2 → ℝ, k < n → |d 0 - Real.cos (2 * Real.pi * k / n)| ≤ machEps ∧ |d 1 - Real.sin (2 * Real.pi * k / n)| ≤ machEps ∧
      V.getD k 0 = e.c + S *ᵥ d := by
    intro k
    by_cases hk : k < n
    · obtain ⟨d, h1, h2, h3⟩ := hd k (by rw [hV]; exact hk)
      exact ⟨d, fun _ => ⟨h1, h2, by rw [List.getD_eq_getElem?_getD, List.getElem?_eq_getElem (by rw [hV]; exact hk)]; exact h3⟩⟩
    · exact ⟨0, fun h => absurd h hk⟩
  choose d hd' using hd'
  have hFe : F = (List.range n).map fun k => (k, (k + 1) % n) := by
    refine List.ext_getElem (by simp [hF]) fun k h1 h2 => ?_
    rw [hFk k h1]
    simp
  have harea : lineArea V F = q * (∑ k ∈ Finset.range n, cr (d k) (d ((k + 1) % n))) / 2 := by
    unfold lineArea
    congr 1
    rw [hFe, List.map_map, range_sum, Finset.mul_sum]
    have h1 : ∀ k ∈ Finset.range n, ((fun s : ℕ × ℕ => V.getD s.1 0 0 * V.getD s.2 0 1 - V.getD s.1 0 1 * V.getD s.2 0 0) ∘ fun k => (k, (k + 1) % n)) k =
        cr (e.c + S *ᵥ d k) (e.c + S *ᵥ d ((k + 1) % n)) := by
      intro k hk
      simp only [Function.comp, (hd' k (Finset.mem_range.1 hk)).2.2, (hd' ((k + 1) % n) (Nat.mod_lt _ hn)).2.2, cr]
    rw [Finset.sum_congr rfl h1, cr_shift n hn e.c fun k => S *ᵥ d k]
    refine Finset.sum_congr rfl fun k _ => ?_
    rw [cr_map, hdet]
  have hcos : ∀ k : ℕ, Real.cos (2 * Real.pi * ((k + 1) % n : ℕ) / n) = Real.cos (2 * Real.pi * k / n + 2 * Real.pi / n) ∧
      Real.sin (2 * Real.pi * ((k + 1) % n : ℕ) / n) = Real.sin (2 * Real.pi * k / n + 2 * Real.pi / n) := by
    intro k
    have h1 : ((k + 1 : ℕ) : ℝ) = ((k + 1) % n : ℕ) + n * ((k + 1) / n : ℕ) := by exact_mod_cast (Nat.mod_add_div (k + 1) n).symm
    have h2 : 2 * Real.pi * k / n + 2 * Real.pi / n = 2 * Real.pi * ((k + 1) % n : ℕ) / n + ((k + 1) / n : ℕ) * (2 * Real.pi) := by
      push_cast at h1
      have : (k : ℝ) = ((k + 1) % n : ℕ) + n * ((k + 1) / n : ℕ) - 1 := by push_cast; linarith
      rw [this]
      field_simp
      ring
    rw [h2]
    exact ⟨(Real.cos_add_nat_mul_two_pi _ _).symm, (Real.sin_add_nat_mul_two_pi _ _).symm⟩
  have hterm : ∀ k ∈ Finset.range n, |cr (d k) (d ((k + 1) % n)) - Real.sin (2 * Real.pi / n)| ≤ 5 * machEps := by
    intro k hk
    obtain ⟨a1, a2, -⟩ := hd' k (Finset.mem_range.1 hk)
    obtain ⟨b1, b2, -⟩ := hd' ((k + 1) % n) (Nat.mod_lt _ hn)
    rw [(hcos k).1] at b1
    rw [(hcos k).2] at b2
    set x := 2 * Real.pi * k / n
    set t := 2 * Real.pi / n
    have hs : Real.sin t = Real.cos x * Real.sin (x + t) - Real.sin x * Real.cos (x + t) := by
      have := Real.sin_sub (x + t) x
      rw [add_sub_cancel_left] at this
      rw [this]; ring
    have h1 := prod_close eps_pos.le eps_small a1 b2 (Real.abs_cos_le_one _) (Real.abs_sin_le_one _)
    have h2 := prod_close eps_pos.le eps_small a2 b1 (Real.abs_sin_le_one _) (Real.abs_cos_le_one _)
    rw [hs]
    calc _ = |(d k 0 * d ((k + 1) % n) 1 - Real.cos x * Real.sin (x + t)) - (d k 1 * d ((k + 1) % n) 0 - Real.sin x * Real.cos (x + t))| := by
          rw [cr]; ring_nf
      _ ≤ _ := (abs_sub _ _)
      _ ≤ _ := by linarith
  have hsum : |∑ k ∈ Finset.range n, cr (d k) (d ((k + 1) % n)) - n * Real.sin (2 * Real.pi / n)| ≤ n * (5 * machEps) := by
    have h1 : ∑ k ∈ Finset.range n, cr (d k) (d ((k + 1) % n)) - n * Real.sin (2 * Real.pi / n) =
        ∑ k ∈ Finset.range n, (cr (d k) (d ((k + 1) % n)) - Real.sin (2 * Real.pi / n)) := by
      rw [Finset.sum_sub_distrib, Finset.sum_const, Finset.card_range, nsmul_eq_mul]
    rw [h1]
    refine (Finset.abs_sum_le_sum_abs _ _).trans ((Finset.sum_le_sum hterm).trans ?_)
    rw [Finset.sum_const, Finset.card_range, nsmul_eq_mul]
  have hpi := Real.pi_gt_three
  have hpi0 : Real.pi ≠ 0 := Real.pi_pos.ne'
  have heq : lineArea V F - Real.pi * q * (Real.sin (2 * Real.pi / n) / (2 * Real.pi / n)) =
      q / 2 * (∑ k ∈ Finset.range n, cr (d k) (d ((k + 1) % n)) - n * Real.sin (2 * Real.pi / n)) := by
    rw [harea]
    field_simp
  rw [heq, abs_mul, abs_of_nonneg (by positivity)]
  calc q / 2 * _ ≤ q / 2 * (n * (5 * machEps)) := mul_le_mul_of_nonneg_left hsum (by positivity)
    _ = n * machEps * q * (5 / 2) := by ring
    _ ≤ n * machEps * q * Real.pi := mul_le_mul_of_nonneg_left (by linarith) (by have := eps_pos; positivity)
    _ = _ := by ring

/-! ### The space -/

private theorem triple_map (S : Matrix (Fin 3) (Fin 3) ℝ) (a b c : Fin 3 → ℝ) : triple (S *ᵥ a) (S *ᵥ b) (S *ᵥ c) = S.det * triple a b c := by
  simp only [triple, mulVec, dotProduct, Fin.sum_univ_three, det_fin_three]
  ring

/-- The sides of the triangles in the direction in which they are passed. -/
private def sidesOf (F : List (ℕ × ℕ × ℕ)) : List (ℕ × ℕ) := F.flatMap fun f => [(f.1, f.2.1), (f.2.1, f.2.2), (f.2.2, f.1)]

private theorem count_sides (F : List (ℕ × ℕ × ℕ)) (a b : ℕ) : (sidesOf F).count (a, b) = dirUses F a b := by
  unfold sidesOf dirUses
  rw [List.count_flatMap]
  congr 1
  refine List.map_congr_left fun f _ => ?_
  simp only [Function.comp, List.count_cons, List.count_nil, dirCount, beq_iff_eq, Prod.mk.injEq]
  omega

private theorem sides_zero {F : List (ℕ × ℕ × ℕ)} (h : ∀ a b, dirUses F a b = dirUses F b a) (g : ℕ → ℕ → ℝ) (hg : ∀ a b, g a b = -g b a) :
    (F.map fun f => g f.1 f.2.1 + g f.2.1 f.2.2 + g f.2.2 f.1).sum = 0 := by
  have hperm : (sidesOf F).Perm ((sidesOf F).map Prod.swap) := by
    rw [List.perm_iff_count]
    rintro ⟨a, b⟩
    rw [show ((a, b) : ℕ × ℕ) = Prod.swap (b, a) from rfl, List.count_map_of_injective _ _ Prod.swap_injective]
    show (sidesOf F).count (a, b) = _
    rw [count_sides, count_sides, h]
  have h1 : (F.map fun f => g f.1 f.2.1 + g f.2.1 f.2.2 + g f.2.2 f.1).sum = ((sidesOf F).map fun s => g s.1 s.2).sum := by
    unfold sidesOf
    clear h hperm
    induction F with
    | nil => simp
    | cons f F ih =>
      rw [List.map_cons, List.sum_cons, ih, List.flatMap_cons, List.map_append, List.sum_append]
      simp [add_assoc]
  have h2 := (hperm.map fun s => g s.1 s.2).sum_eq
  rw [List.map_map] at h2
  have h3 : ((sidesOf F).map ((fun s => g s.1 s.2) ∘ Prod.swap)).sum = -((sidesOf F).map fun s => g s.1 s.2).sum := by
    clear h hperm h1 h2
    induction sidesOf F with
    | nil => simp
    | cons s l ih =>
      rw [List.map_cons, List.map_cons, List.sum_cons, List.sum_cons, ih, neg_add]
      congr 1
      exact hg _ _
  rw [h1]
  linarith

/-- For a closed surface the enclosed volume does not depend on the origin. -/
private theorem surf_shift {F : List (ℕ × ℕ × ℕ)} (h : ∀ a b, dirUses F a b = dirUses F b a) (c : Fin 3 → ℝ) (u : ℕ → Fin 3 → ℝ) :
    (F.map fun f => triple (c + u f.1) (c + u f.2.1) (c + u f.2.2)).sum = (F.map fun f => triple (u f.1) (u f.2.1) (u f.2.2)).sum := by
  have h0 := sides_zero h (fun a b => triple c (u a) (u b)) (fun a b => by simp only [triple]; ring)
  have h1 : (F.map fun f => triple (c + u f.1) (c + u f.2.1) (c + u f.2.2)).sum = (F.map fun f => triple (u f.1) (u f.2.1) (u f.2.2)).sum +
      (F.map fun f => triple c (u f.1) (u f.2.1) + triple c (u f.2.1) (u f.2.2) + triple c (u f.2.2) (u f.1)).sum := by
    rw [← List.sum_map_add]
    congr 1
    refine List.map_congr_left fun f _ => ?_
    simp only [triple, Pi.add_apply]
    ring
  rw [h1, h0, add_zero]

private theorem prod3_close {a b c x y z : ℝ} {ε : ℝ} (h0 : 0 ≤ ε) (h1 : ε ≤ 1 / 1000) (ha : |a - x| ≤ ε) (hb : |b - y| ≤ ε) (hc : |c - z| ≤ ε)
    (hx : |x| ≤ 1) (hy : |y| ≤ 1) (hz : |z| ≤ 1) : |a * b * c - x * y * z| ≤ 4 * ε := by
  have h2 := prod_close h0 h1 ha hb hx hy
  have hc1 : |c| ≤ 1 + ε := by
    calc |c| = |(c - z) + z| := by ring_nf
      _ ≤ |c - z| + |z| := abs_add_le _ _
      _ ≤ _ := by linarith
  have hxy : |x * y| ≤ 1 := by rw [abs_mul]; exact mul_le_one₀ hx (abs_nonneg _) hy
  calc |a * b * c - x * y * z| = |(a * b - x * y) * c + x * y * (c - z)| := by ring_nf
    _ ≤ |a * b - x * y| * |c| + |x * y| * |c - z| := by
      refine (abs_add_le _ _).trans ?_
      rw [abs_mul, abs_mul (x * y)]
    _ ≤ 5 / 2 * ε * (1 + ε) + 1 * ε := by gcongr
    _ ≤ _ := by nlinarith

private theorem triple_close {a b c x y z : Fin 3 → ℝ} {ε : ℝ} (h0 : 0 ≤ ε) (h1 : ε ≤ 1 / 1000) (ha : ∀ i, |a i - x i| ≤ ε) (hb : ∀ i, |b i - y i| ≤ ε)
    (hc : ∀ i, |c i - z i| ≤ ε) (hx : ∀ i, |x i| ≤ 1) (hy : ∀ i, |y i| ≤ 1) (hz : ∀ i, |z i| ≤ 1) : |triple a b c - triple x y z| ≤ 24 * ε := by
  have h := fun i j k => abs_le.1 (prod3_close h0 h1 (ha i) (hb j) (hc k) (hx i) (hy j) (hz k))
  rw [abs_le]
  unfold triple
  constructor <;> linarith [(h 0 1 2).1, (h 0 1 2).2, (h 0 2 1).1, (h 0 2 1).2, (h 1 2 0).1, (h 1 2 0).2, (h 1 0 2).1, (h 1 0 2).2, (h 2 0 1).1, (h 2 0 1).2,
    (h 2 1 0).1, (h 2 1 0).2]

private theorem list_sum_close {α : Type} (l : List α) (f g : α → ℝ) {ε : ℝ} (h : ∀ x ∈ l, |f x - g x| ≤ ε) : |(l.map f).sum - (l.map g).sum| ≤ l.length * ε := by
  induction l with
  | nil => simp
  | cons a l ih =>
    have h1 := h a (by simp)
    have h2 := ih fun x hx => h x (by simp [hx])
    rw [List.map_cons, List.map_cons, List.sum_cons, List.sum_cons, List.length_cons]
    push_cast
    rw [abs_le] at *
    constructor <;> linarith [h1.1, h1.2, h2.1, h2.2]

/-- **C162**, the space: the volume inside the closed surface that `get_boundary` returns for an ellipsoid is the same part of what `volume` returns, whatever
the ellipsoid: the part of the ball that the triangles of `sphere_tri` enclose. -/
theorem C162_space (E : Eigh) (argsort : List ℕ → List ℕ) (hsort : IsArgsort argsort) (e : EllN 3) (he : e.NonDeg) (num : Option NPts) (n : ℕ) (hn : 1 ≤ n)
    (hnum : Asked num e.props.n3d n) : ∃ d, IsLeast {d | 1 ≤ d ∧ n ≤ 10 * 4 ^ d + 2} d ∧ ∀ fuel, d < fuel → ∃ V V0 F v,
      getBoundary E argsort fuel e.obj num true = .ok (some (V, some (.tri F))) ∧ sphereTri argsort fuel d = .ok (some (V0, F)) ∧
      Ell.volume E [e.obj] = .ok [⟨false, v⟩] ∧ 5 / 3 ≤ surfVolume V0 F ∧
      |surfVolume V F - v * (surfVolume V0 F / (4 / 3 * Real.pi))| ≤ 20 * 4 ^ d * machEps * v := by
  obtain ⟨d, hd, hall⟩ := C47_space E argsort hsort e he num n hn hnum
  refine ⟨d, hd, fun fuel hf => ?_⟩
  obtain ⟨V, V0, W, F, h1, h2, h3, ⟨S, hS, hSS, rfl⟩, -, -⟩ := hall fuel hf
  have hv := volume_nonDeg E (by norm_num : (3 : ℕ) ≠ 0) [e] (fun x hx => by rw [List.mem_singleton] at hx; subst hx; exact he)
  have hbf : ballFactor 3 = 4 / 3 * Real.pi := by
    simp [ballFactor, Nat.factorial]
    ring
  rw [List.map_singleton, List.map_singleton, hbf] at hv
  obtain ⟨V', F', g1, -, g2, -, g3, g4, -, -⟩ := C56 argsort hsort d fuel hf
  rw [h2] at g1
  cases g1
  obtain ⟨V', F', g1, g5, -⟩ := C56_apart argsort hsort d fuel hf
  rw [h2] at g1
  cases g1
  obtain ⟨V', F', g1, g6⟩ := C115_sphere argsort hsort d fuel hf
  rw [h2] at g1
  cases g1
  have hsym : ∀ a b, dirUses F a b = dirUses F b a := by
    intro a b
    by_cases h : ∃ f ∈ F, IsSide a b f
    · rw [(g6 a b h).1, (g6 a b h).2]
    · have hz : ∀ f ∈ F, dirCount a b f = 0 ∧ dirCount b a f = 0 := by
        intro f hf
        have h' : ¬ IsSide a b f := fun h' => h ⟨f, hf, h'⟩
        simp only [IsSide, List.mem_cons, Prod.mk.injEq, List.not_mem_nil, or_false, not_or] at h'
        unfold dirCount
        constructor <;> (repeat' rw [if_neg (by omega)])
      unfold dirUses
      rw [List.map_congr_left fun f hf => (hz f hf).1, List.map_congr_left (f := dirCount b a) fun f hf => (hz f hf).2]
  refine ⟨_, V0, F, _, h1, h2, hv, ?_, ?_⟩
  · have h5 : ∀ l : List Row, (∀ f ∈ l, 1 / (2 * 4 ^ d) ≤ triple (V0.getD f.1 0) (V0.getD f.2.1 0) (V0.getD f.2.2 0)) →
        l.length * (1 / (2 * 4 ^ d)) ≤ (l.map fun f => triple (V0.getD f.1 0) (V0.getD f.2.1 0) (V0.getD f.2.2 0)).sum := by
      intro l hl
      induction l with
      | nil => simp
      | cons a l ih =>
        have k1 := hl a (by simp)
        have k2 := ih fun f hf => hl f (by simp [hf])
        rw [List.map_cons, List.sum_cons, List.length_cons]
        push_cast
        linarith
    have h6 := h5 F g5
    rw [g2] at h6
    push_cast at h6
    have h7 : (20 * 4 ^ d : ℝ) * (1 / (2 * 4 ^ d)) = 10 := by
      have : (4 : ℝ) ^ d ≠ 0 := by positivity
      field_simp
      norm_num
    rw [h7] at h6
    unfold surfVolume
    linarith
  · have hdet := det_root hS hSS
    set q := Real.sqrt e.Q.det with hq
    have hq0 : 0 ≤ q := Real.sqrt_nonneg _
    have hlen : W.length = V0.length := List.Forall₂.length_eq h3
    have hW : ∀ k < V0.length, (W.map fun w => e.c + S *ᵥ w).getD k 0 = e.c + S *ᵥ W.getD k 0 := by
      intro k hk
      simp only [List.getD_eq_getElem?_getD, List.getElem?_map]
      rw [List.getElem?_eq_getElem (by rw [hlen]; exact hk)]
      rfl
    have hclose : ∀ k < V0.length, ∀ i, |W.getD k 0 i - V0.getD k 0 i| ≤ machEps := by
      intro k hk i
      simp only [List.getD_eq_getElem?_getD]
      rw [List.getElem?_eq_getElem (by rw [hlen]; exact hk), List.getElem?_eq_getElem hk]
      exact (List.forall₂_iff_get.1 h3).2 k (by rw [hlen]; exact hk) hk i
    have hone : ∀ k < V0.length, ∀ i, |V0.getD k 0 i| ≤ 1 := by
      intro k hk i
      have hm : V0.getD k 0 ∈ V0 := by
        rw [List.getD_eq_getElem?_getD, List.getElem?_eq_getElem hk]
        exact List.getElem_mem _
      have := g3 _ hm
      rw [abs_le_one_iff_mul_self_le_one]
      fin_cases i <;> simp only [Fin.zero_eta, Fin.mk_one, Fin.reduceFinMk] <;> nlinarith [sq_nonneg (V0.getD k 0 0), sq_nonneg (V0.getD k 0 1), sq_nonneg (V0.getD k 0 2)]
    have harea : surfVolume (W.map fun w => e.c + S *ᵥ w) F = q * (F.map fun f => triple (W.getD f.1 0) (W.getD f.2.1 0) (W.getD f.2.2 0)).sum / 6 := by
      unfold surfVolume
      congr 1
      have k1 : (F.map fun f => triple ((W.map fun w => e.c + S *ᵥ w).getD f.1 0) ((W.map fun w => e.c + S *ᵥ w).getD f.2.1 0)
          ((W.map fun w => e.c + S *ᵥ w).getD f.2.2 0)) = F.map fun f => triple (e.c + S *ᵥ W.getD f.1 0) (e.c + S *ᵥ W.getD f.2.1 0) (e.c + S *ᵥ W.getD f.2.2 0) := by
        refine List.map_congr_left fun f hf => ?_
        obtain ⟨r1, r2, r3⟩ := (g4 f hf).1
        rw [hW _ r1, hW _ r2, hW _ r3]
      rw [k1, surf_shift hsym e.c fun k => S *ᵥ W.getD k 0, ← List.sum_map_mul_left]
      congr 1
      refine List.map_congr_left fun f _ => ?_
      rw [triple_map, hdet]
    have hsum := list_sum_close F (fun f => triple (W.getD f.1 0) (W.getD f.2.1 0) (W.getD f.2.2 0))
      (fun f => triple (V0.getD f.1 0) (V0.getD f.2.1 0) (V0.getD f.2.2 0)) (ε := 24 * machEps) fun f hf => by
        obtain ⟨r1, r2, r3⟩ := (g4 f hf).1
        exact triple_close eps_pos.le eps_small (hclose _ r1) (hclose _ r2) (hclose _ r3) (hone _ r1) (hone _ r2) (hone _ r3)
    have hpi := Real.pi_gt_three
    have hpi0 : Real.pi ≠ 0 := Real.pi_pos.ne'
    rw [g2] at hsum
    have heq : surfVolume (W.map fun w => e.c + S *ᵥ w) F - 4 / 3 * Real.pi * q * (surfVolume V0 F / (4 / 3 * Real.pi)) =
        q / 6 * ((F.map fun f => triple (W.getD f.1 0) (W.getD f.2.1 0) (W.getD f.2.2 0)).sum -
          (F.map fun f => triple (V0.getD f.1 0) (V0.getD f.2.1 0) (V0.getD f.2.2 0)).sum) := by
      rw [harea, surfVolume]
      field_simp
    rw [heq, abs_mul, abs_of_nonneg (by positivity)]
    push_cast at hsum
    calc q / 6 * _ ≤ q / 6 * (20 * 4 ^ d * (24 * machEps)) := mul_le_mul_of_nonneg_left hsum (by positivity)
      _ = 20 * 4 ^ d * machEps * q * 4 := by ring
      _ ≤ 20 * 4 ^ d * machEps * q * (4 / 3 * Real.pi) := mul_le_mul_of_nonneg_left (by linarith) (by have := eps_pos; positivity)
      _ = _ := by ring

/-- Four points of a circle of radius one: a square of area two. -/
example (E : Eigh) : ∃ V F, getBoundary E stableArgsort 0 discN.obj (some (.int 4)) true = .ok (some (V, some (.seg F))) ∧
    |lineArea V F - 2| ≤ 4 * machEps * Real.pi := by
  obtain ⟨V, F, v, h1, h2, h3⟩ := C162_plane E stableArgsort 0 discN discN_nonDeg (some (.int 4)) 4 (by norm_num) (Or.inl rfl)
  have hv := volume_nonDeg E (by norm_num : (2 : ℕ) ≠ 0) [discN] (fun x hx => by rw [List.mem_singleton] at hx; subst hx; exact discN_nonDeg)
  have hb : ballFactor 2 = Real.pi := by simp [ballFactor]
  have hq : discN.Q.det = 1 := by simp [discN]
  rw [List.map_singleton, List.map_singleton, hb, hq, Real.sqrt_one, mul_one, h2] at hv
  cases hv
  refine ⟨V, F, h1, ?_⟩
  have e1 : 2 * Real.pi / (4 : ℕ) = Real.pi / 2 := by push_cast; ring
  have e2 : Real.pi * (1 / (Real.pi / 2)) = 2 := by have := Real.pi_pos.ne'; field_simp
  rw [e1, Real.sin_pi_div_two, e2] at h3
  exact_mod_cast h3

/-- An ellipsoid in space with at least a hundred points: more than a third of its volume is inside the surface. -/
example (E : Eigh) : ∃ d, ∀ fuel, d < fuel → ∃ V F v, getBoundary E stableArgsort fuel ballN.obj (some (.int 100)) true = .ok (some (V, some (.tri F))) ∧
    Ell.volume E [ballN.obj] = .ok [⟨false, v⟩] ∧ v * (1 / 3 - 20 * 4 ^ d * machEps) ≤ surfVolume V F := by
  obtain ⟨d, hd, h⟩ := C162_space E stableArgsort stableArgsort_ok ballN ballN_nonDeg (some (.int 100)) 100 (by norm_num) (Or.inl rfl)
  refine ⟨d, fun fuel hf => ?_⟩
  obtain ⟨V, V0, F, v, h1, -, h2, h3, h4⟩ := h fuel hf
  refine ⟨V, F, v, h1, h2, ?_⟩
  have hv := volume_nonDeg E (by norm_num : (3 : ℕ) ≠ 0) [ballN] (fun x hx => by rw [List.mem_singleton] at hx; subst hx; exact ballN_nonDeg)
  have hb : ballFactor 3 = 4 / 3 * Real.pi := by
    simp [ballFactor, Nat.factorial]
    ring
  rw [List.map_singleton, List.map_singleton, hb, h2] at hv
  have hv0 : 0 ≤ v := by
    cases hv
    have := Real.pi_pos
    positivity
  have h5 : 1 / 3 ≤ surfVolume V0 F / (4 / 3 * Real.pi) := by
    rw [le_div_iff₀ (by have := Real.pi_pos; positivity)]
    linarith [Real.pi_lt_d2]
  have h6 := mul_le_mul_of_nonneg_left h5 hv0
  have h7 := (abs_le.1 h4).1
  rw [mul_sub]
  linarith

end Ellipy.Ell
