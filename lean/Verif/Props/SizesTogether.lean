import Verif.Props.RelChange
import Verif.Props.PolarDual
import Verif.Props.Monotone

/-! Property theorems C150: how `volume`, `trace`, `min_eig` and `max_eig` of one ellipsoid and of its polar fit together. -/

namespace Ellipy.Ell
open Matrix Ellipy.LA

/-- The volume of the unit ball. -/
noncomputable def unitBallVolume (n : ℕ) : ℝ := (MeasureTheory.volume {u : Fin n → ℝ | u ⬝ᵥ u ≤ 1}).toReal

/-! ### The eigenvalues -/

/-- `V` has orthonormal columns, and `Q` has the eigenvalues `d` there. -/
private structure Axes {n : ℕ} (Q V : Matrix (Fin n) (Fin n) ℝ) (d : Fin n → ℝ) : Prop where
  l : Vᵀ * V = 1
  r : V * Vᵀ = 1
  q : Q = V * diagonal d * Vᵀ

private theorem axes_exist {n : ℕ} {Q : Matrix (Fin n) (Fin n) ℝ} (hQ : Qᵀ = Q) : ∃ V d, Axes Q V d := by
  obtain ⟨E⟩ := nonempty_eigh
  exact ⟨E.vecs Q, E.vals Q, E.orth Q, orth_comm (E.orth Q), by rw [← E.decomp Q, lowerSym_of_symm hQ]⟩

section
variable {n : ℕ} {Q V : Matrix (Fin n) (Fin n) ℝ} {d : Fin n → ℝ} (h : Axes Q V d)
include h

private theorem Axes.diag : Vᵀ * Q * V = diagonal d := by
  rw [h.q, ← Matrix.mul_assoc, ← Matrix.mul_assoc, h.l, Matrix.one_mul, Matrix.mul_assoc, h.l, Matrix.mul_one]

private theorem Axes.tr : Q.trace = ∑ i, d i := by
  have := congrArg Matrix.trace h.diag
  rw [Matrix.mul_assoc, trace_mul_comm, Matrix.mul_assoc, h.r, Matrix.mul_one, trace_diagonal] at this
  exact this

private theorem Axes.dt : Q.det = ∏ i, d i := by
  have := congrArg det h.diag
  have hV : Vᵀ.det * V.det = 1 := by rw [← det_mul, h.l, det_one]
  rw [det_mul, det_mul, det_diagonal] at this
  rw [← this, mul_right_comm, hV, one_mul]

private theorem Axes.scalar_iff (a : ℝ) : Q = a • (1 : Matrix (Fin n) (Fin n) ℝ) ↔ ∀ i, d i = a := by
  constructor
  · intro hq i
    have := h.diag
    rw [hq, Matrix.mul_smul, Matrix.mul_one, Matrix.smul_mul, h.l] at this
    have := congrFun (congrFun this i) i
    simpa using this.symm
  · intro hd
    have : d = fun _ => a := funext hd
    rw [h.q, this]
    have : diagonal (fun _ : Fin n => a) = a • (1 : Matrix (Fin n) (Fin n) ℝ) := by rw [smul_one_eq_diagonal]
    rw [this, Matrix.mul_smul, Matrix.mul_one, Matrix.smul_mul, h.r]

private theorem Axes.form (x : Fin n → ℝ) : x ⬝ᵥ Q *ᵥ x = ∑ i, d i * ((Vᵀ *ᵥ x) i) ^ 2 := by
  rw [h.q, quad_conj, quad_diag]

private theorem Axes.norm (x : Fin n → ℝ) : x ⬝ᵥ x = ∑ i, ((Vᵀ *ᵥ x) i) ^ 2 := by
  rw [← dot_orthT h.l x x, dot_self_eq]

private theorem Axes.mem (i : Fin n) : d i ∈ formValues Q := by
  refine ⟨fun k => V k i, ?_, ?_⟩
  · have := congrFun (congrFun h.l i) i
    rw [Matrix.mul_apply, one_apply_eq] at this
    rw [← this]; rfl
  · have : (fun k => V k i) ⬝ᵥ Q *ᵥ (fun k => V k i) = (Vᵀ * Q * V) i i := by
      rw [Matrix.mul_assoc]; rfl
    rw [this, h.diag, diagonal_apply_eq]

private theorem Axes.least (hn : n ≠ 0) {lo : ℝ} (hl : IsLeast (formValues Q) lo) : (∃ i, d i = lo) ∧ ∀ i, lo ≤ d i := by
  refine ⟨?_, fun i => hl.2 (h.mem i)⟩
  haveI : Nonempty (Fin n) := ⟨⟨0, Nat.pos_of_ne_zero hn⟩⟩
  obtain ⟨i, hi⟩ := Finite.exists_min d
  refine ⟨i, le_antisymm ?_ (hl.2 (h.mem i))⟩
  obtain ⟨x, hx, hlo⟩ := hl.1
  rw [hlo, h.form, ← mul_one (d i), ← hx, h.norm, Finset.mul_sum]
  exact Finset.sum_le_sum fun j _ => mul_le_mul_of_nonneg_right (hi j) (sq_nonneg _)

private theorem Axes.greatest (hn : n ≠ 0) {hi : ℝ} (hl : IsGreatest (formValues Q) hi) : (∃ i, d i = hi) ∧ ∀ i, d i ≤ hi := by
  refine ⟨?_, fun i => hl.2 (h.mem i)⟩
  haveI : Nonempty (Fin n) := ⟨⟨0, Nat.pos_of_ne_zero hn⟩⟩
  obtain ⟨i, hi⟩ := Finite.exists_max d
  refine ⟨i, le_antisymm (hl.2 (h.mem i)) ?_⟩
  obtain ⟨x, hx, hlo⟩ := hl.1
  rw [hlo, h.form, ← mul_one (d i), ← hx, h.norm, Finset.mul_sum]
  exact Finset.sum_le_sum fun j _ => mul_le_mul_of_nonneg_right (hi j) (sq_nonneg _)

private theorem Axes.inv (hd : ∀ i, d i ≠ 0) : Axes Q⁻¹ V (fun i => 1 / d i) := by
  refine ⟨h.l, h.r, inv_eq_right_inv ?_⟩
  have hdd : diagonal d * diagonal (fun i => 1 / d i) = 1 := by
    rw [diagonal_mul_diagonal, ← diagonal_one]
    congr 1
    funext i
    exact mul_one_div_cancel (hd i)
  calc Q * (V * diagonal (fun i => 1 / d i) * Vᵀ) = V * diagonal d * (Vᵀ * V) * diagonal (fun i => 1 / d i) * Vᵀ := by
        rw [h.q]; simp only [Matrix.mul_assoc]
    _ = V * (diagonal d * diagonal (fun i => 1 / d i)) * Vᵀ := by rw [h.l, Matrix.mul_one]; simp only [Matrix.mul_assoc]
    _ = 1 := by rw [hdd, Matrix.mul_one, h.r]

end

/-! ### Means -/

/-- The product of positive numbers and the power of their mean. -/
private theorem mean_prod {n : ℕ} (d : Fin n → ℝ) (hd : ∀ i, 0 < d i) {a : ℝ} (ha : 0 < a) (hs : ∑ i, d i = n * a) :
    ∏ i, d i ≤ a ^ n ∧ (∏ i, d i = a ^ n ↔ ∀ i, d i = a) := by
  have hx : ∀ i, 0 < d i / a := fun i => div_pos (hd i) ha
  have hlog : Real.log (∏ i, d i) - Real.log (a ^ n) = ∑ i, Real.log (d i / a) := by
    rw [Real.log_prod (fun i _ => (hd i).ne'), Real.log_pow]
    rw [Finset.sum_congr rfl fun i _ => Real.log_div (hd i).ne' ha.ne', Finset.sum_sub_distrib]
    simp
  have hz : ∑ i, (d i / a - 1) = 0 := by
    rw [Finset.sum_sub_distrib, ← Finset.sum_div, hs]
    simp [ha.ne']
  have hle : ∀ i, Real.log (d i / a) ≤ d i / a - 1 := fun i => Real.log_le_sub_one_of_pos (hx i)
  have hP : 0 < ∏ i, d i := Finset.prod_pos fun i _ => hd i
  have hA : 0 < a ^ n := pow_pos ha n
  have h1 : Real.log (∏ i, d i) - Real.log (a ^ n) ≤ 0 := by
    rw [hlog, ← hz]
    exact Finset.sum_le_sum fun i _ => hle i
  refine ⟨(Real.log_le_log_iff hP hA).1 (by linarith), fun heq => ?_, fun hall => ?_⟩
  · have h2 : ∑ i, Real.log (d i / a) = ∑ i, (d i / a - 1) := by rw [← hlog, heq, hz, sub_self]
    have h3 := (Finset.sum_eq_sum_iff_of_le fun i _ => hle i).1 h2
    intro i
    by_contra hne
    have h4 := Real.log_lt_sub_one_of_pos (hx i) (fun hc => hne (by rwa [div_eq_one_iff_eq ha.ne'] at hc))
    exact absurd (h3 i (Finset.mem_univ i)) h4.ne
  · rw [Finset.prod_congr rfl fun i _ => hall i]
    simp

/-- The sum of the inverses and the inverse of the mean. -/
private theorem mean_inv {n : ℕ} (d : Fin n → ℝ) (hd : ∀ i, 0 < d i) {a : ℝ} (ha : 0 < a) (hs : ∑ i, d i = n * a) :
    n / a ≤ ∑ i, 1 / d i ∧ (∑ i, 1 / d i = n / a → ∀ i, d i = a) := by
  have hdef : ∑ i, 1 / d i - n / a = ∑ i, (d i - a) ^ 2 / (a ^ 2 * d i) := by
    have : ∀ i, (d i - a) ^ 2 / (a ^ 2 * d i) = 1 / d i - 2 / a + d i / a ^ 2 := by
      intro i
      have := (hd i).ne'
      field_simp
      ring
    have hq : ∑ i, d i / a ^ 2 = n * a / a ^ 2 := by rw [← Finset.sum_div, hs]
    rw [Finset.sum_congr rfl fun i _ => this i, Finset.sum_add_distrib, Finset.sum_sub_distrib, hq]
    simp only [Finset.sum_const, Finset.card_univ, Fintype.card_fin, nsmul_eq_mul]
    field_simp
    ring
  have h0 : ∀ i, 0 ≤ (d i - a) ^ 2 / (a ^ 2 * d i) := fun i => div_nonneg (sq_nonneg _) (mul_nonneg (sq_nonneg _) (hd i).le)
  refine ⟨by linarith [Finset.sum_nonneg fun i (_ : i ∈ Finset.univ) => h0 i], fun heq i => ?_⟩
  have h1 : ∑ i, (d i - a) ^ 2 / (a ^ 2 * d i) = 0 := by rw [← hdef, heq, sub_self]
  have h2 := (Finset.sum_eq_zero_iff_of_nonneg fun i _ => h0 i).1 h1 i (Finset.mem_univ i)
  have h3 : a ^ 2 * d i ≠ 0 := mul_ne_zero (pow_ne_zero 2 ha.ne') (hd i).ne'
  rw [div_eq_zero_iff] at h2
  rcases h2 with h2 | h2
  · exact sub_eq_zero.1 (pow_eq_zero_iff two_ne_zero |>.1 h2)
  · exact absurd h2 h3

/-! ### The three functions -/

private theorem sizes_eval (E : Eigh) {n : ℕ} (hn : n ≠ 0) (e : EllN n) (he : e.PSD) (arg : ObjArg EllObj) (ha : arg.Is (Arr.vec [e.obj])) :
    ∃ lo hi, minEig E arg = .ok [lo] ∧ maxEig E arg = .ok [hi] ∧ trace arg = .ok [e.Q.trace] ∧ IsLeast (formValues e.Q) lo ∧
      IsGreatest (formValues e.Q) hi := by
  have hne : ¬ anyEmpty (Arr.vec [e.obj]).data := by
    rintro ⟨x, hx, h0⟩
    have hx : x ∈ [e.obj] := hx
    rw [List.mem_singleton] at hx
    subst hx
    exact hn h0
  have ht : trace arg = .ok [e.Q.trace] := by
    unfold trace
    rw [(C80_ok_iff _ _ _ _).mpr ha]
    simp only
    rw [if_neg hne]
    rfl
  obtain ⟨⟨rs, h1, h2⟩, ss, h3, h4⟩ := C81_form E arg _ ha (by
    intro x hx
    have hx : x ∈ [e.obj] := hx
    rw [List.mem_singleton] at hx
    subst hx
    exact hn)
  have h2 : List.Forall₂ _ [e.obj] rs := h2
  have h4 : List.Forall₂ _ [e.obj] ss := h4
  have e1 : lowerSym e.Q = e.Q := lowerSym_of_symm he.2.1
  match rs, h2, ss, h4 with
  | [r], .cons hr .nil, [r'], .cons hr' .nil =>
    have hr : IsLeast (formValues (lowerSym e.Q)) r := hr
    have hr' : IsGreatest (formValues (lowerSym e.Q)) r' := hr'
    rw [e1] at hr hr'
    exact ⟨r, r', h1, h3, ht, hr, hr'⟩

/-- **C150**, `trace`, `min_eig` and `max_eig`: the mean of the squared half axes lies between the smallest and the largest one, and it is equal
to one of them exactly for balls. -/
theorem C150_trace (E : Eigh) {n : ℕ} (hn : n ≠ 0) (e : EllN n) (he : e.PSD) (arg : ObjArg EllObj) (ha : arg.Is (Arr.vec [e.obj])) :
    ∃ lo hi t, minEig E arg = .ok [lo] ∧ maxEig E arg = .ok [hi] ∧ trace arg = .ok [t] ∧ n * lo ≤ t ∧ t ≤ n * hi ∧
      (n * lo = t ↔ e.Q = lo • (1 : Matrix (Fin n) (Fin n) ℝ)) ∧ (t = n * hi ↔ e.Q = hi • (1 : Matrix (Fin n) (Fin n) ℝ)) ∧
      (lo = hi ↔ e.Q = lo • (1 : Matrix (Fin n) (Fin n) ℝ)) := by
  obtain ⟨lo, hi, h1, h2, h3, h4, h5⟩ := sizes_eval E hn e he arg ha
  obtain ⟨V, d, hA⟩ := axes_exist he.2.1
  obtain ⟨⟨i0, hi0⟩, hlo⟩ := hA.least hn h4
  obtain ⟨⟨i1, hi1⟩, hhi⟩ := hA.greatest hn h5
  have c1 : ∀ a : ℝ, (n : ℝ) * a = ∑ _i : Fin n, a := by intro a; simp
  refine ⟨lo, hi, _, h1, h2, h3, ?_, ?_, ?_, ?_, ?_⟩
  · rw [hA.tr, c1]; exact Finset.sum_le_sum fun i _ => hlo i
  · rw [hA.tr, c1]; exact Finset.sum_le_sum fun i _ => hhi i
  · rw [hA.scalar_iff, hA.tr, c1, Finset.sum_eq_sum_iff_of_le fun i _ => hlo i]
    exact ⟨fun h i => (h i (Finset.mem_univ i)).symm, fun h i _ => (h i).symm⟩
  · rw [hA.scalar_iff, hA.tr, c1, Finset.sum_eq_sum_iff_of_le fun i _ => hhi i]
    exact ⟨fun h i => h i (Finset.mem_univ i), fun h i _ => h i⟩
  · rw [hA.scalar_iff]
    exact ⟨fun h i => le_antisymm (h ▸ hhi i) (hlo i), fun h => by rw [← hi1, h i1]⟩

private theorem sqrt_pow' {a : ℝ} (ha : 0 ≤ a) (n : ℕ) : √(a ^ n) = √a ^ n := by
  rw [Real.sqrt_eq_iff_mul_self_eq (pow_nonneg ha n) (pow_nonneg (Real.sqrt_nonneg a) n), ← mul_pow, Real.mul_self_sqrt ha]

private theorem volume_eval (E : Eigh) {n : ℕ} (hn : n ≠ 0) (e : EllN n) (he : e.NonDeg) :
    0 < unitBallVolume n ∧ ∃ v : VolEntry, Ell.volume E [e.obj] = .ok [v] ∧ v.val = unitBallVolume n * √e.Q.det := by
  obtain ⟨vs, h1, h2⟩ := C32 E [e.obj] (by
    intro x hx
    rw [List.mem_singleton] at hx
    subst hx
    exact ⟨hn, he.psd.2, he.1.1.le⟩)
  match vs, h2 with
  | [v], .cons hv .nil =>
    obtain ⟨m1, p1, -⟩ := hv.1 he.2.2
    have m1 : MeasureTheory.volume (Ell e.c e.Q) = ENNReal.ofReal v.val := m1
    rw [ell_volume_eq hn _ he.psd.2] at m1
    have hom : 0 < Real.sqrt Real.pi ^ n / Real.Gamma (n / 2 + 1) :=
      div_pos (pow_pos (Real.sqrt_pos.2 Real.pi_pos) _) (Real.Gamma_pos_of_pos (by positivity))
    rw [ENNReal.ofReal_eq_ofReal_iff (mul_nonneg hom.le (Real.sqrt_nonneg _)) p1.le] at m1
    have hb : unitBallVolume n = Real.sqrt Real.pi ^ n / Real.Gamma (n / 2 + 1) := by
      rw [unitBallVolume, unit_ball_volume n hn, ENNReal.toReal_ofReal hom.le]
    exact ⟨by rw [hb]; exact hom, v, h1, by rw [hb]; exact m1.symm⟩

private theorem axes_pos {n : ℕ} {e : EllN n} (he : e.NonDeg) {V : Matrix (Fin n) (Fin n) ℝ} {d : Fin n → ℝ} (hA : Axes e.Q V d) (i : Fin n) :
    0 < d i := by
  obtain ⟨x, hx, hd⟩ := hA.mem i
  rw [hd]
  have hx0 : x ≠ 0 := by rintro rfl; simp at hx
  have := he.2.2 x hx0
  rw [hx] at this
  have ht : 0 < e.props.absTol := he.1.1
  linarith

/-- **C150**, `volume`: it lies between the volumes of the largest ball inside and the smallest ball around, and it is not larger than the volume
of the ball with the same trace, and equal to it exactly for balls. -/
theorem C150_volume (E : Eigh) {n : ℕ} (hn : n ≠ 0) (e : EllN n) (he : e.NonDeg) (arg : ObjArg EllObj) (ha : arg.Is (Arr.vec [e.obj])) :
    ∃ lo hi t v, minEig E arg = .ok [lo] ∧ maxEig E arg = .ok [hi] ∧ trace arg = .ok [t] ∧ Ell.volume E [e.obj] = .ok [v] ∧
      unitBallVolume n * √lo ^ n ≤ v.val ∧ v.val ≤ unitBallVolume n * √hi ^ n ∧ v.val ≤ unitBallVolume n * √(t / n) ^ n ∧
      (v.val = unitBallVolume n * √(t / n) ^ n ↔ e.Q = (t / n) • (1 : Matrix (Fin n) (Fin n) ℝ)) := by
  obtain ⟨lo, hi, h1, h2, h3, h4, h5⟩ := sizes_eval E hn e he.psd arg ha
  obtain ⟨V, d, hA⟩ := axes_exist he.psd.2.1
  obtain ⟨⟨i0, hi0⟩, hlo⟩ := hA.least hn h4
  obtain ⟨⟨i1, hi1⟩, hhi⟩ := hA.greatest hn h5
  obtain ⟨hom, v, h6, h7⟩ := volume_eval E hn e he
  have hd := axes_pos he hA
  have hlo0 : 0 < lo := hi0 ▸ hd i0
  have hhi0 : 0 < hi := hi1 ▸ hd i1
  have hn' : (0 : ℝ) < n := by exact_mod_cast Nat.pos_of_ne_zero hn
  have ht0 : 0 < e.Q.trace := by
    rw [hA.tr]
    exact Finset.sum_pos (fun i _ => hd i) ⟨i0, Finset.mem_univ _⟩
  have hm0 : 0 < e.Q.trace / n := div_pos ht0 hn'
  have hsum : ∑ i, d i = n * (e.Q.trace / n) := by rw [← hA.tr]; field_simp
  obtain ⟨g1, g2⟩ := mean_prod d hd hm0 hsum
  have hdet : 0 < e.Q.det := by rw [hA.dt]; exact Finset.prod_pos fun i _ => hd i
  have hpow : ∀ a : ℝ, a ^ n = ∏ _i : Fin n, a := by intro a; simp
  have key : ∀ a : ℝ, 0 ≤ a → unitBallVolume n * √a ^ n = unitBallVolume n * √(a ^ n) := fun a h => by rw [sqrt_pow' h]
  refine ⟨lo, hi, _, v, h1, h2, h3, h6, ?_, ?_, ?_, ?_⟩
  · rw [h7, key lo hlo0.le]
    refine mul_le_mul_of_nonneg_left (Real.sqrt_le_sqrt ?_) hom.le
    rw [hA.dt, hpow]
    exact Finset.prod_le_prod (fun i _ => hlo0.le) fun i _ => hlo i
  · rw [h7, key hi hhi0.le]
    refine mul_le_mul_of_nonneg_left (Real.sqrt_le_sqrt ?_) hom.le
    rw [hA.dt, hpow]
    exact Finset.prod_le_prod (fun i _ => (hd i).le) fun i _ => hhi i
  · rw [h7, key _ hm0.le]
    refine mul_le_mul_of_nonneg_left (Real.sqrt_le_sqrt ?_) hom.le
    rw [hA.dt]
    exact g1
  · rw [h7, key _ hm0.le, mul_right_inj' hom.ne', Real.sqrt_inj hdet.le (pow_pos hm0 n).le, hA.dt, hA.scalar_iff]
    exact g2

/-- **C150**, `polar`: the smallest and the largest eigenvalue of the polar are at least the inverses of the largest and the smallest one, and
equal to them if the centre is the origin; the product of the traces is at least `n²`, and equal to it exactly for balls about the origin. -/
theorem C150_polar (E : Eigh) (L : Lstsq) (p : PropVals) (hp : p.ok) {n : ℕ} (hn : n ≠ 0) (e : EllN n) (he : e.NonDeg) (h0 : OriginInside e.set)
    (arg : ObjArg EllObj) (ha : arg.Is (Arr.vec [e.obj])) :
    ∃ (r : EllN n) (lo hi t : ℝ), polar E L p (Arr.vec [e.obj]) = .ok (Arr.vec [r.obj]) ∧
      minEig E arg = .ok [lo] ∧ maxEig E arg = .ok [hi] ∧ trace arg = .ok [t] ∧
      ∀ arg' : ObjArg EllObj, arg'.Is (Arr.vec [r.obj]) → ∃ lo' hi' t', minEig E arg' = .ok [lo'] ∧ maxEig E arg' = .ok [hi'] ∧ trace arg' = .ok [t'] ∧
        1 / hi ≤ lo' ∧ 1 / lo ≤ hi' ∧ (e.c = 0 → lo' = 1 / hi ∧ hi' = 1 / lo) ∧ (n : ℝ) ^ 2 ≤ t * t' ∧
        (t * t' = n ^ 2 ↔ e.c = 0 ∧ e.Q = (t / n) • (1 : Matrix (Fin n) (Fin n) ℝ)) := by
  obtain ⟨lo, hi, h1, h2, h3, h4, h5⟩ := sizes_eval E hn e he.psd arg ha
  have hk := k_lt_one he h0
  refine ⟨⟨polC e, polQ e, p⟩, lo, hi, _, (polar_value E L p hp hn e he h0).1, h1, h2, h3, fun arg' ha' => ?_⟩
  obtain ⟨lo', hi', g1, g2, g3, g4, g5⟩ := sizes_eval E hn ⟨polC e, polQ e, p⟩ ⟨hp, polQ_psd he hk⟩ arg' ha'
  refine ⟨lo', hi', _, g1, g2, g3, ?_⟩
  change IsLeast (formValues (polQ e)) lo' at g4
  change IsGreatest (formValues (polQ e)) hi' at g5
  change _ ∧ _ ∧ _ ∧ (n : ℝ) ^ 2 ≤ e.Q.trace * (polQ e).trace ∧ (e.Q.trace * (polQ e).trace = n ^ 2 ↔ _)
  obtain ⟨V, d, hA⟩ := axes_exist he.psd.2.1
  obtain ⟨⟨i0, hi0⟩, hlo⟩ := hA.least hn h4
  obtain ⟨⟨i1, hi1⟩, hhi⟩ := hA.greatest hn h5
  have hd := axes_pos he hA
  have hlo0 : 0 < lo := hi0 ▸ hd i0
  have hhi0 : 0 < hi := hi1 ▸ hd i1
  have hn' : (0 : ℝ) < n := by exact_mod_cast Nat.pos_of_ne_zero hn
  have hI := hA.inv fun i => (hd i).ne'
  have hk0 : 0 ≤ e.k := by
    by_cases hc : e.c = 0
    · rw [EllN.k, hc, zero_dotProduct]
    · exact (he.inv_pos hc).le
  have hk1 : 0 < 1 - e.k := by linarith
  have hone : 1 ≤ 1 / (1 - e.k) := by rw [le_div_iff₀ hk1]; linarith
  -- the forms
  have hf := polQ_quad e
  have hinv0 : ∀ x : Fin n → ℝ, 0 ≤ x ⬝ᵥ e.Q⁻¹ *ᵥ x := by
    intro x
    rw [hI.form]
    exact Finset.sum_nonneg fun i _ => mul_nonneg (one_div_nonneg.2 (hd i).le) (sq_nonneg _)
  have hge : ∀ x : Fin n → ℝ, x ⬝ᵥ e.Q⁻¹ *ᵥ x ≤ x ⬝ᵥ polQ e *ᵥ x := by
    intro x
    rw [hf]
    nlinarith [hinv0 x, sq_nonneg (polC e ⬝ᵥ x)]
  have hc0 : e.c = 0 → polQ e = e.Q⁻¹ := by
    intro hc
    have hkz : e.k = 0 := by rw [EllN.k, hc, zero_dotProduct]
    have hpc : polC e = 0 := by rw [polC, hc, mulVec_zero, smul_zero]
    rw [polQ, hpc, hkz]
    simp
  -- the traces
  have htr : (polQ e).trace = 1 / (1 - e.k) * (e.Q⁻¹).trace + polC e ⬝ᵥ polC e := by
    rw [polQ, Matrix.trace_add, Matrix.trace_smul, trace_vecMulVec, smul_eq_mul]
  have ht0 : 0 < e.Q.trace := by
    rw [hA.tr]
    exact Finset.sum_pos (fun i _ => hd i) ⟨i0, Finset.mem_univ _⟩
  have hm0 : 0 < e.Q.trace / n := div_pos ht0 hn'
  have hsum : ∑ i, d i = n * (e.Q.trace / n) := by rw [← hA.tr]; field_simp
  obtain ⟨m1, m2⟩ := mean_inv d hd hm0 hsum
  have hti : (n : ℝ) ^ 2 / e.Q.trace ≤ (e.Q⁻¹).trace := by
    rw [hI.tr]
    refine le_trans (le_of_eq ?_) m1
    field_simp
  have hti0 : 0 < (e.Q⁻¹).trace := lt_of_lt_of_le (div_pos (pow_pos hn' 2) ht0) hti
  have hpp := dot_self_nonneg (polC e)
  have htge : (e.Q⁻¹).trace ≤ (polQ e).trace := by
    rw [htr]
    nlinarith
  refine ⟨?_, ?_, fun hc => ?_, ?_, ?_⟩
  · obtain ⟨x, hx, hxl⟩ := g4.1
    rw [hxl]
    refine le_trans ?_ (hge x)
    have h1 : 1 / hi = ∑ i, 1 / hi * ((Vᵀ *ᵥ x) i) ^ 2 := by rw [← Finset.mul_sum, ← hA.norm, hx, mul_one]
    rw [hI.form, h1]
    exact Finset.sum_le_sum fun j _ => mul_le_mul_of_nonneg_right (one_div_le_one_div_of_le (hd j) (hhi j)) (sq_nonneg _)
  · obtain ⟨x, hx, hxl⟩ := hI.mem i0
    rw [← hi0, hxl]
    exact (hge x).trans (g5.2 ⟨x, hx, rfl⟩)
  · rw [hc0 hc] at g4 g5
    obtain ⟨⟨j0, hj0⟩, hlo'⟩ := hI.least hn g4
    obtain ⟨⟨j1, hj1⟩, hhi'⟩ := hI.greatest hn g5
    constructor
    · refine le_antisymm ?_ ?_
      · rw [← hi1]; exact hlo' i1
      · rw [← hj0]; exact one_div_le_one_div_of_le (hd j0) (hhi j0)
    · refine le_antisymm ?_ ?_
      · rw [← hj1]; exact one_div_le_one_div_of_le hlo0 (hlo j1)
      · rw [← hi0]; exact hhi' i0
  · have := hti.trans htge
    rw [div_le_iff₀ ht0] at this
    linarith
  · constructor
    · intro heq
      have h6 : (polQ e).trace = (n : ℝ) ^ 2 / e.Q.trace := by rw [eq_div_iff ht0.ne']; linarith
      have h7 : (e.Q⁻¹).trace = (n : ℝ) ^ 2 / e.Q.trace := le_antisymm (by rw [← h6]; exact htge) hti
      constructor
      · have h8 : polC e ⬝ᵥ polC e = 0 := by nlinarith
        have h9 : polC e = 0 := by
          by_contra hne
          exact absurd h8 (dot_self_pos hne).ne'
        have h10 : e.Q⁻¹ *ᵥ e.c = 0 := by
          rw [polC, smul_eq_zero] at h9
          rcases h9 with h9 | h9
          · exact absurd h9 (div_ne_zero (by norm_num) hk1.ne')
          · exact h9
        have h11 : e.Q *ᵥ (e.Q⁻¹ *ᵥ e.c) = e.c := by
          rw [mulVec_mulVec, mul_nonsing_inv _ (isUnit_iff_ne_zero.2 he.det), one_mulVec]
        rw [← h11, h10, mulVec_zero]
      · rw [hA.scalar_iff]
        refine m2 ?_
        rw [← hI.tr, h7]
        field_simp
    · rintro ⟨hc, hb⟩
      have hall := (hA.scalar_iff _).1 hb
      rw [hc0 hc, hI.tr, Finset.sum_congr rfl fun i _ => by rw [hall i]]
      simp only [Finset.sum_const, Finset.card_univ, Fintype.card_fin, nsmul_eq_mul]
      field_simp

/-! ### Instances -/

/-- The ellipse with the half axes 1 and 2. -/
private noncomputable def ellOneTwo : EllN 2 := ⟨![1 / 2, 0], diagonal ![1, 4], stdProps⟩

private theorem ellOneTwo_nonDeg : ellOneTwo.NonDeg := by
  refine ⟨stdProps_ok, diagonal_transpose _, fun x hx => ?_⟩
  show stdProps.absTol * (x ⬝ᵥ x) < x ⬝ᵥ (diagonal ![1, 4]) *ᵥ x
  have ht : stdProps.absTol < 1 := by norm_num [stdProps]
  have h1 := dot_self_pos hx
  have h2 : x ⬝ᵥ x ≤ x ⬝ᵥ (diagonal ![1, 4]) *ᵥ x := by
    rw [quad_diag]
    simp only [dotProduct, Fin.sum_univ_two, cons_val_zero, cons_val_one]
    nlinarith [sq_nonneg (x 0), sq_nonneg (x 1)]
  nlinarith

private theorem ellOneTwo_ball (a : ℝ) : ellOneTwo.Q ≠ a • (1 : Matrix (Fin 2) (Fin 2) ℝ) := by
  intro h
  have h0 := congrFun (congrFun h 0) 0
  have h1 := congrFun (congrFun h 1) 1
  simp [ellOneTwo] at h0 h1
  linarith

/-- An ellipse that is no disc: its trace is between the bounds, its volume less than that of the disc with the same trace. -/
example (E : Eigh) (arg : ObjArg EllObj) (ha : arg.Is (Arr.vec [ellOneTwo.obj])) :
    (∃ lo hi t, minEig E arg = .ok [lo] ∧ maxEig E arg = .ok [hi] ∧ trace arg = .ok [t] ∧ 2 * lo < t ∧ t < 2 * hi) ∧
    ∃ t v, trace arg = .ok [t] ∧ Ell.volume E [ellOneTwo.obj] = .ok [v] ∧ v.val < unitBallVolume 2 * √(t / 2) ^ 2 := by
  obtain ⟨lo, hi, t, h1, h2, h3, h4, h5, h6, h7, -⟩ := C150_trace E two_ne_zero ellOneTwo ellOneTwo_nonDeg.psd arg ha
  obtain ⟨-, -, t', v, -, -, g1, g2, -, -, g3, g4⟩ := C150_volume E two_ne_zero ellOneTwo ellOneTwo_nonDeg arg ha
  exact ⟨⟨lo, hi, t, h1, h2, h3, lt_of_le_of_ne h4 fun h => ellOneTwo_ball _ (h6.1 h), lt_of_le_of_ne h5 fun h => ellOneTwo_ball _ (h7.1 h)⟩,
    t', v, g1, g2, lt_of_le_of_ne g3 fun h => ellOneTwo_ball _ (g4.1 h)⟩

/-- The disc about (1/2, 0): its polar has a larger trace than the disc about the origin. -/
example (E : Eigh) (L : Lstsq) (arg : ObjArg EllObj) (ha : arg.Is (Arr.vec [discN.obj])) :
    ∃ (r : EllN 2) (t : ℝ), polar E L stdProps (Arr.vec [discN.obj]) = .ok (Arr.vec [r.obj]) ∧ trace arg = .ok [t] ∧
      ∀ arg' : ObjArg EllObj, arg'.Is (Arr.vec [r.obj]) → ∃ t', trace arg' = .ok [t'] ∧ 4 < t * t' := by
  obtain ⟨r, lo, hi, t, h1, -, -, h2, h3⟩ := C150_polar E L stdProps stdProps_ok two_ne_zero discN discN_nonDeg discN_inside arg ha
  refine ⟨r, t, h1, h2, fun arg' ha' => ?_⟩
  obtain ⟨lo', hi', t', -, -, g1, -, -, -, g2, g3⟩ := h3 arg' ha'
  refine ⟨t', g1, ?_⟩
  have hne : t * t' ≠ ((2 : ℕ) : ℝ) ^ 2 := by
    intro h
    have := congrFun (g3.1 h).1 0
    simp [discN] at this
  have : ((2 : ℕ) : ℝ) ^ 2 < t * t' := lt_of_le_of_ne g2 hne.symm
  norm_num at this
  exact this

end Ellipy.Ell
