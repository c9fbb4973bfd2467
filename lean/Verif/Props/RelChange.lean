import Verif.Props.Perturb
import Verif.Props.LaLaws
import Verif.Props.BrunnMinkowski
import Verif.Props.QuadMat

/-! Property theorems C145: matrices that differ by factors. -/

namespace Ellipy.Ell
open Matrix Ellipy.LA

/-- The quadratic form of the second matrix lies between the `a`-fold and the `b`-fold of the form of the first. -/
def FormBetween {n : ℕ} (a b : ℝ) (Q Q' : Matrix (Fin n) (Fin n) ℝ) : Prop :=
  ∀ x : Fin n → ℝ, a * (x ⬝ᵥ Q *ᵥ x) ≤ x ⬝ᵥ Q' *ᵥ x ∧ x ⬝ᵥ Q' *ᵥ x ≤ b * (x ⬝ᵥ Q *ᵥ x)

/-! ### Auxiliary facts -/

private theorem psd_smul {n : ℕ} {Q : Matrix (Fin n) (Fin n) ℝ} {s : ℝ} (hs : 0 ≤ s) (hQ : IsPSD Q) : IsPSD (s • Q) := by
  refine ⟨by rw [transpose_smul, hQ.1], fun x => ?_⟩
  rw [smul_mulVec, dotProduct_smul, smul_eq_mul]
  exact mul_nonneg hs (hQ.2 x)

private theorem det_mono {n : ℕ} (hn : n ≠ 0) {Q Q' : Matrix (Fin n) (Fin n) ℝ} (hQ : IsPSD Q) (hQ' : IsPSD Q')
    (h : ∀ x : Fin n → ℝ, x ⬝ᵥ Q *ᵥ x ≤ x ⬝ᵥ Q' *ᵥ x) : ballFactor n * Real.sqrt Q.det ≤ ballFactor n * Real.sqrt Q'.det := by
  have hsub : Ell (0 : Fin n → ℝ) Q ⊆ Ell 0 Q' := by
    intro x hx
    rw [mem_ell_support hQ] at hx
    rw [mem_ell_support hQ']
    exact fun l => (hx l).trans (h l)
  have hm := MeasureTheory.measure_mono (μ := MeasureTheory.volume) hsub
  rw [ell_volume_eq hn _ hQ, ell_volume_eq hn _ hQ', ← ballFactor_eq] at hm
  exact (ENNReal.ofReal_le_ofReal_iff (mul_nonneg (ballFactor_nonneg n) (Real.sqrt_nonneg _))).1 hm

/-! ### The square root and the inverse -/

/-- **C145**, `sqrtm_pos`: the factors of the roots are the roots of the factors. -/
theorem C145_sqrtm (E E' : Eigh) {n : ℕ} {Q Q' S S' : Matrix (Fin n) (Fin n) ℝ} {tol tol' a b : ℝ} (hQ : IsPSD Q) (hQ' : IsPSD Q')
    (ht : 0 ≤ tol) (ha : 0 ≤ a) (hb : 0 ≤ b) (hab : FormBetween a b Q Q') (h : sqrtmPos E Q tol = .ok S) (h' : sqrtmPos E' Q' tol' = .ok S') :
    FormBetween (√a) (√b) S S' := by
  intro x
  have ea := C125_scale E E hQ h ht ha
  have eb := C125_scale E E hQ h ht hb
  have q : ∀ (s : ℝ) (R : Matrix (Fin n) (Fin n) ℝ) (y : Fin n → ℝ), y ⬝ᵥ (s • R) *ᵥ y = s * (y ⬝ᵥ R *ᵥ y) := by
    intro s R y
    rw [smul_mulVec, dotProduct_smul, smul_eq_mul]
  constructor
  · rw [← q]
    exact C125_mono E E' (psd_smul ha hQ) hQ' ea h' (fun y => by rw [q]; exact (hab y).1) x
  · rw [← q]
    exact C125_mono E' E hQ' (psd_smul hb hQ) h' eb (fun y => by rw [q]; exact (hab y).2) x

private theorem inv_le {n : ℕ} {Q Q' B B' : Matrix (Fin n) (Fin n) ℝ} {a : ℝ} (ha : 0 < a) (hQ : IsPSD Q) (hQ' : IsPSD Q') (h : B * Q = 1) (h' : B' * Q' = 1)
    (hab : ∀ x : Fin n → ℝ, a * (x ⬝ᵥ Q *ᵥ x) ≤ x ⬝ᵥ Q' *ᵥ x) (x : Fin n → ℝ) : x ⬝ᵥ B' *ᵥ x ≤ 1 / a * (x ⬝ᵥ B *ᵥ x) := by
  have hQB : Q * B = 1 := mul_eq_one_comm.1 h
  have hQB' : Q' * B' = 1 := mul_eq_one_comm.1 h'
  set z := B *ᵥ x
  set z' := B' *ᵥ x
  have ez : Q *ᵥ z = x := by rw [mulVec_mulVec, hQB, one_mulVec]
  have ez' : Q' *ᵥ z' = x := by rw [mulVec_mulVec, hQB', one_mulVec]
  obtain ⟨S, hS, hSS⟩ := exists_root hQ
  have hcs := dot_sq_le_mul (S *ᵥ z) (S *ᵥ z')
  have e1 : (S *ᵥ z) ⬝ᵥ (S *ᵥ z') = x ⬝ᵥ z' := by
    rw [dotProduct_mulVec, ← mulVec_transpose, hS.1, mulVec_mulVec, hSS, ez]
  rw [e1, root_dot hS hSS, root_dot hS hSS, ez, dotProduct_comm z x] at hcs
  have h1 := hab z'
  rw [ez', dotProduct_comm z' x] at h1
  have hz : 0 ≤ x ⬝ᵥ z := by
    have := hQ.2 z
    rwa [ez, dotProduct_comm] at this
  have hz' : 0 ≤ x ⬝ᵥ z' := by
    have := hQ'.2 z'
    rwa [ez', dotProduct_comm] at this
  rw [one_div, inv_mul_eq_div, le_div_iff₀ ha]
  rcases hz'.eq_or_lt with h0 | h0
  · rw [← h0, zero_mul]
    exact hz
  · have h2 : (x ⬝ᵥ z') * ((x ⬝ᵥ z') * a) ≤ (x ⬝ᵥ z') * (x ⬝ᵥ z) := by
      have h3 := mul_le_mul_of_nonneg_left h1 hz
      nlinarith
    exact le_of_mul_le_mul_left h2 h0

/-- **C145**, `inv_mat`: the factors of the inverses are the inverses of the factors. -/
theorem C145_inv {n : ℕ} {Q Q' B B' : Matrix (Fin n) (Fin n) ℝ} {a b : ℝ} (hQ : IsPSD Q) (hQ' : IsPSD Q') (ha : 0 < a) (hb : 0 < b)
    (hab : FormBetween a b Q Q') (q q' : Arr ℝ) (hq : IsSquare q Q) (hq' : IsSquare q' Q') (h : invMat q = .ok ⟨n, B⟩) (h' : invMat q' = .ok ⟨n, B'⟩) :
    FormBetween (1 / b) (1 / a) B B' := by
  have e := ((C62_inv_mat q Q hq).1 B).1 h
  have e' := ((C62_inv_mat q' Q' hq').1 B').1 h'
  intro x
  refine ⟨?_, inv_le ha hQ hQ' e e' (fun y => (hab y).1) x⟩
  have h1 := inv_le (one_div_pos.2 hb) hQ' hQ e' e (fun y => by
    rw [one_div, inv_mul_le_iff₀ hb]
    exact (hab y).2) x
  rw [one_div_one_div] at h1
  rw [one_div, inv_mul_le_iff₀ hb]
  exact h1

/-! ### Sizes -/

/-- **C145**, `volume`: the factors are `√aⁿ` and `√bⁿ`. -/
theorem C145_volume (E : Eigh) {n : ℕ} (hn : n ≠ 0) (e f : EllN n) (he : e.NonDeg) (hf : f.NonDeg) {a b : ℝ} (ha : 0 ≤ a) (hb : 0 ≤ b)
    (hab : FormBetween a b e.Q f.Q) : ∃ v w : ℝ, Ell.volume E [e.obj, f.obj] = .ok [⟨false, v⟩, ⟨false, w⟩] ∧ √a ^ n * v ≤ w ∧ w ≤ √b ^ n * v := by
  have hv := volume_nonDeg E hn [e, f] (by
    intro x hx
    simp only [List.mem_cons, List.not_mem_nil, or_false] at hx
    rcases hx with rfl | rfl
    · exact he
    · exact hf)
  have q : ∀ (s : ℝ) (R : Matrix (Fin n) (Fin n) ℝ) (y : Fin n → ℝ), y ⬝ᵥ (s • R) *ᵥ y = s * (y ⬝ᵥ R *ᵥ y) := by
    intro s R y
    rw [smul_mulVec, dotProduct_smul, smul_eq_mul]
  have hs : ∀ s : ℝ, 0 ≤ s → ballFactor n * √((s • e.Q).det) = √s ^ n * (ballFactor n * √e.Q.det) := by
    intro s hs
    rw [det_smul, Fintype.card_fin, Real.sqrt_mul (pow_nonneg hs n)]
    have : √(s ^ n) = √s ^ n := by
      rw [Real.sqrt_eq_iff_mul_self_eq (pow_nonneg hs n) (pow_nonneg (Real.sqrt_nonneg s) n), ← mul_pow, Real.mul_self_sqrt hs]
    rw [this]
    ring
  refine ⟨_, _, hv, ?_, ?_⟩
  · rw [← hs a ha]
    exact det_mono hn (psd_smul ha he.psd.2) hf.psd.2 (fun y => by rw [q]; exact (hab y).1)
  · rw [← hs b hb]
    exact det_mono hn hf.psd.2 (psd_smul hb he.psd.2) (fun y => by rw [q]; exact (hab y).2)

/-- **C145**, `min_eig` and `max_eig`: the factors are `a` and `b`. -/
theorem C145_eigs (E : Eigh) {n : ℕ} (hn : n ≠ 0) (f e : EllN n) (hf : f.PSD) (he : e.PSD) {a b : ℝ} (ha : 0 ≤ a) (hb : 0 ≤ b)
    (hab : FormBetween a b f.Q e.Q) (arg : ObjArg EllObj) (harg : arg.Is (Arr.vec [f.obj, e.obj])) :
    ∃ r s r' s', minEig E arg = .ok [r, s] ∧ maxEig E arg = .ok [r', s'] ∧ a * r ≤ s ∧ s ≤ b * r ∧ a * r' ≤ s' ∧ s' ≤ b * r' := by
  obtain ⟨⟨rs, h1, h2⟩, ss, h3, h4⟩ := C81_form E arg _ harg (by
    intro x hx
    have hx : x ∈ [f.obj, e.obj] := hx
    simp only [List.mem_cons, List.not_mem_nil, or_false] at hx
    rcases hx with rfl | rfl <;> exact hn)
  have h2 : List.Forall₂ _ [f.obj, e.obj] rs := h2
  have h4 : List.Forall₂ _ [f.obj, e.obj] ss := h4
  have e1 : lowerSym f.Q = f.Q := lowerSym_of_symm hf.2.1
  have e2 : lowerSym e.Q = e.Q := lowerSym_of_symm he.2.1
  match rs, h2, ss, h4 with
  | [r, s], .cons hr (.cons hs .nil), [r', s'], .cons hr' (.cons hs' .nil) =>
    have hr : IsLeast (formValues (lowerSym f.Q)) r := hr
    have hs : IsLeast (formValues (lowerSym e.Q)) s := hs
    have hr' : IsGreatest (formValues (lowerSym f.Q)) r' := hr'
    have hs' : IsGreatest (formValues (lowerSym e.Q)) s' := hs'
    rw [e1] at hr hr'
    rw [e2] at hs hs'
    obtain ⟨x, hx, hxr⟩ := hr.1
    obtain ⟨y, hy, hys⟩ := hs.1
    obtain ⟨x', hx', hxr'⟩ := hr'.1
    obtain ⟨y', hy', hys'⟩ := hs'.1
    have hxr : x ⬝ᵥ f.Q *ᵥ x = r := hxr.symm
    have hys : y ⬝ᵥ e.Q *ᵥ y = s := hys.symm
    have hxr' : x' ⬝ᵥ f.Q *ᵥ x' = r' := hxr'.symm
    have hys' : y' ⬝ᵥ e.Q *ᵥ y' = s' := hys'.symm
    refine ⟨r, s, r', s', h1, h3, ?_, ?_, ?_, ?_⟩
    · rw [← hys]
      exact (mul_le_mul_of_nonneg_left (hr.2 ⟨y, hy, rfl⟩) ha).trans (hab y).1
    · refine (hs.2 ⟨x, hx, rfl⟩).trans ?_
      rw [← hxr]
      exact (hab x).2
    · refine le_trans ?_ (hs'.2 ⟨x', hx', rfl⟩)
      rw [← hxr']
      exact (hab x').1
    · rw [← hys']
      exact (hab y').2.trans (mul_le_mul_of_nonneg_left (hr'.2 ⟨y', hy', rfl⟩) hb)

/-- **C145**, `rho_mat`: the distance of the supporting planes from the centre changes by factors between `√a` and `√b`. -/
theorem C145_rho {m nd : ℕ} {Q Q' : Matrix (Fin m) (Fin m) ℝ} (hQ : IsPSD Q) (hQ' : IsPSD Q') (dirs : Matrix (Fin m) (Fin nd) ℝ) {tol a b : ℝ} (ht : 0 ≤ tol)
    (ha : 0 ≤ a) (hb : 0 ≤ b) (c : Fin m → ℝ) (hab : FormBetween a b Q Q') :
    ∃ sup bp sup' bp', rhoMat Q dirs tol c = .ok (sup, bp) ∧ rhoMat Q' dirs tol c = .ok (sup', bp') ∧
      ∀ j, √a * (sup j - dirCol dirs j ⬝ᵥ c) ≤ sup' j - dirCol dirs j ⬝ᵥ c ∧ sup' j - dirCol dirs j ⬝ᵥ c ≤ √b * (sup j - dirCol dirs j ⬝ᵥ c) := by
  obtain ⟨sup, bp, h1, h2⟩ := C31 Q hQ dirs tol ht c
  obtain ⟨sup', bp', h3, h4⟩ := C31 Q' hQ' dirs tol ht c
  refine ⟨sup, bp, sup', bp', h1, h3, fun j => ?_⟩
  have e1 := IsGreatest.unique (h2 j).1 (ell_support hQ _)
  have e2 := IsGreatest.unique (h4 j).1 (ell_support hQ' _)
  rw [e1, e2, add_sub_cancel_left, add_sub_cancel_left, ← Real.sqrt_mul ha, ← Real.sqrt_mul hb]
  exact ⟨Real.sqrt_le_sqrt (hab _).1, Real.sqrt_le_sqrt (hab _).2⟩

/-! ### Sums -/

private theorem list_form {n : ℕ} (v x : Fin n → ℝ) (l : List (EllN n)) : x ⬝ᵥ ((l.map fun e => (1 / √(v ⬝ᵥ e.Q *ᵥ v)) • e.Q).sum) *ᵥ x =
    (l.map fun e => (1 / √(v ⬝ᵥ e.Q *ᵥ v)) * (x ⬝ᵥ e.Q *ᵥ x)).sum := by
  induction l with
  | nil => simp
  | cons e l ih =>
    rw [List.map_cons, List.sum_cons, List.map_cons, List.sum_cons, add_mulVec, dotProduct_add, ih, smul_mulVec, dotProduct_smul, smul_eq_mul]

/-- **C145**, `minksum_ea`: if the matrices of the summands change by factors between `a` and `b`, the matrices of the results change by factors between
`a·√a/√b` and `b·√b/√a`. -/
theorem C145_ea (E : Eigh) (G : Eig) (L : Lstsq) (p : PropVals) (hp : p.ok) {n k : ℕ} (hn : n ≠ 0) (es fs : List (EllN n)) (h2 : 2 ≤ es.length)
    (hes : ∀ e ∈ es, e.NonDeg) (hfs : ∀ e ∈ fs, e.NonDeg) {a b : ℝ} (ha : 0 < a) (hb : 0 < b)
    (hab : List.Forall₂ (fun e f : EllN n => FormBetween a b e.Q f.Q) es fs) (M : Matrix (Fin n) (Fin k) ℝ) (hM : ∀ j, (fun i => M i j) ≠ 0) :
    ∃ Q Q' : Fin k → Matrix (Fin n) (Fin n) ℝ,
      minksumEa E G L p (es.map EllN.obj) M =
        .ok (Arr.vec (List.ofFn fun j => ⟨n, (es.map EllN.c).sum, Q j, p.absTol, p.relTol, p.n2d, p.n3d⟩)) ∧
      minksumEa E G L p (fs.map EllN.obj) M =
        .ok (Arr.vec (List.ofFn fun j => ⟨n, (fs.map EllN.c).sum, Q' j, p.absTol, p.relTol, p.n2d, p.n3d⟩)) ∧
      ∀ j, FormBetween (a * (√a / √b)) (b * (√b / √a)) (Q j) (Q' j) := by
  refine ⟨_, _, minksumEa_eq E G L p hp hn es h2 hes M hM, minksumEa_eq E G L p hp hn fs (by rwa [← hab.length_eq]) hfs M hM, fun j x => ?_⟩
  have hv := hM j
  set v : Fin n → ℝ := fun i => M i j
  have sa : 0 < √a := Real.sqrt_pos.2 ha
  have sb : 0 < √b := Real.sqrt_pos.2 hb
  have key : ∀ es fs : List (EllN n), (∀ e ∈ es, e.NonDeg) → (∀ e ∈ fs, e.NonDeg) → List.Forall₂ (fun e f : EllN n => FormBetween a b e.Q f.Q) es fs →
      √a * (es.map fun e => √(v ⬝ᵥ e.Q *ᵥ v)).sum ≤ (fs.map fun e => √(v ⬝ᵥ e.Q *ᵥ v)).sum ∧
      (fs.map fun e => √(v ⬝ᵥ e.Q *ᵥ v)).sum ≤ √b * (es.map fun e => √(v ⬝ᵥ e.Q *ᵥ v)).sum ∧
      a / √b * (es.map fun e => (1 / √(v ⬝ᵥ e.Q *ᵥ v)) * (x ⬝ᵥ e.Q *ᵥ x)).sum ≤ (fs.map fun e => (1 / √(v ⬝ᵥ e.Q *ᵥ v)) * (x ⬝ᵥ e.Q *ᵥ x)).sum ∧
      (fs.map fun e => (1 / √(v ⬝ᵥ e.Q *ᵥ v)) * (x ⬝ᵥ e.Q *ᵥ x)).sum ≤ b / √a * (es.map fun e => (1 / √(v ⬝ᵥ e.Q *ᵥ v)) * (x ⬝ᵥ e.Q *ᵥ x)).sum ∧
      0 ≤ (es.map fun e => √(v ⬝ᵥ e.Q *ᵥ v)).sum ∧ 0 ≤ (es.map fun e => (1 / √(v ⬝ᵥ e.Q *ᵥ v)) * (x ⬝ᵥ e.Q *ᵥ x)).sum ∧
      0 ≤ (fs.map fun e => √(v ⬝ᵥ e.Q *ᵥ v)).sum ∧ 0 ≤ (fs.map fun e => (1 / √(v ⬝ᵥ e.Q *ᵥ v)) * (x ⬝ᵥ e.Q *ᵥ x)).sum := by
    intro es fs he hf h
    induction h with
    | nil => simp
    | @cons e f es fs hef _ ih =>
      obtain ⟨i1, i2, i3, i4, i5, i6, i7, i8⟩ := ih (fun e h => he e (List.mem_cons_of_mem _ h)) (fun e h => hf e (List.mem_cons_of_mem _ h))
      simp only [List.map_cons, List.sum_cons, mul_add]
      have pe := Real.sqrt_pos.2 ((he e List.mem_cons_self).pos hv)
      have pf := Real.sqrt_pos.2 ((hf f List.mem_cons_self).pos hv)
      have xe := (he e List.mem_cons_self).psd.2.2 x
      have xf := (hf f List.mem_cons_self).psd.2.2 x
      have j1 : √a * √(v ⬝ᵥ e.Q *ᵥ v) ≤ √(v ⬝ᵥ f.Q *ᵥ v) := by
        rw [← Real.sqrt_mul ha.le]
        exact Real.sqrt_le_sqrt (hef v).1
      have j2 : √(v ⬝ᵥ f.Q *ᵥ v) ≤ √b * √(v ⬝ᵥ e.Q *ᵥ v) := by
        rw [← Real.sqrt_mul hb.le]
        exact Real.sqrt_le_sqrt (hef v).2
      have j3 : a / √b * (1 / √(v ⬝ᵥ e.Q *ᵥ v) * (x ⬝ᵥ e.Q *ᵥ x)) ≤ 1 / √(v ⬝ᵥ f.Q *ᵥ v) * (x ⬝ᵥ f.Q *ᵥ x) := by
        have : a / √b * (1 / √(v ⬝ᵥ e.Q *ᵥ v) * (x ⬝ᵥ e.Q *ᵥ x)) = 1 / (√b * √(v ⬝ᵥ e.Q *ᵥ v)) * (a * (x ⬝ᵥ e.Q *ᵥ x)) := by
          field_simp
        rw [this]
        exact mul_le_mul (one_div_le_one_div_of_le pf j2) (hef x).1 (mul_nonneg ha.le xe) (by positivity)
      have j4 : 1 / √(v ⬝ᵥ f.Q *ᵥ v) * (x ⬝ᵥ f.Q *ᵥ x) ≤ b / √a * (1 / √(v ⬝ᵥ e.Q *ᵥ v) * (x ⬝ᵥ e.Q *ᵥ x)) := by
        have : b / √a * (1 / √(v ⬝ᵥ e.Q *ᵥ v) * (x ⬝ᵥ e.Q *ᵥ x)) = 1 / (√a * √(v ⬝ᵥ e.Q *ᵥ v)) * (b * (x ⬝ᵥ e.Q *ᵥ x)) := by
          field_simp
        rw [this]
        exact mul_le_mul (one_div_le_one_div_of_le (mul_pos sa pe) j1) (hef x).2 xf (by positivity)
      exact ⟨add_le_add j1 i1, add_le_add j2 i2, add_le_add j3 i3, add_le_add j4 i4, add_nonneg pe.le i5,
        add_nonneg (mul_nonneg (by positivity) xe) i6, add_nonneg pf.le i7, add_nonneg (mul_nonneg (by positivity) xf) i8⟩
  obtain ⟨i1, i2, i3, i4, i5, i6, i7, i8⟩ := key es fs hes hfs hab
  have q : ∀ l : List (EllN n), x ⬝ᵥ eaShape l v *ᵥ x = (l.map fun e => √(v ⬝ᵥ e.Q *ᵥ v)).sum * (l.map fun e => (1 / √(v ⬝ᵥ e.Q *ᵥ v)) * (x ⬝ᵥ e.Q *ᵥ x)).sum := by
    intro l
    rw [eaShape, smul_mulVec, dotProduct_smul, smul_eq_mul, list_form]
  rw [q, q]
  constructor
  · calc a * (√a / √b) * _ = √a * (es.map fun e => √(v ⬝ᵥ e.Q *ᵥ v)).sum * (a / √b * (es.map fun e => (1 / √(v ⬝ᵥ e.Q *ᵥ v)) * (x ⬝ᵥ e.Q *ᵥ x)).sum) := by ring
      _ ≤ _ := mul_le_mul i1 i3 (mul_nonneg (by positivity) i6) i7
  · calc _ ≤ √b * (es.map fun e => √(v ⬝ᵥ e.Q *ᵥ v)).sum * (b / √a * (es.map fun e => (1 / √(v ⬝ᵥ e.Q *ᵥ v)) * (x ⬝ᵥ e.Q *ᵥ x)).sum) :=
          mul_le_mul i2 i4 i8 (mul_nonneg sb.le i5)
      _ = _ := by ring

/-- Meets the hypotheses of the theorems above: the unit circle and the ellipse with the half axes `1` and `2`. -/
example (E : Eigh) : FormBetween 1 4 (1 : Matrix (Fin 2) (Fin 2) ℝ) (diagonal ![1, 4]) ∧
    (⟨0, 1, stdProps⟩ : EllN 2).NonDeg ∧ (⟨0, diagonal ![1, 4], stdProps⟩ : EllN 2).NonDeg ∧
    ∃ v w : ℝ, Ell.volume E [(⟨0, 1, stdProps⟩ : EllN 2).obj, (⟨0, diagonal ![1, 4], stdProps⟩ : EllN 2).obj] = .ok [⟨false, v⟩, ⟨false, w⟩] ∧
      v ≤ w ∧ w ≤ 4 * v := by
  have h1 : FormBetween 1 4 (1 : Matrix (Fin 2) (Fin 2) ℝ) (diagonal ![1, 4]) := by
    intro x
    rw [quad_diag, one_mulVec]
    simp only [dotProduct, Fin.sum_univ_two, cons_val_zero, cons_val_one]
    constructor <;> nlinarith [sq_nonneg (x 0), sq_nonneg (x 1)]
  have ht : stdProps.absTol < 1 := by norm_num [stdProps]
  have h2 : (⟨0, 1, stdProps⟩ : EllN 2).NonDeg := by
    refine ⟨stdProps_ok, transpose_one, fun x hx => ?_⟩
    show stdProps.absTol * (x ⬝ᵥ x) < x ⬝ᵥ (1 : Matrix (Fin 2) (Fin 2) ℝ) *ᵥ x
    rw [one_mulVec]
    nlinarith [dot_self_pos hx]
  have h3 : (⟨0, diagonal ![1, 4], stdProps⟩ : EllN 2).NonDeg := by
    refine ⟨stdProps_ok, diagonal_transpose _, fun x hx => ?_⟩
    have := (h1 x).1
    rw [one_mulVec] at this
    show stdProps.absTol * (x ⬝ᵥ x) < x ⬝ᵥ (diagonal ![1, 4] : Matrix (Fin 2) (Fin 2) ℝ) *ᵥ x
    nlinarith [dot_self_pos hx]
  obtain ⟨v, w, e, a1, a2⟩ := C145_volume E two_ne_zero _ _ h2 h3 zero_le_one (by norm_num) h1
  refine ⟨h1, h2, h3, v, w, e, ?_, ?_⟩
  · rwa [Real.sqrt_one, one_pow, one_mul] at a1
  · rwa [Real.sq_sqrt (by norm_num)] at a2

end Ellipy.Ell
