import Verif.Props.BrunnMinkowski
import Verif.Props.Minksum

/-! Property theorems C163: the volume of the Minkowski sum against the volumes of its approximations and of the summands. -/

namespace Ellipy.Ell
open Matrix Ellipy.LA

private theorem vol_ell {n : ℕ} (hn : n ≠ 0) (c : Fin n → ℝ) {Q : Matrix (Fin n) (Fin n) ℝ} (hQ : IsPSD Q) :
    MeasureTheory.volume (Ell c Q) = ENNReal.ofReal (ballFactor n * Real.sqrt Q.det) := by
  by_cases h : ∀ x : Fin n → ℝ, x ≠ 0 → 0 < x ⬝ᵥ Q *ᵥ x
  · rw [ell_volume_eq hn c hQ, ballFactor_eq]
  · push Not at h
    obtain ⟨x, hx, h⟩ := h
    have h0 := le_antisymm h (hQ.2 x)
    have hd : Q.det = 0 := Matrix.exists_mulVec_eq_zero_iff.mp ⟨x, hx, psd_null hQ h0⟩
    rw [C32_degenerate hn c Q hQ x hx h0, hd, Real.sqrt_zero, mul_zero, ENNReal.ofReal_zero]

private theorem norm_add {n : ℕ} (a b : Fin n → ℝ) : Real.sqrt ((a + b) ⬝ᵥ (a + b)) ≤ Real.sqrt (a ⬝ᵥ a) + Real.sqrt (b ⬝ᵥ b) := by
  have h1 := Real.sqrt_nonneg (a ⬝ᵥ a)
  have h2 := Real.sqrt_nonneg (b ⬝ᵥ b)
  have h3 : a ⬝ᵥ b ≤ Real.sqrt (a ⬝ᵥ a) * Real.sqrt (b ⬝ᵥ b) := by
    rw [← Real.sqrt_mul (dot_self_nonneg a)]
    exact Real.le_sqrt_of_sq_le (dot_sq_le_mul a b)
  refine Real.sqrt_le_iff.2 ⟨by linarith, ?_⟩
  rw [add_dotProduct, dotProduct_add, dotProduct_add, dotProduct_comm b a]
  nlinarith [Real.sq_sqrt (dot_self_nonneg a), Real.sq_sqrt (dot_self_nonneg b)]

private theorem roots {n : ℕ} (es : List (EllN n)) (hes : ∀ e ∈ es, e.NonDeg) : ∃ Ss : List (Matrix (Fin n) (Fin n) ℝ),
    List.Forall₂ (fun e S => IsPSD S ∧ S * S = e.Q) es Ss := by
  induction es with
  | nil => exact ⟨[], .nil⟩
  | cons e l ih =>
    obtain ⟨Ss, h⟩ := ih fun f hf => hes f (List.mem_cons_of_mem _ hf)
    obtain ⟨S, hS⟩ := exists_root (hes e (by simp)).psd.2
    exact ⟨S :: Ss, .cons hS h⟩

private theorem roots_psd {n : ℕ} {es : List (EllN n)} {Ss : List (Matrix (Fin n) (Fin n) ℝ)}
    (h : List.Forall₂ (fun e S => IsPSD S ∧ S * S = e.Q) es Ss) : (∀ S ∈ Ss, IsPSD S) ∧ IsPSD Ss.sum ∧
      ∀ x : Fin n → ℝ, Real.sqrt ((Ss.sum *ᵥ x) ⬝ᵥ (Ss.sum *ᵥ x)) ≤ (es.map fun e => Real.sqrt (x ⬝ᵥ e.Q *ᵥ x)).sum := by
  induction h with
  | nil =>
    refine ⟨by simp, ⟨by simp, fun x => by simp⟩, fun x => by simp⟩
  | @cons e S es Ss h1 _ ih =>
    obtain ⟨i1, i2, i3⟩ := ih
    refine ⟨?_, ?_, fun x => ?_⟩
    · intro T hT
      rcases List.mem_cons.1 hT with rfl | hT
      · exact h1.1
      · exact i1 T hT
    · rw [List.sum_cons]
      exact ⟨by rw [transpose_add, h1.1.1, i2.1], fun x => by rw [add_mulVec, dotProduct_add]; exact add_nonneg (h1.1.2 x) (i2.2 x)⟩
    · rw [List.sum_cons, List.map_cons, List.sum_cons, add_mulVec]
      refine (norm_add _ _).trans (add_le_add (le_of_eq ?_) (i3 x))
      rw [← h1.2, ← mulVec_mulVec, symm_dot h1.1.1 x]

/-- The number behind the claim: the measure of the sum is at least that of an ellipsoid inside it. -/
private theorem inside {n : ℕ} (es : List (EllN n)) (hes : ∀ e ∈ es, e.NonDeg) {Ss : List (Matrix (Fin n) (Fin n) ℝ)}
    (h : List.Forall₂ (fun e S => IsPSD S ∧ S * S = e.Q) es Ss) : Ell (es.map EllN.c).sum (Ss.sum * Ss.sum) ⊆ minkSum (es.map EllN.set) := by
  obtain ⟨-, hT, hle⟩ := roots_psd h
  have hes' : ∀ e ∈ es, IsPSD e.Q := fun e he => (hes e he).psd.2
  have hQ : IsPSD (Ss.sum * Ss.sum) := by
    have := psd_factor Ss.sum
    rw [hT.1] at this
    exact this
  intro x hx
  obtain ⟨hk, hc, hm⟩ := minkSum_compact es hes'
  refine mem_of_support hc hk.isClosed ⟨_, hm⟩ fun l _ => ?_
  obtain ⟨y, hy, hyl⟩ := (minkSum_support l es hes').1
  refine ⟨y, hy, ?_⟩
  have h1 := (mem_ell_sqrt hQ x).1 hx l
  have hyl : l ⬝ᵥ y = _ := hyl
  rw [hyl]
  refine h1.trans (add_le_add le_rfl ?_)
  rw [← mulVec_mulVec, symm_dot hT.1]
  exact hle l

/-- **C163**: the measure of the Minkowski sum is at least what the inequality of Brunn and Minkowski demands of the volumes of the summands, not smaller than
the volume of any internal and not larger than the volume of any external approximation. -/
theorem C163 (E : Eigh) (G : Eig) (L : Lstsq) (p : PropVals) (hp : p.ok) {n k k' : ℕ} (hn : n ≠ 0) (es : List (EllN n)) (h2 : 2 ≤ es.length)
    (hes : ∀ e ∈ es, e.NonDeg) (htol : ∃ e ∈ es, p.absTol ≤ e.props.absTol) (M : Matrix (Fin n) (Fin k) ℝ) (hM : ∀ j, (fun i => M i j) ≠ 0)
    (M' : Matrix (Fin n) (Fin k') ℝ) (hM' : ∀ j, (fun i => M' i j) ≠ 0) :
    ∃ (ri re : List EllObj) (vs wi we : List VolEntry) (m : ℝ), minksumIa E G p (es.map EllN.obj) M = .ok (Arr.vec ri) ∧
      minksumEa E G L p (es.map EllN.obj) M' = .ok (Arr.vec re) ∧ ri.length = k ∧ re.length = k' ∧
      Ell.volume E (es.map EllN.obj) = .ok vs ∧ Ell.volume E ri = .ok wi ∧ Ell.volume E re = .ok we ∧ wi.length = k ∧ we.length = k' ∧
      MeasureTheory.volume (minkSum (es.map EllN.set)) = ENNReal.ofReal m ∧ 0 < m ∧
      (vs.map fun v => v.val ^ ((n : ℝ)⁻¹)).sum ≤ m ^ ((n : ℝ)⁻¹) ∧ (∀ w ∈ wi, w.val ≤ m) ∧ ∀ w ∈ we, m ≤ w.val := by
  have hes' : ∀ e ∈ es, IsPSD e.Q := fun e he => (hes e he).psd.2
  -- the sum
  have hfin : MeasureTheory.volume (minkSum (es.map EllN.set)) ≠ ⊤ := (minkSum_compact es hes').1.measure_lt_top.ne
  set m := (MeasureTheory.volume (minkSum (es.map EllN.set))).toReal with hm
  have hmeas : MeasureTheory.volume (minkSum (es.map EllN.set)) = ENNReal.ofReal m := (ENNReal.ofReal_toReal hfin).symm
  have hm0 : 0 ≤ m := ENNReal.toReal_nonneg
  have hsub : ∀ (c : Fin n → ℝ) (Q : Matrix (Fin n) (Fin n) ℝ), IsPSD Q → Ell c Q ⊆ minkSum (es.map EllN.set) → ballFactor n * Real.sqrt Q.det ≤ m := by
    intro c Q hQ h
    have h1 := MeasureTheory.measure_mono (μ := MeasureTheory.volume) h
    rw [vol_ell hn c hQ, hmeas] at h1
    exact (ENNReal.ofReal_le_ofReal_iff hm0).1 h1
  have hsup : ∀ (c : Fin n → ℝ) (Q : Matrix (Fin n) (Fin n) ℝ), IsPSD Q → minkSum (es.map EllN.set) ⊆ Ell c Q → m ≤ ballFactor n * Real.sqrt Q.det := by
    intro c Q hQ h
    have h1 := MeasureTheory.measure_mono (μ := MeasureTheory.volume) h
    rw [vol_ell hn c hQ, hmeas] at h1
    exact (ENNReal.ofReal_le_ofReal_iff (mul_nonneg (ballFactor_nonneg n) (Real.sqrt_nonneg _))).1 h1
  -- the internal approximations
  obtain ⟨Qi, hia, hi⟩ := C44 E G p hp hn es h2 hes M hM
  set ri : List EllObj := List.ofFn fun j => ⟨n, (es.map EllN.c).sum, Qi j, p.absTol, p.relTol, p.n2d, p.n3d⟩ with hri
  obtain ⟨wi, hwi, hwi'⟩ := C32 E ri (fun e he => by
    obtain ⟨j, rfl⟩ := (List.mem_ofFn' _ _).1 he
    exact ⟨hn, (hi j).1, hp.1.le⟩)
  -- the external approximations
  obtain ⟨Qe, hea, he⟩ := C43 E G L p hp hn es h2 hes M' hM'
  have hnd : ∀ j, (⟨(es.map EllN.c).sum, Qe j, p⟩ : EllN n).NonDeg := by
    intro j
    obtain ⟨e0, he0, ht⟩ := htol
    refine ⟨hp, (he j).1.1, fun x hx => ?_⟩
    have h3 := (hes e0 he0).2.2 x hx
    obtain ⟨y, hy, hyx⟩ := (minkSum_support x es hes').1
    have h5 := (mem_ell_sqrt (he j).1 y).1 ((he j).2.1 hy) x
    have hyx : x ⬝ᵥ y = _ := hyx
    rw [hyx] at h5
    have h6 : Real.sqrt (x ⬝ᵥ e0.Q *ᵥ x) ≤ (es.map fun e => Real.sqrt (x ⬝ᵥ e.Q *ᵥ x)).sum := by
      refine List.single_le_sum ?_ _ (List.mem_map_of_mem (f := fun e : EllN n => Real.sqrt (x ⬝ᵥ e.Q *ᵥ x)) he0)
      intro r hr
      obtain ⟨e, -, rfl⟩ := List.mem_map.1 hr
      exact Real.sqrt_nonneg _
    have h7 : Real.sqrt (x ⬝ᵥ e0.Q *ᵥ x) ≤ Real.sqrt (x ⬝ᵥ Qe j *ᵥ x) := by linarith
    have h8 := (Real.sqrt_le_sqrt_iff ((he j).1.2 x)).1 h7
    have h9 := mul_le_mul_of_nonneg_right ht (dot_self_nonneg x)
    show p.absTol * (x ⬝ᵥ x) < x ⬝ᵥ Qe j *ᵥ x
    linarith
  set fs : List (EllN n) := List.ofFn fun j => ⟨(es.map EllN.c).sum, Qe j, p⟩ with hfs
  have hfsnd : ∀ f ∈ fs, f.NonDeg := by
    intro f hf
    obtain ⟨j, rfl⟩ := (List.mem_ofFn' _ _).1 hf
    exact hnd j
  have hre : (List.ofFn fun j => (⟨n, (es.map EllN.c).sum, Qe j, p.absTol, p.relTol, p.n2d, p.n3d⟩ : EllObj)) = fs.map EllN.obj := by
    rw [hfs, List.map_ofFn]
    rfl
  rw [hre] at hea
  -- the inequality of Brunn and Minkowski
  obtain ⟨Ss, hSs⟩ := roots es hes
  obtain ⟨s1, s2, s3⟩ := roots_psd hSs
  have hT2 : IsPSD (Ss.sum * Ss.sum) := by
    have := psd_factor Ss.sum
    rw [s2.1] at this
    exact this
  have hbm := hsub _ _ hT2 (inside es hes hSs)
  rw [det_mul, Real.sqrt_mul_self (psd_det_nonneg s2)] at hbm
  have hdets : ∀ S ∈ Ss, 0 < S.det := by
    intro S hS
    obtain ⟨i, hi, rfl⟩ := List.getElem_of_mem hS
    have hlen := hSs.length_eq
    have := (List.forall₂_iff_get.1 hSs).2 i (by omega) hi
    simp only [List.get_eq_getElem] at this
    have h1 := det_pos_of_pos (hes' _ (List.getElem_mem (by omega : i < es.length))) fun x hx => (hes _ (List.getElem_mem (by omega : i < es.length))).pos hx
    rw [← this.2, det_mul] at h1
    exact lt_of_le_of_ne (psd_det_nonneg this.1) fun h => by rw [← h] at h1; simp at h1
  have hTd : 0 < Ss.sum.det := by
    refine det_pos_of_pos s2 fun x hx => ?_
    obtain ⟨S, l, rfl⟩ := List.exists_cons_of_ne_nil (show Ss ≠ [] by rintro rfl; have := hSs.length_eq; rw [List.length_nil] at this; omega)
    have hl : 0 ≤ x ⬝ᵥ l.sum *ᵥ x := by
      clear hSs s2 s3 hT2 hbm
      induction l with
      | nil => simp
      | cons T l ih =>
        rw [List.sum_cons, add_mulVec, dotProduct_add]
        refine add_nonneg ((s1 T (by simp)).2 x) (ih ?_ ?_)
        · intro U hU
          exact s1 U (by simp only [List.mem_cons] at hU ⊢; tauto)
        · intro U hU
          exact hdets U (by simp only [List.mem_cons] at hU ⊢; tauto)
    have hS : 0 < x ⬝ᵥ S *ᵥ x := by
      refine lt_of_le_of_ne ((s1 S (by simp)).2 x) fun h => ?_
      have h0 : S.det = 0 := Matrix.exists_mulVec_eq_zero_iff.mp ⟨x, hx, psd_null (s1 S (by simp)) h.symm⟩
      exact absurd h0 (hdets S (by simp)).ne'
    rw [List.sum_cons, add_mulVec, dotProduct_add]
    linarith
  have hb0 := ballFactor_nonneg n
  have hpow : ∀ d : ℝ, 0 ≤ d → (ballFactor n * d) ^ ((n : ℝ)⁻¹) = ballFactor n ^ ((n : ℝ)⁻¹) * d ^ ((n : ℝ)⁻¹) := fun d hd => Real.mul_rpow hb0 hd
  have hroot : (es.map fun e => (ballFactor n * Real.sqrt e.Q.det) ^ ((n : ℝ)⁻¹)).sum = ballFactor n ^ ((n : ℝ)⁻¹) * (Ss.map detRoot).sum := by
    clear hbm hTd hT2 s1 s2 s3 hdets
    clear_value m ri fs
    clear hre hea hfsnd hnd he Qe hfs hwi' hwi wi hri hi hia Qi hsup hsub hmeas hm hfin
    have hes2 : ∀ e ∈ es, IsPSD e.Q := hes'
    clear hes hes' htol h2
    induction hSs with
    | nil => simp
    | @cons e S es Ss h1 _ ih =>
      rw [List.map_cons, List.map_cons, List.sum_cons, List.sum_cons, ih fun f hf => hes2 f (List.mem_cons_of_mem _ hf), mul_add, ← h1.2, det_mul,
        Real.sqrt_mul_self (psd_det_nonneg h1.1), hpow _ (psd_det_nonneg h1.1)]
      rfl
  have hkey := detRoot_sum hn Ss s1 hTd s2
  have hbf : 0 < ballFactor n := by
    rw [ballFactor_eq]
    have := Real.pi_pos
    have : 0 < Real.Gamma ((n : ℝ) / 2 + 1) := Real.Gamma_pos_of_pos (by positivity)
    positivity
  refine ⟨ri, fs.map EllN.obj, _, wi, _, m, hia, hea, by simp [hri], by simp [hfs], volume_nonDeg E hn es hes, hwi, volume_nonDeg E hn fs hfsnd,
    by rw [← hwi'.length_eq]; simp [hri], by simp [hfs], hmeas, lt_of_lt_of_le (mul_pos hbf hTd) hbm, ?_, ?_, ?_⟩
  · rw [List.map_map]
    show (es.map fun e => (ballFactor n * Real.sqrt e.Q.det) ^ ((n : ℝ)⁻¹)).sum ≤ _
    rw [hroot]
    refine (mul_le_mul_of_nonneg_left hkey (Real.rpow_nonneg hb0 _)).trans ?_
    rw [detRoot, ← hpow _ hTd.le]
    exact Real.rpow_le_rpow (mul_nonneg hb0 hTd.le) hbm (by positivity)
  · intro w hw
    obtain ⟨i, hi', rfl⟩ := List.getElem_of_mem hw
    have hlen := hwi'.length_eq
    have h3 := (List.forall₂_iff_get.1 hwi').2 i (by omega) hi'
    have hik : i < k := by rw [← hlen] at hi'; simpa [hri] using hi'
    have hget : ri.get ⟨i, by omega⟩ = ⟨n, (es.map EllN.c).sum, Qi ⟨i, hik⟩, p.absTol, p.relTol, p.n2d, p.n3d⟩ := by simp [hri]
    rw [hget] at h3
    simp only [List.get_eq_getElem] at h3
    by_cases hpos : ∀ x : Fin n → ℝ, x ≠ 0 → p.absTol * (x ⬝ᵥ x) < x ⬝ᵥ Qi ⟨i, hik⟩ *ᵥ x
    · obtain ⟨h4, h5, -⟩ := h3.1 hpos
      have h6 := MeasureTheory.measure_mono (μ := MeasureTheory.volume) (hi ⟨i, hik⟩).2.1
      rw [h4, hmeas] at h6
      exact (ENNReal.ofReal_le_ofReal_iff hm0).1 h6
    · rw [(h3.2 hpos).1]
      exact hm0
  · intro w hw
    obtain ⟨f, hf, rfl⟩ := List.mem_map.1 hw
    obtain ⟨j, rfl⟩ := (List.mem_ofFn' _ _).1 hf
    exact hsup _ _ (he j).1 (he j).2.1

/-- Three ellipses of the areas `2π`, `(√3/2) π` and `(√3/2) π`: the area of the sum, seen between an internal and an external approximation. -/
example (E : Eigh) (G : Eig) (L : Lstsq) : ∃ (ri re : EllObj) (wi we : VolEntry) (m : ℝ),
    minksumIa E G stdProps (three.map EllN.obj) (fun i (_ : Fin 1) => ![1, 0] i) = .ok (Arr.vec [ri]) ∧
    minksumEa E G L stdProps (three.map EllN.obj) (fun i (_ : Fin 1) => ![0, 1] i) = .ok (Arr.vec [re]) ∧
    Ell.volume E [ri] = .ok [wi] ∧ Ell.volume E [re] = .ok [we] ∧ wi.val ≤ m ∧ m ≤ we.val ∧
    MeasureTheory.volume (minkSum (three.map EllN.set)) = ENNReal.ofReal m ∧
    (Real.pi * Real.sqrt 4) ^ (1 / 2 : ℝ) + 2 * (Real.pi * Real.sqrt (3 / 4)) ^ (1 / 2 : ℝ) ≤ m ^ (1 / 2 : ℝ) := by
  obtain ⟨ri, re, vs, wi, we, m, h1, h2, h3, h4, h5, h6, h7, h8, h9, h10, -, h11, h12, h13⟩ := C163 E G L stdProps stdProps_ok (n := 2) (by norm_num) three
    (by simp [three]) three_nonDeg ⟨_, List.mem_cons_self, le_rfl⟩ (fun i (_ : Fin 1) => ![1, 0] i) (fun _ h => by simpa using congrFun h 0)
    (fun i (_ : Fin 1) => ![0, 1] i) (fun _ h => by simpa using congrFun h 1)
  obtain ⟨ri, rfl⟩ := List.length_eq_one_iff.1 h3
  obtain ⟨re, rfl⟩ := List.length_eq_one_iff.1 h4
  obtain ⟨wi, rfl⟩ := List.length_eq_one_iff.1 h8
  obtain ⟨we, rfl⟩ := List.length_eq_one_iff.1 h9
  refine ⟨ri, re, wi, we, m, h1, h2, h6, h7, h12 wi (by simp), h13 we (by simp), h10, ?_⟩
  rw [volume_nonDeg E (by norm_num) three three_nonDeg] at h5
  cases h5
  have hb : ballFactor 2 = Real.pi := by simp [ballFactor]
  have d1 : (!![1, 0; 0, 4] : Matrix (Fin 2) (Fin 2) ℝ).det = 4 := by rw [det_fin_two_of]; norm_num
  have d2 : (!![1, 1 / 2; 1 / 2, 1] : Matrix (Fin 2) (Fin 2) ℝ).det = 3 / 4 := by rw [det_fin_two_of]; norm_num
  have d3 : (!![1, -(1 / 2); -(1 / 2), 1] : Matrix (Fin 2) (Fin 2) ℝ).det = 3 / 4 := by rw [det_fin_two_of]; norm_num
  simp only [three, List.map_cons, List.map_nil, List.sum_cons, List.sum_nil, hb, d1, d2, d3] at h11
  rw [show (((2 : ℕ) : ℝ)⁻¹) = 1 / 2 by norm_num] at h11
  linarith

end Ellipy.Ell
