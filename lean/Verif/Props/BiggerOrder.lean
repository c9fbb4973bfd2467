import Verif.Spec.Constants
import Verif.Props.IsBigger
import Verif.Props.Monotone
import Verif.Props.Minksum

/-! Property theorem C109: `is_bigger` is an order up to the tolerance, agrees with `volume`, `min_eig` and `max_eig`, and puts
the results of `minksum_ea` above the summands and the results of `minksum_ia`. -/

namespace Ellipy.Ell
open Matrix Ellipy.LA

private theorem bigger_true (E : Eigh) (G : Eig) (S : Svd) (L : Lstsq) {n : ℕ} (hn : n ≠ 0) (e f : EllN n) (he : e.NonDeg) (hf : f.PSD)
    (h : isBigger E G S L e.obj (Arr.vec [f.obj]) = .ok true) (l : Fin n → ℝ) (hl : l ≠ 0) :
    l ⬝ᵥ f.Q *ᵥ l < (1 + e.props.absTol) * (l ⬝ᵥ e.Q *ᵥ l) := by
  obtain ⟨b, hb, hbi⟩ := C42_sound E G S L hn e f he hf
  rw [h] at hb
  cases hb
  exact (inside_iff e f he.psd.2 hf.2).mp (hbi rfl) l hl

private theorem bigger_of_form (E : Eigh) (G : Eig) (S : Svd) (L : Lstsq) {n : ℕ} (hn : n ≠ 0) (e f : EllN n) (he : e.NonDeg) (hf : f.PSD)
    (hw : WellCond e.Q machEps) (h : ∀ l : Fin n → ℝ, l ≠ 0 → l ⬝ᵥ f.Q *ᵥ l < (1 + e.props.absTol) * (l ⬝ᵥ e.Q *ᵥ l)) :
    isBigger E G S L e.obj (Arr.vec [f.obj]) = .ok true := by
  obtain ⟨b, hb, hbi⟩ := C42_partial E G S L hn e f he hf hw
  rw [hb, hbi.mpr ((inside_iff e f he.psd.2 hf.2).mpr h)]

/-- **C109**, inclusion: an ellipsoid is bigger than the ellipsoids it contains. -/
theorem C109_subset (E : Eigh) (G : Eig) (S : Svd) (L : Lstsq) {n : ℕ} (hn : n ≠ 0) (e f : EllN n) (he : e.NonDeg) (hf : f.PSD)
    (hw : WellCond e.Q machEps) (h : f.set ⊆ e.set) : isBigger E G S L e.obj (Arr.vec [f.obj]) = .ok true := by
  refine bigger_of_form E G S L hn e f he hf hw fun l hl => ?_
  have h1 := (subset_forms hf.2 he.psd.2 h l).2
  have h2 := he.pos hl
  have h3 : 0 < e.props.absTol := he.1.1
  nlinarith

/-- **C109**, reflexivity: here the condition on the axes is not needed, for the two ranks are the same. -/
theorem C109_refl (E : Eigh) (G : Eig) (S : Svd) (L : Lstsq) {n : ℕ} (hn : n ≠ 0) (e : EllN n) (he : e.NonDeg) :
    isBigger E G S L e.obj (Arr.vec [e.obj]) = .ok true := by
  obtain ⟨re, h1, -⟩ := matRank_le S hn e.Q
  obtain ⟨b, hb, hbi⟩ := isBigger_of E G S L hn e e he he.psd h1 h1
  rw [hb, hbi.mpr ⟨le_rfl, (inside_iff e e he.psd.2 he.psd.2).mpr fun l hl => ?_⟩]
  have h2 := he.pos hl
  have h3 : 0 < e.props.absTol := he.1.1
  nlinarith

/-- **C109**, transitivity: the tolerances add up (with their product). -/
theorem C109_trans (E : Eigh) (G : Eig) (S : Svd) (L : Lstsq) {n : ℕ} (hn : n ≠ 0) (e f g : EllN n) (he : e.NonDeg) (hf : f.NonDeg) (hg : g.PSD)
    (h1 : isBigger E G S L e.obj (Arr.vec [f.obj]) = .ok true) (h2 : isBigger E G S L f.obj (Arr.vec [g.obj]) = .ok true)
    (e' : EllN n) (he' : e'.NonDeg) (hQ : e'.Q = e.Q) (hw : WellCond e.Q machEps)
    (ht : e.props.absTol + f.props.absTol + e.props.absTol * f.props.absTol ≤ e'.props.absTol) :
    isBigger E G S L e'.obj (Arr.vec [g.obj]) = .ok true := by
  refine bigger_of_form E G S L hn e' g he' hg (hQ ▸ hw) fun l hl => ?_
  have b1 := bigger_true E G S L hn e f he hf.psd h1 l hl
  have b2 := bigger_true E G S L hn f g hf hg h2 l hl
  have t1 : 0 < f.props.absTol := hf.1.1
  have t2 := he.pos hl
  rw [hQ]
  calc l ⬝ᵥ g.Q *ᵥ l < (1 + f.props.absTol) * (l ⬝ᵥ f.Q *ᵥ l) := b2
    _ ≤ (1 + f.props.absTol) * ((1 + e.props.absTol) * (l ⬝ᵥ e.Q *ᵥ l)) := mul_le_mul_of_nonneg_left b1.le (by linarith)
    _ = (1 + (e.props.absTol + f.props.absTol + e.props.absTol * f.props.absTol)) * (l ⬝ᵥ e.Q *ᵥ l) := by ring
    _ ≤ (1 + e'.props.absTol) * (l ⬝ᵥ e.Q *ᵥ l) := mul_le_mul_of_nonneg_right (by linarith) t2.le

/-- **C109**, antisymmetry: if each of two ellipsoids is bigger than the other, their half widths agree in every direction up to the
tolerance. -/
theorem C109_antisymm (E : Eigh) (G : Eig) (S : Svd) (L : Lstsq) {n : ℕ} (hn : n ≠ 0) (e f : EllN n) (he : e.NonDeg) (hf : f.NonDeg)
    (h1 : isBigger E G S L e.obj (Arr.vec [f.obj]) = .ok true) (h2 : isBigger E G S L f.obj (Arr.vec [e.obj]) = .ok true)
    (l : Fin n → ℝ) (hl : l ≠ 0) (r R : ℝ) (hr : IsSupport (Ell 0 e.Q) l r) (hR : IsSupport (Ell 0 f.Q) l R) :
    0 < r ∧ 0 < R ∧ |R ^ 2 - r ^ 2| < max e.props.absTol f.props.absTol * max (r ^ 2) (R ^ 2) := by
  have b1 := bigger_true E G S L hn e f he hf.psd h1 l hl
  have b2 := bigger_true E G S L hn f e hf he.psd h2 l hl
  have hs : ∀ {Q : Matrix (Fin n) (Fin n) ℝ} (hQ : IsPSD Q) (r : ℝ), IsSupport (Ell 0 Q) l r → r = Real.sqrt (l ⬝ᵥ Q *ᵥ l) := by
    intro Q hQ r h
    have h' := ell_support (c := 0) hQ l
    rw [dotProduct_zero, zero_add] at h'
    exact h.unique h'
  have p1 := he.pos hl
  have p2 := hf.pos hl
  rw [hs he.psd.2 r hr, hs hf.psd.2 R hR, Real.sq_sqrt p1.le, Real.sq_sqrt p2.le]
  refine ⟨Real.sqrt_pos.mpr p1, Real.sqrt_pos.mpr p2, ?_⟩
  have t1 : 0 < e.props.absTol := he.1.1
  have t2 : 0 < f.props.absTol := hf.1.1
  generalize l ⬝ᵥ e.Q *ᵥ l = a at *
  generalize l ⬝ᵥ f.Q *ᵥ l = b at *
  have m1 : e.props.absTol * a ≤ max e.props.absTol f.props.absTol * max a b := mul_le_mul (le_max_left _ _) (le_max_left _ _) p1.le (t1.le.trans (le_max_left _ _))
  have m2 : f.props.absTol * b ≤ max e.props.absTol f.props.absTol * max a b := mul_le_mul (le_max_right _ _) (le_max_right _ _) p2.le (t1.le.trans (le_max_left _ _))
  rw [abs_lt]
  constructor <;> linarith

/-- **C109**, `min_eig` and `max_eig`: they respect the order up to the factor, and decide it when they are apart. -/
theorem C109_eigs (E : Eigh) (G : Eig) (S : Svd) (L : Lstsq) {n : ℕ} (hn : n ≠ 0) (e f : EllN n) (he : e.NonDeg) (hf : f.PSD) (arg : ObjArg EllObj)
    (ha : arg.Is (Arr.vec [f.obj, e.obj])) :
    ∃ r s r' s', minEig E arg = .ok [r, s] ∧ maxEig E arg = .ok [r', s'] ∧
      (isBigger E G S L e.obj (Arr.vec [f.obj]) = .ok true → r < (1 + e.props.absTol) * s ∧ r' < (1 + e.props.absTol) * s') ∧
      (WellCond e.Q machEps → r' ≤ s → isBigger E G S L e.obj (Arr.vec [f.obj]) = .ok true) := by
  obtain ⟨⟨rs, h1, h2⟩, ss, h3, h4⟩ := C81_form E arg _ ha (by
    intro x hx
    have hx : x ∈ [f.obj, e.obj] := hx
    simp only [List.mem_cons, List.not_mem_nil, or_false] at hx
    rcases hx with rfl | rfl <;> exact hn)
  have h2 : List.Forall₂ _ [f.obj, e.obj] rs := h2
  have h4 : List.Forall₂ _ [f.obj, e.obj] ss := h4
  have e1 : lowerSym f.Q = f.Q := lowerSym_of_symm hf.2.1
  have e2 : lowerSym e.Q = e.Q := lowerSym_of_symm he.psd.2.1
  have hne : ∀ x : Fin n → ℝ, x ⬝ᵥ x = 1 → x ≠ 0 := by
    rintro x hx rfl
    simp at hx
  match rs, h2, ss, h4 with
  | [r, s], .cons hr (.cons hs .nil), [r', s'], .cons hr' (.cons hs' .nil) =>
    have hr : IsLeast (formValues (lowerSym f.Q)) r := hr
    have hs : IsLeast (formValues (lowerSym e.Q)) s := hs
    have hr' : IsGreatest (formValues (lowerSym f.Q)) r' := hr'
    have hs' : IsGreatest (formValues (lowerSym e.Q)) s' := hs'
    rw [e1] at hr hr'
    rw [e2] at hs hs'
    refine ⟨r, s, r', s', h1, h3, fun hb => ⟨?_, ?_⟩, fun hw hle => ?_⟩
    · obtain ⟨x, hx, rfl⟩ := hs.1
      exact (hr.2 ⟨x, hx, rfl⟩).trans_lt (bigger_true E G S L hn e f he hf hb x (hne x hx))
    · obtain ⟨x, hx, rfl⟩ := hr'.1
      exact (bigger_true E G S L hn e f he hf hb x (hne x hx)).trans_le
        (mul_le_mul_of_nonneg_left (hs'.2 ⟨x, hx, rfl⟩) (by have : 0 < e.props.absTol := he.1.1; linarith))
    · refine bigger_of_form E G S L hn e f he hf hw fun l hl => ?_
      have t1 : 0 < e.props.absTol := he.1.1
      have p1 := he.pos hl
      have hd := dot_self_pos hl
      have hscale : ∀ Q : Matrix (Fin n) (Fin n) ℝ, ((√(l ⬝ᵥ l))⁻¹ • l) ⬝ᵥ Q *ᵥ ((√(l ⬝ᵥ l))⁻¹ • l) = (l ⬝ᵥ Q *ᵥ l) / (l ⬝ᵥ l) := by
        intro Q
        rw [mulVec_smul, dotProduct_smul, smul_dotProduct, smul_eq_mul, smul_eq_mul, ← mul_assoc, ← mul_inv, Real.mul_self_sqrt hd.le]
        field_simp
      have hu : ((√(l ⬝ᵥ l))⁻¹ • l) ⬝ᵥ ((√(l ⬝ᵥ l))⁻¹ • l) = 1 := by
        have := hscale 1
        rw [one_mulVec, one_mulVec, div_self hd.ne'] at this
        exact this
      have g1 := hr'.2 ⟨_, hu, rfl⟩
      have g2 := hs.2 ⟨_, hu, rfl⟩
      rw [hscale] at g1 g2
      have g3 := (g1.trans hle).trans g2
      have g4 := (div_le_div_iff_of_pos_right hd).mp g3
      nlinarith

/-- **C109**, `volume`: the volume of the smaller ellipsoid is at most that of the bigger one, up to the power `n / 2` of the factor. -/
theorem C109_volume (E : Eigh) (G : Eig) (S : Svd) (L : Lstsq) {n : ℕ} (hn : n ≠ 0) (e f : EllN n) (he : e.NonDeg) (hf : f.PSD)
    (hb : isBigger E G S L e.obj (Arr.vec [f.obj]) = .ok true) :
    ∃ v w, Ell.volume E [f.obj, e.obj] = .ok [v, w] ∧ v.val ≤ √((1 + e.props.absTol) ^ n) * w.val := by
  have ht : 0 < e.props.absTol := he.1.1
  obtain ⟨vs, h1, h2⟩ := C32 E [f.obj, e.obj] (by
    intro x hx
    simp only [List.mem_cons, List.not_mem_nil, or_false] at hx
    rcases hx with rfl | rfl
    · exact ⟨hn, hf.2, hf.1.1.le⟩
    · exact ⟨hn, he.psd.2, he.1.1.le⟩)
  match vs, h2 with
  | [v, w], .cons hv (.cons hw .nil) =>
    refine ⟨v, w, h1, ?_⟩
    obtain ⟨m2, p2, -⟩ := hw.1 he.2.2
    by_cases hfd : ∀ x : Fin n → ℝ, x ≠ 0 → f.props.absTol * (x ⬝ᵥ x) < x ⬝ᵥ f.Q *ᵥ x
    · obtain ⟨m1, p1, -⟩ := hv.1 hfd
      have m1 : MeasureTheory.volume (Ell f.c f.Q) = ENNReal.ofReal v.val := m1
      have m2 : MeasureTheory.volume (Ell e.c e.Q) = ENNReal.ofReal w.val := m2
      have hP : IsPSD ((1 + e.props.absTol) • e.Q) := ⟨by rw [transpose_smul, he.psd.2.1], fun x => by
        rw [smul_mulVec, dotProduct_smul, smul_eq_mul]; exact mul_nonneg (by linarith) (he.psd.2.2 x)⟩
      have hsub : Ell 0 f.Q ⊆ Ell 0 ((1 + e.props.absTol) • e.Q) := by
        intro x hx
        rw [mem_ell_support hf.2] at hx
        rw [mem_ell_support hP]
        intro l
        rcases eq_or_ne l 0 with rfl | hl
        · simp
        · rw [smul_mulVec, dotProduct_smul, smul_eq_mul]
          exact (hx l).trans (bigger_true E G S L hn e f he hf hb l hl).le
      have key := MeasureTheory.measure_mono (μ := MeasureTheory.volume) hsub
      rw [ell_volume_eq hn 0 hP, det_smul, Fintype.card_fin, Real.sqrt_mul (by positivity), ell_volume_eq hn 0 hf.2, ← ell_volume_eq hn f.c hf.2, m1] at key
      rw [ell_volume_eq hn e.c he.psd.2] at m2
      have hg : 0 ≤ √Real.pi ^ n / Real.Gamma (n / 2 + 1) := div_nonneg (by positivity) (Real.Gamma_pos_of_pos (by positivity)).le
      have m3 := (ENNReal.ofReal_eq_ofReal_iff (mul_nonneg hg (Real.sqrt_nonneg _)) p2.le).mp m2
      rw [mul_left_comm, m3] at key
      exact (ENNReal.ofReal_le_ofReal_iff (mul_nonneg (Real.sqrt_nonneg _) p2.le)).mp key
    · rw [(hv.2 hfd).1]
      exact mul_nonneg (Real.sqrt_nonneg _) p2.le

/-- The sum is at least as wide as each summand. -/
private theorem sum_form {n : ℕ} (es : List (EllN n)) (hes : ∀ e ∈ es, IsPSD e.Q) {Q : Matrix (Fin n) (Fin n) ℝ} (hQ : IsPSD Q)
    (h : minkSum (es.map EllN.set) ⊆ Ell (es.map EllN.c).sum Q) (e : EllN n) (he : e ∈ es) (l : Fin n → ℝ) : l ⬝ᵥ e.Q *ᵥ l ≤ l ⬝ᵥ Q *ᵥ l := by
  obtain ⟨z, hz, hzr⟩ := (minkSum_support l es hes).1
  have h1 := (ell_support (c := (es.map EllN.c).sum) hQ l).2 ⟨z, h hz, rfl⟩
  simp only at hzr h1
  rw [hzr] at h1
  have h2 : √(l ⬝ᵥ e.Q *ᵥ l) ≤ (es.map (fun e => √(l ⬝ᵥ e.Q *ᵥ l))).sum := by
    refine List.single_le_sum ?_ _ (List.mem_map_of_mem he)
    intro x hx
    obtain ⟨y, -, rfl⟩ := List.mem_map.mp hx
    exact Real.sqrt_nonneg _
  exact (Real.sqrt_le_sqrt_iff (hQ.2 l)).mp (by linarith)

/-- **C109**, sums: every result of `minksum_ea` is bigger than every summand and than every result of `minksum_ia`.  (It must not count
as flat.) -/
theorem C109_minksum (E : Eigh) (G : Eig) (S : Svd) (L : Lstsq) (p : PropVals) (hp : p.ok) {n k k' : ℕ} (hn : n ≠ 0) (es : List (EllN n))
    (h2 : 2 ≤ es.length) (hes : ∀ e ∈ es, e.NonDeg) (htol : ∃ e ∈ es, p.absTol ≤ e.props.absTol) (M : Matrix (Fin n) (Fin k) ℝ)
    (hM : ∀ j, (fun i => M i j) ≠ 0) (M' : Matrix (Fin n) (Fin k') ℝ) (hM' : ∀ j, (fun i => M' i j) ≠ 0) :
    ∃ re ri, minksumEa E G L p (es.map EllN.obj) M = .ok (Arr.vec re) ∧ minksumIa E G p (es.map EllN.obj) M' = .ok (Arr.vec ri) ∧
      re.length = k ∧ ri.length = k' ∧ ∀ y ∈ re, WellCond y.Q machEps →
        (∀ e ∈ es, isBigger E G S L y (Arr.vec [e.obj]) = .ok true) ∧ ∀ x ∈ ri, isBigger E G S L y (Arr.vec [x]) = .ok true := by
  obtain ⟨Qe, hqe, hspe⟩ := C43 E G L p hp hn es h2 hes M hM
  obtain ⟨Qi, hqi, hspi⟩ := C44 E G p hp hn es h2 hes M' hM'
  refine ⟨_, _, hqe, hqi, by simp, by simp, fun y hy hw => ?_⟩
  obtain ⟨j, rfl⟩ := List.mem_ofFn.mp hy
  have hform := sum_form es (fun e he => (hes e he).psd.2) (hspe j).1 (hspe j).2.1
  let y' : EllN n := ⟨(es.map EllN.c).sum, Qe j, p⟩
  have hnd : y'.NonDeg := by
    obtain ⟨e, he, ht⟩ := htol
    refine ⟨hp, (hspe j).1.1, fun x hx => ?_⟩
    exact (mul_le_mul_of_nonneg_right ht (dot_self_pos hx).le).trans_lt (((hes e he).2.2 x hx).trans_le (hform e he x))
  have hpos : 0 < y'.props.absTol := hp.1
  refine ⟨fun e he => ?_, fun x hx => ?_⟩
  · refine bigger_of_form E G S L hn y' e hnd (hes e he).psd hw fun l hl => ?_
    have h1 : l ⬝ᵥ e.Q *ᵥ l ≤ l ⬝ᵥ y'.Q *ᵥ l := hform e he l
    have h3 := hnd.pos hl
    nlinarith
  · obtain ⟨i, rfl⟩ := List.mem_ofFn.mp hx
    exact C109_subset E G S L hn y' ⟨(es.map EllN.c).sum, Qi i, p⟩ hnd ⟨hp, (hspi i).1⟩ hw ((hspi i).2.1.trans (hspe j).2.1)

private theorem discN_well : WellCond discN.Q machEps := by
  intro x y hx hy
  show (y ⬝ᵥ (1 : Matrix (Fin 2) (Fin 2) ℝ) *ᵥ y) * (2 : ℕ) * eps64 < x ⬝ᵥ (1 : Matrix (Fin 2) (Fin 2) ℝ) *ᵥ x
  rw [one_mulVec, one_mulVec, hx, hy, eps64]
  norm_num

/-- The unit disc is bigger than itself, and with a larger tolerance than what is below it twice. -/
example (E : Eigh) (G : Eig) (S : Svd) (L : Lstsq) : isBigger E G S L discN.obj (Arr.vec [discN.obj]) = .ok true ∧
    isBigger E G S L (⟨0, 1, ⟨1 / 10, 1 / 10, 200, 200⟩⟩ : EllN 2).obj (Arr.vec [discN.obj]) = .ok true := by
  have h := C109_refl E G S L two_ne_zero discN discN_nonDeg
  refine ⟨h, C109_trans E G S L two_ne_zero discN discN discN discN_nonDeg discN_nonDeg discN_nonDeg.psd h h _ ⟨by
    simp only [PropVals.ok]; norm_num; exact ⟨200, by norm_num⟩, transpose_one, fun x hx => ?_⟩ rfl discN_well (by simp only [discN, stdProps]; norm_num)⟩
  have := dot_self_pos hx
  simp only [one_mulVec]
  linarith

/-- The sums of two unit discs along the axes. -/
example (E : Eigh) (G : Eig) (S : Svd) (L : Lstsq) : ∃ re ri, minksumEa E G L stdProps [discN.obj, discN.obj] (1 : Matrix (Fin 2) (Fin 2) ℝ) = .ok (Arr.vec re) ∧
    minksumIa E G stdProps [discN.obj, discN.obj] (1 : Matrix (Fin 2) (Fin 2) ℝ) = .ok (Arr.vec ri) ∧ re.length = 2 ∧ ri.length = 2 ∧
    ∀ y ∈ re, WellCond y.Q machEps → ∀ x ∈ ri, isBigger E G S L y (Arr.vec [x]) = .ok true := by
  have hM : ∀ j : Fin 2, (fun i => (1 : Matrix (Fin 2) (Fin 2) ℝ) i j) ≠ 0 := fun j h => by simpa using congrFun h j
  obtain ⟨re, ri, h1, h2, h3, h4, h5⟩ := C109_minksum E G S L stdProps stdProps_ok two_ne_zero [discN, discN] le_rfl
    (by intro e he; simp only [List.mem_cons, List.not_mem_nil, or_false, or_self] at he; subst he; exact discN_nonDeg)
    ⟨discN, by simp, le_rfl⟩ 1 hM 1 hM
  exact ⟨re, ri, h1, h2, h3, h4, fun y hy hw => (h5 y hy hw).2⟩

end Ellipy.Ell
