import Verif.Proofs.DetRoot
import Verif.Proofs.Support
import Verif.Props.MinksumAlg
import Verif.Props.MinksumMin
import Verif.Props.Polar
import Verif.Props.PolarDual

/-! Property theorems C105 (volume of the external approximation) and C106 (sums of homothetic ellipsoids). -/

namespace Ellipy.Ell
open Matrix Ellipy.LA

/-- `volume` of non-degenerate ellipsoids. -/
theorem volume_nonDeg (E : Eigh) {n : ℕ} (hn : n ≠ 0) (es : List (EllN n)) (hes : ∀ e ∈ es, e.NonDeg) :
    Ell.volume E (es.map EllN.obj) = .ok (es.map fun e => ⟨false, ballFactor n * Real.sqrt e.Q.det⟩) := by
  have h0 : ¬ anyEmpty (es.map EllN.obj) := by
    rintro ⟨x, hx, h⟩
    obtain ⟨e, -, rfl⟩ := List.mem_map.1 hx
    exact hn h
  rw [Ell.volume, if_neg h0]
  have : ∀ e ∈ es, singleVolume E e.obj = .ok ⟨false, ballFactor n * Real.sqrt e.Q.det⟩ := by
    intro e he
    rw [singleVolume, isDegenerate_nonDeg E hn (hes e he)]
    rfl
  clear h0 hes
  induction es with
  | nil => rfl
  | cons e es ih =>
    have h1 := this e (by simp)
    have h2 := ih fun f hf => this f (List.mem_cons_of_mem _ hf)
    rw [List.map_cons, List.map_cons, pyMap, h1, h2]

private theorem vol_root {n : ℕ} {Q : Matrix (Fin n) (Fin n) ℝ} (hQ : 0 ≤ Q.det) :
    (ballFactor n * Real.sqrt Q.det) ^ ((n : ℝ)⁻¹) = ballFactor n ^ ((n : ℝ)⁻¹) * Real.sqrt (detRoot Q) := by
  rw [Real.mul_rpow (ballFactor_nonneg n) (Real.sqrt_nonneg _), detRoot, Real.sqrt_eq_rpow, Real.sqrt_eq_rpow, ← Real.rpow_mul hQ,
    ← Real.rpow_mul hQ, mul_comm (1 / 2 : ℝ)]

private theorem detRoot_nonneg {n : ℕ} {Q : Matrix (Fin n) (Fin n) ℝ} (hQ : 0 ≤ Q.det) : 0 ≤ detRoot Q := Real.rpow_nonneg hQ _

private theorem sq_sum_le {n : ℕ} {v : Fin n → ℝ} (hv : v ≠ 0) (l : List (EllN n)) (h : ∀ e ∈ l, e.NonDeg) :
    (l.map fun e => Real.sqrt (detRoot e.Q)).sum ^ 2 ≤
      (l.map fun e => Real.sqrt (v ⬝ᵥ e.Q *ᵥ v)).sum * (l.map fun e => 1 / Real.sqrt (v ⬝ᵥ e.Q *ᵥ v) * detRoot e.Q).sum := by
  induction l with
  | nil => simp
  | cons e l ih =>
    have d0 := detRoot_nonneg (psd_det_nonneg (h e (by simp)).psd.2)
    have hl : ∀ f ∈ l, f.NonDeg := fun f hf => h f (List.mem_cons_of_mem _ hf)
    have i1 := ih hl
    have i2 := list_sum_pos l (fun e => Real.sqrt (v ⬝ᵥ e.Q *ᵥ v)) fun _ _ => Real.sqrt_nonneg _
    have i3 := list_sum_pos l (fun e => 1 / Real.sqrt (v ⬝ᵥ e.Q *ᵥ v) * detRoot e.Q) fun f hf =>
      mul_nonneg (by positivity) (detRoot_nonneg (psd_det_nonneg (hl f hf).psd.2))
    have i4 := Real.sqrt_pos.2 ((h e (by simp)).pos hv)
    rw [List.map_cons, List.map_cons, List.map_cons, List.sum_cons, List.sum_cons, List.sum_cons]
    exact cauchy_step i4 i2 i3 (Real.sq_sqrt d0).le i1

private theorem unscale {n : ℕ} {W : Matrix (Fin n) (Fin n) ℝ} {s : ℝ} (hs : 0 < s) (hP : IsPSD (s • W)) (hd : 0 < (s • W).det) :
    IsPSD W ∧ 0 < W.det := by
  refine ⟨⟨?_, fun x => ?_⟩, ?_⟩
  · have := hP.1
    rw [transpose_smul] at this
    have h := congrArg (fun A => s⁻¹ • A) this
    simpa [smul_smul, hs.ne'] using h
  · have := hP.2 x
    rw [smul_mulVec, dotProduct_smul, smul_eq_mul] at this
    exact nonneg_of_mul_nonneg_right this hs
  · rw [det_smul] at hd
    exact pos_of_mul_pos_right hd (pow_nonneg hs.le _)

private theorem scaled_psd {n : ℕ} {Q : Matrix (Fin n) (Fin n) ℝ} {s : ℝ} (hs : 0 ≤ s) (hQ : IsPSD Q) : IsPSD (s • Q) := by
  refine ⟨by rw [transpose_smul, hQ.1], fun x => ?_⟩
  rw [smul_mulVec, dotProduct_smul, smul_eq_mul]
  exact mul_nonneg hs (hQ.2 x)

private theorem detRoot_scaled {n : ℕ} (hn : n ≠ 0) (es : List (EllN n)) (hes : ∀ e ∈ es, IsPSD e.Q) (r : EllN n → ℝ) (hr : ∀ e, 0 ≤ r e)
    {W : Matrix (Fin n) (Fin n) ℝ} (hW : (es.map fun e => r e • e.Q).sum = W) (hWp : IsPSD W) (hWd : 0 < W.det) :
    (es.map fun e => r e * detRoot e.Q).sum ≤ detRoot W := by
  have key := detRoot_sum hn (es.map fun e => r e • e.Q) (by
    intro A hA
    obtain ⟨e, he, rfl⟩ := List.mem_map.1 hA
    exact scaled_psd (hr e) (hes e he)) (by rw [hW]; exact hWd) (by rw [hW]; exact hWp)
  rw [hW, List.map_map] at key
  refine le_of_eq_of_le ?_ key
  congr 1
  refine List.map_congr_left fun e he => ?_
  exact (detRoot_smul hn (psd_det_nonneg (hes e he)) (hr e)).symm

/-- The inequality behind `C105`. -/
private theorem detRoot_eaShape {n : ℕ} (hn : n ≠ 0) (es : List (EllN n)) (h2 : 2 ≤ es.length) (hes : ∀ e ∈ es, e.NonDeg) {v : Fin n → ℝ}
    (hv : v ≠ 0) (hP : IsPSD (eaShape es v)) (hpos : ∀ x : Fin n → ℝ, x ≠ 0 → 0 < x ⬝ᵥ eaShape es v *ᵥ x) :
    (es.map fun e => Real.sqrt (detRoot e.Q)).sum ^ 2 ≤ detRoot (eaShape es v) := by
  have hspos : 0 < (es.map fun e => Real.sqrt (v ⬝ᵥ e.Q *ᵥ v)).sum := by
    obtain ⟨e, l, rfl⟩ := List.exists_cons_of_ne_nil (show es ≠ [] by rintro rfl; simp at h2)
    have a1 := Real.sqrt_pos.2 ((hes e (by simp)).pos hv)
    have a2 := list_sum_pos l (fun e => Real.sqrt (v ⬝ᵥ e.Q *ᵥ v)) fun _ _ => Real.sqrt_nonneg _
    rw [List.map_cons, List.sum_cons]
    linarith
  have hd := det_pos_of_pos hP hpos
  rw [eaShape] at hP hd
  obtain ⟨hWp, hWd⟩ := unscale hspos hP hd
  have key := detRoot_scaled hn es (fun e he => (hes e he).psd.2) (fun e => 1 / Real.sqrt (v ⬝ᵥ e.Q *ᵥ v)) (fun e => by positivity) rfl hWp hWd
  refine (sq_sum_le hv es hes).trans ?_
  rw [eaShape, detRoot_smul hn hWd.le hspos.le]
  exact mul_le_mul_of_nonneg_left key hspos.le

/-- **C105**: the volume of an external approximation is at least as large as the inequality of Brunn and Minkowski demands: its `n`-th root
is not smaller than the sum of the `n`-th roots of the volumes of the summands.  (The result must not count as flat.) -/
theorem C105 (E : Eigh) (G : Eig) (L : Lstsq) (p : PropVals) (hp : p.ok) {n k : ℕ} (hn : n ≠ 0) (es : List (EllN n)) (h2 : 2 ≤ es.length)
    (hes : ∀ e ∈ es, e.NonDeg) (htol : ∃ e ∈ es, p.absTol ≤ e.props.absTol) (M : Matrix (Fin n) (Fin k) ℝ) (hM : ∀ j, (fun i => M i j) ≠ 0) :
    ∃ (rs : List EllObj) (vs ws : List VolEntry), minksumEa E G L p (es.map EllN.obj) M = .ok (Arr.vec rs) ∧ rs.length = k ∧
      Ell.volume E (es.map EllN.obj) = .ok vs ∧ Ell.volume E rs = .ok ws ∧
      ∀ w ∈ ws, (vs.map fun v => v.val ^ ((n : ℝ)⁻¹)).sum ≤ w.val ^ ((n : ℝ)⁻¹) := by
  have hpsd := fun j => (eaDir_eq E G L hp hn (hM j) es hes (es.map EllN.c).sum).2
  have hnd := fun j => eaShape_nonDeg es (fun i => M i j) (hM j) hes (es.map EllN.c).sum p hp htol (hpsd j)
  set fs : List (EllN n) := List.ofFn fun j => ⟨(es.map EllN.c).sum, eaShape es (fun i => M i j), p⟩ with hfs
  have hfnd : ∀ f ∈ fs, f.NonDeg := by
    intro f hf
    obtain ⟨j, rfl⟩ := (List.mem_ofFn' _ _).1 hf
    exact hnd j
  refine ⟨fs.map EllN.obj, _, _, ?_, by simp [hfs], volume_nonDeg E hn es hes, volume_nonDeg E hn fs hfnd, ?_⟩
  · rw [minksumEa_eq E G L p hp hn es h2 hes M hM, hfs, List.map_ofFn]
    rfl
  intro w hw
  obtain ⟨f, hf, rfl⟩ := List.mem_map.1 hw
  obtain ⟨j, rfl⟩ := (List.mem_ofFn' _ _).1 hf
  have hv := hM j
  set v : Fin n → ℝ := fun i => M i j
  have hP : IsPSD (eaShape es v) := hpsd j
  have hdet := psd_det_nonneg hP
  show _ ≤ (ballFactor n * Real.sqrt (eaShape es v).det) ^ ((n : ℝ)⁻¹)
  rw [vol_root hdet, List.map_map]
  have e1 : (es.map ((fun v : VolEntry => v.val ^ ((n : ℝ)⁻¹)) ∘ fun e => ⟨false, ballFactor n * Real.sqrt e.Q.det⟩)).sum =
      ballFactor n ^ ((n : ℝ)⁻¹) * (es.map fun e => Real.sqrt (detRoot e.Q)).sum := by
    rw [← List.sum_map_mul_left]
    congr 1
    refine List.map_congr_left fun e he => ?_
    exact vol_root (psd_det_nonneg (hes e he).psd.2)
  rw [e1]
  refine mul_le_mul_of_nonneg_left ?_ (Real.rpow_nonneg (ballFactor_nonneg n) _)
  exact Real.le_sqrt_of_sq_le (detRoot_eaShape hn es h2 hes hv hP fun x hx => (hnd j).pos hx)

/-- A list whose widths add up to the width of an ellipsoid has this ellipsoid as its sum. -/
private theorem minkSum_eq_ell {n : ℕ} (es : List (EllN n)) (hes : ∀ e ∈ es, IsPSD e.Q) {Q : Matrix (Fin n) (Fin n) ℝ} (hQ : IsPSD Q)
    (h : ∀ l : Fin n → ℝ, Real.sqrt (l ⬝ᵥ Q *ᵥ l) = (es.map fun e => Real.sqrt (l ⬝ᵥ e.Q *ᵥ l)).sum) :
    Ell (es.map EllN.c).sum Q = minkSum (es.map EllN.set) := by
  ext x
  constructor
  · intro hx
    obtain ⟨hk, hc, hm⟩ := minkSum_compact es hes
    refine mem_of_support hc hk.isClosed ⟨_, hm⟩ fun l _ => ?_
    obtain ⟨y, hy, hyl⟩ := (minkSum_support l es hes).1
    refine ⟨y, hy, ?_⟩
    have h1 := (mem_ell_sqrt hQ x).1 hx l
    have hyl : l ⬝ᵥ y = _ := hyl
    rw [hyl, ← h]
    exact h1
  · intro hx
    rw [mem_ell_sqrt hQ]
    intro l
    rw [h]
    exact (minkSum_support l es hes).2 ⟨x, hx, rfl⟩

/-- **C106**: for homothetic ellipsoids both approximations give the Minkowski sum itself, whatever the directions. -/
theorem C106 (E : Eigh) (G : Eig) (L : Lstsq) (p : PropVals) (hp : p.ok) {n k : ℕ} (hn : n ≠ 0) (es : List (EllN n)) (h2 : 2 ≤ es.length)
    (hes : ∀ e ∈ es, e.NonDeg) (hom : ∀ e ∈ es, ∀ f ∈ es, ∃ t : ℝ, f.Q = t • e.Q) (M : Matrix (Fin n) (Fin k) ℝ)
    (hM : ∀ j, (fun i => M i j) ≠ 0) :
    ∃ (c : Fin n → ℝ) (Q : Matrix (Fin n) (Fin n) ℝ), Ell c Q = minkSum (es.map EllN.set) ∧
      minksumEa E G L p (es.map EllN.obj) M = .ok (Arr.vec (List.replicate k ⟨n, c, Q, p.absTol, p.relTol, p.n2d, p.n3d⟩)) ∧
      minksumIa E G p (es.map EllN.obj) M = .ok (Arr.vec (List.replicate k ⟨n, c, Q, p.absTol, p.relTol, p.n2d, p.n3d⟩)) := by
  obtain ⟨a, b, l, rfl⟩ : ∃ a b l, es = a :: b :: l := by
    match es, h2 with
    | a :: b :: l, _ => exact ⟨a, b, l, rfl⟩
  set es := a :: b :: l with hes'
  have ha : a.NonDeg := hes a (by simp [hes'])
  have hx : ∃ x : Fin n → ℝ, x ≠ 0 := by
    refine ⟨fun _ => 1, fun h => ?_⟩
    have := congrFun h ⟨0, Nat.pos_of_ne_zero hn⟩
    simp at this
  have ht : ∀ e ∈ es, ∃ t : ℝ, 0 < t ∧ e.Q = t ^ 2 • a.Q := by
    intro e he
    obtain ⟨t, ht⟩ := hom a (by simp [hes']) e he
    obtain ⟨x, hx⟩ := hx
    have h1 := (hes e he).pos hx
    have h3 := ha.pos hx
    rw [ht, smul_mulVec, dotProduct_smul, smul_eq_mul] at h1
    have h4 : 0 < t := pos_of_mul_pos_left h1 h3.le
    exact ⟨Real.sqrt t, Real.sqrt_pos.2 h4, by rw [Real.sq_sqrt h4.le, ht]⟩
  have : Nonempty ℝ := ⟨0⟩
  choose! t htpos htQ using ht
  set T := (es.map t).sum with hT
  have hTpos : 0 < T := by
    have a1 := htpos a (by simp [hes'])
    have a2 := htpos b (by simp [hes'])
    have a3 := list_sum_pos l t fun e he => (htpos e (by simp [hes', he])).le
    rw [hT, hes', List.map_cons, List.map_cons, List.sum_cons, List.sum_cons]
    linarith
  have hroot : ∀ e ∈ es, ∀ x : Fin n → ℝ, Real.sqrt (x ⬝ᵥ e.Q *ᵥ x) = t e * Real.sqrt (x ⬝ᵥ a.Q *ᵥ x) := by
    intro e he x
    rw [htQ e he, smul_mulVec, dotProduct_smul, smul_eq_mul, Real.sqrt_mul (sq_nonneg _), Real.sqrt_sq (htpos e he).le]
  have hwidth : ∀ x : Fin n → ℝ, (es.map fun e => Real.sqrt (x ⬝ᵥ e.Q *ᵥ x)).sum = T * Real.sqrt (x ⬝ᵥ a.Q *ᵥ x) := by
    intro x
    rw [hT, ← List.sum_map_mul_right]
    congr 1
    exact List.map_congr_left fun e he => hroot e he x
  have hQ : IsPSD (T ^ 2 • a.Q) := by
    refine ⟨by rw [transpose_smul, ha.2.1], fun x => ?_⟩
    rw [smul_mulVec, dotProduct_smul, smul_eq_mul]
    exact mul_nonneg (sq_nonneg T) (ha.psd.2.2 x)
  refine ⟨(es.map EllN.c).sum, T ^ 2 • a.Q, minkSum_eq_ell es (fun e he => (hes e he).psd.2) hQ fun x => ?_, ?_, ?_⟩
  · rw [hwidth, smul_mulVec, dotProduct_smul, smul_eq_mul, Real.sqrt_mul (sq_nonneg _), Real.sqrt_sq hTpos.le]
  · rw [minksumEa_eq E G L p hp hn es h2 hes M hM, ← List.ofFn_const]
    congr 3
    funext j
    congr 1
    have hv := Real.sqrt_pos.2 (ha.pos (hM j))
    rw [eaShape, hwidth]
    have : (es.map fun e => (1 / Real.sqrt ((fun i => M i j) ⬝ᵥ e.Q *ᵥ (fun i => M i j))) • e.Q).sum =
        (T / Real.sqrt ((fun i => M i j) ⬝ᵥ a.Q *ᵥ (fun i => M i j))) • a.Q := by
      rw [div_eq_mul_inv, hT, ← List.sum_map_mul_right, List.sum_smul, List.map_map]
      congr 1
      refine List.map_congr_left fun e he => ?_
      have h0 := (htpos e he).ne'
      rw [hroot e he, htQ e he, smul_smul]
      congr 1
      field_simp
    rw [this, smul_smul]
    congr 1
    field_simp
  · obtain ⟨S0, ts, hS0, hS0Q, h3, h4⟩ := minksumIa_form E G p hp hn a b l hes M hM
    rw [h4, ← List.ofFn_const]
    congr 3
    funext j
    congr 1
    have hne := root_ne_zero ha hS0 hS0Q (hM j)
    have key : ∀ (fs : List (EllN n)) (us : List (Matrix (Fin n) (Fin n) ℝ × (Fin k → Matrix (Fin n) (Fin n) ℝ))), (∀ f ∈ fs, f ∈ es) →
        List.Forall₂ (IaSpec M (S0 * M)) fs us → (us.map (fun u => u.2 j * u.1)).sum = (fs.map t).sum • S0 := by
      intro fs us hfs h
      induction h with
      | nil => simp
      | @cons f u fs us h1 _ ih =>
        have hf : f ∈ es := hfs f (by simp)
        have hu : u.1 = t f • S0 := by
          refine psd_root_unique h1.1 ⟨by rw [transpose_smul, hS0.1], fun x => ?_⟩ ?_
          · rw [smul_mulVec, dotProduct_smul, smul_eq_mul]
            exact mul_nonneg (htpos f hf).le (hS0.2 x)
          · rw [h1.2.1, smul_mul_smul_comm, hS0Q, htQ f hf, sq]
        have hO := h1.2.2 j
        rw [col_mul, hu, smul_mulVec] at hO
        have hO1 : u.2 j = 1 := by
          have hdir : dir (t f • S0 *ᵥ fun i => M i j) = dir (S0 *ᵥ fun i => M i j) := by
            rw [dir, dir, smul_dotProduct, dotProduct_smul, smul_eq_mul, smul_eq_mul, ← mul_assoc, ← sq, Real.sqrt_mul (sq_nonneg _),
              Real.sqrt_sq (htpos f hf).le, smul_smul]
            congr 1
            have := (htpos f hf).ne'
            have := (Real.sqrt_pos.2 (dot_self_pos hne)).ne'
            field_simp
          have hne' : t f • S0 *ᵥ (fun i => M i j) ≠ 0 := smul_ne_zero (htpos f hf).ne' hne
          have hs0 : sinSq (t f • S0 *ᵥ fun i => M i j) (S0 *ᵥ fun i => M i j) = 0 := by rw [sinSq, hdir, dir_dot hne]; norm_num
          rw [orthTransl_eq hne' hne, hs0, Real.sqrt_zero, if_neg (not_lt.2 translTol_pos.le), hdir, dir_dot hne, planeRot_eq] at hO
          injection hO with hO
          rw [← hO]
          simp
        rw [List.map_cons, List.sum_cons, List.map_cons, List.sum_cons, ih fun g hg => hfs g (List.mem_cons_of_mem _ hg), hO1, hu,
          Matrix.one_mul, add_smul]
    have := key es ts (fun _ h => h) h3
    rw [this, ← hT, transpose_smul, hS0.1, smul_mul_smul_comm, hS0Q, sq]

/-- `C106` applies to the ellipse `[[2, 1], [1, 2]]` at the origin and the ellipse of twice the size at `(1, 1)`. -/
example (E : Eigh) (G : Eig) (L : Lstsq) : ∃ (c : Fin 2 → ℝ) (Q : Matrix (Fin 2) (Fin 2) ℝ),
    minksumEa E G L stdProps [⟨2, ![0, 0], !![2, 1; 1, 2], 1 / 10 ^ 7, 1 / 10 ^ 5, 200, 200⟩,
      ⟨2, ![1, 1], !![8, 4; 4, 8], 1 / 10 ^ 7, 1 / 10 ^ 5, 200, 200⟩] (colMat ![1, 2]) =
        .ok (Arr.vec (List.replicate 1 ⟨2, c, Q, 1 / 10 ^ 7, 1 / 10 ^ 5, 200, 200⟩)) := by
  have hnd : ∀ e ∈ [(⟨![0, 0], !![2, 1; 1, 2], stdProps⟩ : EllN 2), ⟨![1, 1], !![8, 4; 4, 8], stdProps⟩], e.NonDeg := by
    intro e he
    simp only [List.mem_cons, List.not_mem_nil, or_false] at he
    rcases he with rfl | rfl <;> (refine nonDeg_two _ _ stdProps_ok ?_ ?_ <;> (unfold stdProps; norm_num))
  obtain ⟨c, Q, -, h, -⟩ := C106 E G L stdProps stdProps_ok two_ne_zero _ (by simp) hnd (by
      intro e he f hf
      simp only [List.mem_cons, List.not_mem_nil, or_false] at he hf
      have h4 : (!![8, 4; 4, 8] : Matrix (Fin 2) (Fin 2) ℝ) = (4 : ℝ) • !![2, 1; 1, 2] := by
        ext i j; fin_cases i <;> fin_cases j <;> simp <;> norm_num
      rcases he with rfl | rfl <;> rcases hf with rfl | rfl
      · exact ⟨1, by simp⟩
      · exact ⟨4, h4⟩
      · exact ⟨1 / 4, by simp only [h4, smul_smul]; norm_num⟩
      · exact ⟨1, by simp⟩) (colMat ![1, 2]) (by
      intro j h
      have := congrFun h 0
      simp [colMat] at this)
  exact ⟨c, Q, h⟩

/-- `C105` applies to the ellipses `[[2, 1], [1, 2]]` and `[[3, -1], [-1, 3]]`. -/
example (E : Eigh) (G : Eig) (L : Lstsq) : ∃ (rs : List EllObj) (ws : List VolEntry),
    minksumEa E G L stdProps [⟨2, ![0, 0], !![2, 1; 1, 2], 1 / 10 ^ 7, 1 / 10 ^ 5, 200, 200⟩,
      ⟨2, ![1, 1], !![3, -1; -1, 3], 1 / 10 ^ 7, 1 / 10 ^ 5, 200, 200⟩] (colMat ![1, 2]) = .ok (Arr.vec rs) ∧ rs.length = 1 ∧
    Ell.volume E rs = .ok ws := by
  have hnd : ∀ e ∈ [(⟨![0, 0], !![2, 1; 1, 2], stdProps⟩ : EllN 2), ⟨![1, 1], !![3, -1; -1, 3], stdProps⟩], e.NonDeg := by
    intro e he
    simp only [List.mem_cons, List.not_mem_nil, or_false] at he
    rcases he with rfl | rfl <;> (refine nonDeg_two _ _ stdProps_ok ?_ ?_ <;> (unfold stdProps; norm_num))
  obtain ⟨rs, -, ws, h1, h2, -, h3, -⟩ := C105 E G L stdProps stdProps_ok two_ne_zero _ (by simp) hnd
    ⟨_, List.mem_cons_self, le_refl _⟩ (colMat ![1, 2]) (by
      intro j h
      have := congrFun h 0
      simp [colMat] at this)
  exact ⟨rs, ws, h1, h2, h3⟩

end Ellipy.Ell
