import Verif.Proofs.MinksumEq
import Verif.Spec.EllHeap

/-! Property theorems C100: the external approximation behaves like the Minkowski sum under rearrangements of the sum. -/

namespace Ellipy.Ell
open Matrix Ellipy.LA

/-- **C100**: the order of the ellipsoids does not matter. -/
theorem C100_perm (E : Eigh) (G : Eig) (L : Lstsq) (p : PropVals) (hp : p.ok) {n k : ℕ} (hn : n ≠ 0) (es fs : List (EllN n))
    (hperm : es.Perm fs) (h2 : 2 ≤ es.length) (hes : ∀ e ∈ es, e.NonDeg) (M : Matrix (Fin n) (Fin k) ℝ) (hM : ∀ j, (fun i => M i j) ≠ 0) :
    minksumEa E G L p (fs.map EllN.obj) M = minksumEa E G L p (es.map EllN.obj) M := by
  rw [minksumEa_eq E G L p hp hn es h2 hes M hM,
    minksumEa_eq E G L p hp hn fs (by rwa [← hperm.length_eq]) (fun e he => hes e (hperm.mem_iff.2 he)) M hM]
  have hs : ∀ v, eaShape fs v = eaShape es v := by
    intro v
    unfold eaShape
    rw [(hperm.map _).sum_eq, (hperm.map fun e => (1 / Real.sqrt (v ⬝ᵥ e.Q *ᵥ v)) • e.Q).sum_eq]
  rw [(hperm.map EllN.c).sum_eq]
  simp only [hs]

private theorem sum_map_smul {α : Type} {n : ℕ} (s : ℝ) (f : α → Matrix (Fin n) (Fin n) ℝ) (l : List α) :
    (l.map fun a => s • f a).sum = s • (l.map f).sum := by
  induction l with
  | nil => simp
  | cons a l ih => simp [ih, smul_add]

private theorem sum_map_mul {α : Type} (s : ℝ) (f : α → ℝ) (l : List α) : (l.map fun a => s * f a).sum = s * (l.map f).sum := by
  induction l with
  | nil => simp
  | cons a l ih => simp [ih, mul_add]

/-- **C100**: only the line of a direction matters, neither its length nor its sign. -/
theorem C100_scale (E : Eigh) (G : Eig) (L : Lstsq) (p : PropVals) (hp : p.ok) {n k : ℕ} (hn : n ≠ 0) (es : List (EllN n))
    (h2 : 2 ≤ es.length) (hes : ∀ e ∈ es, e.NonDeg) (M : Matrix (Fin n) (Fin k) ℝ) (hM : ∀ j, (fun i => M i j) ≠ 0) (s : Fin k → ℝ)
    (hs : ∀ j, s j ≠ 0) :
    minksumEa E G L p (es.map EllN.obj) (of fun i j => s j * M i j) = minksumEa E G L p (es.map EllN.obj) M := by
  have hM' : ∀ j, (fun i => (of fun i j => s j * M i j) i j) ≠ 0 := by
    intro j h
    refine hM j (funext fun i => ?_)
    have := congrFun h i
    exact (mul_eq_zero.1 this).resolve_left (hs j)
  rw [minksumEa_eq E G L p hp hn es h2 hes M hM, minksumEa_eq E G L p hp hn es h2 hes _ hM']
  have key : ∀ (a : ℝ) (v : Fin n → ℝ), a ≠ 0 → eaShape es (a • v) = eaShape es v := by
    intro a v ha
    have hq : ∀ e : EllN n, Real.sqrt ((a • v) ⬝ᵥ e.Q *ᵥ (a • v)) = |a| * Real.sqrt (v ⬝ᵥ e.Q *ᵥ v) := by
      intro e
      rw [smul_dotProduct, mulVec_smul, dotProduct_smul, smul_eq_mul, smul_eq_mul, ← mul_assoc, ← sq, Real.sqrt_mul (sq_nonneg a),
        Real.sqrt_sq_eq_abs]
    have hq' : ∀ e : EllN n, (1 / Real.sqrt ((a • v) ⬝ᵥ e.Q *ᵥ (a • v))) • e.Q = |a|⁻¹ • ((1 / Real.sqrt (v ⬝ᵥ e.Q *ᵥ v)) • e.Q) := by
      intro e
      rw [hq, smul_smul, one_div, one_div, mul_inv]
    unfold eaShape
    simp only [hq', sum_map_smul]
    simp only [hq, sum_map_mul]
    rw [smul_smul, mul_comm |a|, mul_assoc, mul_inv_cancel₀ (abs_ne_zero.2 ha), mul_one]
  have : ∀ j, eaShape es (fun i => (of fun i j => s j * M i j) i j) = eaShape es (fun i => M i j) := fun j => key (s j) _ (hs j)
  simp only [this]

theorem eaShape_append {n : ℕ} (es fs : List (EllN n)) (v : Fin n → ℝ) (hv : v ≠ 0) (hes : ∀ e ∈ es, e.NonDeg) (hne : es ≠ []) (c : Fin n → ℝ)
    (p : PropVals) : eaShape (⟨c, eaShape es v, p⟩ :: fs) v = eaShape (es ++ fs) v := by
  have hpos : 0 < (es.map fun e => Real.sqrt (v ⬝ᵥ e.Q *ᵥ v)).sum := by
    obtain ⟨e, es, rfl⟩ := List.exists_cons_of_ne_nil hne
    rw [List.map_cons, List.sum_cons]
    have h1 := Real.sqrt_pos.2 ((hes e (by simp)).pos hv)
    have h2 := list_sum_pos es (fun e => Real.sqrt (v ⬝ᵥ e.Q *ᵥ v)) fun _ _ => Real.sqrt_nonneg _
    linarith
  have hw : Real.sqrt (v ⬝ᵥ eaShape es v *ᵥ v) = (es.map fun e => Real.sqrt (v ⬝ᵥ e.Q *ᵥ v)).sum := by
    have : v ⬝ᵥ eaShape es v *ᵥ v = ((es.map fun e => Real.sqrt (v ⬝ᵥ e.Q *ᵥ v)).sum) ^ 2 := by
      unfold eaShape
      rw [smul_mulVec, dotProduct_smul, smul_eq_mul, sq]
      congr 1
      have : ∀ l : List (EllN n), (∀ e ∈ l, e.NonDeg) → v ⬝ᵥ ((l.map fun e => (1 / Real.sqrt (v ⬝ᵥ e.Q *ᵥ v)) • e.Q).sum) *ᵥ v =
          (l.map fun e => Real.sqrt (v ⬝ᵥ e.Q *ᵥ v)).sum := by
        intro l hl
        induction l with
        | nil => simp
        | cons e l ih =>
          rw [List.map_cons, List.sum_cons, List.map_cons, List.sum_cons, add_mulVec, dotProduct_add, ih fun x hx => hl x (by simp [hx]),
            smul_mulVec, dotProduct_smul, smul_eq_mul]
          have h1 := (hl e (by simp)).pos hv
          have h2 := Real.sq_sqrt h1.le
          have h3 := (Real.sqrt_pos.2 h1).ne'
          congr 1
          rw [one_div, inv_mul_eq_div, div_eq_iff h3, ← sq, h2]
      exact this es hes
    rw [this, Real.sqrt_sq hpos.le]
  have h1 : (⟨c, eaShape es v, p⟩ : EllN n).Q = eaShape es v := rfl
  rw [eaShape, List.map_cons, List.sum_cons, List.map_cons, List.sum_cons, h1, hw]
  have h2 : (1 / (es.map fun e => Real.sqrt (v ⬝ᵥ e.Q *ᵥ v)).sum) • eaShape es v = (es.map fun e => (1 / Real.sqrt (v ⬝ᵥ e.Q *ᵥ v)) • e.Q).sum := by
    unfold eaShape
    rw [smul_smul, one_div, inv_mul_cancel₀ hpos.ne', one_smul]
  rw [h2, eaShape, List.map_append, List.sum_append, List.map_append, List.sum_append]

theorem eaShape_nonDeg {n : ℕ} (es : List (EllN n)) (v : Fin n → ℝ) (hv : v ≠ 0) (hes : ∀ e ∈ es, e.NonDeg) (c : Fin n → ℝ)
    (p : PropVals) (hp : p.ok) (htol : ∃ e ∈ es, p.absTol ≤ e.props.absTol) (hP : IsPSD (eaShape es v)) : EllN.NonDeg ⟨c, eaShape es v, p⟩ := by
  refine ⟨hp, hP.1, fun x hx => ?_⟩
  obtain ⟨e, he, ht⟩ := htol
  have h1 := (hes e he).2.2 x hx
  have h2 : p.absTol * (x ⬝ᵥ x) ≤ e.props.absTol * (x ⬝ᵥ x) := mul_le_mul_of_nonneg_right ht (dot_self_pos hx).le
  refine lt_of_le_of_lt h2 (lt_of_lt_of_le h1 ?_)
  show _ ≤ x ⬝ᵥ eaShape es v *ᵥ x
  have h3 : ∀ l : List (EllN n), x ⬝ᵥ ((l.map fun e => (1 / Real.sqrt (v ⬝ᵥ e.Q *ᵥ v)) • e.Q).sum) *ᵥ x =
      (l.map fun e => (1 / Real.sqrt (v ⬝ᵥ e.Q *ᵥ v)) * (x ⬝ᵥ e.Q *ᵥ x)).sum := by
    intro l
    induction l with
    | nil => simp
    | cons e l ih =>
      rw [List.map_cons, List.sum_cons, List.map_cons, List.sum_cons, add_mulVec, dotProduct_add, ih, smul_mulVec, dotProduct_smul, smul_eq_mul]
  unfold eaShape
  rw [smul_mulVec, dotProduct_smul, smul_eq_mul, h3]
  have hq := Real.sqrt_pos.2 ((hes e he).pos hv)
  have hx0 : 0 ≤ x ⬝ᵥ e.Q *ᵥ x := (hes e he).psd.2.2 x
  have h4 : Real.sqrt (v ⬝ᵥ e.Q *ᵥ v) ≤ (es.map fun e => Real.sqrt (v ⬝ᵥ e.Q *ᵥ v)).sum :=
    List.single_le_sum (by
      intro y hy
      obtain ⟨f, -, rfl⟩ := List.mem_map.1 hy
      exact Real.sqrt_nonneg _) _ (List.mem_map.2 ⟨e, he, rfl⟩)
  have h5 : (1 / Real.sqrt (v ⬝ᵥ e.Q *ᵥ v)) * (x ⬝ᵥ e.Q *ᵥ x) ≤ (es.map fun e => (1 / Real.sqrt (v ⬝ᵥ e.Q *ᵥ v)) * (x ⬝ᵥ e.Q *ᵥ x)).sum :=
    List.single_le_sum (by
      intro y hy
      obtain ⟨f, hf, rfl⟩ := List.mem_map.1 hy
      exact mul_nonneg (one_div_nonneg.2 (Real.sqrt_nonneg _)) ((hes f hf).psd.2.2 x)) _ (List.mem_map.2 ⟨e, he, rfl⟩)
  calc x ⬝ᵥ e.Q *ᵥ x = Real.sqrt (v ⬝ᵥ e.Q *ᵥ v) * ((1 / Real.sqrt (v ⬝ᵥ e.Q *ᵥ v)) * (x ⬝ᵥ e.Q *ᵥ x)) := by
        rw [← mul_assoc, mul_one_div_cancel hq.ne', one_mul]
    _ ≤ _ := mul_le_mul h4 h5 (mul_nonneg (one_div_nonneg.2 hq.le) hx0) (hq.le.trans h4)

/-- **C100**: summands can be added in groups: the approximation of a part of the sum can take the place of the part. -/
theorem C100_assoc (E : Eigh) (G : Eig) (L : Lstsq) (p : PropVals) (hp : p.ok) {n : ℕ} (hn : n ≠ 0) (es fs : List (EllN n))
    (h2 : 2 ≤ es.length) (h1 : 1 ≤ fs.length) (hes : ∀ e ∈ es, e.NonDeg) (hfs : ∀ e ∈ fs, e.NonDeg)
    (htol : ∃ e ∈ es, p.absTol ≤ e.props.absTol) (l : Fin n → ℝ) (hl : l ≠ 0) :
    ∃ r, minksumEa E G L p (es.map EllN.obj) (colMat l) = .ok (Arr.vec [r]) ∧
      minksumEa E G L p (r :: fs.map EllN.obj) (colMat l) = minksumEa E G L p ((es ++ fs).map EllN.obj) (colMat l) := by
  have hl' : ∀ j : Fin 1, (fun i => colMat l i j) ≠ 0 := fun _ => hl
  refine ⟨⟨n, (es.map EllN.c).sum, eaShape es l, p.absTol, p.relTol, p.n2d, p.n3d⟩, minksumEa_eq E G L p hp hn es h2 hes (colMat l) hl', ?_⟩
  have hnd := eaShape_nonDeg es l hl hes (es.map EllN.c).sum p hp htol (eaDir_eq E G L hp hn hl es hes 0).2
  have e1 := minksumEa_eq E G L p hp hn (⟨(es.map EllN.c).sum, eaShape es l, p⟩ :: fs) (by simpa using h1) (by
    intro e he
    rcases List.mem_cons.1 he with rfl | he
    · exact hnd
    · exact hfs e he) (colMat l) hl'
  have e2 := minksumEa_eq E G L p hp hn (es ++ fs) (by rw [List.length_append]; omega) (by
    intro e he
    rcases List.mem_append.1 he with he | he
    · exact hes e he
    · exact hfs e he) (colMat l) hl'
  refine e1.trans (Eq.trans ?_ e2.symm)
  have hs : ∀ j : Fin 1, eaShape (⟨(es.map EllN.c).sum, eaShape es l, p⟩ :: fs) (fun i => colMat l i j) = eaShape (es ++ fs) (fun i => colMat l i j) :=
    fun _ => eaShape_append es fs l hl hes (by rintro rfl; simp at h2) _ p
  simp only [hs, List.map_cons, List.sum_cons, List.map_append, List.sum_append]

/-- **C100**: the approximation of a sum of reflected ellipsoids is the reflected approximation. -/
theorem C100_neg (E : Eigh) (G : Eig) (L : Lstsq) (p : PropVals) (hp : p.ok) {n k : ℕ} (hn : n ≠ 0) (es : List (EllN n))
    (h2 : 2 ≤ es.length) (hes : ∀ e ∈ es, e.NonDeg) (htol : ∀ e ∈ es, p.absTol ≤ e.props.absTol)
    (M : Matrix (Fin n) (Fin k) ℝ) (hM : ∀ j, (fun i => M i j) ≠ 0) :
    ∃ rs : List EllObj, minksumEa E G L p (es.map EllN.obj) M = .ok (Arr.vec rs) ∧
      minksumEa E G L p (es.map fun e => negVal p e.obj) M = .ok (Arr.vec (rs.map (negVal p))) := by
  refine ⟨_, minksumEa_eq E G L p hp hn es h2 hes M hM, ?_⟩
  let ng : EllN n → EllN n := fun e => ⟨-e.c, e.Q, p⟩
  have h := minksumEa_eq E G L p hp hn (es.map ng) (by rwa [List.length_map]) (by
    intro f hf
    obtain ⟨e, he, rfl⟩ := List.mem_map.1 hf
    refine ⟨hp, (hes e he).2.1, fun x hx => lt_of_le_of_lt ?_ ((hes e he).2.2 x hx)⟩
    exact mul_le_mul_of_nonneg_right (htol e he) (dot_self_pos hx).le) M hM
  have e1 : (es.map ng).map EllN.obj = es.map fun e => negVal p e.obj := by rw [List.map_map]; rfl
  have e2 : ((es.map ng).map EllN.c).sum = -(es.map EllN.c).sum := by
    rw [List.map_map]
    have : ∀ l : List (EllN n), (l.map (EllN.c ∘ ng)).sum = -(l.map EllN.c).sum := by
      intro l
      induction l with
      | nil => simp
      | cons e l ih => rw [List.map_cons, List.sum_cons, ih, List.map_cons, List.sum_cons, neg_add]; rfl
    exact this es
  have e3 : ∀ v, eaShape (es.map ng) v = eaShape es v := by
    intro v
    unfold eaShape
    rw [List.map_map, List.map_map]; rfl
  rw [e1, e2] at h
  simp only [e3] at h
  rw [h, List.map_ofFn]
  rfl

/-- **C100**: approximation commutes with projection: for directions in the subspace the projection of the approximation is the
approximation of the sum of the projections. -/
theorem C100_proj (E : Eigh) (G : Eig) (L : Lstsq) (p : PropVals) (hp : p.ok) {n m k : ℕ} (hn : n ≠ 0) (hm : m ≠ 0) (es : List (EllN n))
    (h2 : 2 ≤ es.length) (hes : ∀ e ∈ es, e.NonDeg) (B : Matrix (Fin n) (Fin m) ℝ) (hB : (unitCols B)ᵀ * unitCols B = 1)
    (W : Matrix (Fin m) (Fin k) ℝ) (hW : ∀ j, (fun i => W i j) ≠ 0) :
    ∃ rs : Fin k → EllObj, ∃ hr : ∀ j, (rs j).n = n, minksumEa E G L p (es.map EllN.obj) (unitCols B * W) = .ok (Arr.vec (List.ofFn rs)) ∧
      minksumEa E G L p (es.map fun e => projVal e.obj B rfl) W = .ok (Arr.vec (List.ofFn fun j => projVal (rs j) B (hr j))) := by
  set U := unitCols B with hU
  have hlen : ∀ x : Fin m → ℝ, (U *ᵥ x) ⬝ᵥ (U *ᵥ x) = x ⬝ᵥ x := by
    intro x
    rw [dotProduct_mulVec, vecMul_mulVec, hB, vecMul_one]
  have hcol : ∀ j, (fun i => (U * W) i j) = U *ᵥ (fun i => W i j) := fun j => rfl
  have hUW : ∀ j, (fun i => (U * W) i j) ≠ 0 := by
    intro j h
    rw [hcol] at h
    have h1 := hlen fun i => W i j
    rw [h, dotProduct_zero] at h1
    exact hW j (by
      by_contra h0
      exact absurd (dot_self_pos h0) (by rw [← h1]; exact lt_irrefl _))
  have hquad : ∀ (Q : Matrix (Fin n) (Fin n) ℝ) (x : Fin m → ℝ), x ⬝ᵥ (Uᵀ * Q * U) *ᵥ x = (U *ᵥ x) ⬝ᵥ Q *ᵥ (U *ᵥ x) := by
    intro Q x
    rw [← mulVec_mulVec, ← mulVec_mulVec, dotProduct_mulVec, vecMul_transpose]
  let pr : EllN n → EllN m := fun e => ⟨Uᵀ *ᵥ e.c, Uᵀ * e.Q * U, e.props⟩
  refine ⟨fun j => ⟨n, (es.map EllN.c).sum, eaShape es (fun i => (U * W) i j), p.absTol, p.relTol, p.n2d, p.n3d⟩, fun _ => rfl,
    minksumEa_eq E G L p hp hn es h2 hes _ hUW, ?_⟩
  have h := minksumEa_eq E G L p hp hm (es.map pr) (by rwa [List.length_map]) (by
    intro f hf
    obtain ⟨e, he, rfl⟩ := List.mem_map.1 hf
    refine ⟨(hes e he).1, ?_, fun x hx => ?_⟩
    · show (Uᵀ * e.Q * U)ᵀ = Uᵀ * e.Q * U
      rw [transpose_mul, transpose_mul, transpose_transpose, (hes e he).2.1, Matrix.mul_assoc]
    · show e.props.absTol * (x ⬝ᵥ x) < x ⬝ᵥ (Uᵀ * e.Q * U) *ᵥ x
      rw [hquad, ← hlen]
      refine (hes e he).2.2 _ fun h0 => hx ?_
      have h1 := hlen x
      rw [h0, dotProduct_zero] at h1
      by_contra h0
      exact absurd (dot_self_pos h0) (by rw [← h1]; exact lt_irrefl _)) W hW
  have e1 : (es.map pr).map EllN.obj = es.map fun e => projVal e.obj B rfl := by rw [List.map_map]; rfl
  have e2 : ((es.map pr).map EllN.c).sum = Uᵀ *ᵥ (es.map EllN.c).sum := by
    rw [List.map_map]
    have : ∀ l : List (EllN n), (l.map (EllN.c ∘ pr)).sum = Uᵀ *ᵥ (l.map EllN.c).sum := by
      intro l
      induction l with
      | nil => simp
      | cons e l ih => rw [List.map_cons, List.sum_cons, ih, List.map_cons, List.sum_cons, mulVec_add]; rfl
    exact this es
  have e3 : ∀ w, eaShape (es.map pr) w = Uᵀ * eaShape es (U *ᵥ w) * U := by
    intro w
    unfold eaShape
    rw [List.map_map, List.map_map, Matrix.mul_smul, Matrix.smul_mul]
    have hf : ((fun e : EllN m => Real.sqrt (w ⬝ᵥ e.Q *ᵥ w)) ∘ pr) = fun e : EllN n => Real.sqrt ((U *ᵥ w) ⬝ᵥ e.Q *ᵥ (U *ᵥ w)) := by
      funext e
      show Real.sqrt (w ⬝ᵥ (Uᵀ * e.Q * U) *ᵥ w) = _
      rw [hquad]
    rw [hf]
    congr 1
    have : ∀ l : List (EllN n), (l.map ((fun e : EllN m => (1 / Real.sqrt (w ⬝ᵥ e.Q *ᵥ w)) • e.Q) ∘ pr)).sum =
        Uᵀ * (l.map fun e => (1 / Real.sqrt ((U *ᵥ w) ⬝ᵥ e.Q *ᵥ (U *ᵥ w))) • e.Q).sum * U := by
      intro l
      induction l with
      | nil => simp
      | cons e l ih =>
        rw [List.map_cons, List.sum_cons, ih, List.map_cons, List.sum_cons, Matrix.mul_add, Matrix.add_mul]
        congr 1
        show (1 / Real.sqrt (w ⬝ᵥ (Uᵀ * e.Q * U) *ᵥ w)) • (Uᵀ * e.Q * U) = _
        rw [hquad, Matrix.mul_smul, Matrix.smul_mul]
    exact this es
  rw [e1, e2] at h
  simp only [e3] at h
  rw [h]
  rfl

/-- The theorems apply: two tilted ellipses and a disc with the standard properties. -/
example (E : Eigh) (G : Eig) (L : Lstsq) : ∃ es : List (EllN 2), es.length = 3 ∧ (∀ e ∈ es, e.NonDeg) ∧
    (∃ r, minksumEa E G L stdProps ((es.take 2).map EllN.obj) (colMat ![1, 2]) = .ok (Arr.vec [r]) ∧
      minksumEa E G L stdProps (r :: (es.drop 2).map EllN.obj) (colMat ![1, 2]) = minksumEa E G L stdProps (es.map EllN.obj) (colMat ![1, 2])) ∧
    minksumEa E G L stdProps (es.reverse.map EllN.obj) (colMat ![1, 2]) = minksumEa E G L stdProps (es.map EllN.obj) (colMat ![1, 2]) := by
  let es : List (EllN 2) := [⟨![0, 0], !![2, 1; 1, 2], stdProps⟩, ⟨![1, 1], !![3, -1; -1, 3], stdProps⟩, ⟨![5, 1], !![1, 0; 0, 1], stdProps⟩]
  have hnd : ∀ e ∈ es, e.NonDeg := by
    intro e he
    simp only [es, List.mem_cons, List.not_mem_nil, or_false] at he
    rcases he with rfl | rfl | rfl <;> refine nonDeg_two _ _ stdProps_ok ?_ ?_ <;> (unfold stdProps; norm_num)
  have hl : (![1, 2] : Fin 2 → ℝ) ≠ 0 := by
    intro h
    have := congrFun h 0
    simp at this
  refine ⟨es, rfl, hnd, ?_, ?_⟩
  · exact C100_assoc E G L stdProps stdProps_ok two_ne_zero (es.take 2) (es.drop 2) le_rfl le_rfl
      (fun e he => hnd e (List.mem_of_mem_take he)) (fun e he => hnd e (List.mem_of_mem_drop he))
      ⟨_, List.mem_cons_self, le_rfl⟩ ![1, 2] hl
  · exact C100_perm E G L stdProps stdProps_ok two_ne_zero es es.reverse (List.reverse_perm es).symm (by simp [es]) hnd (colMat ![1, 2]) fun _ => hl

end Ellipy.Ell
