import Verif.Props.EllEigs
import Verif.Props.EllHeap
import Verif.Props.Rho

/-! Property theorem C111 (projections against each other and against `rho`, `trace`, `min_eig`, `max_eig`). -/

namespace Ellipy.Ell
open Matrix Ellipy.LA

private theorem reach_step {E : Eigh} {h : Heap} (hr : Reachable E h) (c : Call) : Reachable E (step E h c) := by
  obtain ⟨p, calls, rfl⟩ := hr
  exact ⟨p, calls ++ [c], by unfold run; rw [List.foldl_append]; rfl⟩

private theorem pair_left {α β : Type} {R : α → β → Prop} {l : List α} {u : List β} (h : List.Forall₂ R l u) {a : α} (ha : a ∈ l) :
    ∃ b ∈ u, R a b := by
  induction h with
  | nil => simp at ha
  | cons hab _ ih =>
    rcases List.mem_cons.mp ha with rfl | ha
    · exact ⟨_, by simp, hab⟩
    · obtain ⟨b, hb, hr⟩ := ih ha
      exact ⟨b, by simp [hb], hr⟩

private theorem pair_right {α β : Type} {R : α → β → Prop} {l : List α} {u : List β} (h : List.Forall₂ R l u) {b : β} (hb : b ∈ u) :
    ∃ a ∈ l, R a b := by
  obtain ⟨a, ha, h⟩ := pair_left (List.Forall₂.flip h) hb
  exact ⟨a, ha, h⟩

/-- **C111**: when `get_projection` raises: exactly as `projection`, except that repetitions in the array are harmless. -/
theorem C111_raises_iff (E : Eigh) (h : Heap) (hr : Reachable E h) {n k : ℕ} (B : Matrix (Fin n) (Fin k) ℝ) (os : Arr ℕ)
    (hpsd : ∀ o ∈ os.data, ∃ e, val h o = some e ∧ IsPSD e.Q) :
    Raises (getProjection E B h os).1 ↔ os.data ≠ [] ∧ (¬ k ≤ n ∨ (∃ o ∈ os.data, ∃ e, val h o = some e ∧ e.n ≠ n) ∨
      (∃ i j, i ≠ j ∧ ∀ o ∈ os.data, ∀ e, val h o = some e → e.absTol < (Bᵀ * B) i j) ∨ ∃ j, ∀ i, B i j = 0) := by
  have hlt : ∀ o ∈ os.data, o < h.objs.length := by
    intro o ho
    obtain ⟨e, he, -⟩ := hpsd o ho
    by_contra hc
    unfold val at he
    rw [List.getElem?_eq_none (by omega)] at he
    cases he
  obtain ⟨cs, h', hc, -, hnd, -, hall⟩ := C37_get_copy E h hr os hlt
  have hr' : Reachable E h' := by
    have := reach_step hr (.getCopy os)
    simp only [step, hc] at this
    exact this
  have hg : getProjection E B h os = projection E B h' cs := by unfold getProjection; rw [hc]
  rw [hg, (C35_raises_partial E h' hr' B cs hnd (by
    intro o ho
    obtain ⟨q, hq, e, h1, -, h2⟩ := pair_right hall ho
    obtain ⟨e', h3, h4⟩ := hpsd q hq
    rw [h1] at h3
    injection h3 with h3
    exact ⟨e, h2, h3 ▸ h4⟩)).1]
  have hlen := hall.length_eq
  have hne : cs.data ≠ [] ↔ os.data ≠ [] := by
    rw [← List.length_pos_iff, ← List.length_pos_iff, hlen]
  rw [hne]
  refine and_congr_right fun _ => or_congr_right (or_congr ?_ (or_congr_left ?_))
  · constructor
    · rintro ⟨o, ho, e, h1, h2⟩
      obtain ⟨q, hq, e', h3, -, h4⟩ := pair_right hall ho
      rw [h1] at h4
      injection h4 with h4
      exact ⟨q, hq, e', h3, h4 ▸ h2⟩
    · rintro ⟨o, ho, e, h1, h2⟩
      obtain ⟨q, hq, e', h3, -, h4⟩ := pair_left hall ho
      rw [h1] at h3
      injection h3 with h3
      exact ⟨q, hq, e, h3 ▸ h4, h2⟩
  · refine exists_congr fun i => exists_congr fun j => and_congr_right fun _ => ?_
    constructor
    · intro hh o ho e h1
      obtain ⟨q, hq, e', h3, -, h4⟩ := pair_left hall ho
      rw [h1] at h3
      injection h3 with h3
      exact hh q hq e (h3 ▸ h4)
    · intro hh o ho e h1
      obtain ⟨q, hq, e', h3, -, h4⟩ := pair_right hall ho
      rw [h1] at h4
      injection h4 with h4
      exact hh q hq e (h4 ▸ h3)

private theorem gram_mul {n m k : ℕ} {U : Matrix (Fin n) (Fin m) ℝ} (hU : Uᵀ * U = 1) (C : Matrix (Fin m) (Fin k) ℝ) : (U * C)ᵀ * (U * C) = Cᵀ * C := by
  rw [transpose_mul, Matrix.mul_assoc, ← Matrix.mul_assoc Uᵀ, hU, Matrix.one_mul]

private theorem gram_self {n k : ℕ} (B : Matrix (Fin n) (Fin k) ℝ) (j : Fin k) : (Bᵀ * B) j j = ∑ i, B i j ^ 2 := by
  rw [mul_apply]
  exact Finset.sum_congr rfl fun i _ => by rw [transpose_apply, pow_two]

private theorem unit_mul {n m k : ℕ} {U : Matrix (Fin n) (Fin m) ℝ} (hU : Uᵀ * U = 1) (C : Matrix (Fin m) (Fin k) ℝ) : unitCols (U * C) = U * unitCols C := by
  ext i j
  have h := gram_self (U * C) j
  rw [gram_mul hU, gram_self] at h
  simp only [unitCols, of_apply, mul_apply] at h ⊢
  rw [← h, Finset.sum_div]
  exact Finset.sum_congr rfl fun t _ => by rw [mul_div_assoc]

private theorem proj_proj {n m k : ℕ} (e : EllObj) (he : e.n = n) (B : Matrix (Fin n) (Fin m) ℝ) (hB : (unitCols B)ᵀ * unitCols B = 1)
    (C : Matrix (Fin m) (Fin k) ℝ) : projVal (projVal e B he) C rfl = projVal e (unitCols B * C) he := by
  subst he
  unfold projVal
  simp only
  rw [unit_mul hB, transpose_mul, mulVec_mulVec]
  simp only [Matrix.mul_assoc]

private theorem projVal_psd {n k : ℕ} {e : EllObj} (he : e.n = n) (h : IsPSD e.Q) (B : Matrix (Fin n) (Fin k) ℝ) : IsPSD (projVal e B he).Q := by
  subst he
  exact psd_proj (unitCols B) h

private theorem not_raises {α : Type} {x : Py α} (h : ¬ Raises x) : ∃ y, x = .ok y := by
  cases x with
  | error e => exact absurd ⟨e, rfl⟩ h
  | ok y => exact ⟨y, rfl⟩

/-- **C111**: a projection of a projection is a projection: for a basis `B` with orthogonal columns and a basis `C` of the space of
coordinates, if `get_projection` accepts `B` and then `C` for the results, then it accepts the basis `U C` for the given ellipsoids, where
the columns of `U` are those of `B` divided by their lengths, and gives the same ellipsoids. -/
theorem C111_compose (E : Eigh) (h : Heap) (hr : Reachable E h) {n m k : ℕ} (B : Matrix (Fin n) (Fin m) ℝ) (C : Matrix (Fin m) (Fin k) ℝ)
    (os : Arr ℕ) (hpsd : ∀ o ∈ os.data, ∃ e, val h o = some e ∧ IsPSD e.Q) (hB : ∀ i j, i ≠ j → (Bᵀ * B) i j = 0) (rs ts : Arr ℕ)
    (h1 : (getProjection E B h os).1 = .ok rs) (h2 : (getProjection E C (getProjection E B h os).2 rs).1 = .ok ts) :
    ∃ us, (getProjection E (unitCols B * C) h os).1 = .ok us ∧
      List.Forall₂ (fun t u => val (getProjection E C (getProjection E B h os).2 rs).2 t = val (getProjection E (unitCols B * C) h os).2 u)
        ts.data us.data := by
  have hlt : ∀ o ∈ os.data, o < h.objs.length := by
    intro o ho
    obtain ⟨e, he, -⟩ := hpsd o ho
    by_contra hc
    unfold val at he
    rw [List.getElem?_eq_none (by omega)] at he
    cases he
  have hr1 : Reachable E (getProjection E B h os).2 := reach_step hr (.getProjection n m B os)
  obtain ⟨-, -, -, hall1⟩ := (C35_get_projection E h hr B os hlt).2 rs h1
  have hpsd1 : ∀ r ∈ rs.data, ∃ e, val (getProjection E B h os).2 r = some e ∧ IsPSD e.Q := by
    intro r hr
    obtain ⟨o, ho, e, he, hv, hv'⟩ := pair_right hall1 hr
    obtain ⟨e', hv2, hp⟩ := hpsd o ho
    rw [hv] at hv2
    injection hv2 with hv2
    subst hv2
    exact ⟨_, hv', projVal_psd he hp B⟩
  have hlt1 : ∀ r ∈ rs.data, r < (getProjection E B h os).2.objs.length := by
    intro o ho
    obtain ⟨e, he, -⟩ := hpsd1 o ho
    by_contra hc
    unfold val at he
    rw [List.getElem?_eq_none (by omega)] at he
    cases he
  obtain ⟨-, -, -, hall2⟩ := (C35_get_projection E _ hr1 C rs hlt1).2 ts h2
  have n1 : ¬ Raises (getProjection E B h os).1 := by rw [h1]; rintro ⟨x, hx⟩; cases hx
  have n2 : ¬ Raises (getProjection E C (getProjection E B h os).2 rs).1 := by rw [h2]; rintro ⟨x, hx⟩; cases hx
  rw [C111_raises_iff E h hr B os hpsd] at n1
  rw [C111_raises_iff E _ hr1 C rs hpsd1] at n2
  by_cases hnil : os.data = []
  · have hrnil : rs.data = [] := by rw [hnil] at hall1; exact List.forall₂_nil_left_iff.mp hall1
    have htnil : ts.data = [] := by rw [hrnil] at hall2; exact List.forall₂_nil_left_iff.mp hall2
    obtain ⟨us, hus⟩ := not_raises (x := (getProjection E (unitCols B * C) h os).1) (by
      rw [C111_raises_iff E h hr _ os hpsd]; exact fun h => h.1 hnil)
    obtain ⟨-, -, -, hall3⟩ := (C35_get_projection E h hr _ os hlt).2 us hus
    refine ⟨us, hus, ?_⟩
    rw [hnil] at hall3
    rw [htnil, List.forall₂_nil_left_iff.mp hall3]
    exact .nil
  · have hrn : rs.data ≠ [] := by
      intro h0
      rw [h0] at hall1
      exact hnil (List.forall₂_nil_right_iff.mp hall1)
    simp only [ne_eq, hnil, hrn, not_false_eq_true, true_and, not_or, not_exists, not_and, not_not, not_forall] at n1 n2
    obtain ⟨a1, a2, -, a4⟩ := n1
    obtain ⟨b1, b2, b3, b4⟩ := n2
    have hU := unitCols_orth a4 hB
    have hok : ¬ Raises (getProjection E (unitCols B * C) h os).1 := by
      rw [C111_raises_iff E h hr _ os hpsd]
      rintro ⟨-, hx | ⟨o, ho, e, hv, hx⟩ | ⟨i, j, hij, hx⟩ | ⟨j, hx⟩⟩
      · exact hx (b1.trans a1)
      · exact hx (a2 o ho e hv)
      · obtain ⟨r, hr, e, hv, hle⟩ := b3 i j hij
        obtain ⟨o, ho, e', he', hv1, hv2⟩ := pair_right hall1 hr
        rw [hv] at hv2
        injection hv2 with hv2
        have := hx o ho e' hv1
        rw [gram_mul hU] at this
        refine hle ?_
        rw [hv2]
        exact this
      · obtain ⟨i, hi⟩ := b4 j
        have h0 := gram_self (unitCols B * C) j
        rw [gram_mul hU, gram_self] at h0
        have : ∑ i, C i j ^ 2 = 0 := by rw [h0]; exact Finset.sum_eq_zero fun i _ => by rw [hx i]; ring
        have := (Finset.sum_eq_zero_iff_of_nonneg (fun i _ => sq_nonneg (C i j))).mp this i (Finset.mem_univ _)
        exact hi (pow_eq_zero_iff (by norm_num) |>.mp this)
    obtain ⟨us, hus⟩ := not_raises hok
    obtain ⟨-, -, -, hall3⟩ := (C35_get_projection E h hr _ os hlt).2 us hus
    refine ⟨us, hus, ?_⟩
    have l1 := hall1.length_eq
    have l2 := hall2.length_eq
    have l3 := hall3.length_eq
    rw [List.forall₂_iff_get] at hall1 hall2 hall3 ⊢
    refine ⟨by omega, fun i hi hi' => ?_⟩
    obtain ⟨e1, he1, v1, v1'⟩ := hall1.2 i (by omega) (by omega)
    obtain ⟨e2, he2, v2, v2'⟩ := hall2.2 i (by omega) hi
    obtain ⟨e3, he3, v3, v3'⟩ := hall3.2 i (by omega) hi'
    rw [v1'] at v2
    injection v2 with v2
    rw [v1] at v3
    injection v3 with v3
    subst v2 v3
    rw [v2', v3', proj_proj e1 he1 B hU C]

/-- The projected ellipsoid. -/
noncomputable def EllN.proj {n k : ℕ} (e : EllN n) (B : Matrix (Fin n) (Fin k) ℝ) : EllN k :=
  ⟨(unitCols B)ᵀ *ᵥ e.c, (unitCols B)ᵀ * e.Q * unitCols B, e.props⟩

theorem proj_obj {n k : ℕ} (e : EllN n) (B : Matrix (Fin n) (Fin k) ℝ) : (e.proj B).obj = projVal e.obj B rfl := rfl

/-- **C111**: the support values of the projection are those of the ellipsoid in the directions of the basis. -/
theorem C111_rho {n m k : ℕ} (e : EllN n) (he : e.PSD) (B : Matrix (Fin n) (Fin m) ℝ) (ls : Fin k → Fin m → ℝ) (d d' : Arr ℝ)
    (hd : IsDirs d [k] fun j => unitCols B *ᵥ ls j) (hd' : IsDirs d' [k] ls) :
    ∃ s b b', rho (Arr.scalar e.obj) d = .ok (s, b) ∧ rho (Arr.scalar (projVal e.obj B rfl)) d' = .ok (s, b') ∧
      IsRho s b (fun _ => e) (fun j => unitCols B *ᵥ ls j) ∧ IsRho s b' (fun _ => e.proj B) ls := by
  obtain ⟨s, b, h1, h2, -, h4⟩ := C40_one_ell (Arr.scalar e.obj) e rfl he d [k] (by simp) _ hd
  obtain ⟨s', b', h1', h2', -, h4'⟩ := C40_one_ell (Arr.scalar (projVal e.obj B rfl)) (e.proj B) rfl ⟨he.1, psd_proj _ he.2⟩ d' [k] (by simp) _ hd'
  have hs : s' = s := by
    have hdat : s'.data = s.data := by
      refine List.ext_getElem? fun i => ?_
      by_cases hi : i < k
      · obtain ⟨r, x, hr, hsup, -⟩ := h2.2.2 ⟨i, hi⟩
        obtain ⟨r', x', hr', hsup', -⟩ := h2'.2.2 ⟨i, hi⟩
        rw [hr, hr']
        have a1 := IsGreatest.unique hsup (ell_support he.2 _)
        have a2 := IsGreatest.unique hsup' (ell_support (psd_proj (unitCols B) he.2) _)
        rw [a1, a2]
        simp only [EllN.proj]
        rw [← mulVec_mulVec, ← mulVec_mulVec, dotProduct_mulVec, dotProduct_mulVec, vecMul_transpose]
      · rw [List.getElem?_eq_none (by rw [h2'.1]; omega), List.getElem?_eq_none (by rw [h2.1]; omega)]
    have hsh : s'.shape = s.shape := by rw [h4, h4']
    cases s; cases s'
    simp only at hdat hsh
    subst hdat hsh
    rfl
  subst hs
  exact ⟨_, b, b', h1, h1', h2, h2'⟩

private theorem quad_proj {n m : ℕ} (Q : Matrix (Fin n) (Fin n) ℝ) (U : Matrix (Fin n) (Fin m) ℝ) (x : Fin m → ℝ) :
    x ⬝ᵥ (Uᵀ * Q * U) *ᵥ x = (U *ᵥ x) ⬝ᵥ Q *ᵥ (U *ᵥ x) := by
  rw [← mulVec_mulVec, ← mulVec_mulVec, dotProduct_mulVec, vecMul_transpose]

private theorem norm_proj {n m : ℕ} (U : Matrix (Fin n) (Fin m) ℝ) (hU : Uᵀ * U = 1) (x : Fin m → ℝ) : (U *ᵥ x) ⬝ᵥ (U *ᵥ x) = x ⬝ᵥ x := by
  have := quad_proj (1 : Matrix (Fin n) (Fin n) ℝ) U x
  rw [Matrix.mul_one, hU, one_mulVec, one_mulVec] at this
  exact this.symm

private theorem trace_proj {n m : ℕ} (Q : Matrix (Fin n) (Fin n) ℝ) (U : Matrix (Fin n) (Fin m) ℝ) (hQ : IsPSD Q) (hU : Uᵀ * U = 1) :
    ∑ i, (Uᵀ * Q * U) i i ≤ ∑ i, Q i i := by
  have h1 : ∑ i, (Uᵀ * Q * U) i i = ∑ i, (Q * (U * Uᵀ)) i i := by
    have := Matrix.trace_mul_comm Uᵀ (Q * U)
    simp only [Matrix.trace, Matrix.diag_apply] at this
    rw [Matrix.mul_assoc, this, Matrix.mul_assoc]
  set P : Matrix (Fin n) (Fin n) ℝ := 1 - U * Uᵀ with hP
  have hPt : Pᵀ = P := by rw [hP, transpose_sub, transpose_one, transpose_mul, transpose_transpose]
  have hPP : P * P = P := by
    have : U * Uᵀ * (U * Uᵀ) = U * Uᵀ := by rw [Matrix.mul_assoc, ← Matrix.mul_assoc Uᵀ, hU, Matrix.one_mul]
    rw [hP, Matrix.sub_mul, Matrix.mul_sub, Matrix.mul_sub, this]; simp
  have h2 : ∑ i, (Pᵀ * Q * P) i i = ∑ i, Q i i - ∑ i, (Q * (U * Uᵀ)) i i := by
    have := Matrix.trace_mul_comm P (Q * P)
    simp only [Matrix.trace, Matrix.diag_apply] at this
    rw [hPt, Matrix.mul_assoc, this, Matrix.mul_assoc, hPP, hP, Matrix.mul_sub, Matrix.mul_one, ← Finset.sum_sub_distrib]
    rfl
  have h3 : 0 ≤ ∑ i, (Pᵀ * Q * P) i i := Finset.sum_nonneg fun i _ => by
    have := (psd_proj P hQ).2 (Pi.single i 1)
    simpa using this
  rw [h1]; linarith

/-- **C111** for `rho_mat`: the same values, and the touching points are projected. -/
theorem C111_rho_mat {n m k : ℕ} (Q : Matrix (Fin n) (Fin n) ℝ) (hQ : IsPSD Q) (c : Fin n → ℝ) (tol : ℝ) (ht : 0 ≤ tol) (B : Matrix (Fin n) (Fin m) ℝ)
    (L : Matrix (Fin m) (Fin k) ℝ) : ∃ sup bp bp', rhoMat Q (unitCols B * L) tol c = .ok (sup, bp) ∧
      rhoMat ((unitCols B)ᵀ * Q * unitCols B) L tol ((unitCols B)ᵀ *ᵥ c) = .ok (sup, bp') ∧
      ∀ j, ∃ x : Fin n → ℝ, (∀ i, bp j i = .fin (x i)) ∧ ∀ i, bp' j i = .fin (((unitCols B)ᵀ *ᵥ x) i) := by
  set U := unitCols B with hU
  have hcol : ∀ j, (fun i => (U * L) i j) = U *ᵥ fun i => L i j := fun j => rfl
  have hform : ∀ j, (fun i => L i j) ⬝ᵥ (Uᵀ * Q * U) *ᵥ (fun i => L i j) = (fun i => (U * L) i j) ⬝ᵥ Q *ᵥ fun i => (U * L) i j := fun j => by
    rw [quad_proj, hcol]
  have hp : ∀ j, 0 ≤ (fun i => (U * L) i j) ⬝ᵥ Q *ᵥ (fun i => (U * L) i j) := fun j => hQ.2 _
  have key : ∀ t : ℝ, 0 ≤ t → ∃ sq, SqrtPos.sqrtPosArr (List.ofFn fun j => (fun i => (U * L) i j) ⬝ᵥ Q *ᵥ (fun i => (U * L) i j)) t = .ok sq ∧
      ∀ j : Fin k, sq.getD j 0 = Real.sqrt ((fun i => (U * L) i j) ⬝ᵥ Q *ᵥ (fun i => (U * L) i j)) := fun t ht =>
    sqrtPosArr_ofFn _ t ht (fun j => le_trans (neg_nonpos.mpr ht) (hp j))
  have hdot : ∀ j, (Uᵀ *ᵥ c) ⬝ᵥ (fun i => L i j) = c ⬝ᵥ fun i => (U * L) i j := fun j => by
    rw [hcol, dotProduct_mulVec, mulVec_transpose]
  have fin : ∀ sq : List ℝ, (∀ j : Fin k, sq.getD j 0 = Real.sqrt ((fun i => (U * L) i j) ⬝ᵥ Q *ᵥ (fun i => (U * L) i j))) → ∀ j, ∃ x : Fin n → ℝ,
      (∀ i, addX (nanToZero (fun i => divX ((Q *ᵥ fun i => (U * L) i j) i) (sq.getD j 0)) i) (c i) = .fin (x i)) ∧
      ∀ i, addX (nanToZero (fun i => divX (((Uᵀ * Q * U) *ᵥ fun i => L i j) i) (sq.getD j 0)) i) ((Uᵀ *ᵥ c) i) = .fin ((Uᵀ *ᵥ x) i) := by
    intro sq hsq j
    refine ⟨_, fun i => by rw [hsq j]; exact bp_fin hQ _ c i, fun i => ?_⟩
    rw [hsq j, ← hform, bp_fin (psd_proj U hQ), mulVec_add, mulVec_smul, hform, hcol, ← mulVec_mulVec, ← mulVec_mulVec]
  unfold rhoMat
  simp only [hform, hdot]
  by_cases h1 : k = 1
  · obtain ⟨sq, hsq, hv⟩ := key 0 le_rfl
    rw [if_pos h1, if_pos h1, hsq]
    exact ⟨_, _, _, rfl, rfl, fin sq hv⟩
  · obtain ⟨sq, hsq, hv⟩ := key tol ht
    rw [if_neg h1, if_neg h1, hsq]
    exact ⟨_, _, _, rfl, rfl, fin sq hv⟩

/-- **C111**: for a basis with orthogonal columns the extreme eigenvalues of the projection lie between those of the ellipsoid, and its
trace is not larger. -/
theorem C111_scalars (E : Eigh) {n k : ℕ} (hk : k ≠ 0) (e : EllN n) (hn : n ≠ 0) (he : e.PSD) (B : Matrix (Fin n) (Fin k) ℝ)
    (hB : ∀ i j, i ≠ j → (Bᵀ * B) i j = 0) (hz : ∀ j, ∃ i, B i j ≠ 0) (arg : ObjArg EllObj) (ha : arg.Is (Arr.vec [projVal e.obj B rfl, e.obj])) :
    ∃ r s r' s' t t', minEig E arg = .ok [r, s] ∧ maxEig E arg = .ok [r', s'] ∧ trace arg = .ok [t, t'] ∧ s ≤ r ∧ r' ≤ s' ∧ t ≤ t' := by
  have hU := unitCols_orth hz hB
  set U := unitCols B with hUd
  have hp := psd_proj U he.2
  have hne : ∀ x ∈ (Arr.vec [projVal e.obj B rfl, e.obj]).data, x.n ≠ 0 := by
    intro x hx
    have hx : x ∈ [projVal e.obj B rfl, e.obj] := hx
    simp only [List.mem_cons, List.not_mem_nil, or_false] at hx
    rcases hx with rfl | rfl
    · exact hk
    · exact hn
  obtain ⟨⟨rs, h1, h2⟩, ss, h3, h4⟩ := C81_form E arg _ ha hne
  have h2 : List.Forall₂ _ [projVal e.obj B rfl, e.obj] rs := h2
  have h4 : List.Forall₂ _ [projVal e.obj B rfl, e.obj] ss := h4
  have e1 : lowerSym e.obj.Q = e.Q := lowerSym_of_symm he.2.1
  have e2 : lowerSym (projVal e.obj B rfl).Q = Uᵀ * e.Q * U := lowerSym_of_symm hp.1
  have hsub : formValues (lowerSym (projVal e.obj B rfl).Q) ⊆ formValues (lowerSym e.obj.Q) := by
    rw [e1, e2]
    rintro _ ⟨x, hx, rfl⟩
    exact ⟨U *ᵥ x, (norm_proj U hU x).trans hx, quad_proj e.Q U x⟩
  have htr : ∑ i, (projVal e.obj B rfl).Q i i ≤ ∑ i, e.obj.Q i i := by
    exact trace_proj e.Q U he.2 hU
  match rs, h2, ss, h4 with
  | [r, s], .cons hr (.cons hs .nil), [r', s'], .cons hr' (.cons hs' .nil) =>
    refine ⟨r, s, r', s', _, _, h1, h3, ?_, hs.2 (hsub hr.1), hs'.2 (hsub hr'.1), htr⟩
    unfold trace
    rw [(C80_ok_iff _ _ _ _).mpr ha]
    simp only
    rw [if_neg (by rintro ⟨x, hx, h0⟩; exact hne x hx h0)]
    rfl

/-- The unit disc, listed twice: it can be projected on the plane and then on the diagonal, so on the diagonal at once; two equal columns
are refused. -/
example (E : Eigh) : ∃ h, Reachable E h ∧ ∃ os : Arr ℕ, os.data = [0, 0] ∧ val h 0 = some disc ∧
    Raises (getProjection E (!![1, 1; 0, 0] : Matrix (Fin 2) (Fin 2) ℝ) h os).1 ∧
    ∃ rs ts us, (getProjection E (1 : Matrix (Fin 2) (Fin 2) ℝ) h os).1 = .ok rs ∧
      (getProjection E !![(1 : ℝ); 1] (getProjection E (1 : Matrix (Fin 2) (Fin 2) ℝ) h os).2 rs).1 = .ok ts ∧
      (getProjection E (unitCols (1 : Matrix (Fin 2) (Fin 2) ℝ) * !![(1 : ℝ); 1]) h os).1 = .ok us := by
  obtain ⟨h, hr, -, hlen, hv, -⟩ := reach_obj E _ (reach_empty E (exProps 1)) disc disc_valid
  have hv : val h 0 = some disc := hv
  have hpsd : ∀ o ∈ (⟨[2], [0, 0], rfl⟩ : Arr ℕ).data, ∃ e, val h o = some e ∧ IsPSD e.Q := by
    intro o ho
    have : o = 0 := by simpa using ho
    subst this
    exact ⟨disc, hv, psd_one⟩
  have hone : ∀ i j : Fin 2, i ≠ j → ((1 : Matrix (Fin 2) (Fin 2) ℝ)ᵀ * (1 : Matrix (Fin 2) (Fin 2) ℝ)) i j = 0 := fun i j hij => by
    rw [transpose_one, Matrix.one_mul, one_apply_ne hij]
  refine ⟨h, hr, ⟨[2], [0, 0], rfl⟩, rfl, hv, ?_, ?_⟩
  · rw [C111_raises_iff E h hr _ _ hpsd]
    refine ⟨by simp, Or.inr (Or.inr (Or.inl ⟨0, 1, by decide, fun o ho e he => ?_⟩))⟩
    have : o = 0 := by simpa using ho
    subst this
    rw [hv] at he
    injection he with he
    subst he
    norm_num [mul_apply, Fin.sum_univ_two, disc]
  · obtain ⟨rs, h1⟩ := not_raises (x := (getProjection E (1 : Matrix (Fin 2) (Fin 2) ℝ) h ⟨[2], [0, 0], rfl⟩).1) (by
      rw [C111_raises_iff E h hr _ _ hpsd]
      rintro ⟨-, hx | ⟨o, ho, e, he, hx⟩ | ⟨i, j, hij, hx⟩ | ⟨j, hx⟩⟩
      · exact hx le_rfl
      · have : o = 0 := by simpa using ho
        subst this
        rw [hv] at he
        injection he with he
        exact hx (he ▸ rfl)
      · have := hx 0 (by simp) disc hv
        rw [hone i j hij] at this
        norm_num [disc] at this
      · simpa using hx j)
    have hlt : ∀ o ∈ (⟨[2], [0, 0], rfl⟩ : Arr ℕ).data, o < h.objs.length := by
      intro o ho
      have : o = 0 := by simpa using ho
      subst this
      exact val_lt hv
    have hr1 : Reachable E (getProjection E (1 : Matrix (Fin 2) (Fin 2) ℝ) h ⟨[2], [0, 0], rfl⟩).2 := reach_step hr (.getProjection 2 2 1 _)
    obtain ⟨-, -, -, hall1⟩ := (C35_get_projection E h hr _ _ hlt).2 rs h1
    have hval : ∀ r ∈ rs.data, ∃ e, val (getProjection E (1 : Matrix (Fin 2) (Fin 2) ℝ) h ⟨[2], [0, 0], rfl⟩).2 r = some e ∧ IsPSD e.Q ∧ e.n = 2 := by
      intro r hr
      obtain ⟨o, ho, e, he, hv1, hv2⟩ := pair_right hall1 hr
      have : o = 0 := by simpa using ho
      subst this
      rw [hv] at hv1
      injection hv1 with hv1
      subst hv1
      exact ⟨_, hv2, projVal_psd he psd_one 1, rfl⟩
    obtain ⟨ts, h2⟩ := not_raises (x := (getProjection E !![(1 : ℝ); 1] (getProjection E (1 : Matrix (Fin 2) (Fin 2) ℝ) h ⟨[2], [0, 0], rfl⟩).2 rs).1) (by
      rw [C111_raises_iff E _ hr1 _ rs fun r hr => let ⟨e, a, b, _⟩ := hval r hr; ⟨e, a, b⟩]
      rintro ⟨-, hx | ⟨o, ho, e, he, hx⟩ | ⟨i, j, hij, hx⟩ | ⟨j, hx⟩⟩
      · norm_num at hx
      · obtain ⟨e', h1, -, h3⟩ := hval o ho
        rw [he] at h1
        injection h1 with h1
        exact hx (h1 ▸ h3)
      · exact hij (Subsingleton.elim i j)
      · have := hx 0
        fin_cases j
        simp at this)
    obtain ⟨us, h3, -⟩ := C111_compose E h hr 1 _ _ hpsd hone rs ts h1 h2
    exact ⟨rs, ts, us, h1, h2, h3⟩

/-- Semi-axes 2 and 3, projected on the first axis. -/
example (E : Eigh) (e : EllN 2) (he : e = ⟨![1, 1], !![4, 0; 0, 9], stdProps⟩) (arg : ObjArg EllObj)
    (ha : arg = .many (Arr.vec [.inst (projVal e.obj !![(5 : ℝ); 0] rfl), .inst e.obj])) :
    ∃ r s r' s' t t', minEig E arg = .ok [r, s] ∧ maxEig E arg = .ok [r', s'] ∧ trace arg = .ok [t, t'] ∧ s ≤ r ∧ r' ≤ s' ∧ t ≤ t' := by
  refine C111_scalars E one_ne_zero e two_ne_zero ?_ !![(5 : ℝ); 0] (fun i j hij => absurd (Subsingleton.elim i j) hij)
    (fun j => ⟨0, by fin_cases j; simp⟩) arg (Or.inr ⟨_, ha, rfl, rfl⟩)
  subst he
  refine ⟨stdProps_ok, by ext i j; fin_cases i <;> fin_cases j <;> rfl, fun v => ?_⟩
  simp [dotProduct, mulVec, Fin.sum_univ_two]
  nlinarith [sq_nonneg (v 0), sq_nonneg (v 1)]

/-- The support values of a disc and of its projection on the first axis, in the two directions of the axis. -/
example : ∃ s b b', rho (Arr.scalar discN.obj) ⟨[2, 2], [-3, 1, 0, 0], rfl⟩ = .ok (s, b) ∧
    rho (Arr.scalar (projVal discN.obj !![(5 : ℝ); 0] rfl)) ⟨[1, 2], [-3, 1], rfl⟩ = .ok (s, b') := by
  have hU : unitCols (!![5; 0] : Matrix (Fin 2) (Fin 1) ℝ) = !![1; 0] := by
    ext i j
    have h5 : √(25 : ℝ) = 5 := by rw [show (25 : ℝ) = 5 ^ 2 by norm_num, Real.sqrt_sq (by norm_num)]
    fin_cases i <;> fin_cases j <;> norm_num [unitCols, Fin.sum_univ_two, h5]
  obtain ⟨s, b, b', h1, h2, -⟩ := C111_rho (k := 2) discN discN_nonDeg.psd !![(5 : ℝ); 0] ![![-3], ![1]] ⟨[2, 2], [-3, 1, 0, 0], rfl⟩ ⟨[1, 2], [-3, 1], rfl⟩
    ⟨rfl, rfl, by
      rw [hU]
      intro j i
      fin_cases j <;> fin_cases i <;> simp [mulVec, dotProduct]⟩ ⟨rfl, rfl, by intro j i; fin_cases j <;> fin_cases i <;> rfl⟩
  exact ⟨s, b, b', h1, h2⟩

end Ellipy.Ell
