import Verif.Props.IsEqualSets
import Verif.Props.Monotone
import Verif.Props.RhoMat

/-! Property theorems C142: small changes of the matrix change the results little. -/

namespace Ellipy.Ell
open Matrix Ellipy.LA

/-- The quadratic forms of the two matrices differ by at most `δ` on unit vectors. -/
def FormNear {n : ℕ} (δ : ℝ) (Q Q' : Matrix (Fin n) (Fin n) ℝ) : Prop := ∀ x : Fin n → ℝ, |x ⬝ᵥ Q *ᵥ x - x ⬝ᵥ Q' *ᵥ x| ≤ δ * (x ⬝ᵥ x)

/-! ### Auxiliary facts -/

private theorem eig_form_le {n : ℕ} {N : Matrix (Fin n) (Fin n) ℝ} (hN : Nᵀ = N) {a : ℝ}
    (h : ∀ (v : Fin n → ℝ) (t : ℝ), v ⬝ᵥ v = 1 → N *ᵥ v = t • v → t ≤ a) (x : Fin n → ℝ) : x ⬝ᵥ N *ᵥ x ≤ a * (x ⬝ᵥ x) := by
  obtain ⟨d, V, -, hV, hE⟩ := exists_eigh N hN
  have hV' : V * Vᵀ = 1 := orth_comm hV
  have hdec : N = V * diagonal d * Vᵀ := by rw [← hE, Matrix.mul_assoc, hV', Matrix.mul_one]
  have hd : ∀ k, d k ≤ a := by
    intro k
    refine h (fun i => V i k) (d k) ?_ ?_
    · have := congrFun (congrFun hV k) k
      rw [mul_apply, one_apply_eq] at this
      exact this
    · funext i
      have := congrFun (congrFun hE i) k
      rw [mul_apply, mul_diagonal] at this
      show ∑ x, N i x * V x k = d k * V i k
      rw [this, mul_comm]
  have hxx : (Vᵀ *ᵥ x) ⬝ᵥ (Vᵀ *ᵥ x) = x ⬝ᵥ x := by
    rw [dotProduct_mulVec, ← mulVec_transpose, transpose_transpose, mulVec_mulVec, hV', one_mulVec]
  rw [hdec, quad_conj, quad_diag, ← hxx]
  unfold dotProduct
  rw [Finset.mul_sum]
  refine Finset.sum_le_sum (fun k _ => ?_)
  have := mul_le_mul_of_nonneg_right (hd k) (mul_self_nonneg ((Vᵀ *ᵥ x) k))
  nlinarith

/-- The positive part of a matrix whose eigenvalues are at least `-tol`. -/
private theorem posPart_near {n : ℕ} {Q P : Matrix (Fin n) (Fin n) ℝ} {tol : ℝ} (ht : 0 ≤ tol) (hP : IsPosPart Q P)
    (hQ : ∀ x : Fin n → ℝ, -tol * (x ⬝ᵥ x) ≤ x ⬝ᵥ Q *ᵥ x) : FormNear tol P Q := by
  obtain ⟨h1, h2, h3⟩ := hP
  have key : ∀ x : Fin n → ℝ, x ⬝ᵥ (P - Q) *ᵥ x ≤ tol * (x ⬝ᵥ x) := by
    refine eig_form_le h2.1 (fun v t hv htv => ?_)
    by_contra hlt
    push_neg at hlt
    have ht0 : t ≠ 0 := (ht.trans_lt hlt).ne'
    have hPv : P *ᵥ v = 0 := by
      have h4 : P *ᵥ ((P - Q) *ᵥ v) = 0 := by rw [mulVec_mulVec, h3, zero_mulVec]
      rw [htv, mulVec_smul] at h4
      exact (smul_eq_zero.1 h4).resolve_left ht0
    have h5 := hQ v
    have h6 : v ⬝ᵥ (P - Q) *ᵥ v = t := by rw [htv, dotProduct_smul, hv, smul_eq_mul, mul_one]
    rw [sub_mulVec, hPv, dotProduct_sub, dotProduct_zero] at h6
    rw [hv] at h5
    linarith
  intro x
  have h4 := h2.2 x
  have h5 := key x
  rw [sub_mulVec, dotProduct_sub] at h4 h5
  rw [abs_of_nonneg h4]
  exact h5

private theorem roots_near {n : ℕ} {R S : Matrix (Fin n) (Fin n) ℝ} (hR : IsPSD R) (hS : IsPSD S) {δ : ℝ} (h : FormNear δ (R * R) (S * S)) (i j : Fin n) :
    |R i j - S i j| ≤ Real.sqrt δ := by
  refine entries_le_of_eig (D := R - S) (by rw [transpose_sub, hR.1, hS.1]) (Real.sqrt_nonneg _) (fun v t hv htv => ?_) i j
  refine Real.abs_le_sqrt ?_
  have h1 := (root_eig_le hR hS hv htv).trans (h v)
  rwa [hv, mul_one] at h1

private theorem FormNear.trans {n : ℕ} {a b : ℝ} {P Q R : Matrix (Fin n) (Fin n) ℝ} (h : FormNear a P Q) (h' : FormNear b Q R) : FormNear (a + b) P R := by
  intro x
  rw [add_mul]
  exact (abs_sub_le _ _ _).trans (add_le_add (h x) (h' x))

private theorem FormNear.symm {n : ℕ} {a : ℝ} {P Q : Matrix (Fin n) (Fin n) ℝ} (h : FormNear a P Q) : FormNear a Q P := by
  intro x
  rw [abs_sub_comm]
  exact h x

/-- Near entries give near forms. -/
theorem formNear_of_entries {n : ℕ} {Q Q' : Matrix (Fin n) (Fin n) ℝ} {η : ℝ} (h : ∀ i j, |Q i j - Q' i j| ≤ η) : FormNear (n * η) Q Q' := by
  intro x
  have e : x ⬝ᵥ Q *ᵥ x - x ⬝ᵥ Q' *ᵥ x = ∑ i, ∑ j, x i * (Q i j - Q' i j) * x j := by
    simp only [dotProduct, mulVec, Finset.mul_sum]
    rw [← Finset.sum_sub_distrib]
    refine Finset.sum_congr rfl (fun i _ => ?_)
    rw [← Finset.sum_sub_distrib]
    exact Finset.sum_congr rfl (fun j _ => by ring)
  rw [e]
  refine (Finset.abs_sum_le_sum_abs _ _).trans ((Finset.sum_le_sum (fun i _ => Finset.abs_sum_le_sum_abs _ _)).trans ?_)
  have hk : ∀ i j, |x i * (Q i j - Q' i j) * x j| ≤ η / 2 * (x i * x i) + η / 2 * (x j * x j) := by
    intro i j
    rw [abs_mul, abs_mul]
    have h1 := h i j
    have h0 : 0 ≤ η := (abs_nonneg _).trans h1
    have h2 : |x i| * |x j| ≤ (x i * x i + x j * x j) / 2 := by
      rw [← abs_mul_abs_self (x i), ← abs_mul_abs_self (x j)]
      nlinarith [sq_nonneg (|x i| - |x j|)]
    calc |x i| * |Q i j - Q' i j| * |x j| = |Q i j - Q' i j| * (|x i| * |x j|) := by ring
      _ ≤ η * ((x i * x i + x j * x j) / 2) := mul_le_mul h1 h2 (by positivity) h0
      _ = _ := by ring
  refine (Finset.sum_le_sum (fun i _ => Finset.sum_le_sum (fun j _ => hk i j))).trans (le_of_eq ?_)
  simp only [Finset.sum_add_distrib, ← Finset.mul_sum, Finset.sum_const, Finset.card_univ, Fintype.card_fin, nsmul_eq_mul]
  unfold dotProduct
  rw [Finset.sum_congr rfl (fun i _ => show x i * ((n : ℝ) * x i) = n * (x i * x i) by ring), ← Finset.mul_sum]
  ring

/-! ### The square root -/

/-- **C142**, `sqrtm_pos`, any two accepted matrices, with their tolerances: entries that differ by at most `η` give roots whose entries differ by
at most `√(n·η + tol + tol')`. -/
theorem C142_sqrtm (E E' : Eigh) {n : ℕ} {Q Q' S S' : Matrix (Fin n) (Fin n) ℝ} {tol tol' η : ℝ} (h : sqrtmPos E Q tol = .ok S)
    (h' : sqrtmPos E' Q' tol' = .ok S') (hη : ∀ i j, |Q i j - Q' i j| ≤ η) (i j : Fin n) :
    |S i j - S' i j| ≤ Real.sqrt (n * η + tol + tol') := by
  have acc : ∀ {F : Eigh} {P T : Matrix (Fin n) (Fin n) ℝ} {t : ℝ}, sqrtmPos F P t = .ok T → 0 ≤ t ∧
      ∀ x : Fin n → ℝ, -t * (x ⬝ᵥ x) ≤ x ⬝ᵥ lowerSym P *ᵥ x := by
    intro F P T t hT
    have hr : ¬ Raises (sqrtmPos F P t) := by
      rintro ⟨e, he⟩
      rw [hT] at he
      cases he
    rw [C21_raises_iff] at hr
    push_neg at hr
    exact ⟨hr.1, hr.2.2⟩
  obtain ⟨a1, a2⟩ := acc h
  obtain ⟨b1, b2⟩ := acc h'
  obtain ⟨c1, c2⟩ := C21_tol E Q S tol h
  obtain ⟨d1, d2⟩ := C21_tol E' Q' S' tol' h'
  have hl : ∀ i j, |lowerSym Q i j - lowerSym Q' i j| ≤ η := by
    intro i j
    unfold lowerSym
    split
    · exact hη i j
    · exact hη j i
  have hn := ((posPart_near a1 c2 a2).trans (formNear_of_entries hl)).trans (posPart_near b1 d2 b2).symm
  rw [show (n : ℝ) * η + tol + tol' = tol + n * η + tol' by ring]
  exact roots_near c1 d1 hn i j

/-- **C142**, `sqrtm_pos` on nonnegative matrices: forms that differ by at most `δ` give roots whose entries differ by at most `√δ`, whatever
the tolerances. -/
theorem C142_sqrtm_psd (E E' : Eigh) {n : ℕ} {Q Q' S S' : Matrix (Fin n) (Fin n) ℝ} {tol tol' δ : ℝ} (hQ : IsPSD Q) (hQ' : IsPSD Q')
    (h : sqrtmPos E Q tol = .ok S) (h' : sqrtmPos E' Q' tol' = .ok S') (hδ : FormNear δ Q Q') (i j : Fin n) :
    |S i j - S' i j| ≤ Real.sqrt δ := by
  have acc : ∀ {F : Eigh} {P T : Matrix (Fin n) (Fin n) ℝ} {t : ℝ}, IsPSD P → sqrtmPos F P t = .ok T → IsPSD T ∧ T * T = P := by
    intro F P T t hP hT
    have ht : 0 ≤ t := by
      by_contra hlt
      obtain ⟨e, he⟩ := (C21_raises_iff F P t).2 (Or.inl (not_le.1 hlt))
      rw [hT] at he
      cases he
    obtain ⟨T', g1, g2, g3, -⟩ := C21_root F P t ht hP
    rw [hT] at g1
    rw [Except.ok.inj g1]
    exact ⟨g2, g3⟩
  obtain ⟨c1, c2⟩ := acc hQ h
  obtain ⟨d1, d2⟩ := acc hQ' h'
  rw [← c2, ← d2] at hδ
  exact roots_near c1 d1 hδ i j

/-! ### The tests -/

/-- **C142**, `is_mat_pos_def`: a positive answer with the tolerance `tol + δ` means a positive answer with `tol` for all symmetric matrices whose
forms differ by at most `δ`. -/
theorem C142_pos_def (E E' : Eigh) {n : ℕ} {Q Q' : Matrix (Fin n) (Fin n) ℝ} {tol δ : ℝ} (hn : n ≠ 0) (ht : 0 ≤ tol) (hδ : 0 ≤ δ) (hs : Qᵀ = Q)
    (hs' : Q'ᵀ = Q') (hd : FormNear δ Q Q') (h : isMatPosDef E Q (tol + δ) false = .ok true) : isMatPosDef E' Q' tol false = .ok true := by
  rw [C20_pos_def _ _ _ (by linarith) hn hs] at h
  rw [C20_pos_def _ _ _ ht hn hs']
  intro x hx
  have h1 := h x hx
  have h2 := (abs_le.1 (hd x)).2
  nlinarith

/-- **C142**, the test for nonnegative forms: a positive answer with `tol` means a positive answer with `tol + δ` for all such matrices. -/
theorem C142_sem_def (E E' : Eigh) {n : ℕ} {Q Q' : Matrix (Fin n) (Fin n) ℝ} {tol δ : ℝ} (hn : n ≠ 0) (ht : 0 ≤ tol) (hδ : 0 ≤ δ) (hs : Qᵀ = Q)
    (hs' : Q'ᵀ = Q') (hd : FormNear δ Q Q') (h : isMatPosDef E Q tol true = .ok true) : isMatPosDef E' Q' (tol + δ) true = .ok true := by
  rw [C20_sem_def _ _ _ ht hn hs] at h
  rw [C20_sem_def _ _ _ (by linarith) hn hs']
  intro x
  have h1 := h x
  have h2 := (abs_le.1 (hd x)).2
  nlinarith

/-! ### Eigenvalues and support values -/

/-- **C142**, `min_eig` and `max_eig`: forms that differ by at most `δ` have extreme eigenvalues that differ by at most `δ`. -/
theorem C142_eigs (E : Eigh) {n : ℕ} (hn : n ≠ 0) (f e : EllN n) (hf : f.PSD) (he : e.PSD) {δ : ℝ} (h : FormNear δ f.Q e.Q) (arg : ObjArg EllObj)
    (ha : arg.Is (Arr.vec [f.obj, e.obj])) :
    ∃ r s r' s', minEig E arg = .ok [r, s] ∧ maxEig E arg = .ok [r', s'] ∧ |r - s| ≤ δ ∧ |r' - s'| ≤ δ := by
  obtain ⟨⟨rs, h1, h2⟩, ss, h3, h4⟩ := C81_form E arg _ ha (by
    intro x hx
    have hx : x ∈ [f.obj, e.obj] := hx
    simp only [List.mem_cons, List.not_mem_nil, or_false] at hx
    rcases hx with rfl | rfl <;> exact hn)
  have h2 : List.Forall₂ _ [f.obj, e.obj] rs := h2
  have h4 : List.Forall₂ _ [f.obj, e.obj] ss := h4
  have e1 : lowerSym f.Q = f.Q := lowerSym_of_symm hf.2.1
  have e2 : lowerSym e.Q = e.Q := lowerSym_of_symm he.2.1
  match rs, h2, ss, h4 with
  | [r, s], .cons hr (.cons hs .nil), [r', s'], .cons hr' (.cons hs' .nil) =>
    refine ⟨r, s, r', s', h1, h3, ?_, ?_⟩
    · have hr : IsLeast (formValues (lowerSym f.Q)) r := hr
      have hs : IsLeast (formValues (lowerSym e.Q)) s := hs
      rw [e1] at hr
      rw [e2] at hs
      obtain ⟨x, hx, hxr⟩ := hr.1
      obtain ⟨y, hy, hys⟩ := hs.1
      have a1 := hs.2 ⟨x, hx, rfl⟩
      have a2 := hr.2 ⟨y, hy, rfl⟩
      have a3 := abs_le.1 (h x)
      have a4 := abs_le.1 (h y)
      rw [hx, mul_one] at a3
      rw [hy, mul_one] at a4
      exact abs_le.2 ⟨by linarith, by linarith⟩
    · have hr' : IsGreatest (formValues (lowerSym f.Q)) r' := hr'
      have hs' : IsGreatest (formValues (lowerSym e.Q)) s' := hs'
      rw [e1] at hr'
      rw [e2] at hs'
      obtain ⟨x, hx, hxr⟩ := hr'.1
      obtain ⟨y, hy, hys⟩ := hs'.1
      have a1 := hs'.2 ⟨x, hx, rfl⟩
      have a2 := hr'.2 ⟨y, hy, rfl⟩
      have a3 := abs_le.1 (h x)
      have a4 := abs_le.1 (h y)
      rw [hx, mul_one] at a3
      rw [hy, mul_one] at a4
      exact abs_le.2 ⟨by linarith, by linarith⟩

/-- **C142**, `trace`: it changes by at most `n·δ`. -/
theorem C142_trace {n : ℕ} (hn : n ≠ 0) (f e : EllN n) {δ : ℝ} (h : FormNear δ f.Q e.Q) (arg : ObjArg EllObj)
    (ha : arg.Is (Arr.vec [f.obj, e.obj])) : ∃ r s, trace arg = .ok [r, s] ∧ |r - s| ≤ n * δ := by
  have hne : ¬ anyEmpty (Arr.vec [f.obj, e.obj]).data := by
    rintro ⟨x, hx, h0⟩
    have hx : x ∈ [f.obj, e.obj] := hx
    simp only [List.mem_cons, List.not_mem_nil, or_false] at hx
    rcases hx with rfl | rfl <;> exact hn h0
  have ht : trace arg = .ok [∑ i, f.Q i i, ∑ i, e.Q i i] := by
    unfold trace
    rw [(C80_ok_iff _ _ _ _).mpr ha]
    simp only
    rw [if_neg hne]
    rfl
  refine ⟨_, _, ht, ?_⟩
  rw [← Finset.sum_sub_distrib]
  refine (Finset.abs_sum_le_sum_abs _ _).trans ((Finset.sum_le_sum (g := fun _ => δ) (fun i _ => ?_)).trans (by simp))
  have := h (Pi.single i 1)
  simpa using this

/-- **C142**, `rho_mat`: the support values of two ellipsoids in a direction of length one differ by at most the distance of the centres plus `√δ`. -/
theorem C142_rho {m nd : ℕ} {Q Q' : Matrix (Fin m) (Fin m) ℝ} (hQ : IsPSD Q) (hQ' : IsPSD Q') (dirs : Matrix (Fin m) (Fin nd) ℝ) {tol δ d : ℝ} (ht : 0 ≤ tol)
    {c c' : Fin m → ℝ} (h : FormNear δ Q Q') (hd : 0 ≤ d) (hc : (c - c') ⬝ᵥ (c - c') ≤ d ^ 2) :
    ∃ sup bp sup' bp', rhoMat Q dirs tol c = .ok (sup, bp) ∧ rhoMat Q' dirs tol c' = .ok (sup', bp') ∧
      ∀ j, dirCol dirs j ⬝ᵥ dirCol dirs j = 1 → |sup j - sup' j| ≤ d + Real.sqrt δ := by
  obtain ⟨sup, bp, h1, h2⟩ := C31 Q hQ dirs tol ht c
  obtain ⟨sup', bp', h3, h4⟩ := C31 Q' hQ' dirs tol ht c'
  refine ⟨sup, bp, sup', bp', h1, h3, fun j hl => ?_⟩
  have e1 := IsGreatest.unique (h2 j).1 (ell_support hQ _)
  have e2 := IsGreatest.unique (h4 j).1 (ell_support hQ' _)
  set l := dirCol dirs j
  have hlc : |l ⬝ᵥ c - l ⬝ᵥ c'| ≤ d := by
    rw [← dotProduct_sub]
    have h5 := dot_sq_le_mul l (c - c')
    rw [hl, one_mul] at h5
    exact abs_le_of_sq_le_sq (h5.trans hc) hd
  have hq : |Real.sqrt (l ⬝ᵥ Q *ᵥ l) - Real.sqrt (l ⬝ᵥ Q' *ᵥ l)| ≤ Real.sqrt δ := by
    have h5 := h l
    rw [hl, mul_one] at h5
    refine Real.abs_le_sqrt (le_trans ?_ h5)
    set a := Real.sqrt (l ⬝ᵥ Q *ᵥ l) with ha
    set b := Real.sqrt (l ⬝ᵥ Q' *ᵥ l) with hb
    have qa : a * a = l ⬝ᵥ Q *ᵥ l := Real.mul_self_sqrt (hQ.2 l)
    have qb : b * b = l ⬝ᵥ Q' *ᵥ l := Real.mul_self_sqrt (hQ'.2 l)
    have pa : 0 ≤ a := Real.sqrt_nonneg _
    have pb : 0 ≤ b := Real.sqrt_nonneg _
    rw [← qa, ← qb]
    rcases le_total a b with hab | hab
    · rw [abs_sub_comm, abs_of_nonneg (by nlinarith)]
      nlinarith
    · rw [abs_of_nonneg (by nlinarith)]
      nlinarith
  rw [e1, e2, show ∀ p q r s : ℝ, p + q - (r + s) = (p - r) + (q - s) from fun p q r s => by ring]
  exact (abs_add_le _ _).trans (add_le_add hlc hq)

/-- Meets the hypotheses of the theorems above: the unit circle and an ellipse whose matrix differs by a quarter in two entries. The forms are within `1/4`
(the bound from the entries is `1/2`), and both matrices are positive definite, so the square root exists and its entries differ by at most `1/2`. -/
example (E : Eigh) : FormNear (1 / 4) (1 : Matrix (Fin 2) (Fin 2) ℝ) !![1, 1 / 4; 1 / 4, 1] ∧ IsPSD (!![1, 1 / 4; 1 / 4, 1] : Matrix (Fin 2) (Fin 2) ℝ) ∧
    ∃ S S', sqrtmPos E (1 : Matrix (Fin 2) (Fin 2) ℝ) 0 = .ok S ∧ sqrtmPos E (!![1, 1 / 4; 1 / 4, 1] : Matrix (Fin 2) (Fin 2) ℝ) 0 = .ok S' ∧
      ∀ i j, |S i j - S' i j| ≤ 1 / 2 := by
  have hf : FormNear (1 / 4) (1 : Matrix (Fin 2) (Fin 2) ℝ) !![1, 1 / 4; 1 / 4, 1] := by
    intro x
    simp only [dotProduct, mulVec, Fin.sum_univ_two, one_apply, of_apply, cons_val_zero, cons_val_one, cons_val', cons_val_fin_one]
    rw [abs_le]
    constructor
    · simp
      nlinarith [sq_nonneg (x 0 - x 1)]
    · simp
      nlinarith [sq_nonneg (x 0 + x 1)]
  have h2 : IsPSD (!![1, 1 / 4; 1 / 4, 1] : Matrix (Fin 2) (Fin 2) ℝ) := by
    refine ⟨by ext i j; fin_cases i <;> fin_cases j <;> rfl, fun x => ?_⟩
    simp only [dotProduct, mulVec, Fin.sum_univ_two, of_apply, cons_val_zero, cons_val_one, cons_val', cons_val_fin_one]
    nlinarith [sq_nonneg (x 0 + x 1), sq_nonneg (x 0), sq_nonneg (x 1)]
  have h1 : IsPSD (1 : Matrix (Fin 2) (Fin 2) ℝ) := ⟨transpose_one, fun x => by rw [one_mulVec]; exact dot_self_nonneg x⟩
  obtain ⟨S, a1, -⟩ := C21_root E _ 0 le_rfl h1
  obtain ⟨S', b1, -⟩ := C21_root E _ 0 le_rfl h2
  refine ⟨hf, h2, S, S', a1, b1, fun i j => ?_⟩
  have := C142_sqrtm_psd E E h1 h2 a1 b1 hf i j
  rwa [show (1 / 4 : ℝ) = (1 / 2) ^ 2 by norm_num, Real.sqrt_sq (by norm_num)] at this

/-- Meets the hypotheses of the theorems on the tests: `1` and `3/4` are within `1/4`; the first passes with the tolerance `1/4 + 1/4`. -/
example (E : Eigh) : isMatPosDef E (1 : Matrix (Fin 2) (Fin 2) ℝ) (1 / 4 + 1 / 4) false = .ok true ∧
    isMatPosDef E ((3 / 4 : ℝ) • (1 : Matrix (Fin 2) (Fin 2) ℝ)) (1 / 4) false = .ok true := by
  have h1 : isMatPosDef E (1 : Matrix (Fin 2) (Fin 2) ℝ) (1 / 4 + 1 / 4) false = .ok true := by
    rw [C20_pos_def _ _ _ (by norm_num) (by norm_num) transpose_one]
    intro x hx
    have := dot_self_pos hx
    rw [one_mulVec]
    linarith
  refine ⟨h1, C142_pos_def E E (by norm_num) (by norm_num) (δ := 1 / 4) (by norm_num) transpose_one (by rw [transpose_smul, transpose_one]) (fun x => ?_) h1⟩
  rw [smul_mulVec, one_mulVec, dotProduct_smul, smul_eq_mul, show x ⬝ᵥ x - 3 / 4 * x ⬝ᵥ x = 1 / 4 * x ⬝ᵥ x by ring,
    abs_of_nonneg (by linarith [dot_self_nonneg x])]

end Ellipy.Ell
