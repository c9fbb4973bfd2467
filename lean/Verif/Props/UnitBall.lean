import Verif.Props.EllProps
import Verif.Props.PolarTwice
import Verif.Props.BrunnMinkowski
import Verif.Props.Rho
import Verif.Props.IsInternal

/-! Property theorems C161: what the functions return for `ell_unitball`. -/

namespace Ellipy.Ell
open Matrix Ellipy.LA

/-- The ball of radius `r` about the origin of the space of dimension `n`, as centre, matrix and properties. -/
def roundN (n : ℕ) (r : ℝ) (p : PropVals) : EllN n := ⟨0, r ^ 2 • 1, p⟩

private theorem roundN_one (n : ℕ) (p : PropVals) : roundN n 1 p = ⟨0, 1, p⟩ := by
  rw [roundN, one_pow, one_smul]

private theorem one_psd (n : ℕ) : IsPSD (1 : Matrix (Fin n) (Fin n) ℝ) :=
  ⟨transpose_one, fun x => by rw [one_mulVec]; exact dot_self_nonneg x⟩

private theorem sq_psd (n : ℕ) (r : ℝ) : IsPSD (r ^ 2 • (1 : Matrix (Fin n) (Fin n) ℝ)) :=
  ⟨by rw [transpose_smul, transpose_one], fun x => by
    rw [smul_mulVec, one_mulVec, dotProduct_smul, smul_eq_mul]
    exact mul_nonneg (sq_nonneg r) (dot_self_nonneg x)⟩

private theorem one_nonDeg {n : ℕ} {p : PropVals} (hp : p.ok) (h1 : p.absTol < 1) : (⟨0, 1, p⟩ : EllN n).NonDeg :=
  ⟨hp, transpose_one, fun x hx => by
    show p.absTol * (x ⬝ᵥ x) < x ⬝ᵥ (1 : Matrix (Fin n) (Fin n) ℝ) *ᵥ x
    rw [one_mulVec]
    have := dot_self_pos hx
    nlinarith⟩

private theorem mem_ball {n : ℕ} {r : ℝ} (hr : 0 ≤ r) (x : Fin n → ℝ) :
    x ∈ Ell 0 (r ^ 2 • (1 : Matrix (Fin n) (Fin n) ℝ)) ↔ x ⬝ᵥ x ≤ r ^ 2 := by
  rw [mem_ell_factor (M := r • (1 : Matrix (Fin n) (Fin n) ℝ)) (by
    rw [transpose_smul, transpose_one, Matrix.smul_mul, Matrix.one_mul, smul_smul, sq])]
  constructor
  · rintro ⟨u, hu, rfl⟩
    rw [smul_mulVec, one_mulVec, zero_add, smul_dotProduct, dotProduct_smul, smul_eq_mul, smul_eq_mul]
    nlinarith [sq_nonneg r]
  · intro hx
    rcases hr.eq_or_lt with h | h
    · subst h
      have : x = 0 := dotProduct_self_eq_zero.1 (le_antisymm (by simpa using hx) (dot_self_nonneg x))
      exact ⟨0, by simp, by simp [this]⟩
    · refine ⟨r⁻¹ • x, ?_, by rw [smul_mulVec, one_mulVec, zero_add, smul_smul, mul_inv_cancel₀ h.ne', one_smul]⟩
      rw [smul_dotProduct, dotProduct_smul, smul_eq_mul, smul_eq_mul, ← mul_assoc, ← mul_inv, ← sq, inv_mul_le_iff₀ (by positivity), mul_one]
      exact hx

/-- **C161**, the object: `ell_unitball(n)` is the ball of radius one about the origin; `roundN n r` stands for the points of norm at most `r`. -/
theorem C161_object (E : Eigh) (p : PropVals) (hp : p.ok) (n : ℕ) :
    ellUnitball E n p.absTol p.relTol p.n2d p.n3d = .ok (roundN n 1 p).obj ∧
    ∀ r, 0 ≤ r → (roundN n r p).set = {x | x ⬝ᵥ x ≤ r ^ 2} := by
  refine ⟨?_, fun r hr => Set.ext fun x => mem_ball hr x⟩
  have hP := one_psd n
  unfold ellUnitball
  rw [if_neg (by omega), C33, roundN_one]
  refine ⟨n, 0, 1, rfl, Or.inr (Or.inl ⟨_, rfl, rfl, encMat_good hp.1 (symmWithin_of_symm hP.1 hp.1.le) ?_⟩)⟩
  intro v
  rw [lowerSym_of_symm hP.1]
  have := hP.2 v
  have h0 := dot_self_nonneg v
  have := hp.1
  nlinarith

/-- **C161**, `rho`: the value for a direction is its length, the point is the direction divided by its length. -/
theorem C161_rho (p : PropVals) (hp : p.ok) {n k : ℕ} (d : Arr ℝ) (rest : List ℕ) (hrest : rest ≠ []) (ls : Fin k → Fin n → ℝ)
    (hd : IsDirs d rest ls) (hl : ∀ j, ls j ≠ 0) :
    ∃ s b, rho (Arr.scalar (roundN n 1 p).obj) d = .ok (s, b) ∧ s.data.length = k ∧ b.shape = d.shape ∧
      ∀ j : Fin k, s.data[j.val]? = some (Real.sqrt (ls j ⬝ᵥ ls j)) ∧
        ∀ i : Fin n, b.data[i.val * k + j.val]? = some (.fin (ls j i / Real.sqrt (ls j ⬝ᵥ ls j))) := by
  have hP := sq_psd n 1
  obtain ⟨s, b, h1, ⟨h2, -, h3⟩, h4, -⟩ := C40_one_ell (Arr.scalar (roundN n 1 p).obj) (roundN n 1 p) rfl ⟨hp, hP⟩ d rest hrest ls hd
  refine ⟨s, b, h1, h2, h4, fun j => ?_⟩
  obtain ⟨r, x, h5, h6, h7, h8, h9⟩ := h3 j
  have hs := ell_support (c := (0 : Fin n → ℝ)) hP (ls j)
  rw [dotProduct_zero, zero_add, one_pow, one_smul, one_mulVec] at hs
  have hset : (roundN n 1 p).set = Ell 0 (1 : Matrix (Fin n) (Fin n) ℝ) := by rw [roundN_one]; rfl
  rw [hset] at h6 h7
  have hr : r = Real.sqrt (ls j ⬝ᵥ ls j) := IsGreatest.unique h6 hs
  have hpos := dot_self_pos (hl j)
  have hsq := Real.sq_sqrt hpos.le
  have hsp := Real.sqrt_pos.2 hpos
  set q := Real.sqrt (ls j ⬝ᵥ ls j) with hq
  subst hr
  refine ⟨h5, ?_⟩
  have hx : x ⬝ᵥ x ≤ 1 := by rw [ell_one] at h7; exact h7
  have hx0 : (q • x - ls j) ⬝ᵥ (q • x - ls j) ≤ 0 := by
    rw [sub_dotProduct, dotProduct_sub, dotProduct_sub, smul_dotProduct, smul_dotProduct, dotProduct_smul, dotProduct_smul, dotProduct_comm x (ls j), h8]
    simp only [smul_eq_mul]
    nlinarith
  have hx1 : q • x - ls j = 0 := dotProduct_self_eq_zero.1 (le_antisymm hx0 (dot_self_nonneg _))
  intro i
  have hi : q * x i - ls j i = 0 := congrFun hx1 i
  rw [h9 i]
  congr 2
  rw [eq_div_iff hsp.ne']
  linarith

/-- **C161**, the numbers: the eigenvalues are one, the trace is the dimension and the volume is the volume of the unit ball. -/
theorem C161_numbers (E : Eigh) (p : PropVals) (hp : p.ok) (h1 : p.absTol < 1) {n : ℕ} (hn : n ≠ 0) :
    maxEig E (.single (.inst (roundN n 1 p).obj)) = .ok [1] ∧ minEig E (.single (.inst (roundN n 1 p).obj)) = .ok [1] ∧
    trace (.single (.inst (roundN n 1 p).obj)) = .ok [(n : ℝ)] ∧
    ∃ v, Ell.volume E [(roundN n 1 p).obj] = .ok [⟨false, v⟩] ∧ MeasureTheory.volume {x : Fin n → ℝ | x ⬝ᵥ x ≤ 1} = ENNReal.ofReal v ∧ 0 < v := by
  rw [roundN_one]
  have hform : formValues (lowerSym (1 : Matrix (Fin n) (Fin n) ℝ)) = {1} := by
    rw [lowerSym_of_symm transpose_one]
    ext r
    constructor
    · rintro ⟨x, hx, rfl⟩
      rw [one_mulVec, hx]; rfl
    · rintro rfl
      obtain ⟨v, hv, -⟩ := exists_unit (x := fun _ : Fin n => (1 : ℝ)) (fun h => by
        have := congrFun h ⟨0, Nat.pos_of_ne_zero hn⟩
        simp at this)
      exact ⟨v, hv, by rw [one_mulVec, hv]⟩
  obtain ⟨⟨a, ha, ha'⟩, b, hb, hb'⟩ := C81_form E (.single (.inst (⟨0, 1, p⟩ : EllN n).obj)) (Arr.scalar (⟨0, 1, p⟩ : EllN n).obj) (Or.inl ⟨_, rfl, rfl⟩)
    (fun x hx => by
      rw [show (Arr.scalar (⟨0, 1, p⟩ : EllN n).obj).data = [(⟨0, 1, p⟩ : EllN n).obj] from rfl, List.mem_singleton] at hx
      subst hx
      exact hn)
  rw [show (Arr.scalar (⟨0, 1, p⟩ : EllN n).obj).data = [(⟨0, 1, p⟩ : EllN n).obj] from rfl] at ha' hb'
  refine ⟨?_, ?_, ?_, ?_⟩
  · cases hb' with
    | cons h t =>
      cases t
      have h : IsGreatest (formValues (lowerSym (1 : Matrix (Fin n) (Fin n) ℝ))) _ := h
      rw [hform] at h
      rw [hb, h.1]
  · cases ha' with
    | cons h t =>
      cases t
      have h : IsLeast (formValues (lowerSym (1 : Matrix (Fin n) (Fin n) ℝ))) _ := h
      rw [hform] at h
      rw [ha, h.1]
  · unfold trace
    rw [(C80_ok_iff _ _ _ (Arr.scalar (⟨0, 1, p⟩ : EllN n).obj)).mpr (Or.inl ⟨_, rfl, rfl⟩)]
    simp only
    rw [if_neg (by
      rintro ⟨x, hx, h0⟩
      rw [show (Arr.scalar (⟨0, 1, p⟩ : EllN n).obj).data = [(⟨0, 1, p⟩ : EllN n).obj] from rfl, List.mem_singleton] at hx
      subst hx
      exact hn h0)]
    refine congrArg Except.ok ?_
    show [Matrix.trace (1 : Matrix (Fin n) (Fin n) ℝ)] = _
    rw [Matrix.trace_one, Fintype.card_fin]
  · have hv := volume_nonDeg E hn [(⟨0, 1, p⟩ : EllN n)] (fun e he => by rw [List.mem_singleton] at he; subst he; exact one_nonDeg hp h1)
    obtain ⟨vs, h3, h4⟩ := C32 E [(⟨0, 1, p⟩ : EllN n).obj] (fun e he => by
      rw [List.mem_singleton] at he; subst he; exact ⟨hn, one_psd n, hp.1.le⟩)
    rw [List.map_singleton, h3] at hv
    cases hv
    cases h4 with
    | cons h t =>
      have h5 := h.1 (one_nonDeg hp h1).2.2
      refine ⟨_, h3, ?_, h5.2.1⟩
      rw [← ell_one]
      exact h5.1

/-- **C161**, `polar`: the ball is its own polar. -/
theorem C161_polar (E : Eigh) (L : Lstsq) (p : PropVals) (hp : p.ok) (h1 : p.absTol < 1) {n : ℕ} (hn : n ≠ 0) :
    polar E L p (Arr.vec [(roundN n 1 p).obj]) = .ok (Arr.vec [(roundN n 1 p).obj]) := by
  rw [roundN_one]
  have he : (⟨0, 1, p⟩ : EllN n).NonDeg := one_nonDeg hp h1
  have hk : (⟨0, 1, p⟩ : EllN n).k = 0 := by rw [EllN.k, zero_dotProduct]
  have hc : polC (⟨0, 1, p⟩ : EllN n) = 0 := by rw [polC, mulVec_zero, smul_zero]
  have hq : polQ (⟨0, 1, p⟩ : EllN n) = 1 := by rw [polQ, hc, hk, sub_zero, div_one, one_smul, inv_one, zero_vecMulVec, add_zero]
  rw [polar_one E L p hn he, polarRobust_eq E L p hn he, hk, if_neg (by norm_num), hc, hq, ellMake_row_psd E hn _ hp (one_psd n)]
  rfl

/-- **C161**, `minksum_ea` and `minksum_ia`: for `m` unit balls, both give the ball of radius `m`, for any nonzero directions. -/
theorem C161_minksum (E : Eigh) (G : Eig) (L : Lstsq) (p : PropVals) (hp : p.ok) (h1 : p.absTol < 1) {n k m : ℕ} (hn : n ≠ 0) (hm : 2 ≤ m)
    (M : Matrix (Fin n) (Fin k) ℝ) (hM : ∀ j, (fun i => M i j) ≠ 0) :
    minksumEa E G L p (List.replicate m (roundN n 1 p).obj) M = .ok (Arr.vec (List.replicate k (roundN n m p).obj)) ∧
    minksumIa E G p (List.replicate m (roundN n 1 p).obj) M = .ok (Arr.vec (List.replicate k (roundN n m p).obj)) := by
  rw [roundN_one]
  have hes : ∀ e ∈ List.replicate m (⟨0, 1, p⟩ : EllN n), e.NonDeg := by
    intro e he
    rw [List.eq_of_mem_replicate he]
    exact one_nonDeg hp h1
  obtain ⟨c, Q, hQ, h2, h3⟩ := C106 E G L p hp hn (List.replicate m (⟨0, 1, p⟩ : EllN n)) (by rw [List.length_replicate]; exact hm) hes
    (fun e he f hf => ⟨1, by rw [List.eq_of_mem_replicate he, List.eq_of_mem_replicate hf, one_smul]⟩) M hM
  rw [List.map_replicate] at h2 h3
  rcases Nat.eq_zero_or_pos k with rfl | hk
  · exact ⟨h2, h3⟩
  obtain ⟨Qs, h4, h5⟩ := C43 E G L p hp hn (List.replicate m (⟨0, 1, p⟩ : EllN n)) (by rw [List.length_replicate]; exact hm) hes M hM
  rw [List.map_replicate, h2] at h4
  have h6 := congrArg (fun r : Arr EllObj => r.data[0]?) (Except.ok.inj h4)
  simp only [Arr.vec, List.getElem?_replicate, List.getElem?_ofFn, hk, if_true, dif_pos] at h6
  have h7 := Option.some.inj h6
  have hQQ : Q = Qs ⟨0, hk⟩ := by
    injection h7 with _ _ h8
  have hP : IsPSD Q := by rw [hQQ]; exact (h5 _).1
  have hsum : minkSum ((List.replicate m (⟨0, 1, p⟩ : EllN n)).map EllN.set) = Ell 0 ((m : ℝ) ^ 2 • (1 : Matrix (Fin n) (Fin n) ℝ)) := by
    ext x
    rw [mem_ball (Nat.cast_nonneg m)]
    constructor
    · intro hx
      have h8 := (minkSum_support x (List.replicate m (⟨0, 1, p⟩ : EllN n)) (fun e he => (hes e he).psd.2)).2 ⟨x, hx, rfl⟩
      simp only [List.map_replicate, List.sum_replicate, one_mulVec, smul_zero, dotProduct_zero, zero_add, nsmul_eq_mul] at h8
      have h9 := Real.sq_sqrt (dot_self_nonneg x)
      have h10 := Real.sqrt_nonneg (x ⬝ᵥ x)
      rw [← h9] at h8 ⊢
      rw [Real.sqrt_sq h10] at h8
      have : Real.sqrt (x ⬝ᵥ x) ≤ m := by
        rcases h10.eq_or_lt with h | h
        · rw [← h]; exact Nat.cast_nonneg m
        · nlinarith
      exact pow_le_pow_left₀ h10 this 2
    · intro hx
      have hm0 : (0 : ℝ) < m := by exact_mod_cast (by omega : 0 < m)
      refine ⟨List.replicate m ((m : ℝ)⁻¹ • x), ?_, ?_⟩
      · rw [List.map_replicate, List.forall₂_iff_get]
        refine ⟨by simp, fun i hi hi' => ?_⟩
        simp only [List.get_eq_getElem, List.getElem_replicate]
        show _ ∈ Ell 0 (1 : Matrix (Fin n) (Fin n) ℝ)
        rw [ell_one]
        show ((m : ℝ)⁻¹ • x) ⬝ᵥ ((m : ℝ)⁻¹ • x) ≤ 1
        rw [smul_dotProduct, dotProduct_smul, smul_eq_mul, smul_eq_mul, ← mul_assoc, ← mul_inv, ← sq, inv_mul_le_iff₀ (by positivity), mul_one]
        exact hx
      · rw [List.sum_replicate, ← Nat.cast_smul_eq_nsmul ℝ, smul_smul, mul_inv_cancel₀ hm0.ne', one_smul]
  rw [hsum] at hQ
  obtain ⟨rfl, rfl⟩ := ell_inj hP (sq_psd n m) hQ
  exact ⟨h2, h3⟩

/-- **C161**, `is_internal`: true for the points of norm less than one plus the tolerance. -/
theorem C161_internal (E : Eigh) (G : Eig) (p : PropVals) (hp : p.ok) (h1 : p.absTol < 1) {n k : ℕ} (hn : n ≠ 0) (x : Arr ℝ)
    (X : Fin k → Fin n → ℝ) (hx : IsPoints x X) (mode : String) (hmode : mode = "u" ∨ mode = "i") :
    ∃ r, isInternal E G ⟨[1, 1], [(roundN n 1 p).obj], by rfl⟩ x (some mode) = .ok r ∧ r.shape = [k, 1] ∧
      ∀ j : Fin k, ∃ b, r.data[j.val]? = some b ∧ (b = true ↔ X j ⬝ᵥ X j < (1 + p.absTol) ^ 2) := by
  have hnear : ∀ y : Fin n → ℝ, (roundN n 1 p).Near y ↔ y ⬝ᵥ y < (1 + p.absTol) ^ 2 := by
    intro y
    have ht := hp.1
    have hset : ∀ s : ℝ, s ^ 2 • (roundN n 1 p).Q = s ^ 2 • (1 : Matrix (Fin n) (Fin n) ℝ) := fun s => by rw [roundN_one]
    constructor
    · rintro ⟨s, hs, hs1, hy⟩
      rw [hset] at hy
      have := (mem_ball hs.le y).1 hy
      have hs1 : s < 1 + p.absTol := hs1
      nlinarith
    · intro hy
      have h0 := Real.sqrt_nonneg (y ⬝ᵥ y)
      have h2 := Real.sq_sqrt (dot_self_nonneg y)
      have h3 : Real.sqrt (y ⬝ᵥ y) < 1 + p.absTol := by
        by_contra h
        nlinarith [not_lt.1 h]
      refine ⟨max 1 (Real.sqrt (y ⬝ᵥ y)), lt_max_of_lt_left one_pos, max_lt (by show (1 : ℝ) < 1 + p.absTol; linarith) h3, ?_⟩
      rw [hset]
      refine (mem_ball (le_max_of_le_left zero_le_one) y).2 ?_
      calc y ⬝ᵥ y = Real.sqrt (y ⬝ᵥ y) ^ 2 := h2.symm
        _ ≤ _ := pow_le_pow_left₀ h0 (le_max_right _ _) 2
  have hnd : ∀ e ∈ [roundN n 1 p], e.NonDeg := fun e he => by
    rw [List.mem_singleton] at he; subst he; rw [roundN_one]; exact one_nonDeg hp h1
  obtain ⟨⟨r, a1, a2, a3⟩, r', b1, b2, b3⟩ := C41_partial E G hn ⟨[1, 1], [(roundN n 1 p).obj], by rfl⟩ [roundN n 1 p] rfl (by simp) hnd
    ⟨1, 1, [], rfl, rfl⟩ x X hx
  rcases hmode with rfl | rfl
  · refine ⟨r, a1, a2, fun j => ?_⟩
    obtain ⟨b, hb, hb'⟩ := a3 j
    exact ⟨b, hb, by rw [hb', ← hnear]; simp⟩
  · refine ⟨r', b1, b2, fun j => ?_⟩
    obtain ⟨b, hb, hb'⟩ := b3 j
    exact ⟨b, hb, by rw [hb', ← hnear]; simp⟩

/-- Properties that meet the hypotheses. -/
private noncomputable def exP : PropVals := ⟨1 / 10, 1 / 10, 200, 200⟩

private theorem exP_ok : exP.ok := ⟨by norm_num [exP], by norm_num [exP], ⟨200, by norm_num [exP]⟩, ⟨200, by norm_num [exP]⟩⟩

/-- In space: the trace of the unit ball is three, and it is its own polar. -/
example (E : Eigh) (L : Lstsq) : ellUnitball E 3 exP.absTol exP.relTol exP.n2d exP.n3d = .ok (roundN 3 1 exP).obj ∧
    trace (.single (.inst (roundN 3 1 exP).obj)) = .ok [3] ∧ polar E L exP (Arr.vec [(roundN 3 1 exP).obj]) = .ok (Arr.vec [(roundN 3 1 exP).obj]) := by
  have h := (C161_numbers E exP exP_ok (by norm_num [exP]) (n := 3) (by norm_num)).2.2.1
  norm_num at h
  exact ⟨(C161_object E exP exP_ok 3).1, h, C161_polar E L exP exP_ok (by norm_num [exP]) (by norm_num)⟩

/-- In the plane: the sum of three discs, along the first axis. -/
example (E : Eigh) (G : Eig) (L : Lstsq) :
    minksumEa E G L exP (List.replicate 3 (roundN 2 1 exP).obj) (fun (i : Fin 2) (_ : Fin 1) => if i = 0 then 1 else 0) =
      .ok (Arr.vec [(roundN 2 3 exP).obj]) := by
  have h := (C161_minksum E G L exP exP_ok (by norm_num [exP]) (n := 2) (k := 1) (m := 3) (by norm_num) (by norm_num)
    (fun (i : Fin 2) (_ : Fin 1) => if i = 0 then 1 else 0) (fun j h => by simpa using congrFun h 0)).1
  simpa using h

end Ellipy.Ell
