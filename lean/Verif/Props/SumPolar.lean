import Verif.Props.UnitBall
import Verif.Props.MinksumMin

/-! Property theorems C164: `polar` of the approximations of a Minkowski sum. -/

namespace Ellipy.Ell
open Matrix Ellipy.LA

private theorem ray_polar {n : ℕ} {X : Set (Fin n → ℝ)} {l : Fin n → ℝ} {r : ℝ} (h : IsSupport X l r) {t : ℝ} (ht : 0 ≤ t) :
    t • l ∈ polarSet X ↔ t * r ≤ 1 := by
  constructor
  · intro h1
    obtain ⟨⟨x, hx, rfl⟩, -⟩ := h
    have := h1 x hx
    rwa [smul_dotProduct, smul_eq_mul] at this
  · intro h1 x hx
    rw [smul_dotProduct, smul_eq_mul]
    exact le_trans (mul_le_mul_of_nonneg_left (h.2 ⟨x, hx, rfl⟩) ht) h1

private theorem polar_anti {n : ℕ} {X Y : Set (Fin n → ℝ)} (h : X ⊆ Y) : polarSet Y ⊆ polarSet X := fun _ hl x hx => hl x (h hx)

private theorem ea_nonDeg {n : ℕ} {p : PropVals} (hp : p.ok) {es : List (EllN n)} (hes : ∀ e ∈ es, e.NonDeg) (htol : ∃ e ∈ es, p.absTol ≤ e.props.absTol)
    {Q : Matrix (Fin n) (Fin n) ℝ} (hQ : IsPSD Q) (hsub : minkSum (es.map EllN.set) ⊆ Ell (es.map EllN.c).sum Q) :
    (⟨(es.map EllN.c).sum, Q, p⟩ : EllN n).NonDeg := by
  obtain ⟨e0, he0, ht⟩ := htol
  refine ⟨hp, hQ.1, fun x hx => ?_⟩
  have h3 := (hes e0 he0).2.2 x hx
  obtain ⟨y, hy, hyx⟩ := (minkSum_support x es fun e he => (hes e he).psd.2).1
  have h5 := (mem_ell_sqrt hQ y).1 (hsub hy) x
  have hyx : x ⬝ᵥ y = _ := hyx
  rw [hyx] at h5
  have h6 : Real.sqrt (x ⬝ᵥ e0.Q *ᵥ x) ≤ (es.map fun e => Real.sqrt (x ⬝ᵥ e.Q *ᵥ x)).sum := by
    refine List.single_le_sum ?_ _ (List.mem_map_of_mem (f := fun e : EllN n => Real.sqrt (x ⬝ᵥ e.Q *ᵥ x)) he0)
    intro r hr
    obtain ⟨e, -, rfl⟩ := List.mem_map.1 hr
    exact Real.sqrt_nonneg _
  have h7 : Real.sqrt (x ⬝ᵥ e0.Q *ᵥ x) ≤ Real.sqrt (x ⬝ᵥ Q *ᵥ x) := by linarith
  have h8 := (Real.sqrt_le_sqrt_iff (hQ.2 x)).1 h7
  have h9 := mul_le_mul_of_nonneg_right ht (dot_self_nonneg x)
  show p.absTol * (x ⬝ᵥ x) < x ⬝ᵥ Q *ᵥ x
  linarith

/-- **C164**, external approximations: if the origin is an interior point of the sum, `polar` accepts every external approximation.  The result lies in the
polar of the sum, and both have the same points on the ray of the direction. -/
theorem C164_ea (E : Eigh) (G : Eig) (L : Lstsq) (p : PropVals) (hp : p.ok) {n k : ℕ} (hn : n ≠ 0) (es : List (EllN n)) (h2 : 2 ≤ es.length)
    (hes : ∀ e ∈ es, e.NonDeg) (htol : ∃ e ∈ es, p.absTol ≤ e.props.absTol) (h0 : OriginInside (minkSum (es.map EllN.set)))
    (M : Matrix (Fin n) (Fin k) ℝ) (hM : ∀ j, (fun i => M i j) ≠ 0) :
    ∃ r s : Fin k → EllN n, minksumEa E G L p (es.map EllN.obj) M = .ok (Arr.vec (List.ofFn fun j => (r j).obj)) ∧
      ∀ j, polar E L p (Arr.vec [(r j).obj]) = .ok (Arr.vec [(s j).obj]) ∧ (s j).set ⊆ polarSet (minkSum (es.map EllN.set)) ∧
        ∀ t : ℝ, 0 ≤ t → ((t • fun i => M i j) ∈ (s j).set ↔ (t • fun i => M i j) ∈ polarSet (minkSum (es.map EllN.set))) := by
  obtain ⟨Q, hea, h⟩ := C43 E G L p hp hn es h2 hes M hM
  have key : ∀ j, ∃ s : EllN n, polar E L p (Arr.vec [(⟨(es.map EllN.c).sum, Q j, p⟩ : EllN n).obj]) = .ok (Arr.vec [s.obj]) ∧
      s.set = polarSet (Ell (es.map EllN.c).sum (Q j)) := by
    intro j
    obtain ⟨ε, hε, h0⟩ := h0
    obtain ⟨s, h3, -, h4⟩ := C46_partial E L p hp hn _ (ea_nonDeg hp hes htol (h j).1 (h j).2.1) ⟨ε, hε, fun x hx => (h j).2.1 (h0 x hx)⟩
    exact ⟨s, h3, h4⟩
  choose s hs hset using key
  refine ⟨fun j => ⟨(es.map EllN.c).sum, Q j, p⟩, s, hea, fun j => ⟨hs j, ?_, fun t ht => ?_⟩⟩
  · rw [hset j]; exact polar_anti (h j).2.1
  · obtain ⟨r, h3, h4⟩ := (h j).2.2
    rw [hset j, ray_polar h3 ht, ray_polar h4 ht]

/-- **C164**: the external approximations in all directions give the whole polar of the sum. -/
theorem C164_all (E : Eigh) (G : Eig) (L : Lstsq) (p : PropVals) (hp : p.ok) {n : ℕ} (hn : n ≠ 0) (es : List (EllN n)) (h2 : 2 ≤ es.length)
    (hes : ∀ e ∈ es, e.NonDeg) (htol : ∃ e ∈ es, p.absTol ≤ e.props.absTol) (h0 : OriginInside (minkSum (es.map EllN.set))) (x : Fin n → ℝ) :
    x ∈ polarSet (minkSum (es.map EllN.set)) ↔ ∃ (l : Fin n → ℝ) (r s : EllN n), l ≠ 0 ∧
      minksumEa E G L p (es.map EllN.obj) (colMat l) = .ok (Arr.vec [r.obj]) ∧ polar E L p (Arr.vec [r.obj]) = .ok (Arr.vec [s.obj]) ∧ x ∈ s.set := by
  have hone : ∀ l : Fin n → ℝ, l ≠ 0 → ∃ r s : EllN n, minksumEa E G L p (es.map EllN.obj) (colMat l) = .ok (Arr.vec [r.obj]) ∧
      polar E L p (Arr.vec [r.obj]) = .ok (Arr.vec [s.obj]) ∧ s.set ⊆ polarSet (minkSum (es.map EllN.set)) ∧
        ∀ t : ℝ, 0 ≤ t → (t • l ∈ s.set ↔ t • l ∈ polarSet (minkSum (es.map EllN.set))) := by
    intro l hl
    obtain ⟨r, s, h3, h4⟩ := C164_ea E G L p hp hn es h2 hes htol h0 (colMat l) (fun _ => hl)
    exact ⟨r 0, s 0, by simpa using h3, (h4 0).1, (h4 0).2.1, (h4 0).2.2⟩
  constructor
  · intro hx
    by_cases hx0 : x = 0
    · have hl : (fun _ => 1 : Fin n → ℝ) ≠ 0 := fun h => by simpa using congrFun h ⟨0, Nat.pos_of_ne_zero hn⟩
      obtain ⟨r, s, h3, h4, -, h5⟩ := hone _ hl
      refine ⟨_, r, s, hl, h3, h4, ?_⟩
      have := (h5 0 le_rfl).mpr (by rw [zero_smul, ← hx0]; exact hx)
      rwa [zero_smul, ← hx0] at this
    · obtain ⟨r, s, h3, h4, -, h5⟩ := hone x hx0
      refine ⟨x, r, s, hx0, h3, h4, ?_⟩
      have := (h5 1 zero_le_one).mpr (by rwa [one_smul])
      rwa [one_smul] at this
  · rintro ⟨l, r, s, hl, h3, h4, h5⟩
    obtain ⟨r', s', h3', h4', h6, -⟩ := hone l hl
    have hr : r.obj = r'.obj := by
      rw [h3] at h3'
      exact Option.some.inj (congrArg (fun a => a.data.head?) (Except.ok.inj h3'))
    rw [← hr, h4] at h4'
    have hs : s.obj = s'.obj := Option.some.inj (congrArg (fun a => a.data.head?) (Except.ok.inj h4'))
    have hs' : s.c = s'.c ∧ s.Q = s'.Q := by
      simp only [EllN.obj, EllObj.mk.injEq, heq_eq_eq, true_and] at hs
      exact ⟨hs.1, hs.2.1⟩
    refine h6 ?_
    rw [EllN.set, ← hs'.1, ← hs'.2]
    exact h5

/-- **C164**, internal approximations: if `polar` is given a non-degenerate internal approximation with the origin inside, the result contains the polar of the sum. -/
theorem C164_ia (E : Eigh) (G : Eig) (L : Lstsq) (p : PropVals) (hp : p.ok) {n k : ℕ} (hn : n ≠ 0) (es : List (EllN n)) (h2 : 2 ≤ es.length)
    (hes : ∀ e ∈ es, e.NonDeg) (M : Matrix (Fin n) (Fin k) ℝ) (hM : ∀ j, (fun i => M i j) ≠ 0) :
    ∃ r : Fin k → EllN n, minksumIa E G p (es.map EllN.obj) M = .ok (Arr.vec (List.ofFn fun j => (r j).obj)) ∧
      ∀ j, (r j).NonDeg → OriginInside (r j).set → ∃ s : EllN n, polar E L p (Arr.vec [(r j).obj]) = .ok (Arr.vec [s.obj]) ∧
        polarSet (minkSum (es.map EllN.set)) ⊆ s.set := by
  obtain ⟨Q, hia, h⟩ := C44 E G p hp hn es h2 hes M hM
  refine ⟨fun j => ⟨(es.map EllN.c).sum, Q j, p⟩, hia, fun j hj h0 => ?_⟩
  obtain ⟨s, h3, -, h4⟩ := C46_partial E L p hp hn _ hj h0
  refine ⟨s, h3, ?_⟩
  rw [h4]
  exact polar_anti (h j).2.1

private theorem three_inside : OriginInside (minkSum (three.map EllN.set)) := by
  have hz : ∀ e ∈ three, (0 : Fin 2 → ℝ) ∈ e.set := by
    intro e he
    have hc : e.c = 0 := by
      simp only [three, List.mem_cons, List.not_mem_nil, or_false] at he
      rcases he with rfl | rfl | rfl <;> rfl
    rw [EllN.set, mem_ell_support (three_nonDeg e he).psd.2, hc]
    intro l
    rw [sub_zero, dotProduct_zero]
    have := (three_nonDeg e he).psd.2.2 l
    simpa using this
  refine ⟨1, one_pos, fun x hx => ⟨[x, 0, 0], ?_, by simp⟩⟩
  refine List.Forall₂.cons ?_ (List.Forall₂.cons (hz _ (by simp [three])) (List.Forall₂.cons (hz _ (by simp [three])) List.Forall₂.nil))
  show x ∈ Ell 0 !![1, 0; 0, 4]
  rw [mem_ell_support (three_nonDeg _ (List.mem_cons_self)).psd.2]
  intro l
  have h := dot_sq_le_mul l x
  rw [sub_zero]
  simp only [dotProduct, mulVec, Fin.sum_univ_two, of_apply, cons_val', cons_val_zero, cons_val_one, cons_val_fin_one] at h hx ⊢
  nlinarith [mul_self_nonneg (l 0), mul_self_nonneg (l 1), mul_nonneg (mul_self_nonneg (l 0)) (sub_nonneg.mpr hx),
    mul_nonneg (mul_self_nonneg (l 1)) (sub_nonneg.mpr hx)]

/-- Three ellipses about the origin and one direction. -/
example (E : Eigh) (G : Eig) (L : Lstsq) : ∃ r s : EllN 2, minksumEa E G L stdProps (three.map EllN.obj) (colMat ![1, 2]) = .ok (Arr.vec [r.obj]) ∧
    polar E L stdProps (Arr.vec [r.obj]) = .ok (Arr.vec [s.obj]) ∧ s.set ⊆ polarSet (minkSum (three.map EllN.set)) := by
  obtain ⟨r, s, h1, h2⟩ := C164_ea E G L stdProps stdProps_ok two_ne_zero three (by simp [three]) three_nonDeg ⟨_, List.mem_cons_self, le_rfl⟩
    three_inside (colMat ![1, 2]) (fun _ h => by simpa [colMat] using congrFun h 0)
  exact ⟨r 0, s 0, by simpa using h1, (h2 0).1, (h2 0).2.1⟩

/-- Two unit discs: the internal approximation is the disc of radius 2, which meets the hypotheses. -/
example (E : Eigh) (G : Eig) (L : Lstsq) : ∃ r s : EllN 2, minksumIa E G stdProps (List.replicate 2 (roundN 2 1 stdProps).obj) (colMat ![1, 2]) =
      .ok (Arr.vec [r.obj]) ∧ polar E L stdProps (Arr.vec [r.obj]) = .ok (Arr.vec [s.obj]) ∧
    polarSet (minkSum ((List.replicate 2 (roundN 2 1 stdProps)).map EllN.set)) ⊆ s.set := by
  have hq : ∀ r : ℝ, 1 ≤ r → (roundN 2 r stdProps).NonDeg := by
    intro r hr
    refine ⟨stdProps_ok, ?_, fun x hx => ?_⟩
    · show (r ^ 2 • (1 : Matrix (Fin 2) (Fin 2) ℝ))ᵀ = r ^ 2 • 1
      rw [transpose_smul, transpose_one]
    · show (1 / 10 ^ 7 : ℝ) * _ < x ⬝ᵥ (r ^ 2 • (1 : Matrix (Fin 2) (Fin 2) ℝ)) *ᵥ x
      rw [smul_mulVec, one_mulVec, dotProduct_smul, smul_eq_mul]
      have h1 := dot_self_pos hx
      exact mul_lt_mul_of_pos_right (by nlinarith) h1
  have hl : ∀ _ : Fin 1, (fun i => colMat ![1, 2] i 0) ≠ (0 : Fin 2 → ℝ) := fun _ h => by simpa [colMat] using congrFun h 0
  obtain ⟨r, h1, h2⟩ := C164_ia E G L stdProps stdProps_ok two_ne_zero (List.replicate 2 (roundN 2 1 stdProps)) (by simp)
    (fun e he => by rw [List.eq_of_mem_replicate he]; exact hq 1 le_rfl) (colMat ![1, 2]) (fun j => by rw [Subsingleton.elim j 0]; exact hl 0)
  have h3 := (C161_minksum E G L stdProps stdProps_ok (by unfold stdProps; norm_num) two_ne_zero le_rfl (colMat ![1, 2])
    (fun j => by rw [Subsingleton.elim j 0]; exact hl 0)).2
  rw [List.map_replicate] at h1
  have h4 : (r 0).obj = (roundN 2 2 stdProps).obj := by
    rw [h1] at h3
    simpa using Option.some.inj (congrArg (fun a => a.data.head?) (Except.ok.inj h3))
  have h5 : r 0 = roundN 2 2 stdProps := by
    generalize r 0 = a at h4
    obtain ⟨c, Q, ⟨t1, t2, t3, t4⟩⟩ := a
    simp only [EllN.obj, EllObj.mk.injEq, heq_eq_eq, true_and] at h4
    obtain ⟨rfl, rfl, rfl, rfl, rfl, rfl⟩ := h4
    rfl
  obtain ⟨s, h6, h7⟩ := h2 0 (by rw [h5]; exact hq 2 (by norm_num)) (by
    rw [h5]
    refine ⟨1, one_pos, fun x hx => ?_⟩
    rw [EllN.set, mem_ell_support (hq 2 (by norm_num)).psd.2]
    intro l
    show (l ⬝ᵥ (x - 0)) ^ 2 ≤ l ⬝ᵥ ((2 : ℝ) ^ 2 • (1 : Matrix (Fin 2) (Fin 2) ℝ)) *ᵥ l
    rw [smul_mulVec, one_mulVec, dotProduct_smul, smul_eq_mul, sub_zero]
    have := dot_sq_le_mul l x
    have := dot_self_nonneg l
    nlinarith)
  exact ⟨r 0, s, by simpa using h1, h6, h7⟩

end Ellipy.Ell
