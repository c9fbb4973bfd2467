import Verif.Props.IsEqual
import Verif.Props.PolarTwice

/-! Property theorems C139: what `==` says about the sets of the ellipsoids. -/

namespace Ellipy.Ell
open Matrix Ellipy.LA

variable {lk : List (PyVal ℝ) → Kind} {fmt : Fmt ℝ}

/-- Every point of `X` is within the distance `δ` of a point of `Y`. -/
def Near {n : ℕ} (δ : ℝ) (X Y : Set (Fin n → ℝ)) : Prop := ∀ x ∈ X, ∃ y ∈ Y, (x - y) ⬝ᵥ (x - y) ≤ δ ^ 2

/-! ### Auxiliary facts -/

private theorem entry_le {a r M x y : ℝ} (ha : 0 ≤ a) (hr : 0 ≤ r) (hx : |x| ≤ M) (hy : |y| ≤ M)
    (h : EntryClose (.fin a) (some (.fin r)) (.fin x : XF ℝ) (.fin y)) : |x - y| ≤ max a (r * M) := by
  rcases h with h | ⟨rt, h1, h2, h3⟩
  · exact le_max_of_le_left h
  · obtain rfl : XF.fin r = rt := Option.some.inj h1
    have h2' : a < |x| + |y| := h2
    have h3' : |x - y| / ((|x| + |y|) / 2) ≤ r := h3
    rw [div_le_iff₀ (by linarith)] at h3'
    refine le_max_of_le_right (h3'.trans (mul_le_mul_of_nonneg_left (by linarith) hr))

private theorem sum_sq_le {n : ℕ} {w : Fin n → ℝ} {b : ℝ} (h : ∀ i, |w i| ≤ b) : w ⬝ᵥ w ≤ n * b ^ 2 := by
  unfold dotProduct
  refine (Finset.sum_le_sum (fun i _ => (?_ : w i * w i ≤ b ^ 2))).trans (by simp)
  rw [← sq, ← sq_abs]
  exact pow_le_pow_left₀ (abs_nonneg _) (h i) 2

private theorem row_le {n : ℕ} {D : Matrix (Fin n) (Fin n) ℝ} {δ : ℝ} (hδ : 0 ≤ δ) (hD : ∀ i j, |D i j| ≤ δ) {u : Fin n → ℝ}
    (hu : u ⬝ᵥ u ≤ 1) (i : Fin n) : |(D *ᵥ u) i| ≤ Real.sqrt n * δ := by
  have h1 : ((D *ᵥ u) i) ^ 2 ≤ n * δ ^ 2 := by
    have h2 := dot_sq_le_mul (D i) u
    have h3 : D i ⬝ᵥ D i ≤ n * δ ^ 2 := sum_sq_le (hD i)
    have h4 : 0 ≤ D i ⬝ᵥ D i := dot_self_nonneg _
    show (D i ⬝ᵥ u) ^ 2 ≤ _
    nlinarith [dot_self_nonneg u]
  rw [← Real.sqrt_sq hδ, ← Real.sqrt_mul (Nat.cast_nonneg n)]
  exact Real.abs_le_sqrt h1

/-- The widths along the axes bound the centre and the entries of the root. -/
private theorem box {n : ℕ} {c : Fin n → ℝ} {Q R : Matrix (Fin n) (Fin n) ℝ} (hQ : IsPSD Q) (hR : IsPSD R) (hRR : R * R = Q) {M : ℝ}
    (h : ∀ x ∈ Ell c Q, ∀ i, |x i| ≤ M) : (∀ i, |c i| ≤ M) ∧ ∀ i j, |R i j| ≤ M := by
  refine ⟨h c (center_mem hQ), fun i j => ?_⟩
  have hu : (Pi.single j 1 : Fin n → ℝ) ⬝ᵥ Pi.single j 1 ≤ 1 := by simp
  have hc : R *ᵥ (Pi.single j 1 : Fin n → ℝ) = fun i => R i j := by
    funext k
    simp
  have h1 := h (c + R *ᵥ Pi.single j 1) ⟨R, hR, hRR, _, hu, rfl⟩ i
  have h2 := h (c + R *ᵥ (-Pi.single j 1)) ⟨R, hR, hRR, _, by simp, rfl⟩ i
  rw [mulVec_neg] at h2
  rw [hc] at h1 h2
  have h1' : |c i + R i j| ≤ M := h1
  have h2' : |c i + -R i j| ≤ M := h2
  rw [abs_le] at h1' h2' ⊢
  constructor <;> linarith [h1'.1, h1'.2, h2'.1, h2'.2]

private theorem near_of {n : ℕ} {c c' : Fin n → ℝ} {Q Q' R S : Matrix (Fin n) (Fin n) ℝ} (hR : IsPSD R) (hRR : R * R = Q) (hS : IsPSD S)
    (hSS : S * S = Q') {δ : ℝ} (hδ : 0 ≤ δ) (hc : ∀ i, |c i - c' i| ≤ δ) (hD : ∀ i j, |R i j - S i j| ≤ δ) :
    Near ((n + Real.sqrt n) * δ) (Ell c Q) (Ell c' Q') := by
  rintro x ⟨R', hR', hRR', u, hu, rfl⟩
  obtain rfl : R' = R := psd_root_unique hR' hR (hRR'.trans hRR.symm)
  refine ⟨c' + S *ᵥ u, ⟨S, hS, hSS, u, hu, rfl⟩, ?_⟩
  have h1 : c + R' *ᵥ u - (c' + S *ᵥ u) = (c - c') + (R' - S) *ᵥ u := by
    rw [sub_mulVec]; abel
  rw [h1]
  refine (sum_sq_le (b := δ + Real.sqrt n * δ) (fun i => ?_)).trans ?_
  · refine (abs_add_le _ _).trans (add_le_add (hc i) (row_le hδ (fun i j => hD i j) hu i))
  · have e : Real.sqrt n ^ 2 = n := Real.sq_sqrt (Nat.cast_nonneg n)
    have : ((n + Real.sqrt n) * δ) ^ 2 = (n : ℝ) * (δ + Real.sqrt n * δ) ^ 2 := by
      rw [← e]; ring_nf
      rw [Real.sqrt_sq (Real.sqrt_nonneg _)]
      ring
    rw [this]

private theorem abs_sub_symm {x y δ : ℝ} (h : |x - y| ≤ δ) : |y - x| ≤ δ := by rwa [abs_sub_comm]

/-! ### Equal means near -/

/-- **C139**: two ellipsoids in the box `[-M, M]ⁿ` that compare as equal are within `(n + √n)·max(absTol, relTol·M)` of each other, with the
smaller tolerances of the two. -/
theorem C139_near (E : Eigh) {n : ℕ} {e f : EllN n} (he : e.PSD) (hf : f.PSD) {M : ℝ} (hM : ∀ x ∈ e.set ∪ f.set, ∀ i, |x i| ≤ M)
    (h : eqOp lk fmt (ellClass E) e.obj f.obj = .ok true) :
    Near ((n + Real.sqrt n) * max (min e.props.absTol f.props.absTol) (min e.props.relTol f.props.relTol * M)) e.set f.set ∧
      Near ((n + Real.sqrt n) * max (min e.props.absTol f.props.absTol) (min e.props.relTol f.props.relTol * M)) f.set e.set := by
  obtain ⟨v, h1, h2⟩ := C48_scalar (lk := lk) (fmt := fmt) E (e := e.obj) (f := f.obj) he.1 hf.1 he.2 hf.2
  rw [h] at h1
  obtain ⟨hn, hc, R, S, hR, hRR, hS, hSS, hD⟩ := h2.1 (Except.ok.inj h1).symm
  have ha : 0 ≤ min e.props.absTol f.props.absTol := le_min he.1.1.le hf.1.1.le
  have hr : 0 ≤ min e.props.relTol f.props.relTol := le_min he.1.2.1.le hf.1.2.1.le
  have hδ : 0 ≤ max (min e.props.absTol f.props.absTol) (min e.props.relTol f.props.relTol * M) := le_max_of_le_left ha
  obtain ⟨b1, b2⟩ := box he.2 hR hRR (fun x hx => hM x (Or.inl hx))
  obtain ⟨b3, b4⟩ := box hf.2 hS hSS (fun x hx => hM x (Or.inr hx))
  have k1 : ∀ i, |e.c i - f.c i| ≤ max (min e.props.absTol f.props.absTol) (min e.props.relTol f.props.relTol * M) :=
    fun i => entry_le ha hr (b1 i) (b3 i) (hc i)
  have k2 : ∀ i j, |R i j - S i j| ≤ max (min e.props.absTol f.props.absTol) (min e.props.relTol f.props.relTol * M) :=
    fun i j => entry_le ha hr (b2 i j) (b4 i j) (hD i j)
  exact ⟨near_of hR hRR hS hSS hδ k1 k2, near_of hS hSS hR hRR hδ (fun i => abs_sub_symm (k1 i)) (fun i j => abs_sub_symm (k2 i j))⟩

/-! ### Near means equal -/

/-- **C139**: ellipsoids that are the same set compare as equal, whatever their tolerances. -/
theorem C139_same (E : Eigh) {n : ℕ} {e f : EllN n} (he : e.PSD) (hf : f.PSD) (h : e.set = f.set) :
    eqOp lk fmt (ellClass E) e.obj f.obj = .ok true := by
  obtain ⟨v, h1, h2⟩ := C48_scalar (lk := lk) (fmt := fmt) E (e := e.obj) (f := f.obj) he.1 hf.1 he.2 hf.2
  obtain ⟨hc, hQ⟩ := ell_inj he.2 hf.2 h
  obtain ⟨S, hS, hSS⟩ := exists_root he.2
  have ht : 0 ≤ min e.props.absTol f.props.absTol := le_min he.1.1.le hf.1.1.le
  rw [h1, h2.2]
  refine ⟨rfl, fun i => ?_, S, S, hS, hSS, hS, hSS.trans hQ, fun i j => EntryClose.refl (show ValidTol (.fin _) from ht) _ _⟩
  show EntryClose _ _ (.fin (e.c i)) (.fin (f.c i))
  rw [hc]
  exact EntryClose.refl (show ValidTol (.fin _) from ht) _ _

/-- Near sets have near support functions. -/
private theorem supp_le {n : ℕ} {c c' : Fin n → ℝ} {Q Q' : Matrix (Fin n) (Fin n) ℝ} (hQ : IsPSD Q) (hQ' : IsPSD Q') {ε : ℝ} (hε : 0 ≤ ε)
    (h : Near ε (Ell c Q) (Ell c' Q')) {l : Fin n → ℝ} (hl : l ⬝ᵥ l = 1) :
    l ⬝ᵥ c + Real.sqrt (l ⬝ᵥ Q *ᵥ l) ≤ l ⬝ᵥ c' + Real.sqrt (l ⬝ᵥ Q' *ᵥ l) + ε := by
  obtain ⟨x, hx, hx'⟩ := (ell_support (c := c) hQ l).1
  obtain ⟨y, hy, hd⟩ := h x hx
  have h1 := (ell_support (c := c') hQ' l).2 ⟨y, hy, rfl⟩
  have h2 := dot_sq_le_mul l (x - y)
  rw [hl, one_mul, dotProduct_sub] at h2
  have h3 : l ⬝ᵥ x - l ⬝ᵥ y ≤ ε := by
    exact (abs_le.1 (abs_le_of_sq_le_sq (h2.trans hd) hε)).2
  simp only at hx' h1
  linarith

/-- The difference of the roots along its eigenvectors. -/
theorem root_eig_le {n : ℕ} {R S : Matrix (Fin n) (Fin n) ℝ} (hR : IsPSD R) (hS : IsPSD S) {v : Fin n → ℝ} (hv : v ⬝ᵥ v = 1) {t : ℝ}
    (h : (R - S) *ᵥ v = t • v) : t ^ 2 ≤ |v ⬝ᵥ (R * R) *ᵥ v - v ⬝ᵥ (S * S) *ᵥ v| := by
  have e1 : v ⬝ᵥ (R * R) *ᵥ v = (R *ᵥ v) ⬝ᵥ (R *ᵥ v) := by rw [← mulVec_mulVec, symm_dot hR.1]
  have e2 : v ⬝ᵥ (S * S) *ᵥ v = (S *ᵥ v) ⬝ᵥ (S *ᵥ v) := by rw [← mulVec_mulVec, symm_dot hS.1]
  have e3 : R *ᵥ v = S *ᵥ v + t • v := by rw [← h, sub_mulVec]; abel
  have p1 := hR.2 v
  have p2 := hS.2 v
  have e4 : v ⬝ᵥ R *ᵥ v = v ⬝ᵥ S *ᵥ v + t := by
    rw [e3, dotProduct_add, dotProduct_smul, hv, smul_eq_mul, mul_one]
  have e5 : (R *ᵥ v) ⬝ᵥ (R *ᵥ v) - (S *ᵥ v) ⬝ᵥ (S *ᵥ v) = t * (2 * (v ⬝ᵥ S *ᵥ v) + t) := by
    rw [e3]
    simp only [dotProduct_add, add_dotProduct, smul_dotProduct, dotProduct_smul, smul_eq_mul, hv, dotProduct_comm (S *ᵥ v) v]
    ring
  rw [e1, e2, e5]
  rcases le_total 0 t with ht | ht
  · refine le_trans ?_ (le_abs_self _)
    nlinarith
  · refine le_trans ?_ (neg_le_abs _)
    rw [e4] at p1
    nlinarith

/-- A symmetric matrix with small eigenvalues has small entries. -/
theorem entries_le_of_eig {n : ℕ} {D : Matrix (Fin n) (Fin n) ℝ} (hD : Dᵀ = D) {a : ℝ} (ha : 0 ≤ a)
    (h : ∀ (v : Fin n → ℝ) (t : ℝ), v ⬝ᵥ v = 1 → D *ᵥ v = t • v → |t| ≤ a) (i j : Fin n) : |D i j| ≤ a := by
  obtain ⟨d, V, -, hV, hE⟩ := exists_eigh D hD
  have hV' : V * Vᵀ = 1 := orth_comm hV
  have hdec : D = V * diagonal d * Vᵀ := by rw [← hE, Matrix.mul_assoc, hV', Matrix.mul_one]
  have hd : ∀ k, |d k| ≤ a := by
    intro k
    refine h (fun i => V i k) (d k) ?_ ?_
    · have := congrFun (congrFun hV k) k
      rw [mul_apply, one_apply_eq] at this
      exact this
    · funext i
      have := congrFun (congrFun hE i) k
      rw [mul_apply, mul_diagonal] at this
      show ∑ x, D i x * V x k = d k * V i k
      rw [this, mul_comm]
  have hrow : ∀ i, ∑ k, V i k * V i k = 1 := fun i => by
    have := congrFun (congrFun hV' i) i
    rwa [mul_apply, one_apply_eq] at this
  rw [hdec, mul_apply]
  refine (Finset.abs_sum_le_sum_abs _ _).trans ?_
  have hk : ∀ k, |(V * diagonal d) i k * Vᵀ k j| ≤ a / 2 * (V i k * V i k) + a / 2 * (V j k * V j k) := by
    intro k
    rw [mul_diagonal, transpose_apply, abs_mul, abs_mul]
    have h1 := hd k
    have h2 : |V i k| * |V j k| ≤ (V i k * V i k + V j k * V j k) / 2 := by
      rw [← abs_mul_abs_self (V i k), ← abs_mul_abs_self (V j k)]
      nlinarith [sq_nonneg (|V i k| - |V j k|)]
    have h3 : 0 ≤ |V i k| * |V j k| := by positivity
    calc |V i k| * |d k| * |V j k| = |d k| * (|V i k| * |V j k|) := by ring
      _ ≤ a * ((V i k * V i k + V j k * V j k) / 2) := mul_le_mul h1 h2 h3 ha
      _ = _ := by ring
  refine (Finset.sum_le_sum (fun k _ => hk k)).trans ?_
  rw [Finset.sum_add_distrib, ← Finset.mul_sum, ← Finset.mul_sum, hrow, hrow]
  linarith

/-- **C139**: two ellipsoids of radius at most `r` that are within `ε` of each other compare as equal when `ε ≤ absTol` and
`2·r·ε ≤ absTol²`, with the smaller absolute tolerance. -/
theorem C139_close (E : Eigh) {n : ℕ} {e f : EllN n} (he : e.PSD) (hf : f.PSD) {r ε : ℝ} (hε : 0 ≤ ε)
    (hre : ∀ x ∈ e.set, (x - e.c) ⬝ᵥ (x - e.c) ≤ r ^ 2) (hrf : ∀ x ∈ f.set, (x - f.c) ⬝ᵥ (x - f.c) ≤ r ^ 2) (hr : 0 ≤ r)
    (h1 : Near ε e.set f.set) (h2 : Near ε f.set e.set)
    (ha : ε ≤ min e.props.absTol f.props.absTol) (ha2 : 2 * r * ε ≤ min e.props.absTol f.props.absTol ^ 2) :
    eqOp lk fmt (ellClass E) e.obj f.obj = .ok true := by
  obtain ⟨v, g1, g2⟩ := C48_scalar (lk := lk) (fmt := fmt) E (e := e.obj) (f := f.obj) he.1 hf.1 he.2 hf.2
  have ht : 0 ≤ min e.props.absTol f.props.absTol := le_min he.1.1.le hf.1.1.le
  have hs : ∀ l : Fin n → ℝ, l ⬝ᵥ l = 1 → |l ⬝ᵥ e.c - l ⬝ᵥ f.c| ≤ ε ∧
      |Real.sqrt (l ⬝ᵥ e.Q *ᵥ l) - Real.sqrt (l ⬝ᵥ f.Q *ᵥ l)| ≤ ε := by
    intro l hl
    have hl' : (-l) ⬝ᵥ (-l) = 1 := by rw [neg_dotProduct_neg, hl]
    have a1 := supp_le he.2 hf.2 hε h1 hl
    have a2 := supp_le hf.2 he.2 hε h2 hl
    have a3 := supp_le he.2 hf.2 hε h1 hl'
    have a4 := supp_le hf.2 he.2 hε h2 hl'
    simp only [neg_dotProduct, mulVec_neg, dotProduct_neg, neg_neg] at a3 a4
    constructor <;> rw [abs_le] <;> constructor <;> linarith
  have hrad : ∀ {g : EllN n}, IsPSD g.Q → (∀ x ∈ g.set, (x - g.c) ⬝ᵥ (x - g.c) ≤ r ^ 2) → ∀ l : Fin n → ℝ, l ⬝ᵥ l = 1 →
      Real.sqrt (l ⬝ᵥ g.Q *ᵥ l) ≤ r := by
    intro g hg hgr l hl
    obtain ⟨x, hx, hx'⟩ := (ell_support (c := g.c) hg l).1
    have b1 := dot_sq_le_mul l (x - g.c)
    rw [hl, one_mul] at b1
    have b2 := (abs_le.1 (abs_le_of_sq_le_sq (b1.trans (hgr x hx)) hr)).2
    rw [dotProduct_sub] at b2
    simp only at hx'
    linarith
  obtain ⟨R, hR, hRR⟩ := exists_root he.2
  obtain ⟨S, hS, hSS⟩ := exists_root hf.2
  have k1 : ∀ i : Fin n, |e.c i - f.c i| ≤ min e.props.absTol f.props.absTol := by
    intro i
    have := (hs (Pi.single i 1) (by simp)).1
    rw [single_one_dotProduct, single_one_dotProduct] at this
    exact this.trans ha
  have k2 : ∀ i j : Fin n, |(R - S) i j| ≤ min e.props.absTol f.props.absTol := by
    refine entries_le_of_eig (by rw [transpose_sub, hR.1, hS.1]) ht (fun v t hv htv => ?_)
    refine abs_le_of_sq_le_sq ?_ ht
    refine le_trans ?_ ha2
    refine (root_eig_le hR hS hv htv).trans ?_
    rw [hRR, hSS]
    have q1 := Real.mul_self_sqrt (he.2.2 v)
    have q2 := Real.mul_self_sqrt (hf.2.2 v)
    have q3 := (hs v hv).2
    have q4 := hrad he.2 hre v hv
    have q5 := hrad hf.2 hrf v hv
    have q6 := Real.sqrt_nonneg (v ⬝ᵥ e.Q *ᵥ v)
    have q7 := Real.sqrt_nonneg (v ⬝ᵥ f.Q *ᵥ v)
    rw [← q1, ← q2, show ∀ x y : ℝ, x * x - y * y = (x - y) * (x + y) from fun x y => by ring, abs_mul, abs_of_nonneg (add_nonneg q6 q7)]
    calc _ ≤ ε * (r + r) := mul_le_mul q3 (add_le_add q4 q5) (add_nonneg q6 q7) hε
      _ = 2 * r * ε := by ring
  rw [g1, g2.2]
  exact ⟨rfl, fun i => Or.inl (k1 i), R, S, hR, hRR, hS, hSS, fun i j => Or.inl (k2 i j)⟩

/-! ### Tolerances and moves -/

/-- **C139**: ellipsoids that compare as equal still do so after the tolerances have been made larger. -/
theorem C139_looser (E : Eigh) {n : ℕ} {e f : EllN n} (he : e.PSD) (hf : f.PSD) {p q : PropVals} (hp : p.ok) (hq : q.ok)
    (h1 : min e.props.absTol f.props.absTol ≤ min p.absTol q.absTol) (h2 : min e.props.relTol f.props.relTol ≤ min p.relTol q.relTol)
    (h : eqOp lk fmt (ellClass E) e.obj f.obj = .ok true) :
    eqOp lk fmt (ellClass E) (⟨e.c, e.Q, p⟩ : EllN n).obj (⟨f.c, f.Q, q⟩ : EllN n).obj = .ok true := by
  obtain ⟨v, g1, g2⟩ := C48_scalar (lk := lk) (fmt := fmt) E (e := e.obj) (f := f.obj) he.1 hf.1 he.2 hf.2
  obtain ⟨w, k1, k2⟩ := C48_scalar (lk := lk) (fmt := fmt) E (e := (⟨e.c, e.Q, p⟩ : EllN n).obj) (f := (⟨f.c, f.Q, q⟩ : EllN n).obj) hp hq he.2 hf.2
  rw [h] at g1
  obtain ⟨hn, hc, R, S, hR, hRR, hS, hSS, hD⟩ := g2.1 (Except.ok.inj g1).symm
  have ha : ValidTol (.fin (min e.obj.absTol f.obj.absTol) : XF ℝ) := show (0 : ℝ) ≤ _ from le_min he.1.1.le hf.1.1.le
  have ta : TolLE (.fin (min e.obj.absTol f.obj.absTol) : XF ℝ) (.fin (min p.absTol q.absTol)) := h1
  have tr : RelTolLE (some (.fin (min e.obj.relTol f.obj.relTol)) : Option (XF ℝ)) (some (.fin (min p.relTol q.relTol))) := h2
  rw [k1, k2.2]
  exact ⟨rfl, fun i => EntryClose.mono ha ta tr (hc i), R, S, hR, hRR, hS, hSS, fun i j => EntryClose.mono ha ta tr (hD i j)⟩

/-- The verdict on two unit balls. -/
private theorem ball_eq (E : Eigh) {n : ℕ} {c d : Fin n → ℝ} {p : PropVals} (hp : p.ok) :
    ∃ v, eqOp lk fmt (ellClass E) (⟨c, 1, p⟩ : EllN n).obj (⟨d, 1, p⟩ : EllN n).obj = .ok v ∧
      (v = true ↔ ∀ i, EntryClose (.fin p.absTol) (some (.fin p.relTol)) (.fin (c i) : XF ℝ) (.fin (d i))) := by
  have h1 : IsPSD (1 : Matrix (Fin n) (Fin n) ℝ) := ⟨transpose_one, fun x => by rw [one_mulVec]; exact dot_self_nonneg x⟩
  obtain ⟨v, g1, g2⟩ := C48_scalar (lk := lk) (fmt := fmt) E (e := (⟨c, 1, p⟩ : EllN n).obj) (f := (⟨d, 1, p⟩ : EllN n).obj) hp hp h1 h1
  have ht : ValidTol (.fin (min p.absTol p.absTol) : XF ℝ) := show (0 : ℝ) ≤ _ from le_min hp.1.le hp.1.le
  refine ⟨v, g1, ?_⟩
  rw [g2]
  have ea : min p.absTol p.absTol = p.absTol := min_self _
  have er : min p.relTol p.relTol = p.relTol := min_self _
  constructor
  · rintro ⟨hn, h, h'⟩ i
    have h2 : EntryClose (.fin (min p.absTol p.absTol)) (some (.fin (min p.relTol p.relTol))) (.fin (c i) : XF ℝ) (.fin (d i)) := h i
    rwa [ea, er] at h2
  · intro h
    refine ⟨rfl, fun i => ?_, 1, 1, h1, Matrix.one_mul _, h1, Matrix.one_mul _, fun i j => EntryClose.refl ht _ _⟩
    show EntryClose (.fin (min p.absTol p.absTol)) (some (.fin (min p.relTol p.relTol))) (.fin (c i) : XF ℝ) (.fin (d i))
    rw [ea, er]
    exact h i

/-- The verdict depends on the place: it may change when both ellipsoids are moved by the same vector. -/
theorem C139_place (E : Eigh) : ∃ (c d v : Fin 2 → ℝ) (p : PropVals), p.ok ∧
    eqOp lk fmt (ellClass E) (⟨c, 1, p⟩ : EllN 2).obj (⟨d, 1, p⟩ : EllN 2).obj = .ok true ∧
    eqOp lk fmt (ellClass E) (⟨c + v, 1, p⟩ : EllN 2).obj (⟨d + v, 1, p⟩ : EllN 2).obj = .ok false := by
  have hp : (⟨1 / 10, 1 / 100, 200, 200⟩ : PropVals).ok :=
    ⟨by show (0 : ℝ) < 1 / 10; norm_num, by show (0 : ℝ) < 1 / 100; norm_num, ⟨200, by show (200 : ℝ) = _; norm_num⟩, ⟨200, by show (200 : ℝ) = _; norm_num⟩⟩
  refine ⟨![1000, 0], ![1001, 0], ![-1000, 0], ⟨1 / 10, 1 / 100, 200, 200⟩, hp, ?_, ?_⟩
  · obtain ⟨w, h1, h2⟩ := ball_eq (lk := lk) (fmt := fmt) E (c := ![1000, 0]) (d := ![1001, 0]) hp
    rw [h1, h2.2]
    intro i
    fin_cases i
    · refine Or.inr ⟨_, rfl, ?_, ?_⟩
      · show (1 / 10 : ℝ) < |1000| + |1001|
        norm_num
      · show |(1000 : ℝ) - 1001| / ((|1000| + |1001|) / 2) ≤ 1 / 100
        norm_num [abs_of_neg, abs_of_pos]
    · refine Or.inl ?_
      show |(0 : ℝ) - 0| ≤ 1 / 10
      norm_num
  · obtain ⟨w, h1, h2⟩ := ball_eq (lk := lk) (fmt := fmt) E (c := ![1000, 0] + ![-1000, 0]) (d := ![1001, 0] + ![-1000, 0]) hp
    rw [h1]
    have : w ≠ true := by
      rw [ne_eq, h2]
      intro h
      rcases h 0 with h | ⟨rt, hrt, -, h⟩
      · have h : |(1000 + -1000 : ℝ) - (1001 + -1000)| ≤ 1 / 10 := h
        norm_num at h
      · cases hrt
        have h : |(1000 + -1000 : ℝ) - (1001 + -1000)| / ((|1000 + -1000| + |1001 + -1000|) / 2) ≤ 1 / 100 := h
        norm_num at h
    rw [Bool.eq_false_iff.2 this]

private theorem ball_mem {n : ℕ} {c x : Fin n → ℝ} : x ∈ Ell c 1 ↔ (x - c) ⬝ᵥ (x - c) ≤ 1 := by
  rw [mem_ell_factor (M := 1) (by rw [transpose_one, Matrix.one_mul])]
  constructor
  · rintro ⟨u, hu, rfl⟩
    simpa using hu
  · intro h
    exact ⟨x - c, h, by simp⟩

/-- Two unit discs whose centres differ by `1/100` are near each other and compare as equal with the absolute tolerance `1/2`. -/
example (E : Eigh) : ∃ (e f : EllN 2) (r ε : ℝ), e.PSD ∧ f.PSD ∧ e.set ≠ f.set ∧ 0 < ε ∧ 0 ≤ r ∧
    (∀ x ∈ e.set, (x - e.c) ⬝ᵥ (x - e.c) ≤ r ^ 2) ∧ (∀ x ∈ f.set, (x - f.c) ⬝ᵥ (x - f.c) ≤ r ^ 2) ∧ Near ε e.set f.set ∧ Near ε f.set e.set ∧
    ε ≤ min e.props.absTol f.props.absTol ∧ 2 * r * ε ≤ min e.props.absTol f.props.absTol ^ 2 ∧
    (∃ M, ∀ x ∈ e.set ∪ f.set, ∀ i, |x i| ≤ M) ∧ eqOp lk fmt (ellClass E) e.obj f.obj = .ok true := by
  have hp : (⟨1 / 2, 1 / 100, 200, 200⟩ : PropVals).ok :=
    ⟨by show (0 : ℝ) < 1 / 2; norm_num, by show (0 : ℝ) < 1 / 100; norm_num, ⟨200, by show (200 : ℝ) = _; norm_num⟩, ⟨200, by show (200 : ℝ) = _; norm_num⟩⟩
  have h1 : IsPSD (1 : Matrix (Fin 2) (Fin 2) ℝ) := ⟨transpose_one, fun x => by rw [one_mulVec]; exact dot_self_nonneg x⟩
  let e : EllN 2 := ⟨0, 1, ⟨1 / 2, 1 / 100, 200, 200⟩⟩
  let f : EllN 2 := ⟨![1 / 100, 0], 1, ⟨1 / 2, 1 / 100, 200, 200⟩⟩
  have hr : ∀ g : EllN 2, g.Q = 1 → ∀ x ∈ g.set, (x - g.c) ⬝ᵥ (x - g.c) ≤ (1 : ℝ) ^ 2 := by
    intro g hg x hx
    rw [one_pow, ← ball_mem, ← hg]
    exact hx
  have hs : (![1 / 100, 0] : Fin 2 → ℝ) ⬝ᵥ ![1 / 100, 0] ≤ (1 / 100 : ℝ) ^ 2 := by
    simp only [dotProduct, Fin.sum_univ_two, cons_val_zero, cons_val_one]
    norm_num
  have n1 : Near (1 / 100) e.set f.set := by
    intro x hx
    refine ⟨x + ![1 / 100, 0], ball_mem.2 ?_, ?_⟩
    · have h2 : (x - 0) ⬝ᵥ (x - 0) ≤ 1 := ball_mem.1 hx
      show (x + ![1 / 100, 0] - ![1 / 100, 0]) ⬝ᵥ (x + ![1 / 100, 0] - ![1 / 100, 0]) ≤ 1
      rw [sub_zero] at h2
      rwa [add_sub_cancel_right]
    · rw [sub_add_cancel_left, neg_dotProduct_neg]
      exact hs
  have n2 : Near (1 / 100) f.set e.set := by
    intro x hx
    refine ⟨x - ![1 / 100, 0], ball_mem.2 ?_, ?_⟩
    · have h2 : (x - ![1 / 100, 0]) ⬝ᵥ (x - ![1 / 100, 0]) ≤ 1 := ball_mem.1 hx
      rw [sub_zero]
      exact h2
    · rw [sub_sub_cancel]
      exact hs
  have hm : min (1 / 2 : ℝ) (1 / 2) = 1 / 2 := min_self _
  have b1 : (1 / 100 : ℝ) ≤ min e.props.absTol f.props.absTol := by
    show (1 / 100 : ℝ) ≤ min (1 / 2) (1 / 2)
    rw [hm]; norm_num
  have b2 : 2 * 1 * (1 / 100 : ℝ) ≤ min e.props.absTol f.props.absTol ^ 2 := by
    show 2 * 1 * (1 / 100 : ℝ) ≤ min (1 / 2) (1 / 2) ^ 2
    rw [hm]; norm_num
  refine ⟨e, f, 1, 1 / 100, ⟨hp, h1⟩, ⟨hp, h1⟩, ?_, by norm_num, zero_le_one, hr e rfl, hr f rfl, n1, n2, b1, b2, ⟨3, ?_⟩,
    C139_close E ⟨hp, h1⟩ ⟨hp, h1⟩ (by norm_num) (hr e rfl) (hr f rfl) zero_le_one n1 n2 b1 b2⟩
  · intro h
    have h2 : (0 : ℝ) = 1 / 100 := congrFun (ell_inj h1 h1 h).1 0
    norm_num at h2
  · intro x hx i
    have key : ∀ c : Fin 2 → ℝ, (∀ i, |c i| ≤ 1) → x ∈ Ell c 1 → |x i| ≤ 3 := by
      intro c hc hx
      have h2 := ball_mem.1 hx
      have h3 : (x i - c i) ^ 2 ≤ 1 := by
        refine le_trans ?_ h2
        rw [sq]
        exact Finset.single_le_sum (f := fun i => (x - c) i * (x - c) i) (fun j _ => mul_self_nonneg _) (Finset.mem_univ i)
      have h4 := abs_le.1 (hc i)
      have h5 : -1 ≤ x i - c i ∧ x i - c i ≤ 1 := ⟨by nlinarith, by nlinarith⟩
      rw [abs_le]
      constructor <;> linarith [h4.1, h4.2, h5.1, h5.2]
    rcases hx with hx | hx
    · exact key 0 (fun i => by simp) hx
    · refine key ![1 / 100, 0] (fun i => ?_) hx
      fin_cases i <;> norm_num [abs_le]

end Ellipy.Ell
