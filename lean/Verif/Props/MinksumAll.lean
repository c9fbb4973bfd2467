import Verif.Proofs.Support
import Verif.Props.Minksum

/-! Property theorems C89: the approximations in all directions determine the Minkowski sum. -/

namespace Ellipy.Ell
open Matrix Ellipy.LA

/-- **C89**, external approximations: a point belongs to the sum exactly when it belongs to the ellipsoid that `minksum_ea` returns for
the direction `l`, for every direction `l`. -/
theorem C89 (E : Eigh) (G : Eig) (L : Lstsq) (p : PropVals) (hp : p.ok) {n : ℕ} (hn : n ≠ 0) (es : List (EllN n)) (h2 : 2 ≤ es.length)
    (hes : ∀ e ∈ es, e.NonDeg) (x : Fin n → ℝ) :
    x ∈ minkSum (es.map EllN.set) ↔ ∀ l : Fin n → ℝ, l ≠ 0 → ∃ (c : Fin n → ℝ) (Q : Matrix (Fin n) (Fin n) ℝ),
      minksumEa E G L p (es.map EllN.obj) (colMat l) = .ok (Arr.vec [⟨n, c, Q, p.absTol, p.relTol, p.n2d, p.n3d⟩]) ∧ x ∈ Ell c Q := by
  have key : ∀ l : Fin n → ℝ, l ≠ 0 → ∃ Q : Matrix (Fin n) (Fin n) ℝ,
      minksumEa E G L p (es.map EllN.obj) (colMat l) =
        .ok (Arr.vec [⟨n, (es.map EllN.c).sum, Q, p.absTol, p.relTol, p.n2d, p.n3d⟩]) ∧
      minkSum (es.map EllN.set) ⊆ Ell (es.map EllN.c).sum Q ∧
      ∃ r, IsSupport (minkSum (es.map EllN.set)) l r ∧ IsSupport (Ell (es.map EllN.c).sum Q) l r := by
    intro l hl
    obtain ⟨Qs, h1, h3⟩ := C43 E G L p hp hn es h2 hes (colMat l) (fun _ => hl)
    exact ⟨Qs 0, h1, (h3 0).2⟩
  constructor
  · intro hx l hl
    obtain ⟨Q, h1, h3, -⟩ := key l hl
    exact ⟨_, Q, h1, h3 hx⟩
  · intro h
    obtain ⟨hk, hc, hm⟩ := minkSum_compact es (fun e he => (hes e he).psd.2)
    refine mem_of_support hc hk.isClosed ⟨_, hm⟩ (fun l hl => ?_)
    obtain ⟨c, Q, h1, hx⟩ := h l hl
    obtain ⟨Q', h1', -, r, ⟨⟨y, hy, hyr⟩, -⟩, -, hr⟩ := key l hl
    rw [h1] at h1'
    simp only [Arr.vec, Except.ok.injEq, Arr.mk.injEq, List.cons.injEq, and_true, EllObj.mk.injEq, heq_eq_eq, true_and] at h1'
    obtain ⟨-, rfl, rfl⟩ := h1'
    refine ⟨y, hy, ?_⟩
    have := hr ⟨x, hx, rfl⟩
    rw [← hyr] at this
    exact this

/-- The points of all internal approximations. -/
def AllInner (E : Eigh) (G : Eig) (p : PropVals) {n : ℕ} (es : List (EllN n)) : Set (Fin n → ℝ) :=
  {x | ∃ l : Fin n → ℝ, l ≠ 0 ∧ ∃ (c : Fin n → ℝ) (Q : Matrix (Fin n) (Fin n) ℝ),
    minksumIa E G p (es.map EllN.obj) (colMat l) = .ok (Arr.vec [⟨n, c, Q, p.absTol, p.relTol, p.n2d, p.n3d⟩]) ∧ x ∈ Ell c Q}

/-- **C89**, internal approximations: the closed convex hull of the ellipsoids that `minksum_ia` returns for all directions lies in the sum and
contains the sum shrunk by the factor `1 - 10⁻¹⁴` towards its centre. -/
theorem C89_inner (E : Eigh) (G : Eig) (p : PropVals) (hp : p.ok) {n : ℕ} (hn : n ≠ 0) (es : List (EllN n)) (h2 : 2 ≤ es.length)
    (hes : ∀ e ∈ es, e.NonDeg) :
    closure (convexHull ℝ (AllInner E G p es)) ⊆ minkSum (es.map EllN.set) ∧
    ∀ x ∈ minkSum (es.map EllN.set),
      (es.map EllN.c).sum + (1 - 1 / 10 ^ 14 : ℝ) • (x - (es.map EllN.c).sum) ∈ closure (convexHull ℝ (AllInner E G p es)) := by
  have key : ∀ l : Fin n → ℝ, l ≠ 0 → ∃ Q : Matrix (Fin n) (Fin n) ℝ,
      minksumIa E G p (es.map EllN.obj) (colMat l) =
        .ok (Arr.vec [⟨n, (es.map EllN.c).sum, Q, p.absTol, p.relTol, p.n2d, p.n3d⟩]) ∧ IsPSD Q ∧
      Ell (es.map EllN.c).sum Q ⊆ minkSum (es.map EllN.set) ∧
        ∃ r w w', IsSupport (minkSum (es.map EllN.set)) l (r + w) ∧
          IsSupport (Ell (es.map EllN.c).sum Q) l (r + w') ∧ r = l ⬝ᵥ (es.map EllN.c).sum ∧
          (1 - 1 / 10 ^ 14) * w ≤ w' ∧ w' ≤ w := by
    intro l hl
    obtain ⟨Qs, h1, h3⟩ := C44 E G p hp hn es h2 hes (colMat l) (fun _ => hl)
    exact ⟨Qs 0, h1, h3 0⟩
  obtain ⟨hk, hc, hm⟩ := minkSum_compact es (fun e he => (hes e he).psd.2)
  constructor
  · refine closure_minimal (convexHull_min ?_ hc) hk.isClosed
    rintro x ⟨l, hl, c, Q, h1, hx⟩
    obtain ⟨Q', h1', -, h3, -⟩ := key l hl
    rw [h1] at h1'
    simp only [Arr.vec, Except.ok.injEq, Arr.mk.injEq, List.cons.injEq, and_true, EllObj.mk.injEq, heq_eq_eq, true_and] at h1'
    obtain ⟨-, rfl, rfl⟩ := h1'
    exact h3 hx
  · intro x hx
    have hin : ∀ l : Fin n → ℝ, l ≠ 0 → ∀ (c : Fin n → ℝ) (Q : Matrix (Fin n) (Fin n) ℝ), minksumIa E G p (es.map EllN.obj) (colMat l) =
        .ok (Arr.vec [⟨n, c, Q, p.absTol, p.relTol, p.n2d, p.n3d⟩]) →
        Ell c Q ⊆ closure (convexHull ℝ (AllInner E G p es)) :=
      fun l hl c Q h y hy => subset_closure (subset_convexHull ℝ _ ⟨l, hl, c, Q, h, hy⟩)
    have hl0 : (fun _ => 1 : Fin n → ℝ) ≠ 0 := by
      intro h
      have := congrFun h ⟨0, Nat.pos_of_ne_zero hn⟩
      simp at this
    obtain ⟨Q0, h0, hp0, -⟩ := key _ hl0
    refine mem_of_support (convex_convexHull ℝ _).closure isClosed_closure ⟨_, hin _ hl0 _ _ h0 (ell_center hp0)⟩ (fun l hl => ?_)
    obtain ⟨Q, h1, hQ, -, r, w, w', hs, ⟨⟨y, hy, hyr⟩, -⟩, rfl, hw, -⟩ := key l hl
    refine ⟨y, hin l hl _ _ h1 hy, ?_⟩
    have h4 := hs.2 ⟨x, hx, rfl⟩
    simp only at h4 hyr
    rw [hyr, dotProduct_add, dotProduct_smul, dotProduct_sub, smul_eq_mul]
    have h5 : (1 - 1 / 10 ^ 14 : ℝ) * (l ⬝ᵥ x - l ⬝ᵥ (es.map EllN.c).sum) ≤ (1 - 1 / 10 ^ 14) * w :=
      mul_le_mul_of_nonneg_left (by linarith) (by norm_num)
    linarith

/-- A concrete case: the tilted matrix `[[2, 1], [1, 2]]` at the origin and the unit circle at `(1, 1)`; the centre `(1, 1)` of the sum. -/
example (E : Eigh) (G : Eig) (L : Lstsq) : ∀ l : Fin 2 → ℝ, l ≠ 0 → ∃ (c : Fin 2 → ℝ) (Q : Matrix (Fin 2) (Fin 2) ℝ),
    minksumEa E G L stdProps [⟨2, ![0, 0], !![2, 1; 1, 2], 1 / 10 ^ 7, 1 / 10 ^ 5, 200, 200⟩,
      ⟨2, ![1, 1], !![1, 0; 0, 1], 1 / 10 ^ 7, 1 / 10 ^ 5, 200, 200⟩] (colMat l) =
      .ok (Arr.vec [⟨2, c, Q, 1 / 10 ^ 7, 1 / 10 ^ 5, 200, 200⟩]) ∧ ![1, 1] ∈ Ell c Q := by
  have h1 : (⟨![0, 0], !![2, 1; 1, 2], stdProps⟩ : EllN 2).NonDeg := by
    refine nonDeg_two _ _ stdProps_ok ?_ ?_ <;> (unfold stdProps; norm_num)
  have h2 : (⟨![1, 1], !![1, 0; 0, 1], stdProps⟩ : EllN 2).NonDeg := by
    refine nonDeg_two _ _ stdProps_ok ?_ ?_ <;> (unfold stdProps; norm_num)
  have hes : ∀ e ∈ [(⟨![0, 0], !![2, 1; 1, 2], stdProps⟩ : EllN 2), ⟨![1, 1], !![1, 0; 0, 1], stdProps⟩], e.NonDeg := by
    intro e he
    rcases List.mem_cons.mp he with rfl | he
    · exact h1
    · rw [List.mem_singleton] at he; subst he; exact h2
  refine (C89 E G L stdProps stdProps_ok two_ne_zero _ (by simp) hes _).mp ?_
  have hm := (minkSum_compact _ (fun e he => (hes e he).psd.2)).2.2
  have hc : ([(⟨![0, 0], !![2, 1; 1, 2], stdProps⟩ : EllN 2), ⟨![1, 1], !![1, 0; 0, 1], stdProps⟩].map EllN.c).sum = ![1, 1] := by
    ext i; fin_cases i <;> simp
  rwa [hc] at hm

end Ellipy.Ell
