import Verif.Proofs.Hull
import Verif.Proofs.Minksum

/-! Ellipsoids and their Minkowski sums are compact and convex, and closed convex sets are determined by their supporting half-spaces. -/

namespace Ellipy.Ell
open Matrix Ellipy.LA
open scoped Pointwise

/-- A closed convex set contains every point that no direction separates from it. -/
theorem mem_of_support {n : ℕ} {K : Set (Fin n → ℝ)} (hc : Convex ℝ K) (hcl : IsClosed K) (hne : K.Nonempty) {x : Fin n → ℝ}
    (h : ∀ l : Fin n → ℝ, l ≠ 0 → ∃ y ∈ K, l ⬝ᵥ x ≤ l ⬝ᵥ y) : x ∈ K := by
  by_contra hx
  obtain ⟨f, u, h1, h2⟩ := geometric_hahn_banach_closed_point hc hcl hx
  have hd : ∀ y, f y = (fun i => f (Pi.single i 1)) ⬝ᵥ y := fun y => functional_dot (f : (Fin n → ℝ) →ₗ[ℝ] ℝ) y
  by_cases h0 : (fun i => f (Pi.single i 1)) = (0 : Fin n → ℝ)
  · obtain ⟨y, hy⟩ := hne
    have h3 := h1 y hy
    rw [hd y, h0, zero_dotProduct] at h3
    rw [hd x, h0, zero_dotProduct] at h2
    linarith
  · obtain ⟨y, hy, hle⟩ := h _ h0
    have h3 := h1 y hy
    rw [hd y] at h3
    rw [hd x] at h2
    linarith

theorem ball_compact (n : ℕ) : IsCompact {u : Fin n → ℝ | u ⬝ᵥ u ≤ 1} := by
  refine IsCompact.of_isClosed_subset (isCompact_univ_pi (fun _ : Fin n => isCompact_Icc (a := (-1 : ℝ)) (b := 1))) ?_ ?_
  · refine isClosed_le ?_ continuous_const
    unfold dotProduct
    fun_prop
  · intro u hu i _
    have h1 : u i ^ 2 ≤ 1 := by
      have hu' : u ⬝ᵥ u ≤ 1 := hu
      rw [dot_self_eq] at hu'
      exact (Finset.single_le_sum (f := fun i => u i ^ 2) (fun i _ => sq_nonneg _) (Finset.mem_univ i)).trans hu'
    exact abs_le.mp ((sq_le_one_iff_abs_le_one _).mp h1)

theorem ell_compact {n : ℕ} {c : Fin n → ℝ} {Q : Matrix (Fin n) (Fin n) ℝ} (hQ : IsPSD Q) : IsCompact (Ell c Q) := by
  obtain ⟨S, hS, hSS⟩ := exists_root hQ
  have : Ell c Q = (fun u => c + S *ᵥ u) '' {u : Fin n → ℝ | u ⬝ᵥ u ≤ 1} := by
    ext x
    rw [mem_ell_factor (M := S) (by rw [hS.1, hSS])]
    exact ⟨fun ⟨u, hu, h⟩ => ⟨u, hu, h.symm⟩, fun ⟨u, hu, h⟩ => ⟨u, hu, h.symm⟩⟩
  rw [this]
  exact (ball_compact n).image (by fun_prop)

theorem ell_convex {n : ℕ} {c : Fin n → ℝ} {Q : Matrix (Fin n) (Fin n) ℝ} (hQ : IsPSD Q) : Convex ℝ (Ell c Q) := by
  intro x hx y hy a b ha hb hab
  rw [mem_ell_sqrt hQ] at hx hy ⊢
  intro l
  rw [dotProduct_add, dotProduct_smul, dotProduct_smul, smul_eq_mul, smul_eq_mul]
  have h1 := mul_le_mul_of_nonneg_left (hx l) ha
  have h2 := mul_le_mul_of_nonneg_left (hy l) hb
  have h3 : b = 1 - a := by linarith
  subst h3
  linarith

theorem ell_center {n : ℕ} {c : Fin n → ℝ} {Q : Matrix (Fin n) (Fin n) ℝ} (hQ : IsPSD Q) : c ∈ Ell c Q := by
  rw [mem_ell_support hQ]
  intro l
  rw [sub_self, dotProduct_zero]
  have := hQ.2 l
  simpa using this

theorem minkSum_cons {n : ℕ} (X : Set (Fin n → ℝ)) (Xs : List (Set (Fin n → ℝ))) : minkSum (X :: Xs) = X + minkSum Xs := by
  ext x
  rw [Set.mem_add]
  constructor
  · rintro ⟨ys, hF, rfl⟩
    obtain ⟨y, ys, hy, hys, rfl⟩ := List.forall₂_cons_right_iff.mp hF
    exact ⟨_, hy, _, ⟨_, hys, rfl⟩, by rw [List.sum_cons]⟩
  · rintro ⟨y, hy, _, ⟨ys, hys, rfl⟩, rfl⟩
    exact ⟨y :: ys, .cons hy hys, by rw [List.sum_cons]⟩

theorem minkSum_nil {n : ℕ} : minkSum ([] : List (Set (Fin n → ℝ))) = {0} := by
  ext x
  rw [Set.mem_singleton_iff]
  constructor
  · rintro ⟨ys, hF, rfl⟩
    rw [List.forall₂_nil_right_iff.mp hF, List.sum_nil]
  · rintro rfl; exact ⟨[], .nil, rfl⟩

theorem minkSum_compact {n : ℕ} (es : List (EllN n)) (h : ∀ e ∈ es, IsPSD e.Q) :
    IsCompact (minkSum (es.map EllN.set)) ∧ Convex ℝ (minkSum (es.map EllN.set)) ∧ (es.map EllN.c).sum ∈ minkSum (es.map EllN.set) := by
  induction es with
  | nil =>
    rw [List.map_nil, minkSum_nil]
    exact ⟨isCompact_singleton, convex_singleton _, rfl⟩
  | cons e es ih =>
    obtain ⟨h1, h2, h3⟩ := ih (fun x hx => h x (by simp [hx]))
    have he := h e (by simp)
    rw [List.map_cons, minkSum_cons, List.map_cons, List.sum_cons]
    exact ⟨(ell_compact he).add h1, (ell_convex he).add h2, Set.add_mem_add (ell_center he) h3⟩

end Ellipy.Ell
