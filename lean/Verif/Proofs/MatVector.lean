import Mathlib.Algebra.BigOperators.Ring.Finset
import Mathlib.Algebra.Order.Ring.Nat
import Mathlib.Tactic.Linarith
import Mathlib.Tactic.Ring
import Verif.Model.MatVector

/-! Index algebra for the batched products. -/

namespace Ellipy.MV

theorem forRange_ok {α : Type} [Zero α] (T : ℕ) (f : ℕ → Py α) (g : ℕ → α) (h : ∀ t < T, f t = .ok (g t)) :
    ∃ r, forRange T f = .ok r ∧ ∀ t < T, r t = g t := by
  induction T with
  | zero => exact ⟨_, rfl, fun t ht => absurd ht (Nat.not_lt_zero t)⟩
  | succ T ih =>
    obtain ⟨r, hr, hg⟩ := ih (fun t ht => h t (Nat.lt_succ_of_lt ht))
    refine ⟨fun t => if t = T then g T else r t, ?_, ?_⟩
    · simp only [forRange, hr, h T (Nat.lt_succ_self T)]
    · intro t ht
      by_cases h1 : t = T
      · simp [h1]
      · simp only [if_neg h1]
        exact hg t (by omega)

theorem forRange_raises {α : Type} [Zero α] (T : ℕ) (f : ℕ → Py α) : Raises (forRange T f) ↔ ∃ t < T, Raises (f t) := by
  induction T with
  | zero =>
    refine iff_of_false ?_ ?_
    · rintro ⟨e, he⟩; cases he
    · rintro ⟨t, ht, _⟩; exact absurd ht (Nat.not_lt_zero t)
  | succ T ih =>
    constructor
    · intro h
      by_cases h1 : Raises (forRange T f)
      · obtain ⟨t, ht, h2⟩ := ih.mp h1
        exact ⟨t, Nat.lt_succ_of_lt ht, h2⟩
      · refine ⟨T, Nat.lt_succ_self T, ?_⟩
        obtain ⟨e, he⟩ := h
        unfold forRange at he
        cases hf : forRange T f with
        | error e' => exact absurd ⟨e', hf⟩ h1
        | ok g =>
          rw [hf] at he
          cases hx : f T with
          | error e' => exact ⟨e', rfl⟩
          | ok x => rw [hx] at he; cases he
    · rintro ⟨t, ht, h2⟩
      unfold forRange
      by_cases h1 : t = T
      · subst h1
        cases forRange t f with
        | error e' => exact ⟨e', rfl⟩
        | ok g =>
          obtain ⟨e, he⟩ := h2
          exact ⟨e, by simp only [he]⟩
      · obtain ⟨e, he⟩ := ih.mpr ⟨t, by omega, h2⟩
        exact ⟨e, by simp only [he]⟩

theorem fill_ok (r c T : ℕ) (f : ℕ → Py (ℕ → ℕ → ℝ)) (g : ℕ → ℕ → ℕ → ℝ) (h : ∀ t < T, f t = .ok (g t)) :
    ∃ v, fill r c T f = .ok ⟨r, c, T, v⟩ ∧ ∀ i j t, t < T → v i j t = g t i j := by
  obtain ⟨x, hx, hv⟩ := forRange_ok T f g h
  exact ⟨fun i j t => x t i j, by unfold fill; rw [hx], fun i j t ht => by rw [← hv t ht]⟩

theorem fill_raises (r c T : ℕ) (f : ℕ → Py (ℕ → ℕ → ℝ)) : Raises (fill r c T f) ↔ ∃ t < T, Raises (f t) := by
  rw [← forRange_raises]
  unfold fill
  cases forRange T f with
  | error e => exact iff_of_true ⟨e, rfl⟩ ⟨e, rfl⟩
  | ok g => exact iff_of_false (by rintro ⟨e, he⟩; cases he) (by rintro ⟨e, he⟩; cases he)

theorem divmod_add {r i q : ℕ} (hi : i < r) : (i + r * q) % r = i ∧ (i + r * q) / r = q := by
  refine ⟨by rw [Nat.add_mul_mod_self_left, Nat.mod_eq_of_lt hi], ?_⟩
  rw [Nat.add_mul_div_left _ _ (by omega), Nat.div_eq_of_lt hi, Nat.zero_add]

theorem reshape32_apply {r c i q : ℕ} (hi : i < r) (a : ℕ → ℕ → ℕ → ℝ) :
    reshape32 r c a i q = a i (q % c) (q / c) := by
  unfold reshape32
  simp only
  rw [← Nat.div_div_eq_div_mul, (divmod_add hi).1, (divmod_add hi).2]

theorem reshape23_apply {r c i j t : ℕ} (hi : i < r) (a : ℕ → ℕ → ℝ) :
    reshape23 r c a i j t = a i (j + c * t) := by
  unfold reshape23
  have : i + r * j + r * c * t = i + r * (j + c * t) := by ring
  simp only [this, (divmod_add hi).1, (divmod_add hi).2]

/-- Sum over one block. -/
theorem sum_block (n T t : ℕ) (ht : t < T) (f : ℕ → ℝ) :
    (∑ p ∈ Finset.range (n * T), if p / n = t then f p else 0) = ∑ l ∈ Finset.range n, f (l + n * t) := by
  rw [← Finset.sum_filter]
  symm
  refine Finset.sum_nbij (fun l => l + n * t) ?_ ?_ ?_ ?_
  · intro l hl
    rw [Finset.mem_range] at hl
    rw [Finset.mem_filter, Finset.mem_range]
    refine ⟨?_, (divmod_add hl).2⟩
    calc l + n * t < n + n * t := by omega
      _ = n * (t + 1) := by ring
      _ ≤ n * T := Nat.mul_le_mul_left _ ht
  · intro a _ b _ h
    exact Nat.add_right_cancel h
  · intro p hp
    simp only [Finset.coe_filter, Finset.mem_range, Set.mem_setOf_eq] at hp
    refine ⟨p % n, ?_, ?_⟩
    · rw [Finset.coe_range, Set.mem_Iio]
      apply Nat.mod_lt
      by_contra h0
      have : n = 0 := by omega
      rw [this, Nat.zero_mul] at hp
      omega
    · show p % n + n * t = p
      rw [← hp.2, Nat.mod_add_div]
  · intro l _; rfl

/-- Entry of the block-diagonal sparse matrix. -/
theorem csc_block {nr nc T p q : ℕ} (hr : 0 < nr) (hc : 0 < nc) (hq : q < nc * T) (v : ℕ → ℕ → ℕ → ℝ) :
    csc (nr * nc * T) (fun k => v (k % nr) (k / nr % nc) (k / (nr * nc)))
      (fun k => (k / nr % nc + nc * (k % nr) + nc * nr * (k / (nr * nc))) / nc) (fun k => k / nr) p q =
    if p / nr = q / nc then v (p % nr) (q % nc) (q / nc) else 0 := by
  unfold csc
  have hi : ∀ k, (k / nr % nc + nc * (k % nr) + nc * nr * (k / (nr * nc))) / nc = k % nr + nr * (k / (nr * nc)) := by
    intro k
    have h1 : k / nr % nc + nc * (k % nr) + nc * nr * (k / (nr * nc)) =
        k / nr % nc + nc * (k % nr + nr * (k / (nr * nc))) := by ring
    rw [h1]
    exact (divmod_add (Nat.mod_lt _ hc)).2
  simp only [hi]
  have hdd : ∀ k, k / (nr * nc) = k / nr / nc := fun k => (Nat.div_div_eq_div_mul k nr nc).symm
  by_cases hpq : p / nr = q / nc
  · rw [if_pos hpq]
    have hk0 : p % nr + nr * q < nr * nc * T := by
      have h1 : p % nr < nr := Nat.mod_lt _ hr
      calc p % nr + nr * q < nr + nr * q := by omega
        _ = nr * (q + 1) := by ring
        _ ≤ nr * (nc * T) := Nat.mul_le_mul_left _ hq
        _ = nr * nc * T := by ring
    have hm := divmod_add (q := q) (Nat.mod_lt p hr)
    rw [Finset.sum_eq_single (p % nr + nr * q)]
    · rw [hdd, hm.1, hm.2, if_pos]
      refine ⟨?_, rfl⟩
      rw [← hpq, Nat.mod_add_div]
    · intro k _ hne
      rw [if_neg]
      rintro ⟨h1, h2⟩
      apply hne
      rw [hdd, h2] at h1
      have h3 : p % nr = k % nr := by rw [← h1, Nat.add_mul_mod_self_left, Nat.mod_mod]
      rw [h3, ← h2, Nat.mod_add_div]
    · intro h
      exact absurd (Finset.mem_range.mpr hk0) h
  · rw [if_neg hpq]
    apply Finset.sum_eq_zero
    intro k _
    rw [if_neg]
    rintro ⟨h1, h2⟩
    apply hpq
    rw [hdd, h2] at h1
    rw [← h1]
    exact (divmod_add (Nat.mod_lt k hr)).2

end Ellipy.MV
