import Mathlib.Tactic.Linarith
import Mathlib.Algebra.Order.BigOperators.Group.Finset
import Mathlib.Algebra.BigOperators.Fin
import Verif.Spec.SortRows

set_option linter.unusedSectionVars false

namespace Ellipy.SortRows
variable {K : Type} [Field K] [LinearOrder K] [IsStrictOrderedRing K] {n m : Nat}

/-- Sorting a permutation gives its inverse. -/
theorem argsort_perm {argsortI : (Fin n → Fin n) → Equiv.Perm (Fin n)} (h : IsArgsort argsortI)
    (σ : Equiv.Perm (Fin n)) : argsortI σ = σ⁻¹ := by
  have h1 := h σ
  have h2 : Monotone (σ * argsortI σ : Equiv.Perm (Fin n)) := h1
  rw [Equiv.Perm.monotone_iff] at h2
  exact (inv_eq_of_mul_eq_one_right h2).symm

theorem cumsum_zero (v : Fin (n + 1) → K) : cumsum v 0 = v 0 := by
  unfold cumsum
  have : Finset.univ.filter (fun i : Fin (n + 1) => i ≤ 0) = {0} := by
    ext i; simp
  rw [this, Finset.sum_singleton]

theorem cumsum_succ (v : Fin (n + 1) → K) (k : Fin n) : cumsum v k.succ = cumsum v k.castSucc + v k.succ := by
  unfold cumsum
  have : Finset.univ.filter (fun i : Fin (n + 1) => i ≤ k.succ) =
      insert k.succ (Finset.univ.filter (fun i : Fin (n + 1) => i ≤ k.castSucc)) := by
    ext i
    simp only [Finset.mem_filter, Finset.mem_univ, true_and, Finset.mem_insert, Fin.le_def, Fin.ext_iff,
      Fin.val_succ, Fin.val_castSucc]
    omega
  rw [this, Finset.sum_insert (by simp [Fin.le_def]), add_comm]

section
variable {argsortF : (Fin (n + 1) → K) → Equiv.Perm (Fin (n + 1))}
  {argsortI : (Fin (n + 1) → Fin (n + 1)) → Equiv.Perm (Fin (n + 1))}

/-- The cumulated sums of the large gaps of an increasing sequence. -/
private theorem cum_facts {tol : K} (ht : 0 ≤ tol) {v f : Fin (n + 1) → K} (hv : Monotone v)
    (hf : ∀ k : Fin n, f k.succ = f k.castSucc + if |v k.succ - v k.castSucc| ≤ tol then 0 else v k.succ - v k.castSucc) :
    Monotone f ∧ (∀ b a, a ≤ b → v b - v a ≤ tol → f a = f b) ∧
      (∀ b a, a ≤ b → f a = f b → Relation.ReflTransGen (fun i j => |v i - v j| ≤ tol) a b) := by
  have hgap : ∀ k : Fin n, 0 ≤ v k.succ - v k.castSucc := fun k =>
    sub_nonneg.2 (hv (Fin.castSucc_lt_succ).le)
  have hmono : Monotone f := by
    rw [Fin.monotone_iff_le_succ]
    intro k
    rw [hf k]
    split_ifs
    · simp
    · linarith [hgap k]
  refine ⟨hmono, ?_, ?_⟩
  · intro b
    induction b using Fin.induction with
    | zero => intro a ha _; rw [Fin.le_zero_iff.1 ha]
    | succ c ih =>
      intro a ha hle
      rcases eq_or_lt_of_le ha with rfl | hlt
      · rfl
      · have hac : a ≤ c.castSucc := Fin.le_castSucc_iff.2 hlt
        have h1 : v c.castSucc ≤ v c.succ := hv Fin.castSucc_lt_succ.le
        have h2 : v a ≤ v c.castSucc := hv hac
        rw [ih a hac (by linarith), hf c, if_pos, add_zero]
        rw [abs_of_nonneg (hgap c)]; linarith
  · intro b
    induction b using Fin.induction with
    | zero => intro a ha _; rw [Fin.le_zero_iff.1 ha]
    | succ c ih =>
      intro a ha he
      rcases eq_or_lt_of_le ha with rfl | hlt
      · exact .refl
      · have hac : a ≤ c.castSucc := Fin.le_castSucc_iff.2 hlt
        have h1 : f a ≤ f c.castSucc := hmono hac
        have h2 : f c.castSucc ≤ f c.succ := hmono Fin.castSucc_lt_succ.le
        have h3 : f a = f c.castSucc := le_antisymm h1 (he ▸ h2)
        refine (ih a hac h3).tail ?_
        have h4 := hf c
        rw [← he, h3] at h4
        by_contra hcon
        rw [abs_sub_comm] at hcon
        rw [if_neg hcon] at h4
        have h5 : v c.succ - v c.castSucc = 0 := by linarith
        rw [h5, abs_zero] at hcon
        exact hcon ht

theorem linked_symm {tol : K} {col : Fin n → K} {i j : Fin n} (h : Linked tol col i j) : Linked tol col j i := by
  induction h with
  | refl => exact .refl
  | tail _ h2 ih =>
    rw [abs_sub_comm] at h2
    exact Relation.ReflTransGen.head h2 ih

/-- The new column orders the rows by clusters. -/
theorem clusterCol_facts (hF : IsArgsort argsortF) (hI : IsArgsort argsortI) {tol : K} (ht : 0 ≤ tol)
    (col : Fin (n + 1) → K) (i j : Fin (n + 1)) :
    (clusterCol argsortF argsortI tol col i = clusterCol argsortF argsortI tol col j ↔ Linked tol col i j) ∧
    (clusterCol argsortF argsortI tol col i < clusterCol argsortF argsortI tol col j ↔ ClusterLt tol col i j) := by
  set σ := argsortF col with hσ
  set v : Fin (n + 1) → K := fun k => col (σ k) with hvdef
  set f : Fin (n + 1) → K := cumsum (Fin.cons (v 0) (fun k => if |npDiff v k| ≤ tol then 0 else npDiff v k) :
    Fin (n + 1) → K) with hfdef
  have hcl : ∀ r, clusterCol argsortF argsortI tol col r = f (σ⁻¹ r) := by
    intro r
    simp only [clusterCol]
    rw [← hσ, argsort_perm hI σ]
  have hv : Monotone v := hF col
  have hf : ∀ k : Fin n, f k.succ = f k.castSucc +
      if |v k.succ - v k.castSucc| ≤ tol then 0 else v k.succ - v k.castSucc := by
    intro k
    rw [hfdef, cumsum_succ, Fin.cons_succ]
    rfl
  obtain ⟨hmono, hsmall, hlink⟩ := cum_facts ht hv hf
  have hvc : ∀ r, v (σ⁻¹ r) = col r := by intro r; simp [hvdef]
  have hnear : ∀ a b, |col a - col b| ≤ tol → f (σ⁻¹ a) = f (σ⁻¹ b) := by
    intro a b hab
    rcases le_total (σ⁻¹ a) (σ⁻¹ b) with h | h
    · apply hsmall _ _ h
      rw [hvc, hvc]; linarith [neg_le_of_abs_le hab]
    · symm
      apply hsmall _ _ h
      rw [hvc, hvc]; exact le_trans (le_abs_self _) hab
  have heq : f (σ⁻¹ i) = f (σ⁻¹ j) ↔ Linked tol col i j := by
    constructor
    · intro h
      have lift : ∀ a b, Relation.ReflTransGen (fun i j => |v i - v j| ≤ tol) a b → Linked tol col (σ a) (σ b) := by
        intro a b hab
        induction hab with
        | refl => exact .refl
        | tail _ h2 ih => exact ih.tail h2
      rcases le_total (σ⁻¹ i) (σ⁻¹ j) with hl | hl
      · simpa using lift _ _ (hlink _ _ hl h)
      · exact linked_symm (by simpa using lift _ _ (hlink _ _ hl h.symm))
    · intro h
      induction h with
      | refl => rfl
      | tail _ h2 ih => exact ih.trans (hnear _ _ h2)
  rw [hcl, hcl]
  refine ⟨heq, ?_⟩
  constructor
  · intro hlt
    have hnl : ¬ Linked tol col i j := fun h => absurd (heq.2 h) hlt.ne
    refine ⟨?_, hnl⟩
    have hpos : σ⁻¹ i < σ⁻¹ j := by
      by_contra hcon
      exact absurd (hmono (not_lt.1 hcon)) (not_le.2 hlt)
    have := hv hpos.le
    rw [hvc, hvc] at this
    refine lt_of_le_of_ne this fun he => hnl (.single ?_)
    rw [he, sub_self, abs_zero]; exact ht
  · rintro ⟨hlt, hnl⟩
    have hpos : σ⁻¹ i ≤ σ⁻¹ j := by
      by_contra hcon
      have := hv (not_le.1 hcon).le
      rw [hvc, hvc] at this
      exact absurd hlt (not_lt.2 this)
    exact lt_of_le_of_ne (hmono hpos) fun he => hnl (heq.1 he)

end

/-- Lexicographic order with respect to a list of keys (primary key first), ties by index. -/
def Lex : List (Fin n → K) → Fin n → Fin n → Prop
  | [], a, b => a < b
  | k :: ks, a, b => k a < k b ∨ (k a = k b ∧ Lex ks a b)

theorem lexsort_snoc (keys : List (Fin n → K)) (k : Fin n → K) :
    lexsort (keys ++ [k]) = lexsort keys * Tuple.sort (k ∘ lexsort keys) := by
  unfold lexsort
  rw [List.foldl_append]; rfl

theorem lexsort_sorted (keys : List (Fin n → K)) : ∀ p q, p < q → Lex keys.reverse (lexsort keys p) (lexsort keys q) := by
  induction keys using List.reverseRecOn with
  | nil => intro p q h; exact h
  | append_singleton keys k ih =>
    intro p q h
    rw [List.reverse_append, List.reverse_singleton, List.singleton_append, lexsort_snoc]
    have hs := (Tuple.eq_sort_iff (σ := Tuple.sort (k ∘ lexsort keys)) (f := k ∘ lexsort keys)).1 rfl
    have h1 := hs.1 h.le
    simp only [Function.comp] at h1
    rcases lt_or_eq_of_le h1 with hlt | heq
    · exact .inl hlt
    · refine .inr ⟨heq, ih _ _ ?_⟩
      exact hs.2 p q h heq

/-- The lexicographic order over the columns is the order of the specification. -/
theorem lex_finRange (key : Fin m → Fin n → K) (lk : Fin m → Fin n → Fin n → Prop) (cl : Fin m → Fin n → Fin n → Prop)
    (he : ∀ c i j, key c i = key c j ↔ lk c i j) (hl : ∀ c i j, key c i < key c j ↔ cl c i j) (i j : Fin n) :
    Lex ((List.finRange m).map key) i j ↔
      (∃ c, (∀ c' < c, lk c' i j) ∧ cl c i j) ∨ ((∀ c, lk c i j) ∧ i < j) := by
  induction m with
  | zero => simp [Lex]
  | succ m ih =>
    have ih' := ih (fun c => key c.succ) (fun c => lk c.succ) (fun c => cl c.succ) (fun c => he c.succ) (fun c => hl c.succ)
    rw [List.finRange_succ, List.map_cons, List.map_map]
    show key 0 i < key 0 j ∨ (key 0 i = key 0 j ∧ Lex ((List.finRange m).map (fun c => key c.succ)) i j) ↔ _
    rw [ih', he, hl]
    constructor
    · rintro (h | ⟨h0, ⟨c, hc, hcl⟩ | ⟨hc, hij⟩⟩)
      · exact .inl ⟨0, fun c' h' => absurd h' (Fin.not_lt_zero c'), h⟩
      · refine .inl ⟨c.succ, fun c' h' => ?_, hcl⟩
        rcases Fin.eq_zero_or_eq_succ c' with rfl | ⟨d, rfl⟩
        · exact h0
        · exact hc d (Fin.succ_lt_succ_iff.1 h')
      · refine .inr ⟨fun c' => ?_, hij⟩
        rcases Fin.eq_zero_or_eq_succ c' with rfl | ⟨d, rfl⟩
        · exact h0
        · exact hc d
    · rintro (⟨c, hc, hcl⟩ | ⟨hc, hij⟩)
      · rcases Fin.eq_zero_or_eq_succ c with rfl | ⟨d, rfl⟩
        · exact .inl hcl
        · exact .inr ⟨hc 0 (Fin.succ_pos d), .inl ⟨d, fun c' h' => hc c'.succ (Fin.succ_lt_succ_iff.2 h'), hcl⟩⟩
      · exact .inr ⟨hc 0, .inr ⟨fun c => hc c.succ, hij⟩⟩

end Ellipy.SortRows
