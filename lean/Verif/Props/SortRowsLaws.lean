import Mathlib.Combinatorics.SimpleGraph.Connectivity.Connected
import Mathlib.Order.PiLex
import Mathlib.Tactic.Linarith
import Mathlib.Tactic.Ring
import Mathlib.Tactic.Positivity
import Verif.Props.SortRows

/-! Property theorems C124: `sort_rows_tol` called again on its result, on shuffled rows, on rescaled columns. -/

set_option linter.unusedSectionVars false

namespace Ellipy.SortRows
variable {K : Type} [Field K] [LinearOrder K] [IsStrictOrderedRing K] {n m : Nat}

/-- Two permutations that both respect the order are the same. -/
private theorem ind_unique {X : Fin n → Fin m → K} {tol : K} {a b : Equiv.Perm (Fin n)}
    (ha : ∀ p q, p < q → RowBefore tol X (a p) (a q)) (hb : ∀ p q, p < q → RowBefore tol X (b p) (b q)) : b = a := by
  have hmono : Monotone (a⁻¹ * b : Equiv.Perm (Fin n)) := by
    intro p q hpq
    rcases eq_or_lt_of_le hpq with rfl | hlt
    · exact le_rfl
    · by_contra hcon
      have h3 := ha _ _ (not_le.1 hcon)
      rw [Equiv.Perm.mul_apply, Equiv.Perm.mul_apply] at h3
      have hinv : ∀ z, a (a⁻¹ z) = z := fun z => Equiv.apply_symm_apply a z
      rw [hinv, hinv] at h3
      exact rowBefore_asymm h3 (hb _ _ hlt)
  rw [Equiv.Perm.monotone_iff] at hmono
  have := congrArg (fun z => a * z) hmono
  simpa [← mul_assoc] using this

private theorem linked_perm {tol : K} {col : Fin n → K} (σ : Equiv.Perm (Fin n)) (i j : Fin n) :
    Linked tol (fun r => col (σ r)) i j ↔ Linked tol col (σ i) (σ j) := by
  constructor
  · intro h
    exact Relation.ReflTransGen.lift (r := fun i j => |col (σ i) - col (σ j)| ≤ tol)
      (p := fun i j => |col i - col j| ≤ tol) σ (fun _ _ h => h) _ _ h
  · intro h
    have := Relation.ReflTransGen.lift (r := fun i j => |col i - col j| ≤ tol)
      (p := fun i j => |col (σ i) - col (σ j)| ≤ tol) σ.symm (fun _ _ h => by simpa [Function.onFun] using h) _ _ h
    simpa [Linked, Function.onFun] using this

/-- What is known when the function does not raise, for any input. -/
private theorem ok_of {argsortF : (Fin n → K) → Equiv.Perm (Fin n)} {argsortI : (Fin n → Fin n) → Equiv.Perm (Fin n)}
    {X Y : Fin n → Fin m → K} {tol tol' : K} {r : Result K n m} (h : sortRowsTol argsortF argsortI X tol = .ok r)
    (ht : 0 ≤ tol') : ∃ r', sortRowsTol argsortF argsortI Y tol' = .ok r' := by
  cases h2 : sortRowsTol argsortF argsortI Y tol' with
  | ok r' => exact ⟨r', rfl⟩
  | error e =>
    exfalso
    rcases (C13_raises_iff argsortF argsortI Y tol').1 ⟨e, h2⟩ with hR | hR
    · exact absurd hR (not_lt.2 ht)
    · obtain ⟨e', he⟩ := (C13_raises_iff argsortF argsortI X tol).2 (.inr hR)
      rw [h] at he
      cases he

/-- **C124** (which result). The index that `sort_rows_tol` returns is the only permutation whose rows are in order. -/
theorem C124_unique {argsortF : (Fin n → K) → Equiv.Perm (Fin n)} {argsortI : (Fin n → Fin n) → Equiv.Perm (Fin n)}
    (hF : IsArgsort argsortF) (hI : IsArgsort argsortI) {X : Fin n → Fin m → K} {tol : K} {r : Result K n m}
    (h : sortRowsTol argsortF argsortI X tol = .ok r) (π : Equiv.Perm (Fin n)) :
    (∀ p q, p < q → RowBefore tol X (π p) (π q)) ↔ r.ind = π := by
  constructor
  · intro hp
    exact ind_unique hp (C14_ordered hF hI h)
  · rintro rfl
    exact C14_ordered hF hI h

/-- **C124** (again). Sorting the sorted rows once more changes nothing: the same rows, and both indices are the identity. -/
theorem C124_again {argsortF : (Fin n → K) → Equiv.Perm (Fin n)} {argsortI : (Fin n → Fin n) → Equiv.Perm (Fin n)}
    (hF : IsArgsort argsortF) (hI : IsArgsort argsortI) {X : Fin n → Fin m → K} {tol : K} {r : Result K n m}
    (h : sortRowsTol argsortF argsortI X tol = .ok r) :
    sortRowsTol argsortF argsortI r.res tol = .ok ⟨r.res, 1, 1⟩ := by
  obtain ⟨ht, h1, h2, h3⟩ := ok_cases hF hI h
  obtain ⟨r', hr'⟩ := ok_of (Y := r.res) h ht
  obtain ⟨_, h1', h2', _⟩ := ok_cases hF hI hr'
  have hind : r'.ind = 1 := by
    refine (C124_unique hF hI hr' 1).1 (fun p q hpq => ?_)
    have hl : ∀ c i j, Linked tol (fun s => r.res s c) i j ↔ Linked tol (fun s => X s c) (r.ind i) (r.ind j) := by
      intro c i j
      rw [h1]
      exact linked_perm (col := fun s => X s c) r.ind i j
    rcases h3 p q hpq with ⟨c, hc, hlt, hn⟩ | ⟨hc, _⟩
    · refine .inl ⟨c, fun c' hc' => (hl c' _ _).2 (hc c' hc'), ?_, fun hcon => hn ((hl c _ _).1 hcon)⟩
      rw [h1]
      exact hlt
    · exact .inr ⟨fun c => (hl c _ _).2 (hc c), hpq⟩
  rw [hr']
  obtain ⟨res', ind', rev'⟩ := r'
  simp only at h1' h2' hind
  subst hind
  rw [h2', h1']
  simp

/-- **C124** (already in order). Rows that are in order come back as they are, with both indices the identity. -/
theorem C124_sorted {argsortF : (Fin n → K) → Equiv.Perm (Fin n)} {argsortI : (Fin n → Fin n) → Equiv.Perm (Fin n)}
    (hF : IsArgsort argsortF) (hI : IsArgsort argsortI) {X : Fin n → Fin m → K} {tol : K} {r : Result K n m}
    (h : sortRowsTol argsortF argsortI X tol = .ok r) (hX : ∀ p q, p < q → RowBefore tol X p q) :
    r = ⟨X, 1, 1⟩ := by
  have hind := (C124_unique hF hI h 1).1 hX
  obtain ⟨_, h1, h2, _⟩ := ok_cases hF hI h
  obtain ⟨res, ind, rev⟩ := r
  simp only at h1 h2 hind
  subst hind
  rw [h2, h1]
  simp

/-- **C124** (large tolerance). When the tolerance covers all differences inside every column nothing is moved. -/
theorem C124_large_tol {argsortF : (Fin n → K) → Equiv.Perm (Fin n)} {argsortI : (Fin n → Fin n) → Equiv.Perm (Fin n)}
    (hF : IsArgsort argsortF) (hI : IsArgsort argsortI) {X : Fin n → Fin m → K} {tol : K} {r : Result K n m}
    (h : sortRowsTol argsortF argsortI X tol = .ok r) (hX : ∀ i j c, |X i c - X j c| ≤ tol) : r = ⟨X, 1, 1⟩ :=
  C124_sorted hF hI h (fun p q hpq => .inr ⟨fun c => .single (hX p q c), hpq⟩)

/-- The rows as words over an alphabet of clusters. -/
private theorem exists_word (X : Fin n → Fin m → K) {tol : K} (ht : 0 ≤ tol) : ∃ f : Fin n → _root_.Lex (Fin m → K),
    (∀ i j, f i = f j ↔ ∀ c, Linked tol (fun s => X s c) i j) ∧
      ∀ i j, RowBefore tol X i j → f i ≤ f j := by
  cases n with
  | zero => exact ⟨fun i => i.elim0, fun i => i.elim0, fun i => i.elim0⟩
  | succ n =>
    have hk := fun c => clusterCol_facts (K := K) (n := n) (argsortF := Tuple.sort) (argsortI := Tuple.sort) isArgsort_sort
      isArgsort_sort ht (fun s => X s c)
    refine ⟨fun i => toLex (fun c => clusterCol Tuple.sort Tuple.sort tol (fun s => X s c) i), ?_, ?_⟩
    · intro i j
      constructor
      · intro hij c
        have h2 := congrFun (toLex.injective hij) c
        exact ((hk c i j).1).1 h2
      · intro hc
        refine congrArg toLex (funext fun c => ?_)
        exact ((hk c i j).1).2 (hc c)
    · rintro i j (⟨c, hc, hcl⟩ | ⟨hc, _⟩)
      · refine le_of_lt ?_
        exact ⟨c, fun c' hc' => ((hk c' i j).1).2 (hc c' hc'), ((hk c i j).2).2 hcl⟩
      · refine le_of_eq ?_
        refine congrArg toLex (funext fun c => ?_)
        exact ((hk c i j).1).2 (hc c)

/-- **C124** (order of the input). Shuffling the rows before sorting leaves the rows of the result in the same clusters, position by
position. -/
theorem C124_shuffle {argsortF : (Fin n → K) → Equiv.Perm (Fin n)} {argsortI : (Fin n → Fin n) → Equiv.Perm (Fin n)}
    (hF : IsArgsort argsortF) (hI : IsArgsort argsortI) {X : Fin n → Fin m → K} {tol : K} (σ : Equiv.Perm (Fin n))
    {r r' : Result K n m} (h : sortRowsTol argsortF argsortI X tol = .ok r)
    (h' : sortRowsTol argsortF argsortI (fun i => X (σ i)) tol = .ok r') (p : Fin n) (c : Fin m) :
    Linked tol (fun s => X s c) (r.ind p) (σ (r'.ind p)) := by
  obtain ⟨ht, _, _, h3⟩ := ok_cases hF hI h
  obtain ⟨_, _, _, h3'⟩ := ok_cases hF hI h'
  obtain ⟨f, hf1, hf2⟩ := exists_word X ht
  have m1 : Monotone (f ∘ r.ind) := by
    intro p q hpq
    rcases eq_or_lt_of_le hpq with rfl | hlt
    · exact le_rfl
    · exact hf2 _ _ (h3 p q hlt)
  have m2 : Monotone (f ∘ (σ * r'.ind : Equiv.Perm (Fin n))) := by
    intro p q hpq
    rcases eq_or_lt_of_le hpq with rfl | hlt
    · exact le_rfl
    · rcases h3' p q hlt with ⟨c, hc, hcl, hn⟩ | ⟨hc, _⟩
      · exact hf2 _ _ (.inl ⟨c, fun c' hc' => (linked_perm (col := fun s => X s c') σ _ _).1 (hc c' hc'), hcl,
          fun hcon => hn ((linked_perm (col := fun s => X s c) σ _ _).2 hcon)⟩)
      · have hE : ∀ c, Linked tol (fun s => X s c) (σ (r'.ind p)) (σ (r'.ind q)) := fun c =>
          (linked_perm (col := fun s => X s c) σ _ _).1 (hc c)
        exact le_of_eq ((hf1 _ _).2 hE)
  have := Tuple.unique_monotone m1 m2
  exact (hf1 _ _).1 (congrFun this p) c

/-- Linked rows are no further apart than a chain through all the rows allows. -/
private theorem linked_dist {tol : K} (ht : 0 ≤ tol) {col : Fin n → K} {i j : Fin n} (h : Linked tol col i j) :
    |col i - col j| ≤ ((n - 1 : ℕ) : K) * tol := by
  let G : SimpleGraph (Fin n) := SimpleGraph.fromRel (fun a b => |col a - col b| ≤ tol)
  have hadj : ∀ a b, G.Adj a b → |col a - col b| ≤ tol := by
    intro a b hab
    rcases ((SimpleGraph.fromRel_adj _ _ _).1 hab).2 with h | h
    · exact h
    · rw [abs_sub_comm]; exact h
  have hreach : G.Reachable i j := by
    induction h with
    | refl => exact SimpleGraph.Reachable.refl _
    | @tail b c _ hbc ih =>
      by_cases hne : b = c
      · rw [← hne]; exact ih
      · exact ih.trans (SimpleGraph.Adj.reachable ((SimpleGraph.fromRel_adj _ _ _).2 ⟨hne, .inl hbc⟩))
  have hwalk : ∀ {a b : Fin n} (w : G.Walk a b), |col a - col b| ≤ (w.length : K) * tol := by
    intro a b w
    induction w with
    | nil => simp
    | @cons a b c hab w ih =>
      have h1 := hadj _ _ hab
      have h2 : |col a - col c| ≤ |col a - col b| + |col b - col c| := abs_sub_le _ _ _
      rw [SimpleGraph.Walk.length_cons]
      push_cast
      nlinarith
  obtain ⟨w⟩ := hreach
  classical
  have hlen := (w.toPath).2.length_lt
  rw [Fintype.card_fin] at hlen
  refine (hwalk (w.toPath : G.Walk i j)).trans (mul_le_mul_of_nonneg_right ?_ ht)
  exact_mod_cast Nat.le_sub_one_of_lt hlen

/-- **C124** (order of the input, entries). The two results differ by at most `(n - 1) * tol` in every entry … -/
theorem C124_shuffle_entries {argsortF : (Fin n → K) → Equiv.Perm (Fin n)} {argsortI : (Fin n → Fin n) → Equiv.Perm (Fin n)}
    (hF : IsArgsort argsortF) (hI : IsArgsort argsortI) {X : Fin n → Fin m → K} {tol : K} (σ : Equiv.Perm (Fin n))
    {r r' : Result K n m} (h : sortRowsTol argsortF argsortI X tol = .ok r)
    (h' : sortRowsTol argsortF argsortI (fun i => X (σ i)) tol = .ok r') (p : Fin n) (c : Fin m) :
    |r.res p c - r'.res p c| ≤ ((n - 1 : ℕ) : K) * tol := by
  obtain ⟨ht, h1, _, _⟩ := ok_cases hF hI h
  obtain ⟨_, h1', _, _⟩ := ok_cases hF hI h'
  have := linked_dist ht (C124_shuffle hF hI σ h h' p c)
  rw [h1, h1']
  exact this

/-- **C124** (order of the input, zero tolerance). … hence with `tol = 0` the sorted matrix does not depend on the order in which
the rows came in. -/
theorem C124_shuffle_zero {argsortF : (Fin n → K) → Equiv.Perm (Fin n)} {argsortI : (Fin n → Fin n) → Equiv.Perm (Fin n)}
    (hF : IsArgsort argsortF) (hI : IsArgsort argsortI) {X : Fin n → Fin m → K} (σ : Equiv.Perm (Fin n))
    {r r' : Result K n m} (h : sortRowsTol argsortF argsortI X 0 = .ok r)
    (h' : sortRowsTol argsortF argsortI (fun i => X (σ i)) 0 = .ok r') : r'.res = r.res := by
  funext p c
  have := C124_shuffle_entries hF hI σ h h' p c
  rw [mul_zero] at this
  exact (sub_eq_zero.1 (abs_nonpos_iff.1 this)).symm

/-- **C124** (units). Scaling all entries by `a > 0`, shifting each column by its own constant and scaling the tolerance by `a`
leaves both indices as they are, and the sorted rows are scaled and shifted in the same way. -/
theorem C124_units {argsortF : (Fin n → K) → Equiv.Perm (Fin n)} {argsortI : (Fin n → Fin n) → Equiv.Perm (Fin n)}
    (hF : IsArgsort argsortF) (hI : IsArgsort argsortI) {X : Fin n → Fin m → K} {tol : K} {r : Result K n m}
    (h : sortRowsTol argsortF argsortI X tol = .ok r) {a : K} (ha : 0 < a) (b : Fin m → K) :
    sortRowsTol argsortF argsortI (fun i c => a * X i c + b c) (a * tol) =
      .ok ⟨fun i c => a * r.res i c + b c, r.ind, r.rev⟩ := by
  obtain ⟨ht, h1, h2, h3⟩ := ok_cases hF hI h
  obtain ⟨r', hr'⟩ := ok_of (Y := fun i c => a * X i c + b c) h (mul_nonneg ha.le ht)
  obtain ⟨_, h1', h2', h3'⟩ := ok_cases hF hI hr'
  have hrel : ∀ c i j, |(a * X i c + b c) - (a * X j c + b c)| ≤ a * tol ↔ |X i c - X j c| ≤ tol := by
    intro c i j
    rw [show (a * X i c + b c) - (a * X j c + b c) = a * (X i c - X j c) by ring, abs_mul, abs_of_pos ha]
    exact mul_le_mul_iff_right₀ ha
  have hl : ∀ c i j, Linked (a * tol) (fun s => a * X s c + b c) i j ↔ Linked tol (fun s => X s c) i j := by
    intro c i j
    unfold Linked
    simp only [hrel]
  have hind : r'.ind = r.ind := by
    refine (C124_unique hF hI hr' r.ind).1 (fun p q hpq => ?_)
    rcases h3 p q hpq with ⟨c, hc, hlt, hn⟩ | ⟨hc, h4⟩
    · refine .inl ⟨c, fun c' hc' => (hl c' _ _).2 (hc c' hc'), ?_, fun hcon => hn ((hl c _ _).1 hcon)⟩
      have := mul_lt_mul_of_pos_left hlt ha
      simpa using this
    · exact .inr ⟨fun c => (hl c _ _).2 (hc c), h4⟩
  rw [hr']
  obtain ⟨res', ind', rev'⟩ := r'
  obtain ⟨res, ind, rev⟩ := r
  simp only at h1' h2' hind h1 h2
  subst hind
  rw [h2', h1', h2, h1]

/-- The hypotheses of C124 are met: three rows with a positive tolerance are sorted, shuffled they are sorted too, and one
tolerance covers all their differences. -/
example : (∃ r, sortRowsTol Tuple.sort Tuple.sort X0 1 = .ok r) ∧
    (∃ r, sortRowsTol Tuple.sort Tuple.sort (fun i => X0 (Equiv.swap 0 1 i)) 1 = .ok r) ∧
    (∃ r, sortRowsTol Tuple.sort Tuple.sort X0 10 = .ok r) ∧ (∀ i j c, |X0 i c - X0 j c| ≤ 10) ∧ (0 : ℚ) < 3 := by
  have hok : ∀ (Y : Fin 3 → Fin 2 → ℚ) (t : ℚ), 0 ≤ t → ∃ r, sortRowsTol Tuple.sort Tuple.sort Y t = .ok r := by
    intro Y t ht
    cases h : sortRowsTol Tuple.sort Tuple.sort Y t with
    | ok r => exact ⟨r, rfl⟩
    | error e =>
      rcases (C13_raises_iff _ _ Y t).1 ⟨e, h⟩ with h | h
      · exact absurd h (not_lt.2 ht)
      · exact absurd h.2 (by norm_num)
  refine ⟨hok _ _ (by norm_num), hok _ _ (by norm_num), hok _ _ (by norm_num), ?_, by norm_num⟩
  intro i j c
  fin_cases i <;> fin_cases j <;> fin_cases c <;> simp [X0] <;> norm_num [abs_le]

end Ellipy.SortRows
