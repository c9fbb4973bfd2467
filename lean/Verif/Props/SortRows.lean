import Mathlib.Algebra.Order.Ring.Rat
import Mathlib.Algebra.Field.Rat
import Mathlib.Tactic.FinCases
import Mathlib.Tactic.NormNum
import Verif.Proofs.SortRows

/-! Property theorems C13, C14 (`sort_rows_tol`).  `argsortF`, `argsortI` are arbitrary functions meeting the contract
of `np.argsort`. -/

set_option linter.unusedSectionVars false

namespace Ellipy.SortRows
variable {K : Type} [Field K] [LinearOrder K] [IsStrictOrderedRing K] {n m : Nat}

theorem ok_cases {argsortF : (Fin n → K) → Equiv.Perm (Fin n)} {argsortI : (Fin n → Fin n) → Equiv.Perm (Fin n)}
    (hF : IsArgsort argsortF) (hI : IsArgsort argsortI) {X : Fin n → Fin m → K} {tol : K} {r : Result K n m}
    (h : sortRowsTol argsortF argsortI X tol = .ok r) :
    0 ≤ tol ∧ r.res = (fun i => X (r.ind i)) ∧ r.rev = r.ind⁻¹ ∧
      ∀ p q, p < q → RowBefore tol X (r.ind p) (r.ind q) := by
  cases n with
  | zero =>
    rw [sortRowsTol] at h
    split_ifs at h with ht
    · cases h
    injection h with h
    subst h
    refine ⟨not_lt.1 ht, rfl, ?_, fun p => p.elim0⟩
    ext i; exact i.elim0
  | succ n =>
    rw [sortRowsTol] at h
    split_ifs at h with ht hm
    · cases h
    injection h with h
    subst h
    have ht' := not_lt.1 ht
    refine ⟨ht', rfl, argsort_perm hI _, ?_⟩
    intro p q hpq
    have hs := lexsort_sorted ((List.finRange m).reverse.map (fun c r => clusterCol argsortF argsortI tol (fun r => X r c) r)) p q hpq
    rw [← List.map_reverse, List.reverse_reverse] at hs
    exact (lex_finRange _ (fun c => Linked tol (fun r => X r c)) (fun c => ClusterLt tol (fun r => X r c))
      (fun c i j => (clusterCol_facts hF hI ht' _ i j).1) (fun c i j => (clusterCol_facts hF hI ht' _ i j).2) _ _).1 hs

/-- **C13** (errors). `sort_rows_tol` raises exactly for a negative tolerance or for a matrix with rows but no
columns. -/
theorem C13_raises_iff (argsortF : (Fin n → K) → Equiv.Perm (Fin n)) (argsortI : (Fin n → Fin n) → Equiv.Perm (Fin n))
    (X : Fin n → Fin m → K) (tol : K) :
    Raises (sortRowsTol argsortF argsortI X tol) ↔ tol < 0 ∨ (0 < n ∧ m = 0) := by
  cases n with
  | zero =>
    rw [sortRowsTol]
    by_cases ht : tol < 0
    · rw [if_pos ht]; exact ⟨fun _ => .inl ht, fun _ => ⟨_, rfl⟩⟩
    · rw [if_neg ht]; simp [Raises, ht]
  | succ n =>
    rw [sortRowsTol]
    by_cases ht : tol < 0
    · rw [if_pos ht]; exact ⟨fun _ => .inl ht, fun _ => ⟨_, rfl⟩⟩
    · rw [if_neg ht]
      by_cases hm : m = 0
      · simp [Raises, hm]
      · simp [Raises, ht, hm]

/-- **C13**. The rows of the result are the input rows taken in the order of the returned index, the index is a permutation (by
type), the reverse index is its inverse, and indexing the result by the reverse index restores the input — whatever order the
unstable sort picks for ties. -/
theorem C13_permutation {argsortF : (Fin n → K) → Equiv.Perm (Fin n)} {argsortI : (Fin n → Fin n) → Equiv.Perm (Fin n)}
    (hF : IsArgsort argsortF) (hI : IsArgsort argsortI) {X : Fin n → Fin m → K} {tol : K} {r : Result K n m}
    (h : sortRowsTol argsortF argsortI X tol = .ok r) :
    (∀ i, r.res i = X (r.ind i)) ∧ (∀ i, r.rev (r.ind i) = i) ∧ (∀ i, r.ind (r.rev i) = i) ∧ (∀ i, r.res (r.rev i) = X i) := by
  obtain ⟨_, h1, h2, _⟩ := ok_cases hF hI h
  refine ⟨fun i => by rw [h1], fun i => by simp [h2], fun i => by simp [h2], fun i => by simp [h1, h2]⟩

/-- **C14** (order). In the result every row comes after all the rows that have to precede it: rows are in lexicographic
order of their clusters, rows in the same clusters keep their input order. -/
theorem C14_ordered {argsortF : (Fin n → K) → Equiv.Perm (Fin n)} {argsortI : (Fin n → Fin n) → Equiv.Perm (Fin n)}
    (hF : IsArgsort argsortF) (hI : IsArgsort argsortI) {X : Fin n → Fin m → K} {tol : K} {r : Result K n m}
    (h : sortRowsTol argsortF argsortI X tol = .ok r) :
    ∀ p q, p < q → RowBefore tol X (r.ind p) (r.ind q) := (ok_cases hF hI h).2.2.2

/-- The order of the specification is asymmetric. -/
theorem rowBefore_asymm {X : Fin n → Fin m → K} {tol : K} {i j : Fin n} (h1 : RowBefore tol X i j)
    (h2 : RowBefore tol X j i) : False := by
  rcases h1 with ⟨c, hc, hcl⟩ | ⟨hc, hij⟩ <;> rcases h2 with ⟨d, hd, hdl⟩ | ⟨hd, hji⟩
  · rcases lt_trichotomy c d with hlt | rfl | hlt
    · exact hcl.2 (linked_symm (hd c hlt))
    · exact absurd hcl.1 (not_lt.2 hdl.1.le)
    · exact hdl.2 (linked_symm (hc d hlt))
  · exact hcl.2 (linked_symm (hd c))
  · exact hdl.2 (linked_symm (hc d))
  · exact absurd hij (not_lt.2 hji.le)

/-- **C14** (independence). Any two admissible behaviours of the unstable sort give the same result. -/
theorem C14_independent {argsortF argsortF' : (Fin n → K) → Equiv.Perm (Fin n)}
    {argsortI argsortI' : (Fin n → Fin n) → Equiv.Perm (Fin n)}
    (hF : IsArgsort argsortF) (hI : IsArgsort argsortI) (hF' : IsArgsort argsortF') (hI' : IsArgsort argsortI')
    (X : Fin n → Fin m → K) (tol : K) : sortRowsTol argsortF argsortI X tol = sortRowsTol argsortF' argsortI' X tol := by
  have herr : ∀ (f : (Fin n → K) → Equiv.Perm (Fin n)) (g : (Fin n → Fin n) → Equiv.Perm (Fin n)),
      sortRowsTol f g X tol = (if tol < 0 then throwErr "wrongInput:tol" else if 0 < n ∧ m = 0 then .error .typeError
        else sortRowsTol f g X tol) := by
    intro f g
    cases n with
    | zero => rw [sortRowsTol]; by_cases ht : tol < 0 <;> simp [ht]
    | succ n => rw [sortRowsTol]; by_cases ht : tol < 0 <;> by_cases hm : m = 0 <;> simp [ht, hm]
  by_cases hR : tol < 0 ∨ (0 < n ∧ m = 0)
  · rw [herr argsortF argsortI, herr argsortF' argsortI']
    rcases hR with h | h
    · rw [if_pos h, if_pos h]
    · rw [if_pos h, if_pos h]
  · cases h1 : sortRowsTol argsortF argsortI X tol with
    | error e => exact absurd ((C13_raises_iff argsortF argsortI X tol).1 ⟨e, h1⟩) hR
    | ok r =>
      cases h2 : sortRowsTol argsortF' argsortI' X tol with
      | error e => exact absurd ((C13_raises_iff argsortF' argsortI' X tol).1 ⟨e, h2⟩) hR
      | ok r' =>
        obtain ⟨_, ha, hb, hc⟩ := ok_cases hF hI h1
        obtain ⟨_, ha', hb', hc'⟩ := ok_cases hF' hI' h2
        have hmono : Monotone (r.ind⁻¹ * r'.ind : Equiv.Perm (Fin n)) := by
          intro p q hpq
          rcases eq_or_lt_of_le hpq with rfl | hlt
          · exact le_rfl
          · by_contra hcon
            have h3 := hc _ _ (not_le.1 hcon)
            rw [Equiv.Perm.mul_apply, Equiv.Perm.mul_apply] at h3
            have hinv : ∀ z, r.ind (r.ind⁻¹ z) = z := fun z => Equiv.apply_symm_apply r.ind z
            rw [hinv, hinv] at h3
            exact rowBefore_asymm h3 (hc' _ _ hlt)
        rw [Equiv.Perm.monotone_iff] at hmono
        have hind : r'.ind = r.ind := by
          have := congrArg (fun z => r.ind * z) hmono
          simpa [← mul_assoc] using this
        obtain ⟨res, ind, rev⟩ := r
        obtain ⟨res', ind', rev'⟩ := r'
        simp only at ha ha' hb hb' hind
        subst hind; subst hb; subst hb'; subst ha; subst ha'
        rfl

/-- **C14** (zero tolerance). With `tol = 0` clusters are single values: the result is the stable lexicographic sort. -/
theorem C14_zero_tol (X : Fin n → Fin m → K) (i j : Fin n) : RowBefore 0 X i j ↔
    (∃ c, (∀ c' < c, X i c' = X j c') ∧ X i c < X j c) ∨ (X i = X j ∧ i < j) := by
  have hl : ∀ c, Linked (0 : K) (fun r => X r c) i j ↔ X i c = X j c := by
    intro c
    constructor
    · intro h
      induction h with
      | refl => rfl
      | tail _ h2 ih =>
        rw [ih]
        have := abs_nonpos_iff.1 h2
        exact sub_eq_zero.1 this
    · intro h
      refine .single ?_
      simp [h]
  unfold RowBefore ClusterLt
  simp only [hl, funext_iff]
  constructor
  · rintro (⟨c, hc, hlt, _⟩ | h)
    · exact .inl ⟨c, hc, hlt⟩
    · exact .inr h
  · rintro (⟨c, hc, hlt⟩ | h)
    · exact .inl ⟨c, hc, hlt, hlt.ne⟩
    · exact .inr h

/-- The contract of `np.argsort` is satisfiable. -/
theorem isArgsort_sort {α : Type} [LinearOrder α] : IsArgsort (n := n) (α := α) Tuple.sort := fun v => Tuple.monotone_sort v

/-- The hypotheses of C13 and C14 are met: a 3x2 matrix is accepted, and there its first and third row are linked in the
first column through the second one although they are further apart than the tolerance. -/
def X0 : Fin 3 → Fin 2 → ℚ := ![![0, 2], ![1, 5], ![2, 1]]

example : (∃ r, sortRowsTol Tuple.sort Tuple.sort X0 1 = .ok r ∧
      ∀ p q, p < q → RowBefore 1 X0 (r.ind p) (r.ind q)) ∧ RowBefore 1 X0 0 1 ∧ RowBefore 1 X0 2 1 := by
  have e0 : ∀ i : Fin 3, X0 i 0 = (i.val : ℚ) := by intro i; fin_cases i <;> rfl
  have hl : ∀ i j, Linked (1 : ℚ) (fun r => X0 r 0) i j := by
    have h01 : Linked (1 : ℚ) (fun r => X0 r 0) 0 1 := .single (by show |X0 0 0 - X0 1 0| ≤ 1; rw [e0, e0]; norm_num)
    have h12 : Linked (1 : ℚ) (fun r => X0 r 0) 1 2 := .single (by show |X0 1 0 - X0 2 0| ≤ 1; rw [e0, e0]; norm_num)
    have h1 : ∀ i, Linked (1 : ℚ) (fun r => X0 r 0) 1 i := by
      intro i; fin_cases i
      · exact linked_symm h01
      · exact .refl
      · exact h12
    intro i j
    exact (linked_symm (h1 i)).trans (h1 j)
  have e1 : X0 1 1 = 5 := rfl
  have e2 : ∀ i : Fin 3, i ≠ 1 → X0 i 1 ≤ 2 := by
    intro i hi
    fin_cases i
    · exact le_of_eq rfl
    · exact absurd rfl hi
    · show (1 : ℚ) ≤ 2; norm_num
  have hcl : ∀ i, i ≠ 1 → ClusterLt (1 : ℚ) (fun r => X0 r 1) i 1 := by
    intro i hi
    refine ⟨by show X0 i 1 < X0 1 1; rw [e1]; linarith [e2 i hi], ?_⟩
    intro h
    have : ∀ a b, Linked (1 : ℚ) (fun r => X0 r 1) a b → a ≠ 1 → b ≠ 1 := by
      intro a b hab ha
      induction hab with
      | refl => exact ha
      | @tail b c _ h2 ih =>
        rintro rfl
        change |X0 b 1 - X0 1 1| ≤ 1 at h2
        rw [e1] at h2
        linarith [neg_le_of_abs_le h2, e2 b ih]
    exact this _ _ h hi rfl
  refine ⟨?_, .inl ⟨1, fun c' _ => ?_, hcl 0 (by decide)⟩, .inl ⟨1, fun c' _ => ?_, hcl 2 (by decide)⟩⟩
  · cases h : sortRowsTol Tuple.sort Tuple.sort X0 1 with
    | error e => exact absurd ((C13_raises_iff _ _ _ _).1 ⟨e, h⟩) (by norm_num)
    | ok r => exact ⟨r, rfl, C14_ordered isArgsort_sort isArgsort_sort h⟩
  · have : c' = 0 := by omega
    subst this; exact hl _ _
  · have : c' = 0 := by omega
    subst this; exact hl _ _

end Ellipy.SortRows
