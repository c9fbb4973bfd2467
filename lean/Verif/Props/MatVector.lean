import Verif.Proofs.MatVector
import Verif.Spec.MatVector

/-! Property theorems C16 (`MatVector.r_multiply`) and C17 (`MatVector.r_multiply_by_vec`). -/

namespace Ellipy.MV
open Finset

/-! ### Sparse branch -/

theorem getSparse_ok {T : ℕ} {b : Arr} (hb : b.Pos) (ht : b.TimeOk T) :
    ∃ S, getSparseMat T b = .ok S ∧ ∀ p q, q < b.nCols * T →
      S p q = if p / b.nRows = q / b.nCols then b.entry (p % b.nRows) (q % b.nCols) (q / b.nCols) else 0 := by
  cases b with
  | d2 r c v =>
    exact ⟨_, if_neg (fun h => h rfl), fun p q hq => csc_block hb.1 hb.2 hq (fun i j _ => v i j)⟩
  | d3 r c t v =>
    have ht : t = T := ht
    subst ht
    exact ⟨_, if_neg (fun h => h rfl), fun p q hq => csc_block hb.1 hb.2 hq v⟩

theorem getSparse_raises {T : ℕ} {b : Arr} (hb : b.Pos) : Raises (getSparseMat T b) ↔ ¬ b.TimeOk T := by
  constructor
  · rintro ⟨e, he⟩ ht
    obtain ⟨S, hS, _⟩ := getSparse_ok hb ht
    rw [hS] at he; cases he
  · intro ht
    cases b with
    | d2 r c v => exact absurd trivial ht
    | d3 r c t v =>
      have h : r * c * t ≠ r * c * T := fun h => ht (Nat.eq_of_mul_eq_mul_left (Nat.mul_pos hb.1 hb.2) h)
      exact ⟨_, if_pos h⟩

/-- One block-diagonal product in flattened coordinates. -/
theorem block_product {ca T : ℕ} {b : Arr} (hb : b.Pos) (hc : ca = b.nRows) {S : ℕ → ℕ → ℝ}
    (hS : ∀ p q, q < b.nCols * T →
      S p q = if p / b.nRows = q / b.nCols then b.entry (p % b.nRows) (q % b.nCols) (q / b.nCols) else 0)
    (x : ℕ → ℝ) {j t : ℕ} (hj : j < b.nCols) (ht : t < T) :
    ∑ p ∈ range (ca * T), x p * S p (j + b.nCols * t) = ∑ l ∈ range ca, x (l + ca * t) * b.entry l j t := by
  have hq : j + b.nCols * t < b.nCols * T := by
    calc j + b.nCols * t < b.nCols + b.nCols * t := by omega
      _ = b.nCols * (t + 1) := by ring
      _ ≤ b.nCols * T := Nat.mul_le_mul_left _ ht
  have hm := divmod_add (q := t) hj
  have h1 : ∀ p ∈ range (ca * T), x p * S p (j + b.nCols * t) = if p / ca = t then x p * b.entry (p % ca) j t else 0 := by
    intro p _
    rw [hS p _ hq, hm.1, hm.2, hc]
    split_ifs <;> simp
  rw [sum_congr rfl h1, sum_block ca T t ht]
  refine sum_congr rfl (fun l hl => ?_)
  rw [mem_range] at hl
  rw [(divmod_add hl).1]

theorem sparse2_ok {ra ca T : ℕ} (a : ℕ → ℕ → ℕ → ℝ) {b : Arr} (hb : b.Pos) (hc : ca = b.nRows) (ht : b.TimeOk T) :
    ∃ res, rMultiplySparse ra ca T a b none = .ok res ∧ IsProd2 ra ca T a b res := by
  obtain ⟨S, hS, hSv⟩ := getSparse_ok hb ht
  have hmm : matmul (ca * T) (b.nRows * T) (reshape32 ra ca a) S = .ok _ := if_neg (fun h => h (by rw [hc]))
  refine ⟨_, by simp only [rMultiplySparse, hS, hmm]; rfl, ⟨rfl, rfl, rfl, ?_⟩⟩
  intro i j t hi hj htT
  dsimp only
  rw [reshape23_apply hi, block_product hb hc hSv (fun p => reshape32 ra ca a i p) hj htT]
  refine sum_congr rfl (fun l hl => ?_)
  rw [mem_range] at hl
  rw [reshape32_apply hi, (divmod_add hl).1, (divmod_add hl).2]

theorem sparse3_ok {ra ca T : ℕ} (a : ℕ → ℕ → ℕ → ℝ) {b c : Arr} (hb : b.Pos) (hcp : c.Pos) (hc : ca = b.nRows)
    (hc2 : b.nCols = c.nRows) (ht : b.TimeOk T) (ht2 : c.TimeOk T) :
    ∃ res, rMultiplySparse ra ca T a b (some c) = .ok res ∧ IsProd3 ra ca T a b c res := by
  obtain ⟨S, hS, hSv⟩ := getSparse_ok hb ht
  obtain ⟨S', hS', hSv'⟩ := getSparse_ok hcp ht2
  have hmm : matmul (ca * T) (b.nRows * T) (reshape32 ra ca a) S = .ok _ := if_neg (fun h => h (by rw [hc]))
  have hmm' : ∀ x, matmul (b.nCols * T) (c.nRows * T) x S' = .ok _ := fun x => if_neg (fun h => h (by rw [hc2]))
  refine ⟨_, by simp only [rMultiplySparse, hS, hmm, hS', hmm']; rfl, ⟨rfl, rfl, rfl, ?_⟩⟩
  intro i j t hi hj htT
  dsimp only
  rw [reshape23_apply hi, block_product hcp hc2 hSv' (fun p => _) hj htT]
  refine sum_congr rfl (fun k hk => ?_)
  rw [mem_range] at hk
  congr 1
  rw [block_product hb hc hSv (fun p => reshape32 ra ca a i p) hk htT]
  refine sum_congr rfl (fun l hl => ?_)
  rw [mem_range] at hl
  rw [reshape32_apply hi, (divmod_add hl).1, (divmod_add hl).2]

theorem sparse2_raises {ra ca T : ℕ} (hT : 0 < T) (a : ℕ → ℕ → ℕ → ℝ) {b : Arr} (hb : b.Pos) :
    Raises (rMultiplySparse ra ca T a b none) ↔ ¬ (ca = b.nRows ∧ b.TimeOk T) := by
  constructor
  · rintro ⟨e, he⟩ ⟨hc, ht⟩
    obtain ⟨r, hr, _⟩ := sparse2_ok (ra := ra) a hb hc ht
    rw [hr] at he; cases he
  · intro hn
    by_cases ht : b.TimeOk T
    · obtain ⟨S, hS, _⟩ := getSparse_ok hb ht
      have hc : ca * T ≠ b.nRows * T := fun h => hn ⟨Nat.eq_of_mul_eq_mul_right hT h, ht⟩
      exact ⟨.pyValueError, by simp only [rMultiplySparse, hS, matmul, if_pos hc]⟩
    · obtain ⟨e, he⟩ := (getSparse_raises hb).mpr ht
      exact ⟨e, by simp only [rMultiplySparse, he]⟩

theorem sparse3_raises {ra ca T : ℕ} (hT : 0 < T) (a : ℕ → ℕ → ℕ → ℝ) {b c : Arr} (hb : b.Pos) (hcp : c.Pos) :
    Raises (rMultiplySparse ra ca T a b (some c)) ↔
      ¬ (ca = b.nRows ∧ b.nCols = c.nRows ∧ b.TimeOk T ∧ c.TimeOk T) := by
  constructor
  · rintro ⟨e, he⟩ ⟨hc, hc2, ht, ht2⟩
    obtain ⟨r, hr, _⟩ := sparse3_ok (ra := ra) a hb hcp hc hc2 ht ht2
    rw [hr] at he; cases he
  · intro hn
    by_cases ht : b.TimeOk T
    · obtain ⟨S, hS, _⟩ := getSparse_ok hb ht
      by_cases hc : ca = b.nRows
      · have hmm : matmul (ca * T) (b.nRows * T) (reshape32 ra ca a) S = .ok _ := if_neg (fun h => h (by rw [hc]))
        by_cases ht2 : c.TimeOk T
        · obtain ⟨S', hS', _⟩ := getSparse_ok hcp ht2
          have hc2 : b.nCols * T ≠ c.nRows * T := fun h => hn ⟨hc, Nat.eq_of_mul_eq_mul_right hT h, ht, ht2⟩
          refine ⟨.pyValueError, ?_⟩
          simp only [rMultiplySparse, hS, hmm, hS']
          simp only [matmul, if_pos hc2]
        · obtain ⟨e, he⟩ := (getSparse_raises hcp).mpr ht2
          exact ⟨e, by simp only [rMultiplySparse, hS, hmm, he]⟩
      · have hc : ca * T ≠ b.nRows * T := fun h => hc (Nat.eq_of_mul_eq_mul_right hT h)
        exact ⟨.pyValueError, by simp only [rMultiplySparse, hS, matmul, if_pos hc]⟩
    · obtain ⟨e, he⟩ := (getSparse_raises hb).mpr ht
      exact ⟨e, by simp only [rMultiplySparse, he]⟩

/-! ### Dense branch -/

theorem dense2_shape {ra ca : ℕ} {b : Arr} (hc : ca = b.nRows) : denseShape ra ca b = (ra, b.nCols) := by
  unfold denseShape
  by_cases h1 : ca = 1 ∧ ra = 1
  · rw [if_pos h1, ← hc, h1.1, h1.2]
  · rw [if_neg h1]
    by_cases h2 : b.nCols = 1 ∧ b.nRows = 1
    · rw [if_pos h2, hc, h2.1, h2.2]
    · rw [if_neg h2]

theorem dense2_ok {ra ca T : ℕ} (a : ℕ → ℕ → ℕ → ℝ) {b : Arr} (hc : ca = b.nRows) (ht : b.TimeOk T) (h2 : b.Is3 ∨ T ≠ 1) :
    ∃ res, rMultiplyDense2 ra ca T a b = .ok res ∧ IsProd2 ra ca T a b res := by
  unfold rMultiplyDense2
  simp only [dense2_shape hc]
  cases b with
  | d2 r c v =>
    have hT : ¬ (timeLen (.d2 r c v) = T) := fun h => h2.elim (fun h => h) (fun h' => h' h.symm)
    have hc' : ca = r := hc
    obtain ⟨g, hg, hgv⟩ := fill_ok ra c T (fun t => matmul ca r (fun i j => a i j t) v)
      (fun t i j => ∑ l ∈ range ca, a i l t * v l j) (fun t _ => if_neg (fun h => h hc'))
    rw [if_neg hT, if_pos (show timeLen (.d2 r c v) = 1 from rfl)]
    exact ⟨_, hg, ⟨rfl, rfl, rfl, fun i j t _ _ htT => hgv i j t htT⟩⟩
  | d3 r c t' v =>
    have hc' : ca = r := hc
    obtain ⟨g, hg, hgv⟩ := fill_ok ra c T (dense2Step ca a (.d3 r c t' v))
      (fun t i j => ∑ l ∈ range ca, a i l t * v l j t) (fun t htT => by
        have : t < t' := by rw [show t' = T from ht]; exact htT
        simp only [dense2Step, slice, if_pos this]
        exact if_neg (fun h => h hc'))
    rw [if_pos (show timeLen (.d3 r c t' v) = T from ht)]
    exact ⟨_, hg, ⟨rfl, rfl, rfl, fun i j t _ _ htT => hgv i j t htT⟩⟩

theorem dense3_ok {ra ca T : ℕ} (a : ℕ → ℕ → ℕ → ℝ) {b c : Arr} (hc : ca = b.nRows) (hc2 : b.nCols = c.nRows)
    (ht : b.TimeOk T) (ht2 : c.TimeOk T) (hb : b.Is3) (hcd : c.Is3) :
    ∃ res, rMultiplyDense3 ra ca T a b c = .ok res ∧ IsProd3 ra ca T a b c res := by
  cases b with
  | d2 => exact absurd hb (fun h => h)
  | d3 rb cb tb bv =>
  cases c with
  | d2 => exact absurd hcd (fun h => h)
  | d3 rc cc tc cv =>
  have ht : tb = T := ht
  have ht2 : tc = T := ht2
  have hc : ca = rb := hc
  have hc2 : cb = rc := hc2
  have hrows : (if (ca = 1 ∧ ra = 1) ∧ cb = 1 ∧ rb = 1 then rc else if ca = 1 ∧ ra = 1 then rb else ra) = ra := by
    split_ifs <;> omega
  obtain ⟨g, hg, hgv⟩ := fill_ok ra cc T (dense3Step ca a (.d3 rb cb tb bv) (.d3 rc cc tc cv))
    (fun t i j => ∑ k ∈ range cb, (∑ l ∈ range ca, a i l t * bv l k t) * cv k j t) (fun t htT => by
      have h1 : t < tb := by rw [ht]; exact htT
      have h2 : t < tc := by rw [ht2]; exact htT
      simp only [dense3Step, dense2Step, slice, if_pos h1, if_pos h2, matmul, Arr.nRows, Arr.nCols]
      rw [if_neg (fun h => h hc)]
      simp only
      rw [if_neg (fun h => h hc2)])
  refine ⟨⟨ra, cc, T, g⟩, ?_, ⟨rfl, rfl, rfl, fun i j t _ _ htT => hgv i j t htT⟩⟩
  rw [← hg]
  show fill (if (ca = 1 ∧ ra = 1) ∧ cb = 1 ∧ rb = 1 then rc else if ca = 1 ∧ ra = 1 then rb else ra) cc T _ = _
  rw [hrows]

/-! ### C16 -/

/-- The sparse branch is taken. -/
def TakesSparse (sp : Bool) (ra ca : ℕ) (b : Arr) : Prop :=
  sp = true ∧ ¬ (ca = 1 ∧ ra = 1) ∧ ¬ (b.nCols = 1 ∧ b.nRows = 1)

theorem rMultiply_sparse {sp : Bool} {ra ca T : ℕ} {a : ℕ → ℕ → ℕ → ℝ} {b : Arr} {c : Option Arr} (hs : TakesSparse sp ra ca b) :
    rMultiply (.d3 ra ca T a) b c sp = rMultiplySparse ra ca T a b c := if_pos hs

theorem rMultiply_dense2 {sp : Bool} {ra ca T : ℕ} {a : ℕ → ℕ → ℕ → ℝ} {b : Arr} (hs : ¬ TakesSparse sp ra ca b) :
    rMultiply (.d3 ra ca T a) b none sp = rMultiplyDense2 ra ca T a b := if_neg hs

theorem rMultiply_dense3 {sp : Bool} {ra ca T : ℕ} {a : ℕ → ℕ → ℕ → ℝ} {b c : Arr} (hs : ¬ TakesSparse sp ra ca b) :
    rMultiply (.d3 ra ca T a) b (some c) sp = rMultiplyDense3 ra ca T a b c := if_neg hs

theorem not_takes_false {ra ca : ℕ} {b : Arr} : ¬ TakesSparse false ra ca b := fun h => Bool.noConfusion h.1

/-- **C16** for two factors of matching sizes, both modes: the result is the slice-by-slice product.  Missing: a single matrix times a
batch with one time point in dense mode (`C16_violated_one_slice`). -/
theorem C16_two_partial (ra ca T : ℕ) (a : ℕ → ℕ → ℕ → ℝ) (b : Arr) (sp : Bool) (hb : b.Pos) (hc : ca = b.nRows)
    (ht : b.TimeOk T) (h2 : b.Is3 ∨ T ≠ 1 ∨ TakesSparse sp ra ca b) :
    ∃ res, rMultiply (.d3 ra ca T a) b none sp = .ok res ∧ IsProd2 ra ca T a b res := by
  by_cases hs : TakesSparse sp ra ca b
  · rw [rMultiply_sparse hs]
    exact sparse2_ok a hb hc ht
  · rw [rMultiply_dense2 hs]
    exact dense2_ok a hc ht (h2.imp_right (fun h => h.resolve_right hs))

/-- **C16** for three factors of matching sizes.  Missing: in dense mode factors with two axes are rejected
(`C16_violated_three`). -/
theorem C16_three_partial (ra ca T : ℕ) (a : ℕ → ℕ → ℕ → ℝ) (b c : Arr) (sp : Bool) (hb : b.Pos) (hcp : c.Pos)
    (hc : ca = b.nRows) (hc2 : b.nCols = c.nRows) (ht : b.TimeOk T) (ht2 : c.TimeOk T)
    (h2 : (b.Is3 ∧ c.Is3) ∨ TakesSparse sp ra ca b) :
    ∃ res, rMultiply (.d3 ra ca T a) b (some c) sp = .ok res ∧ IsProd3 ra ca T a b c res := by
  by_cases hs : TakesSparse sp ra ca b
  · rw [rMultiply_sparse hs]
    exact sparse3_ok a hb hcp hc hc2 ht ht2
  · rw [rMultiply_dense3 hs]
    have h := h2.resolve_right hs
    exact dense3_ok a hc hc2 ht ht2 h.1 h.2

/-- **C16**: in sparse mode (and no 1×1 factor, which switches it off) exactly the mismatched arguments raise. -/
theorem C16_sparse_raises_iff (ra ca T : ℕ) (hT : 0 < T) (a : ℕ → ℕ → ℕ → ℝ) (b : Arr) (sp : Bool) (hb : b.Pos)
    (hs : TakesSparse sp ra ca b) :
    Raises (rMultiply (.d3 ra ca T a) b none sp) ↔ ¬ (ca = b.nRows ∧ b.TimeOk T) := by
  rw [rMultiply_sparse hs]
  exact sparse2_raises hT a hb

/-- **C16**: the same for three factors. -/
theorem C16_sparse3_raises_iff (ra ca T : ℕ) (hT : 0 < T) (a : ℕ → ℕ → ℕ → ℝ) (b c : Arr) (sp : Bool) (hb : b.Pos) (hcp : c.Pos)
    (hs : TakesSparse sp ra ca b) :
    Raises (rMultiply (.d3 ra ca T a) b (some c) sp) ↔
      ¬ (ca = b.nRows ∧ b.nCols = c.nRows ∧ b.TimeOk T ∧ c.TimeOk T) := by
  rw [rMultiply_sparse hs]
  exact sparse3_raises hT a hb hcp

/-- **C16**: in dense mode mismatched arguments raise, unless the second factor has three axes and a single time point while
the first one has several (`C16_violated_shape`). -/
theorem C16_dense_raises_partial (ra ca T : ℕ) (hT : 0 < T) (a : ℕ → ℕ → ℕ → ℝ) (b : Arr) (sp : Bool)
    (hs : ¬ TakesSparse sp ra ca b) (hodd : ∀ r c v, b = .d3 r c 1 v → T = 1) (hbad : ¬ (ca = b.nRows ∧ b.TimeOk T)) :
    Raises (rMultiply (.d3 ra ca T a) b none sp) := by
  rw [rMultiply_dense2 hs]
  unfold rMultiplyDense2
  cases b with
  | d2 r c v =>
    have hc : ca ≠ r := fun h => hbad ⟨h, trivial⟩
    by_cases h1 : timeLen (.d2 r c v) = T
    · simp only [if_pos h1]
      exact (fill_raises _ _ _ _).mpr ⟨0, hT, _, rfl⟩
    · simp only [if_neg h1]
      rw [if_pos (show timeLen (.d2 r c v) = 1 from rfl)]
      exact (fill_raises _ _ _ _).mpr ⟨0, hT, _, if_pos hc⟩
  | d3 r c t' v =>
    by_cases ht : timeLen (.d3 r c t' v) = T
    · have hc : ca ≠ r := fun h => hbad ⟨h, ht⟩
      simp only [if_pos ht]
      refine (fill_raises _ _ _ _).mpr ⟨0, hT, .pyValueError, ?_⟩
      have h0 : 0 < t' := by rw [show t' = T from ht]; exact hT
      simp only [dense2Step, slice, if_pos h0]
      exact if_pos hc
    · have h1 : ¬ timeLen (.d3 r c t' v) = 1 := by
        intro h
        apply ht
        rw [h]
        have h : t' = 1 := h
        subst h
        exact (hodd r c v rfl).symm
      simp only [if_neg ht, if_neg h1]
      exact ⟨_, rfl⟩

/-- **C16**: the switch never changes the value of a call that succeeds in both modes (two factors). -/
theorem C16_switch (ra ca T : ℕ) (hT : 0 < T) (a : ℕ → ℕ → ℕ → ℝ) (b : Arr) (hb : b.Pos) (x y : Arr3)
    (hx : rMultiply (.d3 ra ca T a) b none true = .ok x) (hy : rMultiply (.d3 ra ca T a) b none false = .ok y) :
    SameArr x y := by
  by_cases hs : TakesSparse true ra ca b
  · have hconf : ca = b.nRows ∧ b.TimeOk T := by
      by_contra hn
      obtain ⟨e, he⟩ := (C16_sparse_raises_iff ra ca T hT a b true hb hs).mpr hn
      rw [hx] at he; cases he
    obtain ⟨x', hx', px⟩ := C16_two_partial ra ca T a b true hb hconf.1 hconf.2 (Or.inr (Or.inr hs))
    rw [hx] at hx'; injection hx' with hx'; subst hx'
    have h3 : b.Is3 ∨ T ≠ 1 := by
      by_contra hn
      push Not at hn
      obtain ⟨hn1, rfl⟩ := hn
      cases b with
      | d3 => exact hn1 trivial
      | d2 r c v =>
        have : rMultiply (.d3 ra ca 1 a) (.d2 r c v) none false = .error .indexError := by
          simp [rMultiply, rMultiplyDense2, fill, timeLen, dense2Step, forRange, slice]
        rw [hy] at this; cases this
    obtain ⟨y', hy', py⟩ := C16_two_partial ra ca T a b false hb hconf.1 hconf.2 (h3.imp_right Or.inl)
    rw [hy] at hy'; injection hy' with hy'; subst hy'
    refine ⟨px.rows.trans py.rows.symm, px.cols.trans py.cols.symm, px.time.trans py.time.symm, ?_⟩
    intro i j t hi hj ht
    rw [px.rows] at hi; rw [px.cols] at hj; rw [px.time] at ht
    rw [px.val i j t hi hj ht, py.val i j t hi hj ht]
  · have : rMultiply (.d3 ra ca T a) b none true = rMultiply (.d3 ra ca T a) b none false := by
      rw [rMultiply_dense2 hs, rMultiply_dense2 not_takes_false]
    rw [this, hy] at hx
    injection hx with hx
    subst hx
    exact ⟨rfl, rfl, rfl, fun _ _ _ _ _ _ => rfl⟩

/-- **C16**: the switch never changes the value of a call that succeeds in both modes (three factors). -/
theorem C16_switch3 (ra ca T : ℕ) (hT : 0 < T) (a : ℕ → ℕ → ℕ → ℝ) (b c : Arr) (hb : b.Pos) (hcp : c.Pos) (x y : Arr3)
    (hx : rMultiply (.d3 ra ca T a) b (some c) true = .ok x) (hy : rMultiply (.d3 ra ca T a) b (some c) false = .ok y) :
    SameArr x y := by
  by_cases hs : TakesSparse true ra ca b
  · have hconf : ca = b.nRows ∧ b.nCols = c.nRows ∧ b.TimeOk T ∧ c.TimeOk T := by
      by_contra hn
      obtain ⟨e, he⟩ := (C16_sparse3_raises_iff ra ca T hT a b c true hb hcp hs).mpr hn
      rw [hx] at he; cases he
    obtain ⟨h1, h2, h3, h4⟩ := hconf
    obtain ⟨x', hx', px⟩ := C16_three_partial ra ca T a b c true hb hcp h1 h2 h3 h4 (Or.inr hs)
    rw [hx] at hx'; injection hx' with hx'; subst hx'
    have h33 : b.Is3 ∧ c.Is3 := by
      by_contra hn
      have hr : Raises (rMultiply (.d3 ra ca T a) b (some c) false) := by
        rw [rMultiply_dense3 not_takes_false]
        refine (fill_raises _ _ _ _).mpr ⟨0, hT, .indexError, ?_⟩
        cases b with
        | d2 r k v => rfl
        | d3 r k tb v =>
          cases c with
          | d3 => exact absurd ⟨trivial, trivial⟩ hn
          | d2 rc cc cv =>
            have h0 : 0 < tb := by rw [show tb = T from h3]; exact hT
            have h1 : ca = r := h1
            simp only [dense3Step, dense2Step, slice, if_pos h0, matmul, Arr.nRows]
            rw [if_neg (fun h => h h1)]
      obtain ⟨e, he⟩ := hr
      rw [hy] at he; cases he
    obtain ⟨y', hy', py⟩ := C16_three_partial ra ca T a b c false hb hcp h1 h2 h3 h4 (Or.inl h33)
    rw [hy] at hy'; injection hy' with hy'; subst hy'
    refine ⟨px.rows.trans py.rows.symm, px.cols.trans py.cols.symm, px.time.trans py.time.symm, ?_⟩
    intro i j t hi hj ht
    rw [px.rows] at hi; rw [px.cols] at hj; rw [px.time] at ht
    rw [px.val i j t hi hj ht, py.val i j t hi hj ht]
  · have : rMultiply (.d3 ra ca T a) b (some c) true = rMultiply (.d3 ra ca T a) b (some c) false := by
      rw [rMultiply_dense3 hs, rMultiply_dense3 not_takes_false]
    rw [this, hy] at hx
    injection hx with hx
    subst hx
    exact ⟨rfl, rfl, rfl, fun _ _ _ _ _ _ => rfl⟩

/-- With a single time point a matrix as second factor is rejected in dense mode and accepted in sparse mode. -/
theorem C16_violated_one_slice : ∃ (a : ℕ → ℕ → ℕ → ℝ) (b : Arr), b.Pos ∧ 2 = b.nRows ∧ b.TimeOk 1 ∧
    Raises (rMultiply (.d3 2 2 1 a) b none false) ∧ ¬ Raises (rMultiply (.d3 2 2 1 a) b none true) := by
  refine ⟨fun i j _ => if i = j then 1 else 0, .d2 2 2 (fun _ _ => 1), ⟨Nat.succ_pos 1, Nat.succ_pos 1⟩, rfl, trivial, ?_, ?_⟩
  · exact ⟨.indexError, by simp [rMultiply, rMultiplyDense2, fill, timeLen, dense2Step, forRange, slice]⟩
  · intro h
    exact (C16_sparse_raises_iff 2 2 1 Nat.one_pos _ (.d2 2 2 (fun _ _ => 1)) true ⟨Nat.succ_pos 1, Nat.succ_pos 1⟩
      ⟨rfl, by simp, by simp [Arr.nRows, Arr.nCols]⟩).mp h ⟨rfl, trivial⟩

/-- A 2×3 batch times an array of shape (1, 3, 1): the sizes do not match and nothing is raised. -/
theorem C16_violated_shape : ∃ (a : ℕ → ℕ → ℕ → ℝ) (b : Arr), b.Pos ∧ 3 ≠ b.nRows ∧
    ∃ res, rMultiply (.d3 2 3 2 a) b none false = .ok res := by
  refine ⟨fun _ _ _ => 1, .d3 1 3 1 (fun _ _ _ => 1), ⟨Nat.one_pos, by simp [Arr.nCols]⟩, by simp [Arr.nRows], ?_⟩
  exact ⟨_, by simp [rMultiply, rMultiplyDense2, fill, timeLen, denseShape, forRange, stackAssign, Arr.nRows, Arr.nCols]; rfl⟩

/-- With three factors the dense mode rejects a matrix as second factor, the sparse mode accepts it; and the dense mode
accepts a third factor with more time points than the first one, the sparse mode rejects it. -/
theorem C16_violated_three : ∃ (a : ℕ → ℕ → ℕ → ℝ) (b b' c c' : Arr), b.Pos ∧ b'.Pos ∧ c.Pos ∧ c'.Pos ∧
    (Raises (rMultiply (.d3 2 2 2 a) b (some c) false) ∧ ¬ Raises (rMultiply (.d3 2 2 2 a) b (some c) true)) ∧
    (¬ Raises (rMultiply (.d3 2 2 2 a) b' (some c') false) ∧ Raises (rMultiply (.d3 2 2 2 a) b' (some c') true)) := by
  have p2 : (0 : ℕ) < 2 := Nat.succ_pos 1
  refine ⟨fun _ _ _ => 1, .d2 2 2 (fun _ _ => 1), .d3 2 2 2 (fun _ _ _ => 1), .d3 2 2 2 (fun _ _ _ => 1), .d3 2 2 3 (fun _ _ _ => 1),
    ⟨p2, p2⟩, ⟨p2, p2⟩, ⟨p2, p2⟩, ⟨p2, p2⟩, ⟨⟨.indexError, ?_⟩, ?_⟩, ?_, ?_⟩
  · simp [rMultiply, rMultiplyDense3, fill, dense3Step, dense2Step, forRange, slice]
  · intro h
    exact (C16_sparse3_raises_iff 2 2 2 p2 _ (.d2 2 2 (fun _ _ => 1)) (.d3 2 2 2 (fun _ _ _ => 1)) true ⟨p2, p2⟩ ⟨p2, p2⟩
      ⟨rfl, by simp, by simp [Arr.nRows, Arr.nCols]⟩).mp h ⟨rfl, rfl, trivial, rfl⟩
  · rintro ⟨e, he⟩
    simp [rMultiply, rMultiplyDense3, fill, dense3Step, dense2Step, forRange, slice, matmul, Arr.nRows, Arr.nCols] at he
  · refine (C16_sparse3_raises_iff 2 2 2 p2 _ (.d3 2 2 2 (fun _ _ _ => 1)) (.d3 2 2 3 (fun _ _ _ => 1)) true ⟨p2, p2⟩ ⟨p2, p2⟩
      ⟨rfl, by simp, by simp [Arr.nRows, Arr.nCols]⟩).mpr ?_
    rintro ⟨_, _, _, h⟩
    exact absurd (show 3 = 2 from h) (by decide)

/-- A 2×3 batch over two time points times a 3×4 batch, in both modes. -/
example (a b : ℕ → ℕ → ℕ → ℝ) (sp : Bool) : ∃ res, rMultiply (.d3 2 3 2 a) (.d3 3 4 2 b) none sp = .ok res ∧
    res.v 1 3 1 = a 1 0 1 * b 0 3 1 + a 1 1 1 * b 1 3 1 + a 1 2 1 * b 2 3 1 := by
  obtain ⟨res, h, p⟩ := C16_two_partial 2 3 2 a (.d3 3 4 2 b) sp ⟨by simp [Arr.nRows], by simp [Arr.nCols]⟩ rfl rfl (Or.inl trivial)
  refine ⟨res, h, ?_⟩
  rw [p.val 1 3 1 (by decide) (by simp [Arr.nCols]) (by decide)]
  simp [sum_range_succ, Arr.entry]

/-- A constant 2×2 factor. -/
example (a : ℕ → ℕ → ℕ → ℝ) (b c : ℕ → ℕ → ℝ) : ∃ res, rMultiply (.d3 2 2 5 a) (.d2 2 2 b) (some (.d2 2 2 c)) true = .ok res ∧
    IsProd3 2 2 5 a (.d2 2 2 b) (.d2 2 2 c) res :=
  C16_three_partial 2 2 5 a _ _ true ⟨Nat.succ_pos 1, Nat.succ_pos 1⟩ ⟨Nat.succ_pos 1, Nat.succ_pos 1⟩ rfl rfl trivial trivial
    (Or.inr ⟨rfl, by simp, by simp [Arr.nRows, Arr.nCols]⟩)

/-! ### C17 -/

/-- **C17**: for a matrix of vectors of the right size both modes return the slice-by-slice products. -/
theorem C17_value (ra ca T : ℕ) (a : ℕ → ℕ → ℕ → ℝ) (b : ℕ → ℕ → ℝ) (sp : Bool) :
    ∃ v, rMultiplyByVec (.d3 ra ca T a) (.d2 ca T b) sp = .ok (ra, T, v) ∧
      ∀ i t, i < ra → t < T → v i t = ∑ l ∈ range ca, a i l t * b l t := by
  cases sp with
  | false =>
    obtain ⟨g, hg, hgv⟩ := forRange_ok T (fun t =>
        if T ≤ t then .error .indexError
        else if ca ≠ ca then .error .pyValueError
        else .ok (fun i => ∑ l ∈ Finset.range ca, a i l t * b l t))
      (fun t i => ∑ l ∈ Finset.range ca, a i l t * b l t) (fun t ht => by
        rw [if_neg (Nat.not_le.mpr ht), if_neg (fun h => h rfl)])
    refine ⟨fun i t => g t i, ?_, ?_⟩
    · simp only [rMultiplyByVec, Bool.false_eq_true, if_false, hg]
    · intro i t _ ht
      show g t i = _
      rw [hgv t ht]
  | true =>
    have hmm : ∀ x y, matmul (ca * T) (ca * T) x y = .ok _ := fun x y => if_neg (fun h => h rfl)
    refine ⟨_, by simp only [rMultiplyByVec, if_true, ne_eq, not_true_eq_false, if_false, hmm]; rfl, ?_⟩
    intro i t hi ht
    show ∑ p ∈ range (ca * T), _ = _
    have h1 : ∀ p ∈ range (ca * T), reshape32 ra ca a i p * csc (ca * T) (fun k => b (k % ca) (k / ca)) (fun k => k) (fun k => k / ca) p t =
        if p / ca = t then a i (p % ca) t * b (p % ca) t else 0 := by
      intro p hp
      rw [reshape32_apply hi, csc, sum_eq_single p]
      · by_cases h : p / ca = t
        · rw [if_pos ⟨rfl, h⟩, if_pos h, h]
        · rw [if_neg (fun h' => h h'.2), if_neg h, mul_zero]
      · intro k _ hk
        rw [if_neg (fun h => hk h.1)]
      · intro h; exact absurd hp h
    rw [sum_congr rfl h1, sum_block ca T t ht]
    refine sum_congr rfl (fun l hl => ?_)
    rw [mem_range] at hl
    rw [(divmod_add hl).1]

/-- What each mode rejects. -/
theorem C17_raises_iff (ra ca T rb cb : ℕ) (hT : 0 < T) (a : ℕ → ℕ → ℕ → ℝ) (b : ℕ → ℕ → ℝ) :
    (Raises (rMultiplyByVec (.d3 ra ca T a) (.d2 rb cb b) false) ↔ ca ≠ rb ∨ cb < T) ∧
    (Raises (rMultiplyByVec (.d3 ra ca T a) (.d2 rb cb b) true) ↔ rb * cb ≠ ca * T) ∧
    ∀ sp t v, Raises (rMultiplyByVec (.d3 ra ca T a) (.d3 rb cb t v) sp) := by
  refine ⟨?_, ?_, fun sp t v => ⟨_, rfl⟩⟩
  · have key : Raises (rMultiplyByVec (.d3 ra ca T a) (.d2 rb cb b) false) ↔ Raises (forRange T (fun t =>
        if cb ≤ t then .error .indexError
        else if ca ≠ rb then .error .pyValueError
        else .ok (fun i => ∑ l ∈ Finset.range ca, a i l t * b l t))) := by
      simp only [rMultiplyByVec, Bool.false_eq_true, if_false]
      cases forRange T (fun t =>
        if cb ≤ t then .error .indexError
        else if ca ≠ rb then .error .pyValueError
        else .ok (fun i => ∑ l ∈ Finset.range ca, a i l t * b l t)) with
      | error e => exact iff_of_true ⟨e, rfl⟩ ⟨e, rfl⟩
      | ok g => exact iff_of_false (by rintro ⟨e, he⟩; cases he) (by rintro ⟨e, he⟩; cases he)
    rw [key, forRange_raises]
    constructor
    · rintro ⟨t, ht, e, he⟩
      by_cases h1 : cb ≤ t
      · right; omega
      · rw [if_neg h1] at he
        left
        intro h2
        rw [if_neg (fun h => h h2)] at he
        cases he
    · rintro (h | h)
      · refine ⟨0, hT, ?_⟩
        by_cases h1 : cb ≤ 0
        · exact ⟨_, if_pos h1⟩
        · exact ⟨_, by rw [if_neg h1, if_pos h]⟩
      · exact ⟨cb, h, _, if_pos (Nat.le_refl cb)⟩
  · simp only [rMultiplyByVec, if_true]
    by_cases h : rb * cb = ca * T
    · rw [if_neg (fun h' => h' h)]
      refine iff_of_false ?_ (fun h' => h' h)
      have hmm : ∀ x y, matmul (ca * T) (ca * T) x y = .ok _ := fun x y => if_neg (fun h => h rfl)
      rintro ⟨e, he⟩
      simp only [hmm] at he
      cases he
    · rw [if_pos h]
      exact iff_of_true ⟨_, rfl⟩ h

/-- The modes disagree on arguments of the wrong shape: a transposed matrix of vectors is accepted in sparse mode. -/
theorem C17_shape_violated : ∃ (a : ℕ → ℕ → ℕ → ℝ) (b : ℕ → ℕ → ℝ),
    ¬ Raises (rMultiplyByVec (.d3 2 2 3 a) (.d2 3 2 b) true) ∧ Raises (rMultiplyByVec (.d3 2 2 3 a) (.d2 3 2 b) false) := by
  refine ⟨fun _ _ _ => 1, fun _ _ => 1, ?_, ?_⟩
  · rw [(C17_raises_iff 2 2 3 3 2 (by decide) _ _).2.1]; decide
  · rw [(C17_raises_iff 2 2 3 3 2 (by decide) _ _).1]; decide

example (a : ℕ → ℕ → ℕ → ℝ) (b : ℕ → ℕ → ℝ) (sp : Bool) : ∃ v, rMultiplyByVec (.d3 3 2 4 a) (.d2 2 4 b) sp = .ok (3, 4, v) ∧
    v 2 3 = a 2 0 3 * b 0 3 + a 2 1 3 * b 1 3 := by
  obtain ⟨v, h, hv⟩ := C17_value 3 2 4 a b sp
  refine ⟨v, h, ?_⟩
  rw [hv 2 3 (by decide) (by decide)]
  simp [sum_range_succ]

end Ellipy.MV
