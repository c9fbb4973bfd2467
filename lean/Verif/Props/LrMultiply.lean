import Verif.Model.SquareMatVector
import Verif.Spec.LrMultiply
import Verif.Props.MatVector

/-! Property theorems C118: `SquareMatVector.lr_multiply` and `SquareMatVector.lr_multiply_by_vec`. -/

namespace Ellipy.MV
open Finset

theorem lrStep_right {n m : ℕ} (b a : ℕ → ℕ → ℝ) :
    lrStep "R" n n n m b a = .ok (fun i j => ∑ l ∈ range n, (∑ k ∈ range n, a k i * b k l) * a l j) := by
  simp [lrStep, matmul]

theorem lrStep_left {n m : ℕ} (b a : ℕ → ℕ → ℝ) :
    lrStep "L" n n m n b a = .ok (fun i j => ∑ l ∈ range n, (∑ k ∈ range n, a i k * b k l) * a j l) := by
  simp [lrStep, matmul]

theorem swap_sums (n : ℕ) (f : ℕ → ℕ → ℝ) (g : ℕ → ℝ) :
    ∑ l ∈ range n, (∑ k ∈ range n, f k l) * g l = ∑ k ∈ range n, ∑ l ∈ range n, f k l * g l := by
  rw [sum_comm]
  exact sum_congr rfl fun l _ => sum_mul _ _ _

/-- A batch of square matrices multiplied from both sides, `flag = 'R'`. -/
theorem C118_right (n m T : ℕ) (b : ℕ → ℕ → ℕ → ℝ) (A : Arr) (hr : A.nRows = n) (hc : A.nCols = m) (ht : A.TimeOk T) :
    ∃ v, lrMultiply (.d3 n n T b) A "R" = .ok (.d3 m m T v) ∧
      ∀ i j t, i < m → j < m → t < T → v i j t = rightForm n b A.entry i j t := by
  cases A with
  | d2 ra ca a =>
    simp only [Arr.nRows, Arr.nCols] at hr hc; subst hr; subst hc
    obtain ⟨v, hv, hvv⟩ := fill_ok ca ca T (fun t => lrStep "R" ra ra ra ca (fun i j => b i j t) a)
      (fun t i j => ∑ l ∈ range ra, (∑ k ∈ range ra, a k i * b k l t) * a l j) (fun t _ => lrStep_right _ _)
    refine ⟨v, by simp [lrMultiply, Arr.nCols, hv], fun i j t _ _ h => ?_⟩
    rw [hvv i j t h, swap_sums]; rfl
  | d3 ra ca T' a =>
    simp only [Arr.nRows, Arr.nCols, Arr.TimeOk] at hr hc ht; subst hr; subst hc; subst ht
    obtain ⟨v, hv, hvv⟩ := fill_ok ca ca T' (fun t => onSlice t (.d3 ra ca T' a) (fun at' => lrStep "R" ra ra ra ca (fun i j => b i j t) at'))
      (fun t i j => ∑ l ∈ range ra, (∑ k ∈ range ra, a k i t * b k l t) * a l j t) (fun t h => by
        simp only [onSlice, slice, h, if_true]; exact lrStep_right _ _)
    refine ⟨v, by simp [lrMultiply, Arr.nCols, hv], fun i j t _ _ h => ?_⟩
    rw [hvv i j t h, swap_sums]; rfl

/-- A batch of square matrices multiplied from both sides, `flag = 'L'`. -/
theorem C118_left (n m T : ℕ) (b : ℕ → ℕ → ℕ → ℝ) (A : Arr) (hr : A.nRows = m) (hc : A.nCols = n) (ht : A.TimeOk T) :
    ∃ v, lrMultiply (.d3 n n T b) A "L" = .ok (.d3 m m T v) ∧
      ∀ i j t, i < m → j < m → t < T → v i j t = leftForm n b A.entry i j t := by
  cases A with
  | d2 ra ca a =>
    simp only [Arr.nRows, Arr.nCols] at hr hc; subst hr; subst hc
    obtain ⟨v, hv, hvv⟩ := fill_ok ra ra T (fun t => lrStep "L" ca ca ra ca (fun i j => b i j t) a)
      (fun t i j => ∑ l ∈ range ca, (∑ k ∈ range ca, a i k * b k l t) * a j l) (fun t _ => lrStep_left _ _)
    refine ⟨v, by simp [lrMultiply, Arr.nRows, hv], fun i j t _ _ h => ?_⟩
    rw [hvv i j t h, swap_sums]; rfl
  | d3 ra ca T' a =>
    simp only [Arr.nRows, Arr.nCols, Arr.TimeOk] at hr hc ht; subst hr; subst hc; subst ht
    obtain ⟨v, hv, hvv⟩ := fill_ok ra ra T' (fun t => onSlice t (.d3 ra ca T' a) (fun at' => lrStep "L" ca ca ra ca (fun i j => b i j t) at'))
      (fun t i j => ∑ l ∈ range ca, (∑ k ∈ range ca, a i k t * b k l t) * a j l t) (fun t h => by
        simp only [onSlice, slice, h, if_true]; exact lrStep_left _ _)
    refine ⟨v, by simp [lrMultiply, Arr.nRows, hv], fun i j t _ _ h => ?_⟩
    rw [hvv i j t h, swap_sums]; rfl

/-- Two matrices without a time axis. -/
theorem C118_matrix (n m : ℕ) (b a : ℕ → ℕ → ℝ) :
    (∃ v, lrMultiply (.d2 n n b) (.d2 n m a) "R" = .ok (.d2 m m v) ∧
      ∀ i j, i < m → j < m → v i j = ∑ k ∈ range n, ∑ l ∈ range n, a k i * b k l * a l j) ∧
    (∃ v, lrMultiply (.d2 n n b) (.d2 m n a) "L" = .ok (.d2 m m v) ∧
      ∀ i j, i < m → j < m → v i j = ∑ k ∈ range n, ∑ l ∈ range n, a i k * b k l * a j l) := by
  constructor
  · refine ⟨_, by simp only [lrMultiply, Arr.nCols, lrStep_right]; simp, fun i j _ _ => swap_sums _ _ _⟩
  · refine ⟨_, by simp only [lrMultiply, Arr.nRows, lrStep_left]; simp, fun i j _ _ => swap_sums _ _ _⟩

/-- One matrix `B` and a batch of one matrix `A`: the product, without a time axis.  (Partial: with more matrices in `A` the others are
ignored, `C118_violated_batch`.) -/
theorem C118_single_partial (n m : ℕ) (b : ℕ → ℕ → ℝ) (a : ℕ → ℕ → ℕ → ℝ) :
    (∃ v, lrMultiply (.d2 n n b) (.d3 n m 1 a) "R" = .ok (.d2 m m v) ∧
      ∀ i j, i < m → j < m → v i j = ∑ k ∈ range n, ∑ l ∈ range n, a k i 0 * b k l * a l j 0) ∧
    (∃ v, lrMultiply (.d2 n n b) (.d3 m n 1 a) "L" = .ok (.d2 m m v) ∧
      ∀ i j, i < m → j < m → v i j = ∑ k ∈ range n, ∑ l ∈ range n, a i k 0 * b k l * a j l 0) := by
  constructor
  · refine ⟨_, by simp only [lrMultiply, Arr.nCols, slice, lrStep_right]; simp, fun i j _ _ => swap_sums _ _ _⟩
  · refine ⟨_, by simp only [lrMultiply, Arr.nRows, slice, lrStep_left]; simp, fun i j _ _ => swap_sums _ _ _⟩

theorem lrStep_raises {flag : String} (hf : flag = "R" ∨ flag = "L") (rb cb ra ca : ℕ) (b a : ℕ → ℕ → ℝ) :
    Raises (lrStep flag rb cb ra ca b a) ↔
      rb ≠ cb ∨ (flag = "R" ∧ rb ≠ ra) ∨ (flag = "L" ∧ rb ≠ ca) := by
  rcases hf with rfl | rfl
  · by_cases h1 : ra = rb
    · subst h1
      by_cases h2 : cb = ra
      · subst h2; simp [lrStep, matmul, Raises]
      · simp [lrStep, matmul, Raises, h2, Ne.symm h2]
    · simp [lrStep, matmul, Raises, h1, Ne.symm h1]
  · by_cases h1 : ca = rb
    · subst h1
      by_cases h2 : cb = ca
      · subst h2; simp [lrStep, matmul, Raises]
      · simp [lrStep, matmul, Raises, h2, Ne.symm h2]
    · simp [lrStep, matmul, Raises, h1, Ne.symm h1]

theorem raises_of {α β : Type} {y : Py β} (x : Py α) (h : ∀ e, x = .error e → y = .error e) (h' : ∀ a, x = .ok a → ∃ b, y = .ok b) :
    Raises y ↔ Raises x := by
  cases hx : x with
  | error e => rw [h e hx]; simp [Raises]
  | ok a => obtain ⟨b, hb⟩ := h' a hx; rw [hb]; simp [Raises]

/-- When the call fails: an unknown flag, matrices `B` that are not square or do not fit to `A`, or too few matrices in `A`. -/
theorem C118_raises_iff (B A : Arr) (hB : B.Inhabited) (flag : String) :
    Raises (lrMultiply B A flag) ↔
      (flag ≠ "R" ∧ flag ≠ "L") ∨ B.nRows ≠ B.nCols ∨ (flag = "R" ∧ B.nRows ≠ A.nRows) ∨ (flag = "L" ∧ B.nRows ≠ A.nCols) ∨
        ¬ Covers B A := by
  by_cases hf : flag = "R" ∨ flag = "L"
  swap
  · have : flag ≠ "R" ∧ flag ≠ "L" := ⟨fun h => hf (Or.inl h), fun h => hf (Or.inr h)⟩
    simp only [lrMultiply, hf, not_false_eq_true, if_true, this, ne_eq, and_self, true_or, iff_true]
    exact ⟨_, rfl⟩
  have hf' : ¬ (flag ≠ "R" ∧ flag ≠ "L") := fun h => hf.elim h.1 h.2
  simp only [hf', false_or]
  have hstep := fun rb cb ra ca => lrStep_raises hf rb cb ra ca
  simp only [lrMultiply]
  rw [if_neg (not_not.2 hf)]
  cases B with
  | d2 rb cb b =>
    cases A with
    | d2 ra ca a =>
      refine (raises_of (lrStep flag rb cb ra ca b a) (fun e h => by simp only [Arr.nRows, Arr.nCols, h]) (fun x h => ⟨_, by simp only [Arr.nRows, Arr.nCols, h]; rfl⟩)).trans ?_
      simp only [hstep, Arr.nRows, Arr.nCols, Covers, not_true_eq_false, or_false]
    | d3 ra ca T a =>
      simp only [Arr.nRows, Arr.nCols, Covers, slice]
      by_cases hT : 0 < T
      · simp only [hT, if_true, not_true_eq_false, or_false]
        exact (raises_of (lrStep flag rb cb ra ca b (fun i j => a i j 0)) (fun e h => by simp only [Arr.nRows, Arr.nCols, h]) (fun x h => ⟨_, by simp only [Arr.nRows, Arr.nCols, h]; rfl⟩)).trans (hstep ..)
      · simp only [hT, if_false, not_false_eq_true, or_true, iff_true]; exact ⟨_, rfl⟩
  | d3 rb cb T b =>
    have hT : 0 < T := hB
    cases A with
    | d2 ra ca a =>
      refine (raises_of (fill (if flag = "R" then ca else ra) (if flag = "R" then ca else ra) T (fun t => lrStep flag rb cb ra ca (fun i j => b i j t) a)) (fun e h => by simp only [Arr.nRows, Arr.nCols, h]) (fun x h => ⟨_, by simp only [Arr.nRows, Arr.nCols, h]; rfl⟩)).trans ?_
      simp only [fill_raises, hstep, Arr.nRows, Arr.nCols, Covers, not_true_eq_false, or_false]
      exact ⟨fun ⟨_, _, h⟩ => h, fun h => ⟨0, hT, h⟩⟩
    | d3 ra ca T' a =>
      refine (raises_of (fill (if flag = "R" then ca else ra) (if flag = "R" then ca else ra) T (fun t => onSlice t (.d3 ra ca T' a) (fun at' => lrStep flag rb cb ra ca (fun i j => b i j t) at'))) (fun e h => by simp only [Arr.nRows, Arr.nCols, h]) (fun x h => ⟨_, by simp only [Arr.nRows, Arr.nCols, h]; rfl⟩)).trans ?_
      simp only [fill_raises, Arr.nRows, Arr.nCols, Covers]
      have hs : ∀ t, Raises (onSlice t (.d3 ra ca T' a) (fun at' => lrStep flag rb cb ra ca (fun i j => b i j t) at')) ↔
          (rb ≠ cb ∨ (flag = "R" ∧ rb ≠ ra) ∨ (flag = "L" ∧ rb ≠ ca)) ∨ ¬ t < T' := by
        intro t
        by_cases h : t < T'
        · simp only [onSlice, slice, h, if_true, hstep, not_true_eq_false, or_false]
        · simp only [onSlice, slice, h, if_false, not_false_eq_true, or_true, iff_true]; exact ⟨_, rfl⟩
      simp only [hs]
      constructor
      · rintro ⟨t, ht, h | h⟩
        · tauto
        · right; right; right; omega
      · intro h
        by_cases hc : T ≤ T'
        · exact ⟨0, hT, Or.inl (by tauto)⟩
        · exact ⟨T', by omega, Or.inr (by omega)⟩

/-- With a batch `A`, `flag = 'L'` is `flag = 'R'` for the transposed matrices. -/
theorem C118_flip (B : Arr) (r c T : ℕ) (a : ℕ → ℕ → ℕ → ℝ) :
    lrMultiply B (.d3 r c T a) "L" = lrMultiply B (transposeArr (.d3 r c T a)) "R" := by
  have hs : ∀ (rb cb : ℕ) (b m : ℕ → ℕ → ℝ), lrStep "L" rb cb r c b m = lrStep "R" rb cb c r b (fun i j => m j i) := by
    intro rb cb b m
    simp [lrStep]
  cases B with
  | d2 rb cb b =>
    by_cases hT : 0 < T <;> simp [lrMultiply, transposeArr, Arr.nRows, Arr.nCols, slice, hT, hs]
  | d3 rb cb T' b =>
    have e : ∀ t, onSlice t (.d3 r c T a) (fun at' => lrStep "L" rb cb r c (fun i j => b i j t) at') =
        onSlice t (.d3 c r T (fun i j k => a j i k)) (fun at' => lrStep "R" rb cb c r (fun i j => b i j t) at') := by
      intro t
      by_cases h : t < T <;> simp [onSlice, slice, h, hs]
    simp [lrMultiply, transposeArr, Arr.nRows, Arr.nCols, e]

/-- Multiplying from both sides twice is multiplying once by the products `A[:, :, t] C[:, :, t]`. -/
theorem C118_compose (n m p T : ℕ) (b a c : ℕ → ℕ → ℕ → ℝ) (hm : 0 < m) (hp : 0 < p) (sp : Bool) :
    ∃ x y ac z, lrMultiply (.d3 n n T b) (.d3 n m T a) "R" = .ok (.d3 m m T x) ∧
      lrMultiply (.d3 m m T x) (.d3 m p T c) "R" = .ok (.d3 p p T y) ∧
      rMultiply (.d3 n m T a) (.d3 m p T c) none sp = .ok ac ∧
      lrMultiply (.d3 n n T b) (.d3 ac.r ac.c ac.t ac.v) "R" = .ok (.d3 p p T z) ∧
      ∀ i j t, i < p → j < p → t < T → y i j t = z i j t := by
  obtain ⟨x, hx, vx⟩ := C118_right n m T b (.d3 n m T a) rfl rfl rfl
  obtain ⟨y, hy, vy⟩ := C118_right m p T x (.d3 m p T c) rfl rfl rfl
  obtain ⟨ac, hac, h1, h2, h3, vac⟩ := C16_two_partial n m T a (.d3 m p T c) sp ⟨hm, hp⟩ rfl rfl (Or.inl trivial)
  obtain ⟨z, hz, vz⟩ := C118_right n p T b (.d3 ac.r ac.c ac.t ac.v) h1 h2 h3
  refine ⟨x, y, ac, z, hx, hy, hac, hz, fun i j t hi hj ht => ?_⟩
  rw [vy i j t hi hj ht, vz i j t hi hj ht]
  have e1 : ∀ k l, k < n → l < p → Arr.entry (.d3 ac.r ac.c ac.t ac.v) k l t = ∑ q ∈ range m, a k q t * c q l t :=
    fun k l hk hl => vac k l t hk hl ht
  unfold rightForm
  have L : ∀ k ∈ range m, ∀ l ∈ range m, Arr.entry (.d3 m p T c) k i t * x k l t * Arr.entry (.d3 m p T c) l j t =
      ∑ u ∈ range n, ∑ w ∈ range n, c k i t * (a u k t * b u w t * a w l t) * c l j t := by
    intro k hk l hl
    rw [vx k l t (mem_range.1 hk) (mem_range.1 hl) ht]
    simp only [rightForm, Arr.entry, mul_sum, sum_mul]
  have R : ∀ k ∈ range n, ∀ l ∈ range n, Arr.entry (.d3 ac.r ac.c ac.t ac.v) k i t * b k l t * Arr.entry (.d3 ac.r ac.c ac.t ac.v) l j t =
      ∑ u ∈ range m, ∑ w ∈ range m, c u i t * (a k u t * b k l t * a l w t) * c w j t := by
    intro k hk l hl
    rw [e1 k i (mem_range.1 hk) hi, e1 l j (mem_range.1 hl) hj]
    simp only [sum_mul, mul_sum]
    refine sum_comm.trans (sum_congr rfl fun u _ => sum_congr rfl fun w _ => by ring)
  rw [sum_congr rfl fun k hk => sum_congr rfl (L k hk), sum_congr rfl fun k hk => sum_congr rfl (R k hk)]
  have : ∀ (f : ℕ → ℕ → ℕ → ℕ → ℝ), ∑ k ∈ range m, ∑ l ∈ range m, ∑ u ∈ range n, ∑ w ∈ range n, f k l u w =
      ∑ u ∈ range n, ∑ w ∈ range n, ∑ k ∈ range m, ∑ l ∈ range m, f k l u w := by
    intro f
    calc _ = ∑ k ∈ range m, ∑ u ∈ range n, ∑ l ∈ range m, ∑ w ∈ range n, f k l u w := sum_congr rfl fun k _ => sum_comm
      _ = ∑ u ∈ range n, ∑ k ∈ range m, ∑ l ∈ range m, ∑ w ∈ range n, f k l u w := sum_comm
      _ = ∑ u ∈ range n, ∑ k ∈ range m, ∑ w ∈ range n, ∑ l ∈ range m, f k l u w :=
        sum_congr rfl fun u _ => sum_congr rfl fun k _ => sum_comm
      _ = _ := sum_congr rfl fun u _ => sum_comm
  exact this _

/-- `lr_multiply_by_vec`: the values of the quadratic forms. -/
theorem C118_vec (B : Arr) (n m : ℕ) (a : ℕ → ℕ → ℝ) (hr : B.nRows = n) (hc : B.nCols = n)
    (hT : ∀ r c T v, B = .d3 r c T v → m ≤ T) :
    ∃ v, lrMultiplyByVec B n m a = .ok v ∧
      ∀ t < m, v t = ∑ k ∈ range n, ∑ l ∈ range n, a k t * B.entry k l t * a l t := by
  cases B with
  | d2 rb cb b =>
    simp only [Arr.nRows, Arr.nCols] at hr hc; subst hr; subst hc
    obtain ⟨v, hv, hvv⟩ := forRange_ok m (fun t => quadStep cb cb cb b (fun k => a k t))
      (fun t => ∑ l ∈ range cb, (∑ k ∈ range cb, a k t * b k l) * a l t) (fun t _ => by simp [quadStep])
    exact ⟨v, hv, fun t ht => by rw [hvv t ht, swap_sums]; rfl⟩
  | d3 rb cb T b =>
    simp only [Arr.nRows, Arr.nCols] at hr hc; subst hr; subst hc
    have hm := hT _ _ _ _ rfl
    obtain ⟨v, hv, hvv⟩ := forRange_ok m (fun t => onSlice t (.d3 cb cb T b) (fun bt => quadStep cb cb cb bt (fun k => a k t)))
      (fun t => ∑ l ∈ range cb, (∑ k ∈ range cb, a k t * b k l t) * a l t) (fun t ht => by
        simp [onSlice, slice, lt_of_lt_of_le ht hm, quadStep])
    exact ⟨v, hv, fun t ht => by rw [hvv t ht, swap_sums]; rfl⟩

/-- When `lr_multiply_by_vec` fails. -/
theorem C118_vec_raises_iff (B : Arr) (ra m : ℕ) (hm : 0 < m) (a : ℕ → ℕ → ℝ) :
    Raises (lrMultiplyByVec B ra m a) ↔ B.nRows ≠ ra ∨ B.nCols ≠ ra ∨ ∃ r c T v, B = .d3 r c T v ∧ T < m := by
  have hq : ∀ rb cb b x, Raises (quadStep rb cb ra b x) ↔ rb ≠ ra ∨ cb ≠ ra := by
    intro rb cb b x
    by_cases h1 : ra = rb
    · subst h1
      by_cases h2 : cb = ra
      · subst h2; simp [quadStep, Raises]
      · simp [quadStep, Raises, h2]
    · simp [quadStep, Raises, h1, Ne.symm h1]
  cases B with
  | d2 rb cb b =>
    simp only [lrMultiplyByVec, forRange_raises, hq, Arr.nRows, Arr.nCols]
    simp only [reduceCtorEq, false_and, exists_false, or_false]
    exact ⟨fun ⟨_, _, h⟩ => h, fun h => ⟨0, hm, h⟩⟩
  | d3 rb cb T b =>
    have hs : ∀ t, Raises (onSlice t (.d3 rb cb T b) (fun bt => quadStep rb cb ra bt (fun k => a k t))) ↔
        (rb ≠ ra ∨ cb ≠ ra) ∨ ¬ t < T := by
      intro t
      by_cases h : t < T
      · simp only [onSlice, slice, h, if_true, hq, not_true_eq_false, or_false]
      · simp only [onSlice, slice, h, if_false, not_false_eq_true, or_true, iff_true]; exact ⟨_, rfl⟩
    simp only [lrMultiplyByVec, forRange_raises, hs, Arr.nRows, Arr.nCols]
    constructor
    · rintro ⟨t, ht, h | h⟩
      · tauto
      · exact Or.inr (Or.inr ⟨rb, cb, T, b, rfl, by omega⟩)
    · rintro (h | h | ⟨r, c, T', v, h, hT⟩)
      · exact ⟨0, hm, Or.inl (Or.inl h)⟩
      · exact ⟨0, hm, Or.inl (Or.inr h)⟩
      · simp only [Arr.d3.injEq] at h
        obtain ⟨_, _, rfl, _⟩ := h
        exact ⟨T, hT, Or.inr (by omega)⟩

/-- If every matrix of `B` is symmetric, so are the results; if the quadratic forms of `B` are nonnegative, so are those of the results. -/
theorem C118_preserves (n m T : ℕ) (b : ℕ → ℕ → ℕ → ℝ) (A : Arr) (hr : A.nRows = n) (hc : A.nCols = m) (ht : A.TimeOk T)
    (v : ℕ → ℕ → ℕ → ℝ) (hv : lrMultiply (.d3 n n T b) A "R" = .ok (.d3 m m T v)) (t : ℕ) (h : t < T) :
    ((∀ i j, i < n → j < n → b i j t = b j i t) → ∀ i j, i < m → j < m → v i j t = v j i t) ∧
    ((∀ x : ℕ → ℝ, 0 ≤ ∑ i ∈ range n, ∑ j ∈ range n, x i * b i j t * x j) →
      ∀ x : ℕ → ℝ, 0 ≤ ∑ i ∈ range m, ∑ j ∈ range m, x i * v i j t * x j) := by
  obtain ⟨w, hw, vw⟩ := C118_right n m T b A hr hc ht
  rw [hw] at hv
  simp only [Except.ok.injEq, Arr.d3.injEq, true_and] at hv
  subst hv
  constructor
  · intro hs i j hi hj
    rw [vw i j t hi hj h, vw j i t hj hi h]
    unfold rightForm
    rw [sum_comm]
    refine sum_congr rfl fun k hk => sum_congr rfl fun l hl => ?_
    rw [hs l k (mem_range.1 hl) (mem_range.1 hk)]; ring
  · intro hp x
    have key := hp (fun k => ∑ i ∈ range m, A.entry k i t * x i)
    refine le_of_le_of_eq key ?_
    have e : ∀ i ∈ range m, ∀ j ∈ range m, x i * w i j t * x j =
        ∑ k ∈ range n, ∑ l ∈ range n, (A.entry k i t * x i) * b k l t * (A.entry l j t * x j) := by
      intro i hi j hj
      rw [vw i j t (mem_range.1 hi) (mem_range.1 hj) h]
      simp only [rightForm, mul_sum, sum_mul]
      exact sum_congr rfl fun k _ => sum_congr rfl fun l _ => by ring
    rw [sum_congr rfl fun i hi => sum_congr rfl (e i hi)]
    simp only [sum_mul, mul_sum]
    have : ∀ (f : ℕ → ℕ → ℕ → ℕ → ℝ), ∑ k ∈ range n, ∑ l ∈ range n, ∑ j ∈ range m, ∑ i ∈ range m, f i j k l =
        ∑ i ∈ range m, ∑ j ∈ range m, ∑ k ∈ range n, ∑ l ∈ range n, f i j k l := by
      intro f
      calc _ = ∑ k ∈ range n, ∑ j ∈ range m, ∑ l ∈ range n, ∑ i ∈ range m, f i j k l := sum_congr rfl fun k _ => sum_comm
        _ = ∑ j ∈ range m, ∑ k ∈ range n, ∑ l ∈ range n, ∑ i ∈ range m, f i j k l := sum_comm
        _ = ∑ j ∈ range m, ∑ k ∈ range n, ∑ i ∈ range m, ∑ l ∈ range n, f i j k l :=
          sum_congr rfl fun u _ => sum_congr rfl fun k _ => sum_comm
        _ = ∑ j ∈ range m, ∑ i ∈ range m, ∑ k ∈ range n, ∑ l ∈ range n, f i j k l := sum_congr rfl fun u _ => sum_comm
        _ = _ := sum_comm
    exact this _

/-- One matrix `B` and a batch `A`: every matrix of the batch but the first is ignored, and the result has no time axis. -/
theorem C118_violated_batch (n m T : ℕ) (b : ℕ → ℕ → ℝ) (a a' : ℕ → ℕ → ℕ → ℝ) (h : ∀ i j, a i j 0 = a' i j 0) :
    ∃ v, lrMultiply (.d2 n n b) (.d3 n m (T + 1) a) "R" = .ok (.d2 m m v) ∧
      lrMultiply (.d2 n n b) (.d3 n m (T + 1) a') "R" = .ok (.d2 m m v) := by
  have : (fun i j => a i j 0) = fun i j => a' i j 0 := by funext i j; exact h i j
  refine ⟨_, by simp only [lrMultiply, Arr.nCols, slice, lrStep_right]; simp; rfl, ?_⟩
  simp only [lrMultiply, Arr.nCols, slice, lrStep_right, h]; simp

/-- Matrices of a batch `A` beyond the length of `B` are ignored without an error. -/
theorem C118_violated_longer (n m T T' : ℕ) (hT : T < T') (b a : ℕ → ℕ → ℕ → ℝ) :
    ∃ v, lrMultiply (.d3 n n T b) (.d3 n m T' a) "R" = .ok (.d3 m m T v) := by
  obtain ⟨v, hv, -⟩ := fill_ok m m T (fun t => onSlice t (.d3 n m T' a) (fun at' => lrStep "R" n n n m (fun i j => b i j t) at'))
      (fun t i j => ∑ l ∈ range n, (∑ k ∈ range n, a k i t * b k l t) * a l j t) (fun t h => by
        simp only [onSlice, slice, h.trans hT, if_true]; exact lrStep_right _ _)
  exact ⟨v, by simp [lrMultiply, Arr.nCols, hv]⟩

/-- `B = (2, 3)` and `A = (5, 7)` as batches of numbers: `50` and `147`. -/
example : ∃ v, lrMultiply (.d3 1 1 2 (fun _ _ t => if t = 0 then 2 else 3)) (.d3 1 1 2 (fun _ _ t => if t = 0 then 5 else 7)) "R" =
    .ok (.d3 1 1 2 v) ∧ v 0 0 0 = 50 ∧ v 0 0 1 = 147 := by
  obtain ⟨v, hv, h⟩ := C118_right 1 1 2 (fun _ _ t => if t = 0 then 2 else 3) (.d3 1 1 2 (fun _ _ t => if t = 0 then 5 else 7)) rfl rfl rfl
  refine ⟨v, hv, ?_, ?_⟩
  · rw [h 0 0 0 (by norm_num) (by norm_num) (by norm_num)]; simp [rightForm, Arr.entry]; norm_num
  · rw [h 0 0 1 (by norm_num) (by norm_num) (by norm_num)]; simp [rightForm, Arr.entry]; norm_num

end Ellipy.MV
