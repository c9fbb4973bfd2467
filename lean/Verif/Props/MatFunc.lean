import Verif.Proofs.MatHelpers
import Verif.Spec.MatVector

/-! Property theorems C77 (`MatVector.from_func`, `MatVector.eval_func`). -/

namespace Ellipy.MV

theorem toColumn_holds {r c : ℕ} {m : ℕ → ℕ → ℝ} {v : FVal} (h : v.Holds r c m) :
    ∃ w, toColumn v = .ok ⟨r, c, w⟩ ∧ ∀ i j, i < r → j < c → w i j = m i j := by
  cases v with
  | num x =>
    obtain ⟨rfl, rfl, h⟩ := h
    exact ⟨_, rfl, fun i j hi hj => by rw [Nat.lt_one_iff.mp hi, Nat.lt_one_iff.mp hj, h]⟩
  | seq l =>
    obtain ⟨rfl, rfl, h⟩ := h
    exact ⟨_, rfl, fun i j hi hj => by rw [Nat.lt_one_iff.mp hj, h i hi]⟩
  | nd0 x => exact h.elim
  | nd1 n w =>
    obtain ⟨rfl, rfl, h⟩ := h
    exact ⟨_, rfl, fun i j hi hj => by rw [Nat.lt_one_iff.mp hj, h i hi]⟩
  | nd2 r' c' w =>
    obtain ⟨rfl, rfl, h⟩ := h
    exact ⟨w, rfl, fun i j hi hj => (h i j hi hj).symm⟩

theorem bix_lt {n i : ℕ} (hi : i < n) : bix n i = i := by
  unfold bix
  by_cases h : n = 1
  · rw [if_pos h]; omega
  · rw [if_neg h]

theorem assign2_same (r c : ℕ) (w : ℕ → ℕ → ℝ) :
    ∃ u, assign2 r c ⟨r, c, w⟩ = .ok u ∧ ∀ i j, i < r → j < c → u i j = w i j := by
  unfold assign2
  rw [if_pos ⟨Or.inl rfl, Or.inl rfl⟩]
  exact ⟨_, rfl, fun i j hi hj => by simp only [bix_lt hi, bix_lt hj]⟩

theorem assign2_raises (r c : ℕ) (m : Mat2) : Raises (assign2 r c m) ↔ ¬ ((m.r = r ∨ m.r = 1) ∧ (m.c = c ∨ m.c = 1)) := by
  unfold assign2
  by_cases h : (m.r = r ∨ m.r = 1) ∧ (m.c = c ∨ m.c = 1)
  · rw [if_pos h]
    exact iff_of_false (by rintro ⟨e, he⟩; cases he) (fun h' => h' h)
  · rw [if_neg h]
    exact iff_of_true ⟨_, rfl⟩ h

theorem getD_lt {l : List ℝ} {k : ℕ} (hk : k < l.length) : l.getD k 0 = l[k] := by
  simp [List.getD, hk]

/-- C77: when the callback returns a matrix of one shape `(r, c)` at every time, `from_func` returns the batch of these matrices, in the
order of the times.  Numbers count as `1 × 1` matrices and vectors as columns. -/
theorem C77_from_func_partial (f : ℝ → Py FVal) (t : List ℝ) (ht : t ≠ []) (r c : ℕ) (F : ℝ → ℕ → ℕ → ℝ)
    (hf : ∀ s ∈ t, ∃ v, f s = .ok v ∧ v.Holds r c (F s)) :
    ∃ a, fromFunc f t = .ok a ∧ a.Is r c t.length (fun i j k => F (t.getD k 0) i j) := by
  cases t with
  | nil => exact absurd rfl ht
  | cons t0 ts =>
    obtain ⟨v0, h0, hh0⟩ := hf t0 (by simp)
    obtain ⟨w0, hw0, -⟩ := toColumn_holds hh0
    have step : ∀ k, ∃ u : ℕ → ℕ → ℝ, k < (t0 :: ts).length → colStep r c (f ((t0 :: ts).getD k 0)) = .ok u ∧ ∀ i j, i < r → j < c → u i j = F ((t0 :: ts).getD k 0) i j := by
      intro k
      by_cases hk : k < (t0 :: ts).length
      · have hm : (t0 :: ts).getD k 0 ∈ t0 :: ts := by
          rw [getD_lt hk]
          exact List.getElem_mem hk
        obtain ⟨v, hv, hh⟩ := hf _ hm
        obtain ⟨w, hw, hww⟩ := toColumn_holds hh
        obtain ⟨u, hu, huu⟩ := assign2_same r c w
        refine ⟨u, fun _ => ⟨?_, fun i j hi hj => by rw [huu i j hi hj, hww i j hi hj]⟩⟩
        unfold colStep
        rw [hv]
        simp only [hw, hu]
      · exact ⟨fun _ _ => 0, fun h => absurd h hk⟩
    choose u hu using step
    obtain ⟨x, hx, hxx⟩ := fill_ok r c (t0 :: ts).length _ u (fun k hk => (hu k hk).1)
    refine ⟨⟨r, c, (t0 :: ts).length, x⟩, ?_, rfl, rfl, rfl, fun i j k hi hj hk => ?_⟩
    · unfold fromFunc
      simp only [h0, hw0]
      exact hx
    · show x i j k = _
      rw [hxx i j k hk, (hu k hk).2 i j hi hj]

/-- What makes `from_func` refuse the value `x` after a first value of shape `(r, c)`. -/
def BadValue (r c : ℕ) (x : Py FVal) : Prop :=
  Raises x ∨ ∃ v, x = .ok v ∧ (Raises (toColumn v) ∨ ∃ m, toColumn v = .ok m ∧ ¬ ((m.r = r ∨ m.r = 1) ∧ (m.c = c ∨ m.c = 1)))

theorem step_raises (r c : ℕ) (x : Py FVal) :
    Raises (colStep r c x) ↔ BadValue r c x := by
  unfold BadValue colStep
  cases x with
  | error e => exact iff_of_true ⟨e, rfl⟩ (Or.inl ⟨e, rfl⟩)
  | ok v =>
    simp only
    cases hm : toColumn v with
    | error e => exact iff_of_true ⟨e, rfl⟩ (Or.inr ⟨v, rfl, Or.inl ⟨e, hm⟩⟩)
    | ok m =>
      simp only
      rw [assign2_raises]
      constructor
      · intro h
        exact Or.inr ⟨v, rfl, Or.inr ⟨m, hm, h⟩⟩
      · rintro (⟨e, he⟩ | ⟨v', hv, ⟨e, he⟩ | ⟨m', hm', h⟩⟩)
        · cases he
        · cases hv; rw [hm] at he; cases he
        · cases hv; rw [hm] at hm'; cases hm'; exact h

theorem from_func_raises (f : ℝ → Py FVal) (t0 : ℝ) (ts : List ℝ) :
    Raises (fromFunc f []) ∧
    (Raises (fromFunc f (t0 :: ts)) ↔ Raises (f t0) ∨ ∃ v0, f t0 = .ok v0 ∧ (Raises (toColumn v0) ∨
      ∃ m0, toColumn v0 = .ok m0 ∧ ∃ s ∈ t0 :: ts, BadValue m0.r m0.c (f s))) := by
  refine ⟨⟨_, rfl⟩, ?_⟩
  unfold fromFunc
  simp only
  cases h0 : f t0 with
  | error e => exact iff_of_true ⟨e, rfl⟩ (Or.inl ⟨e, rfl⟩)
  | ok v0 =>
    simp only
    cases hc : toColumn v0 with
    | error e => exact iff_of_true ⟨e, rfl⟩ (Or.inr ⟨v0, rfl, Or.inl ⟨e, hc⟩⟩)
    | ok m0 =>
      simp only
      rw [fill_raises]
      simp only [step_raises]
      constructor
      · rintro ⟨k, hk, h⟩
        refine Or.inr ⟨v0, rfl, Or.inr ⟨m0, hc, _, ?_, h⟩⟩
        rw [getD_lt hk]
        exact List.getElem_mem hk
      · rintro (⟨e, he⟩ | ⟨v, hv, ⟨e, he⟩ | ⟨m, hm, s, hs, h⟩⟩)
        · cases he
        · cases hv; rw [hc] at he; cases he
        · cases hv; rw [hc] at hm; cases hm
          obtain ⟨k, hk, rfl⟩ := List.getElem_of_mem hs
          exact ⟨k, hk, by rw [getD_lt hk]; exact h⟩

theorem toColumn_shape (v : FVal) : (Raises (toColumn v) ∧ v.colShape = none) ∨ ∃ m, toColumn v = .ok m ∧ v.colShape = some (m.r, m.c) := by
  cases v with
  | nd0 x => exact Or.inl ⟨⟨_, rfl⟩, rfl⟩
  | num x => exact Or.inr ⟨_, rfl, rfl⟩
  | seq l => exact Or.inr ⟨_, rfl, rfl⟩
  | nd1 n w => exact Or.inr ⟨_, rfl, rfl⟩
  | nd2 r c w => exact Or.inr ⟨_, rfl, rfl⟩

theorem badValue_iff (r c : ℕ) (x : Py FVal) :
    BadValue r c x ↔ Raises x ∨ ∃ v, x = .ok v ∧ ∀ s, v.colShape = some s → ¬ Fits s r c := by
  unfold BadValue
  refine or_congr Iff.rfl (exists_congr fun v => and_congr Iff.rfl ?_)
  rcases toColumn_shape v with ⟨h1, h2⟩ | ⟨m, h1, h2⟩
  · exact iff_of_true (Or.inl h1) (fun s hs => by rw [h2] at hs; cases hs)
  · rw [h1, h2]
    constructor
    · rintro (⟨e, he⟩ | ⟨m', hm, h⟩)
      · cases he
      · cases hm
        intro s hs
        cases hs
        exact h
    · intro h
      exact Or.inr ⟨m, rfl, h _ rfl⟩

/-- C77: `from_func` raises exactly when there is no time, the callback raises, the first value has no shape, or the shape of some value
does not fit into that of the first one. -/
theorem C77_from_func_raises_iff (f : ℝ → Py FVal) (t0 : ℝ) (ts : List ℝ) :
    Raises (fromFunc f []) ∧
    (Raises (fromFunc f (t0 :: ts)) ↔ (∃ s ∈ t0 :: ts, Raises (f s)) ∨ ∃ v0, f t0 = .ok v0 ∧ (v0.colShape = none ∨
      ∃ r c, v0.colShape = some (r, c) ∧ ∃ s ∈ t0 :: ts, ∃ v, f s = .ok v ∧ ∀ sh, v.colShape = some sh → ¬ Fits sh r c)) := by
  obtain ⟨h1, h2⟩ := from_func_raises f t0 ts
  refine ⟨h1, h2.trans ?_⟩
  simp only [badValue_iff]
  constructor
  · rintro (h | ⟨v0, hv0, h | ⟨m0, hm0, s, hs, h | ⟨v, hv, h⟩⟩⟩)
    · exact Or.inl ⟨t0, by simp, h⟩
    · rcases toColumn_shape v0 with ⟨_, h2⟩ | ⟨m, hm, _⟩
      · exact Or.inr ⟨v0, hv0, Or.inl h2⟩
      · obtain ⟨e, he⟩ := h
        rw [hm] at he; cases he
    · exact Or.inl ⟨s, hs, h⟩
    · rcases toColumn_shape v0 with ⟨⟨e, he⟩, _⟩ | ⟨m, hm, hsh⟩
      · rw [hm0] at he; cases he
      · rw [hm0] at hm; cases hm
        exact Or.inr ⟨v0, hv0, Or.inr ⟨_, _, hsh, s, hs, v, hv, h⟩⟩
  · rintro (⟨s, hs, h⟩ | ⟨v0, hv0, h | ⟨r, c, hsh, s, hs, v, hv, h⟩⟩)
    · cases h0 : f t0 with
      | error e => exact Or.inl ⟨e, rfl⟩
      | ok v0 =>
        refine Or.inr ⟨v0, rfl, ?_⟩
        rcases toColumn_shape v0 with ⟨h1, _⟩ | ⟨m, hm, _⟩
        · exact Or.inl h1
        · exact Or.inr ⟨m, hm, s, hs, Or.inl h⟩
    · refine Or.inr ⟨v0, hv0, ?_⟩
      rcases toColumn_shape v0 with ⟨h1, _⟩ | ⟨m, hm, h2⟩
      · exact Or.inl h1
      · rw [h] at h2; cases h2
    · refine Or.inr ⟨v0, hv0, ?_⟩
      rcases toColumn_shape v0 with ⟨h1, _⟩ | ⟨m, hm, h2⟩
      · exact Or.inl h1
      · rw [hsh] at h2; cases h2
        exact Or.inr ⟨m, hm, s, hs, Or.inr ⟨v, hv, h⟩⟩

/-- C77 is violated: a callback whose value has two entries at the first time and is a number later is not refused; the number is
repeated. -/
theorem C77_violated (n : ℕ) (hn : n ≠ 1) (w : ℕ → ℝ) (x : ℝ) :
    ∃ f : ℝ → Py FVal, f 0 = .ok (.nd1 n w) ∧ f 1 = .ok (.num x) ∧
      ∃ a, fromFunc f [0, 1] = .ok a ∧ a.r = n ∧ ∀ i, a.v i 0 1 = x := by
  refine ⟨fun s => if s = 0 then .ok (.nd1 n w) else .ok (.num x), by simp, by simp, ?_⟩
  unfold fromFunc
  simp only [if_true, toColumn]
  obtain ⟨a, ha, hv⟩ := fill_ok n 1 2 (fun i => colStep n 1 (if ([0, 1] : List ℝ).getD i 0 = 0 then (.ok (.nd1 n w) : Py FVal) else .ok (.num x))) (fun k i j => if k = 0 then w (bix n i) else x) (by
    intro k hk
    rcases k with _ | _ | k
    · simp [colStep, toColumn, assign2, bix]
    · simp [colStep, toColumn, assign2, bix]
    · omega)
  refine ⟨_, ha, rfl, fun i => ?_⟩
  show a i 0 1 = x
  rw [hv i 0 1 (by norm_num)]
  simp

/-- C77 is violated: an array without axes, such as `np.array(3.)`, is refused although a number is accepted. -/
theorem C77_violated_scalar_array (f : ℝ → Py FVal) (t0 x : ℝ) (ts : List ℝ) (h : f t0 = .ok (.nd0 x)) : Raises (fromFunc f (t0 :: ts)) :=
  ((C77_from_func_raises_iff f t0 ts).2).mpr (Or.inr ⟨_, h, Or.inl rfl⟩)

/-- Times 1, 2, 3 and the callback `s ↦ [s, 2 s]`. -/
example : ∃ a, fromFunc (fun s => .ok (.nd1 2 (fun i => (i + 1) * s))) [1, 2, 3] = .ok a ∧ a.r = 2 ∧ a.c = 1 ∧ a.t = 3 ∧
    a.v 1 0 2 = 6 := by
  obtain ⟨a, ha, h1, h2, h3, h4⟩ := C77_from_func_partial (fun s => .ok (.nd1 2 (fun i => (i + 1) * s))) [1, 2, 3] (by simp) 2 1
    (fun s i _ => (i + 1) * s) (fun s _ => ⟨_, rfl, rfl, rfl, fun _ _ => rfl⟩)
  refine ⟨a, ha, h1, h2, h3, ?_⟩
  rw [h4 1 0 2 (by norm_num) (by norm_num) (by norm_num)]
  norm_num

/-! ### `eval_func` -/

/-- The matrix of a batch at time `k`, with its shape. -/
def Arr.at (a : Arr) (k : ℕ) : Mat2 := ⟨a.nRows, a.nCols, fun i j => a.entry i j k⟩

theorem sliceOf_eq (a : Arr) (k : ℕ) : sliceOf a k = a.at k := by
  cases a <;> rfl

/-- C77: without uniform output `eval_func` returns the list of the values on the slices, in order, and raises exactly when the callback
raises on a slice. -/
theorem C77_eval_values (f : Mat2 → Py FVal) (a : Arr) (keep : Bool) :
    (∀ G : ℕ → FVal, (∀ k < timeLen a, f (a.at k) = .ok (G k)) →
      evalFunc f a false keep = .ok (.values ((List.range (timeLen a)).map G))) ∧
    (Raises (evalFunc f a false keep) ↔ ∃ k < timeLen a, Raises (f (a.at k))) := by
  unfold evalFunc
  simp only [Bool.not_false, if_true, sliceOf_eq]
  refine ⟨fun G hG => ?_, ?_⟩
  · rw [pyMap_ok (g := G) (fun k hk => hG k (List.mem_range.mp hk))]
  · have h := pyMap_raises (fun i => f (a.at i)) (List.range (timeLen a))
    cases hp : pyMap (fun i => f (a.at i)) (List.range (timeLen a)) with
    | error e =>
      rw [hp] at h
      obtain ⟨k, hk, hr⟩ := h.mp ⟨e, rfl⟩
      exact iff_of_true ⟨e, rfl⟩ ⟨k, List.mem_range.mp hk, hr⟩
    | ok l =>
      rw [hp] at h
      refine iff_of_false (by rintro ⟨e, he⟩; cases he) ?_
      rintro ⟨k, hk, hr⟩
      obtain ⟨e, he⟩ := h.mpr ⟨k, List.mem_range.mpr hk, hr⟩
      cases he

/-- C77: with `keep_size` and a callback that keeps the shape of the slices, `eval_func` returns the batch of the values. -/
theorem C77_eval_same_partial (f : Mat2 → Py FVal) (a : Arr) (G : ℕ → ℕ → ℕ → ℝ)
    (hG : ∀ k < timeLen a, f (a.at k) = .ok (.nd2 a.nRows a.nCols (G k))) :
    ∃ x, evalFunc f a true true = .ok (.same x) ∧ x.Is a.nRows a.nCols (timeLen a) (fun i j k => G k i j) := by
  have step : ∀ k, ∃ u : ℕ → ℕ → ℝ, k < timeLen a → rowStep a.nRows a.nCols (f (a.at k)) = .ok u ∧ ∀ i j, i < a.nRows → j < a.nCols → u i j = G k i j := by
    intro k
    by_cases hk : k < timeLen a
    · obtain ⟨u, hu, huu⟩ := assign2_same a.nRows a.nCols (G k)
      refine ⟨u, fun _ => ⟨?_, huu⟩⟩
      rw [hG k hk]
      exact hu
    · exact ⟨fun _ _ => 0, fun h => absurd h hk⟩
  choose u hu using step
  obtain ⟨x, hx, hxx⟩ := fill_ok a.nRows a.nCols (timeLen a) _ u (fun k hk => (hu k hk).1)
  refine ⟨⟨a.nRows, a.nCols, timeLen a, x⟩, ?_, rfl, rfl, rfl, fun i j k hi hj hk => ?_⟩
  · unfold evalFunc
    simp only [Bool.not_true, Bool.false_eq_true, if_false, if_true, sliceOf_eq, hx]
  · show x i j k = _
    rw [hxx i j k hk, (hu k hk).2 i j hi hj]

theorem toNumber_ok {v : FVal} {x : ℝ} (h : v.IsNumber x) : toNumber v = .ok x := by
  rcases h with rfl | rfl | ⟨w, rfl, rfl⟩ | ⟨w, rfl, rfl⟩ <;> rfl

/-- C77: with uniform output and a callback that returns numbers, `eval_func` returns their vector. -/
theorem C77_eval_numbers (f : Mat2 → Py FVal) (a : Arr) (G : ℕ → ℝ) (hG : ∀ k < timeLen a, ∃ v, f (a.at k) = .ok v ∧ v.IsNumber (G k)) :
    ∃ x, evalFunc f a true false = .ok (.numbers (timeLen a) x) ∧ ∀ k < timeLen a, x k = G k := by
  obtain ⟨x, hx, hxx⟩ := forRange_ok (timeLen a) (fun k => numStep (f (a.at k))) G (fun k hk => by
    obtain ⟨v, hv, h⟩ := hG k hk
    rw [hv]
    exact toNumber_ok h)
  refine ⟨x, ?_, hxx⟩
  unfold evalFunc
  simp only [Bool.not_true, Bool.false_eq_true, if_false, sliceOf_eq, hx]

theorem toNumber_raises (v : FVal) : Raises (toNumber v) ↔ ∀ x, ¬ v.IsNumber x := by
  constructor
  · rintro ⟨e, he⟩ x hx
    rw [toNumber_ok hx] at he; cases he
  · intro h
    cases v with
    | num x => exact absurd (Or.inl rfl) (h x)
    | nd0 x => exact absurd (Or.inr (Or.inl rfl)) (h x)
    | seq l => exact ⟨_, rfl⟩
    | nd1 n w =>
      simp only [toNumber]
      by_cases hn : n = 1
      · subst hn
        exact absurd (Or.inr (Or.inr (Or.inl ⟨w, rfl, rfl⟩))) (h (w 0))
      · rw [if_neg hn]; exact ⟨_, rfl⟩
    | nd2 r c w =>
      simp only [toNumber]
      by_cases hn : r = 1 ∧ c = 1
      · obtain ⟨rfl, rfl⟩ := hn
        exact absurd (Or.inr (Or.inr (Or.inr ⟨w, rfl, rfl⟩))) (h (w 0 0))
      · rw [if_neg hn]; exact ⟨_, rfl⟩

theorem toRow_shape (v : FVal) : v.rowShape = ((toRow v).r, (toRow v).c) := by
  cases v <;> rfl

/-- C77: with uniform output `eval_func` raises exactly when the callback raises on a slice or returns a value that does not fit. -/
theorem C77_eval_raises_iff (f : Mat2 → Py FVal) (a : Arr) :
    (Raises (evalFunc f a true true) ↔ ∃ k < timeLen a, Raises (f (a.at k)) ∨ ∃ v, f (a.at k) = .ok v ∧
      ¬ Fits v.rowShape a.nRows a.nCols) ∧
    (Raises (evalFunc f a true false) ↔ ∃ k < timeLen a, Raises (f (a.at k)) ∨ ∃ v, f (a.at k) = .ok v ∧ ∀ x, ¬ v.IsNumber x) := by
  simp only [Fits, toRow_shape, ← toNumber_raises]
  unfold evalFunc
  simp only [Bool.not_true, Bool.false_eq_true, if_false, if_true, sliceOf_eq]
  constructor
  · have h := fill_raises a.nRows a.nCols (timeLen a) (fun k => rowStep a.nRows a.nCols (f (a.at k)))
    have h' : ∀ k, Raises (rowStep a.nRows a.nCols (f (a.at k))) ↔ Raises (f (a.at k)) ∨ ∃ v, f (a.at k) = .ok v ∧
      ¬ (((toRow v).r = a.nRows ∨ (toRow v).r = 1) ∧ ((toRow v).c = a.nCols ∨ (toRow v).c = 1)) := by
      intro k
      unfold rowStep
      cases hk : f (a.at k) with
      | error e => exact iff_of_true ⟨e, rfl⟩ (Or.inl ⟨e, rfl⟩)
      | ok v =>
        simp only
        rw [assign2_raises]
        refine ⟨fun h => Or.inr ⟨v, rfl, h⟩, ?_⟩
        rintro (⟨e, he⟩ | ⟨v', hv, h⟩)
        · cases he
        · cases hv; exact h
    simp only [h'] at h
    rw [← h]
    cases fill a.nRows a.nCols (timeLen a) (fun k => rowStep a.nRows a.nCols (f (a.at k))) with
    | error e => exact iff_of_true ⟨e, rfl⟩ ⟨e, rfl⟩
    | ok g => exact iff_of_false (by rintro ⟨e, he⟩; cases he) (by rintro ⟨e, he⟩; cases he)
  · have h := forRange_raises (timeLen a) (fun k => numStep (f (a.at k)))
    have h' : ∀ k, Raises (numStep (f (a.at k))) ↔ Raises (f (a.at k)) ∨ ∃ v, f (a.at k) = .ok v ∧ Raises (toNumber v) := by
      intro k
      unfold numStep
      cases hk : f (a.at k) with
      | error e => exact iff_of_true ⟨e, rfl⟩ (Or.inl ⟨e, rfl⟩)
      | ok v =>
        simp only
        refine ⟨fun h => Or.inr ⟨v, rfl, h⟩, ?_⟩
        rintro (⟨e, he⟩ | ⟨v', hv, h⟩)
        · cases he
        · cases hv; exact h
    simp only [h'] at h
    rw [← h]
    cases forRange (timeLen a) (fun k => numStep (f (a.at k))) with
    | error e => exact iff_of_true ⟨e, rfl⟩ ⟨e, rfl⟩
    | ok g => exact iff_of_false (by rintro ⟨e, he⟩; cases he) (by rintro ⟨e, he⟩; cases he)

/-- C77 is violated with `keep_size` too: a callback that returns a vector with one number per column is not refused, the vector is
repeated in every row. -/
theorem C77_violated_row (r c T : ℕ) (v : ℕ → ℕ → ℕ → ℝ) (w : ℕ → ℝ) :
    ∃ x, evalFunc (fun _ => .ok (.nd1 c w)) (.d3 r c T v) true true = .ok (.same x) ∧ x.r = r ∧
      ∀ i j k, i < r → j < c → k < T → x.v i j k = w j := by
  obtain ⟨x, hx, hxx⟩ := fill_ok r c T (fun _ => rowStep r c (.ok (.nd1 c w))) (fun _ _ j => w (bix c j)) (fun k _ => by
    simp [rowStep, assign2, toRow])
  refine ⟨⟨r, c, T, x⟩, ?_, rfl, fun i j k _ hj hk => ?_⟩
  · unfold evalFunc
    simp only [Bool.not_true, Bool.false_eq_true, if_false, if_true, Arr.nRows, Arr.nCols, timeLen, hx]
  · show x i j k = w j
    rw [hxx i j k hk, bix_lt hj]

/-- Three slices of shape `(1, 2)`; the callback returns the first entry. -/
example : ∃ x, evalFunc (fun m => .ok (.num (m.v 0 0))) (.d3 1 2 3 (fun _ _ t => t)) true false = .ok (.numbers 3 x) ∧ x 2 = 2 := by
  obtain ⟨x, hx, h⟩ := C77_eval_numbers (fun m => .ok (.num (m.v 0 0))) (.d3 1 2 3 (fun _ _ t => t)) (fun k => k) (fun k _ => ⟨_, rfl, Or.inl rfl⟩)
  exact ⟨x, hx, by rw [h 2 (by show 2 < 3; norm_num)]; norm_num⟩

end Ellipy.MV
