import Verif.Props.MatFunc

/-! Property theorems C156 (`MatVector.from_func`, `MatVector.eval_func`): laws across calls. -/

namespace Ellipy.MV

private theorem of_not_raises {α : Type} {x : Py α} (h : ¬ Raises x) : ∃ a, x = .ok a := by
  cases x with
  | error e => exact absurd ⟨e, rfl⟩ h
  | ok a => exact ⟨a, rfl⟩

private theorem fill_inv {r c T : ℕ} {f : ℕ → Py (ℕ → ℕ → ℝ)} {x : Arr3} (h : fill r c T f = .ok x) :
    x.r = r ∧ x.c = c ∧ x.t = T ∧ ∀ k < T, f k = .ok (fun i j => x.v i j k) := by
  have hn : ¬ ∃ t < T, Raises (f t) := by
    rw [← fill_raises r c T f, h]
    rintro ⟨e, he⟩
    cases he
  have hg : ∀ k, ∃ g : ℕ → ℕ → ℝ, k < T → f k = .ok g := by
    intro k
    by_cases hk : k < T
    · obtain ⟨g, hg⟩ := of_not_raises (fun hr => hn ⟨k, hk, hr⟩)
      exact ⟨g, fun _ => hg⟩
    · exact ⟨fun _ _ => 0, fun h => absurd h hk⟩
  choose g hg using hg
  obtain ⟨v, hv, hvv⟩ := fill_ok r c T f g hg
  rw [h] at hv
  cases hv
  refine ⟨rfl, rfl, rfl, fun k hk => ?_⟩
  rw [hg k hk]
  refine congrArg Except.ok ?_
  funext i j
  exact (hvv i j k hk).symm

private theorem getD_left {l m : List ℝ} {k : ℕ} (h : k < l.length) : (l ++ m).getD k 0 = l.getD k 0 := by
  simp [List.getD, List.getElem?_append_left h]

private theorem getD_right {l m : List ℝ} {k : ℕ} (h : l.length ≤ k) : (l ++ m).getD k 0 = m.getD (k - l.length) 0 := by
  simp [List.getD, List.getElem?_append_right h]

private theorem from_inv {f : ℝ → Py FVal} {t0 : ℝ} {ts : List ℝ} {a : Arr3} (h : fromFunc f (t0 :: ts) = .ok a) :
    (∃ v0 m0, f t0 = .ok v0 ∧ toColumn v0 = .ok m0 ∧ m0.r = a.r ∧ m0.c = a.c) ∧ a.t = (t0 :: ts).length ∧
      ∀ k < (t0 :: ts).length, colStep a.r a.c (f ((t0 :: ts).getD k 0)) = .ok (fun i j => a.v i j k) := by
  simp only [fromFunc] at h
  cases h0 : f t0 with
  | error e => rw [h0] at h; cases h
  | ok v0 =>
    rw [h0] at h
    simp only at h
    cases hc : toColumn v0 with
    | error e => rw [hc] at h; cases h
    | ok m0 =>
      rw [hc] at h
      simp only at h
      obtain ⟨h1, h2, h3, h4⟩ := fill_inv h
      refine ⟨⟨v0, m0, rfl, hc, h1.symm, h2.symm⟩, h3, fun k hk => ?_⟩
      rw [h1, h2]
      exact h4 k hk

private theorem from_build {f : ℝ → Py FVal} {t0 : ℝ} {ts : List ℝ} {v0 : FVal} {m0 : Mat2} (h0 : f t0 = .ok v0) (hc : toColumn v0 = .ok m0)
    (w : ℕ → ℕ → ℕ → ℝ) (hw : ∀ k < (t0 :: ts).length, colStep m0.r m0.c (f ((t0 :: ts).getD k 0)) = .ok (fun i j => w i j k)) :
    ∃ a, fromFunc f (t0 :: ts) = .ok a ∧ a.Is m0.r m0.c (t0 :: ts).length w := by
  obtain ⟨v, hv, hvv⟩ := fill_ok m0.r m0.c (t0 :: ts).length _ (fun k i j => w i j k) hw
  refine ⟨⟨m0.r, m0.c, (t0 :: ts).length, v⟩, ?_, rfl, rfl, rfl, fun i j k _ _ hk => hvv i j k hk⟩
  simp only [fromFunc, h0, hc]
  exact hv

private theorem forRange_congr {α : Type} [Zero α] {T : ℕ} {f g : ℕ → Py α} (h : ∀ t < T, f t = g t) : forRange T f = forRange T g := by
  induction T with
  | zero => rfl
  | succ T ih =>
    simp only [forRange]
    rw [ih (fun t ht => h t (Nat.lt_succ_of_lt ht)), h T (Nat.lt_succ_self T)]

/-- **C156**, times: changing the times by `h` is the same as changing the callback by `h`, errors included. -/
theorem C156_times (f : ℝ → Py FVal) (h : ℝ → ℝ) (t : List ℝ) : fromFunc f (t.map h) = fromFunc (fun s => f (h s)) t := by
  cases t with
  | nil => rfl
  | cons t0 ts =>
    simp only [fromFunc, List.map_cons]
    cases h0 : f (h t0) with
    | error e => rfl
    | ok v0 =>
      simp only
      cases hc : toColumn v0 with
      | error e => rfl
      | ok m0 =>
        simp only [fill, List.length_cons, List.length_map]
        rw [forRange_congr (g := fun i => colStep m0.r m0.c (f (h ((t0 :: ts).getD i 0))))]
        intro k hk
        have hk' : k < (t0 :: ts).length := by simpa using hk
        have : (h t0 :: ts.map h).getD k 0 = h ((t0 :: ts).getD k 0) := by
          rw [← List.map_cons, getD_lt (by simpa using hk), getD_lt hk', List.getElem_map]
        rw [this]

/-- **C156**, more times: if both calls succeed with matrices of the same shape, the call with the times one after the other returns the matrices one
after the other. -/
theorem C156_append (f : ℝ → Py FVal) (t s : List ℝ) (a b : Arr3) (ha : fromFunc f t = .ok a) (hb : fromFunc f s = .ok b) (hr : a.r = b.r) (hc : a.c = b.c) :
    ∃ x, fromFunc f (t ++ s) = .ok x ∧ x.Is a.r a.c (a.t + b.t) (fun i j k => if k < a.t then a.v i j k else b.v i j (k - a.t)) := by
  cases t with
  | nil => cases ha
  | cons t0 ts =>
    cases s with
    | nil => cases hb
    | cons s0 ss =>
      obtain ⟨⟨v0, m0, h0, h1, h2, h3⟩, hat, hak⟩ := from_inv ha
      obtain ⟨-, hbt, hbk⟩ := from_inv hb
      obtain ⟨x, hx, hxx⟩ := from_build (ts := ts ++ s0 :: ss) h0 h1 (fun i j k => if k < a.t then a.v i j k else b.v i j (k - a.t)) (by
        intro k hk
        rw [h2, h3]
        by_cases hka : k < a.t
        · simp only [if_pos hka]
          rw [← hak k (by omega)]
          have : (t0 :: (ts ++ s0 :: ss)).getD k 0 = (t0 :: ts).getD k 0 := by
            rw [← List.cons_append, getD_left (by omega)]
          rw [this]
        · simp only [if_neg hka]
          have hl : (t0 :: (ts ++ s0 :: ss)).length = (t0 :: ts).length + (s0 :: ss).length := by
            rw [← List.cons_append, List.length_append]
          rw [hr, hc, ← hbk (k - a.t) (by omega)]
          have : (t0 :: (ts ++ s0 :: ss)).getD k 0 = (s0 :: ss).getD (k - a.t) 0 := by
            rw [← List.cons_append, getD_right (by omega), hat]
          rw [this])
      refine ⟨x, hx, ?_⟩
      have hl : (t0 :: (ts ++ s0 :: ss)).length = a.t + b.t := by
        rw [← List.cons_append, List.length_append, hat, hbt]
      rw [hl, h2, h3] at hxx
      exact hxx

/-- **C156**, fewer times: if the call succeeds, so does the call with the first of these times, and it returns the first of these matrices. -/
theorem C156_prefix (f : ℝ → Py FVal) (t s : List ℝ) (ht : t ≠ []) (x : Arr3) (hx : fromFunc f (t ++ s) = .ok x) :
    ∃ a, fromFunc f t = .ok a ∧ a.Is x.r x.c t.length x.v := by
  cases t with
  | nil => exact absurd rfl ht
  | cons t0 ts =>
    rw [List.cons_append] at hx
    obtain ⟨⟨v0, m0, h0, h1, h2, h3⟩, hat, hak⟩ := from_inv hx
    obtain ⟨a, ha, haa⟩ := from_build (ts := ts) h0 h1 x.v (by
      intro k hk
      have hl : (t0 :: (ts ++ s)).length = (t0 :: ts).length + s.length := by
        rw [← List.cons_append, List.length_append]
      rw [h2, h3, ← hak k (by omega)]
      have : (t0 :: (ts ++ s)).getD k 0 = (t0 :: ts).getD k 0 := by
        rw [← List.cons_append, getD_left hk]
      rw [this])
    rw [h2, h3] at haa
    exact ⟨a, ha, haa⟩

/-- A callback reads nothing but the entries of the matrix. -/
def Reads (g : Mat2 → Py FVal) : Prop :=
  ∀ m m' : Mat2, m.r = m'.r → m.c = m'.c → (∀ i j, i < m.r → j < m.c → m.v i j = m'.v i j) → g m = g m'

/-- **C156**, one after the other: `eval_func` with `g` on the result of `from_func` with `f` is `from_func` with `g` after `f`. -/
theorem C156_eval_from (f : ℝ → Py FVal) (g : Mat2 → Py FVal) (hgr : Reads g) (t : List ℝ) (ht : t ≠ []) (r c : ℕ) (F G : ℝ → ℕ → ℕ → ℝ)
    (hf : ∀ s ∈ t, ∃ v, f s = .ok v ∧ v.Holds r c (F s)) (hg : ∀ s ∈ t, g ⟨r, c, F s⟩ = .ok (.nd2 r c (G s))) :
    ∃ a x y, fromFunc f t = .ok a ∧ evalFunc g (.d3 a.r a.c a.t a.v) true true = .ok (.same x) ∧
      fromFunc (fun s => g ⟨r, c, F s⟩) t = .ok y ∧ SameArr x y := by
  obtain ⟨a, ha, h1, h2, h3, h4⟩ := C77_from_func_partial f t ht r c F hf
  obtain ⟨y, hy, y1, y2, y3, y4⟩ := C77_from_func_partial (fun s => g ⟨r, c, F s⟩) t ht r c G (fun s hs => ⟨_, hg s hs, rfl, rfl, fun _ _ _ _ => rfl⟩)
  obtain ⟨x, hx, x1, x2, x3, x4⟩ := C77_eval_same_partial g (.d3 a.r a.c a.t a.v) (fun k => G (t.getD k 0)) (by
    intro k hk
    have hk' : k < t.length := by rw [← h3]; exact hk
    have hm : t.getD k 0 ∈ t := by
      rw [getD_lt hk']
      exact List.getElem_mem hk'
    have := hg _ hm
    rw [show (Arr.d3 a.r a.c a.t a.v).nRows = r from h1, show (Arr.d3 a.r a.c a.t a.v).nCols = c from h2, ← this]
    refine hgr _ _ h1 h2 fun i j hi hj => ?_
    exact h4 i j k (h1 ▸ hi) (h2 ▸ hj) hk')
  refine ⟨a, x, y, ha, hx, hy, ?_⟩
  have x1' : x.r = r := x1.trans h1
  have x2' : x.c = c := x2.trans h2
  have x3' : x.t = t.length := x3.trans h3
  refine ⟨x1'.trans y1.symm, x2'.trans y2.symm, x3'.trans y3.symm, fun i j k hi hj hk => ?_⟩
  rw [y4 i j k (x1' ▸ hi) (x2' ▸ hj) (x3' ▸ hk)]
  exact x4 i j k (x1 ▸ hi) (x2 ▸ hj) (x3 ▸ hk)

/-- **C156**, nothing to do: the callback that returns its argument gives the array itself. -/
theorem C156_eval_id (a : Arr) : ∃ x, evalFunc (fun m => .ok (.nd2 m.r m.c m.v)) a true true = .ok (.same x) ∧ x.Is a.nRows a.nCols (timeLen a) a.entry :=
  C77_eval_same_partial _ a (fun k i j => a.entry i j k) (fun _ _ => rfl)

/-- First `f`, then `g` on the matrix it returns. -/
def andThen (f g : Mat2 → Py FVal) (m : Mat2) : Py FVal :=
  match f m with
  | .ok (.nd2 r c w) => g ⟨r, c, w⟩
  | .ok _ => .error .typeError
  | .error e => .error e

/-- **C156**, twice: `eval_func` with `f` and then with `g` is `eval_func` with `g` after `f`. -/
theorem C156_eval_eval (f g : Mat2 → Py FVal) (hgr : Reads g) (a : Arr) (F G : ℕ → ℕ → ℕ → ℝ)
    (hf : ∀ k < timeLen a, f (a.at k) = .ok (.nd2 a.nRows a.nCols (F k))) (hg : ∀ k < timeLen a, g ⟨a.nRows, a.nCols, F k⟩ = .ok (.nd2 a.nRows a.nCols (G k))) :
    ∃ x y z, evalFunc f a true true = .ok (.same x) ∧ evalFunc g (.d3 x.r x.c x.t x.v) true true = .ok (.same y) ∧
      evalFunc (andThen f g) a true true = .ok (.same z) ∧ SameArr y z := by
  obtain ⟨x, hx, x1, x2, x3, x4⟩ := C77_eval_same_partial f a F hf
  obtain ⟨z, hz, z1, z2, z3, z4⟩ := C77_eval_same_partial (andThen f g) a G (fun k hk => by simp only [andThen, hf k hk, hg k hk])
  obtain ⟨y, hy, y1, y2, y3, y4⟩ := C77_eval_same_partial g (.d3 x.r x.c x.t x.v) G (by
    intro k hk
    have hk' : k < timeLen a := by rw [← x3]; exact hk
    have := hg k hk'
    rw [show (Arr.d3 x.r x.c x.t x.v).nRows = a.nRows from x1, show (Arr.d3 x.r x.c x.t x.v).nCols = a.nCols from x2, ← this]
    refine hgr _ _ x1 x2 fun i j hi hj => ?_
    exact x4 i j k (x1 ▸ hi) (x2 ▸ hj) hk')
  have y1' : y.r = a.nRows := y1.trans x1
  have y2' : y.c = a.nCols := y2.trans x2
  have y3' : y.t = timeLen a := y3.trans x3
  refine ⟨x, y, z, hx, hy, hz, y1'.trans z1.symm, y2'.trans z2.symm, y3'.trans z3.symm, fun i j k hi hj hk => ?_⟩
  rw [z4 i j k (y1' ▸ hi) (y2' ▸ hj) (y3' ▸ hk)]
  exact y4 i j k (y1 ▸ hi) (y2 ▸ hj) (y3 ▸ hk)

/-- **C156**, the two kinds of output: if the call with uniform output returns numbers, the call without returns the list of the values, and its members
are these numbers. -/
theorem C156_numbers_values (f : Mat2 → Py FVal) (a : Arr) (keep : Bool) (n : ℕ) (x : ℕ → ℝ) (h : evalFunc f a true false = .ok (.numbers n x)) :
    ∃ l, evalFunc f a false keep = .ok (.values l) ∧ l.length = n ∧ ∀ k (hk : k < l.length), l[k].IsNumber (x k) := by
  have hnr : ¬ Raises (evalFunc f a true false) := by
    rw [h]
    rintro ⟨e, he⟩
    cases he
  rw [(C77_eval_raises_iff f a).2] at hnr
  push Not at hnr
  have hv : ∀ k, ∃ v y, k < timeLen a → f (a.at k) = .ok v ∧ v.IsNumber y := by
    intro k
    by_cases hk : k < timeLen a
    · obtain ⟨v, hv⟩ := of_not_raises (hnr k hk).1
      obtain ⟨y, hy⟩ := (hnr k hk).2 v hv
      exact ⟨v, y, fun _ => ⟨hv, hy⟩⟩
    · exact ⟨.num 0, 0, fun h => absurd h hk⟩
  choose V Y hV using hv
  obtain ⟨x', hx', hxx⟩ := C77_eval_numbers f a Y (fun k hk => ⟨V k, hV k hk⟩)
  rw [h] at hx'
  cases hx'
  refine ⟨(List.range (timeLen a)).map V, (C77_eval_values f a keep).1 V (fun k hk => (hV k hk).1), by simp, fun k hk => ?_⟩
  have hk' : k < timeLen a := by simpa using hk
  rw [hxx k hk']
  simpa using (hV k hk').2

/-! The callback `s ↦ [s, 2 s]` at the times one to four; doubling. -/

example : ∃ x, fromFunc (fun s => .ok (.nd1 2 (fun i => (i + 1) * s))) ([1, 2] ++ [3, 4]) = .ok x ∧ x.t = 4 ∧ x.v 1 0 3 = 8 := by
  obtain ⟨a, ha, a1, a2, a3, a4⟩ := C77_from_func_partial (fun s => .ok (.nd1 2 (fun i => (i + 1) * s))) [1, 2] (by simp) 2 1
    (fun s i _ => (i + 1) * s) (fun s _ => ⟨_, rfl, rfl, rfl, fun _ _ => rfl⟩)
  obtain ⟨b, hb, b1, b2, b3, b4⟩ := C77_from_func_partial (fun s => .ok (.nd1 2 (fun i => (i + 1) * s))) [3, 4] (by simp) 2 1
    (fun s i _ => (i + 1) * s) (fun s _ => ⟨_, rfl, rfl, rfl, fun _ _ => rfl⟩)
  obtain ⟨x, hx, x1, x2, x3, x4⟩ := C156_append _ _ _ a b ha hb (a1.trans b1.symm) (a2.trans b2.symm)
  simp only [List.length_cons, List.length_nil] at a3 b3
  refine ⟨x, hx, by rw [x3, a3, b3], ?_⟩
  have h3 := x4 1 0 3 (by omega) (by omega) (by omega)
  simp only at h3
  rw [h3, if_neg (by omega), a3, b4 1 0 _ (by norm_num) (by norm_num) (by norm_num)]
  norm_num

/-- Doubling all entries. -/
private noncomputable def dbl (m : Mat2) : Py FVal := .ok (.nd2 m.r m.c (fun i j => if i < m.r ∧ j < m.c then 2 * m.v i j else 0))

private theorem dbl_reads : Reads dbl := by
  intro m m' h1 h2 h
  simp only [dbl, ← h1, ← h2]
  refine congrArg Except.ok (congrArg (FVal.nd2 m.r m.c) ?_)
  funext i j
  by_cases hij : i < m.r ∧ j < m.c
  · rw [if_pos hij, if_pos hij, h i j hij.1 hij.2]
  · rw [if_neg hij, if_neg hij]

/-- Doubling twice multiplies by four. -/
example : ∃ x y, evalFunc dbl (.d3 2 2 3 (fun i j k => i + j + k)) true true = .ok (.same x) ∧ evalFunc dbl (.d3 x.r x.c x.t x.v) true true = .ok (.same y) ∧
    y.v 1 1 2 = 16 := by
  have hf : ∀ k < timeLen (.d3 2 2 3 (fun i j k => (i + j + k : ℝ))), dbl ((Arr.d3 2 2 3 (fun i j k => (i + j + k : ℝ))).at k) =
      .ok (.nd2 2 2 (fun i j => if i < 2 ∧ j < 2 then 2 * (i + j + k : ℝ) else 0)) := fun _ _ => rfl
  have hg : ∀ k : ℕ, dbl ⟨2, 2, fun i j => if i < 2 ∧ j < 2 then 2 * (i + j + k : ℝ) else 0⟩ =
      .ok (.nd2 2 2 (fun i j => if i < 2 ∧ j < 2 then 2 * (if i < 2 ∧ j < 2 then 2 * (i + j + k : ℝ) else 0) else 0)) := fun _ => rfl
  obtain ⟨x, y, z, hx, hy, hz, z1, z2, z3, z4⟩ := C156_eval_eval dbl dbl dbl_reads _ _ _ hf (fun k _ => hg k)
  obtain ⟨w, hw, w1, w2, w3, w4⟩ := C77_eval_same_partial (andThen dbl dbl) (.d3 2 2 3 (fun i j k => (i + j + k : ℝ)))
    (fun k i j => if i < 2 ∧ j < 2 then 2 * (if i < 2 ∧ j < 2 then 2 * (i + j + k : ℝ) else 0) else 0) (fun k hk => by simp only [andThen, hf k hk]; exact hg k)
  rw [hz] at hw
  cases hw
  refine ⟨x, y, hx, hy, ?_⟩
  have w1' : z.r = 2 := w1
  have w2' : z.c = 2 := w2
  have w3' : z.t = 3 := w3
  rw [z4 1 1 2 (by omega) (by omega) (by omega)]
  have := w4 1 1 2 (by show 1 < 2; norm_num) (by show 1 < 2; norm_num) (by show 2 < 3; norm_num)
  rw [this]
  norm_num

end Ellipy.MV
