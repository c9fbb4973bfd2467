import Verif.Proofs.MatHelpers

/-! Property theorems C78 (`MatVector.from_expression`, `MatVector.from_formula_mat`). -/

namespace Ellipy.MV

/-! ### The brackets -/

theorem pyIndex_last (s : List Char) (c : Char) : pyIndex (s ++ [c]) ((s ++ [c]).length - 1) = .ok c := by
  unfold pyIndex
  simp

theorem pyIndex_last2 (s : List Char) (c d : Char) : pyIndex (s ++ [c, d]) ((s ++ [c, d]).length - 2) = .ok c := by
  unfold pyIndex
  simp

/-- C78: a text that neither starts with `[` nor ends with `]` is put into two pairs of brackets. -/
theorem C78_brackets_none (s : List Char) (h : s ≠ []) (h1 : s.head? ≠ some '[') (h2 : s.getLast? ≠ some ']') :
    addBrackets s = .ok (['[', '['] ++ s ++ [']', ']']) := by
  obtain ⟨pre, d, rfl⟩ : ∃ pre d, s = pre ++ [d] := ⟨s.dropLast, s.getLast h, (List.dropLast_append_getLast h).symm⟩
  have hd : d ≠ ']' := by simpa using h2
  cases hs : pre ++ [d] with
  | nil => exact absurd hs h
  | cons c rest =>
    have hc : c ≠ '[' := by rw [hs] at h1; simpa using h1
    unfold addBrackets
    simp only
    rw [if_pos hc]
    simp only
    rw [← hs, show '[' :: '[' :: (pre ++ [d]) = ('[' :: '[' :: pre) ++ [d] from rfl, pyIndex_last]
    simp only
    rw [if_pos hd]
    rfl

/-- C78: a text in one pair of brackets, `[u]`, is put into another pair. -/
theorem C78_brackets_one (u : List Char) (h : u ≠ []) (h1 : u.head? ≠ some '[') (h2 : u.getLast? ≠ some ']') :
    addBrackets (['['] ++ u ++ [']']) = .ok (['[', '['] ++ u ++ [']', ']']) := by
  obtain ⟨pre, d, rfl⟩ : ∃ pre d, u = pre ++ [d] := ⟨u.dropLast, u.getLast h, (List.dropLast_append_getLast h).symm⟩
  have hd : d ≠ ']' := by simpa using h2
  cases hs : pre ++ [d] with
  | nil => exact absurd hs h
  | cons c rest =>
    have hc : c ≠ '[' := by rw [hs] at h1; simpa using h1
    unfold addBrackets
    simp only [List.cons_append, List.nil_append]
    rw [if_neg (by simp), show pyIndex ('[' :: c :: (rest ++ [']'])) 1 = .ok c from rfl]
    simp only
    rw [if_pos hc]
    simp only
    have e : '[' :: '[' :: c :: (rest ++ [']']) = ('[' :: '[' :: pre) ++ [d, ']'] := by
      rw [show '[' :: '[' :: c :: (rest ++ [']']) = '[' :: '[' :: ((c :: rest) ++ [']']) from rfl, ← hs]
      simp
    rw [e, show ('[' :: '[' :: pre) ++ [d, ']'] = (('[' :: '[' :: pre) ++ [d]) ++ [']'] by simp, pyIndex_last]
    simp only
    rw [if_neg (by simp), show (('[' :: '[' :: pre) ++ [d]) ++ [']'] = ('[' :: '[' :: pre) ++ [d, ']'] by simp, pyIndex_last2]
    simp only
    rw [if_pos hd]
    have e2 : '[' :: '[' :: pre ++ [d, ']'] ++ [']'] = '[' :: '[' :: (pre ++ [d] ++ [']', ']']) := by simp
    rw [e2, hs]
    rfl

/-- C78: a text of the form `[[u]]` is left alone. -/
theorem C78_brackets_two (u : List Char) : addBrackets (['[', '['] ++ u ++ [']', ']']) = .ok (['[', '['] ++ u ++ [']', ']']) := by
  unfold addBrackets
  simp only [List.cons_append, List.nil_append]
  rw [if_neg (by simp), show pyIndex ('[' :: '[' :: (u ++ [']', ']'])) 1 = .ok '[' from rfl]
  simp only
  rw [if_neg (by simp)]
  simp only
  have e : '[' :: '[' :: (u ++ [']', ']']) = (('[' :: '[' :: u) ++ [']']) ++ [']'] := by simp
  rw [e, pyIndex_last]
  simp only
  rw [if_neg (by simp), show (('[' :: '[' :: u) ++ [']']) ++ [']'] = ('[' :: '[' :: u) ++ [']', ']'] by simp, pyIndex_last2]
  simp only
  rw [if_neg (by simp)]

/-- C78: the text is refused exactly when it is empty or a single `[`. -/
theorem C78_brackets_raises_iff (s : List Char) : Raises (addBrackets s) ↔ s = [] ∨ s = ['['] := by
  have tail : ∀ x : List Char, 2 ≤ x.length → ¬ Raises (match pyIndex x (x.length - 1) with
      | .error e => (.error e : Py (List Char))
      | .ok d =>
        if d ≠ ']' then .ok (x ++ [']', ']'])
        else
          match pyIndex x (x.length - 2) with
          | .error e => .error e
          | .ok d' => if d' ≠ ']' then .ok (x ++ [']']) else .ok x) := by
    intro x hx
    obtain ⟨d, hd⟩ : ∃ d, pyIndex x (x.length - 1) = .ok d := ⟨x[x.length - 1], by unfold pyIndex; rw [List.getElem?_eq_getElem (by omega)]⟩
    obtain ⟨d', hd'⟩ : ∃ d, pyIndex x (x.length - 2) = .ok d := ⟨x[x.length - 2], by unfold pyIndex; rw [List.getElem?_eq_getElem (by omega)]⟩
    rw [hd, hd']
    simp only
    rintro ⟨e, he⟩
    by_cases h1 : d ≠ ']'
    · rw [if_pos h1] at he; cases he
    · rw [if_neg h1] at he
      by_cases h2 : d' ≠ ']'
      · rw [if_pos h2] at he; cases he
      · rw [if_neg h2] at he; cases he
  match s with
  | [] => exact iff_of_true ⟨_, rfl⟩ (Or.inl rfl)
  | [c] =>
    by_cases hc : c = '['
    · subst hc
      exact iff_of_true ⟨_, rfl⟩ (Or.inr rfl)
    · refine iff_of_false ?_ (by simpa using hc)
      unfold addBrackets
      simp only
      rw [if_pos hc]
      exact tail ['[', '[', c] (by simp)
  | c :: d :: rest =>
    refine iff_of_false ?_ (by simp)
    unfold addBrackets
    simp only
    by_cases hc : c = '['
    · rw [if_neg (by simpa using hc), show pyIndex (c :: d :: rest) 1 = .ok d from rfl]
      simp only
      by_cases hd : d = '['
      · rw [if_neg (by simpa using hd)]
        exact tail (c :: d :: rest) (by simp)
      · rw [if_pos hd]
        exact tail ('[' :: c :: d :: rest) (by simp)
    · rw [if_pos hc]
      exact tail ('[' :: '[' :: c :: d :: rest) (by simp)

/-- C78 is violated: a balanced text that ends with an index, such as `t[0]`, gets more opening than closing brackets, so it cannot be
evaluated. -/
theorem C78_violated (s : List Char) (d : Char) (hbal : (s ++ [d, ']']).count '[' = (s ++ [d, ']']).count ']')
    (hd : d ≠ ']') (h1 : (s ++ [d, ']']).head? ≠ some '[') :
    ∃ x, addBrackets (s ++ [d, ']']) = .ok x ∧ x.count '[' ≠ x.count ']' := by
  cases hs : s ++ [d, ']'] with
  | nil => simp at hs
  | cons c rest =>
    have hc : c ≠ '[' := by rw [hs] at h1; simpa using h1
    unfold addBrackets
    simp only
    rw [if_pos hc]
    simp only
    rw [← hs, show '[' :: '[' :: (s ++ [d, ']']) = (('[' :: '[' :: s) ++ [d]) ++ [']'] by simp, pyIndex_last]
    simp only
    rw [if_neg (by simp), show (('[' :: '[' :: s) ++ [d]) ++ [']'] = ('[' :: '[' :: s) ++ [d, ']'] by simp, pyIndex_last2]
    simp only
    rw [if_pos hd]
    refine ⟨_, rfl, ?_⟩
    have e : '[' :: '[' :: s ++ [d, ']'] ++ [']'] = '[' :: '[' :: ((s ++ [d, ']']) ++ [']']) := by simp
    rw [e]
    simp only [List.count_cons, List.count_append (l₁ := s ++ [d, ']']), List.count_nil, hbal]
    simp

/-- `t[0]`. -/
example : ∃ x, addBrackets ['t', '[', '0', ']'] = .ok x ∧ x.count '[' ≠ x.count ']' :=
  C78_violated ['t', '['] '0' (by decide) (by decide) (by decide)

example : addBrackets ['t'] = .ok ['[', '[', 't', ']', ']'] := C78_brackets_none ['t'] (by simp) (by decide) (by decide)

example : addBrackets ['[', 't', ']'] = .ok ['[', '[', 't', ']', ']'] := C78_brackets_one ['t'] (by simp) (by decide) (by decide)

/-! ### The values -/

theorem rowsShow_fit {t : List ℝ} {r c : ℕ} {F : ℕ → ℕ → ℝ → ℝ} {rows : List (List Cell)} (h : RowsShow t r c F rows) :
    cellsFit c t.length rows = true := by
  unfold cellsFit
  rw [List.all_eq_true]
  intro row hrow
  rw [Bool.and_eq_true, List.all_eq_true]
  refine ⟨decide_eq_true (h.cols_len row hrow), fun x hx => ?_⟩
  obtain ⟨i, hi, rfl⟩ := List.getElem_of_mem hrow
  obtain ⟨j, hj, rfl⟩ := List.getElem_of_mem hx
  have hs := h.entry i hi j hj
  cases hcell : rows[i][j] with
  | num y => rfl
  | arr n v =>
    rw [hcell] at hs
    exact decide_eq_true hs.1

theorem rowsShow_value {t : List ℝ} {r c : ℕ} {F : ℕ → ℕ → ℝ → ℝ} {rows : List (List Cell)} (h : RowsShow t r c F rows) {i j k : ℕ}
    (hi : i < r) (hj : j < c) (hk : k < t.length) : cellAt rows i j k = F i j t[k] := by
  have hi' : i < rows.length := by rw [h.rows_len]; exact hi
  have hj' : j < rows[i].length := by rw [h.cols_len _ (List.getElem_mem hi')]; exact hj
  unfold cellAt
  have e : (rows.getD i []).getD j (.num 0) = rows[i][j] := by simp [List.getD, hi', hj']
  rw [e]
  have hs := h.entry i hi' j hj'
  cases hcell : rows[i][j] with
  | num y => rw [hcell] at hs; exact (hs _).symm
  | arr n v => rw [hcell] at hs; exact hs.2 k hk

/-- C78: when the completed text evaluates to an `r × c` matrix whose entries are numbers or arrays of values of the functions `F i j` at
the times, `from_expression` returns the batch of the matrices `F i j (t k)`. -/
theorem C78_expression_partial (ev : List Char → Py (List (List Cell))) (other : ℕ → List (List Cell) → Py Arr3) (s text : List Char)
    (t : List ℝ) (r c : ℕ) (hr : 0 < r) (F : ℕ → ℕ → ℝ → ℝ) (rows : List (List Cell)) (hb : addBrackets s = .ok text)
    (hev : ev text = .ok rows) (hF : RowsShow t r c F rows) :
    ∃ a, fromExpression ev other s t.length = .ok a ∧ a.Is r c t.length (fun i j k => F i j (t.getD k 0)) := by
  have hc : (rows.headD []).length = c := by
    cases rows with
    | nil => have := hF.rows_len; simp at this; omega
    | cons row rest => exact hF.cols_len row (by simp)
  refine ⟨⟨rows.length, c, t.length, cellAt rows⟩, ?_, hF.rows_len, rfl, rfl, fun i j k hi hj hk => ?_⟩
  · unfold fromExpression
    rw [hb]
    simp only [hev, hc]
    rw [if_pos (rowsShow_fit hF)]
  · show cellAt rows i j k = _
    rw [rowsShow_value hF hi hj hk]
    simp [List.getD, hk]

/-- C78: `from_formula_mat` puts the value of each text of the table into its place. -/
theorem C78_formula_partial (ev : List Char → Py (List (List Cell))) (other : ℕ → List (List Cell) → Py Arr3) (r c : ℕ)
    (x : ℕ → ℕ → List Char) (t : List ℝ) (F : ℕ → ℕ → ℝ → ℝ)
    (h : ∀ i j, i < r → j < c → ∃ text cell, addBrackets (x i j) = .ok text ∧ ev text = .ok [[cell]] ∧ cell.Shows t (F i j)) :
    ∃ a, fromFormulaMat ev other r c x t.length = .ok a ∧ a.Is r c t.length (fun i j k => F i j (t.getD k 0)) := by
  have one : ∀ i j, ∃ g : ℕ → ℝ, i < r → j < c → formulaStep ev other t.length (x i j) = .ok g ∧
      ∀ k < t.length, g k = F i j (t.getD k 0) := by
    intro i j
    by_cases hij : i < r ∧ j < c
    · obtain ⟨text, cell, h1, h2, h3⟩ := h i j hij.1 hij.2
      obtain ⟨a, ha, e1, e2, e3, e4⟩ := C78_expression_partial ev other (x i j) text t 1 1 (by norm_num) (fun _ _ => F i j) [[cell]] h1 h2
        ⟨rfl, fun row hrow => by rw [List.mem_singleton.mp hrow]; rfl, fun i' hi' j' hj' => by
          have : i' = 0 := by simpa using hi'
          subst this
          have : j' = 0 := by simpa using hj'
          subst this
          exact h3⟩
      refine ⟨fun k => a.v 0 0 (bix a.t k), fun _ _ => ⟨?_, fun k hk => ?_⟩⟩
      · unfold formulaStep
        rw [ha]
        simp only [firstEntry]
        rw [if_neg (by omega), if_pos (Or.inl e3)]
      · have hb : bix a.t k = k := by
          unfold bix
          by_cases h : a.t = 1
          · rw [if_pos h]; omega
          · rw [if_neg h]
        simp only [hb]
        exact e4 0 0 k (by norm_num) (by norm_num) hk
    · exact ⟨fun _ => 0, fun h1 h2 => absurd ⟨h1, h2⟩ hij⟩
  choose g hg using one
  have row : ∀ i, ∃ u : ℕ → ℕ → ℝ, i < r → forRange c (fun j => formulaStep ev other t.length (x i j)) = .ok u ∧ ∀ j < c, u j = g i j := by
    intro i
    by_cases hi : i < r
    · obtain ⟨u, hu, huu⟩ := forRange_ok c (fun j => formulaStep ev other t.length (x i j)) (g i) (fun j hj => (hg i j hi hj).1)
      exact ⟨u, fun _ => ⟨hu, huu⟩⟩
    · exact ⟨fun _ _ => 0, fun h => absurd h hi⟩
  choose u hu using row
  obtain ⟨w, hw, hww⟩ := forRange_ok r (fun i => forRange c (fun j => formulaStep ev other t.length (x i j))) u (fun i hi => (hu i hi).1)
  refine ⟨⟨r, c, t.length, fun i j k => w i j k⟩, ?_, rfl, rfl, rfl, fun i j k hi hj hk => ?_⟩
  · unfold fromFormulaMat
    rw [hw]
  · show w i j k = _
    rw [hww i hi, (hu i hi).2 j hj]
    exact (hg i j hi hj).2 k hk

/-- C78: an evaluator that refuses unbalanced brackets makes `from_expression` raise on `t[0]` and the like. -/
theorem C78_violated_raises (ev : List Char → Py (List (List Cell))) (other : ℕ → List (List Cell) → Py Arr3)
    (hev : ∀ x : List Char, x.count '[' ≠ x.count ']' → Raises (ev x)) (s : List Char) (d : Char)
    (hbal : (s ++ [d, ']']).count '[' = (s ++ [d, ']']).count ']') (hd : d ≠ ']') (h1 : (s ++ [d, ']']).head? ≠ some '[') (T : ℕ) :
    Raises (fromExpression ev other (s ++ [d, ']']) T) := by
  obtain ⟨x, hx, hc⟩ := C78_violated s d hbal hd h1
  obtain ⟨e, he⟩ := hev x hc
  exact ⟨e, by unfold fromExpression; rw [hx]; simp only [he]⟩

/-- C78: an empty text is refused with the tag of the library, whatever the times. -/
theorem C78_empty (ev : List Char → Py (List (List Cell))) (other : ℕ → List (List Cell) → Py Arr3) (T : ℕ) :
    fromExpression ev other [] T = .error (.valueError "wrongInput") := rfl

/-- The text `t` at the times 3 and 5. -/
example : ∃ a, fromExpression (fun _ => .ok [[.arr 2 (fun k => if k = 0 then 3 else 5)]]) (fun _ _ => .error .typeError) ['t'] 2 = .ok a ∧
    a.v 0 0 1 = 5 := by
  obtain ⟨a, ha, -, -, -, h⟩ := C78_expression_partial (fun _ => .ok [[.arr 2 (fun k => if k = 0 then 3 else 5)]]) (fun _ _ => .error .typeError)
    ['t'] _ [3, 5] 1 1 (by norm_num) (fun _ _ x => x) _ (C78_brackets_none ['t'] (by simp) (by decide) (by decide)) rfl
    ⟨rfl, by simp, fun i hi j hj => by
      have : i = 0 := by simpa using hi
      subst this
      have : j = 0 := by simpa using hj
      subst this
      refine ⟨rfl, fun k hk => ?_⟩
      match k, hk with
      | 0, _ => rfl
      | 1, _ => rfl⟩
  exact ⟨a, ha, by rw [h 0 0 1 (by norm_num) (by norm_num) (by simp)]; rfl⟩

end Ellipy.MV
