import Mathlib.Tactic.IntervalCases
import Verif.Proofs.Sym

/-! Property theorems C11, C12 (`is_dependent`, `var_replace`).

The class `\w` is an arbitrary predicate `isWord` on characters; the theorems assume of it only what is
needed: letters of the variable are word characters; the newline, the blank and parentheses are not. -/

namespace Ellipy.Sym
variable {isWord : Char → Bool} {N : Type}

private theorem ne_nil_iff (s : List Char) (r : RE) (i : Nat) :
    ends isWord s r i ≠ [] ↔ ∃ j, j ∈ ends isWord s r i := by
  rw [List.ne_nil_iff_exists_cons]
  constructor
  · rintro ⟨j, l, h⟩; exact ⟨j, by simp [h]⟩
  · rintro ⟨j, h⟩
    cases he : ends isWord s r i with
    | nil => simp [he] at h
    | cons a l => exact ⟨a, l, rfl⟩

private theorem mem_chr (s : List Char) (p : Char → Bool) (i j : Nat) :
    j ∈ ends isWord s (.chr p) i ↔ j = i + 1 ∧ ∃ c, s[i]? = some c ∧ p c = true := by
  rw [ends]
  cases h : s[i]? with
  | none => simp
  | some c => by_cases hp : p c = true <;> simp [hp]

private theorem mem_bol (s : List Char) (i j : Nat) : j ∈ ends isWord s .bol i ↔ j = i ∧ i = 0 := by
  rw [ends]; by_cases h : i = 0 <;> simp [h]

private theorem mem_eol (s : List Char) (i j : Nat) :
    j ∈ ends isWord s .eol i ↔ j = i ∧ (i = s.length ∨ (i + 1 = s.length ∧ s[i]? = some '\n')) := by
  rw [ends]; split_ifs with h <;> simp [h]

private theorem mem_seq (s : List Char) (a b : RE) (i j : Nat) :
    j ∈ ends isWord s (.seq a b) i ↔ ∃ k, k ∈ ends isWord s a i ∧ j ∈ ends isWord s b k := by
  rw [ends]; simp

private theorem mem_alt (s : List Char) (a b : RE) (i j : Nat) :
    j ∈ ends isWord s (.alt a b) i ↔ j ∈ ends isWord s a i ∨ j ∈ ends isWord s b i := by
  rw [ends]; simp

private theorem search_pos (hnl : isWord '\n' = false) (x : Char) (s : List Char) :
    searchFound isWord (depRE isWord x) s = true ↔
      ∃ p, s[p]? = some x ∧ wordBefore isWord s p = false ∧ wordAt isWord s (p + 1) = false := by
  rw [searchFound_iff]
  have hat : ∀ i, (∃ c, s[i]? = some c ∧ (!isWord c) = true) ∨
      (i = s.length ∨ (i + 1 = s.length ∧ s[i]? = some '\n')) → wordAt isWord s i = false := by
    rintro i (⟨c, hc, hw⟩ | rfl | ⟨_, hc⟩)
    · simpa [wordAt, hc] using hw
    · simp [wordAt]
    · simp [wordAt, hc, hnl]
  simp only [depRE, ne_nil_iff, mem_alt, mem_seq, mem_chr, mem_bol, mem_eol, beq_iff_eq]
  constructor
  · rintro ⟨i, -, j, h | h | h | h⟩
    · obtain ⟨k, ⟨rfl, hb⟩, k', ⟨rfl, c, hc, rfl⟩, rfl, ha⟩ := h
      exact ⟨i + 1, hc, hat _ (.inl hb), hat _ (.inl ha)⟩
    · obtain ⟨k, ⟨rfl, rfl⟩, k', ⟨rfl, c, hc, rfl⟩, rfl, ha⟩ := h
      exact ⟨0, hc, rfl, hat _ (.inl ha)⟩
    · obtain ⟨k, ⟨rfl, hb⟩, k', ⟨rfl, c, hc, rfl⟩, rfl, ha⟩ := h
      exact ⟨i + 1, hc, hat _ (.inl hb), hat _ (.inr ha)⟩
    · obtain ⟨k, ⟨rfl, rfl⟩, k', ⟨rfl, c, hc, rfl⟩, rfl, ha⟩ := h
      exact ⟨0, hc, rfl, hat _ (.inr ha)⟩
  · rintro ⟨p, hp, hb, ha⟩
    have hpl : p < s.length := (List.getElem?_eq_some_iff.1 hp).1
    have hafter : (∃ c, s[p + 1]? = some c ∧ (!isWord c) = true) ∨ p + 1 = s.length := by
      cases h : s[p + 1]? with
      | none => right; rw [List.getElem?_eq_none_iff] at h; omega
      | some c => left; refine ⟨c, rfl, ?_⟩; simpa [wordAt, h] using ha
    cases p with
    | zero =>
      refine ⟨0, Nat.zero_le _, ?_⟩
      rcases hafter with h | h
      · exact ⟨2, .inr (.inl ⟨0, ⟨rfl, rfl⟩, 1, ⟨rfl, x, hp, rfl⟩, rfl, h⟩)⟩
      · exact ⟨1, .inr (.inr (.inr ⟨0, ⟨rfl, rfl⟩, 1, ⟨rfl, x, hp, rfl⟩, rfl, .inl h⟩))⟩
    | succ q =>
      have hq : ∃ c, s[q]? = some c ∧ (!isWord c) = true := by
        have hq' : q < s.length := by omega
        refine ⟨s[q], List.getElem?_eq_getElem hq', ?_⟩
        simpa [wordBefore, wordAt, hq'] using hb
      refine ⟨q, by omega, ?_⟩
      rcases hafter with h | h
      · exact ⟨q + 3, .inl ⟨q + 1, ⟨rfl, hq⟩, q + 2, ⟨rfl, x, hp, rfl⟩, rfl, h⟩⟩
      · exact ⟨q + 2, .inr (.inr (.inl ⟨q + 1, ⟨rfl, hq⟩, q + 2, ⟨rfl, x, hp, rfl⟩, rfl, .inl h⟩))⟩

private theorem search_iff (hnl : isWord '\n' = false) (x : Char) (s : List Char) :
    searchFound isWord (depRE isWord x) s = true ↔ HasWord isWord [x] s := by
  rw [search_pos hnl]
  constructor
  · rintro ⟨p, hp, hb, ha⟩
    obtain ⟨hlt, hx⟩ := List.getElem?_eq_some_iff.1 hp
    have hs : s = s.take p ++ [x] ++ s.drop (p + 1) := by
      rw [← hx, List.append_assoc, List.singleton_append, ← List.drop_eq_getElem_cons hlt, List.take_append_drop]
    have hl1 : (s.take p).length = p := by simp; omega
    refine ⟨s.take p, s.drop (p + 1), hs, ?_, ?_⟩
    · rw [← any_false_iff, ← wordBefore_append (s.take p) ([x] ++ s.drop (p + 1)), hl1, ← List.append_assoc, ← hs]
      exact hb
    · rw [← any_false_iff, ← wordAt_append (s.take p ++ [x]) (s.drop (p + 1)), List.length_append, hl1, ← hs]
      exact ha
  · rintro ⟨pre, post, rfl, h1, h2⟩
    refine ⟨pre.length, by simp, ?_, ?_⟩
    · rw [List.append_assoc, wordBefore_append, any_false_iff]; exact h1
    · have : pre.length + 1 = (pre ++ [x]).length := by simp
      rw [this, wordAt_append, any_false_iff]; exact h2

/-- **C11**. On a non-empty matrix `is_dependent` answers whether some cell contains the time variable — `t`, or
`k` for discrete systems — as a whole word.  An empty matrix raises. -/
theorem C11_is_dependent (hnl : isWord '\n' = false) (toStr : Int ⊕ N → List Char) (m : List (Cell N)) (isDiscrete : Bool) :
    (m = [] → Raises (isDependent isWord toStr m isDiscrete)) ∧
    (m ≠ [] → ∃ b, isDependent isWord toStr m isDiscrete = .ok b ∧
      (b = true ↔ ∃ c ∈ m, HasWord isWord [if isDiscrete then 'k' else 't'] (cellText toStr c))) := by
  constructor
  · rintro rfl; exact ⟨_, rfl⟩
  · intro hm
    have hm' : m.isEmpty = false := by simpa using hm
    have hmap : m.map (cellStr toStr) = m.map (cellText toStr) := by
      apply List.map_congr_left; intro c _; cases c <;> rfl
    unfold isDependent
    simp only [hm', Bool.false_eq_true, if_false, hmap]
    cases isDiscrete
    · refine ⟨_, rfl, ?_⟩
      simp [List.any_eq_true, search_iff hnl]
    · refine ⟨_, rfl, ?_⟩
      simp [List.any_eq_true, search_iff hnl]

/-- **C12** (value). For a variable name made of word characters `var_replace` returns, cell by cell, the
text without blanks with every whole word equal to the variable replaced by the parenthesised
expression and everything else unchanged.  An empty matrix raises. -/
theorem C12_var_replace (toStr : Int ⊕ N → List Char) (m : List (Cell N)) (v e : List Char) (hv : v ≠ [])
    (hw : ∀ c ∈ v, isWord c = true) :
    (m = [] → Raises (varReplace isWord toStr m v e)) ∧
    (m ≠ [] → varReplace isWord toStr m v e =
      .ok (m.map (fun c => substitute isWord v e (noBlanks (cellText toStr c))))) := by
  constructor
  · rintro rfl; exact ⟨_, rfl⟩
  · intro hm
    have hm' : m.isEmpty = false := by simpa using hm
    unfold varReplace
    simp only [hm', Bool.false_eq_true, if_false, List.map_map]
    congr 1
    apply List.map_congr_left
    intro c _
    have hf : ∀ s : List Char, s.filter (fun c => c != ' ') = noBlanks s := by
      intro s; unfold noBlanks; congr 1; funext c; by_cases h : c = ' ' <;> simp [h]
    simp only [Function.comp, hf, reSub_eq v e _ hv hw]
    cases c <;> rfl

/-- **C12** (nothing else changes). A text that does not contain the variable as a word only loses its blanks. -/
theorem C12_untouched (toStr : Int ⊕ N → List Char) (m : List (Cell N)) (v e : List Char) (hv : v ≠ [])
    (hw : ∀ c ∈ v, isWord c = true) (hm : m ≠ [])
    (h : ∀ c ∈ m, ¬ HasWord isWord v (noBlanks (cellText toStr c))) :
    varReplace isWord toStr m v e = .ok (m.map (fun c => noBlanks (cellText toStr c))) := by
  rw [(C12_var_replace toStr m v e hv hw).2 hm]
  congr 1
  apply List.map_congr_left
  intro c hc
  have := h c hc
  rw [hasWord_iff hv hw] at this
  unfold substitute
  conv_rhs => rw [← tokens_flatten (isWord := isWord) (noBlanks (cellText toStr c))]
  congr 1
  conv_rhs => rw [← List.map_id (tokens isWord (noBlanks (cellText toStr c)))]
  apply List.map_congr_left
  intro t ht
  rw [if_neg (fun (h : t = v) => this (h ▸ ht))]; rfl

/-- **C12** (dependence). Which words a cell of the result contains: the old ones except the variable, and, where the
variable occurred, the words of the expression. -/
theorem C12_words (hl : isWord '(' = false) (hr : isWord ')' = false) (toStr : Int ⊕ N → List Char)
    (m : List (Cell N)) (v e u : List Char) (hv : v ≠ []) (hw : ∀ c ∈ v, isWord c = true) (hu : u ≠ [])
    (hwu : ∀ c ∈ u, isWord c = true) (res : List (List Char)) (h : varReplace isWord toStr m v e = .ok res) :
    res.length = m.length ∧ ∀ (i : Nat) c s, m[i]? = some c → res[i]? = some s →
      (HasWord isWord u s ↔ (u ≠ v ∧ HasWord isWord u (noBlanks (cellText toStr c))) ∨
        (HasWord isWord v (noBlanks (cellText toStr c)) ∧ HasWord isWord u e)) := by
  have hm : m ≠ [] := by
    rintro rfl; obtain ⟨x, hx⟩ := (C12_var_replace toStr [] v e hv hw).1 rfl; rw [hx] at h; cases h
  rw [(C12_var_replace toStr m v e hv hw).2 hm] at h
  cases h
  refine ⟨by simp, fun i c s hc hs => ?_⟩
  rw [List.getElem?_map, hc] at hs
  simp only [Option.map_some, Option.some.injEq] at hs
  rw [← hs]
  exact hasWord_substitute hl hr hv hw hu hwu

/-- **C12** (the variable disappears). If the expression does not mention the variable, no cell of the result does;
in particular after replacing `t` by an expression free of `t` the matrix is not time-dependent. -/
theorem C12_disappears (hl : isWord '(' = false) (hr : isWord ')' = false) (hnl : isWord '\n' = false)
    (ht : isWord 't' = true) (toStr : Int ⊕ N → List Char) (m : List (Cell N)) (e : List Char)
    (hfree : ¬ HasWord isWord ['t'] e) (res : List (List Char)) (h : varReplace isWord toStr m ['t'] e = .ok res) :
    isDependent (N := N) isWord toStr (res.map .str) false = .ok false := by
  obtain ⟨hlen, hw⟩ := C12_words hl hr toStr m ['t'] e ['t'] (by simp) (by simpa using ht) (by simp) (by simpa using ht) res h
  have hm : m ≠ [] := by
    rintro rfl; cases h
  have hres : res.map (Cell.str (N := N)) ≠ [] := by
    intro hn; rw [List.map_eq_nil_iff] at hn; rw [hn] at hlen; exact hm (List.length_eq_zero_iff.1 hlen.symm)
  obtain ⟨b, hb, hiff⟩ := (C11_is_dependent hnl toStr (res.map .str) false).2 hres
  rw [hb]
  cases b with
  | false => rfl
  | true =>
    exfalso
    obtain ⟨c, hc, hword⟩ := hiff.1 rfl
    obtain ⟨s, hs, rfl⟩ := List.mem_map.1 hc
    obtain ⟨i, hi, rfl⟩ := List.getElem_of_mem hs
    have := (hw i m[i] res[i] (List.getElem?_eq_getElem _) (List.getElem?_eq_getElem hi)).1 hword
    rcases this with ⟨h1, _⟩ | ⟨_, h2⟩
    · exact h1 rfl
    · exact hfree h2

/-- **C12** (renaming). Replacing a variable by the time variable makes the matrix time-dependent exactly
when it mentioned the variable or the time variable before (blanks removed). -/
theorem C12_rename (hl : isWord '(' = false) (hr : isWord ')' = false) (hnl : isWord '\n' = false)
    (ht : isWord 't' = true) (toStr : Int ⊕ N → List Char) (m : List (Cell N)) (v : List Char) (hv : v ≠ [])
    (hwv : ∀ c ∈ v, isWord c = true) (res : List (List Char))
    (h : varReplace isWord toStr m v ['t'] = .ok res) :
    ∃ b, isDependent (N := N) isWord toStr (res.map .str) false = .ok b ∧
      (b = true ↔ ∃ c ∈ m, HasWord isWord v (noBlanks (cellText toStr c)) ∨
        HasWord isWord ['t'] (noBlanks (cellText toStr c))) := by
  obtain ⟨hlen, hw⟩ := C12_words hl hr toStr m v ['t'] ['t'] hv hwv (by simp) (by simpa using ht) res h
  have hm : m ≠ [] := by
    rintro rfl; cases h
  have hres : res.map (Cell.str (N := N)) ≠ [] := by
    intro hn; rw [List.map_eq_nil_iff] at hn; rw [hn] at hlen; exact hm (List.length_eq_zero_iff.1 hlen.symm)
  obtain ⟨b, hb, hiff⟩ := (C11_is_dependent hnl toStr (res.map .str) false).2 hres
  refine ⟨b, hb, hiff.trans ?_⟩
  have htt : HasWord isWord ['t'] ['t'] := ⟨[], [], rfl, by simp, by simp⟩
  constructor
  · rintro ⟨c, hc, hword⟩
    obtain ⟨s, hs, rfl⟩ := List.mem_map.1 hc
    obtain ⟨i, hi, rfl⟩ := List.getElem_of_mem hs
    have hi' : i < m.length := by omega
    refine ⟨m[i], List.getElem_mem hi', ?_⟩
    rcases (hw i m[i] res[i] (List.getElem?_eq_getElem _) (List.getElem?_eq_getElem hi)).1 hword with ⟨_, h2⟩ | ⟨h1, _⟩
    · exact .inr h2
    · exact .inl h1
  · rintro ⟨c, hc, hor⟩
    obtain ⟨i, hi, rfl⟩ := List.getElem_of_mem hc
    have hi' : i < res.length := by omega
    refine ⟨.str res[i], List.mem_map.2 ⟨_, List.getElem_mem hi', rfl⟩, ?_⟩
    refine (hw i m[i] res[i] (List.getElem?_eq_getElem _) (List.getElem?_eq_getElem hi')).2 ?_
    by_cases htv : ['t'] = v
    · subst htv
      exact .inr ⟨hor.elim id id, htt⟩
    · rcases hor with h1 | h1
      · exact .inr ⟨h1, htt⟩
      · exact .inl ⟨htv, h1⟩

/-- The ASCII word class meets the assumptions, and the theorems give the expected values on
`cos(t*2) + tt` and a number cell. -/
def asciiWord (c : Char) : Bool := c.isAlphanum || c == '_'

example : asciiWord '\n' = false ∧ asciiWord '(' = false ∧ asciiWord ')' = false ∧ asciiWord 't' = true ∧
    asciiWord 'k' = true := by decide

example : isDependent (N := Unit) asciiWord (fun _ => ['7']) [.str "tt+3".toList, .num (), .str "cos(t*2)".toList] false =
    .ok true := by decide
example : isDependent (N := Unit) asciiWord (fun _ => ['7']) [.str "tt+3".toList, .num ()] false = .ok false := by
  decide
example : varReplace (N := Unit) asciiWord (fun _ => ['7']) [.str "cos( t*2) + tt".toList] ['t'] "a-b".toList =
    .ok ["cos((a-b)*2)+tt".toList] := by decide

/-- Hypotheses of `C12_disappears` and `C12_rename` are met by `x*x1` with `x ↦ t` and `t*2` with `t ↦ a-b`. -/
example : ∃ res, varReplace (N := Unit) asciiWord (fun _ => ['7']) [.str "t*2".toList] ['t'] "a-b".toList = .ok res ∧
    isDependent (N := Unit) asciiWord (fun _ => ['7']) (res.map .str) false = .ok false := by
  refine ⟨_, rfl, C12_disappears (by decide) (by decide) (by decide) (by decide) _ [.str "t*2".toList] "a-b".toList ?_ _ rfl⟩
  rw [hasWord_iff (by simp) (by decide)]
  decide

end Ellipy.Sym
