import Verif.Props.Sym
import Verif.Props.MatExpr
import Verif.Proofs.Formula

/-! Property theorems C128: `var_replace` as an operation on formulas. -/

namespace Ellipy.Sym
variable {isWord : Char → Bool} {N V : Type} {M : Meaning V} {ρ : List Char → Option V}

/-- **C128** (the meaning of a text).  A text has at most one value, so the statements below speak about *the* value. -/
theorem C128_unique (hS : Signs isWord) {l : Level} {s : List Char} {a b : V} (h : Reads isWord M ρ true l s a) (h' : Reads isWord M ρ true l s b) : a = b :=
  reads_unique hS h h'

private theorem replace_eq (toStr : Int ⊕ N → List Char) {m : List (Cell N)} {v e : List Char} (hv : IsName isWord v) {res : List (List Char)}
    (h : varReplace isWord toStr m v e = .ok res) : m ≠ [] ∧ res = m.map fun c => substitute isWord v e (noBlanks (cellText toStr c)) := by
  have hm : m ≠ [] := by rintro rfl; cases h
  rw [(C12_var_replace toStr m v e hv.1 hv.2.1).2 hm] at h
  exact ⟨hm, (Except.ok.inj h).symm⟩

/-- **C128** (substitution).  Let the name `v` be replaced by the formula `e` with value `b`.  If a cell has the value `a` when `v` stands for `b`, then the new
cell has the value `a`, and no other. -/
theorem C128_value (hS : Signs isWord) (toStr : Int ⊕ N → List Char) {m : List (Cell N)} {v e : List Char} (hv : IsName isWord v) (hf : ∀ a, M.app v a = none)
    {b : V} (he : Reads isWord M ρ true .sum e b) {res : List (List Char)} (h : varReplace isWord toStr m v e = .ok res) (i : ℕ) {c : Cell N} {a : V}
    (hc : m[i]? = some c) (ha : Reads isWord M (bind ρ v b) true .sum (cellText toStr c) a) :
    ∃ s, res[i]? = some s ∧ Reads isWord M ρ true .sum s a ∧ ∀ a', Reads isWord M ρ true .sum s a' → a' = a := by
  obtain ⟨-, rfl⟩ := replace_eq toStr hv h
  refine ⟨_, by rw [List.getElem?_map, hc]; rfl, ?_⟩
  have h1 := reads_substitute hS hv hf he (reads_noBlanks hS ha)
  exact ⟨h1, fun a' h' => reads_unique hS h' h1⟩

/-- **C128** (renaming).  Replacing the name `v` by a name `u` that has the value of `v` keeps all values. -/
theorem C128_rename (hS : Signs isWord) (toStr : Int ⊕ N → List Char) {m : List (Cell N)} {v u : List Char} (hv : IsName isWord v) (hu : IsName isWord u)
    (hf : ∀ a, M.app v a = none) {b : V} (hv' : ρ v = some b) (hu' : ρ u = some b) {res : List (List Char)} (h : varReplace isWord toStr m v u = .ok res) (i : ℕ) {c : Cell N} {a : V}
    (hc : m[i]? = some c) (ha : Reads isWord M ρ true .sum (cellText toStr c) a) :
    ∃ s, res[i]? = some s ∧ Reads isWord M ρ true .sum s a ∧ ∀ a', Reads isWord M ρ true .sum s a' → a' = a := by
  refine C128_value hS toStr hv hf (.ofProd (.ofUnary (.ofPower (.ofAtom (.name hu hu'))))) h i hc ?_
  have : bind ρ v b = ρ := by
    funext x
    unfold bind
    split_ifs with hx
    · rw [hx, hv']
    · rfl
  rwa [this]

/-- The brackets occur in no formula. -/
private theorem no_brackets (hS : Signs isWord) {l : Level} {s : List Char} {a : V} (h : Reads isWord M ρ true l s a) : ∀ c ∈ s, c ≠ '[' ∧ c ≠ ']' := by
  have sg : ∀ c, c ∈ ['[', ']'] → isWord c = false := fun c hc => hS c (by simp only [List.mem_cons] at hc ⊢; tauto)
  have nm : ∀ x, IsName isWord x → ∀ c ∈ x, c ≠ '[' ∧ c ≠ ']' := by
    intro x hx c hc
    have := hx.2.1 c hc
    constructor <;> rintro rfl <;> rw [sg _ (by simp)] at this <;> cases this
  induction h with
  | name h1 _ => exact nm _ h1
  | num h1 _ =>
    intro c hc
    have := h1.2 c hc
    constructor <;> rintro rfl <;> revert this <;> decide
  | paren _ ih =>
    intro c hc
    simp only [List.mem_cons, List.mem_append, List.not_mem_nil, or_false] at hc
    rcases hc with rfl | hc | rfl
    · decide
    · exact ih c hc
    · decide
  | call h1 _ _ ih =>
    intro c hc
    simp only [List.mem_cons, List.mem_append, List.not_mem_nil, or_false] at hc
    rcases hc with hc | rfl | hc | rfl
    · exact nm _ h1 c hc
    · decide
    · exact ih c hc
    · decide
  | pow _ _ _ ih1 ih2 =>
    intro c hc
    simp only [List.mem_cons, List.mem_append] at hc
    rcases hc with hc | rfl | rfl | hc
    · exact ih1 c hc
    · decide
    · decide
    · exact ih2 c hc
  | mul _ _ _ ih1 ih2 | div _ _ _ ih1 ih2 | add _ _ _ ih1 ih2 | sub _ _ _ ih1 ih2 =>
    intro c hc
    simp only [List.mem_cons, List.mem_append] at hc
    rcases hc with hc | rfl | hc
    · exact ih1 c hc
    · decide
    · exact ih2 c hc
  | neg _ _ ih | before _ _ ih =>
    intro c hc
    rcases List.mem_cons.1 hc with rfl | hc
    · decide
    · exact ih c hc
  | after _ _ ih =>
    intro c hc
    simp only [List.mem_append, List.mem_singleton] at hc
    rcases hc with hc | rfl
    · exact ih c hc
    · decide
  | ofAtom _ ih | ofPower _ ih | ofUnary _ ih | ofProd _ ih => exact ih

/-- **C128** (replace, then evaluate).  An evaluator that gives every formula its value makes `from_formula_mat` show, for the matrix returned by `var_replace`, the
functions that the old formulas show when the variable stands for the value of the new expression. -/
theorem C128_evaluate (hS : Signs isWord) (toStr : Int ⊕ N → List Char) {m : List (Cell N)} {v e : List Char} (hv : IsName isWord v)
    {M : Meaning MV.Cell} {ρ : List Char → Option MV.Cell} (hf : ∀ a, M.app v a = none) {b : MV.Cell} (he : Reads isWord M ρ true .sum e b)
    (ev : List Char → Py (List (List MV.Cell))) (hev : ∀ s x, Reads isWord M ρ true .sum s x → ev (['[', '['] ++ s ++ [']', ']']) = .ok [[x]])
    (other : ℕ → List (List MV.Cell) → Py MV.Arr3) {res : List (List Char)} (h : varReplace isWord toStr m v e = .ok res) {r k : ℕ} (hk : m.length = r * k)
    (t : List ℝ) (F : ℕ → ℕ → ℝ → ℝ)
    (hF : ∀ i j c, i < r → j < k → m[i * k + j]? = some c → ∃ a, Reads isWord M (bind ρ v b) true .sum (cellText toStr c) a ∧ a.Shows t (F i j)) :
    ∃ A, MV.fromFormulaMat ev other r k (fun i j => res.getD (i * k + j) []) t.length = .ok A ∧ A.Is r k t.length (fun i j q => F i j (t.getD q 0)) := by
  refine MV.C78_formula_partial ev other r k _ t F fun i j hi hj => ?_
  have hlt : i * k + j < m.length := by
    rw [hk]
    have := Nat.mul_le_mul_right k (Nat.succ_le_of_lt hi)
    rw [Nat.succ_mul] at this
    omega
  have hc := List.getElem?_eq_getElem hlt
  obtain ⟨a, ha, hs⟩ := hF i j _ hi hj hc
  obtain ⟨s, h1, h2, -⟩ := C128_value hS toStr hv hf he h _ hc ha
  have hnb := no_brackets hS h2
  have hne : s ≠ [] := by
    rintro rfl
    obtain ⟨c, u, h, -⟩ := reads_start (reads_noBlanks hS h2)
    cases h
  refine ⟨['[', '['] ++ s ++ [']', ']'], a, ?_, hev _ _ h2, hs⟩
  show MV.addBrackets (res.getD (i * k + j) []) = _
  rw [List.getD_eq_getElem?_getD, h1]
  exact MV.C78_brackets_none s hne (fun h => (hnb _ (List.mem_of_mem_head? h)).1 rfl) (fun h => (hnb _ (List.mem_of_getLast? h)).2 rfl)

/-! ### Several replacements -/

private theorem map_flatten_of_not {v e : List Char} {ts : List (List Char)} (h : v ∉ ts) :
    ts.map (fun t => if t = v then '(' :: e ++ [')'] else t) = ts := by
  conv_rhs => rw [← List.map_id ts]
  refine List.map_congr_left fun t ht => ?_
  rw [if_neg (fun (h' : t = v) => h (h' ▸ ht))]; rfl

/-- Two substitutions one after the other, piece by piece. -/
private theorem substitute_twice (hS : Signs isWord) {v e u f s : List Char} (hv : IsName isWord v) (hu : IsName isWord u) :
    substitute isWord u f (substitute isWord v e s) =
      ((tokens isWord s).map fun t => if t = v then '(' :: substitute isWord u f e ++ [')'] else if t = u then '(' :: f ++ [')'] else t).flatten := by
  have hl : isWord '(' = false := hS _ (by simp)
  have hr : isWord ')' = false := hS _ (by simp)
  have hup : ¬ ['('] = u := by rintro rfl; have := hu.2.1 '(' (by simp); rw [hl] at this; cases this
  have hup' : ¬ [')'] = u := by rintro rfl; have := hu.2.1 ')' (by simp); rw [hr] at this; cases this
  conv_lhs => unfold substitute
  rw [show ((tokens isWord s).map (fun t => if t = v then '(' :: e ++ [')'] else t)).flatten = substitute isWord v e s from rfl, tokens_substitute hl hr v e s hv.1 hv.2.1,
    List.map_flatten, List.map_map, List.flatten_flatten, List.map_map]
  congr 1
  refine List.map_congr_left fun t _ => ?_
  simp only [Function.comp_apply]
  by_cases ht : t = v
  · rw [if_pos ht, if_pos ht]
    simp [substitute, hup, hup']
  · rw [if_neg ht, if_neg ht]
    simp

private theorem noBlanks_substitute (hS : Signs isWord) {v e s : List Char} (hs : ∀ c ∈ s, c ≠ ' ') :
    noBlanks (substitute isWord v e s) = substitute isWord v (noBlanks e) s := by
  unfold substitute noBlanks
  rw [List.filter_flatten, List.map_map]
  congr 1
  refine List.map_congr_left fun t ht => ?_
  simp only [Function.comp_apply]
  split_ifs with h
  · simp
  · exact noBlanks_id fun c hc => hs c (mem_tokens_mem ht hc)

private theorem blankfree (s : List Char) : ∀ c ∈ noBlanks s, c ≠ ' ' := by
  intro c hc
  simpa using (List.mem_filter.1 hc).2

/-- **C128** (a replacement inside a replacement).  If no cell mentions `u`, replacing first `v` by `e` and then `u` by `f` is replacing `v` by the text that `e` becomes when `u` is
replaced by `f`. -/
theorem C128_compose (hS : Signs isWord) (toStr : Int ⊕ N → List Char) {m : List (Cell N)} {v e u f e' : List Char} (hv : IsName isWord v) (hu : IsName isWord u)
    (hno : ∀ c ∈ m, ¬ HasWord isWord u (noBlanks (cellText toStr c))) {r1 r2 : List (List Char)} (h1 : varReplace isWord toStr m v e = .ok r1)
    (h2 : varReplace isWord toStr (r1.map .str) u f = .ok r2) (he : varReplace isWord toStr [.str e] u f = .ok [e']) :
    varReplace isWord toStr m v e' = .ok r2 := by
  obtain ⟨hm, rfl⟩ := replace_eq toStr hv h1
  obtain ⟨-, rfl⟩ := replace_eq toStr hu h2
  obtain ⟨-, he⟩ := replace_eq toStr hu he
  obtain rfl : e' = substitute isWord u f (noBlanks e) := by simpa [cellText] using he
  rw [(C12_var_replace toStr m v _ hv.1 hv.2.1).2 hm, List.map_map, List.map_map]
  congr 1
  refine List.map_congr_left fun c hc => ?_
  simp only [Function.comp_apply, cellText]
  rw [noBlanks_substitute hS (blankfree _), substitute_twice hS hv hu]
  unfold substitute
  congr 1
  refine List.map_congr_left fun t ht => ?_
  split_ifs with h3 h4
  · rfl
  · subst h4
    exact absurd ((hasWord_iff hu.1 hu.2.1).2 ht) (hno c hc)
  · rfl

/-- **C128** (order).  Two replacements of different names by texts without blanks, neither of which mentions the other name, may be done in either order. -/
theorem C128_commute (hS : Signs isWord) (toStr : Int ⊕ N → List Char) {m : List (Cell N)} {v e u f : List Char} (hv : IsName isWord v) (hu : IsName isWord u) (huv : u ≠ v)
    (he : ∀ c ∈ e, c ≠ ' ') (hf : ∀ c ∈ f, c ≠ ' ') (hue : ¬ HasWord isWord u e) (hvf : ¬ HasWord isWord v f) {r1 r2 r1' r2' : List (List Char)}
    (h1 : varReplace isWord toStr m v e = .ok r1) (h2 : varReplace isWord toStr (r1.map .str) u f = .ok r2)
    (h1' : varReplace isWord toStr m u f = .ok r1') (h2' : varReplace isWord toStr (r1'.map .str) v e = .ok r2') : r2 = r2' := by
  obtain ⟨hm, rfl⟩ := replace_eq toStr hv h1
  obtain ⟨-, rfl⟩ := replace_eq toStr hu h2
  obtain ⟨-, rfl⟩ := replace_eq toStr hu h1'
  obtain ⟨-, rfl⟩ := replace_eq toStr hv h2'
  rw [List.map_map, List.map_map, List.map_map, List.map_map]
  refine List.map_congr_left fun c _ => ?_
  simp only [Function.comp_apply, cellText]
  rw [noBlanks_substitute hS (blankfree _), noBlanks_substitute hS (blankfree _), noBlanks_id he, noBlanks_id hf, substitute_twice hS hv hu, substitute_twice hS hu hv]
  rw [hasWord_iff hu.1 hu.2.1] at hue
  rw [hasWord_iff hv.1 hv.2.1] at hvf
  congr 1
  refine List.map_congr_left fun t _ => ?_
  rw [substitute_of_not hue, substitute_of_not hvf]
  by_cases h3 : t = v
  · subst h3
    rw [if_pos rfl, if_neg (Ne.symm huv), if_pos rfl]
  · rw [if_neg h3, if_neg h3]

/-- **C128** (once is enough).  If the new text does not mention the variable, a second call changes nothing but the blanks of the new text. -/
theorem C128_again (hS : Signs isWord) (toStr : Int ⊕ N → List Char) {m : List (Cell N)} {v e : List Char} (hv : IsName isWord v) (hve : ¬ HasWord isWord v (noBlanks e))
    {r1 : List (List Char)} (h1 : varReplace isWord toStr m v e = .ok r1) : varReplace isWord toStr (r1.map .str) v e = .ok (r1.map noBlanks) := by
  obtain ⟨hm, rfl⟩ := replace_eq toStr hv h1
  rw [hasWord_iff hv.1 hv.2.1] at hve
  rw [(C12_var_replace toStr _ v e hv.1 hv.2.1).2 (by simpa using hm), List.map_map, List.map_map]
  congr 1
  rw [List.map_map]
  refine List.map_congr_left fun c _ => ?_
  simp only [Function.comp_apply, cellText]
  rw [noBlanks_substitute hS (blankfree _), substitute_twice hS hv hv, substitute_of_not hve]
  unfold substitute
  congr 1
  refine List.map_congr_left fun t _ => ?_
  split_ifs <;> rfl

/-! ### Concrete cases -/

/-- Arithmetic of the integers, one function `dbl`. -/
private def ints : Meaning ℤ where
  lit := fun x => if x = ['2'] then some 2 else none
  app := fun f a => if f = "dbl".toList then some (2 * a) else none
  bin := fun o a b => match o with
    | .add => some (a + b) | .sub => some (a - b) | .mul => some (a * b) | .div => none | .pow => if b = 2 then some (a ^ 2) else none
  neg := fun a => some (-a)

private def env : List Char → Option ℤ := fun x => if x = ['a'] then some 5 else if x = ['b'] then some 3 else none

private theorem ascii_signs : Signs asciiWord := by unfold Signs; decide

private theorem nameT : IsName asciiWord ['t'] := ⟨by simp, by decide, by decide⟩

/-- `-2 * dbl(t)**2` has the value `-32` for `t = 5 - 3`, so `-2*dbl((a-b))**2` has it too. -/
example : ∃ s, varReplace (N := Unit) asciiWord (fun _ => []) [.str "-2 * dbl(t)**2".toList] ['t'] "a-b".toList = .ok [s] ∧
    Reads asciiWord ints env true .sum s (-32) := by
  have hab : Reads asciiWord ints env true .sum "a-b".toList 2 :=
    .sub (s := ['a']) (t := ['b']) (a := 5) (b := 3) (.ofProd (.ofUnary (.ofPower (.ofAtom (.name ⟨by simp, by decide, by decide⟩ rfl)))))
      (.ofUnary (.ofPower (.ofAtom (.name ⟨by simp, by decide, by decide⟩ rfl)))) rfl
  have two : ∀ ρ : List Char → Option ℤ, Reads asciiWord ints ρ true .atom ['2'] 2 := fun ρ => .num ⟨by simp, by decide⟩ rfl
  have hs : Reads asciiWord ints (bind env ['t'] 2) true .sum "-2 * dbl(t)**2".toList (-32) := by
    refine .ofProd (.mul (s := "-2 ".toList) (t := " dbl(t)**2".toList) (a := -2) (b := 16) (.ofUnary (.after rfl (s := "-2".toList) (.neg (.ofPower (.ofAtom (two _))) rfl))) ?_ (by decide))
    refine .before rfl (.ofPower (.pow (s := "dbl(t)".toList) (t := ['2']) (a := 4) (b := 2) ?_ (.ofPower (.ofAtom (two _))) (by decide)))
    exact .call (f := "dbl".toList) (s := ['t']) (a := 2) ⟨by simp, by decide, by decide⟩ (.ofProd (.ofUnary (.ofPower (.ofAtom (.name nameT (by decide)))))) (by decide)
  obtain ⟨s, h1, h2, -⟩ := C128_value (N := Unit) (m := [.str "-2 * dbl(t)**2".toList]) ascii_signs (fun _ => []) nameT (M := ints) (fun a => rfl) hab
    (res := ["-2*dbl((a-b))**2".toList]) (by decide) 0 rfl hs
  refine ⟨"-2*dbl((a-b))**2".toList, by decide, ?_⟩
  obtain rfl : "-2*dbl((a-b))**2".toList = s := by simpa using h1
  exact h2

/-- **C128** (outside the grammar).  The blanks are removed everywhere, also where they separate words: in a conditional expression the variable is not replaced any
more, and the text becomes a single name. -/
theorem C128_conditional : varReplace (N := Unit) asciiWord (fun _ => []) [.str "a if t else b".toList] ['t'] ['c'] = .ok ["aiftelseb".toList] ∧
    IsName asciiWord "aiftelseb".toList := ⟨by decide, by decide, by decide, by decide⟩

end Ellipy.Sym
