import Mathlib.Tactic.Tauto
import Verif.Spec.Sym

namespace Ellipy.Sym
variable {isWord : Char → Bool}

theorem wordAt_append (pre post : List Char) :
    wordAt isWord (pre ++ post) pre.length = (post.head?).any isWord := by
  unfold wordAt
  rw [List.getElem?_append_right (le_refl _), Nat.sub_self, List.head?_eq_getElem?]

theorem wordBefore_append (pre post : List Char) :
    wordBefore isWord (pre ++ post) pre.length = (pre.getLast?).any isWord := by
  cases pre using List.reverseRecOn with
  | nil => rfl
  | append_singleton pre c =>
    simp [wordBefore, wordAt]

theorem any_false_iff {o : Option Char} : o.any isWord = false ↔ ∀ c ∈ o, isWord c = false := by
  cases o <;> simp

theorem ends_lit (s v : List Char) (i : Nat) :
    ends isWord s (.lit v) i = if v <+: s.drop i then [i + v.length] else [] := by
  induction v generalizing i with
  | nil => simp [RE.lit, ends]
  | cons c v ih =>
    rw [RE.lit, ends, ends]
    rcases hs : s[i]? with _ | d
    · have : s.drop i = [] := by simpa using hs
      simp [this]
    · have hd : s.drop i = d :: s.drop (i + 1) := by
        obtain ⟨h, rfl⟩ := List.getElem?_eq_some_iff.1 hs
        exact List.drop_eq_getElem_cons h
      rw [hd]
      by_cases hc : d = c
      · subst hc
        simp [ih, List.cons_prefix_cons, Nat.add_assoc, Nat.add_comm 1]
      · simp [hc, List.cons_prefix_cons, Ne.symm hc]

open Classical in
theorem ends_word (v pre post : List Char) (hv : v ≠ []) (hw : ∀ c ∈ v, isWord c = true) :
    ends isWord (pre ++ post) (.seq .wordB (.seq (.lit v) .wordB)) pre.length =
      if (pre.getLast?).any isWord = false ∧ ∃ rest, post = v ++ rest ∧ (rest.head?).any isWord = false
      then [pre.length + v.length] else [] := by
  rw [ends, ends]
  rw [wordBefore_append, wordAt_append]
  by_cases hp : v <+: post
  · obtain ⟨rest, rfl⟩ := hp
    have h1 : ((v ++ rest).head?).any isWord = true := by
      cases v with
      | nil => simp at hv
      | cons c v => simpa using hw c List.mem_cons_self
    have h2 : ends isWord (pre ++ (v ++ rest)) (.wordB) (pre.length + v.length) =
        if (rest.head?).any isWord = false then [pre.length + v.length] else [] := by
      have hl : pre.length + v.length = (pre ++ v).length := by simp
      rw [hl, ← List.append_assoc, ends, wordBefore_append, wordAt_append]
      have : ((pre ++ v).getLast?).any isWord = true := by
        rw [List.getLast?_append_of_ne_nil _ hv, List.getLast?_eq_some_getLast hv]
        simpa using hw _ (List.getLast_mem hv)
      rw [this]
      cases (rest.head?).any isWord <;> simp
    have h3 : (∃ r, v ++ rest = v ++ r ∧ (r.head?).any isWord = false) ↔ (rest.head?).any isWord = false := by
      constructor
      · rintro ⟨r, hr, h⟩
        rwa [List.append_cancel_left hr]
      · intro h; exact ⟨rest, rfl, h⟩
    rw [h1, h3]
    cases hpre : (pre.getLast?).any isWord
    · simp [ends, ends_lit] at h2 ⊢
      simpa using h2
    · simp
  · have h3 : ¬ ∃ r, post = v ++ r ∧ (r.head?).any isWord = false := by
      rintro ⟨r, rfl, _⟩; exact hp (List.prefix_append _ _)
    rw [if_neg (c := _ ∧ _) (fun h => h3 h.2)]
    by_cases hb : (pre.getLast?).any isWord ≠ (post.head?).any isWord
    · rw [if_pos hb]; simp [ends, ends_lit, hp]
    · rw [if_neg hb]; rfl

theorem isChain_words {w : List Char} (h : w.IsChain fun x y => (isWord x && isWord y) = true) (hl : 2 ≤ w.length) :
    ∀ c ∈ w, isWord c = true := by
  induction w with
  | nil => simp
  | cons a w ih =>
    cases w with
    | nil => simp at hl
    | cons b w =>
      rw [List.isChain_cons_cons] at h
      obtain ⟨h1, h2⟩ := h
      simp only [Bool.and_eq_true] at h1
      intro c hc
      rw [List.mem_cons] at hc
      rcases hc with rfl | hc
      · exact h1.1
      · cases w with
        | nil => simp at hc; rw [hc]; exact h1.2
        | cons d w => exact ih h2 (by simp) c hc

theorem isChain_of_words {w : List Char} (h : ∀ c ∈ w, isWord c = true) :
    w.IsChain fun x y => (isWord x && isWord y) = true := by
  induction w with
  | nil => simp
  | cons a w ih =>
    cases w with
    | nil => simp
    | cons b w =>
      rw [List.isChain_cons_cons]
      exact ⟨by simp [h], ih (fun c hc => h c (List.mem_cons_of_mem _ hc))⟩

theorem tokens_append {a b : List Char}
    (h : (∀ c ∈ a.getLast?, isWord c = false) ∨ ∀ c ∈ b.head?, isWord c = false) :
    tokens isWord (a ++ b) = tokens isWord a ++ tokens isWord b := by
  apply List.splitBy_append
  intro x hx y hy
  rcases h with h | h
  · simp [h x hx]
  · simp [h y hy]

theorem tokens_word {v : List Char} (hv : v ≠ []) (hw : ∀ c ∈ v, isWord c = true) : tokens isWord v = [v] :=
  List.splitBy_of_isChain hv (isChain_of_words hw)

theorem tokens_flatten (s : List Char) : (tokens isWord s).flatten = s := List.flatten_splitBy _ _

/-- A word is a token exactly when it occurs as a whole word. -/
theorem hasWord_iff {v s : List Char} (hv : v ≠ []) (hw : ∀ c ∈ v, isWord c = true) :
    HasWord isWord v s ↔ v ∈ tokens isWord s := by
  constructor
  · rintro ⟨pre, post, rfl, h1, h2⟩
    rw [tokens_append (.inr h2), tokens_append (.inl h1), tokens_word hv hw]
    simp
  · intro h
    obtain ⟨l1, l2, hl⟩ := List.append_of_mem h
    have hc := List.isChain_getLast_head_splitBy (fun a b => isWord a && isWord b) s
    change (tokens isWord s).IsChain _ at hc
    have hn := List.nil_notMem_splitBy (fun a b => isWord a && isWord b) s
    change [] ∉ tokens isWord s at hn
    rw [hl] at hc hn
    refine ⟨l1.flatten, l2.flatten, ?_, ?_, ?_⟩
    · rw [← tokens_flatten (isWord := isWord) s, hl]; simp
    · intro c hc1
      cases l1 using List.reverseRecOn with
      | nil => simp at hc1
      | append_singleton l1 w =>
        rw [List.isChain_append] at hc
        obtain ⟨ha, hb, hr⟩ := hc.2.2 w (by simp) v (by simp)
        have hne : w ≠ [] := ha
        rw [List.flatten_append, List.flatten_singleton, List.getLast?_append_of_ne_nil _ hne,
          List.getLast?_eq_some_getLast hne] at hc1
        simp only [Option.mem_def, Option.some.injEq] at hc1
        rw [hc1, hw _ (List.head_mem hv)] at hr
        simpa using hr
    · intro c hc1
      cases l2 with
      | nil => simp at hc1
      | cons w l2 =>
        rw [List.isChain_append, List.isChain_cons_cons] at hc
        obtain ⟨ha, hb, hr⟩ := hc.2.1.1
        rw [List.flatten_cons] at hc1
        have hne : w ≠ [] := hb
        rw [List.head?_append_of_ne_nil _ hne, List.head?_eq_some_head hne] at hc1
        simp only [Option.mem_def, Option.some.injEq] at hc1
        rw [hc1, hw _ (List.getLast_mem hv)] at hr
        simpa using hr

theorem searchFound_iff (r : RE) (s : List Char) :
    searchFound isWord r s = true ↔ ∃ i ≤ s.length, ends isWord s r i ≠ [] := by
  unfold searchFound
  simp [List.any_eq_true, Nat.lt_succ_iff]

/-- One step of the substitution loop, in context form. -/
theorem subLoop_step (v repl pre : List Char) (c : Char) (post : List Char) (hv : v ≠ [])
    (hw : ∀ c ∈ v, isWord c = true) (fuel : Nat)
    (hno : ¬ ((pre.getLast?).any isWord = false ∧ ∃ rest, c :: post = v ++ rest ∧ (rest.head?).any isWord = false)) :
    subLoop isWord (.seq .wordB (.seq (.lit v) .wordB)) repl (pre ++ c :: post) (fuel + 1) pre.length =
      c :: subLoop isWord (.seq .wordB (.seq (.lit v) .wordB)) repl ((pre ++ [c]) ++ post) fuel (pre ++ [c]).length := by
  rw [subLoop, ends_word v pre (c :: post) hv hw, if_neg hno]
  simp

theorem subLoop_hit (v repl pre rest : List Char) (hv : v ≠ []) (hw : ∀ c ∈ v, isWord c = true) (fuel : Nat)
    (h1 : (pre.getLast?).any isWord = false) (h2 : (rest.head?).any isWord = false) :
    subLoop isWord (.seq .wordB (.seq (.lit v) .wordB)) repl (pre ++ (v ++ rest)) (fuel + 1) pre.length =
      repl ++ subLoop isWord (.seq .wordB (.seq (.lit v) .wordB)) repl ((pre ++ v) ++ rest) fuel (pre ++ v).length := by
  rw [subLoop, ends_word v pre (v ++ rest) hv hw, if_pos ⟨h1, rest, rfl, h2⟩]
  cases v with
  | nil => simp at hv
  | cons c v => simp

/-- Inside a word nothing is replaced. -/
theorem subLoop_inside (v repl : List Char) (hv : v ≠ []) (hw : ∀ c ∈ v, isWord c = true) :
    ∀ (w pre rest : List Char) (fuel : Nat) (_ : (pre.getLast?).any isWord = true) (_ : ∀ c ∈ w, isWord c = true),
    subLoop isWord (.seq .wordB (.seq (.lit v) .wordB)) repl (pre ++ (w ++ rest)) (fuel + w.length) pre.length =
      w ++ subLoop isWord (.seq .wordB (.seq (.lit v) .wordB)) repl ((pre ++ w) ++ rest) fuel (pre ++ w).length
  | [], pre, rest, fuel, _, _ => by simp
  | c :: w, pre, rest, fuel, hpre, hww => by
    have := subLoop_step (isWord := isWord) v repl pre c (w ++ rest) hv hw (fuel + w.length) (by simp [hpre])
    rw [List.cons_append, List.length_cons, ← Nat.add_assoc, this,
      subLoop_inside v repl hv hw w (pre ++ [c]) rest fuel (by simpa using hww c List.mem_cons_self)
        (fun d hd => hww d (List.mem_cons_of_mem _ hd))]
    simp

/-- Processing one token. -/
theorem subLoop_token (v repl : List Char) (hv : v ≠ []) (hw : ∀ c ∈ v, isWord c = true)
    (w pre rest : List Char) (hwn : w ≠ [])
    (hch : w.IsChain fun x y => (isWord x && isWord y) = true)
    (hpre : ∀ x ∈ pre.getLast?, (isWord x && isWord (w.head hwn)) = false)
    (hrest : ∀ x ∈ rest.head?, (isWord (w.getLast hwn) && isWord x) = false) (fuel : Nat) (hf : rest.length < fuel) :
    ∃ fuel', rest.length < fuel' ∧
    subLoop isWord (.seq .wordB (.seq (.lit v) .wordB)) repl (pre ++ (w ++ rest)) (fuel + w.length) pre.length =
      (if w = v then repl else w) ++
        subLoop isWord (.seq .wordB (.seq (.lit v) .wordB)) repl ((pre ++ w) ++ rest) fuel' (pre ++ w).length := by
  by_cases hwv : w = v
  · subst hwv
    have hp : (pre.getLast?).any isWord = false := by
      rw [any_false_iff]; intro c hc
      have := hpre c hc
      rw [hw _ (List.head_mem hwn)] at this
      simpa using this
    have hr : (rest.head?).any isWord = false := by
      rw [any_false_iff]; intro c hc
      have := hrest c hc
      rw [hw _ (List.getLast_mem hwn)] at this
      simpa using this
    obtain ⟨n, hn⟩ : ∃ n, w.length = n + 1 := ⟨w.length - 1, by have := List.length_pos_iff.2 hwn; omega⟩
    refine ⟨fuel + n, by omega, ?_⟩
    rw [if_pos rfl, hn, ← Nat.add_assoc, subLoop_hit w repl pre rest hv hw _ hp hr]
  · rw [if_neg hwv]
    refine ⟨fuel, hf, ?_⟩
    obtain ⟨c, w', rfl⟩ := List.exists_cons_of_ne_nil hwn
    have hno : ¬ ((pre.getLast?).any isWord = false ∧
        ∃ r, c :: (w' ++ rest) = v ++ r ∧ (r.head?).any isWord = false) := by
      rintro ⟨_, r, hr, hrh⟩
      have hcw : isWord c = true := by
        cases v with
        | nil => simp at hv
        | cons d v => simp at hr; rw [hr.1]; exact hw d List.mem_cons_self
      -- all characters of the token are word characters
      have hall : ∀ d ∈ c :: w', isWord d = true := by
        cases w' with
        | nil => simpa using hcw
        | cons e w' => exact isChain_words hch (by simp)
      rw [← List.cons_append] at hr
      rcases List.append_eq_append_iff.1 hr with ⟨a, ha, hb⟩ | ⟨a, ha, hb⟩
      · -- v = token ++ a, rest = a ++ r
        cases a with
        | nil => exact hwv (by simpa using ha.symm)
        | cons e a =>
          have h1 := hrest e (by rw [hb]; rfl)
          have h2 := hw e (by rw [ha]; simp)
          rw [h2, hall _ (List.getLast_mem _)] at h1
          simp at h1
      · -- token = v ++ a, r = a ++ rest
        cases a with
        | nil => exact hwv (by simpa using ha)
        | cons e a =>
          rw [hb] at hrh
          have h2 := hall e (by rw [ha]; simp)
          simp [h2] at hrh
    have h1 := subLoop_step (isWord := isWord) v repl pre c (w' ++ rest) hv hw (fuel + w'.length) hno
    rw [List.cons_append, List.length_cons, ← Nat.add_assoc, h1]
    cases w' with
    | nil => simp
    | cons e w' =>
      have hall : ∀ d ∈ c :: e :: w', isWord d = true := isChain_words hch (by simp)
      rw [subLoop_inside v repl hv hw (e :: w') (pre ++ [c]) rest fuel (by simpa using hall c (by simp))
        (fun d hd => hall d (List.mem_cons_of_mem _ hd))]
      simp

theorem subLoop_tokens (v repl : List Char) (hv : v ≠ []) (hw : ∀ c ∈ v, isWord c = true) :
    ∀ (ts : List (List Char)) (pre : List Char) (fuel : Nat) (_ : [] ∉ ts)
    (_ : ∀ t ∈ ts, t.IsChain fun x y => (isWord x && isWord y) = true)
    (_ : ts.IsChain fun a b => ∃ ha hb, (isWord (a.getLast ha) && isWord (b.head hb)) = false)
    (_ : ∀ x ∈ pre.getLast?, ∀ t ∈ ts.head?, ∀ ht : t ≠ [], (isWord x && isWord (t.head ht)) = false)
    (_ : ts.flatten.length < fuel),
    subLoop isWord (.seq .wordB (.seq (.lit v) .wordB)) repl (pre ++ ts.flatten) fuel pre.length =
      (ts.map (fun t => if t = v then repl else t)).flatten
  | [], pre, fuel, _, _, _, _, hf => by
    cases fuel with
    | zero => simp at hf
    | succ n => simp [subLoop]
  | w :: ts, pre, fuel, hn, hch, hcc, hpre, hf => by
    have hwn : w ≠ [] := fun h => hn (by simp [h])
    have hn' : [] ∉ ts := fun h => hn (List.mem_cons_of_mem _ h)
    rw [List.isChain_cons] at hcc
    rw [List.flatten_cons, List.length_append] at hf
    obtain ⟨f0, rfl⟩ : ∃ f0, fuel = f0 + w.length := ⟨fuel - w.length, by omega⟩
    have hrest : ∀ x ∈ ts.flatten.head?, (isWord (w.getLast hwn) && isWord x) = false := by
      intro x hx
      cases ts with
      | nil => simp at hx
      | cons u ts =>
        have hu : u ≠ [] := fun h => hn' (by simp [h])
        obtain ⟨_, _, h⟩ := hcc.1 u rfl
        rw [List.flatten_cons, List.head?_append_of_ne_nil _ hu, List.head?_eq_some_head hu] at hx
        simp only [Option.mem_def, Option.some.injEq] at hx
        rw [← hx]; exact h
    obtain ⟨f', hf', he⟩ := subLoop_token (isWord := isWord) v repl hv hw w pre ts.flatten hwn
      (hch w List.mem_cons_self) (fun x hx => hpre x hx w rfl hwn) hrest f0 (by omega)
    rw [List.flatten_cons, he, List.map_cons, List.flatten_cons,
      subLoop_tokens v repl hv hw ts (pre ++ w) f' hn' (fun t ht => hch t (List.mem_cons_of_mem _ ht)) hcc.2 ?_ hf']
    intro x hx t ht htn
    obtain ⟨_, _, h⟩ := hcc.1 t ht
    rw [List.getLast?_append_of_ne_nil _ hwn, List.getLast?_eq_some_getLast hwn] at hx
    simp only [Option.mem_def, Option.some.injEq] at hx
    rw [← hx]; exact h

theorem reSub_eq (v e s : List Char) (hv : v ≠ []) (hw : ∀ c ∈ v, isWord c = true) :
    reSub isWord (.seq .wordB (.seq (.lit v) .wordB)) ('(' :: e ++ [')']) s = substitute isWord v e s := by
  unfold reSub substitute
  have h := subLoop_tokens (isWord := isWord) v ('(' :: e ++ [')']) hv hw (tokens isWord s) [] (s.length + 1)
    (List.nil_notMem_splitBy _ _) (fun t ht => List.isChain_of_mem_splitBy ht)
    (List.isChain_getLast_head_splitBy (fun a b => isWord a && isWord b) s) (by simp) (by rw [tokens_flatten]; omega)
  rw [tokens_flatten] at h
  simpa using h

/-- Words of a parenthesised text. -/
theorem tokens_paren (hl : isWord '(' = false) (hr : isWord ')' = false) (e : List Char) :
    tokens isWord ('(' :: e ++ [')']) = ['('] :: (tokens isWord e ++ [[')']]) := by
  have h1 : tokens isWord ['('] = [['(']] := List.splitBy_of_isChain (by simp) (by simp)
  have h2 : tokens isWord [')'] = [[')']] := List.splitBy_of_isChain (by simp) (by simp)
  have : '(' :: e ++ [')'] = ['('] ++ (e ++ [')']) := by simp
  rw [this, tokens_append (.inl (by simpa using hl)), tokens_append (.inr (by simpa using hr)), h1, h2]
  simp

/-- Tokens of the substituted text. -/
theorem tokens_substitute (hl : isWord '(' = false) (hr : isWord ')' = false) (v e s : List Char) (hv : v ≠ [])
    (hw : ∀ c ∈ v, isWord c = true) :
    tokens isWord (substitute isWord v e s) =
      ((tokens isWord s).map (fun t => if t = v then ['('] :: (tokens isWord e ++ [[')']]) else [t])).flatten := by
  unfold substitute
  have hn := List.nil_notMem_splitBy (fun a b => isWord a && isWord b) s
  have hc := fun t => List.isChain_of_mem_splitBy (r := fun a b => isWord a && isWord b) (l := s) (m := t)
  have hcc := List.isChain_getLast_head_splitBy (fun a b => isWord a && isWord b) s
  change [] ∉ tokens isWord s at hn
  change ∀ t, t ∈ tokens isWord s → _ at hc
  change (tokens isWord s).IsChain _ at hcc
  generalize tokens isWord s = ts at hn hc hcc
  induction ts with
  | nil => rfl
  | cons w ts ih =>
    have hwn : w ≠ [] := fun h => hn (by simp [h])
    rw [List.isChain_cons] at hcc
    have ih' := ih (fun h => hn (List.mem_cons_of_mem _ h)) (fun t ht => hc t (List.mem_cons_of_mem _ ht)) hcc.2
    rw [List.map_cons, List.flatten_cons, List.map_cons, List.flatten_cons]
    by_cases hwv : w = v
    · rw [if_pos hwv, if_pos hwv, tokens_append, ih', tokens_paren hl hr]
      left; intro c hc
      rw [List.getLast?_append_of_ne_nil _ (by simp)] at hc
      simp at hc; rw [← hc]; exact hr
    · rw [if_neg hwv, if_neg hwv]
      have h1 : tokens isWord w = [w] := List.splitBy_of_isChain hwn (hc w List.mem_cons_self)
      rw [← h1, ← ih']
      apply List.splitBy_append
      intro x hx y hy
      rw [List.getLast?_eq_some_getLast hwn] at hx
      simp only [Option.mem_def, Option.some.injEq] at hx
      subst hx
      cases ts with
      | nil => simp at hy
      | cons u ts =>
        have hu : u ≠ [] := fun h => hn (by simp [h])
        obtain ⟨_, _, h⟩ := hcc.1 u rfl
        rw [List.map_cons, List.flatten_cons] at hy
        by_cases huv : u = v
        · rw [if_pos huv] at hy
          simp at hy
          rw [← hy, hl, Bool.and_false]
        · rw [if_neg huv, List.head?_append_of_ne_nil _ hu, List.head?_eq_some_head hu] at hy
          simp only [Option.mem_def, Option.some.injEq] at hy
          rw [← hy]; exact h

/-- Which words the substituted text contains. -/
theorem hasWord_substitute (hl : isWord '(' = false) (hr : isWord ')' = false) {u v e s : List Char}
    (hv : v ≠ []) (hw : ∀ c ∈ v, isWord c = true) (hu : u ≠ []) (hwu : ∀ c ∈ u, isWord c = true) :
    HasWord isWord u (substitute isWord v e s) ↔
      (u ≠ v ∧ HasWord isWord u s) ∨ (HasWord isWord v s ∧ HasWord isWord u e) := by
  rw [hasWord_iff hu hwu, hasWord_iff hu hwu, hasWord_iff hv hw, hasWord_iff hu hwu, tokens_substitute hl hr v e s hv hw]
  have hup : u ≠ ['('] := by rintro rfl; simp [hl] at hwu
  have huq : u ≠ [')'] := by rintro rfl; simp [hr] at hwu
  simp only [List.mem_flatten, List.mem_map]
  constructor
  · rintro ⟨l, ⟨t, ht, rfl⟩, hm⟩
    by_cases htv : t = v
    · subst htv
      rw [if_pos rfl] at hm
      simp [hup, huq] at hm
      exact .inr ⟨ht, hm⟩
    · rw [if_neg htv] at hm
      simp at hm; subst hm
      exact .inl ⟨htv, ht⟩
  · rintro (⟨h1, h2⟩ | ⟨h1, h2⟩)
    · exact ⟨_, ⟨u, h2, rfl⟩, by rw [if_neg h1]; simp⟩
    · exact ⟨_, ⟨v, h1, rfl⟩, by rw [if_pos rfl]; simp [h2]⟩

end Ellipy.Sym
