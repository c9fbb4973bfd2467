import Verif.Proofs.Sym
import Verif.Spec.Formula

/-! Lemmas about the reading of formulas: blanks do not matter, a text has at most one value. -/

namespace Ellipy.Sym
variable {isWord : Char → Bool} {V : Type} {M : Meaning V} {ρ : List Char → Option V}

theorem Signs.not {isWord : Char → Bool} (h : Signs isWord) {c : Char} (hc : c ∈ ['(', ')', '+', '-', '*', '/', '.', ' ', '[', ']']) : isWord c = false := h c hc

theorem noBlanks_append (s t : List Char) : noBlanks (s ++ t) = noBlanks s ++ noBlanks t := by simp [noBlanks]

theorem noBlanks_cons {c : Char} (hc : c ≠ ' ') (s : List Char) : noBlanks (c :: s) = c :: noBlanks s := by simp [noBlanks, hc]

theorem noBlanks_id {s : List Char} (h : ∀ c ∈ s, c ≠ ' ') : noBlanks s = s := by
  unfold noBlanks
  rw [List.filter_eq_self]
  intro c hc
  simpa using h c hc

theorem name_noBlanks (hS : Signs isWord) {x : List Char} (h : IsName isWord x) : noBlanks x = x := by
  refine noBlanks_id fun c hc he => ?_
  subst he
  have := h.2.1 _ hc
  rw [hS ' ' (by simp)] at this
  cases this

theorem num_noBlanks {x : List Char} (h : IsNum x) : noBlanks x = x := by
  refine noBlanks_id fun c hc he => ?_
  subst he
  rcases h.2 _ hc with h | h <;> revert h <;> decide

/-- Removing the blanks keeps the value. -/
theorem reads_noBlanks (hS : Signs isWord) {bl : Bool} {l : Level} {s : List Char} {a : V} (h : Reads isWord M ρ bl l s a) :
    Reads isWord M ρ false l (noBlanks s) a := by
  induction h with
  | name h1 h2 => rw [name_noBlanks hS h1]; exact .name h1 h2
  | num h1 h2 => rw [num_noBlanks h1]; exact .num h1 h2
  | paren _ ih =>
    rw [noBlanks_cons (by decide), noBlanks_append]
    exact .paren ih
  | call h1 _ h3 ih =>
    rw [noBlanks_append, noBlanks_cons (by decide), noBlanks_append, name_noBlanks hS h1]
    exact .call h1 ih h3
  | pow _ _ h ih1 ih2 =>
    rw [noBlanks_append, noBlanks_cons (by decide), noBlanks_cons (by decide)]
    exact .pow ih1 ih2 h
  | neg _ h ih => rw [noBlanks_cons (by decide)]; exact .neg ih h
  | mul _ _ h ih1 ih2 => rw [noBlanks_append, noBlanks_cons (by decide)]; exact .mul ih1 ih2 h
  | div _ _ h ih1 ih2 => rw [noBlanks_append, noBlanks_cons (by decide)]; exact .div ih1 ih2 h
  | add _ _ h ih1 ih2 => rw [noBlanks_append, noBlanks_cons (by decide)]; exact .add ih1 ih2 h
  | sub _ _ h ih1 ih2 => rw [noBlanks_append, noBlanks_cons (by decide)]; exact .sub ih1 ih2 h
  | ofAtom _ ih => exact .ofAtom ih
  | ofPower _ ih => exact .ofPower ih
  | ofUnary _ ih => exact .ofUnary ih
  | ofProd _ ih => exact .ofProd ih
  | before _ _ ih => simpa [noBlanks] using ih
  | after _ _ ih => simpa [noBlanks] using ih

/-- A text without blanks may be read as one with. -/
theorem reads_mono {bl : Bool} {l : Level} {s : List Char} {a : V} (h : Reads isWord M ρ false l s a) : Reads isWord M ρ bl l s a := by
  induction h with
  | name h1 h2 => exact .name h1 h2
  | num h1 h2 => exact .num h1 h2
  | paren _ ih => exact .paren ih
  | call h1 _ h3 ih => exact .call h1 ih h3
  | pow _ _ h ih1 ih2 => exact .pow ih1 ih2 h
  | neg _ h ih => exact .neg ih h
  | mul _ _ h ih1 ih2 => exact .mul ih1 ih2 h
  | div _ _ h ih1 ih2 => exact .div ih1 ih2 h
  | add _ _ h ih1 ih2 => exact .add ih1 ih2 h
  | sub _ _ h ih1 ih2 => exact .sub ih1 ih2 h
  | ofAtom _ ih => exact .ofAtom ih
  | ofPower _ ih => exact .ofPower ih
  | ofUnary _ ih => exact .ofUnary ih
  | ofProd _ ih => exact .ofProd ih
  | before h _ _ => cases h
  | after h _ _ => cases h

/-! ### Substitution -/

theorem substitute_append {v e a b : List Char} (h : (∀ c ∈ a.getLast?, isWord c = false) ∨ ∀ c ∈ b.head?, isWord c = false) :
    substitute isWord v e (a ++ b) = substitute isWord v e a ++ substitute isWord v e b := by
  unfold substitute
  rw [tokens_append h, List.map_append, List.flatten_append]

theorem substitute_char {v e : List Char} (hw : ∀ c ∈ v, isWord c = true) {c : Char} (hc : isWord c = false) : substitute isWord v e [c] = [c] := by
  have h1 : tokens isWord [c] = [[c]] := List.splitBy_of_isChain (by simp) (by simp)
  unfold substitute
  rw [h1]
  have : ([c] : List Char) ≠ v := by
    rintro rfl
    have := hw c (by simp)
    rw [hc] at this; cases this
  simp [this]

theorem substitute_cons {v e : List Char} (hw : ∀ c ∈ v, isWord c = true) {c : Char} (hc : isWord c = false) (s : List Char) :
    substitute isWord v e (c :: s) = c :: substitute isWord v e s := by
  rw [show c :: s = [c] ++ s from rfl, substitute_append (.inl (by simpa using hc)), substitute_char hw hc]
  rfl

theorem substitute_mid {v e : List Char} (hw : ∀ c ∈ v, isWord c = true) {c : Char} (hc : isWord c = false) (s t : List Char) :
    substitute isWord v e (s ++ c :: t) = substitute isWord v e s ++ c :: substitute isWord v e t := by
  rw [substitute_append (.inr (by simpa using hc)), substitute_cons hw hc]

theorem substitute_snoc {v e : List Char} (hw : ∀ c ∈ v, isWord c = true) {c : Char} (hc : isWord c = false) (s : List Char) :
    substitute isWord v e (s ++ [c]) = substitute isWord v e s ++ [c] := by
  rw [substitute_append (.inr (by simpa using hc)), substitute_char hw hc]

theorem substitute_of_not {v e s : List Char} (h : v ∉ tokens isWord s) : substitute isWord v e s = s := by
  unfold substitute
  conv_rhs => rw [← tokens_flatten (isWord := isWord) s]
  congr 1
  conv_rhs => rw [← List.map_id (tokens isWord s)]
  refine List.map_congr_left fun t ht => ?_
  rw [if_neg (fun (h' : t = v) => h (h' ▸ ht))]; rfl

theorem mem_tokens_mem {s t : List Char} (h : t ∈ tokens isWord s) {c : Char} (hc : c ∈ t) : c ∈ s := by
  rw [← tokens_flatten (isWord := isWord) s]
  exact List.mem_flatten.2 ⟨t, h, hc⟩

/-- Substitution in the text is substitution of the value. -/
theorem reads_substitute (hS : Signs isWord) {v e : List Char} (hv : IsName isWord v) (hf : ∀ a, M.app v a = none) {b : V}
    (he : Reads isWord M ρ true .sum e b) {l : Level} {s : List Char} {a : V} (h : Reads isWord M (bind ρ v b) false l s a) :
    Reads isWord M ρ true l (substitute isWord v e s) a := by
  have hw := hv.2.1
  have sg : ∀ {c : Char}, c ∈ ['(', ')', '+', '-', '*', '/', '.', ' ', '[', ']'] → isWord c = false := fun hc => hS _ hc
  induction h with
  | @name x c h1 h2 =>
    unfold substitute
    rw [tokens_word h1.1 h1.2.1]
    by_cases hx : x = v
    · subst hx
      simp only [bind, if_true, Option.some.injEq] at h2
      subst h2
      simpa using Reads.paren he
    · have h2 : ρ x = some c := by simpa [bind, hx] using h2
      simpa [hx] using Reads.name h1 h2
  | @num x c h1 h2 =>
    rw [substitute_of_not]
    · exact .num h1 h2
    · intro hm
      obtain ⟨d, v', rfl⟩ := List.exists_cons_of_ne_nil hv.1
      have hd := hv.2.2 d (by simp)
      rcases h1.2 d (mem_tokens_mem hm (by simp)) with h | rfl
      · rw [hd] at h; cases h
      · have := hw '.' (by simp)
        rw [sg (by simp)] at this; cases this
  | paren _ ih =>
    rw [substitute_cons hw (sg (by simp)), substitute_snoc hw (sg (by simp))]
    exact .paren ih
  | @call f s c d h1 _ h3 ih =>
    rw [substitute_mid hw (sg (by simp)), substitute_snoc hw (sg (by simp)), substitute_of_not]
    · exact .call h1 ih h3
    · rw [tokens_word h1.1 h1.2.1, List.mem_singleton]
      rintro rfl
      rw [hf] at h3; cases h3
  | pow _ _ h ih1 ih2 =>
    rw [substitute_mid hw (sg (by simp)), substitute_cons hw (sg (by simp))]
    exact .pow ih1 ih2 h
  | neg _ h ih => rw [substitute_cons hw (sg (by simp))]; exact .neg ih h
  | mul _ _ h ih1 ih2 => rw [substitute_mid hw (sg (by simp))]; exact .mul ih1 ih2 h
  | div _ _ h ih1 ih2 => rw [substitute_mid hw (sg (by simp))]; exact .div ih1 ih2 h
  | add _ _ h ih1 ih2 => rw [substitute_mid hw (sg (by simp))]; exact .add ih1 ih2 h
  | sub _ _ h ih1 ih2 => rw [substitute_mid hw (sg (by simp))]; exact .sub ih1 ih2 h
  | ofAtom _ ih => exact .ofAtom ih
  | ofPower _ ih => exact .ofPower ih
  | ofUnary _ ih => exact .ofUnary ih
  | ofProd _ ih => exact .ofProd ih
  | before h => cases h
  | after h => cases h

/-! ### A text has at most one value -/

/-- The first character of an expression. -/
def Start (isWord : Char → Bool) (c : Char) : Prop := isWord c = true ∨ c.isDigit = true ∨ c = '.' ∨ c = '('

theorem reads_start {l : Level} {s : List Char} {a : V} (h : Reads isWord M ρ false l s a) :
    ∃ c t, s = c :: t ∧ (Start isWord c ∨ (c = '-' ∧ l ≠ .atom ∧ l ≠ .power)) := by
  induction h with
  | name h1 _ =>
    obtain ⟨c, t, rfl⟩ := List.exists_cons_of_ne_nil h1.1
    exact ⟨c, t, rfl, .inl (.inl (h1.2.1 c (by simp)))⟩
  | num h1 _ =>
    obtain ⟨c, t, rfl⟩ := List.exists_cons_of_ne_nil h1.1
    exact ⟨c, t, rfl, .inl ((h1.2 c (by simp)).elim (fun h => .inr (.inl h)) fun h => .inr (.inr (.inl h)))⟩
  | paren => exact ⟨_, _, rfl, .inl (.inr (.inr (.inr rfl)))⟩
  | call h1 _ _ _ =>
    obtain ⟨c, t, rfl⟩ := List.exists_cons_of_ne_nil h1.1
    exact ⟨c, _, rfl, .inl (.inl (h1.2.1 c (by simp)))⟩
  | pow _ _ _ ih _ =>
    obtain ⟨c, t, rfl, h | h⟩ := ih
    · exact ⟨c, _, rfl, .inl h⟩
    · exact absurd rfl h.2.1
  | neg => exact ⟨_, _, rfl, .inr ⟨rfl, by simp, by simp⟩⟩
  | mul _ _ _ ih _ | div _ _ _ ih _ | add _ _ _ ih _ | sub _ _ _ ih _ =>
    obtain ⟨c, t, rfl, h | h⟩ := ih
    · exact ⟨c, _, rfl, .inl h⟩
    · exact ⟨c, _, rfl, .inr ⟨h.1, by simp, by simp⟩⟩
  | ofAtom _ ih =>
    obtain ⟨c, t, rfl, h | h⟩ := ih
    · exact ⟨c, _, rfl, .inl h⟩
    · exact absurd rfl h.2.1
  | ofPower _ ih =>
    obtain ⟨c, t, rfl, h | h⟩ := ih
    · exact ⟨c, _, rfl, .inl h⟩
    · exact absurd rfl h.2.2
  | ofUnary _ ih | ofProd _ ih =>
    obtain ⟨c, t, rfl, h | h⟩ := ih
    · exact ⟨c, _, rfl, .inl h⟩
    · exact ⟨c, _, rfl, .inr ⟨h.1, by simp, by simp⟩⟩
  | before h => cases h
  | after h => cases h

/-- What may stand after an expression of a priority. -/
def Follow : Level → List Char → Prop
  | .sum, r => ∀ c ∈ r.head?, c = ')'
  | .prod, r => ∀ c ∈ r.head?, c = ')' ∨ c = '+' ∨ c = '-'
  | .unary, r => ∀ c ∈ r.head?, c = ')' ∨ c = '+' ∨ c = '-' ∨ c = '/' ∨ (c = '*' ∧ ¬ ['*', '*'] <+: r)
  | .power, r => ∀ c ∈ r.head?, c = ')' ∨ c = '+' ∨ c = '-' ∨ c = '/' ∨ (c = '*' ∧ ¬ ['*', '*'] <+: r)
  | .atom, r => ∀ c ∈ r.head?, c = ')' ∨ c = '+' ∨ c = '-' ∨ c = '/' ∨ c = '*'

/-- Factors after the first one, with the running value. -/
inductive Tail (isWord : Char → Bool) (M : Meaning V) (ρ : List Char → Option V) : Level → V → List Char → V → Prop
  | nil {l a} : Tail isWord M ρ l a [] a
  | mul {a b a' c s r} : Reads isWord M ρ false .unary s b → M.bin .mul a b = some a' → Tail isWord M ρ .prod a' r c → Tail isWord M ρ .prod a ('*' :: (s ++ r)) c
  | div {a b a' c s r} : Reads isWord M ρ false .unary s b → M.bin .div a b = some a' → Tail isWord M ρ .prod a' r c → Tail isWord M ρ .prod a ('/' :: (s ++ r)) c
  | add {a b a' c s r} : Reads isWord M ρ false .prod s b → M.bin .add a b = some a' → Tail isWord M ρ .sum a' r c → Tail isWord M ρ .sum a ('+' :: (s ++ r)) c
  | sub {a b a' c s r} : Reads isWord M ρ false .prod s b → M.bin .sub a b = some a' → Tail isWord M ρ .sum a' r c → Tail isWord M ρ .sum a ('-' :: (s ++ r)) c

theorem Tail.trans {l : Level} {a b c : V} {r t : List Char} (h : Tail isWord M ρ l a r b) (h' : Tail isWord M ρ l b t c) : Tail isWord M ρ l a (r ++ t) c := by
  induction h with
  | nil => exact h'
  | mul h1 h2 _ ih => rw [List.cons_append, List.append_assoc]; exact .mul h1 h2 (ih h')
  | div h1 h2 _ ih => rw [List.cons_append, List.append_assoc]; exact .div h1 h2 (ih h')
  | add h1 h2 _ ih => rw [List.cons_append, List.append_assoc]; exact .add h1 h2 (ih h')
  | sub h1 h2 _ ih => rw [List.cons_append, List.append_assoc]; exact .sub h1 h2 (ih h')

/-- A product is a first factor with further ones, a sum is a first product with further ones. -/
theorem reads_tail {l : Level} {s : List Char} {c : V} (h : Reads isWord M ρ false l s c) :
    (l = .prod → ∃ s0 a r, s = s0 ++ r ∧ Reads isWord M ρ false .unary s0 a ∧ Tail isWord M ρ .prod a r c) ∧
    (l = .sum → ∃ s0 a r, s = s0 ++ r ∧ Reads isWord M ρ false .prod s0 a ∧ Tail isWord M ρ .sum a r c) := by
  induction h with
  | name | num | paren | call | pow | neg | ofAtom | ofPower => simp
  | @mul s t a b c h1 h2 h3 ih1 _ =>
    refine ⟨fun _ => ?_, by simp⟩
    obtain ⟨s0, a0, r, rfl, i1, i2⟩ := ih1.1 rfl
    exact ⟨s0, a0, r ++ '*' :: t, by simp, i1, i2.trans (by simpa using Tail.mul h2 h3 (.nil (M := M)))⟩
  | @div s t a b c h1 h2 h3 ih1 _ =>
    refine ⟨fun _ => ?_, by simp⟩
    obtain ⟨s0, a0, r, rfl, i1, i2⟩ := ih1.1 rfl
    exact ⟨s0, a0, r ++ '/' :: t, by simp, i1, i2.trans (by simpa using Tail.div h2 h3 (.nil (M := M)))⟩
  | @add s t a b c h1 h2 h3 ih1 _ =>
    refine ⟨by simp, fun _ => ?_⟩
    obtain ⟨s0, a0, r, rfl, i1, i2⟩ := ih1.2 rfl
    exact ⟨s0, a0, r ++ '+' :: t, by simp, i1, i2.trans (by simpa using Tail.add h2 h3 (.nil (M := M)))⟩
  | @sub s t a b c h1 h2 h3 ih1 _ =>
    refine ⟨by simp, fun _ => ?_⟩
    obtain ⟨s0, a0, r, rfl, i1, i2⟩ := ih1.2 rfl
    exact ⟨s0, a0, r ++ '-' :: t, by simp, i1, i2.trans (by simpa using Tail.sub h2 h3 (.nil (M := M)))⟩
  | @ofUnary s a h _ => exact ⟨fun _ => ⟨s, a, [], by simp, h, .nil⟩, by simp⟩
  | @ofProd s a h _ => exact ⟨by simp, fun _ => ⟨s, a, [], by simp, h, .nil⟩⟩
  | before h => cases h
  | after h => cases h

/-- Uniqueness of the first expression of a priority in a text. -/
def Uniq (isWord : Char → Bool) (M : Meaning V) (ρ : List Char → Option V) (N : ℕ) (l : Level) : Prop :=
  ∀ s a s' b r r', s.length ≤ N → Reads isWord M ρ false l s a → Reads isWord M ρ false l s' b → s ++ r = s' ++ r' → Follow l r → Follow l r' → s = s' ∧ a = b

/-- Two runs of characters of a kind with the same continuation. -/
theorem munch {p : Char → Prop} : ∀ {x y r r' : List Char}, (∀ c ∈ x, p c) → (∀ c ∈ y, p c) → (∀ c ∈ r.head?, ¬ p c) → (∀ c ∈ r'.head?, ¬ p c) → x ++ r = y ++ r' → x = y ∧ r = r'
  | [], [], _, _, _, _, _, _, h => ⟨rfl, h⟩
  | [], c :: y, r, r', _, hy, hr, _, h => by
    have h : r = c :: (y ++ r') := h
    exact absurd (hy c (by simp)) (hr c (by simp [h]))
  | c :: x, [], r, r', hx, _, _, hr', h => by
    have h : c :: (x ++ r) = r' := h
    exact absurd (hx c (by simp)) (hr' c (by simp [← h]))
  | c :: x, d :: y, r, r', hx, hy, hr, hr', h => by
    have h : c :: (x ++ r) = d :: (y ++ r') := h
    obtain ⟨rfl, h2⟩ := List.cons.inj h
    obtain ⟨rfl, rfl⟩ := munch (p := p) (x := x) (y := y) (fun e he => hx e (by simp [he])) (fun e he => hy e (by simp [he])) hr hr' h2
    exact ⟨rfl, rfl⟩

theorem follow_atom {r : List Char} : ∀ {l : Level}, Follow l r → Follow .atom r
  | .sum, h => fun c hc => by have := h c hc; tauto
  | .prod, h => fun c hc => by have := h c hc; tauto
  | .unary, h => fun c hc => by have := h c hc; tauto
  | .power, h => fun c hc => by have := h c hc; tauto
  | .atom, h => h

theorem follow_unary_prod {r : List Char} (h : Follow .prod r) : Follow .unary r := fun c hc => by have := h c hc; tauto

theorem follow_prod_sum {r : List Char} (h : Follow .sum r) : Follow .prod r := fun c hc => by have := h c hc; tauto

theorem Start.ne (hS : Signs isWord) {c : Char} (h : Start isWord c) : c ≠ ')' ∧ c ≠ '+' ∧ c ≠ '-' ∧ c ≠ '*' ∧ c ≠ '/' ∧ c ≠ '[' ∧ c ≠ ']' := by
  refine ⟨?_, ?_, ?_, ?_, ?_, ?_, ?_⟩ <;> rintro rfl <;> rcases h with h | h | h | h <;>
    first
      | (rw [hS _ (by simp)] at h; cases h)
      | (revert h; decide)

theorem uniq_atom (hS : Signs isWord) {N : ℕ} (ih : ∀ n < N, Uniq isWord M ρ n .sum) : Uniq isWord M ρ N .atom := by
  intro s a s' b r r' hl h h' e hr hr'
  have fw : ∀ {r : List Char}, Follow .atom r → ∀ c ∈ r.head?, ¬ isWord c = true := by
    intro r h c hc hw
    rcases h c hc with rfl | rfl | rfl | rfl | rfl <;> rw [hS _ (by simp)] at hw <;> cases hw
  have fd : ∀ {r : List Char}, Follow .atom r → ∀ c ∈ r.head?, ¬ (c.isDigit = true ∨ c = '.') := by
    intro r h c hc hw
    rcases h c hc with rfl | rfl | rfl | rfl | rfl <;> revert hw <;> decide
  have hp : isWord '(' = false := hS _ (by simp)
  have name_num : ∀ {x y r r' : List Char}, IsName isWord x → IsNum y → x ++ r ≠ y ++ r' := by
    intro x y r r' hx hy h
    obtain ⟨c, x, rfl⟩ := List.exists_cons_of_ne_nil hx.1
    obtain ⟨d, y, rfl⟩ := List.exists_cons_of_ne_nil hy.1
    obtain ⟨rfl, -⟩ := List.cons.inj (show c :: (x ++ r) = d :: (y ++ r') from h)
    have h1 := hx.2.1 c (by simp)
    have h2 := hx.2.2 c (by simp)
    rcases hy.2 c (by simp) with h | rfl
    · rw [h2] at h; cases h
    · rw [hS '.' (by simp)] at h1; cases h1
  have name_paren : ∀ {x t r : List Char}, IsName isWord x → x ++ r ≠ '(' :: t := by
    intro x t r hx h
    obtain ⟨c, x, rfl⟩ := List.exists_cons_of_ne_nil hx.1
    obtain ⟨rfl, -⟩ := List.cons.inj (show c :: (x ++ r) = '(' :: t from h)
    have h1 := hx.2.1 '(' (by simp)
    rw [hp] at h1; cases h1
  have num_paren : ∀ {x t r : List Char}, IsNum x → x ++ r ≠ '(' :: t := by
    intro x t r hx h
    obtain ⟨c, x, rfl⟩ := List.exists_cons_of_ne_nil hx.1
    obtain ⟨rfl, -⟩ := List.cons.inj (show c :: (x ++ r) = '(' :: t from h)
    have h1 := hx.2 '(' (by simp)
    revert h1; decide
  have nopen : ∀ {t r : List Char}, Follow .atom r → r ≠ '(' :: t := by
    rintro t r h rfl
    have := h '(' (by simp)
    revert this; decide
  -- the inside of parentheses
  have inside : ∀ {t t' : List Char} {c d : V}, t.length < N → Reads isWord M ρ false .sum t c → Reads isWord M ρ false .sum t' d →
      t ++ ')' :: r = t' ++ ')' :: r' → t = t' ∧ c = d := by
    intro t t' c d hlt h1 h2 he
    exact ih _ hlt t c t' d _ _ le_rfl h1 h2 he (by intro c hc; simpa using hc.symm) (by intro c hc; simpa using hc.symm)
  cases h with
  | name h1 h2 =>
    cases h' with
    | name h1' h2' =>
      obtain ⟨rfl, -⟩ := munch (p := fun c => isWord c = true) h1.2.1 h1'.2.1 (fw hr) (fw hr') e
      rw [h2] at h2'
      exact ⟨rfl, Option.some.inj h2'⟩
    | num h1' _ => exact absurd e (name_num h1 h1')
    | paren _ => exact absurd e (name_paren h1)
    | @call f t c d h1' _ _ =>
      rw [List.append_assoc] at e
      obtain ⟨-, h⟩ := munch (p := fun c => isWord c = true) h1.2.1 h1'.2.1 (fw hr) (by intro c hc; obtain rfl : '(' = c := by simpa using hc
                                                                                        simp [hp]) e
      exact absurd h (nopen hr)
    | before h => cases h
    | after h => cases h
  | num h1 h2 =>
    cases h' with
    | name h1' h2' => exact absurd e.symm (name_num h1' h1)
    | num h1' h2' =>
      obtain ⟨rfl, -⟩ := munch (p := fun c => c.isDigit = true ∨ c = '.') h1.2 h1'.2 (fd hr) (fd hr') e
      rw [h2] at h2'
      exact ⟨rfl, Option.some.inj h2'⟩
    | paren _ => exact absurd e (num_paren h1)
    | call h1' _ _ => rw [List.append_assoc] at e; exact absurd e.symm (name_num h1' h1)
    | before h => cases h
    | after h => cases h
  | @paren t _ h1 =>
    cases h' with
    | name h1' h2' => exact absurd e.symm (name_paren h1')
    | num h1' h2' => exact absurd e.symm (num_paren h1')
    | @paren t' _ h1' =>
      simp only [List.cons_append, List.append_assoc, List.nil_append, List.cons.injEq, true_and] at e
      obtain ⟨rfl, rfl⟩ := inside (by simp at hl; omega) h1 h1' e
      exact ⟨rfl, rfl⟩
    | call h1' _ _ => rw [List.append_assoc] at e; exact absurd e.symm (name_paren h1')
    | before h => cases h
    | after h => cases h
  | @call f t c _ h1 h2 h3 =>
    cases h' with
    | name h1' h2' =>
      rw [List.append_assoc] at e
      obtain ⟨-, h⟩ := munch (p := fun c => isWord c = true) h1'.2.1 h1.2.1 (fw hr') (by intro c hc; obtain rfl : '(' = c := by simpa using hc
                                                                                         simp [hp]) e.symm
      exact absurd h (nopen hr')
    | num h1' _ => rw [List.append_assoc] at e; exact absurd e (name_num h1 h1')
    | paren _ => rw [List.append_assoc] at e; exact absurd e (name_paren h1)
    | @call f' t' c' _ h1' h2' h3' =>
      simp only [List.cons_append, List.append_assoc, List.nil_append] at e
      obtain ⟨rfl, h⟩ := munch (p := fun c => isWord c = true) h1.2.1 h1'.2.1
        (by intro c hc; obtain rfl : '(' = c := by simpa using hc
            simp [hp]) (by intro c hc; obtain rfl : '(' = c := by simpa using hc
                           simp [hp]) e
      obtain ⟨rfl, rfl⟩ := inside (by simp at hl; omega) h2 h2' (List.cons.inj h).2
      rw [h3] at h3'
      exact ⟨rfl, Option.some.inj h3'⟩
    | before h => cases h
    | after h => cases h
  | before h => cases h
  | after h => cases h

theorem follow_stars {t r : List Char} : ¬ Follow .power ('*' :: '*' :: t ++ r) := by
  intro h
  have := h '*' (by simp)
  simp at this

theorem uniq_power {N : ℕ} (h4 : Uniq isWord M ρ N .atom) (ih : ∀ n < N, Uniq isWord M ρ n .unary) : Uniq isWord M ρ N .power := by
  intro s a s' b r r' hl h h' e hr hr'
  cases h with
  | @pow s t a b c h1 h2 h3 =>
    have hl1 : s.length ≤ N := by simp at hl; omega
    have hst : ∀ x : List Char, Follow .atom ('*' :: '*' :: x) := fun x c hc => by
      obtain rfl : '*' = c := by simpa using hc
      tauto
    cases h' with
    | @pow s' t' a' b' c' h1' h2' h3' =>
      simp only [List.append_assoc, List.cons_append] at e
      obtain ⟨rfl, rfl⟩ := h4 _ _ _ _ _ _ hl1 h1 h1' e (hst _) (hst _)
      simp only [List.append_cancel_left_eq, List.cons.injEq, true_and] at e
      obtain ⟨rfl, rfl⟩ := ih t.length (by simp at hl; omega) _ _ _ _ _ _ le_rfl h2 h2' e hr hr'
      rw [h3] at h3'
      exact ⟨rfl, Option.some.inj h3'⟩
    | ofAtom h1' =>
      simp only [List.append_assoc, List.cons_append] at e
      obtain ⟨rfl, rfl⟩ := h4 _ _ _ _ _ _ hl1 h1 h1' e (hst _) (follow_atom hr')
      simp only [List.append_cancel_left_eq] at e
      subst e
      exact absurd hr' follow_stars
    | before h => cases h
    | after h => cases h
  | ofAtom h1 =>
    cases h' with
    | @pow s' t' a' b' c' h1' h2' h3' =>
      simp only [List.append_assoc, List.cons_append] at e
      obtain ⟨rfl, rfl⟩ := h4 _ _ _ _ _ _ hl h1 h1' e (follow_atom hr) (fun c hc => by
        obtain rfl : '*' = c := by simpa using hc
        tauto)
      simp only [List.append_cancel_left_eq] at e
      subst e
      exact absurd hr follow_stars
    | ofAtom h1' => exact h4 _ _ _ _ _ _ hl h1 h1' e (follow_atom hr) (follow_atom hr')
    | before h => cases h
    | after h => cases h
  | before h => cases h
  | after h => cases h

theorem power_no_minus (hS : Signs isWord) {s t r : List Char} {a : V} (h : Reads isWord M ρ false .power s a) : s ++ r ≠ '-' :: t := by
  obtain ⟨c, u, rfl, h | h⟩ := reads_start h
  · intro e
    obtain ⟨rfl, -⟩ := List.cons.inj (show c :: (u ++ r) = '-' :: t from e)
    exact (h.ne hS).2.2.1 rfl
  · exact absurd rfl h.2.2

theorem uniq_unary (hS : Signs isWord) {N : ℕ} (h3 : Uniq isWord M ρ N .power) (ih : ∀ n < N, Uniq isWord M ρ n .unary) : Uniq isWord M ρ N .unary := by
  intro s a s' b r r' hl h h' e hr hr'
  cases h with
  | @neg s _ _ h1 h2 =>
    cases h' with
    | @neg s' _ _ h1' h2' =>
      obtain ⟨rfl, rfl⟩ := ih s.length (by simp at hl; omega) _ _ _ _ _ _ le_rfl h1 h1' (List.cons.inj e).2 hr hr'
      rw [h2] at h2'
      exact ⟨rfl, Option.some.inj h2'⟩
    | ofPower h1' => exact absurd e.symm (power_no_minus hS h1')
    | before h => cases h
    | after h => cases h
  | ofPower h1 =>
    cases h' with
    | neg h1' h2' => exact absurd e (power_no_minus hS h1)
    | ofPower h1' => exact h3 _ _ _ _ _ _ hl h1 h1' e hr hr'
    | before h => cases h
    | after h => cases h
  | before h => cases h
  | after h => cases h

/-- What follows a factor. -/
theorem tail_follow (hS : Signs isWord) {a c : V} {t r : List Char} (h : Tail isWord M ρ .prod a t c) (hr : Follow .prod r) : Follow .unary (t ++ r) := by
  cases h with
  | nil => exact follow_unary_prod hr
  | mul h1 _ _ =>
    intro c hc
    obtain rfl : '*' = c := by simpa using hc
    refine .inr (.inr (.inr (.inr ⟨rfl, ?_⟩)))
    obtain ⟨c, u, rfl, h | h⟩ := reads_start h1
    · intro hp
      have := (h.ne hS).2.2.2.1
      simp at hp
      exact this hp.symm
    · intro hp
      simp [h.1] at hp
  | div h1 _ _ =>
    intro c hc
    obtain rfl : '/' = c := by simpa using hc
    tauto

theorem tail_follow_sum {a c : V} {t r : List Char} (h : Tail isWord M ρ .sum a t c) (hr : Follow .sum r) : Follow .prod (t ++ r) := by
  cases h with
  | nil => exact follow_prod_sum hr
  | add h1 _ _ =>
    intro c hc
    obtain rfl : '+' = c := by simpa using hc
    tauto
  | sub h1 _ _ =>
    intro c hc
    obtain rfl : '-' = c := by simpa using hc
    tauto

theorem uniq_tail_prod (hS : Signs isWord) {N : ℕ} (h2 : Uniq isWord M ρ N .unary) {l : Level} {a c : V} {t : List Char} (h : Tail isWord M ρ l a t c) :
    l = .prod → t.length ≤ N → ∀ {c' : V} {t' r r' : List Char}, Tail isWord M ρ .prod a t' c' → t ++ r = t' ++ r' → Follow .prod r → Follow .prod r' → t = t' ∧ c = c' := by
  induction h with
  | nil =>
    rintro rfl _ c' t' r r' h' e hr hr'
    cases h' with
    | nil => exact ⟨rfl, rfl⟩
    | mul => simp only [List.nil_append] at e; subst e; have := hr '*' (by simp); exact absurd this (by decide)
    | div => simp only [List.nil_append] at e; subst e; have := hr '/' (by simp); exact absurd this (by decide)
  | @mul a b a' c s u i1 i2 i3 ih =>
    rintro - hl c' t' r r' h' e hr hr'
    cases h' with
    | nil => simp only [List.nil_append] at e; subst e; have := hr' '*' (by simp); exact absurd this (by decide)
    | @mul _ b2 a2 _ s2 u2 j1 j2 j3 =>
      simp only [List.cons_append, List.append_assoc, List.cons.injEq, true_and] at e
      obtain ⟨rfl, rfl⟩ := h2 _ _ _ _ _ _ (by simp at hl; omega) i1 j1 e (tail_follow hS i3 hr) (tail_follow hS j3 hr')
      rw [i2] at j2
      cases j2
      obtain ⟨rfl, rfl⟩ := ih rfl (by simp at hl; omega) j3 (by simpa using e) hr hr'
      exact ⟨rfl, rfl⟩
    | div => simp at e
  | @div a b a' c s u i1 i2 i3 ih =>
    rintro - hl c' t' r r' h' e hr hr'
    cases h' with
    | nil => simp only [List.nil_append] at e; subst e; have := hr' '/' (by simp); exact absurd this (by decide)
    | @div _ b2 a2 _ s2 u2 j1 j2 j3 =>
      simp only [List.cons_append, List.append_assoc, List.cons.injEq, true_and] at e
      obtain ⟨rfl, rfl⟩ := h2 _ _ _ _ _ _ (by simp at hl; omega) i1 j1 e (tail_follow hS i3 hr) (tail_follow hS j3 hr')
      rw [i2] at j2
      cases j2
      obtain ⟨rfl, rfl⟩ := ih rfl (by simp at hl; omega) j3 (by simpa using e) hr hr'
      exact ⟨rfl, rfl⟩
    | mul => simp at e
  | add => intro h; cases h
  | sub => intro h; cases h

theorem uniq_tail_sum {N : ℕ} (h1 : Uniq isWord M ρ N .prod) {l : Level} {a c : V} {t : List Char} (h : Tail isWord M ρ l a t c) :
    l = .sum → t.length ≤ N → ∀ {c' : V} {t' r r' : List Char}, Tail isWord M ρ .sum a t' c' → t ++ r = t' ++ r' → Follow .sum r → Follow .sum r' → t = t' ∧ c = c' := by
  induction h with
  | nil =>
    rintro rfl _ c' t' r r' h' e hr hr'
    cases h' with
    | nil => exact ⟨rfl, rfl⟩
    | add => simp only [List.nil_append] at e; subst e; have := hr '+' (by simp); exact absurd this (by decide)
    | sub => simp only [List.nil_append] at e; subst e; have := hr '-' (by simp); exact absurd this (by decide)
  | @add a b a' c s u i1 i2 i3 ih =>
    rintro - hl c' t' r r' h' e hr hr'
    cases h' with
    | nil => simp only [List.nil_append] at e; subst e; have := hr' '+' (by simp); exact absurd this (by decide)
    | @add _ b2 a2 _ s2 u2 j1 j2 j3 =>
      simp only [List.cons_append, List.append_assoc, List.cons.injEq, true_and] at e
      obtain ⟨rfl, rfl⟩ := h1 _ _ _ _ _ _ (by simp at hl; omega) i1 j1 e (tail_follow_sum i3 hr) (tail_follow_sum j3 hr')
      rw [i2] at j2
      cases j2
      obtain ⟨rfl, rfl⟩ := ih rfl (by simp at hl; omega) j3 (by simpa using e) hr hr'
      exact ⟨rfl, rfl⟩
    | sub => simp at e
  | @sub a b a' c s u i1 i2 i3 ih =>
    rintro - hl c' t' r r' h' e hr hr'
    cases h' with
    | nil => simp only [List.nil_append] at e; subst e; have := hr' '-' (by simp); exact absurd this (by decide)
    | @sub _ b2 a2 _ s2 u2 j1 j2 j3 =>
      simp only [List.cons_append, List.append_assoc, List.cons.injEq, true_and] at e
      obtain ⟨rfl, rfl⟩ := h1 _ _ _ _ _ _ (by simp at hl; omega) i1 j1 e (tail_follow_sum i3 hr) (tail_follow_sum j3 hr')
      rw [i2] at j2
      cases j2
      obtain ⟨rfl, rfl⟩ := ih rfl (by simp at hl; omega) j3 (by simpa using e) hr hr'
      exact ⟨rfl, rfl⟩
    | add => simp at e
  | mul => intro h; cases h
  | div => intro h; cases h

theorem uniq_prod (hS : Signs isWord) {N : ℕ} (h2 : Uniq isWord M ρ N .unary) : Uniq isWord M ρ N .prod := by
  intro s a s' b r r' hl h h' e hr hr'
  obtain ⟨s0, a0, t, rfl, i1, i2⟩ := (reads_tail h).1 rfl
  obtain ⟨s0', a0', t', rfl, j1, j2⟩ := (reads_tail h').1 rfl
  rw [List.append_assoc, List.append_assoc] at e
  obtain ⟨rfl, rfl⟩ := h2 _ _ _ _ _ _ (by simp at hl; omega) i1 j1 e (tail_follow hS i2 hr) (tail_follow hS j2 hr')
  obtain ⟨rfl, rfl⟩ := uniq_tail_prod hS h2 i2 rfl (by simp at hl; omega) j2 (by simpa using e) hr hr'
  exact ⟨rfl, rfl⟩

theorem uniq_sum {N : ℕ} (h1 : Uniq isWord M ρ N .prod) : Uniq isWord M ρ N .sum := by
  intro s a s' b r r' hl h h' e hr hr'
  obtain ⟨s0, a0, t, rfl, i1, i2⟩ := (reads_tail h).2 rfl
  obtain ⟨s0', a0', t', rfl, j1, j2⟩ := (reads_tail h').2 rfl
  rw [List.append_assoc, List.append_assoc] at e
  obtain ⟨rfl, rfl⟩ := h1 _ _ _ _ _ _ (by simp at hl; omega) i1 j1 e (tail_follow_sum i2 hr) (tail_follow_sum j2 hr')
  obtain ⟨rfl, rfl⟩ := uniq_tail_sum h1 i2 rfl (by simp at hl; omega) j2 (by simpa using e) hr hr'
  exact ⟨rfl, rfl⟩

theorem uniq_all (hS : Signs isWord) (N : ℕ) : ∀ l, Uniq isWord M ρ N l := by
  induction N using Nat.strong_induction_on with
  | _ N ih =>
    have h4 := uniq_atom hS (M := M) (ρ := ρ) (N := N) fun n hn => ih n hn .sum
    have h3 := uniq_power h4 fun n hn => ih n hn .unary
    have h2 := uniq_unary hS h3 fun n hn => ih n hn .unary
    have h1 := uniq_prod hS h2
    have h0 := uniq_sum h1
    rintro (_ | _ | _ | _ | _) <;> assumption

/-- A text has at most one value. -/
theorem reads_unique (hS : Signs isWord) {bl bl' : Bool} {l : Level} {s : List Char} {a b : V} (h : Reads isWord M ρ bl l s a) (h' : Reads isWord M ρ bl' l s b) : a = b := by
  refine (uniq_all hS _ l _ _ _ _ [] [] le_rfl (reads_noBlanks hS h) (reads_noBlanks hS h') rfl ?_ ?_).2 <;>
    cases l <;> intro c hc <;> simp at hc

end Ellipy.Sym
