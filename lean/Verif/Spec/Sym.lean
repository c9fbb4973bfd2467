import Mathlib.Data.List.SplitBy
import Verif.Model.Sym

/-! What "mentions a variable" and "substitute a variable" mean (C11, C12). -/

namespace Ellipy.Sym

/-- The text contains `v` as a whole word: no word character directly before or after it. -/
def HasWord (isWord : Char → Bool) (v s : List Char) : Prop :=
  ∃ pre post, s = pre ++ v ++ post ∧ (∀ c ∈ pre.getLast?, isWord c = false) ∧ (∀ c ∈ post.head?, isWord c = false)

/-- The text cut into maximal words and single other characters. -/
def tokens (isWord : Char → Bool) (s : List Char) : List (List Char) :=
  s.splitBy (fun a b => isWord a && isWord b)

/-- The text of a cell. -/
def cellText {N : Type} (toStr : Int ⊕ N → List Char) : Cell N → List Char
  | .str s => s
  | .int n => toStr (.inl n)
  | .num x => toStr (.inr x)

/-- The text without blanks. -/
def noBlanks (s : List Char) : List Char := s.filter (fun c => c ≠ ' ')

/-- Substitution: every token equal to `v` becomes `(e)`, all other tokens stay. -/
def substitute (isWord : Char → Bool) (v e s : List Char) : List Char :=
  ((tokens isWord s).map (fun t => if t = v then '(' :: e ++ [')'] else t)).flatten

end Ellipy.Sym
