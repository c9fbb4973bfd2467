import Verif.Spec.Sym

/-! What the text of a formula means (C128): the arithmetic expressions of Python with names, decimal numbers, functions of one argument, `+`, `-`, `*`, `/`,
`**` and parentheses, with the priorities of the language.  Blanks may stand between the symbols. -/

namespace Ellipy.Sym

/-- The operations with two arguments. -/
inductive BinOp where
  | add | sub | mul | div | pow
  deriving DecidableEq

/-- The meaning of numbers, functions and operations on values `V`; an operation may fail. -/
structure Meaning (V : Type) where
  lit : List Char → Option V
  app : List Char → V → Option V
  bin : BinOp → V → V → Option V
  neg : V → Option V

/-- The priorities, from the weakest to the strongest. -/
inductive Level where
  | sum | prod | unary | power | atom
  deriving DecidableEq

/-- A name: word characters, the first of them no digit. -/
def IsName (isWord : Char → Bool) (x : List Char) : Prop := x ≠ [] ∧ (∀ c ∈ x, isWord c = true) ∧ ∀ c ∈ x.head?, c.isDigit = false

/-- A number: digits and the decimal point. -/
def IsNum (x : List Char) : Prop := x ≠ [] ∧ ∀ c ∈ x, c.isDigit = true ∨ c = '.'

/-- The text `s` is an expression of the given priority and its value is `a`, when the names have the values `ρ`.  `bl`: blanks are allowed. -/
inductive Reads {V : Type} (isWord : Char → Bool) (M : Meaning V) (ρ : List Char → Option V) (bl : Bool) : Level → List Char → V → Prop
  | name {x a} : IsName isWord x → ρ x = some a → Reads isWord M ρ bl .atom x a
  | num {x a} : IsNum x → M.lit x = some a → Reads isWord M ρ bl .atom x a
  | paren {s a} : Reads isWord M ρ bl .sum s a → Reads isWord M ρ bl .atom ('(' :: (s ++ [')'])) a
  | call {f s a b} : IsName isWord f → Reads isWord M ρ bl .sum s a → M.app f a = some b → Reads isWord M ρ bl .atom (f ++ '(' :: (s ++ [')'])) b
  | pow {s t a b c} : Reads isWord M ρ bl .atom s a → Reads isWord M ρ bl .unary t b → M.bin .pow a b = some c →
      Reads isWord M ρ bl .power (s ++ '*' :: '*' :: t) c
  | neg {s a b} : Reads isWord M ρ bl .unary s a → M.neg a = some b → Reads isWord M ρ bl .unary ('-' :: s) b
  | mul {s t a b c} : Reads isWord M ρ bl .prod s a → Reads isWord M ρ bl .unary t b → M.bin .mul a b = some c →
      Reads isWord M ρ bl .prod (s ++ '*' :: t) c
  | div {s t a b c} : Reads isWord M ρ bl .prod s a → Reads isWord M ρ bl .unary t b → M.bin .div a b = some c →
      Reads isWord M ρ bl .prod (s ++ '/' :: t) c
  | add {s t a b c} : Reads isWord M ρ bl .sum s a → Reads isWord M ρ bl .prod t b → M.bin .add a b = some c →
      Reads isWord M ρ bl .sum (s ++ '+' :: t) c
  | sub {s t a b c} : Reads isWord M ρ bl .sum s a → Reads isWord M ρ bl .prod t b → M.bin .sub a b = some c →
      Reads isWord M ρ bl .sum (s ++ '-' :: t) c
  | ofAtom {s a} : Reads isWord M ρ bl .atom s a → Reads isWord M ρ bl .power s a
  | ofPower {s a} : Reads isWord M ρ bl .power s a → Reads isWord M ρ bl .unary s a
  | ofUnary {s a} : Reads isWord M ρ bl .unary s a → Reads isWord M ρ bl .prod s a
  | ofProd {s a} : Reads isWord M ρ bl .prod s a → Reads isWord M ρ bl .sum s a
  | before {l s a} : bl = true → Reads isWord M ρ bl l s a → Reads isWord M ρ bl l (' ' :: s) a
  | after {l s a} : bl = true → Reads isWord M ρ bl l s a → Reads isWord M ρ bl l (s ++ [' ']) a

/-- The values `ρ` with the value of `v` replaced by `a`. -/
def bind {V : Type} (ρ : List Char → Option V) (v : List Char) (a : V) : List Char → Option V := fun x => if x = v then some a else ρ x

/-- The characters with a meaning of their own are no word characters. -/
def Signs (isWord : Char → Bool) : Prop := ∀ c ∈ ['(', ')', '+', '-', '*', '/', '.', ' ', '[', ']'], isWord c = false

end Ellipy.Sym
