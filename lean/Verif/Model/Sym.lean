import Verif.Base.Py

/-! Model of gras/sym/sym.py: `is_dependent` and `var_replace`, together with the fragment of the
regular expression engine of `re` they use.

Strings are lists of characters.  `isWord` is the class `\w`; it is a parameter, so nothing depends on
which characters of Unicode belong to it. -/

namespace Ellipy.Sym

/-- Regular expressions used in gras/sym/sym.py: a character class, `^`, `$`, `\b`, concatenation,
alternation (and the empty expression, the end of a literal). -/
inductive RE where
  | eps
  | chr (p : Char → Bool)
  | bol
  | eol
  | wordB
  | seq (a b : RE)
  | alt (a b : RE)

/-- The literal text `v` as an expression. -/
def RE.lit : List Char → RE
  | [] => .eps
  | c :: v => .seq (.chr (fun d => d == c)) (.lit v)

/-- Is there a word character at position `i`? -/
def wordAt (isWord : Char → Bool) (s : List Char) (i : Nat) : Bool := (s[i]?).any isWord

/-- Is the character before position `i` a word character? -/
def wordBefore (isWord : Char → Bool) (s : List Char) : Nat → Bool
  | 0 => false
  | i + 1 => wordAt isWord s i

/-- End positions of the matches of an expression starting at position `i`, in the order in which the
backtracking engine of `re` tries them.  No flags are used in gras/sym/sym.py, so `^` is the start of the
string and `$` its end or the place before a final newline. -/
def ends (isWord : Char → Bool) (s : List Char) : RE → Nat → List Nat
  | .eps, i => [i]
  | .chr p, i => if (s[i]?).any p then [i + 1] else []
  | .bol, i => if i = 0 then [i] else []
  | .eol, i => if i = s.length ∨ (i + 1 = s.length ∧ s[i]? = some '\n') then [i] else []
  | .wordB, i => if wordBefore isWord s i ≠ wordAt isWord s i then [i] else []
  | .seq a b, i => (ends isWord s a i).flatMap (ends isWord s b)
  | .alt a b, i => ends isWord s a i ++ ends isWord s b i

/-- `re.search(r, s) is not None`: some position has a match. -/
def searchFound (isWord : Char → Bool) (r : RE) (s : List Char) : Bool :=
  (List.range (s.length + 1)).any (fun i => !(ends isWord s r i).isEmpty)

/-- `re.sub(r, repl, s)` from position `i` on: copy characters until the first place where `r` matches, emit `repl`,
go on after the match.  Only for expressions that match no empty text (`var_replace` with a non-empty
name); `repl` is literal text (no backslashes).  The first argument bounds the number of steps. -/
def subLoop (isWord : Char → Bool) (r : RE) (repl s : List Char) : Nat → Nat → List Char
  | 0, _ => []
  | fuel + 1, i =>
    match s[i]? with
    | none => []
    | some c =>
      match (ends isWord s r i).head? with
      | some j => repl ++ subLoop isWord r repl s fuel j
      | none => c :: subLoop isWord r repl s fuel (i + 1)

/-- `re.sub(r, repl, s)`. -/
def reSub (isWord : Char → Bool) (r : RE) (repl s : List Char) : List Char :=
  subLoop isWord r repl s (s.length + 1) 0

/-- The four alternatives of gras/sym/sym.py:10-12 and 14-16: `\Wx\W|^x\W|\Wx$|^x$`. -/
def depRE (isWord : Char → Bool) (x : Char) : RE :=
  let nw : RE := .chr (fun c => !isWord c)
  let lx : RE := .chr (fun c => c == x)
  .alt (.seq nw (.seq lx nw)) (.alt (.seq .bol (.seq lx nw)) (.alt (.seq nw (.seq lx .eol)) (.seq .bol (.seq lx .eol))))

/-- A cell of the matrix handed in: text, an integer or another number. -/
inductive Cell (N : Type) where
  | str (s : List Char)
  | int (n : Int)
  | num (x : N)

/-- `str(elem)` (gras/sym/sym.py:8) or `_str(elem)` (lines 32-39): text stays, numbers are rendered by
`toStr`. -/
def cellStr {N : Type} (toStr : Int ⊕ N → List Char) : Cell N → List Char
  | .str s => s
  | .int n => toStr (.inl n)
  | .num x => toStr (.inr x)

/-- `is_dependent(m_mat, is_discrete)`, gras/sym/sym.py:7-21.  `np.vectorize(str)` refuses arrays without
elements (`ValueError`).  `toStr` is `str` on the numeric cells. -/
def isDependent {N : Type} (isWord : Char → Bool) (toStr : Int ⊕ N → List Char) (m : List (Cell N)) (isDiscrete : Bool) :
    Py Bool :=
  if m.isEmpty then .error .pyValueError
  else
    let strs := m.map (cellStr toStr)                                          -- line 8
    if isDiscrete then .ok (strs.any (searchFound isWord (depRE isWord 'k')))  -- lines 9-12
    else .ok (strs.any (searchFound isWord (depRE isWord 't')))               -- lines 13-16

/-- `var_replace(m_mat, from_var_name, to_var_name)`, gras/sym/sym.py:24-47, on the flattened matrix (the shape is
kept).  `toStr` renders numeric cells (lines 32-39).  The two name arguments are strings by type (lines
27-30). -/
def varReplace {N : Type} (isWord : Char → Bool) (toStr : Int ⊕ N → List Char) (m : List (Cell N)) (fromV toV : List Char) :
    Py (List (List Char)) :=
  if m.isEmpty then throwErr "wrongInput:m_mat"                           -- lines 25-26
  else
    let strs := m.map (cellStr toStr)                                          -- line 40
    let repl := '(' :: toV ++ [')']                                        -- line 41
    let strs := strs.map (fun s => s.filter (fun c => c != ' '))           -- lines 43-45
    .ok (strs.map (reSub isWord (.seq .wordB (.seq (.lit fromV) .wordB)) repl))  -- line 46

end Ellipy.Sym
