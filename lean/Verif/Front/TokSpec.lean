import Verif.Front.Lex

/-
Specification for C60: what the tokens of a bubbler source look like, and how a source is laid out.
Written from the language description, without the regular expressions of the lexer.
-/
namespace Bubbler.Front

/-- A word: a letter or `_`, then letters, digits and `_`. -/
def IsWord (s : Str) : Prop := ∃ c cs, s = c :: cs ∧ isLetter c = true ∧ ∀ x ∈ cs, isLetter x = true ∨ isDec x = true

/-- Words that are not identifiers. -/
def reserved : List Str := kws.map (·.2.toList) ++ ["true".toList, "false".toList, "inf".toList, "nan".toList]

/-- `s` consists of digits of the given kind. -/
def AllC (p : Char → Bool) (s : Str) : Prop := ∀ c ∈ s, p c = true

/-- Decimal without leading zero, octal with leading zero, or hexadecimal. -/
def IsInt (s : Str) : Prop :=
  (∃ c cs, s = c :: cs ∧ ('1' ≤ c ∧ c ≤ '9') ∧ AllC isDec cs) ∨
  (∃ cs, s = '0' :: cs ∧ AllC isOct cs) ∨
  (∃ x cs, s = '0' :: x :: cs ∧ (x = 'x' ∨ x = 'X') ∧ cs ≠ [] ∧ AllC isHex cs)

/-- `e`, a sign if any, digits. -/
def IsExp (s : Str) : Prop :=
  ∃ x sg ds, s = x :: (sg ++ ds) ∧ (x = 'e' ∨ x = 'E') ∧ (sg = [] ∨ sg = ['+'] ∨ sg = ['-']) ∧ ds ≠ [] ∧ AllC isDec ds

/-- Digits with a point, an exponent, or both; `inf`; `nan`. -/
def IsFloat (s : Str) : Prop :=
  (∃ ip fp ex, s = ip ++ '.' :: (fp ++ ex) ∧ AllC isDec ip ∧ AllC isDec fp ∧ (ip ≠ [] ∨ fp ≠ []) ∧ (ex = [] ∨ IsExp ex)) ∨
  (∃ ip ex, s = ip ++ ex ∧ AllC isDec ip ∧ ip ≠ [] ∧ IsExp ex) ∨
  s = "inf".toList ∨ s = "nan".toList

/-- The inside of a string between quotes `q`: plain characters and escapes. -/
inductive StrBody (q : Char) : Str → Prop
  | nil : StrBody q []
  | plain {c s} : c ≠ q → c ≠ '\x00' → c ≠ '\n' → c ≠ '\\' → StrBody q s → StrBody q (c :: s)
  | chr {c s} : c ∈ ['a', 'b', 'f', 'n', 'r', 't', 'v', '\\', '\'', '"'] → StrBody q s → StrBody q ('\\' :: c :: s)
  | oct {a b c s} : isOct a = true → isOct b = true → isOct c = true → StrBody q s →
      StrBody q ('\\' :: a :: b :: c :: s)
  | hex {x a b s} : (x = 'x' ∨ x = 'X') → isHex a = true → isHex b = true → StrBody q s →
      StrBody q ('\\' :: x :: a :: b :: s)

/-- A string in single or double quotes. -/
def IsStr (s : Str) : Prop := ∃ q b, (q = '\'' ∨ q = '"') ∧ s = q :: (b ++ [q]) ∧ StrBody q b

/-- How a token is written. -/
def Tk.text : Tk → Str
  | .kw k => ((kws.find? (·.1 = k)).map (·.2.toList)).getD []
  | .sym k => ((syms.find? (·.1 = k)).map (·.2.toList)).getD []
  | .str s => s
  | .bool b => if b then "true".toList else "false".toList
  | .float s => s
  | .int s => s
  | .ident s => s

/-- Tokens a source can contain. -/
def Tk.Valid : Tk → Prop
  | .kw _ => True
  | .sym _ => True
  | .str s => IsStr s
  | .bool _ => True
  | .float s => IsFloat s
  | .int s => IsInt s
  | .ident s => IsWord s ∧ s ∉ reserved

/-- The character `c` directly after the token could belong to a longer token (or begin a comment). -/
def glues : Tk → Char → Bool
  | .str _, _ => false
  | .sym k, c =>
    syms.any (fun o => (Tk.text (.sym k) ++ [c]).isPrefixOf o.2.toList) ||
      (k == .DIV && (c == '/' || c == '*')) || (k == .DOT && isDec c)
  | .kw _, c => isLetter c || isDec c
  | .bool _, c => isLetter c || isDec c
  | .ident _, c => isLetter c || isDec c
  | .int _, c => isLetter c || isDec c || c == '.'
  | .float _, c => isLetter c || isDec c || c == '.'

/-- What may stand between tokens. -/
inductive Blank
  | ch (c : Char)
  /-- a comment that ends with its line -/
  | line (body : Str) (nl : Char)
  | block (body : Str)

def Blank.text : Blank → Str
  | .ch c => [c]
  | .line b nl => '/' :: '/' :: (b ++ [nl])
  | .block b => '/' :: '*' :: (b ++ ['*', '/'])

def Blank.Ok : Blank → Prop
  | .ch c => c ∈ [' ', '\t', '\r', '\n', '\x0c']
  | .line b nl => (∀ c ∈ b, c ≠ '\r' ∧ c ≠ '\n') ∧ (nl = '\r' ∨ nl = '\n')
  | .block b => ¬ ['*', '/'] <:+: b

/-- The blanks before a token. -/
abbrev Gap := List Blank
def Gap.text (g : Gap) : Str := g.flatMap Blank.text

/-- The end of a source: blanks, perhaps a comment that the end of the file closes. -/
structure Tail where
  gap : Gap
  line : Option Str
def Tail.text (t : Tail) : Str := t.gap.text ++ (match t.line with | none => [] | some b => '/' :: '/' :: b)
def Tail.Ok (t : Tail) : Prop := (∀ b ∈ t.gap, b.Ok) ∧ ∀ b, t.line = some b → ∀ c ∈ b, c ≠ '\r' ∧ c ≠ '\n'

/-- A source: tokens, each after some blanks. -/
def source : List (Gap × Tk) → Tail → Str
  | [], t => t.text
  | (g, k) :: r, t => g.text ++ (k.text ++ source r t)

/-- No token touches a character that could belong to it. -/
def Apart : List (Gap × Tk) → Tail → Prop
  | [], _ => True
  | (_, k) :: r, t => (∀ c, (source r t).head? = some c → glues k c = false) ∧ Apart r t

/-- No token and no comment that begins where `k` begins, with the text `u` after it, is longer than `k`. -/
def Longest (k : Tk) (u : Str) : Prop :=
  (∀ k' : Tk, k'.Valid → k'.text <+: k.text ++ u → k'.text.length ≤ k.text.length) ∧
  ¬ ['/', '/'] <+: k.text ++ u ∧ ∀ b, ¬ '/' :: '*' :: (b ++ ['*', '/']) <+: k.text ++ u

/-- Every token is the longest one that begins at its place. -/
def Munch : List (Gap × Tk) → Tail → Prop
  | [], _ => True
  | (_, k) :: r, t => Longest k (source r t) ∧ Munch r t

/-- The tokens with the places they begin at, if the source begins at `a`. -/
def placed (a : At) : List (Gap × Tk) → List (Tk × At)
  | [] => []
  | (g, k) :: r => (k, a.over g.text) :: placed (a.over (g.text ++ k.text)) r

end Bubbler.Front
