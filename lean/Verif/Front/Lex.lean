import Verif.Util.Num

/-
The lexer: bubbler.g4 188-337, compiled by ANTLR into parser/bubbler_lexer.go.

The lexer rules are transcribed as regular expressions, in the order of the grammar; a token is the longest match of any
rule, of several rules with the same match the first one (antlr.LexerATNSimulator); a rule with a non-greedy loop
(`*?`) stops at its first match.  White space is skipped and comments go to a channel the parser does not read
(bubbler.g4 308-310).

Simplified: the regular expressions are executed by derivatives instead of ANTLR's automaton.  The source is the list of
characters `antlr.NewInputStream` makes of it.  After an error ANTLR skips characters and goes on; as any error makes
`getProtoAST` (compilation_runtime.go 208-226) fail, the model stops there.
-/
namespace Bubbler.Front

abbrev Str := List Char

/-- Keywords (bubbler.g4 190-218). -/
inductive Kw
  | SYNTAX | IMPORT | GET | SET | VALUE | PACKAGE | OPTION | VOID
  | INT8 | INT16 | INT32 | INT64 | UINT8 | UINT16 | UINT32 | UINT64 | FLOAT32 | FLOAT64
  | BOOL | STRING | BYTES | ENUM | STRUCT
deriving DecidableEq

/-- Symbols (bubbler.g4 226-259). -/
inductive Sym
  | HASH | SEMI | ASSIGN | QUESTION | LP | RP | LB | RB | LC | RC | LT | LE | GT | GE | EQ | NE | DOT | COMMA | COLON
  | ADD | SUB | MUL | DIV | MOD | POW | SHL | SHR | BAND | BOR | BXOR | BNOT | AND | OR | NOT
deriving DecidableEq

/-- Tokens; literals and identifiers with their text. -/
inductive Tk
  | kw (k : Kw)
  | sym (s : Sym)
  | str (text : Str)
  | bool (b : Bool)
  | float (text : Str)
  | int (text : Str)
  | ident (text : Str)
deriving DecidableEq

/-- bubbler.g4 190-218 -/
def kws : List (Kw × String) :=
  [(.SYNTAX, "syntax"), (.IMPORT, "import"), (.GET, "get"), (.SET, "set"), (.VALUE, "value"), (.PACKAGE, "package"),
   (.OPTION, "option"), (.VOID, "void"), (.INT8, "int8"), (.INT16, "int16"), (.INT32, "int32"), (.INT64, "int64"),
   (.UINT8, "uint8"), (.UINT16, "uint16"), (.UINT32, "uint32"), (.UINT64, "uint64"), (.FLOAT32, "float32"),
   (.FLOAT64, "float64"), (.BOOL, "bool"), (.STRING, "string"), (.BYTES, "bytes"), (.ENUM, "enum"), (.STRUCT, "struct")]

/-- bubbler.g4 226-259 -/
def syms : List (Sym × String) :=
  [(.HASH, "#"), (.SEMI, ";"), (.ASSIGN, "="), (.QUESTION, "?"), (.LP, "("), (.RP, ")"), (.LB, "["), (.RB, "]"),
   (.LC, "{"), (.RC, "}"), (.LT, "<"), (.LE, "<="), (.GT, ">"), (.GE, ">="), (.EQ, "=="), (.NE, "!="), (.DOT, "."),
   (.COMMA, ","), (.COLON, ":"), (.ADD, "+"), (.SUB, "-"), (.MUL, "*"), (.DIV, "/"), (.MOD, "%"), (.POW, "**"),
   (.SHL, "<<"), (.SHR, ">>"), (.BAND, "&"), (.BOR, "|"), (.BXOR, "^"), (.BNOT, "~"), (.AND, "&&"), (.OR, "||"),
   (.NOT, "!")]

/-! ### Regular expressions -/

inductive Re
  | zero
  | eps
  | cls (p : Char → Bool)
  | alt (a b : Re)
  | seq (a b : Re)
  | star (a : Re)

namespace Re

/-- The words a regular expression stands for. -/
inductive Matches : Re → Str → Prop
  | eps : Matches .eps []
  | cls {p c} : p c = true → Matches (.cls p) [c]
  | altL {a b w} : Matches a w → Matches (.alt a b) w
  | altR {a b w} : Matches b w → Matches (.alt a b) w
  | seq {a b u v} : Matches a u → Matches b v → Matches (.seq a b) (u ++ v)
  | starNil {a} : Matches (.star a) []
  | starCons {a u v} : Matches a u → Matches (.star a) v → Matches (.star a) (u ++ v)

def chr (c : Char) : Re := .cls (· == c)
def lit : Str → Re
  | [] => .eps
  | c :: s => .seq (chr c) (lit s)
/-- `r+` -/
def plus (r : Re) : Re := .seq r (.star r)
/-- `r?` -/
def opt (r : Re) : Re := .alt .eps r
/-- alternatives -/
def alts : List Re → Re
  | [] => .zero
  | r :: rs => .alt r (alts rs)

def nullable : Re → Bool
  | .zero => false
  | .eps => true
  | .cls _ => false
  | .alt a b => a.nullable || b.nullable
  | .seq a b => a.nullable && b.nullable
  | .star _ => true

/-- `alt` and `seq` with dead ends removed -/
def alt' : Re → Re → Re
  | .zero, b => b
  | a, .zero => a
  | a, b => .alt a b
def seq' : Re → Re → Re
  | .zero, _ => .zero
  | .eps, b => b
  | a, b => .seq a b

/-- The words after a first character. -/
def deriv (c : Char) : Re → Re
  | .zero => .zero
  | .eps => .zero
  | .cls p => if p c then .eps else .zero
  | .alt a b => alt' (a.deriv c) (b.deriv c)
  | .seq a b => if a.nullable then alt' (seq' (a.deriv c) b) (b.deriv c) else seq' (a.deriv c) b
  | .star a => seq' (a.deriv c) (.star a)

def dead : Re → Bool
  | .zero => true
  | _ => false

/-- Length of the longest match at the beginning. -/
def longest (r : Re) : Str → Option Nat
  | [] => if r.nullable then some 0 else none
  | c :: s =>
    if r.dead then none else
    match (r.deriv c).longest s with
    | some n => some (n + 1)
    | none => if r.nullable then some 0 else none

/-- Length of the shortest match at the beginning. -/
def shortest (r : Re) : Str → Option Nat
  | [] => if r.nullable then some 0 else none
  | c :: s =>
    if r.dead then none else
    if r.nullable then some 0 else ((r.deriv c).shortest s).map (· + 1)

end Re

open Re

/-! ### The lexer rules (bubbler.g4 261-310) -/

/-- `LETTER` (302) -/
def isLetter (c : Char) : Bool := ('A' ≤ c && c ≤ 'Z') || ('a' ≤ c && c ≤ 'z') || c == '_'
/-- `DECIMAL_DIGIT` (303) -/
def isDec (c : Char) : Bool := '0' ≤ c && c ≤ '9'
/-- `OCTAL_DIGIT` (304) -/
def isOct (c : Char) : Bool := '0' ≤ c && c ≤ '7'
/-- `HEX_DIGIT` (305) -/
def isHex (c : Char) : Bool := ('0' ≤ c && c ≤ '9') || ('A' ≤ c && c ≤ 'F') || ('a' ≤ c && c ≤ 'f')

/-- `HEX_ESCAPE` (267) -/
def hexEscape : Re := .seq (chr '\\') (.seq (.cls fun c => c == 'x' || c == 'X') (.seq (.cls isHex) (.cls isHex)))
/-- `OCT_ESCAPE` (268) -/
def octEscape : Re := .seq (chr '\\') (.seq (.cls isOct) (.seq (.cls isOct) (.cls isOct)))
/-- `CHAR_ESCAPE` (269-281) -/
def charEscape : Re := .seq (chr '\\') (.cls fun c => "abfnrtv\\'\"".toList.contains c)
/-- `CHAR_VALUE` (262-266) -/
def charValue : Re :=
  .alt hexEscape (.alt octEscape (.alt charEscape (.cls fun c => c != '\x00' && c != '\n' && c != '\\')))
/-- `STR_LIT` (261), non-greedy -/
def strLit : Re :=
  .alt (.seq (chr '\'') (.seq (.star charValue) (chr '\''))) (.seq (chr '"') (.seq (.star charValue) (chr '"')))
/-- `BOOL_LIT` (283) -/
def boolLit : Re := .alt (lit "true".toList) (lit "false".toList)
/-- `DECIMALS` (293) -/
def decimals : Re := plus (.cls isDec)
/-- `EXPONENT` (292) -/
def exponent : Re :=
  .seq (.cls fun c => c == 'e' || c == 'E') (.seq (opt (.alt (chr '+') (chr '-'))) decimals)
/-- `FLOAT_LIT` (285-291) -/
def floatLit : Re :=
  .alt (.alt (.seq decimals (.seq (chr '.') (.seq (opt decimals) (opt exponent))))
      (.alt (.seq decimals exponent) (.seq (chr '.') (.seq decimals (opt exponent)))))
    (.alt (lit "inf".toList) (lit "nan".toList))
/-- `INT_LIT` (295-298): decimal, octal, hexadecimal -/
def intLit : Re :=
  .alt (.seq (.cls fun c => '1' ≤ c && c ≤ '9') (.star (.cls isDec)))
    (.alt (.seq (chr '0') (.star (.cls isOct)))
      (.seq (chr '0') (.seq (.cls fun c => c == 'x' || c == 'X') (plus (.cls isHex)))))
/-- `IDENTIFIER` (300) -/
def identifier : Re := .seq (.cls isLetter) (.star (.cls fun c => isLetter c || isDec c))
/-- blanks (308) -/
def isBlank (c : Char) : Bool := c == ' ' || c == '\t' || c == '\r' || c == '\n' || c == '\x0c'
/-- `WS` (308) -/
def ws : Re := plus (.cls isBlank)
/-- `LINE_COMMENT` (309) -/
def lineComment : Re := .seq (lit "//".toList) (.star (.cls fun c => c != '\r' && c != '\n'))
/-- `COMMENT` (310), non-greedy -/
def comment : Re := .seq (lit "/*".toList) (.seq (.star (.cls fun _ => true)) (lit "*/".toList))

/-- A lexer rule: its expression, whether it stops at the first match, and the token it makes of a text (`none`: the
parser does not see it). -/
structure Rule where
  re : Re
  lazy : Bool := false
  tok : Str → Option Tk

def kwRule (k : Kw × String) : Rule := { re := lit k.2.toList, tok := fun _ => some (.kw k.1) }
def symRule (k : Sym × String) : Rule := { re := lit k.2.toList, tok := fun _ => some (.sym k.1) }
def strRule : Rule := { re := strLit, lazy := true, tok := fun s => some (.str s) }
def boolRule : Rule := { re := boolLit, tok := fun s => some (.bool (s == "true".toList)) }
def floatRule : Rule := { re := floatLit, tok := fun s => some (.float s) }
def intRule : Rule := { re := intLit, tok := fun s => some (.int s) }
def identRule : Rule := { re := identifier, tok := fun s => some (.ident s) }
/-- `-> skip` (308), `-> channel(HIDDEN)` (309, 310) -/
def wsRule : Rule := { re := ws, tok := fun _ => none }
def lineRule : Rule := { re := lineComment, tok := fun _ => none }
def commentRule : Rule := { re := comment, lazy := true, tok := fun _ => none }

/-- The rules in the order of the grammar; `KEYWORDS` (312-337) comes last and never wins, as each of its texts is
matched by an earlier rule. -/
def rules : List Rule :=
  kws.map kwRule ++ (syms.map symRule ++
    [strRule, boolRule, floatRule, intRule, identRule, wsRule, lineRule, commentRule])

/-- How much of the source a rule takes. -/
def Rule.len (r : Rule) (s : Str) : Option Nat := if r.lazy then r.re.shortest s else r.re.longest s

/-- The rule that takes most, of several the first. -/
def best (s : Str) : List Rule → Option (Nat × Rule)
  | [] => none
  | r :: rs =>
    match r.len s, best s rs with
    | none, b => b
    | some n, none => some (n, r)
    | some n, some (m, r') => if n < m then some (m, r') else some (n, r)

/-- A place in the source: lines are counted from 1, columns from 0 (antlr `Token.GetLine`, `GetColumn`). -/
structure At where
  line : Nat
  col : Nat
deriving DecidableEq

/-- `LexerATNSimulator.Consume`: the place after a character. -/
def At.after (a : At) (c : Char) : At := if c = '\n' then ⟨a.line + 1, 0⟩ else ⟨a.line, a.col + 1⟩
def At.over (a : At) (s : Str) : At := s.foldl At.after a

/-- `NextToken` until the end of the source.  The first argument bounds the number of steps. -/
def lexFrom : Nat → At → Str → Option (List (Tk × At))
  | _, _, [] => some []
  | 0, _, _ :: _ => none
  | n + 1, a, c :: s =>
    match best (c :: s) rules with
    | some (k + 1, r) =>
      let w := (c :: s).take (k + 1)
      match lexFrom n (a.over w) ((c :: s).drop (k + 1)) with
      | none => none
      | some ts => match r.tok w with
        | some t => some ((t, a) :: ts)
        | none => some ts
    | _ => none

/-- All tokens of a source; `none` = token recognition error. -/
def lex (s : Str) : Option (List (Tk × At)) := lexFrom s.length ⟨1, 0⟩ s

end Bubbler.Front
