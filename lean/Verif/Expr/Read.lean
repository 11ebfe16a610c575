import Verif.Expr.Model

/-
Specification for C47: how Go, C, C++, C#, Python, Java and JavaScript read the text of an expression.

`Lexes`: a text is cut into words and symbols, always taking the longest symbol (as all these languages do).
`parse`: operator precedence parsing with the operators, precedences and prefix operators of the language.
The result is a tree whose operators are bubbler's; `ExprA.tree` is the tree the user wrote.  Nothing here
refers to the printers.

Reading restrictions: a word is a maximal run of letters, digits, `_` and `.`, so `this.X` and `math.Pow` are
one word (and symbols that begin with a point are left out); of the postfix forms only the call of a conversion, of the power function and of Go's function
literal, and C's `p->f`, are read; anything else is refused.
-/
namespace Bubbler.Ex
open Num

inductive Tok
  | word (s : Str)
  | op (s : Str)
deriving DecidableEq

/-- Characters of words. -/
def isWord (c : Char) : Bool := c.isAlphanum || c == '_' || c == '.'

/-- `Lexes syms s ts`: cutting `s` gives the tokens `ts`. -/
inductive Lexes (syms : List Str) : Str → List Tok → Prop
  | nil : Lexes syms [] []
  | space {s ts} : Lexes syms s ts → Lexes syms (' ' :: s) ts
  | word {w s ts} : w ≠ [] → (∀ c ∈ w, isWord c = true) → (∀ c, s.head? = some c → isWord c = false) →
      Lexes syms s ts → Lexes syms (w ++ s) (.word w :: ts)
  | sym {o s ts} : o ∈ syms → (∀ o' ∈ syms, o' <+: o ++ s → o'.length ≤ o.length) →
      Lexes syms s ts → Lexes syms (o ++ s) (.op o :: ts)

/-- What an expression means: operators as in bubbler, names of the target's types. -/
inductive Tree
  /-- a variable or a member of a variable -/
  | name (w : Str)
  /-- `w->f` -/
  | arrow (w f : Str)
  | num (n : Nat)
  /-- an integer with a suffix: a `long` in Java, a `BigInt` in JavaScript -/
  | lnum (n : Nat)
  | flt (ip fp : Str)
  | bool (b : Bool)
  | un (op : UnTk) (t : Tree)
  | bin (op : BinTk) (a b : Tree)
  /-- conversion to a type -/
  | conv (ty : Str) (t : Tree)
  /-- `c ? a : b`; in Go, where it is a function literal, with the result type -/
  | cond (ty : Option Str) (c a b : Tree)
deriving DecidableEq

/-- The expression syntax of a language. -/
structure Lang where
  /-- all symbols (for the longest match) -/
  syms : List Str
  /-- binary operators: token, meaning, precedence, least precedence of the right operand -/
  bins : List (Tok × BinTk × Nat × Nat)
  /-- operators that chain instead of nesting (`a < b < c` in Python) -/
  chains : List Tok
  /-- prefix operators: token, meaning, least precedence of the operand -/
  pres : List (Tok × UnTk × Nat)
  types : List Str
  /-- `(T)e` instead of `T(e)`; the operand has this precedence -/
  castPrefix : Option Nat
  /-- the power function -/
  pow : Option Str
  cond : CondStyle
  tru : Str
  fls : Str
  /-- words that are neither variables nor literals -/
  reserved : List Str
  /-- operators whose left operand is not the application of a prefix operator -/
  noPre : List BinTk := []
  /-- what may follow an integer -/
  suffix : Option Char := none
  /-- further conditions -/
  legal : Tree → Bool := fun _ => true

def Lang.bin (L : Lang) (t : Tok) : Option (BinTk × Nat × Nat) := (L.bins.find? (fun x => x.1 == t)).map (·.2)
def Lang.pre (L : Lang) (t : Tok) : Option (UnTk × Nat) := (L.pres.find? (fun x => x.1 == t)).map (·.2)

/-- A word that stands for itself: literal or variable. -/
def Lang.atom (L : Lang) (w : Str) : Option Tree :=
  if w = L.tru then some (.bool true)
  else if w = L.fls then some (.bool false)
  else if w ∈ L.reserved ∨ w ∈ L.types then none
  else match w with
    | [] => none
    | c :: _ =>
      if c.isDigit then
        if '.' ∈ w then some (.flt (w.takeWhile (· != '.')) ((w.dropWhile (· != '.')).drop 1))
        else if w.getLast? = L.suffix then (parseNat w.dropLast).map .lnum
        else (parseNat w).map .num
      else some (.name w)

/-- `T )` at the beginning of the tokens, in a language with `(T)e`. -/
def Lang.castHead (L : Lang) : List Tok → Option (Nat × Str × List Tok)
  | .word ty :: .op [')'] :: r =>
    match L.castPrefix with
    | some q => if ty ∈ L.types then some (q, ty, r) else none
    | none => none
  | _ => none

/-- The next token is an operator that cannot follow the application of a prefix operator. -/
def Lang.barred (L : Lang) : List Tok → Bool
  | [] => false
  | t :: _ => match L.bin t with
    | some (op, _, _) => decide (op ∈ L.noPre)
    | none => false

inductive Mode
  /-- a whole expression -/
  | expr
  /-- an operand: operators of precedence at least `min` -/
  | bin (min : Nat)
  /-- an operand without binary operators outside parentheses -/
  | unary (min : Nat)
  /-- the operators that follow `lhs` -/
  | loop (min : Nat) (lhs : Tree)

/-- The given tokens come next. -/
def expect : List Tok → List Tok → Option (List Tok)
  | [], r => some r
  | _ :: _, [] => none
  | t :: ts, t' :: r => if t' = t then expect ts r else none

def w (s : String) : Tok := .word s.toList
def o (s : String) : Tok := .op s.toList

/-- Precedence parsing.  The first argument bounds the depth of the recursion. -/
def parse (L : Lang) : Nat → Mode → List Tok → Option (Tree × List Tok)
  | 0, _, _ => none
  | n + 1, .expr, ts => do
    let (a, r) ← parse L n (.bin 0) ts
    match L.cond with
    | .go => pure (a, r)
    | .c =>
      match expect [o "?"] r with
      | none => pure (a, r)
      | some r =>
        let (b, r) ← parse L n .expr r
        let r ← expect [o ":"] r
        let (c, r) ← parse L n .expr r
        pure (.cond none a b c, r)
    | .py =>
      match expect [w "if"] r with
      | none => pure (a, r)
      | some r =>
        let (c, r) ← parse L n (.bin 0) r
        let r ← expect [w "else"] r
        let (b, r) ← parse L n .expr r
        pure (.cond none c a b, r)
  | n + 1, .bin min, ts => do
    let (a, r) ← parse L n (.unary min) ts
    parse L n (.loop min a) r
  | _ + 1, .loop _ a, [] => some (a, [])
  | n + 1, .loop min a, t :: r =>
    match L.bin t with
    | none => some (a, t :: r)
    | some (op, p, q) =>
      if min ≤ p then do
        let (b, r) ← parse L n (.bin q) r
        if t ∈ L.chains ∧ ∃ t' ∈ L.chains, r.head? = some t' then none
        else parse L n (.loop min (.bin op a b)) r
      else some (a, t :: r)
  | _ + 1, .unary _, [] => none
  | n + 1, .unary min, t :: r =>
    match L.pre t with
    | some (op, q) =>
      if min ≤ q then do
        let (a, r) ← parse L n (.bin q) r
        if L.barred r then none else pure (.un op a, r)
      else none
    | none =>
      match t with
      | .op s =>
        if s = ['('] then
          match L.castHead r with
          | some (q, ty, r) =>
            if min ≤ q then do
              let (a, r) ← parse L n (.bin q) r
              pure (.conv ty a, r)
            else none
          | none => do
            let (a, r) ← parse L n .expr r
            let r ← expect [o ")"] r
            pure (a, r)
        else none
      | .word s =>
        match expect [o "("] r with
        | some r =>
          if L.pow = some s then do
            let (a, r) ← parse L n .expr r
            let r ← expect [o ","] r
            let (b, r) ← parse L n .expr r
            let r ← expect [o ")"] r
            pure (.bin .POW a b, r)
          else if s ∈ L.types ∧ L.castPrefix = none then do
            let (a, r) ← parse L n .expr r
            let r ← expect [o ")"] r
            pure (.conv s a, r)
          else if L.cond = .go ∧ s = "func".toList then
            match expect [o ")"] r with
            | some (.word ty :: r) =>
              if ty ∈ L.types then do
                let r ← expect [o "{", w "if"] r
                let (c, r) ← parse L n .expr r
                let r ← expect [o "{", w "return"] r
                let (a, r) ← parse L n .expr r
                let r ← expect [o "}", w "else", o "{", w "return"] r
                let (b, r) ← parse L n .expr r
                let r ← expect [o "}", o "}", o "(", o ")"] r
                pure (.cond (some ty) c a b, r)
              else none
            | _ => none
          else none
        | none =>
          match L.castPrefix, expect [o "->"] r with
          | some _, some (.word f :: r) => some (.arrow s f, r)
          | _, some _ => none
          | _, none => (L.atom s).map fun t => (t, r)

/-- A text is read as an expression with the meaning `t`: it can be cut into tokens, and however it is cut
(there is only one way, `Lexes.unique`) all of them are used up by the expression. -/
def Lang.Reads (L : Lang) (s : Str) (t : Tree) : Prop :=
  L.legal t = true ∧ ∃ ts, Lexes L.syms s ts ∧ ∃ N, ∀ n, N ≤ n → parse L n .expr ts = some (t, [])

/-! ### The languages -/

/-- The Go specification: Operators, Operator precedence, Conversions, Keywords. -/
def goLang : Lang where
  syms := ["+", "&", "+=", "&=", "&&", "==", "!=", "(", ")", "-", "|", "-=", "|=", "||", "<", "<=", "[", "]", "*", "^",
    "*=", "^=", "<-", ">", ">=", "{", "}", "/", "<<", "/=", "<<=", "++", "=", ":=", ",", ";", "%", ">>", "%=", ">>=",
    "--", "!", ":", "&^", "&^=", "~"].map String.toList
  bins := [(o "||", .OR, 1, 2), (o "&&", .AND, 2, 3),
    (o "==", .EQ, 3, 4), (o "!=", .NE, 3, 4), (o "<", .LT, 3, 4), (o "<=", .LE, 3, 4), (o ">", .GT, 3, 4), (o ">=", .GE, 3, 4),
    (o "+", .ADD, 4, 5), (o "-", .SUB, 4, 5), (o "|", .BOR, 4, 5), (o "^", .BXOR, 4, 5),
    (o "*", .MUL, 5, 6), (o "/", .DIV, 5, 6), (o "%", .MOD, 5, 6), (o "<<", .SHL, 5, 6), (o ">>", .SHR, 5, 6), (o "&", .BAND, 5, 6)]
  chains := []
  pres := [(o "+", .ADD, 6), (o "-", .SUB, 6), (o "!", .NOT, 6), (o "^", .BNOT, 6)]
  types := ["bool", "uint8", "uint16", "uint32", "uint64", "int8", "int16", "int32", "int64", "float32", "float64"].map String.toList
  castPrefix := none
  pow := some "math.Pow".toList
  cond := .go
  tru := "true".toList
  fls := "false".toList
  reserved := ["break", "default", "func", "interface", "select", "case", "defer", "go", "map", "struct", "chan", "else", "goto",
    "package", "switch", "const", "fallthrough", "if", "range", "type", "continue", "for", "import", "return", "var"].map String.toList

/-- ISO C 6.5, 6.4.6, 6.4.1. -/
def cLang : Lang where
  syms := ["[", "]", "(", ")", "{", "}", "->", "++", "--", "&", "*", "+", "-", "~", "!", "/", "%", "<<", ">>", "<", ">", "<=",
    ">=", "==", "!=", "^", "|", "&&", "||", "?", ":", ";", "=", "*=", "/=", "%=", "+=", "-=", "<<=", ">>=", "&=", "^=",
    "|=", ",", "#", "##"].map String.toList
  bins := [(o "||", .OR, 1, 2), (o "&&", .AND, 2, 3), (o "|", .BOR, 3, 4), (o "^", .BXOR, 4, 5), (o "&", .BAND, 5, 6),
    (o "==", .EQ, 6, 7), (o "!=", .NE, 6, 7), (o "<", .LT, 7, 8), (o "<=", .LE, 7, 8), (o ">", .GT, 7, 8), (o ">=", .GE, 7, 8),
    (o "<<", .SHL, 8, 9), (o ">>", .SHR, 8, 9), (o "+", .ADD, 9, 10), (o "-", .SUB, 9, 10),
    (o "*", .MUL, 10, 11), (o "/", .DIV, 10, 11), (o "%", .MOD, 10, 11)]
  chains := []
  pres := [(o "+", .ADD, 11), (o "-", .SUB, 11), (o "!", .NOT, 11), (o "~", .BNOT, 11)]
  types := ["bool", "uint8_t", "uint16_t", "uint32_t", "uint64_t", "int8_t", "int16_t", "int32_t", "int64_t", "float", "double"].map String.toList
  castPrefix := some 11
  pow := some "pow".toList
  cond := .c
  tru := "true".toList
  fls := "false".toList
  reserved := ["break", "case", "char", "const", "continue", "default", "do", "else", "enum", "extern", "for", "goto", "if", "int",
    "long", "register", "return", "short", "signed", "sizeof", "static", "struct", "switch", "typedef", "union", "unsigned", "void",
    "volatile", "while"].map String.toList

/-- ISO C++ [lex.operators], [lex.key]: as C, with more symbols and more words that are operators. -/
def cppLang : Lang := { cLang with
  syms := cLang.syms ++ ["::", "->*", "<=>"].map String.toList
  reserved := cLang.reserved ++ ["and", "or", "not", "xor", "bitand", "bitor", "compl", "new", "delete", "throw", "co_await",
    "co_yield", "alignof", "typeid", "noexcept", "operator", "template", "typename", "class", "auto", "nullptr", "lambda"].map String.toList }

/-- The C# specification 12.4.2: as C. -/
def csLang : Lang where
  syms := ["{", "}", "[", "]", "(", ")", ",", ":", ";", "+", "-", "*", "/", "%", "&", "|", "^", "!", "~", "=", "<", ">", "?", "??",
    "::", "++", "--", "&&", "||", "->", "==", "!=", "<=", ">=", "+=", "-=", "*=", "/=", "%=", "&=", "|=", "^=", "<<", "<<=", "=>",
    ">>", ">>=", "??=", ">>>", ">>>="].map String.toList
  bins := cLang.bins
  chains := []
  pres := cLang.pres
  types := ["bool", "byte", "ushort", "uint", "ulong", "sbyte", "short", "int", "long", "float", "double"].map String.toList
  castPrefix := some 11
  pow := some "Math.Pow".toList
  cond := .c
  tru := "true".toList
  fls := "false".toList
  reserved := ["as", "is", "if", "else", "return", "new", "null", "checked", "unchecked", "default", "typeof", "sizeof", "stackalloc",
    "switch", "with", "await", "in", "out", "ref", "params", "base"].map String.toList

/-- The Python reference 6.17 and 2.3.1: `not` binds weaker than the comparisons, which chain; `**` binds
tighter than a prefix operator on its left and weaker than one on its right. -/
def pyLang : Lang where
  syms := ["+", "-", "*", "**", "/", "//", "%", "@", "<<", ">>", "&", "|", "^", "~", ":=", "<", ">", "<=", ">=", "==", "!=",
    "(", ")", "[", "]", "{", "}", ",", ":", "!", ";", "=", "->", "+=", "-=", "*=", "/=", "//=", "%=", "@=", "&=", "|=", "^=",
    ">>=", "<<=", "**="].map String.toList
  bins := [(w "or", .OR, 1, 2), (w "and", .AND, 2, 3),
    (o "<", .LT, 4, 5), (o "<=", .LE, 4, 5), (o ">", .GT, 4, 5), (o ">=", .GE, 4, 5), (o "==", .EQ, 4, 5), (o "!=", .NE, 4, 5),
    (o "|", .BOR, 5, 6), (o "^", .BXOR, 6, 7), (o "&", .BAND, 7, 8), (o "<<", .SHL, 8, 9), (o ">>", .SHR, 8, 9),
    (o "+", .ADD, 9, 10), (o "-", .SUB, 9, 10), (o "*", .MUL, 10, 11), (o "/", .DIV, 10, 11), (o "%", .MOD, 10, 11),
    (o "**", .POW, 12, 11)]
  chains := [o "<", o "<=", o ">", o ">=", o "==", o "!="]
  pres := [(w "not", .NOT, 3), (o "+", .ADD, 11), (o "-", .SUB, 11), (o "~", .BNOT, 11)]
  types := ["int", "float", "bool"].map String.toList
  castPrefix := none
  pow := none
  cond := .py
  tru := "True".toList
  fls := "False".toList
  reserved := ["None", "and", "as", "assert", "async", "await", "break", "class", "continue", "def", "del", "elif", "else", "except",
    "finally", "for", "from", "global", "if", "import", "in", "is", "lambda", "nonlocal", "not", "or", "pass", "raise", "return", "try",
    "while", "with", "yield"].map String.toList

/-- The Java specification 3.10.1: a numeral without suffix is below 2^31, one with suffix below 2^63; the numeral itself is allowed directly after
a minus sign. -/
def javaLegal : Tree → Bool
  | .num n => decide (n < 2 ^ 31)
  | .lnum n => decide (n < 2 ^ 63)
  | .un .SUB (.num n) => decide (n ≤ 2 ^ 31)
  | .un .SUB (.lnum n) => decide (n ≤ 2 ^ 63)
  | .un _ t => javaLegal t
  | .bin _ a b => javaLegal a && javaLegal b
  | .conv _ t => javaLegal t
  | .cond _ c a b => javaLegal c && javaLegal a && javaLegal b
  | _ => true

/-- The Java specification 3.9, 3.11, 3.12 and 15.17-15.25: precedences as in C. -/
def javaLang : Lang where
  syms := ["(", ")", "{", "}", "[", "]", ";", ",", "@", "::", "=", ">", "<", "!", "~", "?", ":", "->", "==", ">=", "<=", "!=", "&&", "||", "++", "--",
    "+", "-", "*", "/", "&", "|", "^", "%", "<<", ">>", ">>>", "+=", "-=", "*=", "/=", "&=", "|=", "^=", "%=", "<<=", ">>=", ">>>="].map String.toList
  bins := cLang.bins
  chains := []
  pres := cLang.pres
  types := ["boolean", "byte", "short", "int", "long", "char", "float", "double"].map String.toList
  castPrefix := some 11
  pow := some "Math.pow".toList
  cond := .c
  tru := "true".toList
  fls := "false".toList
  reserved := ["abstract", "assert", "break", "case", "catch", "class", "const", "continue", "default", "do", "else", "enum", "extends", "final",
    "finally", "for", "if", "goto", "implements", "import", "instanceof", "interface", "native", "new", "package", "private", "protected", "public",
    "return", "static", "strictfp", "super", "switch", "synchronized", "throw", "throws", "transient", "try", "void", "volatile", "while", "null",
    "_"].map String.toList
  suffix := some 'L'
  legal := javaLegal

/-- The ECMAScript specification 12.8, 13.4-13.14: precedences as in C; `**` binds tighter than the other binary operators and to the right, and
its left operand is not the application of a prefix operator.  A conversion is the call of `Number`, `BigInt` or `Boolean`. -/
def jsLang : Lang where
  syms := ["{", "}", "(", ")", "[", "]", ";", ",", "<", ">", "<=", ">=", "==", "!=", "===", "!==", "+", "-", "*", "/", "%", "**", "++", "--", "<<",
    ">>", ">>>", "&", "|", "^", "!", "~", "&&", "||", "??", "?", ":", "=", "+=", "-=", "*=", "/=", "%=", "**=", "<<=", ">>=", ">>>=", "&=", "|=",
    "^=", "&&=", "||=", "??=", "=>"].map String.toList
  bins := cLang.bins ++ [(o "**", .POW, 12, 12)]
  chains := []
  pres := [(o "+", .ADD, 13), (o "-", .SUB, 13), (o "!", .NOT, 13), (o "~", .BNOT, 13)]
  types := ["Number", "BigInt", "Boolean"].map String.toList
  castPrefix := none
  pow := none
  cond := .c
  tru := "true".toList
  fls := "false".toList
  reserved := ["await", "break", "case", "catch", "class", "const", "continue", "debugger", "default", "delete", "do", "else", "enum", "export",
    "extends", "finally", "for", "function", "if", "import", "in", "instanceof", "let", "new", "null", "return", "static", "super", "switch", "throw",
    "try", "typeof", "var", "void", "while", "with", "yield"].map String.toList
  noPre := [.POW]
  suffix := some 'n'

/-! ### What the names of types stand for -/

/-- A type of numbers or truth values. -/
inductive TyKind
  | truth
  /-- integers of `bits` bits -/
  | int (signed : Bool) (bits : Nat)
  /-- IEEE numbers of `bits` bits -/
  | float (bits : Nat)
  /-- integers of any size (Python) -/
  | bigint
deriving DecidableEq

/-- The types of bubbler (the language reference in README.md). -/
def primKind : Prim → TyKind
  | .bool => .truth
  | .u8 => .int false 8 | .u16 => .int false 16 | .u32 => .int false 32 | .u64 => .int false 64
  | .i8 => .int true 8 | .i16 => .int true 16 | .i32 => .int true 32 | .i64 => .int true 64
  | .f32 => .float 32 | .f64 => .float 64

/-- The Go specification, Numeric types. -/
def goKind (s : String) : Option TyKind :=
  if s = "bool" then some .truth
  else if s = "uint8" then some (.int false 8) else if s = "uint16" then some (.int false 16)
  else if s = "uint32" then some (.int false 32) else if s = "uint64" then some (.int false 64)
  else if s = "int8" then some (.int true 8) else if s = "int16" then some (.int true 16)
  else if s = "int32" then some (.int true 32) else if s = "int64" then some (.int true 64)
  else if s = "float32" then some (.float 32) else if s = "float64" then some (.float 64) else none

/-- ISO C 7.20.1.1 (`stdint.h`) and annex F. -/
def cKind (s : String) : Option TyKind :=
  if s = "bool" then some .truth
  else if s = "uint8_t" then some (.int false 8) else if s = "uint16_t" then some (.int false 16)
  else if s = "uint32_t" then some (.int false 32) else if s = "uint64_t" then some (.int false 64)
  else if s = "int8_t" then some (.int true 8) else if s = "int16_t" then some (.int true 16)
  else if s = "int32_t" then some (.int true 32) else if s = "int64_t" then some (.int true 64)
  else if s = "float" then some (.float 32) else if s = "double" then some (.float 64) else none

/-- The C# specification 8.3.6. -/
def csKind (s : String) : Option TyKind :=
  if s = "bool" then some .truth
  else if s = "byte" then some (.int false 8) else if s = "ushort" then some (.int false 16)
  else if s = "uint" then some (.int false 32) else if s = "ulong" then some (.int false 64)
  else if s = "sbyte" then some (.int true 8) else if s = "short" then some (.int true 16)
  else if s = "int" then some (.int true 32) else if s = "long" then some (.int true 64)
  else if s = "float" then some (.float 32) else if s = "double" then some (.float 64) else none

/-- The Python reference 3.2. -/
def pyKind (s : String) : Option TyKind :=
  if s = "bool" then some .truth else if s = "int" then some .bigint else if s = "float" then some (.float 64) else none

/-- The Java specification 4.2: integers are signed. -/
def javaKind (s : String) : Option TyKind :=
  if s = "boolean" then some .truth
  else if s = "byte" then some (.int true 8) else if s = "short" then some (.int true 16)
  else if s = "int" then some (.int true 32) else if s = "long" then some (.int true 64)
  else if s = "float" then some (.float 32) else if s = "double" then some (.float 64) else none

/-- The ECMAScript specification 6.1. -/
def jsKind (s : String) : Option TyKind :=
  if s = "Boolean" then some .truth else if s = "Number" then some (.float 64) else if s = "BigInt" then some .bigint else none

/-- The type of the same width in a language without unsigned integers. -/
def TyKind.signed : TyKind → TyKind
  | .int _ n => .int true n
  | k => k

/-- The type in a language where numbers are IEEE numbers of 64 bits, and there are large integers. -/
def TyKind.jsNumber : TyKind → TyKind
  | .int _ n => if n ≤ 32 then .float 64 else .bigint
  | .float _ => .float 64
  | k => k

/-- The type of the same nature in a language with one type of integers and one of floating-point numbers. -/
def TyKind.widest : TyKind → TyKind
  | .int _ _ => .bigint
  | .float _ => .float 64
  | k => k

/-! ### What the user wrote -/

/-- The value of an integer constant. -/
def intValue (neg : Bool) (text : Str) : Option Int :=
  (parseNat text).map fun (n : Nat) => if neg then -(n : Int) else (n : Int)

/-- An integer as target languages write it: a numeral, with a minus sign if negative; with a suffix if `wide` and it does not fit into 32 bits. -/
def intTree (wide : Bool) (v : Int) : Tree :=
  let numeral : Tree := if wide ∧ (v < -2 ^ 31 ∨ 2 ^ 31 ≤ v) then .lnum v.natAbs else .num v.natAbs
  if v < 0 then .un .SUB numeral else numeral

/-- The written expression without its parentheses. -/
def ExprA.strip : ExprA → ExprA
  | .parens e => e.strip
  | e => e

/-- The type of an expression, as far as it is explicit. -/
def ExprA.type (ty : Prim) : ExprA → Option Prim
  | .value => some ty
  | .const (.bool _) => some .bool
  | .const _ => none
  | .parens e => e.type ty
  | .unary _ _ => none
  | .cast p _ => some p
  | .binary _ _ _ => none
  | .ternary _ a _ => a.type ty

/-- The meaning of the written expression in a target: `val` is what `value` stands for, `tn` names the types, `ct` is the
type a conditional expression carries, `wide` says if wide integers have a suffix. -/
def ExprA.tree (val : Tree) (tn : Prim → Str) (ct : ExprA → Option Str) (wide : Bool := false) : ExprA → Tree
  | .value => val
  | .const (.int neg text) => intTree wide ((intValue neg text).getD 0)
  | .const (.float neg ip fp) => if neg then .un .SUB (.flt ip fp) else .flt ip fp
  | .const (.bool b) => .bool b
  | .parens e => e.tree val tn ct wide
  | .unary op e => .un op (e.tree val tn ct wide)
  | .cast p e => .conv (tn p) (e.tree val tn ct wide)
  | .binary op a b => .bin op (a.tree val tn ct wide) (b.tree val tn ct wide)
  | .ternary c a b => .cond (ct a) (c.tree val tn ct wide) (a.tree val tn ct wide) (b.tree val tn ct wide)

/-- A negative constant, as it is printed. -/
def ExprA.negConst : ExprA → Bool
  | .const (.int neg text) => decide ((intValue neg text).getD 0 < 0)
  | .const (.float neg _ _) => neg
  | .parens e => e.negConst
  | _ => false

/-- The literals: decimal, hexadecimal and binary numerals below 2^63, negative ones only in decimal; digits before and
after the point of a float. -/
def ConstE.good : ConstE → Bool
  | .int neg text => match parseNat text with
    | none => false
    | some n => decide (n < 2 ^ 63) && decide (text.head? ≠ some '-') && decide (text.head? ≠ some '+') &&
      (!neg || decide (n = 0) || decide (baseOf text = .dec))
  | .float _ ip fp => !ip.isEmpty && ip.all Char.isDigit && fp.all Char.isDigit
  | .bool _ => true

/-- The expressions for which the text is right in Go, C and C#: good literals, and no minus sign directly before a negative
literal. -/
def ExprA.plain : ExprA → Bool
  | .value => true
  | .const c => c.good
  | .parens e => e.plain
  | .unary op e => e.plain && !(decide (op = .SUB) && e.negConst)
  | .cast _ e => e.plain
  | .binary _ a b => a.plain && b.plain
  | .ternary c a b => c.plain && a.plain && b.plain

/-- JavaScript: additionally no negative literal as the base of `**`. -/
def ExprA.jsPlain : ExprA → Bool
  | .value => true
  | .const c => c.good
  | .parens e => e.jsPlain
  | .unary op e => e.jsPlain && !(decide (op = .SUB) && e.negConst)
  | .cast _ e => e.jsPlain
  | .binary op a b => a.jsPlain && b.jsPlain && !(decide (op = .POW) && a.negConst)
  | .ternary c a b => c.jsPlain && a.jsPlain && b.jsPlain

/-- Go only: the branches of a conditional have an explicit type, the same one. -/
def ExprA.goTyped (ty : Prim) : ExprA → Bool
  | .value => true
  | .const _ => true
  | .parens e => e.goTyped ty
  | .unary _ e => e.goTyped ty
  | .cast _ e => e.goTyped ty
  | .binary _ a b => a.goTyped ty && b.goTyped ty
  | .ternary c a b => c.goTyped ty && a.goTyped ty && b.goTyped ty && (a.type ty).isSome && decide (a.type ty = b.type ty)

/-- A compound operand: printed in parentheses. -/
def ExprA.compound : ExprA → Bool
  | .parens e => e.compound
  | .unary _ _ => true
  | .binary _ _ _ => true
  | .ternary _ _ _ => true
  | _ => false

/-- Python: additionally `!` only before a compound operand or a negative literal, and no negative literal as the base of `**`. -/
def ExprA.pyPlain : ExprA → Bool
  | .value => true
  | .const c => c.good
  | .parens e => e.pyPlain
  | .unary op e => e.pyPlain && (!decide (op = .NOT) || e.compound || e.negConst)
  | .cast _ e => e.pyPlain
  | .binary op a b => a.pyPlain && b.pyPlain && !(decide (op = .POW) && a.negConst)
  | .ternary c a b => c.pyPlain && a.pyPlain && b.pyPlain

end Bubbler.Ex
