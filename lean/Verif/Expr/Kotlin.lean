import Verif.Expr.Read

/-
Expressions of custom properties in the Kotlin target: the printer (kotlin.go 484-619), and how Kotlin reads
expressions.

Simplified, as in Model.lean: no string constants; a float constant is given by the digits before and after the
point of `strconv.FormatFloat(v, 'g', -1, 64)` (kotlin.go 586-589 adds `.0` if there is no point; the notation with an
exponent, for numbers from 1e21 and below 1e-4, is left out).
-/
namespace Bubbler.Ex
open Num

/-! ### The printer -/

/-- `kotlinTypeMap` (kotlin.go 146-158). -/
def ktTypeName : Prim → Str
  | .bool => "Boolean".toList
  | .u8 => "UByte".toList | .u16 => "UShort".toList | .u32 => "UInt".toList | .u64 => "ULong".toList
  | .i8 => "Byte".toList | .i16 => "Short".toList | .i32 => "Int".toList | .i64 => "Long".toList
  | .f32 => "Float".toList | .f64 => "Double".toList

/-- `literalForType` (kotlin.go 567-619).  Constants of expressions have no type unless they are boolean
(proto_visitor.go 1320-1325), so integers are written without suffix (569-578, 613); unlike the other targets the
-decnum option has an effect (595). -/
def ktLit (decnum : Bool) : Lit → Str
  | .int l => formatInt l decnum
  | .float neg ip fp => (if neg then ['-'] else []) ++ ip ++ '.' :: fp
  | .bool b => lowerBool b

/-- Casts (kotlin.go 491-506). -/
def ktCast (p : Prim) (inner : Str) : Str :=
  match p with
  | .bool => '(' :: inner ++ " != 0)".toList
  | .u8 | .u16 => '(' :: inner ++ ").toUInt().to".toList ++ ktTypeName p ++ "()".toList
  | .i8 | .i16 => '(' :: inner ++ ").toInt().to".toList ++ ktTypeName p ++ "()".toList
  | _ => '(' :: inner ++ ").to".toList ++ ktTypeName p ++ "()".toList

/-- Prefix operators (kotlin.go 507-515). -/
def ktUn (op : ExprOp) (inner : Str) : Str :=
  if op = .BNOT then '(' :: inner ++ ").inv()".toList else '(' :: cOpStr op ++ inner ++ [')']

/-- Binary operators (kotlin.go 516-546); `ExprOp.String` (definition/expr.go 120-150) has the table of C.  The type
of a binary expression is never set (proto_visitor.go 1344-1896), so 528-530 has no effect. -/
def ktBin (op : ExprOp) (l r : Str) : Str :=
  match op with
  | .POW => '(' :: l ++ ").toDouble().pow((".toList ++ r ++ ").toDouble())".toList
  | .BAND => '(' :: l ++ " and ".toList ++ r ++ [')']
  | .BOR => '(' :: l ++ " or ".toList ++ r ++ [')']
  | .BXOR => '(' :: l ++ " xor ".toList ++ r ++ [')']
  | .SHL => '(' :: l ++ " shl (".toList ++ r ++ ").toInt())".toList
  | .SHR => '(' :: l ++ " shr (".toList ++ r ++ ").toInt())".toList
  | _ => '(' :: l ++ ' ' :: cOpStr op ++ ' ' :: r ++ [')']

/-- Conditionals (kotlin.go 547-560). -/
def ktCond (c a b : Str) : Str := "(if (".toList ++ c ++ ") ".toList ++ a ++ " else ".toList ++ b ++ [')']

/-- `generateExpr` (kotlin.go 484-565); `val` is the text for `value`. -/
def ktExpr (decnum : Bool) (val : Str) : Expr → Str
  | .value _ => val
  | .const l => ktLit decnum l
  | .un op e => ktUn op (ktExpr decnum val e)
  | .cast p e => ktCast p (ktExpr decnum val e)
  | .bin op a b => ktBin op (ktExpr decnum val a) (ktExpr decnum val b)
  | .tern c a b => ktCond (ktExpr decnum val c) (ktExpr decnum val a) (ktExpr decnum val b)

/-- The expression in the generated code of a method of type `ty` (`generateCustomProperties`, kotlin.go 400-449: the value is
`this.` and the name of the field in a getter, `value` in a setter). -/
def ktMethod (decnum : Bool) (val : Str) (ty : Prim) (e : ExprA) : Option Str := (visitExpr ty e).map (ktExpr decnum val)

/-! ### The reader

The Kotlin language specification, Expressions and Grammar: from weak to strong `||`, `&&`, equality, comparison, infix
functions, additive, multiplicative, prefix, postfix.  Words as in Read.lean: `x.toInt` would be one word, but after
a parenthesis `.toInt` is a word of its own: the call of a method.  Of the methods the conversions between types of numbers,
`inv` and `pow` are read, of the infix functions those for bits. -/

/-- Symbols (those that contain letters, like `!in`, and those that begin with a point are left out). -/
def ktSyms : List Str :=
  [",", "(", ")", "[", "]", "{", "}", "*", "%", "/", "+", "-", "++", "--", "&&", "||", "!", "!!", ":", ";", "=", "+=", "-=", "*=", "/=", "%=", "->",
    "=>", "::", ";;", "#", "@", "?", "?:", "<", ">", "<=", ">=", "!=", "!==", "==", "==="].map String.toList

/-- Binary operators and infix functions: token, meaning, precedence. -/
def ktBins : List (Tok × BinTk × Nat) :=
  [(o "||", .OR, 1), (o "&&", .AND, 2), (o "==", .EQ, 3), (o "!=", .NE, 3), (o "<", .LT, 4), (o "<=", .LE, 4), (o ">", .GT, 4), (o ">=", .GE, 4),
    (w "and", .BAND, 5), (w "or", .BOR, 5), (w "xor", .BXOR, 5), (w "shl", .SHL, 5), (w "shr", .SHR, 5),
    (o "+", .ADD, 6), (o "-", .SUB, 6), (o "*", .MUL, 7), (o "/", .DIV, 7), (o "%", .MOD, 7)]

def ktBinOp (t : Tok) : Option (BinTk × Nat) := (ktBins.find? (fun x => x.1 == t)).map (·.2)

/-- Prefix operators. -/
def ktPre (t : Tok) : Option UnTk :=
  if t = o "+" then some .ADD else if t = o "-" then some .SUB else if t = o "!" then some .NOT else none

/-- The types of numbers. -/
def ktNumTypes : List Str := ["Byte", "Short", "Int", "Long", "UByte", "UShort", "UInt", "ULong", "Float", "Double"].map String.toList

/-- Methods without arguments: `.toT` for a type of numbers, and `.inv`. -/
def ktCall (m : Str) (t : Tree) : Option Tree :=
  if m = ".inv".toList then some (.un .BNOT t)
  else if m.take 3 = ".to".toList ∧ m.drop 3 ∈ ktNumTypes then some (.conv (m.drop 3) t)
  else none

/-- Hard keywords (except `true`, `false`, `if`, `this`). -/
def ktReserved : List Str :=
  ["as", "break", "class", "continue", "do", "else", "for", "fun", "in", "interface", "is", "null", "object", "package", "return", "super", "throw",
    "try", "typealias", "typeof", "val", "var", "when", "while"].map String.toList

/-- A literal or a variable.  Integer literals are decimal, hexadecimal or binary, without leading zeros. -/
def ktAtom (s : Str) : Option Tree :=
  if s = "true".toList then some (.bool true)
  else if s = "false".toList then some (.bool false)
  else if s ∈ ktReserved then none
  else match s with
    | [] => none
    | c :: s' =>
      if c = '.' then none
      else if c.isDigit then
        if '.' ∈ s then some (.flt (s.takeWhile (· != '.')) ((s.dropWhile (· != '.')).drop 1))
        else if c = '0' ∧ s' ≠ [] ∧ s'.head? ≠ some 'x' ∧ s'.head? ≠ some 'b' then none
        else (parseNat s).map .num
      else some (.name s)

inductive KMode
  /-- operators of precedence at least `min` -/
  | bin (min : Nat)
  /-- an operand of a binary operator -/
  | unary
  /-- the operators that follow `lhs` -/
  | loop (min : Nat) (lhs : Tree)
  /-- the calls that follow `t` -/
  | post (t : Tree)

/-- Precedence parsing.  The first argument bounds the depth of the recursion. -/
def ktParse : Nat → KMode → List Tok → Option (Tree × List Tok)
  | 0, _, _ => none
  | n + 1, .bin min, ts => do
    let (a, r) ← ktParse n .unary ts
    ktParse n (.loop min a) r
  | _ + 1, .loop _ a, [] => some (a, [])
  | n + 1, .loop min a, t :: r =>
    match ktBinOp t with
    | none => some (a, t :: r)
    | some (op, p) =>
      if min ≤ p then do
        let (b, r) ← ktParse n (.bin (p + 1)) r
        ktParse n (.loop min (.bin op a b)) r
      else some (a, t :: r)
  | _ + 1, .unary, [] => none
  | n + 1, .unary, t :: r =>
    match ktPre t with
    | some op => do
      let (a, r) ← ktParse n .unary r
      pure (.un op a, r)
    | none =>
      match t with
      | .op s =>
        if s = ['('] then do
          let (a, r) ← ktParse n (.bin 0) r
          let r ← expect [o ")"] r
          ktParse n (.post a) r
        else none
      | .word s =>
        if s = "if".toList then do
          let r ← expect [o "("] r
          let (c, r) ← ktParse n (.bin 0) r
          let r ← expect [o ")"] r
          let (a, r) ← ktParse n (.bin 0) r
          let r ← expect [w "else"] r
          let (b, r) ← ktParse n (.bin 0) r
          pure (.cond none c a b, r)
        else
          match ktAtom s with
          | none => none
          | some t => ktParse n (.post t) r
  | _ + 1, .post t, [] => some (t, [])
  | n + 1, .post t, u :: r =>
    match u with
    | .op s => if s = ['('] then none else some (t, u :: r)
    | .word s =>
      if s.head? = some '.' then do
        let r ← expect [o "("] r
        match expect [o ")"] r with
        | some r =>
          match ktCall s t with
          | none => none
          | some t => ktParse n (.post t) r
        | none =>
          if s = ".pow".toList then do
            let (b, r) ← ktParse n (.bin 0) r
            let r ← expect [o ")"] r
            ktParse n (.post (.bin .POW t b)) r
          else none
      else some (t, u :: r)

/-- The text is read as an expression with the meaning `t`. -/
def KtReads (s : Str) (t : Tree) : Prop :=
  ∃ ts, Lexes ktSyms s ts ∧ ∃ N, ∀ n, N ≤ n → ktParse n (.bin 0) ts = some (t, [])

/-! ### What the user wrote, in Kotlin's terms -/

/-- The Kotlin specification, Built-in types. -/
def ktKind (s : String) : Option TyKind :=
  if s = "Boolean" then some .truth
  else if s = "UByte" then some (.int false 8) else if s = "UShort" then some (.int false 16)
  else if s = "UInt" then some (.int false 32) else if s = "ULong" then some (.int false 64)
  else if s = "Byte" then some (.int true 8) else if s = "Short" then some (.int true 16)
  else if s = "Int" then some (.int true 32) else if s = "Long" then some (.int true 64)
  else if s = "Float" then some (.float 32) else if s = "Double" then some (.float 64) else none

/-- A conversion: to `bool` by comparison with zero; to a small integer by way of 32 bits; else directly. -/
def ktConv (p : Prim) (t : Tree) : Tree :=
  match p with
  | .bool => .bin .NE t (.num 0)
  | .u8 => .conv "UByte".toList (.conv "UInt".toList t)
  | .u16 => .conv "UShort".toList (.conv "UInt".toList t)
  | .i8 => .conv "Byte".toList (.conv "Int".toList t)
  | .i16 => .conv "Short".toList (.conv "Int".toList t)
  | .u32 => .conv "UInt".toList t
  | .u64 => .conv "ULong".toList t
  | .i32 => .conv "Int".toList t
  | .i64 => .conv "Long".toList t
  | .f32 => .conv "Float".toList t
  | .f64 => .conv "Double".toList t

/-- The meaning of the written expression in Kotlin: powers are taken of `Double`s, and shift distances are `Int`s. -/
def ExprA.ktTree (val : Tree) : ExprA → Tree
  | .value => val
  | .const (.int neg text) => intTree false ((intValue neg text).getD 0)
  | .const (.float neg ip fp) => if neg then .un .SUB (.flt ip fp) else .flt ip fp
  | .const (.bool b) => .bool b
  | .parens e => e.ktTree val
  | .unary op e => .un op (e.ktTree val)
  | .cast p e => ktConv p (e.ktTree val)
  | .binary op a b =>
    if op = .POW then .bin .POW (.conv "Double".toList (a.ktTree val)) (.conv "Double".toList (b.ktTree val))
    else if op = .SHL ∨ op = .SHR then .bin op (a.ktTree val) (.conv "Int".toList (b.ktTree val))
    else .bin op (a.ktTree val) (b.ktTree val)
  | .ternary c a b => .cond none (c.ktTree val) (a.ktTree val) (b.ktTree val)

end Bubbler.Ex
