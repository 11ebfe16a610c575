import Verif.Util.NumProofs
import Verif.Codec.Schema

/-
Expressions of custom get/set methods: from the parse tree to the text in the generated code.

The visitor is compiler/proto_visitor.go 1289-1944 (`ExprVisitor`), the printers are the expression
generators of golang.go 2835-3037, c.go 3235-3415, cpp.go 3503-3680, csharp.go 3417-3589, python.go 2420-2582,
java.go 3130-3335 and commonjs.go 3691-3841 (esm_decode.go 845-1010 is the same but for float constants).  They have the same shape in every target, so there is one printer with a table per
target.

Simplified: string constants (which no operator of a method expression can use) are left out; a float
constant is given by the digits `fmt.Sprintf("%f")` prints for it.
-/
namespace Bubbler.Ex
open Num



/-- Operator tokens of the grammar in binary position (bubbler.g4 136-148). -/
inductive BinTk
  | POW | MUL | DIV | MOD | ADD | SUB | SHL | SHR | LT | LE | GT | GE | EQ | NE | BAND | BXOR | BOR | AND | OR
deriving DecidableEq

/-- Operator tokens in prefix position (bubbler.g4 137). -/
inductive UnTk | ADD | SUB | BNOT | NOT
deriving DecidableEq

/-- `constant` (bubbler.g4 156-163): sign and source text of an integer; sign and digits of a float. -/
inductive ConstE
  | int (neg : Bool) (text : Str)
  | float (neg : Bool) (ip fp : Str)
  | bool (b : Bool)

/-- `expr` (bubbler.g4 132-150). -/
inductive ExprA
  | value
  | const (c : ConstE)
  | parens (e : ExprA)
  | unary (op : UnTk) (e : ExprA)
  | cast (p : Prim) (e : ExprA)
  | binary (op : BinTk) (a b : ExprA)
  | ternary (c a b : ExprA)

/-- `ExprOp` (definition/expr.go 5-30) without ASSIGN. -/
inductive ExprOp
  | ADD | SUB | MUL | DIV | MOD | POW | SHL | SHR | LT | LE | GT | GE | EQ | NE | BAND | BXOR | BOR | AND | OR | NOT | BNOT
deriving DecidableEq

/-- `Literal` (definition/literal.go), as far as expressions use it. -/
inductive Lit
  | int (l : IntLit)
  | float (neg : Bool) (ip fp : Str)
  | bool (b : Bool)

/-- `Expr` (definition/expr.go 151-321). -/
inductive Expr
  | un (op : ExprOp) (e : Expr)
  | bin (op : ExprOp) (a b : Expr)
  | cast (to : Prim) (e : Expr)
  | tern (c a b : Expr)
  | const (l : Lit)
  | value (ty : Prim)

/-- The base recorded for a literal (literal_visitor.go 43-52). -/
def baseOf : Str → Base
  | '0' :: c :: _ => if c = 'x' ∨ c = 'X' then .hex else if c = 'b' ∨ c = 'B' then .bin else .dec
  | _ => .dec

/-- `VisitConstant` (literal_visitor.go 25-120): `none` = error. -/
def visitConst : ConstE → Option Lit
  | .int neg text =>
    match parseInt text with
    | none => none
    | some v => some (.int ⟨BitVec.ofInt 64 (if neg then -v else v), false, baseOf text⟩)
  | .float neg ip fp => some (.float neg ip fp)
  | .bool b => some (.bool b)

/-- The operator of a binary expression (`VisitExprPower` 1344-1380 .. `VisitExprLogicalOr` 1858-1896). -/
def visitBinOp : BinTk → ExprOp
  | .POW => .POW | .MUL => .MUL | .DIV => .DIV | .MOD => .MOD | .ADD => .ADD | .SUB => .SUB
  | .SHL => .SHL | .SHR => .SHR | .LT => .LT | .GT => .GT | .LE => .LE | .GE => .GE | .EQ => .EQ | .NE => .NE
  | .BAND => .BAND | .BXOR => .BXOR | .BOR => .BOR | .AND => .AND | .OR => .OR

/-- The operator of a prefix expression (`VisitExprUnary` 1382-1420). -/
def visitUnOp : UnTk → ExprOp
  | .ADD => .ADD | .SUB => .SUB | .BNOT => .BNOT | .NOT => .NOT

/-- `ExprVisitor` (proto_visitor.go 1289-1944); `ty` is the type of the method. `none` = error. -/
def visitExpr (ty : Prim) : ExprA → Option Expr
  | .value => some (.value ty)
  | .const c => (visitConst c).map .const
  | .parens e => visitExpr ty e
  | .unary op e => (visitExpr ty e).map (.un (visitUnOp op))
  | .cast p e => (visitExpr ty e).map (.cast p)
  | .binary op a b =>
    match visitExpr ty a with
    | none => none
    | some x => (visitExpr ty b).map (.bin (visitBinOp op) x)
  | .ternary c a b =>
    match visitExpr ty c with
    | none => none
    | some x =>
      match visitExpr ty a with
      | none => none
      | some y => (visitExpr ty b).map (.tern x y)

/-- `GetExprType` (definition/expr.go 189-299); `none` = nil.  A boolean constant has a type
(proto_visitor.go 1320-1325), unary and binary expressions have none. -/
def Expr.type : Expr → Option Prim
  | .un _ _ => none
  | .bin _ _ _ => none
  | .cast p _ => some p
  | .tern _ a _ => a.type
  | .const (.bool _) => some .bool
  | .const _ => none
  | .value ty => some ty

/-- `BasicType.GetTypeName` (definition/type.go): the name in bubbler. -/
def primName : Prim → Str
  | .bool => "bool".toList
  | .u8 => "uint8".toList | .u16 => "uint16".toList | .u32 => "uint32".toList | .u64 => "uint64".toList
  | .i8 => "int8".toList | .i16 => "int16".toList | .i32 => "int32".toList | .i64 => "int64".toList
  | .f32 => "float32".toList | .f64 => "float64".toList

/-- How a target writes `c ? a : b`. -/
inductive CondStyle | go | c | py
deriving DecidableEq

/-- What differs between the expression generators. -/
structure Target where
  /-- `exprOpToString` -/
  opStr : ExprOp → Str
  /-- `typeMap` -/
  typeName : Prim → Str
  /-- the function `**` is turned into, if any -/
  pow : Option Str
  /-- `(T)e` instead of `T(e)` -/
  castPrefix : Bool
  cond : CondStyle
  /-- `GenerateBoolLiteral` -/
  boolStr : Bool → Str
  /-- what is written after integers that do not fit into 32 bits, if anything -/
  suffix : Option Char

/-- The integers that get a suffix (java.go 3315-3325, commonjs.go 3826-3836). -/
def wideInt (l : IntLit) : Bool :=
  decide (l.value.toInt > 2147483647) || decide (l.value.toInt < -2147483648) || (l.unsigned && decide (l.value.toNat > 2147483647))

/-- `GenerateIntLiteral`, `GenerateFloatLiteral`, `GenerateBoolLiteral` (golang.go 3023-3033, c.go 3401-3411,
python.go 2565-2578, java.go 3291-3335, commonjs.go 3817-3841).  The literal generator is created without options (golang.go 2947), so -decnum has
no effect here; the exception for unsigned decimals in java.go 3308-3312 is left out: literals of expressions are not unsigned. -/
def Target.lit (P : Target) : Lit → Str
  | .int l => formatInt l false ++ if wideInt l then P.suffix.toList else []
  | .float neg ip fp => (if neg then ['-'] else []) ++ ip ++ '.' :: fp
  | .bool b => P.boolStr b

/-- `GenerateBinopExpr` (golang.go 2903-2933, c.go 3303-3333, python.go 2485-2499). -/
def Target.binText (P : Target) (op : ExprOp) (a b : Str) : Str :=
  match op, P.pow with
  | .POW, some f => f ++ '(' :: a ++ ',' :: ' ' :: b ++ [')']
  | _, _ => '(' :: a ++ ' ' :: P.opStr op ++ ' ' :: b ++ [')']

/-- `GenerateUnopExpr` (golang.go 2891-2901). -/
def Target.unText (P : Target) (op : ExprOp) (a : Str) : Str := '(' :: P.opStr op ++ a ++ [')']

/-- `GenerateCastExpr` (golang.go 2935-2945, c.go 3335-3345). -/
def Target.castText (P : Target) (p : Prim) (a : Str) : Str :=
  if P.castPrefix then '(' :: P.typeName p ++ ')' :: a else P.typeName p ++ '(' :: a ++ [')']

/-- `GenerateTenaryExpr` (golang.go 2955-2997, c.go 3355-3369, python.go 2521-2535).  The Go target needs the types
of both branches (2968-2995): `ta`, `tb`. -/
def Target.condText (P : Target) (ta tb : Option Prim) (c a b : Str) : Option Str :=
  match P.cond with
  | .c => some ('(' :: c ++ ' ' :: '?' :: ' ' :: a ++ ' ' :: ':' :: ' ' :: b ++ [')'])
  | .py => some ('(' :: a ++ " if ".toList ++ c ++ " else ".toList ++ b ++ [')'])
  | .go =>
    match ta, tb with
    | some x, some y =>
      if primName x = primName y then
        some ("func() ".toList ++ primName x ++ " { if ".toList ++ c ++ " { return ".toList ++ a ++
          " } else { return ".toList ++ b ++ " } }()".toList)
      else none
    | _, _ => none

/-- `GenerateExpr` (golang.go 2864-3005); `val` is the text for `value`: `this.Field` in a getter of the Go target,
`value` in a setter.  `none` = error. -/
def Target.expr (P : Target) (val : Str) : Expr → Option Str
  | .value _ => some val
  | .const l => some (P.lit l)
  | .un op e => (P.expr val e).map (P.unText op)
  | .cast p e => (P.expr val e).map (P.castText p)
  | .bin op a b =>
    match P.expr val a with
    | none => none
    | some x => (P.expr val b).map (P.binText op x)
  | .tern c a b =>
    match P.expr val c with
    | none => none
    | some x =>
      match P.expr val a with
      | none => none
      | some y =>
        match P.expr val b with
        | none => none
        | some z => P.condText a.type b.type x y z

/-- The expression in the generated code of a method of type `ty` (`VisitFieldMethod` then `GenerateCustomGetter`/
`GenerateCustomSetter`). -/
def Target.method (P : Target) (val : Str) (ty : Prim) (e : ExprA) : Option Str :=
  (visitExpr ty e).bind (P.expr val)

/-! ### The tables -/

/-- `exprOpToString` of C (c.go 3265-3288; the same in cpp.go, csharp.go). -/
def cOpStr : ExprOp → Str
  | .ADD => ['+'] | .SUB => ['-'] | .MUL => ['*'] | .DIV => ['/'] | .MOD => ['%'] | .POW => ['*', '*']
  | .SHL => ['<', '<'] | .SHR => ['>', '>'] | .LT => ['<'] | .LE => ['<', '='] | .GT => ['>'] | .GE => ['>', '=']
  | .EQ => ['=', '='] | .NE => ['!', '='] | .BAND => ['&'] | .BXOR => ['^'] | .BOR => ['|']
  | .AND => ['&', '&'] | .OR => ['|', '|'] | .NOT => ['!'] | .BNOT => ['~']

/-- `exprOpToString` of Go (golang.go 2866-2889): `~` is written `^`. -/
def goOpStr : ExprOp → Str
  | .BNOT => ['^']
  | op => cOpStr op

/-- `exprOpToString` of Python (python.go 2449-2472). -/
def pyOpStr : ExprOp → Str
  | .AND => ['a', 'n', 'd'] | .OR => ['o', 'r'] | .NOT => ['n', 'o', 't']
  | op => cOpStr op

/-- `typeMap` of C and C++ (c.go 529-541, cpp.go 600-612). -/
def cTypeName : Prim → Str
  | .bool => "bool".toList
  | .u8 => "uint8_t".toList | .u16 => "uint16_t".toList | .u32 => "uint32_t".toList | .u64 => "uint64_t".toList
  | .i8 => "int8_t".toList | .i16 => "int16_t".toList | .i32 => "int32_t".toList | .i64 => "int64_t".toList
  | .f32 => "float".toList | .f64 => "double".toList

/-- `typeMap` of C# (csharp.go 360-371). -/
def csTypeName : Prim → Str
  | .bool => "bool".toList
  | .u8 => "byte".toList | .u16 => "ushort".toList | .u32 => "uint".toList | .u64 => "ulong".toList
  | .i8 => "sbyte".toList | .i16 => "short".toList | .i32 => "int".toList | .i64 => "long".toList
  | .f32 => "float".toList | .f64 => "double".toList

/-- `typeMap` of Python (python.go 277-291). -/
def pyTypeName : Prim → Str
  | .bool => "bool".toList
  | .f32 => "float".toList | .f64 => "float".toList
  | _ => "int".toList

/-- `typeMap` of Java (java.go 305-319). -/
def javaTypeName : Prim → Str
  | .bool => "boolean".toList
  | .u8 => "byte".toList | .u16 => "short".toList | .u32 => "int".toList | .u64 => "long".toList
  | .i8 => "byte".toList | .i16 => "short".toList | .i32 => "int".toList | .i64 => "long".toList
  | .f32 => "float".toList | .f64 => "double".toList

/-- `typeMap` of JavaScript (commonjs.go 1084-1098, esm.go 1002-1016). -/
def jsTypeName : Prim → Str
  | .bool => "Boolean".toList
  | .u64 => "BigInt".toList | .i64 => "BigInt".toList
  | _ => "Number".toList

/-- `fmt.Sprintf("%t")`. -/
def lowerBool : Bool → Str
  | true => "true".toList
  | false => "false".toList

/-- golang.go 2835-3037 (`typeMap` 501-513 has bubbler's names). -/
def goTarget : Target := ⟨goOpStr, primName, some "math.Pow".toList, false, .go, lowerBool, none⟩
/-- c.go 3235-3415, cpp.go 3503-3680. -/
def cTarget : Target := ⟨cOpStr, cTypeName, some "pow".toList, true, .c, lowerBool, none⟩
/-- csharp.go 3417-3589. -/
def csTarget : Target := ⟨cOpStr, csTypeName, some "Math.Pow".toList, true, .c, lowerBool, none⟩
/-- python.go 2420-2582. -/
def pyTarget : Target := ⟨pyOpStr, pyTypeName, none, false, .py, fun b => if b then "True".toList else "False".toList, none⟩
/-- java.go 3130-3335 -/
def javaTarget : Target := ⟨cOpStr, javaTypeName, some "Math.pow".toList, true, .c, lowerBool, some 'L'⟩
/-- commonjs.go 3691-3841 -/
def jsTarget : Target := ⟨cOpStr, jsTypeName, none, false, .c, lowerBool, some 'n'⟩

end Bubbler.Ex
