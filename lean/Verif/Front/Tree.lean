import Verif.Front.Lex
import Verif.Expr.Model

/-
Concrete syntax trees of bubbler.g4 3-187, and the tokens they consist of.  `toks` is the grammar read as a rule for
writing: one equation per alternative.

Positions are kept for identifiers and for the keywords `struct` and `enum`; the visitors look at no others, except for
error messages.
-/
namespace Bubbler.Front
open Ex (BinTk UnTk)

/-- A token as the parser sees it. -/
inductive Tok
  | struct (a : At)
  | enum (a : At)
  | ident (a : At) (s : Str)
  /-- any other token -/
  | tk (t : Tk)
deriving DecidableEq

/-- From the lexer to the parser. -/
def mkTok : Tk × At → Tok
  | (.kw .STRUCT, a) => .struct a
  | (.kw .ENUM, a) => .enum a
  | (.ident s, a) => .ident a s
  | (t, _) => .tk t

@[match_pattern] abbrev kwT (k : Kw) : Tok := .tk (.kw k)
@[match_pattern] abbrev symT (s : Sym) : Tok := .tk (.sym s)
@[match_pattern] abbrev intT (s : Str) : Tok := .tk (.int s)

/-- `ident` (172) -/
structure Id where
  at' : At
  text : Str
deriving DecidableEq
def Id.tok (i : Id) : Tok := .ident i.at' i.text

/-- `constant` (156-163); the sign, if any: `true` = minus -/
inductive Const
  | int (sg : Option Bool) (t : Str)
  | float (sg : Option Bool) (t : Str)
  | str (t : Str)
  | bool (b : Bool)
deriving DecidableEq

def signToks : Option Bool → List Tok
  | none => []
  | some true => [symT .SUB]
  | some false => [symT .ADD]

def Const.toks : Const → List Tok
  | .int sg t => signToks sg ++ [intT t]
  | .float sg t => signToks sg ++ [.tk (.float t)]
  | .str t => [.tk (.str t)]
  | .bool b => [.tk (.bool b)]

/-- `size_` (22-30) -/
inductive Size
  | bytes (b : Str)
  | both (b c : Str)
  | bits (c : Str)
deriving DecidableEq

def Size.toks : Size → List Tok
  | .bytes b => [symT .LB, intT b, symT .RB]
  | .both b c => [symT .LB, intT b, symT .HASH, intT c, symT .RB]
  | .bits c => [symT .LB, symT .HASH, intT c, symT .RB]
def sizeToks : Option Size → List Tok
  | none => []
  | some s => s.toks

/-- `fieldOption`, `enumValueOption` (69, 120) -/
structure Opt where
  name : Id
  val : Const
deriving DecidableEq
def Opt.toks (o : Opt) : List Tok := o.name.tok :: symT .ASSIGN :: o.val.toks

/-- `fieldOptions?`, `enumValueOptions?` (67, 117): without options nothing is written -/
def optsToks : List Opt → List Tok
  | [] => []
  | o :: os => symT .LB :: (o.toks ++ ((os.flatMap fun o => symT .COMMA :: o.toks) ++ [symT .RB]))

/-- `basicType` (87-99) -/
def primKw : Prim → Kw
  | .bool => .BOOL | .i8 => .INT8 | .i16 => .INT16 | .i32 => .INT32 | .i64 => .INT64
  | .u8 => .UINT8 | .u16 => .UINT16 | .u32 => .UINT32 | .u64 => .UINT64 | .f32 => .FLOAT32 | .f64 => .FLOAT64

/-- `expr` (132-150) -/
inductive Expr
  | value
  | const (c : Const)
  | parens (e : Expr)
  | unary (op : UnTk) (e : Expr)
  | cast (p : Prim) (e : Expr)
  | binary (op : BinTk) (a b : Expr)
  | ternary (c a b : Expr)
deriving DecidableEq

def unSym : UnTk → Sym
  | .ADD => .ADD | .SUB => .SUB | .BNOT => .BNOT | .NOT => .NOT
def binSym : BinTk → Sym
  | .POW => .POW | .MUL => .MUL | .DIV => .DIV | .MOD => .MOD | .ADD => .ADD | .SUB => .SUB | .SHL => .SHL | .SHR => .SHR
  | .LT => .LT | .LE => .LE | .GT => .GT | .GE => .GE | .EQ => .EQ | .NE => .NE | .BAND => .BAND | .BXOR => .BXOR
  | .BOR => .BOR | .AND => .AND | .OR => .OR

def Expr.toks : Expr → List Tok
  | .value => [kwT .VALUE]
  | .const c => c.toks
  | .parens e => symT .LP :: (e.toks ++ [symT .RP])
  | .unary op e => symT (unSym op) :: e.toks
  | .cast p e => symT .LP :: kwT (primKw p) :: symT .RP :: e.toks
  | .binary op a b => a.toks ++ symT (binSym op) :: b.toks
  | .ternary c a b => c.toks ++ symT .QUESTION :: (a.toks ++ symT .COLON :: b.toks)

/-- `fieldMethod` (73) -/
structure Meth where
  set : Bool
  name : Option Id
  ty : Prim
  expr : Expr
deriving DecidableEq

def idToks : Option Id → List Tok
  | none => []
  | some i => [i.tok]

def Meth.toks (m : Meth) : List Tok :=
  kwT (if m.set then .SET else .GET) :: (idToks m.name ++
    symT .LP :: kwT (primKw m.ty) :: symT .RP :: symT .COLON :: (m.expr.toks ++ [symT .SEMI]))

/-- `fieldMethods?` (71) -/
def methsToks : Option (List Meth) → List Tok
  | none => []
  | some ms => symT .LC :: (ms.flatMap Meth.toks ++ [symT .RC])

/-- `constant | ident` (58, 115) -/
def valToks : Const ⊕ Id → List Tok
  | .inl c => c.toks
  | .inr i => [i.tok]

mutual
  /-- `arrayElementType`, `type_` without arrays (77-85, 103) -/
  inductive Elem
    | basic (p : Prim)
    | str
    | bytes
    | structName (a : At) (n : Id)
    | structDef (d : Struct)
    | enumName (a : At) (n : Id)
    | ident (n : Id)
  /-- `type_` (77-85) and `arrayType` (105) -/
  inductive Ty
    | elem (e : Elem)
    | array (e : Elem) (len : Str)
  /-- `structDef` (124) -/
  inductive Struct
    | mk (a : At) (name : Id) (size : Option Size) (body : Body)
  /-- `structElement*` (126-128) -/
  inductive Body
    | nil
    | cons (f : Field) (rest : Body)
  /-- `structElement`, `field` (48-65, 128) -/
  inductive Field
    | empty
    | void (size : Size) (opts : List Opt)
    | const (p : Prim) (name : Option Id) (size : Option Size) (val : Const ⊕ Id) (opts : List Opt)
    | embedded (t : Ty) (opts : List Opt)
    | normal (t : Ty) (name : Id) (size : Option Size) (opts : List Opt) (meths : Option (List Meth))
end

mutual
  def Elem.toks : Elem → List Tok
    | .basic p => [kwT (primKw p)]
    | .str => [kwT .STRING]
    | .bytes => [kwT .BYTES]
    | .structName a n => [.struct a, n.tok]
    | .structDef d => d.toks
    | .enumName a n => [.enum a, n.tok]
    | .ident n => [n.tok]
  def Ty.toks : Ty → List Tok
    | .elem e => e.toks
    | .array e len => e.toks ++ [symT .LT, intT len, symT .GT]
  def Struct.toks : Struct → List Tok
    | .mk a n sz b => .struct a :: n.tok :: (sizeToks sz ++ symT .LC :: (b.toks ++ [symT .RC]))
  def Body.toks : Body → List Tok
    | .nil => []
    | .cons f r => f.toks ++ r.toks
  def Field.toks : Field → List Tok
    | .empty => [symT .SEMI]
    | .void sz os => kwT .VOID :: (sz.toks ++ (optsToks os ++ [symT .SEMI]))
    | .const p n sz v os =>
      kwT (primKw p) :: (idToks n ++ (sizeToks sz ++ symT .ASSIGN :: (valToks v ++ (optsToks os ++ [symT .SEMI]))))
    | .embedded t os => t.toks ++ (optsToks os ++ [symT .SEMI])
    | .normal t n sz os ms => t.toks ++ n.tok :: (sizeToks sz ++ (optsToks os ++ (methsToks ms ++ [symT .SEMI])))
end

/-- `enumElement` (113-115); `comma`: the value ends with a comma instead of a semicolon -/
inductive EnumElem
  | empty
  | value (name : Id) (val : Option (Const ⊕ Id)) (opts : List Opt) (comma : Bool)

def EnumElem.toks : EnumElem → List Tok
  | .empty => [symT .SEMI]
  | .value n v os c =>
    n.tok :: ((match v with | none => [] | some v => symT .ASSIGN :: valToks v) ++
      (optsToks os ++ [symT (if c then .COMMA else .SEMI)]))

/-- `enumDef` (109-111) -/
structure Enum where
  at' : At
  name : Id
  size : Size
  body : List EnumElem

def Enum.toks (e : Enum) : List Tok :=
  .enum e.at' :: e.name.tok :: (e.size.toks ++ symT .LC :: (e.body.flatMap EnumElem.toks ++ [symT .RC]))

/-- One item of `proto` (3-11): `importStatement` (14), `packageStatement` (34), `optionStatement` (38), `topLevelDef`
(18), `emptyStatement_` -/
inductive Stmt
  | imp (lit : Str)
  | package (first : Id) (rest : List Id)
  | option (o : Opt)
  | struct (d : Struct)
  | enum (d : Enum)
  | empty

def Stmt.toks : Stmt → List Tok
  | .imp s => [kwT .IMPORT, .tk (.str s), symT .SEMI]
  | .package i is => kwT .PACKAGE :: i.tok :: ((is.flatMap fun i => [symT .DOT, i.tok]) ++ [symT .SEMI])
  | .option o => kwT .OPTION :: (o.toks ++ [symT .SEMI])
  | .struct d => d.toks
  | .enum d => d.toks
  | .empty => [symT .SEMI]

/-- `proto` (3-11) -/
def protoToks (f : List Stmt) : List Tok := f.flatMap Stmt.toks

/-! ### Which trees of expressions the parser builds

Expressions are ambiguous as written in the grammar; ANTLR resolves this by precedence (parser/bubbler_parser.go
7110-7600). -/

/-- Precedences of the binary operators, from the order of the alternatives (135-150; bubbler_parser.go 7266-7558).  All
operators associate to the left, including `**`. -/
def prec : BinTk → Nat
  | .POW => 14
  | .MUL | .DIV | .MOD => 11
  | .ADD | .SUB => 10
  | .SHL | .SHR => 9
  | .LT | .LE | .GT | .GE => 8
  | .EQ | .NE => 7
  | .BAND => 6
  | .BXOR => 5
  | .BOR => 4
  | .AND => 3
  | .OR => 2

/-- Precedence of the outermost operator; operands and prefix operators count as 16, `? :` has 1. -/
def Expr.top : Expr → Nat
  | .binary op _ _ => prec op
  | .ternary _ _ _ => 1
  | _ => 16

/-- An operator of precedence `q` written after `e` belongs to an operand at the right end of `e`: the right operand of a
binary operator takes operators that bind more tightly, that of a prefix operator (precedence 13) `**`, that of a
conversion (12) too, the last one of `? :` all but `? :`. -/
def Expr.takes (q : Nat) : Expr → Bool
  | .binary op _ b => decide (prec op < q) || b.takes q
  | .ternary _ _ b => decide (1 < q) || b.takes q
  | .unary _ e => decide (13 ≤ q) || e.takes q
  | .cast _ e => decide (12 ≤ q) || e.takes q
  | _ => false

/-- The tokens begin with a number without sign. -/
def numHead : List Tok → Bool
  | .tk (.int _) :: _ => true
  | .tk (.float _) :: _ => true
  | _ => false

/-- Trees that are read back from their tokens: no operand reaches further than written, and a sign before a number is
part of the number. -/
def Expr.WF : Expr → Prop
  | .value => True
  | .const _ => True
  | .parens e => e.WF
  | .unary op e => e.WF ∧ 13 ≤ e.top ∧ ((op = .ADD ∨ op = .SUB) → numHead e.toks = false)
  | .cast _ e => e.WF ∧ 12 ≤ e.top
  | .binary op a b => a.WF ∧ b.WF ∧ a.takes (prec op) = false ∧ prec op < b.top
  | .ternary c a b => c.WF ∧ a.WF ∧ b.WF ∧ c.takes 1 = false ∧ 1 < b.top

def Meth.WF (m : Meth) : Prop := m.expr.WF

mutual
  def Elem.WF : Elem → Prop
    | .structDef d => d.WF
    | _ => True
  def Ty.WF : Ty → Prop
    | .elem e => e.WF
    | .array e _ => e.WF
  def Struct.WF : Struct → Prop
    | .mk _ _ _ b => b.WF
  def Body.WF : Body → Prop
    | .nil => True
    | .cons f r => f.WF ∧ r.WF
  def Field.WF : Field → Prop
    | .embedded t _ => t.WF
    | .normal t _ _ _ ms => t.WF ∧ ∀ l, ms = some l → ∀ m ∈ l, m.WF
    | _ => True
end

def Stmt.WF : Stmt → Prop
  | .struct d => d.WF
  | _ => True

/-- A file: all expressions in it are. -/
def WFfile (f : List Stmt) : Prop := ∀ s ∈ f, s.WF

end Bubbler.Front
