import Verif.Front.Tree

/-
The parser (parser/bubbler_parser.go, generated by ANTLR from bubbler.g4 3-187) as recursive descent over the tokens.

ANTLR chooses among the alternatives of a rule by looking ahead as far as it needs; here the choice is written out: where
the look-ahead differs in the first tokens it is a `match`, where it has to go further (a constant field and a field
without value both begin with a type, a name and a size; the definition of a structure and its use both begin with
`struct`, a name and a size) the common beginning is read first.  Any syntax error makes the compiler give up
(compiler/error_listener.go), so ANTLR's error recovery is not modelled: the result is `none`.

The number is fuel for the recursion; `parse` gives as much as any input can use.
-/
namespace Bubbler.Front
open Ex (BinTk UnTk)

/-- `constant` (bubbler.g4 156-163) -/
def constP : List Tok → Option (Const × List Tok)
  | symT .SUB :: intT t :: r => some (.int (some true) t, r)
  | symT .ADD :: intT t :: r => some (.int (some false) t, r)
  | intT t :: r => some (.int none t, r)
  | symT .SUB :: .tk (.float t) :: r => some (.float (some true) t, r)
  | symT .ADD :: .tk (.float t) :: r => some (.float (some false) t, r)
  | .tk (.float t) :: r => some (.float none t, r)
  | .tk (.str t) :: r => some (.str t, r)
  | .tk (.bool b) :: r => some (.bool b, r)
  | _ => none

/-- `size_` (bubbler.g4 22-30) -/
def sizeP : List Tok → Option (Size × List Tok)
  | symT .LB :: intT b :: symT .RB :: r => some (.bytes b, r)
  | symT .LB :: intT b :: symT .HASH :: intT c :: symT .RB :: r => some (.both b c, r)
  | symT .LB :: symT .HASH :: intT c :: symT .RB :: r => some (.bits c, r)
  | _ => none

/-- `size_?` -/
def sizeQ (ts : List Tok) : Option Size × List Tok :=
  match sizeP ts with
  | some (s, r) => (some s, r)
  | none => (none, ts)

/-- `fieldName?`, `methodName?` -/
def idQ : List Tok → Option Id × List Tok
  | .ident a s :: r => (some ⟨a, s⟩, r)
  | ts => (none, ts)

/-- `( … )*` up to the token that ends the list, which is consumed -/
def many {α : Type} (p : List Tok → Option (α × List Tok)) (stop : Tok) : Nat → List Tok → Option (List α × List Tok)
  | 0, _ => none
  | _ + 1, [] => none
  | n + 1, t :: r =>
    if t = stop then some ([], r)
    else match p (t :: r) with
      | none => none
      | some (x, r') => match many p stop n r' with
        | none => none
        | some (xs, r'') => some (x :: xs, r'')

/-- `fieldOption`, `enumValueOption`, the inner part of `optionStatement` (bubbler.g4 69, 120, 38) -/
def optP : List Tok → Option (Opt × List Tok)
  | .ident a s :: symT .ASSIGN :: r => match constP r with
    | some (c, r') => some (⟨⟨a, s⟩, c⟩, r')
    | none => none
  | _ => none

/-- `COMMA fieldOption` -/
def optTailP : List Tok → Option (Opt × List Tok)
  | symT .COMMA :: r => optP r
  | _ => none

/-- `fieldOptions?`, `enumValueOptions?` (bubbler.g4 67, 117) -/
def optsQ : List Tok → Option (List Opt × List Tok)
  | symT .LB :: r => match optP r with
    | none => none
    | some (o, r') => match many optTailP (symT .RB) r'.length r' with
      | none => none
      | some (os, r'') => some (o :: os, r'')
  | ts => some ([], ts)

/-- `basicType` (bubbler.g4 87-99) -/
def primTok : Tok → Option Prim
  | kwT .BOOL => some .bool
  | kwT .INT8 => some .i8
  | kwT .INT16 => some .i16
  | kwT .INT32 => some .i32
  | kwT .INT64 => some .i64
  | kwT .UINT8 => some .u8
  | kwT .UINT16 => some .u16
  | kwT .UINT32 => some .u32
  | kwT .UINT64 => some .u64
  | kwT .FLOAT32 => some .f32
  | kwT .FLOAT64 => some .f64
  | _ => none

/-- The operators of `ExprUnary` (bubbler.g4 136) -/
def unTk : Sym → Option UnTk
  | .ADD => some .ADD
  | .SUB => some .SUB
  | .BNOT => some .BNOT
  | .NOT => some .NOT
  | _ => none

/-- The binary operators (bubbler.g4 135, 138-147) -/
def binTk : Sym → Option BinTk
  | .POW => some .POW
  | .MUL => some .MUL
  | .DIV => some .DIV
  | .MOD => some .MOD
  | .ADD => some .ADD
  | .SUB => some .SUB
  | .SHL => some .SHL
  | .SHR => some .SHR
  | .LT => some .LT
  | .LE => some .LE
  | .GT => some .GT
  | .GE => some .GE
  | .EQ => some .EQ
  | .NE => some .NE
  | .BAND => some .BAND
  | .BXOR => some .BXOR
  | .BOR => some .BOR
  | .AND => some .AND
  | .OR => some .OR
  | _ => none

/-- `LP basicType RP` at the beginning of `ExprCast` (bubbler.g4 137) -/
def castHead : List Tok → Option (Prim × List Tok)
  | symT .LP :: t :: symT .RP :: r => match primTok t with
    | some p => some (p, r)
    | none => none
  | _ => none

/-- The first half of `expr` (bubbler_parser.go 7110-7240): operands and prefix operators.  A number with a sign is read as
a constant, which is the earlier of the two alternatives that fit.  `expr p` reads an operand. -/
def primStep (expr : Nat → List Tok → Option (Expr × List Tok)) (ts : List Tok) : Option (Expr × List Tok) :=
  match constP ts with
  | some (c, r) => some (.const c, r)
  | none => match castHead ts with
    | some (p, r) => match expr 12 r with
      | some (e, r') => some (.cast p e, r')
      | none => none
    | none => match ts with
      | kwT .VALUE :: r => some (.value, r)
      | symT .LP :: r => match expr 0 r with
        | some (e, symT .RP :: r') => some (.parens e, r')
        | _ => none
      | symT s :: r => match unTk s with
        | some op => match expr 13 r with
          | some (e, r') => some (.unary op e, r')
          | none => none
        | none => none
      | _ => none

/-- The second half of `expr(p)` (bubbler_parser.go 7250-7600): while an operator of precedence `p` or more follows, it takes
what has been read so far as its left operand. -/
def loopStep (expr : Nat → List Tok → Option (Expr × List Tok)) (again : Expr → List Tok → Option (Expr × List Tok))
    (p : Nat) (e : Expr) (ts : List Tok) : Option (Expr × List Tok) :=
  match ts with
  | symT s :: r =>
    if s = .QUESTION then
      if p ≤ 1 then match expr 0 r with
        | some (a, symT .COLON :: r') => match expr 2 r' with
          | some (b, r'') => again (.ternary e a b) r''
          | none => none
        | _ => none
      else some (e, ts)
    else match binTk s with
      | some op =>
        if p ≤ prec op then match expr (prec op + 1) r with
          | some (b, r') => again (.binary op e b) r'
          | none => none
        else some (e, ts)
      | none => some (e, ts)
  | _ => some (e, ts)

mutual
  def primP : Nat → List Tok → Option (Expr × List Tok)
    | 0, _ => none
    | n + 1, ts => primStep (exprP n) ts
  /-- `expr(p)` (bubbler_parser.go 7110) -/
  def exprP : Nat → Nat → List Tok → Option (Expr × List Tok)
    | 0, _, _ => none
    | n + 1, p, ts => match primP n ts with
      | some (e, r) => loopP n p e r
      | none => none
  def loopP : Nat → Nat → Expr → List Tok → Option (Expr × List Tok)
    | 0, _, _, _ => none
    | n + 1, p, e, ts => loopStep (exprP n) (loopP n p) p e ts
end

/-- `fieldMethod` (bubbler.g4 73) -/
def methP : List Tok → Option (Meth × List Tok)
  | kwT k :: r =>
    if k = .GET ∨ k = .SET then
      match castHead (idQ r).2 with
      | some (p, symT .COLON :: r') => match exprP (4 * r'.length + 4) 0 r' with
        | some (e, symT .SEMI :: r'') => some (⟨decide (k = .SET), (idQ r).1, p, e⟩, r'')
        | _ => none
      | _ => none
    else none
  | _ => none

/-- `fieldMethods?` (bubbler.g4 71) -/
def methsQ : List Tok → Option (Option (List Meth) × List Tok)
  | symT .LC :: r => match many methP (symT .RC) r.length r with
    | some (ms, r') => some (some ms, r')
    | none => none
  | ts => some (none, ts)

/-- `constant | ident` (bubbler.g4 58, 115) -/
def valP : List Tok → Option ((Const ⊕ Id) × List Tok)
  | .ident a s :: r => some (.inr ⟨a, s⟩, r)
  | ts => match constP ts with
    | some (c, r) => some (.inl c, r)
    | none => none

/-- The beginning of `fieldConstant` up to the equals sign (bubbler.g4 58) -/
def constHead : List Tok → Option ((Prim × Option Id × Option Size) × List Tok)
  | t :: r => match primTok t with
    | some p => match (sizeQ (idQ r).2).2 with
      | symT .ASSIGN :: r' => some ((p, (idQ r).1, (sizeQ (idQ r).2).1), r')
      | _ => none
    | none => none
  | [] => none

/-- `size_? LC` after the name in `structDef` (bubbler.g4 124, 126) -/
def structHead (ts : List Tok) : Option (Option Size × List Tok) :=
  match (sizeQ ts).2 with
  | symT .LC :: r => some ((sizeQ ts).1, r)
  | _ => none

/-- `fieldVoid` after the keyword (bubbler.g4 55) -/
def voidP (ts : List Tok) : Option (Field × List Tok) :=
  match sizeP ts with
  | some (sz, r) => match optsQ r with
    | some (os, symT .SEMI :: r') => some (.void sz os, r')
    | _ => none
  | none => none

/-- `fieldConstant` after the equals sign (bubbler.g4 58) -/
def constTailP (h : Prim × Option Id × Option Size) (ts : List Tok) : Option (Field × List Tok) :=
  match valP ts with
  | some (v, r) => match optsQ r with
    | some (os, symT .SEMI :: r') => some (.const h.1 h.2.1 h.2.2 v os, r')
    | _ => none
  | none => none

/-- `fieldEmbedded` and `fieldNormal` after the type (bubbler.g4 61, 64) -/
def fieldTailP (t : Ty) : List Tok → Option (Field × List Tok)
  | .ident a s :: r => match optsQ (sizeQ r).2 with
    | some (os, r') => match methsQ r' with
      | some (ms, symT .SEMI :: r'') => some (.normal t ⟨a, s⟩ (sizeQ r).1 os ms, r'')
      | _ => none
    | none => none
  | ts => match optsQ ts with
    | some (os, symT .SEMI :: r') => some (.embedded t os, r')
    | _ => none

/-- `arrayType` after the element type (bubbler.g4 105) -/
def arrayTail (e : Elem) : List Tok → Ty × List Tok
  | symT .LT :: intT k :: symT .GT :: r => (.array e k, r)
  | ts => (.elem e, ts)

/-- `type_`, `arrayElementType`, `structType`, `enumType` (bubbler.g4 77-85, 103, 181-182); `body` reads the body of a
structure. -/
def elemStep (body : List Tok → Option (Body × List Tok)) (ts : List Tok) : Option (Elem × List Tok) :=
  match ts with
  | .struct a :: .ident b s :: r => match structHead r with
    | some (sz, r') => match body r' with
      | some (bd, r'') => some (.structDef (.mk a ⟨b, s⟩ sz bd), r'')
      | none => none
    | none => some (.structName a ⟨b, s⟩, r)
  | .enum a :: .ident b s :: r => some (.enumName a ⟨b, s⟩, r)
  | .ident a s :: r => some (.ident ⟨a, s⟩, r)
  | kwT .STRING :: r => some (.str, r)
  | kwT .BYTES :: r => some (.bytes, r)
  | t :: r => match primTok t with
    | some p => some (.basic p, r)
    | none => none
  | [] => none

/-- `structElement`, `field` (bubbler.g4 128, 48-65) -/
def fieldStep (elem : List Tok → Option (Elem × List Tok)) (ts : List Tok) : Option (Field × List Tok) :=
  match ts with
  | symT .SEMI :: r => some (.empty, r)
  | kwT .VOID :: r => voidP r
  | ts => match constHead ts with
    | some (h, r) => constTailP h r
    | none => match elem ts with
      | some (e, r) => fieldTailP (arrayTail e r).1 (arrayTail e r).2
      | none => none

/-- `structBody` after the brace (bubbler.g4 126) -/
def bodyStep (field : List Tok → Option (Field × List Tok)) (body : List Tok → Option (Body × List Tok))
    (ts : List Tok) : Option (Body × List Tok) :=
  match ts with
  | symT .RC :: r => some (.nil, r)
  | ts => match field ts with
    | some (f, r) => match body r with
      | some (b, r') => some (.cons f b, r')
      | none => none
    | none => none

mutual
  def elemP : Nat → List Tok → Option (Elem × List Tok)
    | 0, _ => none
    | n + 1, ts => elemStep (bodyP n) ts
  def fieldP : Nat → List Tok → Option (Field × List Tok)
    | 0, _ => none
    | n + 1, ts => fieldStep (elemP n) ts
  def bodyP : Nat → List Tok → Option (Body × List Tok)
    | 0, _ => none
    | n + 1, ts => bodyStep (fieldP n) (bodyP n) ts
end

/-- `enumElement` (bubbler.g4 113-115) -/
def enumElemP : List Tok → Option (EnumElem × List Tok)
  | symT .SEMI :: r => some (.empty, r)
  | .ident a s :: symT .ASSIGN :: r => match valP r with
    | some (v, r') => match optsQ r' with
      | some (os, symT .SEMI :: r'') => some (.value ⟨a, s⟩ (some v) os false, r'')
      | some (os, symT .COMMA :: r'') => some (.value ⟨a, s⟩ (some v) os true, r'')
      | _ => none
    | none => none
  | .ident a s :: r => match optsQ r with
    | some (os, symT .SEMI :: r'') => some (.value ⟨a, s⟩ none os false, r'')
    | some (os, symT .COMMA :: r'') => some (.value ⟨a, s⟩ none os true, r'')
    | _ => none
  | _ => none

/-- `enumDef` (bubbler.g4 109-111) -/
def enumP : List Tok → Option (Enum × List Tok)
  | .enum a :: .ident b s :: r => match sizeP r with
    | some (sz, symT .LC :: r') => match many enumElemP (symT .RC) r'.length r' with
      | some (es, r'') => some (⟨a, ⟨b, s⟩, sz, es⟩, r'')
      | none => none
    | _ => none
  | _ => none

/-- `DOT ident` (bubbler.g4 173) -/
def dotP : List Tok → Option (Id × List Tok)
  | symT .DOT :: .ident a s :: r => some (⟨a, s⟩, r)
  | _ => none

/-- One item of `proto` (bubbler.g4 3-11) -/
def stmtP (ts : List Tok) : Option (Stmt × List Tok) :=
  match ts with
  | symT .SEMI :: r => some (.empty, r)
  | kwT .IMPORT :: .tk (.str s) :: symT .SEMI :: r => some (.imp s, r)
  | kwT .PACKAGE :: .ident a s :: r => match many dotP (symT .SEMI) r.length r with
    | some (is, r') => some (.package ⟨a, s⟩ is, r')
    | none => none
  | kwT .OPTION :: r => match optP r with
    | some (o, symT .SEMI :: r') => some (.option o, r')
    | _ => none
  | .enum a :: r => match enumP (.enum a :: r) with
    | some (d, r') => some (.enum d, r')
    | none => none
  | .struct a :: r => match elemP (4 * r.length + 4) (.struct a :: r) with
    | some (.structDef d, r') => some (.struct d, r')
    | _ => none
  | _ => none

/-- `proto` (bubbler.g4 3-11) -/
def protoP : Nat → List Tok → Option (List Stmt)
  | _, [] => some []
  | 0, _ :: _ => none
  | n + 1, t :: r => match stmtP (t :: r) with
    | some (s, r') => match protoP n r' with
      | some ss => some (s :: ss)
      | none => none
    | none => none

/-- The whole file (compiler/compilation_runtime.go 220-242) -/
def parse (ts : List Tok) : Option (List Stmt) := protoP ts.length ts

/-- From the text of a file to its tree. -/
def read (s : Str) : Option (List Stmt) :=
  match lex s with
  | some ts => parse (ts.map mkTok)
  | none => none

end Bubbler.Front
