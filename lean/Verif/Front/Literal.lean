import Verif.Front.Parse
import Verif.Compiler.Runtime

/-
Literals (compiler/literal_visitor.go, compiler/import_visitor.go, and the functions of Go's `strconv` they call), and
the step from trees of the parser (Verif/Front/Tree.lean) to the trees of the compiler model (Verif/Compiler/Ast.lean).

A Go string is a sequence of bytes; here it is a list of characters below 256.
-/
namespace Bubbler.Front
open Comp (ConstA SizeA OptA MethA ElemA TypeA StructA BodyA FieldA EnumElemA EnumA TopA FileA FileS FS)

/-- The byte `n`. -/
def byteChar (n : Nat) : Char := Char.ofNat (n % 256)

/-- `utf8.AppendRune` -/
def goChar (c : Char) : Str := (String.utf8EncodeChar c).map fun b => byteChar b.toNat
def goStr (s : Str) : Str := s.flatMap goChar

/-- Value of a hexadecimal digit -/
def hexVal (c : Char) : Nat := (Num.digitVal c).getD 0

/-- The escapes that stand for one fixed byte (`strconv.UnquoteChar`) -/
def simpleEsc : Char → Option Nat
  | 'a' => some 7
  | 'b' => some 8
  | 'f' => some 12
  | 'n' => some 10
  | 'r' => some 13
  | 't' => some 9
  | 'v' => some 11
  | '\\' => some 92
  | _ => none

/-- `strconv.UnquoteChar` on a text between quotes `q`: the bytes of the first character or escape, and the rest; `none` =
error.  The escapes `\u` and `\U` are left out: the lexer rejects them. -/
def unquoteChar (q : Char) : Str → Option (Str × Str)
  | [] => none
  | c :: s =>
    if c = q then none
    else if c ≠ '\\' then some (goChar c, s)
    else match s with
      | [] => none
      | e :: s =>
        match simpleEsc e with
        | some n => some ([byteChar n], s)
        | none =>
          if e = 'x' then match s with
            | a :: b :: r => if isHex a && isHex b then some ([byteChar (hexVal a * 16 + hexVal b)], r) else none
            | _ => none
          else if isOct e then match s with
            | a :: b :: r =>
              if isOct a && isOct b then
                if hexVal e * 64 + hexVal a * 8 + hexVal b ≤ 255 then
                  some ([byteChar (hexVal e * 64 + hexVal a * 8 + hexVal b)], r)
                else none
              else none
            | _ => none
          else if e = '\'' ∨ e = '"' then
            if e = q then some ([e], s) else none
          else none

/-- The loop of `strconv.unquote` up to the closing quote, which must be the last character; the number is fuel. -/
def unquoteLoop (q : Char) : Nat → Str → Option Str
  | 0, _ => none
  | _ + 1, [] => none
  | n + 1, c :: s =>
    if c = q then (if s = [] then some [] else none)
    else if c = '\n' then none
    else match unquoteChar q (c :: s) with
      | none => none
      | some (b, r) => match unquoteLoop q n r with
        | none => none
        | some v => some (b ++ v)

/-- `strconv.Unquote`: between double quotes any number of characters, between single quotes at most one.  Back quotes do
not pass the lexer. -/
def unquote : Str → Option Str
  | '"' :: s => unquoteLoop '"' s.length s
  | '\'' :: s =>
    if s = ['\''] then some []
    else match unquoteChar '\'' s with
      | some (b, r) => if r = ['\''] then some b else none
      | none => none
  | _ => none

/-- `VisitStrLit` (literal_visitor.go 176-199): single quotes are replaced by double quotes before `strconv.Unquote`. -/
def visitStr (s : Str) : Option Str :=
  if s.head? = some '\'' ∧ s.getLast? = some '\'' then unquote ('"' :: ((s.drop 1).dropLast ++ ['"'])) else unquote s

/-- The decimal digits at the beginning of a text, and the rest. -/
def spanDec (s : Str) : Str × Str := (s.takeWhile isDec, s.dropWhile isDec)

/-- The exponent as `strconv.readFloat` reads it: digits beyond the value 10000 are dropped. -/
def expVal (s : Str) : Nat := s.foldl (fun e c => if e < 10000 then e * 10 + hexVal c else e) 0

/-- Digits as a number. -/
def decVal (s : Str) : Nat := s.foldl (fun n c => n * 10 + hexVal c) 0

/-- Digits before and after the point and the exponent of a decimal float (`strconv.readFloat`). -/
def splitFloat (s : Str) : Str × Str × Int :=
  let i := spanDec s
  let f := match i.2 with
    | '.' :: r => spanDec r
    | r => ([], r)
  let e : Int := match f.2 with
    | _ :: '-' :: ds => - (expVal ds : Int)
    | _ :: '+' :: ds => expVal ds
    | _ :: ds => expVal ds
    | [] => 0
  (i.1, f.1, e)

/-- The smallest number that `strconv.ParseFloat(_, 64)` rounds up to infinity. -/
def floatLimit : Nat := 2 ^ 1024 - 2 ^ 970

/-- `VisitFloatLit` (literal_visitor.go 143-161): `strconv.ParseFloat` accepts every float of the lexer but those too large
for a float64.  The value is `m · 10^x` with `m` the digits without point. -/
def floatOk (s : Str) : Bool :=
  if s = "inf".toList ∨ s = "nan".toList then true else
  let p := splitFloat s
  let m := decVal (p.1 ++ p.2.1)
  let x := p.2.2 - p.2.1.length
  if 0 ≤ x then decide (m * 10 ^ x.toNat < floatLimit) else decide (m < floatLimit * 10 ^ (-x).toNat)

/-- `constant` (literal_visitor.go 25-120) -/
def toConst : Const → ConstA
  | .int sg t => .int (sg == some true) t
  | .float sg t => .float (floatOk t) (sg == some true) t
  | .str t => .str (visitStr t)
  | .bool b => .bool b

/-- A constant the visitor accepts. -/
def constOk : Const → Bool
  | .int _ t => match Num.parseNat t with
    | some n => decide (n < 2 ^ 63)
    | none => false
  | .float _ t => floatOk t
  | .str t => (visitStr t).isSome
  | .bool _ => true

/-- The expression visitor (proto_visitor.go 1289-1944) fails only at a constant. -/
def exprOk : Expr → Bool
  | .value => true
  | .const c => constOk c
  | .parens e => exprOk e
  | .unary _ e => exprOk e
  | .cast _ e => exprOk e
  | .binary _ a b => exprOk a && exprOk b
  | .ternary c a b => exprOk c && (exprOk a && exprOk b)

def toSize : Size → SizeA
  | .bytes b => ⟨some b, none⟩
  | .both b c => ⟨some b, some c⟩
  | .bits c => ⟨none, some c⟩

def toOpt (o : Opt) : OptA := ⟨o.name.text, toConst o.val⟩

def toMeth (m : Meth) : MethA := ⟨m.set, m.name.map (·.text), m.ty, exprOk m.expr⟩

def toVal : Const ⊕ Id → ConstA ⊕ Str
  | .inl c => .inl (toConst c)
  | .inr i => .inr i.text

mutual
  def toElem : Elem → ElemA
    | .basic p => .basic p
    | .str => .str
    | .bytes => .bytes
    | .structName _ n => .structName n.text
    | .structDef d => .structDef (toStruct d)
    | .enumName _ n => .enumName n.text
    | .ident n => .ident n.text
  def toTy : Ty → TypeA
    | .elem e => .elem (toElem e)
    | .array e len => .array (toElem e) len
  /-- `VisitStructDef` takes its position from the keyword (proto_visitor.go 76-88). -/
  def toStruct : Struct → StructA
    | .mk a n sz b => .mk a.line a.col n.text (sz.map toSize) (toBody b)
  def toBody : Body → BodyA
    | .nil => .nil
    | .cons f r => .cons (toField f) (toBody r)
  def toField : Field → FieldA
    | .empty => .empty
    | .void sz os => .void (toSize sz) (os.map toOpt)
    | .const p n sz v os => .const p (n.map (·.text)) (sz.map toSize) (toVal v) (os.map toOpt)
    | .embedded t os => .embedded (toTy t) (os.map toOpt)
    | .normal t n sz os ms => .normal (toTy t) n.text (sz.map toSize) (os.map toOpt) (ms.map (·.map toMeth))
end

/-- `VisitEnumValue` takes its position from the name (proto_visitor.go 2353-2365). -/
def toEnumElem : EnumElem → EnumElemA
  | .empty => .empty
  | .value n v _ _ => .value n.at'.line n.at'.col n.text (v.map toVal)

/-- `VisitEnumDef` takes its position from the keyword (proto_visitor.go 2189-2201). -/
def toEnum (d : Enum) : EnumA := ⟨d.at'.line, d.at'.col, d.name.text, toSize d.size, d.body.map toEnumElem⟩

/-- `fullIdent` as `GetText` gives it: the tokens without blanks -/
def fullName (i : Id) (is : List Id) : Str := i.text ++ is.flatMap fun j => '.' :: j.text

/-- The parts of a file by kind, in order (`AllImportStatement`, `AllPackageStatement`, `AllOptionStatement`,
`AllTopLevelDef`).  `resolve` turns the name of an import into an absolute path (import_visitor.go 50-73). -/
def toFile (resolve : Str → Option Str) (f : List Stmt) : FileA where
  imports := f.filterMap fun
    | .imp s => some ((unquote s).bind resolve)
    | _ => none
  pkgs := f.filterMap fun
    | .package i is => some (fullName i is)
    | _ => none
  opts := f.filterMap fun
    | .option o => some (toOpt o)
    | _ => none
  tops := f.filterMap fun
    | .struct d => some (.struct (toStruct d))
    | .enum d => some (.enum (toEnum d))
    | _ => none

/-- What is on the disk. -/
inductive Src
  | missing
  | unreadable
  | text (s : Str)

/-- `getProtoAST` (compilation_runtime.go 220-242) -/
def Src.file (resolve : Str → Option Str) : Src → FileS
  | .missing => .missing
  | .unreadable => .unreadable
  | .text s => match read s with
    | none => .garbage
    | some f => .parsed (toFile resolve f)

/-- A directory of sources as the compiler sees it.  `resolve p` is `GetAbsolutelyPathWithBasePath(·, p)`
(fileio/path.go 43-55). -/
def srcFS (resolve : Str → Str → Option Str) (d : Str → Src) : FS := fun p => (d p).file (resolve p)

end Bubbler.Front
