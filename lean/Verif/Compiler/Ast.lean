import Verif.Codec.Schema
import Verif.Util.Num
import Verif.Util.NameStyle

/-
Parse trees (parser/bubbler.g4) as the visitors of compiler/*.go see them, the definitions they build
(definition/*.go), and the errors they report.  Verif/Front models how they come from the text of a file.
-/
namespace Bubbler.Comp

abbrev Str := List Char

/-- definition/position.go 17-21 `BasePosition` -/
structure Pos where
  file : Str
  line : Nat
  col : Nat
deriving DecidableEq

/-! ### Parse trees -/

/-- `constant` of the grammar.  Integer literals are source text; a float literal is reduced to whether
`strconv.ParseFloat` accepts it; a string literal to the result of `strconv.Unquote` (`none` = error). -/
inductive ConstA
  | int (neg : Bool) (text : Str)
  | float (ok : Bool) (neg : Bool) (text : Str)
  | str (val : Option Str)
  | bool (b : Bool)
deriving DecidableEq

/-- `size_`: source text of the byte and bit counts. -/
structure SizeA where
  bytes : Option Str
  bits : Option Str

/-- `fieldOption` / `optionStatement` -/
structure OptA where
  name : Str
  val : ConstA

/-- `fieldMethod`; of the expression only whether all its literals are valid is kept (the expression visitor,
proto_visitor.go 1291-1944, can fail in no other way). -/
structure MethA where
  set : Bool
  name : Option Str
  ty : Prim
  exprOk : Bool

mutual
  /-- `type_` without arrays / `arrayElementType` -/
  inductive ElemA
    | basic (p : Prim)
    | str
    | bytes
    /-- `struct Name` -/
    | structName (n : Str)
    /-- an inline struct definition -/
    | structDef (d : StructA)
    /-- `enum Name` -/
    | enumName (n : Str)
    | ident (n : Str)
  /-- `type_` -/
  inductive TypeA
    | elem (e : ElemA)
    | array (e : ElemA) (len : Str)
  /-- `structDef`; the position is that of the keyword `struct` -/
  inductive StructA
    | mk (line col : Nat) (name : Str) (size : Option SizeA) (body : BodyA)
  /-- `structElement*` -/
  inductive BodyA
    | nil
    | cons (f : FieldA) (rest : BodyA)
  /-- `field | emptyStatement_` -/
  inductive FieldA
    | empty
    | void (size : SizeA) (opts : List OptA)
    /-- the value is a literal or an identifier -/
    | const (p : Prim) (name : Option Str) (size : Option SizeA) (val : ConstA ⊕ Str) (opts : List OptA)
    | embedded (t : TypeA) (opts : List OptA)
    | normal (t : TypeA) (name : Str) (size : Option SizeA) (opts : List OptA) (meths : Option (List MethA))
end

/-- `enumElement`; `enumValueOptions` are ignored by the compiler (2431-2432) -/
inductive EnumElemA
  | empty
  | value (line col : Nat) (name : Str) (val : Option (ConstA ⊕ Str))

/-- `enumDef` -/
structure EnumA where
  line : Nat
  col : Nat
  name : Str
  size : SizeA
  body : List EnumElemA

/-- `topLevelDef` -/
inductive TopA
  | struct (d : StructA)
  | enum (d : EnumA)

/-! ### Definitions -/

/-- Literals (definition/literal.go): the float is kept as text. -/
inductive Lit
  | bool (b : Bool)
  | int (v : Int)
  | float (neg : Bool) (text : Str)
  | str (s : Str)
deriving DecidableEq

/-- `LiteralKindID` (definition/literal.go 11-18) -/
inductive Kind | bool | int | float | str
deriving DecidableEq

def Lit.kind : Lit → Kind
  | .bool _ => .bool
  | .int _ => .int
  | .float _ _ => .float
  | .str _ => .str

/-- definition/enum.go 23-30 `Enum` (position kept in `TypeDef`) -/
structure EnumD where
  name : Str
  bits : Int
  values : List (Str × Int)

mutual
  /-- `Type` (definition/type.go) -/
  inductive CTy
    | basic (p : Prim)
    | str
    | bytes
    | array (e : CTy) (len : Int)
    | struct (s : StructD)
    | enum (e : EnumD)
  /-- definition/struct.go 11-19 `Struct` -/
  inductive StructD
    | mk (name : Str) (bits : Int) (dyn : Bool) (fields : List FieldD)
  /-- definition/field.go: `Field`.  Sizes are int64 values (-1 = dynamic).  `belongs` says whether
  `FieldBelongs` is set, which is looked at for embedded fields only. -/
  inductive FieldD
    | normal (name : Str) (ty : CTy) (bits : Int) (meths : List (Str × List (Bool × Prim))) (opts : List (Str × Lit))
    | void (bits : Int)
    | embedded (s : StructD) (belongs : Bool)
    | const (name : Str) (p : Prim) (bits : Int) (lit : Lit) (opts : List (Str × Lit))
end

def StructD.name : StructD → Str | .mk n _ _ _ => n
def StructD.bits : StructD → Int | .mk _ b _ _ => b
def StructD.dyn : StructD → Bool | .mk _ _ d _ => d
def StructD.fields : StructD → List FieldD | .mk _ _ _ fs => fs

/-- A value of `GlobalTypes`: a struct or enum with its position. -/
structure TypeDef where
  pos : Pos
  ty : CTy

/-- A value of `GlobalNames`: a position; if the definition is an `EnumValue`, its number. -/
structure NameDef where
  pos : Pos
  enumVal : Option Int
deriving DecidableEq

/-- int64 arithmetic wraps around. -/
@[irreducible] def i64 (x : Int) : Int := x.bmod (2 ^ 64)

/-! ### Errors and warnings (definition/error.go, definition/warning.go), without positions and texts -/

inductive CErr
  | nameStyle (n : Str)
  | duplicate (n : Str)
  | invalidSize
  | invalidLiteral
  | emptyStruct (n : Str)
  | emptyEnum (n : Str)
  | notAligned (n : Str)
  | typeMismatch
  | notFound (n : Str)
  | invalidConstIdent (n : Str)
  | typeConflict (n : Str)
  | invalidEmbedded
  | embeddedField (n : Str) (inner : CErr)
  | optionType (n : Str)
  | optionValue (n : Str)
  | optionDuplicate (n : Str)
  | methodsNotAllowed (n : Str)
  | methodType (n : Str)
  | anonymousMethod
  | enumConstType
  | fileNotFound (path : Str)
  | fileRead (path : Str)
  | syntaxError
  | packageNotSet
  | packageStmtDuplicate
  | packageDuplicate (name : Str)
  | importSelf
  | importCycle (path : Str)
  | importing (path : Str) (errs : List CErr)
  /-- `CompileError` around an error that `Compile` returned bare (compilation_runtime.go 131-139) -/
  | located (e : CErr)

inductive Warn
  | nameStyle (orig recomm : Str)
  | unknownOption (n : Str)

/-! ### Maps -/

/-- `OrderedMap.Get` on the list of entries; Verif/Props/OMapProps.lean (C34) proves that the ordered map behaves like
this list. -/
def aget {α : Type} (m : List (Str × α)) (k : Str) : Option α := (m.find? (fun e => e.1 = k)).map (·.2)

/-- `OrderedMap.Put`: an existing key is left alone. -/
def aput {α : Type} (m : List (Str × α)) (k : Str) (v : α) : List (Str × α) :=
  if (aget m k).isSome then m else m ++ [(k, v)]

end Bubbler.Comp
