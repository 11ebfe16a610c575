import Verif.Compiler.Unit

/-
compiler/proto_visitor.go, compiler/literal_visitor.go and compiler/option_validator.go: from parse trees to definitions.
Line numbers without a file name refer to proto_visitor.go.

A visitor method returns a value or an error and changes the compilation unit on the way (also when it fails).
Every error the visitors produce is a `CompileError`, hence a `TopLevelError`.
-/
namespace Bubbler.Comp

/-- What a visitor method returns. -/
inductive Out (α : Type)
  | ok (a : α)
  | err (es : List CErr)
  /-- the Go program panics -/
  | panic

/-- A visitor method. -/
abbrev V (α : Type) := UnitD → Out α × UnitD

def V.pure {α : Type} (a : α) : V α := fun u => (.ok a, u)

/-- `switch val := ret.(type) { case error: return val; ... }` -/
def V.bind {α β : Type} (x : V α) (f : α → V β) : V β := fun u =>
  match x u with
  | (.ok a, u') => f a u'
  | (.err es, u') => (.err es, u')
  | (.panic, u') => (.panic, u')

instance : Monad V where
  pure := V.pure
  bind := V.bind

def fail {α : Type} (e : CErr) : V α := fun u => (.err [e], u)

/-- `v.Warning = TopLevelWarningsJoin(v.Warning, w)` -/
def warn (w : Warn) : V Unit := fun u => (.ok (), { u with warns := u.warns ++ [w] })

def getU : V UnitD := fun u => (.ok u, u)

/-! ### Literals (literal_visitor.go) -/

/-- `VisitIntLit` (literal_visitor.go 125-142): `strconv.ParseInt(text, 0, 64)`.  An `INT_LIT` token (bubbler.g4) has no
sign, so the sign cases of ParseInt do not arise. -/
def visitIntLit (t : Str) : V Int :=
  match Num.parseNat t with
  | some n => if n < 2 ^ 63 then pure (n : Int) else fail .invalidLiteral
  | none => fail .invalidLiteral

/-- `VisitConstant` (literal_visitor.go 25-117) -/
def visitConstant : ConstA → V Lit
  | .int neg t => do
    let v ← visitIntLit t
    pure (.int (if neg then i64 (-v) else v))
  | .float ok neg t => if ok then pure (.float neg t) else fail .invalidLiteral
  | .str none => fail .invalidLiteral
  | .str (some s) => pure (.str s)
  | .bool b => pure (.bool b)

/-- The byte or bit count of a size, if present (870-892) -/
def visitOptInt : Option Str → V Int
  | some t => visitIntLit t
  | none => pure 0

/-- `VisitSize_` (867-907) -/
def visitSizeA (s : SizeA) : V Int := do
  let bytes ← visitOptInt s.bytes
  let bits ← visitOptInt s.bits
  match Num.visitSize (some (BitVec.ofInt 64 bytes)) (some (BitVec.ofInt 64 bits)) with
  | some t => pure t.toInt
  | none => fail .invalidSize

/-- An optional size: `size := int64(0); if ctx.Size_() != nil {...}` (101-112, 481-492, 720-731) -/
def visitOptSize : Option SizeA → V Int
  | none => pure 0
  | some s => visitSizeA s

/-! ### Names -/

/-- `VisitStructName` (244-276), `VisitFieldName` (917-949), `VisitMethodName` (1219-1251), `VisitEnumName`
(2441-2473), `VisitEnumValueName` (2475-2507): a check and a recommendation. -/
def visitName (check : Str → Bool) (conv : Str → Str) (n : Str) : V Str :=
  if !check n then fail (.nameStyle n)
  else if n ≠ conv (conv n) then do
    warn (.nameStyle n (conv (conv n)))
    pure n
  else pure n

def visitStructName : Str → V Str := visitName Name.isCapitalized Name.toPascal
def visitEnumName : Str → V Str := visitName Name.isCapitalized Name.toPascal
def visitFieldName : Str → V Str := visitName Name.isUncapitalized Name.toSnake
def visitMethodName : Str → V Str := visitName Name.isUncapitalized Name.toSnake
def visitEnumValueName : Str → V Str := visitName Name.isCapitalized Name.toAllCap

/-- `AddLocalName` with its error wrapped (89-99, 2202-2212) -/
def addLocalName (n : Str) (d : NameDef) : V Unit := fun u =>
  match u.addLocalName n d with
  | (u', true) => (.ok (), u')
  | (u', false) => (.err [.duplicate n], u')

/-! ### Options (option_validator.go) -/

/-- `OptionValidator` (29-32) -/
structure Validator where
  types : List (Str × Kind)
  values : List (Str × List Lit)

/-- `AddOption` (41-50) -/
def Validator.add (v : Validator) (name : Str) (k : Kind) (vals : List Lit) : Validator :=
  { types := aput v.types name k, values := if vals = [] then v.values else aput v.values name vals }

/-- `FileOptionValidator` (14-20) -/
def fileValidator : Validator :=
  ((((((⟨[], []⟩ : Validator).add "omit_empty".toList .bool []).add "csharp_namespace".toList .str []).add
    "cpp_namespace".toList .str []).add "go_package".toList .str []).add "java_package".toList .str []).add
    "kotlin_package".toList .str []

/-- `FieldOptionValidator` (22-23) -/
def fieldValidator : Validator :=
  (⟨[], []⟩ : Validator).add "order".toList .str [.str "big".toList, .str "little".toList]

/-- Result of `ValidateOption`: nil, a warning or an error. -/
inductive VRes | good | warning (w : Warn) | error (e : CErr)

/-- `ValidateOption` (52-94) -/
def Validator.validate (v : Validator) (name : Str) (val : Lit) : VRes :=
  match aget v.types name with
  | some k =>
    if val.kind ≠ k then .error (.optionType name) else
    match aget v.values name with
    | some vs => if val ∈ vs then .good else .error (.optionValue name)
    | none => .good
  | none =>
    match aget v.values name with
    | some vs => if val ∈ vs then .good else .error (.optionValue name)
    | none => .warning (.unknownOption name)

/-- The loop of `VisitFieldOptions` (969-991) -/
def visitFieldOptions : List OptA → List (Str × Lit) → V (List (Str × Lit))
  | [], acc => pure acc
  | o :: r, acc => do
    let val ← visitConstant o.val
    match fieldValidator.validate o.name val with
    | .error e => fail e
    | .warning w =>
      warn w
      if (aget acc o.name).isSome then fail (.optionDuplicate o.name) else visitFieldOptions r (aput acc o.name val)
    | .good =>
      if (aget acc o.name).isSome then fail (.optionDuplicate o.name) else visitFieldOptions r (aput acc o.name val)

/-! ### Methods -/

/-- An optional name: `name := ""; if ctx.X() != nil {...}` (707-718, 1141-1152) -/
def visitOptName (v : Str → V Str) : Option Str → V Str
  | some n => v n
  | none => pure []

/-- `VisitFieldMethod` (1129-1217): kind, name, type -/
def visitMethod (m : MethA) : V (Bool × Str × Prim) := do
  let name ← visitOptName visitMethodName m.name
  if name = [] then fail .anonymousMethod
  else if !m.exprOk then fail .invalidLiteral
  else pure (m.set, name, m.ty)

/-- `addMethod` (1062-1096) -/
def addMethod (ms : List (Str × List (Bool × Prim))) (set : Bool) (name : Str) (ty : Prim) :
    Except CErr (List (Str × List (Bool × Prim))) :=
  match aget ms name with
  | some group =>
    if group.any (fun e => e.1 = set) then .error (.duplicate name)
    else if group.head?.any (fun e => e.2 ≠ ty) then .error (.methodType name)
    else .ok (ms.map fun e => if e.1 = name then (e.1, e.2 ++ [(set, ty)]) else e)
  | none => .ok (ms ++ [(name, [(set, ty)])])

/-- The loop of `VisitFieldMethods` (1098-1126) -/
def visitMethods : List MethA → List (Str × List (Bool × Prim)) → List CErr → V (List (Str × List (Bool × Prim)))
  | [], ms, errs => if errs = [] then pure ms else fun u => (.err errs, u)
  | m :: r, ms, errs => fun u =>
    match visitMethod m u with
    | (.panic, u') => (.panic, u')
    | (.err es, u') => visitMethods r ms (errs ++ es) u'
    | (.ok (set, name, ty), u') =>
      match addMethod ms set name ty with
      | .error e => (.err [e], u')
      | .ok ms' => visitMethods r ms' errs u'

/-! ### Types -/

/-- `GetTypeDynamic` (definition/type.go 149-151, 184-186, 209-211, 241-243; struct.go 51-53; enum.go 67-69) -/
def CTy.dyn : CTy → Bool
  | .basic _ => false
  | .str => true
  | .bytes => true
  | .array e _ => e.dyn
  | .struct s => s.dyn
  | .enum _ => false

/-- `GetTypeBitSize` (definition/type.go 145-147, 180-182, 205-207, 234-239; struct.go 47-49; enum.go 63-65) -/
def CTy.bits : CTy → Int
  | .basic p => p.width
  | .str => -1
  | .bytes => -1
  | .array e len => if e.dyn then -1 else i64 (e.bits * len)
  | .struct s => s.bits
  | .enum e => e.bits

/-- Look a type up by name (`VisitType_` 1967-1983, 2087-2103) -/
def lookupType (n : Str) : V CTy := fun u =>
  match aget u.globalTypes n with
  | some t => (.ok t.ty, u)
  | none => (.err [.notFound n], u)

/-- `ctx.StructName().Accept(v).(string)`: a failed type assertion panics (2113, 2151). -/
def nameOrPanic (v : Str → V Str) (n : Str) : V Str := fun u =>
  match v n u with
  | (.ok s, u') => (.ok s, u')
  | (_, u') => (.panic, u')

/-- `VisitStructType` with a name (2112-2145) -/
def lookupStruct (n : Str) : V CTy := do
  let n ← nameOrPanic visitStructName n
  match ← lookupType n with
  | .struct s => pure (.struct s)
  | _ => fail (.typeConflict n)

/-- `VisitEnumType` (2149-2185) -/
def lookupEnum (n : Str) : V CTy := do
  let n ← nameOrPanic visitEnumName n
  match ← lookupType n with
  | .enum e => pure (.enum e)
  | _ => fail (.typeConflict n)

/-! ### Fields -/

/-- `GetFieldBitSize` (definition/field.go 112-114, 179-181, 244-249, 314-316) -/
def FieldD.bits : FieldD → Int
  | .normal _ _ b _ _ => b
  | .void b => b
  | .embedded _ _ => 0
  | .const _ _ b _ _ => b

/-- The size of a normal field (494-541): given type and declared size (0 = none) -/
def normalSize (t : CTy) (size : Int) : V Int :=
  if size = 0 then pure t.bits
  else if t.bits = -1 then fail .invalidSize
  else if size > t.bits then fail .invalidSize
  else match t with
    | .array _ len => if size.tmod len ≠ 0 then fail .invalidSize else pure size
    | .struct _ => if size ≠ t.bits then fail .invalidSize else pure size
    | _ => pure size

/-- `VisitFieldNormal` (456-607) after the type has been visited -/
def visitNormalRest (t : CTy) (name : Str) (size : Option SizeA) (opts : List OptA) (meths : Option (List MethA)) :
    V FieldD := do
  let name ← visitFieldName name
  let size ← visitOptSize size
  let size ← normalSize t size
  let opts ← visitFieldOptions opts []
  match meths with
  | none => pure (.normal name t size [] opts)
  | some ms =>
    match t with
    | .basic _ => do
      let ms ← visitMethods ms [] []
      pure (.normal name t size ms opts)
    | _ => fail (.methodsNotAllowed name)

/-- `TypeID.IsBool` / `IsIntOrUint` / `IsFloat` (definition/type.go 30-48) -/
def Prim.isBool : Prim → Bool | .bool => true | _ => false
def Prim.isFloat : Prim → Bool | .f32 | .f64 => true | _ => false

/-- The literal check of `VisitFieldConstant` (802-827); basic types are never strings. -/
def literalMatches (p : Prim) : Lit → Bool
  | .bool _ => Prim.isBool p
  | .int v => p.isInteger && !(decide (v < 0) && !p.signed)
  | .float _ _ => Prim.isFloat p
  | .str _ => false

/-- The literal of a constant: written out or the name of an enum value (754-800) -/
def visitConstVal : ConstA ⊕ Str → V Lit
  | .inl c => visitConstant c
  | .inr n => fun u =>
    match aget u.globalNames n with
    | none => (.err [.notFound n], u)
    | some d =>
      match d.enumVal with
      | some v => (.ok (.int v), u)
      | none => (.err [.invalidConstIdent n], u)

/-- The size of a constant field (733-752) -/
def constSize (p : Prim) (size : Int) : V Int :=
  if size = 0 then pure (p.width : Int) else if size > p.width then fail .invalidSize else pure size

/-- `VisitFieldConstant` (695-865) -/
def visitConst (p : Prim) (name : Option Str) (size : Option SizeA) (val : ConstA ⊕ Str) (opts : List OptA) : V FieldD := do
  let name ← visitOptName visitFieldName name
  let size ← visitOptSize size
  let size ← constSize p size
  let lit ← visitConstVal val
  if !literalMatches p lit then fail .typeMismatch else do
  let opts ← visitFieldOptions opts []
  pure (.const name p size lit opts)

/-! ### Struct bodies -/

/-- What `VisitStructBody` has collected (280-281): names and fields -/
structure Acc where
  names : List Str
  fields : List FieldD

/-- `addName` (283-296) -/
def addName (a : Acc) (n : Str) : Except CErr Acc :=
  if n ∈ a.names then .error (.duplicate n) else .ok { a with names := a.names ++ [n] }

def addNames (a : Acc) : List Str → Except CErr Acc
  | [] => .ok a
  | n :: r => match addName a n with
    | .ok a' => addNames a' r
    | .error e => .error e

/-- `fields.Put` / `fields.PutAnonymous`: the names have been checked, so `Put` always inserts. -/
def Acc.push (a : Acc) (f : FieldD) : Acc := { a with fields := a.fields ++ [f] }

mutual
  /-- `addField` (298-374); `Copy` is the identity here. -/
  def addField : FieldD → Acc → Except CErr Acc
    | .normal n t b ms os, a =>
      match addName a n with
      | .error e => .error e
      | .ok a1 =>
        match addNames a1 (ms.map (·.1)) with
        | .error e => .error e
        | .ok a2 => .ok (a2.push (.normal n t b ms os))
    | .embedded (.mk n b d fs) belongs, a =>
      match addName a n with
      | .error e => .error e
      | .ok a1 =>
        let a2 := a1.push (.embedded (.mk n b d fs) belongs)
        if belongs then .ok a2 else addFields fs a2
    | .void b, a => .ok (a.push (.void b))
    | .const n p b l os, a =>
      if n = [] then .ok (a.push (.const n p b l os)) else
      match addName a n with
      | .error e => .error e
      | .ok a1 => .ok (a1.push (.const n p b l os))
  def addFields : List FieldD → Acc → Except CErr Acc
    | [], a => .ok a
    | f :: r, a =>
      match addField f a with
      | .error e => .error e
      | .ok a' => addFields r a'
end

/-- The error of `addField`, wrapped for embedded fields (393-407) -/
def wrapAdd : FieldD → CErr → CErr
  | .embedded s _, e => .embeddedField s.name e
  | _, e => e

/-- `SetFieldBelongs` (150-152) -/
def setBelongs : FieldD → FieldD
  | .embedded s _ => .embedded s true
  | f => f

/-- `isMustAlignedType` (157-172) -/
def CTy.mustAlign : CTy → Bool
  | .struct _ => true
  | .str => true
  | .bytes => true
  | .array e _ => e.mustAlign
  | _ => false

/-- `ForEachField` (definition/struct.go 97-111) with the alignment check as its argument (155-191).
`none` = all aligned. -/
def checkAlign : List FieldD → Int → Option CErr
  | [], _ => none
  | f :: r, start =>
    let next := if f.bits ≠ -1 then i64 (start + f.bits) else start
    match f with
    | .normal n t _ _ _ => if t.mustAlign && decide (start.tmod 8 ≠ 0) then some (.notAligned n) else checkAlign r next
    | _ => checkAlign r next

/-- `SumFieldBitSize` (definition/struct.go 79-95), first result -/
def sumBits : List FieldD → Int → Int
  | [], acc => acc
  | f :: r, acc => sumBits r (if f.bits > 0 then i64 (acc + f.bits) else acc)

/-- `SumFieldBitSize`, second result -/
def anyDyn : List FieldD → Bool
  | [] => false
  | .normal _ t _ _ _ :: r => t.dyn || anyDyn r
  | _ :: r => anyDyn r

/-- `VisitStructDef` (133-242) after the body has been visited -/
def finishStruct (name : Str) (size : Int) (fields : List FieldD) : V StructD :=
  if fields = [] then fail (.emptyStruct name) else
  let fs := fields.map setBelongs
  match checkAlign fs 0 with
  | some e => fail e
  | none =>
    let fixed := sumBits fs 0
    let dynamic := anyDyn fs
    if fixed.tmod 8 ≠ 0 then fail .invalidSize
    else if size = 0 then pure (.mk name fixed dynamic fs)
    else if dynamic then fail .invalidSize
    else if fixed ≠ size then fail .invalidSize
    else pure (.mk name size false fs)

mutual
  /-- `VisitArrayElementType` (2070-2106), `VisitStructType` (2108-2147), non-array part of `VisitType_` (1948-1986) -/
  def visitElem : ElemA → V CTy
    | .basic p => pure (.basic p)
    | .str => pure .str
    | .bytes => pure .bytes
    | .structName n => lookupStruct n
    | .structDef d => do
      let s ← visitStruct d
      pure (.struct s)
    | .enumName n => lookupEnum n
    | .ident n => lookupType n
  /-- `VisitType_` (1948-1986), `VisitArrayType` (2025-2068) -/
  def visitType : TypeA → V CTy
    | .elem e => visitElem e
    | .array e len => do
      let t ← visitElem e
      let l ← visitIntLit len
      if l = 0 then fail .invalidSize else pure (.array t l)
  /-- `VisitStructElement` (428-436), `VisitField` (440-454), `VisitFieldEmbedded` (609-654), `VisitFieldVoid` (656-693) -/
  def visitField : FieldA → V (Option FieldD)
    | .empty => pure none
    | .void s opts => do
      let size ← visitSizeA s
      let _ ← visitFieldOptions opts []
      pure (some (.void size))
    | .const p n s v opts => do
      let f ← visitConst p n s v opts
      pure (some f)
    | .embedded t opts => do
      match ← visitType t with
      | .struct s => do
        let _ ← visitFieldOptions opts []
        pure (some (.embedded s false))
      | _ => fail .invalidEmbedded
    | .normal t n s opts ms => do
      let ty ← visitType t
      let f ← visitNormalRest ty n s opts ms
      pure (some f)
  /-- The loop of `VisitStructBody` (376-426) -/
  def visitBody : BodyA → Acc → List CErr → V (List FieldD)
    | .nil, a, errs => if errs = [] then pure a.fields else fun u => (.err errs, u)
    | .cons f r, a, errs => fun u =>
      match visitField f u with
      | (.panic, u') => (.panic, u')
      | (.err es, u') => visitBody r a (errs ++ es) u'
      | (.ok none, u') => visitBody r a errs u'
      | (.ok (some fd), u') =>
        match addField fd a with
        | .error e => (.err [wrapAdd fd e], u')
        | .ok a' => visitBody r a' errs u'
  /-- `VisitStructDef` (76-242) -/
  def visitStruct : StructA → V StructD
    | .mk line col name size body => do
      let name ← visitStructName name
      let u ← getU
      addLocalName name ⟨⟨u.path, line, col⟩, none⟩
      let size ← visitOptSize size
      let fields ← visitBody body ⟨[], []⟩ []
      finishStruct name size fields
end

/-! ### Enums -/

/-- The number written for an enum value, -1 if none (2366-2429) -/
def visitEnumNum : Option (ConstA ⊕ Str) → V Int
  | none => pure (-1)
  | some c => do
    match ← visitConstVal c with
    | .int v => pure v
    | _ => fail .enumConstType

/-- `VisitEnumValue` (2353-2439): position, name, number -/
def visitEnumValue (line col : Nat) (name : Str) (val : Option (ConstA ⊕ Str)) : V (Pos × Str × Int) := do
  let name ← visitEnumValueName name
  let v ← visitEnumNum val
  let u ← getU
  pure (⟨u.path, line, col⟩, name, v)

/-- The value an enum member gets in `addValue` (2299-2305) -/
def enumNumber (prev : List (Pos × Str × Int)) (v : Int) : Int :=
  if v = -1 then
    match prev.getLast? with
    | some (_, _, p) => i64 (p + 1)
    | none => 0
  else v

/-- The loop of `VisitEnumBody` (2284-2341) -/
def visitEnumBody : List EnumElemA → List (Pos × Str × Int) → List CErr → V (List (Pos × Str × Int))
  | [], vs, errs => if errs = [] then pure vs else fun u => (.err errs, u)
  | .empty :: r, vs, errs => visitEnumBody r vs errs
  | .value line col n val :: r, vs, errs => fun u =>
    match visitEnumValue line col n val u with
    | (.panic, u') => (.panic, u')
    | (.err es, u') => visitEnumBody r vs (errs ++ es) u'
    | (.ok (pos, name, v), u') =>
      if vs.any (fun e => e.2.1 = name) then (.err [.duplicate name], u')
      else visitEnumBody r (vs ++ [(pos, name, enumNumber vs v)]) errs u'

/-- Registering the value names (2249-2263) -/
def addEnumNames : List (Pos × Str × Int) → List CErr → V Unit
  | [], errs => if errs = [] then pure () else fun u => (.err errs, u)
  | (pos, n, v) :: r, errs => fun u =>
    match addLocalName n ⟨pos, some v⟩ u with
    | (.ok _, u') => addEnumNames r errs u'
    | (.err es, u') => addEnumNames r (errs ++ es) u'
    | (.panic, u') => (.panic, u')

/-- `VisitEnumDef` (2189-2282) -/
def visitEnum (d : EnumA) : V EnumD := do
  let name ← visitEnumName d.name
  let u ← getU
  addLocalName name ⟨⟨u.path, d.line, d.col⟩, none⟩
  let size ← visitSizeA d.size
  let vs ← visitEnumBody d.body [] []
  if vs = [] then fail (.emptyEnum name) else do
  addEnumNames vs []
  pure ⟨name, size, vs.map (·.2)⟩

/-! ### Files -/

/-- `VisitTopLevelDef` (63-71): the definition with its position -/
def visitTop (t : TopA) : V TypeDef := do
  let u ← getU
  match t with
  | .struct (.mk line col n s b) => do
    let sd ← visitStruct (.mk line col n s b)
    pure ⟨⟨u.path, line, col⟩, .struct sd⟩
  | .enum d => do
    let ed ← visitEnum d
    pure ⟨⟨u.path, d.line, d.col⟩, .enum ed⟩

/-- `VisitProto` (44-60); the result of AddLocalType is ignored (54). -/
def visitProto : List TopA → List CErr → V Unit
  | [], errs => if errs = [] then pure () else fun u => (.err errs, u)
  | t :: r, errs => fun u =>
    match visitTop t u with
    | (.panic, u') => (.panic, u')
    | (.err es, u') => visitProto r (errs ++ es) u'
    | (.ok td, u') => visitProto r errs (u'.addLocalType td).1

end Bubbler.Comp
