import Verif.Compiler.Ast

/-
definition/compilation_unit.go: the name tables of one file.
-/
namespace Bubbler.Comp

/-- `CompilationUnit` (9-24).  Imported units are recorded by path.  `warns` collects the warnings of the visitors. -/
structure UnitD where
  path : Str
  pkg : Str
  options : List (Str × Lit)
  globalImports : List Str
  localImports : List Str
  globalTypes : List (Str × TypeDef)
  globalNames : List (Str × NameDef)
  localTypes : List (Str × TypeDef)
  localNames : List (Str × NameDef)
  warns : List Warn

/-- `NewCompilationUnit` (26-38) -/
def UnitD.new (path : Str) : UnitD := ⟨path, [], [], [], [], [], [], [], [], []⟩

/-- Name of a custom type: `GetTypeName` of a struct or enum; other types are never put in the tables. -/
def CTy.customName : CTy → Str
  | .struct s => s.name
  | .enum e => e.name
  | _ => []

/-- The check shared by the four Add functions: bound to a definition at another position? -/
def UnitD.conflicts (u : UnitD) (n : Str) (pos : Pos) : Bool :=
  match aget u.globalNames n with
  | some prev => decide (prev.pos ≠ pos)
  | none => false

/-- `AddLocalType` (45-61); `false` = DefinitionDuplicateError.  The name is kept as a plain position. -/
def UnitD.addLocalType (u : UnitD) (t : TypeDef) : UnitD × Bool :=
  let n := t.ty.customName
  if u.conflicts n t.pos then (u, false) else
  ({ u with globalTypes := aput u.globalTypes n t, globalNames := aput u.globalNames n ⟨t.pos, none⟩,
            localTypes := aput u.localTypes n t, localNames := aput u.localNames n ⟨t.pos, none⟩ }, true)

/-- `AddLocalName` (66-79) -/
def UnitD.addLocalName (u : UnitD) (n : Str) (d : NameDef) : UnitD × Bool :=
  if u.conflicts n d.pos then (u, false) else
  ({ u with globalNames := aput u.globalNames n d, localNames := aput u.localNames n d }, true)

/-- `AddGlobalType` (88-101) -/
def UnitD.addGlobalType (u : UnitD) (t : TypeDef) : UnitD × Bool :=
  let n := t.ty.customName
  if u.conflicts n t.pos then (u, false) else
  ({ u with globalTypes := aput u.globalTypes n t, globalNames := aput u.globalNames n ⟨t.pos, none⟩ }, true)

/-- `AddGlobalName` (108-120) -/
def UnitD.addGlobalName (u : UnitD) (n : Str) (d : NameDef) : UnitD × Bool :=
  if u.conflicts n d.pos then (u, false) else ({ u with globalNames := aput u.globalNames n d }, true)

/-- The first loop of `AddImport` (138-150) -/
def UnitD.importNames : UnitD → List (Str × NameDef) → List CErr → UnitD × List CErr
  | u, [], errs => (u, errs)
  | u, (n, d) :: r, errs =>
    match u.addGlobalName n d with
    | (u', true) => u'.importNames r errs
    | (u', false) => u'.importNames r (errs ++ [.duplicate n])

/-- The second loop of `AddImport` (151-161) -/
def UnitD.importTypes : UnitD → List (Str × TypeDef) → List CErr → UnitD × List CErr
  | u, [], errs => (u, errs)
  | u, (_, t) :: r, errs =>
    match u.addGlobalType t with
    | (u', true) => u'.importTypes r errs
    | (u', false) => u'.importTypes r (errs ++ [.duplicate t.ty.customName])

/-- `OrderedMap.Put` on a set of paths -/
def sput (m : List Str) (k : Str) : List Str := if k ∈ m then m else m ++ [k]

/-- `AddImport` (123-180); the errors come wrapped in one ImportingError. -/
def UnitD.addImport (u : UnitD) (other : UnitD) : UnitD × Option CErr :=
  if other.path ∈ u.globalImports then ({ u with localImports := sput u.localImports other.path }, none) else
  let r1 := u.importNames other.globalNames []
  let r2 := r1.1.importTypes other.globalTypes r1.2
  if r2.2 ≠ [] then (r2.1, some (.importing u.path r2.2)) else
  ({ r2.1 with localImports := sput r2.1.localImports other.path,
               globalImports := other.globalImports.foldl sput (sput r2.1.globalImports other.path) }, none)

end Bubbler.Comp
