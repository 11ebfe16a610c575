import Verif.Gen.Driver

/-
Which other outputs an output refers to.

All targets but Go refer to the files named in `import` statements (`LocalImports`): C and C++ include their headers (c.go 338-349,
cpp.go 348-359), Python and CommonJS take over everything these export, which includes what they took over themselves (python.go
173-180, commonjs.go 299-309), Java, C# and Kotlin import their packages (java.go 216-224, csharp.go 212-222, kotlin.go 78-86), ESM
imports their default exports (esm.go 290-292).  The Go generator looks for the owners of the types it finds.
-/
namespace Bubbler.Gen
open Comp

/-- The unit a type belongs to (`StructBelongs`, `EnumBelongs`), by the names of the type and the path of the unit.  In the
program this is a field of the type; a name stands for one type (C55), so it can be a table. -/
abbrev Owners := List (Str × Str)

mutual
  /-- `SetBelongs` (definition/struct.go 57-75, enum.go 66-68) where nothing is set: a type that has an owner is left alone.  The
  element type of an array is never an array (grammar), so the one level of the program is all there is. -/
  def belongTy (p : Str) : CTy → Owners → Owners
    | .basic _, m => m
    | .str, m => m
    | .bytes, m => m
    | .array e _, m => belongTy p e m
    | .struct (.mk n _ _ fs), m => if n ∈ m.map (·.1) then m else belongF p fs (m ++ [(n, p)])
    | .enum e, m => if e.name ∈ m.map (·.1) then m else m ++ [(e.name, p)]
  /-- The loop over the fields (59-74) -/
  def belongF (p : Str) : List FieldD → Owners → Owners
    | [], m => m
    | .normal _ t _ _ _ :: r, m => belongF p r (belongTy p t m)
    | .void _ :: r, m => belongF p r m
    | .embedded _ _ :: r, m => belongF p r m
    | .const _ _ _ _ _ :: r, m => belongF p r m
end

/-- `AddLocalType` calls `SetBelongs` for every definition (compilation_unit.go 59). -/
def belongTypes (p : Str) : List (Str × TypeDef) → Owners → Owners
  | [], m => m
  | (_, t) :: r, m => belongTypes p r (belongTy p t.ty m)

/-- The owners after all units have been compiled, in order -/
def ownersFrom : List UnitD → Owners → Owners
  | [], m => m
  | u :: r, m => ownersFrom r (belongTypes u.path u.localTypes m)

def owners (us : List UnitD) : Owners := ownersFrom us []

mutual
  /-- `dfsStructType` (golang.go 175-205): the types found in a field, without those whose name is in `loc`, the `LocalNames` -/
  def needTy (loc : List Str) : CTy → List Str
    | .basic _ => []
    | .str => []
    | .bytes => []
    | .array e _ => needTy loc e
    | .struct (.mk n _ _ fs) => needF loc fs ++ (if n ∈ loc then [] else [n])
    | .enum e => if e.name ∈ loc then [] else [e.name]
  def needF (loc : List Str) : List FieldD → List Str
    | [] => []
    | .normal _ t _ _ _ :: r => needTy loc t ++ needF loc r
    | .void _ :: r => needF loc r
    | .embedded _ _ :: r => needF loc r
    | .const _ _ _ _ _ :: r => needF loc r
end

/-- The outer loop of `resolveImports` (168-172, 207): the fields of the structs of the unit -/
def needUnit (u : UnitD) : List Str :=
  u.localTypes.flatMap fun e =>
    match e.2.ty with
    | .struct s => needF (u.localNames.map (·.1)) s.fields
    | _ => []

/-- Looking up the output of the owner (196-204); units are known by their path instead of their package, which is different for
different units (C32).  `none` = the error "unreachable" (199-201), or no owner (a nil pointer). -/
def importOf (gen : List Str) (own : Owners) : List Str → Option (List Str)
  | [] => some []
  | n :: r =>
    match aget own n with
    | none => none
    | some p =>
      if p ∈ gen then
        match importOf gen own r with
        | none => none
        | some l => some (p :: l)
      else none

/-- `resolveImports` (166-211): `gen` are the units that have an output so far, this one included (`GenUnitsByPkg`, 439).  The
result is a set (`imports.Put`). -/
def resolveImports (gen : List Str) (own : Owners) (u : UnitD) : Option (List Str) := importOf gen own (needUnit u)

end Bubbler.Gen
