import Verif.Gen.Files
import Verif.Gen.Scope
import Verif.Util.NameStyle

/-
The include and import statements of the outputs: what the templates of the targets write for another unit.
-/
namespace Bubbler.Gen
open Comp
open Text hiding Str

/-- `NewPackage` (definition/package.go 15-31) of the parts -/
def pkgOfParts (ps : List Str) : Pkg := ⟨ps.dropLast, ps.getLastD []⟩

/-- The package of the Java files: java.go 209-214 -/
def javaText (u : UnitD) : Str :=
  match aget u.options "java_package".toList with
  | some l => optText l
  | none => joinOn '.' (unitPkg u)

/-- The namespace of the C# file: csharp.go 224-231 -/
def csharpText (u : UnitD) : Str :=
  match aget u.options "csharp_namespace".toList with
  | some l => Name.toPascal (optText l)
  | none => Name.toPascal (joinOn '.' (unitPkg u))

/-- The text that stands for the output of the unit `v` in an include or import statement of the output of `u`; `rel` is `-relpath`.
c.go 342-346, cpp.go 352-356, python.go 175-179, commonjs.go 302, esm.go 291, java.go 218-223, csharp.go 214-219, kotlin.go 80-82,
golang.go 338-342.  (JavaScript always uses relative paths: commonjs.go 186-194, esm.go 199-207.) -/
def FileTarget.refText (t : FileTarget) (rel : Bool) (u v : UnitD) : Str :=
  let p := pkgOfParts (unitPkg u)
  let q := pkgOfParts (unitPkg v)
  match t with
  | .c => if rel then p.toRelativePathStrict q ".bb.h".toList else q.toFilePath ".bb.h".toList
  | .cpp => if rel then p.toRelativePathStrict q ".bb.hpp".toList else q.toFilePath ".bb.hpp".toList
  | .python => if rel then p.toPyRelativePath q "_bb".toList else joinOn '.' q.full ++ "_bb".toList
  | .commonjs => p.toRelativePathStrict q ".bb".toList
  | .esm => p.toRelativePathStrict q ".bb.js".toList
  | .java =>
    (match aget v.options "java_package".toList with
      | some l => optText l
      | none => joinOn '.' (unitPkg v)) ++ ".*".toList
  | .csharp =>
    match aget v.options "csharp_namespace".toList with
    | some l => Name.toPascal (optText l)
    | none => Name.toPascal (joinOn '.' (unitPkg v))
  | .kotlin => kotlinPkg v ++ ".*".toList
  | .go =>
    if rel then (pkgOfParts (goPkg u)).toRelativePathStrict (pkgOfParts (goPkg v)) []
    else joinOn '/' (pkgOfParts (goPkg v)).full

/-- The loop over the imports in the Kotlin generator (kotlin.go 78-86): the names of the packages -/
def kotlinImports (pkg : Str) (seen : List Str) : List Str → List Str
  | [] => []
  | p :: r => if p ≠ [] ∧ p ≠ pkg ∧ p ∉ seen then p :: kotlinImports pkg (p :: seen) r else kotlinImports pkg seen r

/-- The units a unit imports (`LocalImports.Values()`) -/
def importedUnits (us : List UnitD) (u : UnitD) : List UnitD := u.localImports.filterMap fun p => us.find? fun v => v.path = p

/-- The references in the output of a unit, for all targets but Go -/
def FileTarget.refs (t : FileTarget) (rel : Bool) (us : List UnitD) (u : UnitD) : List Str :=
  match t with
  | .kotlin => (kotlinImports (kotlinPkg u) [] ((importedUnits us u).map kotlinPkg)).map (· ++ ".*".toList)
  | _ => (importedUnits us u).map (t.refText rel u)

/-- The references in a Go output: golang.go 334-343 for the result of `resolveImports` -/
def goRefs (rel : Bool) (us : List UnitD) (u : UnitD) (imps : List Str) : List Str :=
  imps.filterMap fun p => (us.find? fun v => v.path = p).map (FileTarget.refText .go rel u)

/-- The include statement for the own header: c.go 385-389, cpp.go 406-410 -/
def FileTarget.selfRef (t : FileTarget) (rel : Bool) (u : UnitD) : Str := t.refText rel u u

/-- The package or namespace statement of the files of an output: java.go 209-214, csharp.go 224-231, kotlin.go 114-118 (without a
statement if it is empty), golang.go 332 (the last part) -/
def FileTarget.declText (t : FileTarget) (u : UnitD) : Str :=
  match t with
  | .java => javaText u
  | .csharp => csharpText u
  | .kotlin => kotlinPkg u
  | .go => (pkgOfParts (goPkg u)).name
  | _ => []

/-- The name an ES module gives to what it imports (esm.go 291) -/
def esmName (v : UnitD) : Str := '$' :: (pkgOfParts (unitPkg v)).name

/-- The namespace of a C++ output (cpp.go 360-367) -/
def cppNamespace (u : UnitD) : Str :=
  match aget u.options "cpp_namespace".toList with
  | some l => optText l
  | none => (unitPkg u).intersperse "::".toList |>.flatten

/-- The name by which other C++ code refers to a struct of a unit (cpp.go 738) -/
def cppStructName (u : UnitD) (n : Str) : Str := ((unitPkg u).intersperse "::".toList |>.flatten) ++ "::".toList ++ n

end Bubbler.Gen
