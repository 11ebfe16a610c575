import Verif.Gen.Driver
import Verif.Util.Text

/-
The files the generators write: `GenerateUnit` of every target up to the calls of `WritePackage` and `WriteFile`, and what these do
with the names (generator/gen/gen_ctx.go 44-72).
-/
namespace Bubbler.Gen
open Comp
open Text hiding Str

/-- The targets (generator/target/*) -/
inductive FileTarget | c | cpp | python | csharp | commonjs | esm | go | java | kotlin
deriving DecidableEq

/-- `unit.Package.PackageFullPaths`: `VisitFullIdent` gives the identifiers between the dots; `UnitD.pkg` is the text of the package -/
def unitPkg (u : UnitD) : List Str := splitOn '.' u.pkg

/-- The text of an option: `fmt.Sprint` of a string literal is the string in quotes (definition/literal.go 278-280), which are cut off
(golang.go 413-414, java.go 240-241); Kotlin takes the string (kotlin.go 62-64).  These options are strings, or the file is refused
(option_validator.go 17-19). -/
def optText : Lit → Str
  | .str s => s
  | _ => []

/-- The package of the Go output (golang.go 411-417): `go_package`, split at slashes -/
def goPkg (u : UnitD) : List Str :=
  match aget u.options "go_package".toList with
  | some l => splitOn '/' (optText l)
  | none => unitPkg u

/-- The package of the Java output (java.go 238-244): `java_package`, split at dots -/
def javaPkg (u : UnitD) : List Str :=
  match aget u.options "java_package".toList with
  | some l => splitOn '.' (optText l)
  | none => unitPkg u

/-- `kotlinPackage` (kotlin.go 62-71) -/
def kotlinPkg (u : UnitD) : Str :=
  match aget u.options "kotlin_package".toList with
  | some l => optText l
  | none => u.pkg

/-- `strings.ReplaceAll(s, ".", "/")` -/
def dotsToSlashes (s : Str) : Str := s.map fun c => if c = '.' then '/' else c

/-- The file names: c.go 491-505, cpp.go 562-576, python.go 255, csharp.go 338, commonjs.go 1059, esm.go 983 (`WritePackage`, gen_ctx.go
44-53: `ToFilePath`); golang.go 475; java.go 278-282, one per type; kotlin.go 123-129, one per type -/
def FileTarget.files (t : FileTarget) (u : UnitD) (types : List Str) : List Str :=
  match t with
  | .c => [joinOn '/' (unitPkg u) ++ ".bb.h".toList, joinOn '/' (unitPkg u) ++ ".bb.c".toList]
  | .cpp => [joinOn '/' (unitPkg u) ++ ".bb.hpp".toList, joinOn '/' (unitPkg u) ++ ".bb.cpp".toList]
  | .python => [joinOn '/' (unitPkg u) ++ "_bb.py".toList]
  | .csharp => [joinOn '/' (unitPkg u) ++ ".bb.cs".toList]
  | .commonjs => [joinOn '/' (unitPkg u) ++ ".bb.js".toList]
  | .esm => [joinOn '/' (unitPkg u) ++ ".bb.js".toList]
  | .go => [joinOn '/' (goPkg u) ++ ('/' :: ((goPkg u).getLastD [] ++ ".bb.go".toList))]
  | .java => types.map fun n => joinOn '/' (javaPkg u) ++ ('/' :: (n ++ ".java".toList))
  | .kotlin => types.map fun n =>
      (if dotsToSlashes (kotlinPkg u) = [] then [] else dotsToSlashes (kotlinPkg u) ++ ['/']) ++ (n ++ ".kt".toList)

/-- The key of the duplicate check: `pkg.String()` (golang.go 426, java.go 252) -/
def FileTarget.key (t : FileTarget) (u : UnitD) : Option Str :=
  match t with
  | .go => some (joinOn '.' (goPkg u))
  | .java => some (joinOn '.' (javaPkg u))
  | _ => none

/-- The generator of a target, without `-single`; `fails` says for which types the text cannot be produced. -/
def FileTarget.cfg (t : FileTarget) (fails : Str → Bool) : GenCfg :=
  ⟨t ≠ .esm && t ≠ .kotlin, fails, t.key, t.files⟩

/-- `WriteFile` (gen_ctx.go 55-72): remove a prefix, join with the output path; the path as a list of components -/
def writePath (rm : List Str) (out : Str) (file : Str) : List Str := joinPath (out.head? = some '/') out (rmPath rm file)

/-- The files of a run, in the order they are written: `-rmpath rm -o out` -/
def writtenFiles (rm out : Str) (outs : List OutUnit) : List (List Str) := outs.flatMap fun o => o.files.map (writePath (parseRmPath rm) out)

end Bubbler.Gen
