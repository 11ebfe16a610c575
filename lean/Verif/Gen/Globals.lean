import Verif.Gen.Members

/-
The names the definitions of a project declare outside of types, and the macros of C headers.
-/
namespace Bubbler.Gen
open Comp (StructD CTy)

/-- A declared name: `tag` says it is only used behind `struct` or `enum` (C has a name space of its own for these). -/
structure Global where
  tag : Bool
  name : Str
deriving DecidableEq

/-- What one definition declares.

C: the tag (c.go 620-631, 1384), and as ordinary names the constants and functions of a struct (`members`: all that are not
attributes) and the values of an enum (1385-1387).  Go: the type (golang.go 614, 1123) and the values of an enum (1125-1129), with
functions as methods of the type.  C++ (cpp.go 1453: `enum class`), C# (csharp.go 1099), Java (java.go 1114), Kotlin, Python
(python.go 858) and JavaScript (commonjs.go 1651): only the type, with all else inside it. -/
def globals (l : Lang) (minimal : Bool) : CTy → List Global
  | .struct s =>
    match l with
    | .c => ⟨true, s.name⟩ :: ((members .c minimal s).filter fun a => !a.attr).map fun a => ⟨false, a.name⟩
    | _ => [⟨false, s.name⟩]
  | .enum e =>
    match l with
    | .c => ⟨true, e.name⟩ :: e.values.map fun v => ⟨false, v.1⟩
    | .go => ⟨false, e.name⟩ :: e.values.map fun v => ⟨false, v.1⟩
    | _ => [⟨false, e.name⟩]
  | _ => []

/-- The macro that guards the header of a package (c.go 308, 316-317; cpp.go 318-319 with `_BB_HPP`): the parts of its name joined
with underscores (`ToPath`, definition/package.go 84-86), in capitals -/
def headerGuard (hpp : Bool) (pkg : Str) : Str :=
  "__".toList ++ Name.toAllCap (pkg.map fun c => if c = '.' then '_' else c) ++ (if hpp then "_BB_HPP" else "_BB_H").toList

/-- The macros a header or source may define (c.go 316-317, 330-331) -/
def macros (pkg : Str) : List Str := [headerGuard false pkg, headerGuard true pkg, "__BYTES_TYPE".toList]

/-- The labels of the `switch` in `forNumber` of a Java enum (java.go 1143-1149), which have to differ -/
def javaLabels (e : Comp.EnumD) : List Int := e.values.map (·.2)

end Bubbler.Gen
