import Verif.Compiler.Runtime

/-
The driver of the generators: which types are generated, in which order, into which output.

generator/gen/gen_dispatcher.go 230-238 `AcceptGenCtx`, 240-257 `AcceptType`; generator/target/*/*.go `GenerateUnit`,
`GenerateStruct`, `GenerateEnum`.  All targets but Kotlin share this code up to the text they produce:

* golang.go 406-485, 632-652, 1097-1117; c.go 456-512, 660-680, 1358-1378; cpp.go 521-583, 737-757, 1427-1447;
  csharp.go 300-344, 673-693, 1073-1093; java.go 233-289, 618-638, 1088-1108; python.go 225-262, 410-430, 832-852;
  commonjs.go 1020-1068, 1315-1335, 1626-1646; esm.go 944-992, 1185-1202, 1409-1425.

The text of a definition is not modelled: it is reduced to whether producing it fails (`fails`).  The types of the fields are
generated by the calls of `GenerateType` in the field templates of all targets but ESM, whose template asks for the default
value only (esm.go 1279-1286); `deep` says which.  Kotlin has no table of generated types, it writes one file per top-level type
(kotlin.go 73-135): this is `deep := false` too, `Has` is never true (C55).
-/
namespace Bubbler.Gen
open Comp

/-- `GenTypes` (its keys) and `GenStack` (golang.go 36-60) -/
structure GenSt where
  done : List Str
  stack : List Str

structure GenCfg where
  deep : Bool
  fails : Str → Bool
  /-- The key of the duplicate check in `GenerateUnit`: Go 413-437 (`go_package` or the package), Java 238-260; `none` = no check -/
  key : UnitD → Option Str
  /-- The file names given to `WriteFile` for a unit, from the names of the types that were written (Verif/Gen/Files.lean) -/
  files : UnitD → List Str → List Str := fun _ _ => []

/-- `GenerateStruct` (golang.go 644-652), `GenerateEnum` (1109-1117) after the definition has been produced: leave the stack,
enter the table -/
def GenSt.finish (n : Str) (st : GenSt) : GenSt := ⟨sput st.done n, st.stack.filter (· ≠ n)⟩

mutual
  /-- `AcceptType` (gen_dispatcher.go 240-257) with `GenerateArray`, `GenerateStruct` (golang.go 632-652) and `GenerateEnum`
  (1097-1117); `none` = an error is returned -/
  def genTy (g : GenCfg) : CTy → GenSt → Option GenSt
    | .basic _, st => some st
    | .str, st => some st
    | .bytes, st => some st
    | .array e _, st => genTy g e st
    | .struct (.mk n _ _ fs), st =>
      if n ∈ st.done then some st else
      if n ∈ st.stack then some st else
      match genFields g fs ⟨st.done, sput st.stack n⟩ with
      | none => none
      | some st' => if g.fails n then none else some (st'.finish n)
    | .enum e, st =>
      if e.name ∈ st.done then some st else
      if e.name ∈ st.stack then some st else
      if g.fails e.name then none else some (GenSt.finish e.name ⟨st.done, sput st.stack e.name⟩)
  /-- The loop of `generateStruct` over the fields (golang.go 654-672): only normal fields have a type to generate; the fields of
  an embedded struct are in the list of fields themselves -/
  def genFields (g : GenCfg) : List FieldD → GenSt → Option GenSt
    | [], st => some st
    | .normal _ t _ _ _ :: r, st =>
      if g.deep then
        match genTy g t st with
        | none => none
        | some st' => genFields g r st'
      else genFields g r st
    | .void _ :: r, st => genFields g r st
    | .embedded _ _ :: r, st => genFields g r st
    | .const _ _ _ _ _ :: r, st => genFields g r st
end

/-- The loop over `unit.LocalTypes` (golang.go 443-449) -/
def genTypes (g : GenCfg) : List (Str × TypeDef) → GenSt → Option GenSt
  | [], st => some st
  | (_, t) :: r, st =>
    match genTy g t.ty st with
    | none => none
    | some st' => genTypes g r st'

/-- A unit that was given to the output: its path, the types of its part of `GenTypes` (golang.go 451-454: `Sub(start, end)`) and the
names of the files that are written -/
structure OutUnit where
  path : Str
  types : List Str
  files : List Str

/-- `MatchOption` (generator/gen/gen_util.go 8-17) for `omit_empty`: a missing option does not match -/
def omitEmpty (u : UnitD) : Bool := aget u.options "omit_empty".toList = some (.bool true)

/-- A unit without types is left out if it says so (golang.go 407-409) -/
def skipped (u : UnitD) : Bool := u.localTypes.isEmpty && omitEmpty u

/-- `GenerateUnit` (golang.go 406-485); `keys` are the keys of `GenUnits` -/
def genUnit (g : GenCfg) (u : UnitD) (keys : List Str) (st : GenSt) : Option (List Str × GenSt × Option OutUnit) :=
  if skipped u then some (keys, st, none) else
  match g.key u with
  | some k =>
    if k ∈ keys then none else
    match genTypes g u.localTypes st with
    | none => none
    | some st' => some (keys ++ [k], st', some ⟨u.path, st'.done.drop st.done.length, g.files u (st'.done.drop st.done.length)⟩)
  | none =>
    match genTypes g u.localTypes st with
    | none => none
    | some st' => some (keys, st', some ⟨u.path, st'.done.drop st.done.length, g.files u (st'.done.drop st.done.length)⟩)

/-- `AcceptGenCtx` (gen_dispatcher.go 230-238) -/
def genUnits (g : GenCfg) : List UnitD → List Str → GenSt → Option (List OutUnit)
  | [], _, _ => some []
  | u :: r, keys, st =>
    match genUnit g u keys st with
    | none => none
    | some (keys', st', o) =>
      match genUnits g r keys' st' with
      | none => none
      | some os => some (o.toList ++ os)

/-- `Generate` (golang.go 215-266) as far as it decides what is generated: a new generator has empty tables (52-60). -/
def generate (g : GenCfg) (us : List UnitD) : Option (List OutUnit) := genUnits g us [] ⟨[], []⟩

end Bubbler.Gen
