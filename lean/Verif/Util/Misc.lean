import Verif.Util.OrderedMap
import Verif.Util.Text
import Verif.Codec.Encode

/-
definition/error.go 16-35 and definition/warning.go (joining), generator/generator.go (targets),
generator/gen/gen_option.go (options).
-/
namespace Bubbler

/-! ### Errors -/

/-- An error: one error, or a `JoinTopLevelErrors` of several (error.go 38-41). `α` identifies the single errors. -/
inductive Err (α : Type)
  | one (a : α)
  | join (es : List (Err α))

/-- One round of the loop of `TopLevelErrorsJoin` (18-27); `none` is nil. -/
def joinStep {α : Type} (acc : List (Err α)) : Option (Err α) → List (Err α)
  | none => acc
  | some (.join es) => acc ++ es
  | some e => acc ++ [e]

/-- `TopLevelErrorsJoin` (16-35); `TopLevelWarningsJoin` (warning.go) is the same. -/
def joinErrors {α : Type} (errs : List (Option (Err α))) : Option (Err α) :=
  match errs.foldl joinStep [] with
  | [] => none
  | es => some (.join es)

/-! ### Targets -/

/-- The generators of generator/target. -/
inductive Gen | c | cpp | csharp | commonjs | esm | go | java | kotlin | python
deriving DecidableEq, Repr

/-- `TargetMap` as filled by `init` (generator.go 28-58). -/
def targetPuts : List (String × Gen) :=
  [("c", .c), ("cpp", .cpp), ("csharp", .csharp), ("cs", .csharp), ("commonjs", .commonjs), ("cjs", .commonjs),
   ("esmodule", .esm), ("javascript", .esm), ("js", .esm), ("mjs", .esm), ("esm", .esm), ("go", .go),
   ("java", .java), ("kotlin", .kotlin), ("kt", .kotlin), ("python", .python), ("py", .python)]

def targetMap : OM.OMap String Gen :=
  (OM.run (OM.new "") (targetPuts.map fun e => .put e.1 e.2)).1

/-- Result of `GetGenerator`. -/
inductive Lookup | found (g : Gen) | notSpecified | notSupported (t : String) | panic
deriving DecidableEq

/-- `GetGenerator` (generator.go 84-99). -/
def getGenerator (target : String) : Lookup :=
  if target = "" then .notSpecified else
  match OM.get targetMap target with
  | none => .panic
  | some none => .notSupported target
  | some (some g) => .found g

/-- The loop of `ListGenerators` (60-82): finished entries (with their aliases), last generator. -/
def listStep (acc : List (String × List String) × Option Gen) (e : String × Gen) : List (String × List String) × Option Gen :=
  if acc.2 = some e.2 then
    match acc.1.getLast? with
    | some (n, as) => (acc.1.dropLast ++ [(n, as ++ [e.1])], some e.2)
    | none => acc -- unreachable: `last` is nil at the start
  else (acc.1 ++ [(e.1, [])], some e.2)

/-- `ListGenerators`: names with their aliases (the text is `name [alias, alias]`). -/
def listGenerators : List (String × List String) := (targetMap.entries.foldl listStep ([], none)).1

/-! ### Options -/

/-- `GenOptions` (30-41). -/
structure GenOptions where
  removePath : List Text.Str
  relativePath : Bool
  innerClass : Bool
  singleFile : Bool
  minimalCode : Bool
  decimalNumber : Bool
  memoryCopy : Bool
  compatibleMode : Bool
  signExt : SignExt
  loopUnroll : Int
deriving DecidableEq

/-- The initial options of `NewGenOptions` (47-59). -/
def defaultOptions : GenOptions := ⟨[], false, false, false, false, false, false, false, .default, 4⟩

abbrev Setter := GenOptions → GenOptions

/-- `NewGenOptions` (47-63). -/
def newGenOptions (setters : List Setter) : GenOptions := setters.foldl (fun o s => s o) defaultOptions

/-- The setters (66-124). -/
def setRemovePath (path : Text.Str) : Setter := fun o => { o with removePath := Text.parseRmPath path }
def setRelativePath (b : Bool) : Setter := fun o => { o with relativePath := b }
def setSingleFile (b : Bool) : Setter := fun o => { o with singleFile := b }
def setInnerClass (b : Bool) : Setter := fun o => { o with innerClass := b }
def setMinimalCode (b : Bool) : Setter := fun o => { o with minimalCode := b }
def setDecimalNumber (b : Bool) : Setter := fun o => { o with decimalNumber := b }
def setMemoryCopy (b : Bool) : Setter := fun o => { o with memoryCopy := b }
def setCompatibleMode (b : Bool) : Setter := fun o => { o with compatibleMode := b }

/-- ASCII lower case (`strings.ToLower`; letters outside ASCII never make one of the accepted words). -/
def lower (s : Text.Str) : Text.Str := s.map fun c => if 'A' ≤ c ∧ c ≤ 'Z' then Char.ofNat (c.toNat + 32) else c

/-- `SignExtMethod` (133-152); `none` = error. -/
def signExtMethod (s : Text.Str) : Option Setter :=
  let s := lower s
  if s = "".toList ∨ s = "default".toList then some fun o => { o with signExt := .default }
  else if s = "shift".toList then some fun o => { o with signExt := .shift }
  else if s = "arith".toList then some fun o => { o with signExt := .arith }
  else none

/-- `LoopUnroll` (154-168); `none` = error. -/
def loopUnrollOpt (n : Int) : Option Setter :=
  if n < -1 then none else some fun o => { o with loopUnroll := n }

/-- The command line flags of main.go (97-128) that matter for generation. -/
structure Flags where
  rmpath : Text.Str
  relpath : Bool
  inner : Bool
  single : Bool
  minimal : Bool
  decnum : Bool
  memcpy : Bool
  compat : Bool
  signext : Text.Str
  unroll : Int

/-- main.go 157-183: check the options and build `GenOptions`; `none` = error exit. -/
def mainOptions (f : Flags) : Option GenOptions :=
  (signExtMethod f.signext).bind fun se => (loopUnrollOpt f.unroll).bind fun lu =>
    some (newGenOptions [setRemovePath f.rmpath, setRelativePath f.relpath, setSingleFile f.single, setInnerClass f.inner,
      setMinimalCode f.minimal, setDecimalNumber f.decnum, setMemoryCopy f.memcpy, setCompatibleMode f.compat, se, lu])

/-- What the Go target reads from the options for encoding and decoding (golang.go 150, 1203, 1556, 1953,
2448, 2751); `prev` are the old contents of the message being decoded into. -/
def GenOptions.cfg (o : GenOptions) (prev : (w : Nat) → BitVec w) : Cfg := ⟨o.loopUnroll, o.signExt, prev⟩

end Bubbler
