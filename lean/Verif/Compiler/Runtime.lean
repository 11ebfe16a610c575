import Verif.Compiler.Info

/-
compiler/compilation_runtime.go and compiler/compiler.go: compiling a file and everything it imports.
Line numbers refer to compilation_runtime.go.

The file system is a function from absolute paths to what `os.Stat`, `os.ReadFile` and the parser make of them; it does
not change during a run.  The recursion of `Compile` is given fuel (`none` = fuel exhausted); C29 proves that it always
terminates and that the fuel does not matter.
-/
namespace Bubbler.Comp

/-- What is found under a path: `GetFileExistingStatus` (fileio/path.go 25-33), `GetFileContent` (fileio/reader.go 9-20),
`getProtoAST` (208-226) -/
inductive FileS
  | missing
  | unreadable
  /-- a text the parser rejects -/
  | garbage
  | parsed (f : FileA)

abbrev FS := Str → FileS

/-- `CompilationRuntime` (11-15).  `packages`: package name and path of its unit; `stack`: the keys of ParseStack. -/
structure RT where
  units : List (Str × UnitD)
  packages : List (Str × Str)
  stack : List Str

/-- `NewCompilationRuntime` (17-23) -/
def RT.new : RT := ⟨[], [], []⟩

/-- Errors `Compile` returns that are not `TopLevelError`s (definition/error.go): they are not wrapped in an
ImportingError. -/
def CErr.plain : CErr → Bool
  | .fileNotFound _ => true
  | .importSelf => true
  | .importCycle _ => true
  | _ => false

/-- The error recorded for a failed import (131-150) -/
def wrapImport (p : Str) : List CErr → List CErr
  | [e] => if e.plain then [.located e] else [.importing p [e]]
  | es => [.importing p es]

/-- The loop over the imports (111-163).  `rec` compiles one import.  The unit under construction is the second
component; errors are collected. -/
def importLoop (rec : Str → RT → Option (RT × Out UnitD)) :
    List Str → RT → UnitD → List CErr → Option (RT × Out (UnitD × List CErr))
  | [], rt, u, errs => some (rt, .ok (u, errs))
  | p :: r, rt, u, errs =>
    match rec p rt with
    | none => none
    | some (rt', .panic) => some (rt', .panic)
    | some (rt', .err es) => importLoop rec r rt' u (errs ++ wrapImport p es)
    | some (rt', .ok o) =>
      match u.addImport o with
      | (u', none) => importLoop rec r rt' u' errs
      | (u', some e) => importLoop rec r rt' u' (errs ++ [e])

/-- `compile` (73-177) from the point where the file has been parsed.  A unit is put into `Units` before its definitions
are visited and changed in place, so it stays there if that fails (169-174). -/
def compileParsed (rec : Str → RT → Option (RT × Out UnitD)) (p : Str) (f : FileA) (rt : RT) : Option (RT × Out UnitD) :=
  if f.imports.any (·.isNone) then some (rt, .err [.invalidLiteral]) else
  match visitInfo f (UnitD.new p) with
  | (.err es, _) => some (rt, .err es)
  | (.panic, _) => some (rt, .panic)
  | (.ok _, u) =>
    if (aget rt.packages u.pkg).isSome then some (rt, .err [.packageDuplicate u.pkg]) else
    match importLoop rec (f.imports.filterMap id)
        { rt with packages := rt.packages ++ [(u.pkg, p)], stack := rt.stack ++ [p] } u [] with
    | none => none
    | some (rt', .panic) => some (rt', .panic)
    | some (rt', .err es) => some (rt', .err es)
    | some (rt', .ok (u', errs)) =>
      if errs ≠ [] then some (rt', .err errs) else
      match visitProto f.tops [] u' with
      | (o, u'') =>
        let rt'' := { rt' with stack := rt'.stack.filter (· ≠ p), units := aput rt'.units p u'' }
        match o with
        | .ok _ => some (rt'', .ok u'')
        | .err es => some (rt'', .err es)
        | .panic => some (rt'', .panic)

/-- `Compile` (34-71) on a resolved path, `compile` and `precheckFilePath` (179-192) -/
def compile (fs : FS) : Nat → Str → RT → Option (RT × Out UnitD)
  | 0, _, _ => none
  | fuel + 1, p, rt =>
    match fs p with
    | .missing => some (rt, .err [.fileNotFound p])
    | .unreadable => some (rt, .err [.fileRead p])
    | t =>
      if p ∈ rt.stack then
        some (rt, .err [if rt.stack.getLast? = some p then .importSelf else .importCycle p])
      else
        match aget rt.units p with
        | some u => some (rt, .ok u)
        | none =>
          match t with
          | .parsed f => compileParsed (compile fs fuel) p f rt
          | _ => some (rt, .err [.syntaxError])

/-- `CompileFile` (26-32) and compiler.go `Compile` 7-11: `abs` is `filepath.Abs` (an error if the working directory is
unknown).  An empty name is accepted and yields no unit (35-40). -/
def compileFile (fs : FS) (abs : Str → Option Str) (fuel : Nat) (file : Str) : Option (List UnitD × Out (Option UnitD)) :=
  if file = [] then some ([], .ok none) else
  match abs file with
  | none => some ([], .err [.fileNotFound file])
  | some p =>
    match compile fs fuel p RT.new with
    | none => none
    | some (rt, .ok u) => some (rt.units.map (·.2), .ok (some u))
    | some (rt, .err es) => some (rt.units.map (·.2), .err es)
    | some (rt, .panic) => some (rt.units.map (·.2), .panic)

end Bubbler.Comp
