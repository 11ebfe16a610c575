import Verif.Compiler.WarnSpec

/-
compiler/compilation_runtime.go once more, with the warnings that `Compile` returns as its third result.
Line numbers refer to compilation_runtime.go.  `compileW_result` (WarnProofs.lean) shows that the other results are those
of Verif/Compiler/Runtime.lean.

`definition.TopLevelWarningsJoin` (definition/warning.go 16-36) flattens joined warnings and drops nil, so it is the
concatenation of lists, `nil` being the empty list.  Positions are left out.
-/
namespace Bubbler.Comp

/-- The warning recorded for an import (113-130): nothing if there is none.  What `Compile` returns is nil or a
`JoinTopLevelWarnings`, which is a `TopLevelWarning`, so the branch at 116-120 is never taken. -/
def wrapW (p : Str) (ws : List WTree) : List WTree := if ws = [] then [] else [.importing p ws]

/-- The loop over the imports (111-163) -/
def importLoopW (rec : Str → RT → Option (RT × Out UnitD × List WTree)) :
    List Str → RT → UnitD → List CErr → List WTree → Option (RT × Out (UnitD × List CErr) × List WTree)
  | [], rt, u, errs, ws => some (rt, .ok (u, errs), ws)
  | p :: r, rt, u, errs, ws =>
    match rec p rt with
    | none => none
    | some (rt', .panic, _) => some (rt', .panic, [])
    | some (rt', .err es, ws') => importLoopW rec r rt' u (errs ++ wrapImport p es) (ws ++ wrapW p ws')
    | some (rt', .ok o, ws') =>
      match u.addImport o with
      | (u', none) => importLoopW rec r rt' u' errs (ws ++ wrapW p ws')
      | (u', some e) => importLoopW rec r rt' u' (errs ++ [e]) (ws ++ wrapW p ws')

/-- `compile` (73-177) from the point where the file has been parsed.  The model's unit collects the warnings of both
visitors, in Go each visitor has its own list (`infoVisitor.Warning`, `protoVisitor.Warning`): those of the second
visitor are what is added by it. -/
def compileParsedW (rec : Str → RT → Option (RT × Out UnitD × List WTree)) (p : Str) (f : FileA) (rt : RT) :
    Option (RT × Out UnitD × List WTree) :=
  if f.imports.any (·.isNone) then some (rt, .err [.invalidLiteral], []) else
  match visitInfo f (UnitD.new p) with
  | (.err es, u) => some (rt, .err es, u.warns.map .own)
  | (.panic, _) => some (rt, .panic, [])
  | (.ok _, u) =>
    if (aget rt.packages u.pkg).isSome then some (rt, .err [.packageDuplicate u.pkg], u.warns.map .own) else
    match importLoopW rec (f.imports.filterMap id)
        { rt with packages := rt.packages ++ [(u.pkg, p)], stack := rt.stack ++ [p] } u [] (u.warns.map .own) with
    | none => none
    | some (rt', .panic, _) => some (rt', .panic, [])
    | some (rt', .err es, _) => some (rt', .err es, [])
    | some (rt', .ok (u', errs), ws) =>
      if errs ≠ [] then some (rt', .err errs, ws) else
      match visitProto f.tops [] u' with
      | (o, u'') =>
        let rt'' := { rt' with stack := rt'.stack.filter (· ≠ p), units := aput rt'.units p u'' }
        let ws' := ws ++ (u''.warns.drop u'.warns.length).map .own
        match o with
        | .ok _ => some (rt'', .ok u'', ws')
        | .err es => some (rt'', .err es, ws')
        | .panic => some (rt'', .panic, [])

/-- `Compile` (34-71) on a resolved path, `compile` and `precheckFilePath` (179-192): a file found in the tables has no
warnings (82-84). -/
def compileW (fs : FS) : Nat → Str → RT → Option (RT × Out UnitD × List WTree)
  | 0, _, _ => none
  | fuel + 1, p, rt =>
    match fs p with
    | .missing => some (rt, .err [.fileNotFound p], [])
    | .unreadable => some (rt, .err [.fileRead p], [])
    | t =>
      if p ∈ rt.stack then
        some (rt, .err [if rt.stack.getLast? = some p then .importSelf else .importCycle p], [])
      else
        match aget rt.units p with
        | some u => some (rt, .ok u, [])
        | none =>
          match t with
          | .parsed f => compileParsedW (compileW fs fuel) p f rt
          | _ => some (rt, .err [.syntaxError], [])

end Bubbler.Comp
