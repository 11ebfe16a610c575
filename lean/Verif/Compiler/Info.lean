import Verif.Compiler.Visitor

/-
compiler/info_visitor.go: package and file options.
-/
namespace Bubbler.Comp

/-- What the parser delivers for one file.  An import is the absolute path `ImportVisitor` computed (import_visitor.go
35-75), or `none` if the literal or the path is invalid; a package statement is its dotted name. -/
structure FileA where
  imports : List (Option Str)
  pkgs : List Str
  opts : List OptA
  tops : List TopA

/-- The loop over the options (info_visitor.go 91-120): errors are collected, unknown options warn -/
def visitFileOptions : List OptA → List (Str × Lit) → List CErr → UnitD → List (Str × Lit) × List CErr × UnitD
  | [], acc, errs, u => (acc, errs, u)
  | o :: r, acc, errs, u =>
    match visitConstant o.val u with
    | (.ok val, u') =>
      match fileValidator.validate o.name val with
      | .error e => visitFileOptions r acc (errs ++ [e]) u'
      | .warning w =>
        let u'' := { u' with warns := u'.warns ++ [w] }
        if (aget acc o.name).isSome then visitFileOptions r acc (errs ++ [.optionDuplicate o.name]) u''
        else visitFileOptions r (aput acc o.name val) errs u''
      | .good =>
        if (aget acc o.name).isSome then visitFileOptions r acc (errs ++ [.optionDuplicate o.name]) u'
        else visitFileOptions r (aput acc o.name val) errs u'
    | (.err es, u') => visitFileOptions r acc (errs ++ es) u'
    | (.panic, u') => visitFileOptions r acc errs u'

/-- `InfoVisitor.VisitProto` (info_visitor.go 21-130) -/
def visitInfo (f : FileA) : V Unit := fun u =>
  match f.pkgs with
  | [] => (.err [.packageNotSet], u)
  | p :: ps =>
    let errs := ps.map fun _ => CErr.packageStmtDuplicate
    match visitFileOptions f.opts [] errs { u with pkg := p } with
    | (os, errs', u') => if errs' = [] then (.ok (), { u' with options := os }) else (.err errs', { u' with options := os })

end Bubbler.Comp
