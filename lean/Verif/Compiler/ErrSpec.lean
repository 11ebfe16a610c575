import Verif.Compiler.RuntimeSpec

/-
What the errors of a run claim, in terms of the files alone: no stack, no tables, no traversal order.
-/
namespace Bubbler.Comp

/-- The errors the visitors of one file report about its own text (definition/error.go): everything that is not about files,
packages and imports. -/
def CErr.ofText : CErr → Bool
  | .embeddedField _ e => e.ofText
  | .fileNotFound _ => false
  | .fileRead _ => false
  | .syntaxError => false
  | .packageNotSet => false
  | .packageStmtDuplicate => false
  | .packageDuplicate _ => false
  | .importSelf => false
  | .importCycle _ => false
  | .importing _ _ => false
  | .located _ => false
  | _ => true

/-- `Claim fs entry p e`: what the error `e`, reported for the file `p` in a run that started with `entry`, says is true. -/
inductive Claim (fs : FS) (entry : Str) : Str → CErr → Prop
  | missing (p : Str) : fs p = .missing → Claim fs entry p (.fileNotFound p)
  | unreadable (p : Str) : fs p = .unreadable → Claim fs entry p (.fileRead p)
  | garbage (p : Str) : fs p = .garbage → Claim fs entry p .syntaxError
  | noPackage (p : Str) (f : FileA) : fs p = .parsed f → f.pkgs = [] → Claim fs entry p .packageNotSet
  | twoPackages (p : Str) (f : FileA) : fs p = .parsed f → 2 ≤ f.pkgs.length → Claim fs entry p .packageStmtDuplicate
  /-- another file of this run declares the same package -/
  | samePackage (p q k : Str) : pkgOf fs p = some k → pkgOf fs q = some k → q ≠ p → Reach fs entry q →
    Claim fs entry p (.packageDuplicate k)
  /-- an error of the text of the file itself -/
  | text (p : Str) (f : FileA) (e : CErr) : fs p = .parsed f → e.ofText = true → Claim fs entry p e
  | self (p : Str) : Imports fs p p → Claim fs entry p .importSelf
  | cycle (p : Str) : Below fs p p → Claim fs entry p (.importCycle p)
  /-- The two errors above may also be reported for a file that was tried before and has a true error of its own. -/
  | staleSelf (p : Str) (e : CErr) : Claim fs entry p e → Claim fs entry p .importSelf
  | staleCycle (p : Str) (e : CErr) : Claim fs entry p e → Claim fs entry p (.importCycle p)
  /-- the file imports one that could not be found or was being compiled -/
  | located (p q : Str) (e : CErr) : Imports fs p q → e.plain = true → Claim fs entry q e → Claim fs entry p (.located e)
  /-- the file imports one with errors -/
  | importing (p q : Str) (es : List CErr) : Imports fs p q → es ≠ [] → (∀ e ∈ es, Claim fs entry q e) →
    Claim fs entry p (.importing q es)
  /-- The names of an import clash with those of the imports before it; the message names the importing file
  (compilation_unit.go 163-168). -/
  | clash (p q : Str) (es : List CErr) : Imports fs p q → es ≠ [] → (∀ e ∈ es, ∃ n, e = .duplicate n) →
    Claim fs entry p (.importing p es)

/-- `n` is defined in two correct files that `p` imports, directly or not. -/
def TwoDefs (fs : FS) (p n : Str) : Prop :=
  ∃ q q' o o', q ≠ q' ∧ Below fs p q ∧ Below fs p q' ∧ Compiled fs q o ∧ Compiled fs q' o' ∧
    n ∈ o.localNames.map (·.1) ∧ n ∈ o'.localNames.map (·.1)

/-- What the first error of a run says: the same, but a cycle is a cycle and a clash is a clash. -/
inductive FirstClaim (fs : FS) (entry : Str) : Str → CErr → Prop
  | missing (p : Str) : fs p = .missing → FirstClaim fs entry p (.fileNotFound p)
  | unreadable (p : Str) : fs p = .unreadable → FirstClaim fs entry p (.fileRead p)
  | garbage (p : Str) : fs p = .garbage → FirstClaim fs entry p .syntaxError
  | noPackage (p : Str) (f : FileA) : fs p = .parsed f → f.pkgs = [] → FirstClaim fs entry p .packageNotSet
  | twoPackages (p : Str) (f : FileA) : fs p = .parsed f → 2 ≤ f.pkgs.length → FirstClaim fs entry p .packageStmtDuplicate
  | samePackage (p q k : Str) : pkgOf fs p = some k → pkgOf fs q = some k → q ≠ p → Reach fs entry q →
    FirstClaim fs entry p (.packageDuplicate k)
  | text (p : Str) (f : FileA) (e : CErr) : fs p = .parsed f → e.ofText = true → FirstClaim fs entry p e
  | self (p : Str) : Imports fs p p → FirstClaim fs entry p .importSelf
  | cycle (p : Str) : Below fs p p → FirstClaim fs entry p (.importCycle p)
  | located (p q : Str) (e : CErr) : Imports fs p q → e.plain = true → FirstClaim fs entry q e → FirstClaim fs entry p (.located e)
  | importing (p q : Str) (e : CErr) (es : List CErr) : Imports fs p q → FirstClaim fs entry q e →
    FirstClaim fs entry p (.importing q (e :: es))
  | clash (p : Str) (es : List CErr) : es ≠ [] → (∀ e ∈ es, ∃ n, e = .duplicate n ∧ TwoDefs fs p n) →
    FirstClaim fs entry p (.importing p es)

end Bubbler.Comp
