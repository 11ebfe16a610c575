import Verif.Compiler.Runtime

/-
What it means for a file to be correct, without any traversal order, stack or table of finished units.
-/
namespace Bubbler.Comp

/-- File `p` imports file `q`. -/
def Imports (fs : FS) (p q : Str) : Prop := ∃ f, fs p = .parsed f ∧ some q ∈ f.imports

/-- `q` is `p` or is imported by `p`, directly or not. -/
inductive Reach (fs : FS) (p : Str) : Str → Prop
  | refl : Reach fs p p
  | step {q r : Str} : Reach fs p q → Imports fs q r → Reach fs p r

/-- `q` is imported by `p`, directly or not. -/
def Below (fs : FS) (p q : Str) : Prop := ∃ r, Imports fs p r ∧ Reach fs r q

/-- The package a file declares -/
def pkgOf (fs : FS) (p : Str) : Option Str :=
  match fs p with
  | .parsed f => f.pkgs.head?
  | _ => none

mutual
  /-- `p` is a correct file and `u` is its unit: it can be read and parsed, its import literals, package statement and
  options are correct, its imports are correct, their names do not clash and its definitions are correct given them. -/
  inductive Compiled (fs : FS) : Str → UnitD → Prop
    | mk (p : Str) (f : FileA) (ps : List Str) (u0 u1 u2 : UnitD) :
      fs p = .parsed f → f.imports = ps.map some → visitInfo f (UnitD.new p) = (.ok (), u0) → Imported fs ps u0 u1 →
      visitProto f.tops [] u1 = (.ok (), u2) → Compiled fs p u2
  /-- Adding the units of these files to `u` one after the other gives `u'`. -/
  inductive Imported (fs : FS) : List Str → UnitD → UnitD → Prop
    | nil (u : UnitD) : Imported fs [] u u
    | cons (p : Str) (ps : List Str) (o u u1 u2 : UnitD) :
      Compiled fs p o → u.addImport o = (u1, none) → Imported fs ps u1 u2 → Imported fs (p :: ps) u u2
end

end Bubbler.Comp
