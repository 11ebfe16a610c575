import Verif.Compiler.RuntimeSpec

/-
What C55 and C56 talk about: the types a file declares and where they are used, read off the source.
-/
namespace Bubbler.Gen
open Comp

/-! ### Declarations of a file -/

mutual
  /-- The struct types declared inside a type: inline definitions and what is inside them -/
  def _root_.Bubbler.Comp.ElemA.decls : ElemA → List Str
    | .structDef d => d.decls
    | _ => []
  def _root_.Bubbler.Comp.TypeA.decls : TypeA → List Str
    | .elem e => e.decls
    | .array e _ => e.decls
  /-- A struct definition declares what is inside it and itself. -/
  def _root_.Bubbler.Comp.StructA.decls : StructA → List Str
    | .mk _ _ n _ b => b.decls ++ [n]
  def _root_.Bubbler.Comp.BodyA.decls : BodyA → List Str
    | .nil => []
    | .cons f r => f.decls ++ r.decls
  def _root_.Bubbler.Comp.FieldA.decls : FieldA → List Str
    | .normal t _ _ _ _ => t.decls
    /- A struct that is defined only to be embedded is not a type: its fields become fields of the outer struct. -/
    | .embedded (.elem (.structDef (.mk _ _ _ _ b))) _ => b.decls
    | .embedded _ _ => []
    | .empty => []
    | .void _ _ => []
    | .const _ _ _ _ _ => []
end

def _root_.Bubbler.Comp.TopA.decls : TopA → List Str
  | .struct d => d.decls
  | .enum d => [d.name]

/-- The types a file declares -/
def declared (f : FileA) : List Str := f.tops.flatMap TopA.decls

/-! ### Places in a file -/

mutual
  /-- Line and column of the inline definitions in a type -/
  def _root_.Bubbler.Comp.ElemA.places : ElemA → List (Nat × Nat)
    | .structDef d => d.places
    | _ => []
  def _root_.Bubbler.Comp.TypeA.places : TypeA → List (Nat × Nat)
    | .elem e => e.places
    | .array e _ => e.places
  def _root_.Bubbler.Comp.StructA.places : StructA → List (Nat × Nat)
    | .mk l c _ _ b => (l, c) :: b.places
  def _root_.Bubbler.Comp.BodyA.places : BodyA → List (Nat × Nat)
    | .nil => []
    | .cons f r => f.places ++ r.places
  def _root_.Bubbler.Comp.FieldA.places : FieldA → List (Nat × Nat)
    | .normal t _ _ _ _ => t.places
    | .embedded t _ => t.places
    | .empty => []
    | .void _ _ => []
    | .const _ _ _ _ _ => []
end

def _root_.Bubbler.Comp.EnumElemA.places : EnumElemA → List (Nat × Nat)
  | .empty => []
  | .value l c _ _ => [(l, c)]

def _root_.Bubbler.Comp.TopA.places : TopA → List (Nat × Nat)
  | .struct d => d.places
  | .enum d => (d.line, d.col) :: d.body.flatMap EnumElemA.places

/-- Line and column of everything in a file that introduces a name visible in other definitions.  In a file these are all
different: two things are not written at the same place. -/
def places (f : FileA) : List (Nat × Nat) := f.tops.flatMap TopA.places

/-! ### Types in types -/

/-- The type a field of type `t` names: `t` itself or the type of its elements, if it is a struct or an enum -/
inductive Names : CTy → CTy → Prop
  | struct (s : StructD) : Names (.struct s) (.struct s)
  | enum (e : EnumD) : Names (.enum e) (.enum e)
  | array {e t : CTy} {len : Int} : Names e t → Names (.array e len) t

/-- Struct `s` has a field of type `t`, or of arrays of `t`. -/
def Mentions (s : StructD) (t : CTy) : Prop := ∃ n ty b ms os, FieldD.normal n ty b ms os ∈ s.fields ∧ Names ty t

/-- `t` is `s` or is mentioned by something within `s`. -/
inductive Within : CTy → CTy → Prop
  | refl (t : CTy) : Within t t
  | step {t : CTy} {s : StructD} {r : CTy} : Within t (.struct s) → Mentions s r → Within t r

end Bubbler.Gen
