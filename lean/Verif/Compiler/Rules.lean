import Verif.Front.Meaning
import Verif.Compiler.OptionProofs

/-
Specification for C75: the rules of the language.

A scope says what the names a definition may use stand for.  The rules say, for each part of a tree, that it is allowed and what it
stands for.  They know nothing of tables, positions, warnings or the order in which the compiler works.
-/
namespace Bubbler.Comp
open Front (WidthIs roomOf nextNum firsts)

/-- What the names stand for: types and numbers of enum values. -/
structure Scope where
  type : Str → CTy → Prop
  val : Str → Int → Prop

/-- Options: valid literals, no name twice, `order` only with its two values. -/
def OptsOk (os : List OptA) (r : List (Str × Lit)) : Prop :=
  ∃ lits, os.map (fun o => litOf o.val) = lits.map some ∧ r = (os.map (·.name)).zip lits ∧ (os.map (·.name)).Nodup ∧
    ∀ e ∈ r, FieldOptOk e.1 e.2

/-- Methods: each has a name and a correct expression; those of one name are a getter and a setter of one type.  They are grouped by
name, in the order of the first of each. -/
structure MethsOk (l : List MethA) (gs : List (Str × List (Bool × Prim))) : Prop where
  each : ∀ m ∈ l, m.exprOk = true ∧ ∃ n, m.name = some n ∧ Name.isUncapitalized n = true
  pairs : l.Pairwise fun a b => a.name = b.name → a.set ≠ b.set ∧ a.ty = b.ty
  names : gs.map (·.1) = firsts (l.filterMap (·.name))
  groups : ∀ g ∈ gs, g.2 = (l.filter fun m => m.name = some g.1).map fun m => (m.set, m.ty)

/-- Only fields of basic types have methods. -/
inductive FieldMethsOk (t : CTy) : Option (List MethA) → List (Str × List (Bool × Prim)) → Prop
  | none : FieldMethsOk t none []
  | some {l gs p} : t = .basic p → MethsOk l gs → FieldMethsOk t (some l) gs

/-- The size of a field: that of its type, or as annotated.  An annotation needs a type of fixed size and must not exceed it; it
divides evenly among the elements of an array; structs are not cut. -/
inductive SizeOk (t : CTy) : Option SizeA → Int → Prop
  | none {w} : WidthIs t w → SizeOk t none w
  | some {s w b} : annotSize (some s) = some b → WidthIs t w → w ≠ -1 → b ≤ w → (∀ e len, t = .array e len → b.tmod len = 0) →
      (∀ x, t = .struct x → b = w) → SizeOk t (some s) b

/-- The size of a constant -/
inductive ConstSizeOk (p : Prim) : Option SizeA → Int → Prop
  | none : ConstSizeOk p none p.width
  | some {s b} : annotSize (some s) = some b → b ≤ p.width → ConstSizeOk p (some s) b

/-- A constant of type `p` may have this value. -/
inductive Fits : Prim → Lit → Prop
  | bool {b} : Fits .bool (.bool b)
  | int {p v} : p.isInteger = true → 0 ≤ v ∨ p.signed = true → Fits p (.int v)
  | f32 {n t} : Fits .f32 (.float n t)
  | f64 {n t} : Fits .f64 (.float n t)

/-- A value is a literal or the name of an enum value. -/
inductive ValOk (Γ : Scope) : ConstA ⊕ Str → Lit → Prop
  | lit {c l} : litOf c = some l → ValOk Γ (.inl c) l
  | name {n v} : Γ.val n v → ValOk Γ (.inr n) (.int v)

/-- Where the `i`-th field starts, in bits; fields of variable size count as nothing. -/
def offset (fs : List FieldD) (i : Nat) : Int := ((fs.take i).map fun f => if f.bits = -1 then 0 else f.bits).sum

/-- Fields that need it start at a byte. -/
def Aligned (fs : List FieldD) : Prop := ∀ (i : Nat) f, fs[i]? = some f → f.IsBytewise → offset fs i % 8 = 0

/-- A size written at a struct: no field is variable, and the fields take this room. -/
def DeclaredOk (s : Option SizeA) (fs : List FieldD) : Prop :=
  s = none ∨ (¬ (∃ f ∈ fs, f.IsVar)) ∧ annotSize s = some (roomOf fs)

mutual
  inductive ElemOk (Γ : Scope) : ElemA → CTy → Prop
    | basic {p} : ElemOk Γ (.basic p) (.basic p)
    | str : ElemOk Γ .str .str
    | bytes : ElemOk Γ .bytes .bytes
    | structName {n x} : Name.isCapitalized n = true → Γ.type n (.struct x) → ElemOk Γ (.structName n) (.struct x)
    | structDef {d x} : StructOk Γ d x → ElemOk Γ (.structDef d) (.struct x)
    | enumName {n x} : Name.isCapitalized n = true → Γ.type n (.enum x) → ElemOk Γ (.enumName n) (.enum x)
    | ident {n t} : Γ.type n t → ElemOk Γ (.ident n) t
  inductive TypeOk (Γ : Scope) : TypeA → CTy → Prop
    | elem {e t} : ElemOk Γ e t → TypeOk Γ (.elem e) t
    | array {e len t} {n : Nat} : ElemOk Γ e t → readInt (some len) = some n → n ≠ 0 → TypeOk Γ (.array e len) (.array t n)
  /-- A statement in a struct gives one field, none, or a struct and its fields (an embedded one). -/
  inductive FieldOk (Γ : Scope) : FieldA → List FieldD → Prop
    | empty : FieldOk Γ .empty []
    | void {s os b r} : annotSize (some s) = some b → OptsOk os r → FieldOk Γ (.void s os) [.void b]
    | const {p s v os b l r} {n : Option Str} : (∀ m, n = some m → Name.isUncapitalized m = true) → ConstSizeOk p s b → ValOk Γ v l →
        Fits p l → OptsOk os r → FieldOk Γ (.const p n s v os) [.const (n.getD []) p b l r]
    | embedded {t os x r} : TypeOk Γ t (.struct x) → OptsOk os r → FieldOk Γ (.embedded t os) (.embedded x true :: x.fields)
    | normal {t n s os ms ty b r gs} : TypeOk Γ t ty → Name.isUncapitalized n = true → SizeOk ty s b → OptsOk os r →
        FieldMethsOk ty ms gs → FieldOk Γ (.normal t n s os ms) [.normal n ty b gs r]
  inductive BodyOk (Γ : Scope) : BodyA → List FieldD → Prop
    | nil : BodyOk Γ .nil []
    | cons {f r xs ys} : FieldOk Γ f xs → BodyOk Γ r ys → BodyOk Γ (.cons f r) (xs ++ ys)
  /-- A struct has a capitalized name and at least one field; its fields and accessors have different names; fields that need it are
  aligned; it takes whole bytes, and as many as declared. -/
  inductive StructOk (Γ : Scope) : StructA → StructD → Prop
    | mk {l c n s b fs dyn} : Name.isCapitalized n = true → BodyOk Γ b fs → fs ≠ [] → (fs.flatMap FieldD.names).Nodup → Aligned fs →
        total fs % 8 = 0 → DeclaredOk s fs → (dyn = true ↔ ∃ f ∈ fs, f.IsVar) → StructOk Γ (.mk l c n s b) (.mk n (roomOf fs) dyn fs)
end

/-- The values of an enum after the number `prev`: capitalized, with the number written or the next one.  A written -1 counts as not
written (finding 4). -/
inductive NumsOk (Γ : Scope) : Option Int → List EnumElemA → List (Str × Int) → Prop
  | nil {prev} : NumsOk Γ prev [] []
  | empty {prev r vs} : NumsOk Γ prev r vs → NumsOk Γ prev (.empty :: r) vs
  | next {prev l c n w r vs} : Name.isCapitalized n = true → (∀ x, w = some x → ValOk Γ x (.int (-1))) →
      NumsOk Γ (some (nextNum prev)) r vs → NumsOk Γ prev (.value l c n w :: r) ((n, nextNum prev) :: vs)
  | given {prev l c n w r vs} {v : Int} : Name.isCapitalized n = true → ValOk Γ w (.int v) → v ≠ -1 → NumsOk Γ (some v) r vs →
      NumsOk Γ prev (.value l c n (some w) :: r) ((n, v) :: vs)

/-- An enum has a capitalized name, a size and at least one value. -/
inductive EnumOk (Γ : Scope) : EnumA → EnumD → Prop
  | mk {l c n s body b vs} : Name.isCapitalized n = true → annotSize (some s) = some b → NumsOk Γ none body vs → vs ≠ [] →
      EnumOk Γ ⟨l, c, n, s, body⟩ ⟨n, b, vs⟩

inductive TopOk (Γ : Scope) : TopA → CTy → Prop
  | struct {d x} : StructOk Γ d x → TopOk Γ (.struct d) (.struct x)
  | enum {d x} : EnumOk Γ d x → TopOk Γ (.enum d) (.enum x)

/-- The name of a definition -/
def CTy.ident : CTy → Str
  | .struct (.mk n _ _ _) => n
  | .enum e => e.name
  | _ => []

/-- After a definition its name and the names of its values may be used. -/
def Scope.add (Γ : Scope) (t : CTy) : Scope where
  type n ty := Γ.type n ty ∨ n = t.ident ∧ ty = t
  val n v := Γ.val n v ∨ ∃ e, t = .enum e ∧ (n, v) ∈ e.values

/-- The definitions of a file, each in the scope of those before it -/
inductive DefsOk : Scope → List TopA → List CTy → Prop
  | nil {Γ} : DefsOk Γ [] []
  | cons {Γ t r ty ds} : TopOk Γ t ty → DefsOk (Γ.add ty) r ds → DefsOk Γ (t :: r) (ty :: ds)

/-! ### The names a file introduces -/

mutual
  /-- A struct introduces its name and those of the structs defined inside it. -/
  def StructA.intro : StructA → List Str
    | .mk _ _ n _ b => n :: b.intro
  def BodyA.intro : BodyA → List Str
    | .nil => []
    | .cons f r => f.intro ++ r.intro
  def FieldA.intro : FieldA → List Str
    | .normal t _ _ _ _ => t.intro
    | .embedded t _ => t.intro
    | .empty => []
    | .void _ _ => []
    | .const _ _ _ _ _ => []
  def TypeA.intro : TypeA → List Str
    | .elem e => e.intro
    | .array e _ => e.intro
  def ElemA.intro : ElemA → List Str
    | .structDef d => d.intro
    | _ => []
end

/-- An enum introduces its name and those of its values. -/
def TopA.intro : TopA → List Str
  | .struct d => d.intro
  | .enum d => d.name :: d.body.filterMap fun
    | .value _ _ n _ => some n
    | .empty => none

/-! ### Projects -/

/-- The names the file `p` introduces -/
def introduces (fs : FS) (p : Str) : List Str :=
  match fs p with
  | .parsed f => f.tops.flatMap TopA.intro
  | _ => []

/-- The head of a file: valid import paths, one package, valid file options, none of them twice. -/
structure HeadOk (f : FileA) : Prop where
  imports : none ∉ f.imports
  package : ∃ p, f.pkgs = [p]
  options : ∃ lits, f.opts.map (fun o => litOf o.val) = lits.map some ∧ (f.opts.map (·.name)).Nodup ∧
    ∀ e ∈ (f.opts.map (·.name)).zip lits, FileOptOk e.1 e.2

/-- The definitions `D` of the files that `p` imports, directly or not -/
def scopeOf (fs : FS) (D : Str → List CTy) (p : Str) : Scope where
  type n t := ∃ q, Below fs p q ∧ t ∈ D q ∧ n = t.ident
  val n v := ∃ q e, Below fs p q ∧ .enum e ∈ D q ∧ (n, v) ∈ e.values

/-- The project of `entry` obeys the rules, and `D` are the definitions of its files. -/
structure ProjectOk (fs : FS) (entry : Str) (D : Str → List CTy) : Prop where
  /-- every file of the project can be read and is correct, given those it imports -/
  files : ∀ p, Reach fs entry p → ∃ f, fs p = .parsed f ∧ HeadOk f ∧ DefsOk (scopeOf fs D p) f.tops (D p)
  /-- no file imports itself, directly or not -/
  acyclic : ∀ p, Reach fs entry p → ¬ Below fs p p
  /-- no two files have the same package -/
  packages : ∀ p q, Reach fs entry p → Reach fs entry q → pkgOf fs p = pkgOf fs q → p = q
  /-- no name is introduced twice, in one file or in two -/
  once : ∀ p, Reach fs entry p → (introduces fs p).Nodup
  apart : ∀ p q n, Reach fs entry p → Reach fs entry q → n ∈ introduces fs p → n ∈ introduces fs q → p = q

end Bubbler.Comp
