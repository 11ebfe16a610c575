import Verif.Front.LitSpec
import Verif.Compiler.RuntimeSpec
import Verif.Compiler.Layout

/-
Specification for C67: the definitions the texts of a directory stand for.

The relations below are about the trees of the texts (Verif/Front/Tree.lean); they know nothing of the compiler, its tables or its
order of work.  A name stands for a definition of this name in the same text or in a text it imports, directly or not.
-/
namespace Bubbler.Front
open Comp hiding Str

/-- The name of a struct. -/
def Struct.ident : Struct → Id
  | .mk _ n _ _ => n

/-- The name a statement defines -/
def Stmt.ident : Stmt → Option Str
  | .struct s => some s.ident.text
  | .enum e => some e.name.text
  | _ => none

/-- The names of the values of an enum -/
def Enum.valNames (e : Enum) : List Str := e.body.filterMap fun
  | .value n _ _ _ => some n.text
  | .empty => none

/-- The text of `p`, as a tree. -/
def HasText (d : Str → Src) (p : Str) (f : List Stmt) : Prop := ∃ s, d p = .text s ∧ read s = some f

/-- Constants: numbers with their sign, the bytes of a string; a float stands for itself. -/
inductive ConstMeans : Const → Lit → Prop
  | int {sg t n} : IntMeans t n → n < 2 ^ 63 → ConstMeans (.int sg t) (.int (if sg = some true then -n else n))
  | float {sg t} : ConstMeans (.float sg t) (.float (decide (sg = some true)) t)
  | str {q b v} : q = '\'' ∨ q = '"' → Means b v → ConstMeans (.str (q :: (b ++ [q]))) (.str v)
  | bool {b} : ConstMeans (.bool b) (.bool b)

/-- Sizes `[bytes]`, `[bytes#bits]`, `[#bits]` in bits, as a 64 bit number; zero is no size. -/
inductive SizeMeans : Size → Int → Prop
  | bytes {t n} {z : Int} : IntMeans t n → z = (8 * n : Int).bmod (2 ^ 64) → z ≠ 0 → SizeMeans (.bytes t) z
  | both {t w n m} {z : Int} : IntMeans t n → IntMeans w m → z = (8 * n + m : Int).bmod (2 ^ 64) → z ≠ 0 → SizeMeans (.both t w) z
  | bits {w m} {z : Int} : IntMeans w m → z = (m : Int).bmod (2 ^ 64) → z ≠ 0 → SizeMeans (.bits w) z

/-- Options keep their order. -/
inductive OptsMean : List Opt → List (Str × Lit) → Prop
  | nil : OptsMean [] []
  | cons {o os l r} : ConstMeans o.val l → OptsMean os r → OptsMean (o :: os) ((o.name.text, l) :: r)

/-- Each element where it occurs first. -/
def firsts (l : List Str) : List Str := l.foldl (fun a n => if n ∈ a then a else a ++ [n]) []

/-- Methods of the same name form a property; properties are in the order of their first methods. -/
structure MethsMean (ms : List Meth) (gs : List (Str × List (Bool × Prim))) : Prop where
  named : ∀ m ∈ ms, m.name ≠ none
  names : gs.map (·.1) = firsts (ms.filterMap fun m => m.name.map (·.text))
  groups : ∀ g ∈ gs, g.2 = (ms.filter fun m => m.name.map (·.text) = some g.1).map fun m => (m.set, m.ty)

/-- The room a type takes without an annotation, in bits, as a 64 bit number; -1 = not fixed. -/
inductive WidthIs : CTy → Int → Prop
  | basic {t} : WidthIs (.basic t) t.width
  | str : WidthIs .str (-1)
  | bytes : WidthIs .bytes (-1)
  | array {e w n} : ¬ Variable e → WidthIs e w → WidthIs (.array e n) ((w * n).bmod (2 ^ 64))
  | arrayVar {e n} : Variable e → WidthIs (.array e n) (-1)
  | struct {s} : WidthIs (.struct s) s.bits
  | enum {e} : WidthIs (.enum e) e.bits

/-- The size of a field: as annotated, or else its width. -/
def FieldSize (sz : Option Size) (width : Int → Prop) (b : Int) : Prop := (sz = none ∧ width b) ∨ ∃ s, sz = some s ∧ SizeMeans s b

/-- The number after `prev`; enums begin with 0. -/
def nextNum : Option Int → Int
  | none => 0
  | some p => (p + 1).bmod (2 ^ 64)

/-- The room of all fields, as a 64 bit number. -/
def roomOf (fs : List FieldD) : Int := ((fs.map fun f => (f.room : Int)).sum).bmod (2 ^ 64)

section
variable (resolve : Str → Str → Option Str) (d : Str → Src)

/-- The text of `p` sees the statement `st` of the text `q`. -/
def Visible (p q : Str) (st : Stmt) : Prop := Reach (srcFS resolve d) p q ∧ ∃ f, HasText d q f ∧ st ∈ f

mutual
  /-- A type written in the text of `p` stands for ... -/
  inductive ElemMeans : Str → Elem → CTy → Prop
    | basic {p t} : ElemMeans p (.basic t) (.basic t)
    | str {p} : ElemMeans p .str .str
    | bytes {p} : ElemMeans p .bytes .bytes
    | structName {p q a n s x} : Visible resolve d p q (.struct s) → s.ident.text = n.text → StructMeans q s x →
        ElemMeans p (.structName a n) (.struct x)
    | structDef {p s x} : StructMeans p s x → ElemMeans p (.structDef s) (.struct x)
    | enumName {p q a n e x} : Visible resolve d p q (.enum e) → e.name.text = n.text → EnumMeans q e x →
        ElemMeans p (.enumName a n) (.enum x)
    | identStruct {p q n s x} : Visible resolve d p q (.struct s) → s.ident.text = n.text → StructMeans q s x →
        ElemMeans p (.ident n) (.struct x)
    | identEnum {p q n e x} : Visible resolve d p q (.enum e) → e.name.text = n.text → EnumMeans q e x →
        ElemMeans p (.ident n) (.enum x)
  inductive TyMeans : Str → Ty → CTy → Prop
    | elem {p e t} : ElemMeans p e t → TyMeans p (.elem e) t
    | array {p e t len} {n : Nat} : ElemMeans p e t → IntMeans len n → 0 < n → n < 2 ^ 63 → TyMeans p (.array e len) (.array t n)
  /-- A struct has the fields its body stands for, their room, and is dynamic if one of them is. -/
  inductive StructMeans : Str → Struct → StructD → Prop
    | mk {p a n sz b fs dyn} : BodyMeans p b fs → FieldSize sz (· = roomOf fs) (roomOf fs) → (dyn = true ↔ ∃ f ∈ fs, f.IsVar) →
        StructMeans p (.mk a n sz b) (.mk n.text (roomOf fs) dyn fs)
  inductive BodyMeans : Str → Body → List FieldD → Prop
    | nil {p} : BodyMeans p .nil []
    | cons {p f r xs ys} : FieldMeans p f xs → BodyMeans p r ys → BodyMeans p (.cons f r) (xs ++ ys)
  /-- A field is one field, none (an empty statement), or a struct followed by its fields (an embedded one). -/
  inductive FieldMeans : Str → Field → List FieldD → Prop
    | empty {p} : FieldMeans p .empty []
    | void {p sz os b} : SizeMeans sz b → FieldMeans p (.void sz os) [.void b]
    | const {p t sz v os b l opts} {n : Option Id} : FieldSize sz (· = (t.width : Int)) b → ValMeans p v l → OptsMean os opts →
        FieldMeans p (.const t n sz v os) [.const ((n.map (·.text)).getD []) t b l opts]
    | embedded {p t os x} : TyMeans p t (.struct x) → FieldMeans p (.embedded t os) (.embedded x true :: x.fields)
    | normal {p t n sz os ty b opts} : TyMeans p t ty → FieldSize sz (WidthIs ty) b → OptsMean os opts →
        FieldMeans p (.normal t n sz os none) [.normal n.text ty b [] opts]
    | methods {p t n sz os ms ty b opts gs} : TyMeans p t ty → FieldSize sz (WidthIs ty) b → OptsMean os opts → MethsMean ms gs →
        FieldMeans p (.normal t n sz os (some ms)) [.normal n.text ty b gs opts]
  /-- A constant is written out or is the name of an enum value. -/
  inductive ValMeans : Str → Const ⊕ Id → Lit → Prop
    | lit {p c l} : ConstMeans c l → ValMeans p (.inl c) l
    | name {p q e x i} {v : Int} : Visible resolve d p q (.enum e) → EnumMeans q e x → (i.text, v) ∈ x.values →
        ValMeans p (.inr i) (.int v)
  inductive EnumMeans : Str → Enum → EnumD → Prop
    | mk {p a n sz body b vs} : SizeMeans sz b → NumsMean p none body vs → EnumMeans p ⟨a, n, sz, body⟩ ⟨n.text, b, vs⟩
  /-- The numbers of enum values, after the number `prev`: as written or the next one.  A written -1 counts as not written (finding 4). -/
  inductive NumsMean : Str → Option Int → List EnumElem → List (Str × Int) → Prop
    | nil {p prev} : NumsMean p prev [] []
    | empty {p prev r vs} : NumsMean p prev r vs → NumsMean p prev (.empty :: r) vs
    | next {p prev n os c r vs} : NumsMean p (some (nextNum prev)) r vs →
        NumsMean p prev (.value n none os c :: r) ((n.text, nextNum prev) :: vs)
    | minusOne {p prev n w os c r vs} : ValMeans p w (.int (-1)) → NumsMean p (some (nextNum prev)) r vs →
        NumsMean p prev (.value n (some w) os c :: r) ((n.text, nextNum prev) :: vs)
    | given {p prev n w os c r vs} {v : Int} : ValMeans p w (.int v) → v ≠ -1 → NumsMean p (some v) r vs →
        NumsMean p prev (.value n (some w) os c :: r) ((n.text, v) :: vs)
end

/-- The definitions of a text, in order. -/
inductive FileMeans : Str → List Stmt → List (Str × CTy) → Prop
  | nil {p} : FileMeans p [] []
  | struct {p s x r l} : StructMeans resolve d p s x → FileMeans p r l → FileMeans p (.struct s :: r) ((s.ident.text, .struct x) :: l)
  | enum {p e x r l} : EnumMeans resolve d p e x → FileMeans p r l → FileMeans p (.enum e :: r) ((e.name.text, .enum x) :: l)
  | imp {p s r l} : FileMeans p r l → FileMeans p (.imp s :: r) l
  | package {p i is r l} : FileMeans p r l → FileMeans p (.package i is :: r) l
  | option {p o r l} : FileMeans p r l → FileMeans p (.option o :: r) l
  | empty {p r l} : FileMeans p r l → FileMeans p (.empty :: r) l

/-- The text of `p` sees no name twice. -/
structure Uniq (p : Str) : Prop where
  types : ∀ q q' st st' n, Visible resolve d p q st → Visible resolve d p q' st' → st.ident = some n → st'.ident = some n → q = q' ∧ st = st'
  vals : ∀ q q' e e' n, Visible resolve d p q (.enum e) → Visible resolve d p q' (.enum e') → n ∈ e.valNames → n ∈ e'.valNames → q = q' ∧ e = e'
  nodup : ∀ q e, Visible resolve d p q (.enum e) → e.valNames.Nodup

/-- The text of `p` has one package name, written with dots, and these options.  -/
structure HeadMeans (f : List Stmt) (pkg : Str) (opts : List (Str × Lit)) : Prop where
  package : ∃ i is, (f.filterMap fun | .package i is => some (i, is) | _ => none) = [(i, is)] ∧
    pkg = (((i :: is).map (·.text)).intersperse ['.']).flatten
  options : OptsMean (f.filterMap fun | .option o => some o | _ => none) opts

end
end Bubbler.Front
