import Verif.Compiler.Ast
import Verif.Util.NameStyle

/-
The names of the members a generated type declares, in every target language.  Names are made from the names in the source by
the conversions of util/name_style.go, with `get`/`set` in front and, for items of arrays, something behind.

Only names are modelled, each once: overloads of one name count as one member, and members are listed by the entry of the source
they come from instead of in the order of the text.
-/
namespace Bubbler.Gen
open Comp (FieldD StructD CTy)

abbrev Str := List Char

/-- The targets; the two kinds of JavaScript modules declare the same names. -/
inductive Lang | go | c | cpp | csharp | java | kotlin | python | js
deriving DecidableEq

/-- A declared name: `attr` says attribute, property or constant, otherwise it is a function. -/
structure Member where
  attr : Bool
  name : Str
deriving DecidableEq

/-- What members are made of: a field, a group of methods (with a getter, with a setter) or a constant.  `own` is false for
methods that came in with an embedded struct. -/
inductive Entry
  | field (name : Str) (arr : Bool)
  | group (name : Str) (get set own : Bool)
  | const (name : Str)
deriving DecidableEq

def Entry.name : Entry → Str
  | .field n _ => n
  | .group n _ _ _ => n
  | .const n => n

/-- The entries of one field (definition/field.go `NormalField`, `ConstantField`); `FieldMethods` groups getter and setter of a
name. -/
def entriesOf (own : Bool) : FieldD → List Entry
  | .normal n t _ ms _ =>
    .field n (match t with | .array _ _ => true | _ => false) ::
      ms.map fun g => .group g.1 (g.2.any fun m => !m.1) (g.2.any fun m => m.1) own
  | .const n _ _ _ _ => [.const n]
  | .void _ => []
  | .embedded _ _ => []

/-- The entries of a list of fields; the first `k` came in with an embedded struct (compiler/proto_visitor.go 343-356: behind the
mark of an embedded struct all its fields are copied). -/
def entriesFrom : Nat → List FieldD → List Entry
  | _, [] => []
  | 0, .embedded e _ :: r => entriesFrom e.fields.length r
  | 0, f :: r => entriesOf true f ++ entriesFrom 0 r
  | k + 1, f :: r => entriesOf false f ++ entriesFrom k r

def entries (s : StructD) : List Entry := entriesFrom 0 s.fields

def attr (n : Str) : Member := ⟨true, n⟩
def func (n : Str) : Member := ⟨false, n⟩

/-- Members every type of a target has.  Go: golang.go 601-605, 1196, 1284, 1291, 1930, 2112.  C: c.go 624-625, 1419-1453 (names
with the struct's in front).  C++: cpp.go 695-696 and the same functions as members.  C#: csharp.go 598-599, 626-651, 490, 549,
1171-1304, 2132-2496, and the name of the class, which no member may have.  Java: java.go 429, 487, 535-539, 566, 593, 1225-1304,
2097-2271.  Kotlin: kotlin_encode.go 14-36, kotlin_decode.go 14-33, kotlin.go 453-455 (what is in the companion object does not
count).  Python: python.go 380-384, 393, 930-997, 1599, 1763.  JavaScript: esm_encode.go 118, esm_decode.go 242, commonjs.go
1803-2834 (static functions do not count). -/
def fixed (l : Lang) (s : Str) : List Member :=
  match l with
  | .go => ["Dynamic", "Size", "EncodeSize", "Encode", "EncodeTo", "Decode", "DecodeSize"].map fun n => func n.toList
  | .c => ["_dynamic", "_size", "_encode_size", "_encode", "_decode_size", "_decode"].map fun n => func (s ++ n.toList)
  | .cpp => (["dynamic", "size"].map fun n => attr n.toList) ++
      ["encode_size", "encode", "decode_size", "decode"].map fun n => func n.toList
  | .csharp => (["Dynamic", "Size"].map fun n => attr n.toList) ++ attr s ::
      ["Equals", "GetHashCode", "EncodeSize", "Encode", "DecodeSize", "Decode", "BbWriteFieldBits", "BbReadFieldBits"].map
        fun n => func n.toList
  | .java => ["dynamic", "size", "equals", "hashCode", "encodeSize", "encode", "decodeSize", "decode", "bbWriteFieldBits",
      "bbReadFieldBits"].map fun n => func n.toList
  | .kotlin => ["equals", "hashCode", "encodeSize", "encode", "decodeSize", "decode"].map fun n => func n.toList
  | .python => ["__init__", "dynamic", "size", "encode_size", "encode", "decode_size", "decode"].map fun n => func n.toList
  | .js => ["constructor", "encode_size", "encode", "decode_size", "decode"].map fun n => func n.toList

/-- `x` if `b` -/
def opt (b : Bool) (x : Member) : List Member := if b then [x] else []

/-- Members made from one entry.  `minimal` is the option `-minimal`, which leaves the raw accessors out (JavaScript has none).

Go: golang.go 780, 828-831, 970-974, 1010-1013, 1045-1048, 1072-1075; methods of embedded fields are declared for the struct they
come from (finding 31).  C: c.go 832-842, 876-880, 974-1002 (methods as in Go), 1025-1083.  C++: cpp.go 915-925, 959-963,
1057-1163.  C#: csharp.go 798-800, 835-838, 980-982, 1048-1050.  Java: java.go 749-752, 787-790, 930-934, 961-964, 990-1059.
Kotlin: kotlin.go 352-360, 407-433 (only groups with a getter; others are refused).  Python: python.go 545-553, 567-570, 719-721,
748-761, 783-786, 809-812.  JavaScript: esm.go 1281-1310, 1364, 1386; commonjs.go likewise. -/
def made (l : Lang) (minimal : Bool) (s : Str) : Entry → List Member
  | .field n arr =>
    match l with
    | .go => attr (Name.toPascal n) ::
        (if minimal then [] else [func ("Get".toList ++ Name.toPascal n), func ("Set".toList ++ Name.toPascal n)])
    | .c => attr (Name.toSnake n) ::
        (if minimal then [] else
          [func (s ++ "_get_".toList ++ Name.toSnake n), func (s ++ "_set_".toList ++ Name.toSnake n)] ++
          (if arr then [func (s ++ "_get_".toList ++ Name.toSnake n ++ "_item".toList),
            func (s ++ "_get_".toList ++ Name.toSnake n ++ "_length".toList),
            func (s ++ "_set_".toList ++ Name.toSnake n ++ "_item".toList)] else []))
    | .cpp => attr (Name.toSnake n) ::
        (if minimal then [] else
          [func ("get_".toList ++ Name.toSnake n), func ("set_".toList ++ Name.toSnake n)] ++
          (if arr then [func ("get_".toList ++ Name.toSnake n ++ "_item".toList),
            func ("get_".toList ++ Name.toSnake n ++ "_length".toList),
            func ("set_".toList ++ Name.toSnake n ++ "_item".toList)] else []))
    | .csharp => attr (Name.toCamel n) :: (if minimal then [] else [attr (Name.toPascal n)])
    | .java => attr (Name.toCamel n) ::
        (if minimal then [] else
          [func ("get".toList ++ Name.toPascal n), func ("set".toList ++ Name.toPascal n)] ++
          (if arr then [func ("get".toList ++ Name.toPascal n ++ "At".toList),
            func ("set".toList ++ Name.toPascal n ++ "At".toList)] else []))
    | .kotlin => [attr (Name.toCamel n)]
    | .python => attr ('_' :: Name.toSnake n) :: (if minimal then [] else [attr (Name.toSnake n)])
    | .js => [attr (Name.toCamel n)]
  | .group m get set own =>
    match l with
    | .go => opt (get && own) (func ("Get".toList ++ Name.toPascal m)) ++ opt (set && own) (func ("Set".toList ++ Name.toPascal m))
    | .c => opt (get && own) (func (s ++ "_get_".toList ++ Name.toSnake m)) ++
        opt (set && own) (func (s ++ "_set_".toList ++ Name.toSnake m))
    | .cpp => opt get (func ("get_".toList ++ Name.toSnake m)) ++ opt set (func ("set_".toList ++ Name.toSnake m))
    | .csharp => [attr (Name.toPascal m)]
    | .java => opt get (func ("get".toList ++ Name.toPascal m)) ++ opt set (func ("set".toList ++ Name.toPascal m))
    | .kotlin => opt get (attr (Name.toCamel m))
    | .python => [attr (Name.toSnake m)]
    | .js => [attr (Name.toCamel m)]
  | .const n =>
    match l with
    | .go => opt (!n.isEmpty) (attr (Name.toPascal n))
    | .c => opt (!n.isEmpty) (attr (Name.toSnake n))
    | .cpp => opt (!n.isEmpty) (attr (Name.toSnake n))
    | .csharp => [attr (Name.toPascal n)]
    | .java => [attr (Name.toCamel n)]
    | .kotlin => opt (!n.isEmpty) (attr (Name.toCamel n))
    | .python => [attr ('_' :: Name.toSnake n)]
    | .js => [attr (Name.toCamel n)]

/-- All members of the type generated for `s` -/
def members (l : Lang) (minimal : Bool) (s : StructD) : List Member :=
  fixed l s.name ++ (entries s).flatMap (made l minimal s.name)

/-- Two declarations a type of the language cannot have both: in C, Java and Kotlin attributes and functions have separate names,
elsewhere not. -/
def clash (l : Lang) (a b : Member) : Prop :=
  a.name = b.name ∧ (l = .c ∨ l = .java ∨ l = .kotlin → a.attr = b.attr)

instance (l : Lang) (a b : Member) : Decidable (clash l a b) := inferInstanceAs (Decidable (_ ∧ _))

/-- A type without clashes -/
def Distinct (l : Lang) (ms : List Member) : Prop := ms.Pairwise fun a b => ¬ clash l a b

instance (l : Lang) (ms : List Member) : Decidable (Distinct l ms) := inferInstanceAs (Decidable (List.Pairwise _ _))

end Bubbler.Gen
