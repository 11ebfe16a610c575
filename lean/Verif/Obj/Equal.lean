import Verif.Codec.MgTgt
import Verif.Codec.KtMsg

/-
`equals` and `hashCode` of the classes generated for Java, C# and Kotlin:
  java.go 566-612 (template structDef), csharp.go 623-668, kotlin.go 451-483 (generateEqualsHash).

Each attribute is compared by an operator or a library function the generator selects by the attribute's type;
both the selection and the effect of the functions are modelled. The effect of the functions is transcribed from
the documentation of the Java class library, of .NET (Core 3.0 or later, for the hash codes of floats) and of the
Kotlin standard library.

Values: as in MgTgt.lean and KtMsg.lean (numbers are their bits, floats their bit patterns, strings their UTF-8
bytes, an enum attribute is null or the number of a member), and in addition objects have an identity: structs a
number, byte arrays an array and a position in it (C# without `-memcpy` keeps `Memory<byte>`, a part of an array).
Other arrays have no identity, since no generated code compares it. Attributes other than enums are not null.
-/
namespace Bubbler.Obj

inductive Lang
  | java
  /-- C# with `-memcpy`: bytes are `byte[]` -/
  | csArray
  /-- C# without `-memcpy`: bytes are `Memory<byte>` (csharp.go 413-418) -/
  | csSpan
  | kotlin
deriving DecidableEq, Repr

def Lang.cs (l : Lang) : Bool := l == .csArray || l == .csSpan

/-- Bits of the number of an enum member (java.go 1112-1160, csharp.go 1096-1106: `int`; kotlin.go 303-325: `Long`). -/
def Lang.enumBits : Lang → Nat
  | .kotlin => 64
  | _ => 32

/-- Which array, and the position in it of the first byte. -/
abbrev Ref := Nat × Nat

end Bubbler.Obj

namespace Bubbler
open Obj

mutual
  /-- The value of an attribute: enums are numbers of `w` bits. -/
  def Ty.OVal (w : Nat) : Ty → Type
    | .sc (.prim p) => BitVec p.width
    | .sc (.enum _) => Option (BitVec w)
    | .str => List Byte
    | .bytes => Ref × List Byte
    | .struct fs => Nat × fs.OVal w
  /-- The attributes of an object. -/
  def Fields.OVal (w : Nat) : Fields → Type
    | .nil => Unit
    | .void _ r => r.OVal w
    | .const _ _ _ _ r => r.OVal w
    | .one t _ _ r => t.OVal w × r.OVal w
    | .arr t _ _ _ r => List (t.OVal w) × r.OVal w
end

namespace Obj

/-- An object of the class of a struct: identity and attributes. -/
abbrev Object (l : Lang) (fs : Fields) := (Ty.struct fs).OVal l.enumBits

/-! ### Numbers -/

def isFloat (p : Prim) : Bool := p == .f32 || p == .f64

/-- A float's bits without the sign. -/
def mag {w : Nat} (x : BitVec w) : Nat := x.toNat % 2 ^ (w - 1)

/-- The bits of infinity. -/
def infBits (p : Prim) : Nat := if p = .f32 then 0x7F800000 else 0x7FF0000000000000

def isNaN (p : Prim) (x : BitVec p.width) : Bool := decide (infBits p < mag x)

def isZero (p : Prim) (x : BitVec p.width) : Bool := mag x == 0

/-- IEEE 754 equality of bit patterns. -/
def ieeeEq (p : Prim) (x y : BitVec p.width) : Bool :=
  !isNaN p x && !isNaN p y && (x == y || (isZero p x && isZero p y))

/-- `==` on two values of a primitive type, in all three languages (in Kotlin: if the type is known statically, as
here). -/
def numEq (p : Prim) (x y : BitVec p.width) : Bool := if isFloat p then ieeeEq p x y else x == y

/-- `Float.floatToIntBits`, `Double.doubleToLongBits`: one pattern for all NaNs. -/
def canonBits (p : Prim) (x : BitVec p.width) : BitVec p.width :=
  if isNaN p x then BitVec.ofNat _ (infBits p + 2 ^ (if p = .f32 then 22 else 51)) else x

/-- `equals` of a boxed number, also used for the elements of arrays of numbers: `Float.equals` and `Arrays.equals(float[], float[])`
compare `floatToIntBits`; .NET's `Single.Equals` is `==` or both NaN. -/
def boxEq (l : Lang) (p : Prim) (x y : BitVec p.width) : Bool :=
  if isFloat p then
    if l.cs then ieeeEq p x y || (isNaN p x && isNaN p y)
    else canonBits p x == canonBits p y
  else x == y

/-! ### What is called -/

/-- How two attributes are compared. -/
inductive Cmp
  /-- the operator `!=` -/
  | op
  /-- `Objects.equals`, `Object.Equals` -/
  | object
  /-- `Arrays.equals`, `Enumerable.SequenceEqual`, `contentEquals` -/
  | array
  /-- `Arrays.deepEquals`, `contentDeepEquals` -/
  | deep
deriving DecidableEq, Repr

/-- java.go 573-590. -/
def javaCmp (arr : Bool) (t : Ty) : Cmp :=
  if arr then (match t with | .bytes => .deep | _ => .array)
  else match t with
    | .sc (.prim _) => .op
    | .bytes => .array
    | _ => .object

/-- csharp.go 636-648. -/
def csCmp (arr : Bool) (t : Ty) : Cmp :=
  if arr then .array
  else match t with
    | .sc (.prim _) => .op
    | _ => .object

/-- kotlin.go 461-478. -/
def ktCmp (arr : Bool) (t : Ty) : Cmp :=
  if arr then (match t with | .bytes => .deep | _ => .array)
  else match t with
    | .bytes => .array
    | _ => .op

def cmpOf (l : Lang) : Bool → Ty → Cmp :=
  match l with
  | .java => javaCmp
  | .kotlin => ktCmp
  | _ => csCmp

/-! ### equals -/

/-- Comparison of two arrays by a comparison of their elements. -/
def listEq {α : Type} (eq : α → α → Bool) : List α → List α → Bool
  | [], [] => true
  | x :: xs, y :: ys => eq x y && listEq eq xs ys
  | _, _ => false

/-- `equals` of byte arrays (identity) and of `Memory<byte>` (the same part of the same array). -/
def refEq (l : Lang) (x y : Ref × List Byte) : Bool :=
  if l = .csSpan then x.1 == y.1 && x.2.length == y.2.length else x.1 == y.1

end Obj

mutual
  /-- `equals` of a (boxed) attribute, or element of an array. -/
  def Ty.objEq (l : Lang) : (t : Ty) → t.OVal l.enumBits → t.OVal l.enumBits → Bool
    | .sc (.prim p), (x : BitVec p.width), (y : BitVec p.width) => boxEq l p x y
    | .sc (.enum _), (x : Option (BitVec l.enumBits)), (y : Option (BitVec l.enumBits)) => x == y
    | .str, (x : List Byte), (y : List Byte) => x == y
    | .bytes, (x : Ref × List Byte), (y : Ref × List Byte) => refEq l x y
    | .struct fs, (x : Nat × fs.OVal l.enumBits), (y : Nat × fs.OVal l.enumBits) => x.1 == y.1 || fs.attrsEq l x.2 y.2
  /-- The statements of `equals` after the comparison of identities and classes (java.go 571-593, csharp.go 634-651,
  kotlin.go 456-480). Operators and functions a language does not apply to a type of attribute give `false`. -/
  def Fields.attrsEq (l : Lang) : (fs : Fields) → fs.OVal l.enumBits → fs.OVal l.enumBits → Bool
    | .nil, _, _ => true
    | .void _ r, x, y => r.attrsEq l x y
    | .const _ _ _ _ r, x, y => r.attrsEq l x y
    | .one t _ _ r, (x : t.OVal l.enumBits × r.OVal l.enumBits), (y : t.OVal l.enumBits × r.OVal l.enumBits) =>
      (match cmpOf l false t, t, x.1, y.1 with
        | .op, .sc (.prim p), (a : BitVec p.width), (b : BitVec p.width) => numEq p a b
        | .op, t, a, b => if l = .kotlin then t.objEq l a b else false
        | .object, t, a, b => t.objEq l a b
        | .array, .bytes, (a : Ref × List Byte), (b : Ref × List Byte) => a.2 == b.2
        | _, _, _, _ => false) && r.attrsEq l x.2 y.2
    | .arr t _ _ _ r, (x : List (t.OVal l.enumBits) × r.OVal l.enumBits), (y : List (t.OVal l.enumBits) × r.OVal l.enumBits) =>
      (match cmpOf l true t, t, x.1, y.1 with
        | .array, t, a, b => listEq (fun a b => t.objEq l a b) a b
        | .deep, .bytes, (a : List (Ref × List Byte)), (b : List (Ref × List Byte)) => listEq (fun a b => a.2 == b.2) a b
        | .deep, t, a, b => listEq (fun a b => t.objEq l a b) a b
        | _, _, _, _ => false) && r.attrsEq l x.2 y.2
end

namespace Obj

/-- `x.equals(y)`, for `y` null or an object of another class (`none`) or an object of the same class
(java.go 566-593, csharp.go 623-651, kotlin.go 451-481). -/
def equals (l : Lang) {fs : Fields} (x : Object l fs) : Option (Object l fs) → Bool
  | none => false
  | some y => (Ty.struct fs).objEq l x y

/-! ### hashCode -/

/-- What the library and the runtime supply: hash codes of numbers other than floats, of enum members and null,
of strings, and of arrays and parts of arrays by their identity. -/
structure Hashes (w : Nat) where
  num : (p : Prim) → BitVec p.width → BitVec 32
  enum : Option (BitVec w) → BitVec 32
  str : List Byte → BitVec 32
  ref : Ref → Nat → BitVec 32

/-- `(int)(bits ^ (bits >>> 32))` for 64 bits, the bits for 32. -/
def foldBits {w : Nat} (x : BitVec w) : BitVec 32 := if w ≤ 32 then x.setWidth 32 else (x ^^^ (x >>> 32)).setWidth 32

/-- `Float.hashCode`, `Double.hashCode`; .NET's `Single.GetHashCode` and `Double.GetHashCode` mask the bits of zeros and NaNs
with those of infinity. -/
def floatHash (l : Lang) (p : Prim) (x : BitVec p.width) : BitVec 32 :=
  if l.cs then foldBits (if isNaN p x || isZero p x then x &&& BitVec.ofNat _ (infBits p) else x)
  else foldBits (canonBits p x)

def numHash (l : Lang) (h : Hashes l.enumBits) (p : Prim) (x : BitVec p.width) : BitVec 32 :=
  if isFloat p then floatHash l p x else h.num p x

/-- `31 * result + h` over the elements: `Arrays.hashCode`, `contentHashCode` begin with 1, `Aggregate(0, …)` of
csharp.go 662-664 with 0. -/
def listHash {α : Type} (l : Lang) (h : α → BitVec 32) (xs : List α) : BitVec 32 :=
  xs.foldl (fun r x => 31#32 * r + h x) (if l.cs then 0#32 else 1#32)

/-- `Arrays.hashCode(byte[])`. -/
def bytesHash (l : Lang) (s : List Byte) : BitVec 32 := listHash l (fun b => b.signExtend 32) s

end Obj

mutual
  /-- `hashCode` of a (boxed) attribute or element. -/
  def Ty.objHash (l : Lang) (h : Hashes l.enumBits) : (t : Ty) → t.OVal l.enumBits → BitVec 32
    | .sc (.prim p), (x : BitVec p.width) => numHash l h p x
    | .sc (.enum _), (x : Option (BitVec l.enumBits)) => h.enum x
    | .str, (x : List Byte) => h.str x
    | .bytes, (x : Ref × List Byte) => h.ref x.1 (if l = .csSpan then x.2.length else 0)
    | .struct fs, (x : Nat × fs.OVal l.enumBits) => fs.attrsHash l h x.2 17#32
  /-- The statements of `hashCode` (java.go 596-612, csharp.go 653-668, kotlin.go 455-482). The functions are selected as in `equals`,
  except that single numbers are boxed. -/
  def Fields.attrsHash (l : Lang) (h : Hashes l.enumBits) : (fs : Fields) → fs.OVal l.enumBits → (result : BitVec 32) → BitVec 32
    | .nil, _, result => result
    | .void _ r, x, result => r.attrsHash l h x result
    | .const _ _ _ _ r, x, result => r.attrsHash l h x result
    | .one t _ _ r, (x : t.OVal l.enumBits × r.OVal l.enumBits), result =>
      r.attrsHash l h x.2 (31#32 * result +
        match cmpOf l false t, t, x.1 with
        | .array, .bytes, (a : Ref × List Byte) => bytesHash l a.2
        | _, t, a => t.objHash l h a)
    | .arr t _ _ _ r, (x : List (t.OVal l.enumBits) × r.OVal l.enumBits), result =>
      r.attrsHash l h x.2 (31#32 * result +
        match cmpOf l true t, t, x.1 with
        | .deep, .bytes, (a : List (Ref × List Byte)) => listHash l (fun a => bytesHash l a.2) a
        | _, t, a => listHash l (fun a => t.objHash l h a) a)
end

namespace Obj

/-- `x.hashCode()`. -/
def hashCode (l : Lang) (h : Hashes l.enumBits) {fs : Fields} (x : Object l fs) : BitVec 32 := (Ty.struct fs).objHash l h x

end Obj
end Bubbler
