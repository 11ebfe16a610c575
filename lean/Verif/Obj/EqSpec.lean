import Verif.Obj.Equal
import Verif.Codec.CSim

/-
Specification for C68: the content of an object (its attributes without identities), what counts as the same
content where floats are involved, and objects in a heap.
-/
namespace Bubbler
open Obj

mutual
  /-- Contents: what the user wrote into the attributes. -/
  def Ty.CVal (w : Nat) : Ty → Type
    | .sc (.prim p) => BitVec p.width
    | .sc (.enum _) => Option (BitVec w)
    | .str => List Byte
    | .bytes => List Byte
    | .struct fs => fs.CVal w
  def Fields.CVal (w : Nat) : Fields → Type
    | .nil => Unit
    | .void _ r => r.CVal w
    | .const _ _ _ _ r => r.CVal w
    | .one t _ _ r => t.CVal w × r.CVal w
    | .arr t _ _ _ r => List (t.CVal w) × r.CVal w
end

mutual
  /-- The content of a value: identities are forgotten. -/
  def Ty.content (w : Nat) : (t : Ty) → t.OVal w → t.CVal w
    | .sc (.prim p), (x : BitVec p.width) => (x : BitVec p.width)
    | .sc (.enum _), (x : Option (BitVec w)) => (x : Option (BitVec w))
    | .str, (x : List Byte) => (x : List Byte)
    | .bytes, (x : Ref × List Byte) => (x.2 : List Byte)
    | .struct fs, (x : Nat × fs.OVal w) => fs.content w x.2
  def Fields.content (w : Nat) : (fs : Fields) → fs.OVal w → fs.CVal w
    | .nil, _ => ()
    | .void _ r, x => r.content w x
    | .const _ _ _ _ r, x => r.content w x
    | .one t _ _ r, (x : t.OVal w × r.OVal w) => (t.content w x.1, r.content w x.2)
    | .arr t _ _ _ r, (x : List (t.OVal w) × r.OVal w) => (x.1.map (fun a => t.content w a), r.content w x.2)
end

namespace Obj

/-- The float with the sign of zero forgotten. -/
def dropSign (p : Prim) (x : BitVec p.width) : BitVec p.width := if isFloat p ∧ isZero p x then 0#_ else x
/-- The float with the payload of a NaN forgotten. -/
def dropPayload (p : Prim) (x : BitVec p.width) : BitVec p.width := if isFloat p then canonBits p x else x

/-- What a comparison of attributes sees of a number: of a single one (`arr = false`) the sign of zero does not count; of an
element of an array the payload of a NaN does not count, and in C# neither does the sign of zero. -/
def seen (l : Lang) (arr : Bool) (p : Prim) (x : BitVec p.width) : BitVec p.width :=
  if arr then (if l.cs then dropSign p (dropPayload p x) else dropPayload p x) else dropSign p x

end Obj

mutual
  /-- The content with what comparisons do not see forgotten. -/
  def Ty.norm (l : Lang) (w : Nat) (arr : Bool) : (t : Ty) → t.CVal w → t.CVal w
    | .sc (.prim p), (x : BitVec p.width) => (seen l arr p x : BitVec p.width)
    | .sc (.enum _), (x : Option (BitVec w)) => (x : Option (BitVec w))
    | .str, (x : List Byte) => (x : List Byte)
    | .bytes, (x : List Byte) => (x : List Byte)
    | .struct fs, x => fs.norm l w x
  def Fields.norm (l : Lang) (w : Nat) : (fs : Fields) → fs.CVal w → fs.CVal w
    | .nil, _ => ()
    | .void _ r, x => r.norm l w x
    | .const _ _ _ _ r, x => r.norm l w x
    | .one t _ _ r, (x : t.CVal w × r.CVal w) => (t.norm l w false x.1, r.norm l w x.2)
    | .arr t _ _ _ r, (x : List (t.CVal w) × r.CVal w) => (x.1.map (fun a => t.norm l w true a), r.norm l w x.2)
end

mutual
  /-- Every single float (not an element of an array), also of nested objects, satisfies `P`. -/
  def Ty.singles (P : (p : Prim) → BitVec p.width → Bool) (w : Nat) (arr : Bool) : (t : Ty) → t.CVal w → Bool
    | .sc (.prim p), (x : BitVec p.width) => arr || !isFloat p || P p x
    | .sc (.enum _), _ => true
    | .str, _ => true
    | .bytes, _ => true
    | .struct fs, x => fs.singles P w x
  def Fields.singles (P : (p : Prim) → BitVec p.width → Bool) (w : Nat) : (fs : Fields) → fs.CVal w → Bool
    | .nil, _ => true
    | .void _ r, x => r.singles P w x
    | .const _ _ _ _ r, x => r.singles P w x
    | .one t _ _ r, (x : t.CVal w × r.CVal w) => t.singles P w false x.1 && r.singles P w x.2
    | .arr t _ _ _ r, (x : List (t.CVal w) × r.CVal w) => x.1.all (fun a => t.singles P w true a) && r.singles P w x.2
end

mutual
  /-- No attribute of a float type, not even in nested structs. -/
  def Ty.noFloats : Ty → Bool
    | .sc (.prim p) => !isFloat p
    | .struct fs => fs.noFloats
    | _ => true
  def Fields.noFloats : Fields → Bool
    | .nil => true
    | .void _ r => r.noFloats
    | .const _ _ _ _ r => r.noFloats
    | .one t _ _ r => t.noFloats && r.noFloats
    | .arr t _ _ _ r => t.noFloats && r.noFloats
end

namespace Obj

/-- Not a NaN. -/
def notNaN (p : Prim) (x : BitVec p.width) : Bool := !isNaN p x
/-- Not the negative zero. -/
def notNegZero (p : Prim) (x : BitVec p.width) : Bool := !isZero p x || x == 0#_

/-- The objects and byte arrays there are. -/
structure Heap (w : Nat) where
  obj : (fs : Fields) → Nat → fs.OVal w
  bytes : Nat → List Byte

/-- An array or, in C# without `-memcpy`, a part of it. -/
def Heap.HasBytes {w : Nat} (H : Heap w) (l : Lang) (x : Ref × List Byte) : Prop :=
  if l = .csSpan then x.2 <+: (H.bytes x.1.1).drop x.1.2 else x.1.2 = 0 ∧ x.2 = H.bytes x.1.1

end Obj

mutual
  /-- The value is one of the heap: every object in it is the one of its identity. -/
  def Ty.In (l : Lang) {w : Nat} (H : Heap w) : (t : Ty) → t.OVal w → Prop
    | .sc _, _ => True
    | .str, _ => True
    | .bytes, (x : Ref × List Byte) => H.HasBytes l x
    | .struct fs, (x : Nat × fs.OVal w) => x.2 = H.obj fs x.1 ∧ fs.In l H x.2
  def Fields.In (l : Lang) {w : Nat} (H : Heap w) : (fs : Fields) → fs.OVal w → Prop
    | .nil, _ => True
    | .void _ r, x => r.In l H x
    | .const _ _ _ _ r, x => r.In l H x
    | .one t _ _ r, (x : t.OVal w × r.OVal w) => t.In l H x.1 ∧ r.In l H x.2
    | .arr t _ _ _ r, (x : List (t.OVal w) × r.OVal w) => (∀ a ∈ x.1, t.In l H a) ∧ r.In l H x.2
end

namespace Obj

/-- The object is in the heap. -/
abbrev Heap.Has {l : Lang} (H : Heap l.enumBits) {fs : Fields} (x : Object l fs) : Prop := (Ty.struct fs).In l H x

/-- The content of an object. -/
abbrev contentOf {l : Lang} {fs : Fields} (x : Object l fs) : fs.CVal l.enumBits := fs.content l.enumBits x.2

end Obj
end Bubbler
