import Verif.Codec.MgTgt
import Verif.Codec.JsTgt
import Verif.Codec.KtMsg
import Verif.Codec.PyMsg

/-
New objects: the initial values the generators give to attributes.
  java.go 328-423 (typeDefValueMap, GenerateStringDefaultValue, GenerateBytesDefaultValue, GenerateArrayDefaultValue), 734, 752, 1178;
  csharp.go 383-483, 782, 800, 1124; kotlin.go 167-277, 338-345; python.go 302-366, 522, 539, 882;
  esm.go 1031-1103, 1270, 1283, 1444, commonjs.go 1116-1190, 1416, 1434, 1693.
Go has no initial values: the zero value.
-/
namespace Bubbler

/-! ### Go -/

mutual
  /-- The zero value of a Go type. -/
  def Ty.zero : (t : Ty) → t.Val
    | .sc s => (0#(s.width) : BitVec s.width)
    | .str => ([] : List Byte)
    | .bytes => ([] : List Byte)
    | .struct fs => fs.zero
  def Fields.zero : (fs : Fields) → fs.Val
    | .nil => ()
    | .void _ r => r.zero
    | .const _ _ _ _ r => r.zero
    | .one t _ _ r => (t.zero, r.zero)
    | .arr t len _ _ r => (List.replicate len t.zero, r.zero)
end

/-! ### Java, C#, JavaScript -/

/-- What the generators write after `=`. -/
structure NewVals (T : Tgt) where
  sc : (s : Sc) → T.SVal s
  str : T.Str
  /-- an array of the declared length, of elements with this initial value; `none`: of nulls, which are not among
  the values of the model -/
  arr : (t : Ty) → t.TVal T → Nat → Option (List (t.TVal T))

mutual
  /-- The initial value of an attribute. -/
  def Ty.tNew {T : Tgt} (N : NewVals T) : (t : Ty) → Option (t.TVal T)
    | .sc s => some (N.sc s)
    | .str => some N.str
    | .bytes => some ([] : List Byte)
    | .struct fs => fs.tNew N
  /-- A new object. -/
  def Fields.tNew {T : Tgt} (N : NewVals T) : (fs : Fields) → Option (fs.TVal T)
    | .nil => some ()
    | .void _ r => r.tNew N
    | .const _ _ _ _ r => r.tNew N
    | .one t _ _ r =>
      match t.tNew N, r.tNew N with
      | some x, some y => some (x, y)
      | _, _ => none
    | .arr t len _ _ r =>
      match t.tNew N with
      | none => none
      | some x =>
        match N.arr t x len, r.tNew N with
        | some xs, some y => some (xs, y)
        | _, _ => none
end

/-- `iterate start end` in a template (util/template.go 42-50). -/
def iterate (start stop : Nat) : List Nat := (List.range (stop - start)).map (start + ·)

/-- java.go 388-423, csharp.go 448-483: `new byte[n][]`; `new T[n]` for basic types; else a list of the initial value and
as many more as `iterate 1 n` gives. -/
def mgArr {T : Tgt} (memcpy : Bool) (zero : (p : Prim) → T.SVal (.prim p)) (t : Ty) (dv : t.TVal T) (n : Nat) : Option (List (t.TVal T)) :=
  match t, dv with
  | .bytes, dv => if memcpy then none else some (dv :: (iterate 1 n).map fun _ => dv)
  | .sc (.prim p), _ => some (List.replicate n (zero p))
  | _, dv => some (dv :: (iterate 1 n).map fun _ => dv)

/-- The initial values of Java and C#; enums are null in Java (java.go 1178) and 0 in C# (csharp.go 1124). -/
def mgNewVals (c : MgCfg) (memcpy : Bool) : NewVals (mgTgt c) where
  sc := fun s => match s with
    | .prim p => (0#(p.width) : BitVec p.width)
    | .enum _ => (if c.java then none else some 0#32 : Option (BitVec 32))
  str := ([] : List Byte)
  arr := mgArr memcpy (fun p => (0#(p.width) : BitVec p.width))

/-- JavaScript: `createArray` for arrays of structs, `[]` for all others (esm.go 1093-1103, commonjs.go 1180-1190); enums are null. -/
def jsNewVals (c : JsCfg) : NewVals (jsTgt c) where
  sc := fun s => match s with
    | .prim _ => (0 : Int)
    | .enum _ => JsEnum.undef
  str := []
  arr := fun t dv n => match t, dv with
    | .struct _, dv => some (List.replicate n dv)
    | _, _ => some []

/-! ### Kotlin -/

mutual
  /-- kotlin.go 167-197, 270-277. -/
  def Ty.ktNew : (t : Ty) → t.KtVal
    | .sc (.prim p) => (0#(p.width) : BitVec p.width)
    | .sc (.enum _) => (none : Option (BitVec 64))
    | .str => ([] : List Byte)
    | .bytes => ([] : List Byte)
    | .struct fs => fs.ktNew
  /-- A new object (kotlin.go 327-398); arrays: kotlin.go 232-268. -/
  def Fields.ktNew : (fs : Fields) → fs.KtVal
    | .nil => ()
    | .void _ r => r.ktNew
    | .const _ _ _ _ r => r.ktNew
    | .one t _ _ r => (t.ktNew, r.ktNew)
    | .arr t len _ _ r => (List.replicate len t.ktNew, r.ktNew)
end

/-! ### Python -/

mutual
  /-- python.go 302-366, 522, 882: an enum is `None`, which is not among the values of the model (`none`). -/
  def Ty.pyNew : (t : Ty) → Option t.PyVal
    | .sc (.prim _) => some (0 : Int)
    | .sc (.enum _) => none
    | .str => some ([] : List Byte)
    | .bytes => some ([] : List Byte)
    | .struct fs => fs.pyNew
  /-- A new object (python.go 539): arrays are list comprehensions. -/
  def Fields.pyNew : (fs : Fields) → Option fs.PyVal
    | .nil => some ()
    | .void _ r => r.pyNew
    | .const _ _ _ _ r => r.pyNew
    | .one t _ _ r =>
      match t.pyNew, r.pyNew with
      | some x, some y => some (x, y)
      | _, _ => none
    | .arr t len _ _ r =>
      match t.pyNew, r.pyNew with
      | some x, some y => some (List.replicate len x, y)
      | _, _ => none
end

/-! ### Conditions on definitions -/

mutual
  def Ty.attrs (p : (arr : Bool) → Ty → Bool) : Ty → Bool
    | .struct fs => fs.attrs p
    | _ => true
  /-- Every attribute, also of nested structs, satisfies a condition on its type (of the element, if it is an array). -/
  def Fields.attrs (p : (arr : Bool) → Ty → Bool) : Fields → Bool
    | .nil => true
    | .void _ r => r.attrs p
    | .const _ _ _ _ r => r.attrs p
    | .one t _ _ r => p false t && t.attrs p && r.attrs p
    | .arr t _ _ _ r => p true t && t.attrs p && r.attrs p
end

def Ty.isEnum : Ty → Bool
  | .sc (.enum _) => true
  | _ => false
def Ty.isBytes : Ty → Bool
  | .bytes => true
  | _ => false
def Ty.isStruct : Ty → Bool
  | .struct _ => true
  | _ => false

/-- No attribute is an enum or an array of enums. -/
def Fields.noEnum (fs : Fields) : Bool := fs.attrs fun _ t => !t.isEnum
/-- No attribute is an array of bytes. -/
def Fields.noByteArrs (fs : Fields) : Bool := fs.attrs fun arr t => !(arr && t.isBytes)
/-- All arrays are arrays of structs. -/
def Fields.onlyStructArrs (fs : Fields) : Bool := fs.attrs fun arr t => !arr || t.isStruct

end Bubbler
