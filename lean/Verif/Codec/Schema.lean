import Verif.Codec.Chunk
import Verif.Codec.Dyn

/-
The message schemas the generators work on (definition/struct.go, definition/field.go,
definition/type.go), the sizes derived from them, and the generated Go types as value types.

Embedded fields have been flattened by the compiler and produce no code
(golang.go 1498-1500, 2387-2389), so they do not appear here; see Verif/Compiler.
-/
namespace Bubbler

/-- util/bitwise.go 7-16 `HighBit` on int64: round up to a power of two. -/
def highBit (v : BitVec 64) : BitVec 64 :=
  let v := v - 1#64
  let v := v ||| v.sshiftRight 1
  let v := v ||| v.sshiftRight 2
  let v := v ||| v.sshiftRight 4
  let v := v ||| v.sshiftRight 8
  let v := v ||| v.sshiftRight 16
  let v := v ||| v.sshiftRight 32
  v + 1#64

/-- Width of the Go type chosen for a `bits`-wide enum, enum field or constant
(golang.go 1135-1137, 1516-1519, 2344-2347): `HighBit((bits+7)/8) * 8`. -/
def goUintWidth (bits : Nat) : Nat := (highBit (BitVec.ofNat 64 ((bits + 7) / 8))).toNat * 8

/-- definition/type.go 155-167: the basic types. -/
inductive Prim
  | bool | u8 | u16 | u32 | u64 | i8 | i16 | i32 | i64 | f32 | f64
deriving DecidableEq, Repr

/-- `TypeBitSize` of a basic type (definition/type.go 156-166); bool is 8 bits wide. -/
def Prim.width : Prim → Nat
  | .bool | .u8 | .i8 => 8
  | .u16 | .i16 => 16
  | .u32 | .i32 | .f32 => 32
  | .u64 | .i64 | .f64 => 64

/-- `TypeID.IsInt` (definition/type.go 38-40). -/
def Prim.signed : Prim → Bool
  | .i8 | .i16 | .i32 | .i64 => true
  | _ => false

/-- `TypeID.IsIntOrUint` (definition/type.go 46-48). -/
def Prim.isInteger : Prim → Bool
  | .bool | .f32 | .f64 => false
  | _ => true

/-- Types stored in one machine word: basic types and enums (`bits` = `EnumBitSize`). -/
inductive Sc
  | prim (p : Prim)
  | enum (bits : Nat)
deriving DecidableEq, Repr

/-- Width of the Go variable: basic types as is, enums by generateEnum (golang.go 1134-1139). -/
def Sc.width : Sc → Nat
  | .prim p => p.width
  | .enum b => goUintWidth b

def Sc.signed : Sc → Bool
  | .prim p => p.signed
  | .enum _ => false

def Sc.isBool : Sc → Bool
  | .prim .bool => true
  | _ => false

/-- `GetTypeBitSize` of the scalar type. -/
def Sc.bits : Sc → Nat
  | .prim p => p.width
  | .enum b => b

/-- Width of the unsigned Go type the bits are moved through when a single field (`arr = false`,
golang.go 1516-1530, 1776-1792) or an unrolled array element (`arr = true`, golang.go 1547-1551,
1660-1690) is encoded or decoded.  Enum arrays take the type from the table `typeSizeMapUint`
indexed by `8*⌈bits/8⌉`. -/
def Sc.tempWidth (s : Sc) (arr : Bool) (n : Nat) : Nat :=
  match s with
  | .prim p => p.width
  | .enum b => if arr then 8 * ((b + 7) / 8) else goUintWidth n

mutual
  /-- A field type other than an array (definition/type.go; definition/struct.go). -/
  inductive Ty
    | sc (s : Sc)
    | str
    | bytes
    | struct (fs : Fields)
  /-- The fields of a struct in order (definition/field.go).  `bits` is `FieldBitSize`, with
  `none` for the Go value -1 (dynamic). -/
  inductive Fields
    | nil
    /-- VoidField of `n` bits -/
    | void (n : Nat) (rest : Fields)
    /-- ConstantField of type `p`, `n` bits, with a non-negative integer literal -/
    | const (p : Prim) (n : Nat) (big : Bool) (val : Nat) (rest : Fields)
    /-- NormalField whose type is not an array -/
    | one (t : Ty) (bits : Option Nat) (big : Bool) (rest : Fields)
    /-- NormalField whose type is an array of `len` elements of type `t` -/
    | arr (t : Ty) (len : Nat) (bits : Option Nat) (big : Bool) (rest : Fields)
end

mutual
  /-- `GetTypeDynamic` (definition/type.go 151, 210, 234; definition/struct.go). -/
  def Ty.dynamic : Ty → Bool
    | .sc _ => false
    | .str => true
    | .bytes => true
    | .struct fs => fs.dynamic
  /-- second result of `SumFieldBitSize` (definition/struct.go 79-95) -/
  def Fields.dynamic : Fields → Bool
    | .nil => false
    | .void _ r => r.dynamic
    | .const _ _ _ _ r => r.dynamic
    | .one t _ _ r => t.dynamic || r.dynamic
    | .arr t _ _ _ r => t.dynamic || r.dynamic
end

/-- First result of `SumFieldBitSize` (definition/struct.go 79-95): `StructBitSize`. -/
def Fields.sum : Fields → Nat
  | .nil => 0
  | .void n r => n + r.sum
  | .const _ n _ _ r => n + r.sum
  | .one _ bits _ r => bits.getD 0 + r.sum
  | .arr _ _ bits _ r => bits.getD 0 + r.sum

mutual
  /-- The Go type generated for a field type.  A Go `string` is the list of its bytes. -/
  def Ty.Val : Ty → Type
    | .sc s => BitVec s.width
    | .str => List Byte
    | .bytes => List Byte
    | .struct fs => fs.Val
  /-- The Go struct type generated for a struct. Arrays are lists; `Fields.Valid` says that they
  have the declared length. -/
  def Fields.Val : Fields → Type
    | .nil => Unit
    | .void _ r => r.Val
    | .const _ _ _ _ r => r.Val
    | .one t _ _ r => t.Val × r.Val
    | .arr t _ _ _ r => List t.Val × r.Val
end

/-- Conditions on a scalar declared with `n` bits: compiler/proto_visitor.go 445-575 gives
`0 < n ≤ GetTypeBitSize`; enums of at most 64 bits are what the Go target supports. -/
def Sc.wf (s : Sc) (n : Nat) : Bool :=
  decide (0 < n) && decide (n ≤ s.bits) &&
    match s with
    | .prim _ => true
    | .enum b => decide (b ≤ 64)

/-- In arrays the Go target supports only enums of 1, 2, 4 or 8 bytes (`typeSizeMapUint`,
golang.go 1158-1163; others yield Go code that does not compile). -/
def Sc.wfArr : Sc → Bool
  | .prim _ => true
  | .enum b => (8 * ((b + 7) / 8) == 8) || (8 * ((b + 7) / 8) == 16) || (8 * ((b + 7) / 8) == 32) ||
      (8 * ((b + 7) / 8) == 64)

mutual
  /-- Well-formed schemas: what the compiler guarantees about an accepted struct
  (VisitStructDef / VisitFieldNormal / VisitFieldConstant, proved in Verif/Props), restricted
  to what the Go target supports (no array elements narrower than their struct, constants that fit). -/
  def Ty.wf : Ty → Bool
    | .sc _ => true
    | .str => true
    | .bytes => true
    | .struct fs => fs.wf 0 && decide (fs.sum % 8 = 0)
  def Fields.wf : Fields → Nat → Bool
    | .nil, _ => true
    | .void n r, start => r.wf (start + n)
    | .const p n big val r, start =>
      p.isInteger && decide (0 < n) && decide (n ≤ p.width) && decide (goUintWidth n = p.width) &&
        decide (val < 2 ^ n) && (!(big || p.signed) || decide (n = p.width)) && r.wf (start + n)
    | .one t bits _ r, start =>
      t.wf && r.wf (start + bits.getD 0) &&
        match t, bits with
        | .sc s, some n => s.wf n
        | .str, none => decide (start % 8 = 0)
        | .bytes, none => decide (start % 8 = 0)
        | .struct fs, some n => decide (n = fs.sum) && decide (start % 8 = 0)
        | _, _ => false
    | .arr t len bits _ r, start =>
      t.wf && r.wf (start + bits.getD 0) && decide (0 < len) &&
        match t, bits with
        | .sc s, some n => decide (n % len = 0) && s.wf (n / len) && s.wfArr
        | .str, none => decide (start % 8 = 0)
        | .bytes, none => decide (start % 8 = 0)
        | .struct fs, none => fs.dynamic && decide (start % 8 = 0)
        | .struct fs, some n => !fs.dynamic && decide (n = len * fs.sum) && decide (start % 8 = 0)
        | _, _ => false
end

mutual
  /-- No field whose type is directly a dynamic struct (outside arrays), at any depth. -/
  def Ty.noDirectDyn : Ty → Bool
    | .struct fs => fs.noDirectDyn
    | _ => true
  def Fields.noDirectDyn : Fields → Bool
    | .nil => true
    | .void _ r => r.noDirectDyn
    | .const _ _ _ _ r => r.noDirectDyn
    | .one t _ _ r => t.noDirectDyn && r.noDirectDyn &&
        match t with
        | .struct fs => !fs.dynamic
        | _ => true
    | .arr t _ _ _ r => t.noDirectDyn && r.noDirectDyn
end

/-- Generator options that reach the Go codec (generator/gen/gen_option.go), together with the
arbitrary previous contents `prev` of the variables Decode assigns to. -/
structure Cfg where
  /-- `-unroll`: -1 = always unroll -/
  unroll : Int
  /-- `-signext` -/
  signExt : SignExt
  prev : (w : Nat) → BitVec w

/-- `shouldUseLoop` (golang.go 1563-1564, 2450-2451): `loopUnroll >= 0 && Length > loopUnroll`. -/
def Cfg.useLoop (c : Cfg) (len : Nat) : Bool := decide (0 ≤ c.unroll) && decide ((len : Int) > c.unroll)

end Bubbler
