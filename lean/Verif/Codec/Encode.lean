import Verif.Codec.Schema

/-
Model of the generated Go methods EncodeSize, EncodeTo and Encode.
-/
namespace Bubbler

/-- Runs `f i x` for the elements `x` of an array with their index `i`, threading the buffer and
`offset`: both the `for _i` loops and the unrolled statement sequences (golang.go 1600-1640,
1695-1730). -/
def encIdx {α : Type} (f : Nat → α → Buf → Nat → Option (Buf × Nat)) :
    Nat → List α → Buf → Nat → Option (Buf × Nat)
  | _, [], d, off => some (d, off)
  | i, x :: xs, d, off =>
    match f i x d off with
    | none => none
    | some (d, off) => encIdx f (i + 1) xs d off

/-- `ValueExpr` of the bit loop (golang.go 1640-1665; encodeArrayLoopBool 1447-1455): conversion of
an element to uint64 (sign extending for signed types); bools become 0 or 1. -/
def Sc.toU64 (s : Sc) (x : BitVec s.width) : BitVec 64 :=
  if s.isBool then (if x = 0#_ then 0#64 else 1#64)
  else if s.signed then x.signExtend 64
  else x.setWidth 64

/-- The statement for element `i` of an array field of `len` elements, `eb` bits each, at fixed
start `start`.  `rec x from n` is `generateEncodeNormalFieldImpl` (golang.go 1742-1852) for `x` at
bits `[from, from+n)`.  Loop forms: golang.go 1575-1620 (dynamic elements), 1621-1670 (fixed);
unrolled form: 1671-1735.  For dynamic elements Go computes `eb = -1 / len`; it is only used in
`from + i*eb` with `i < len`, which equals `from` in both cases, as with `eb = 0`. -/
def arrElemEnc (c : Cfg) (t : Ty) (rec : t.Val → Nat → Nat → Buf → Nat → Option (Buf × Nat))
    (len eb start : Nat) (big : Bool) (i : Nat) (x : t.Val) (d : Buf) (off : Nat) :
    Option (Buf × Nat) :=
  if c.useLoop len then
    match t, rec, x with
    | .sc s, _, x =>
      match bbWriteFieldBits d (8 * off + (start + i * eb)) eb (s.toU64 x) big with
      | none => none
      | some d => some (d, off)
    | .struct fs, rec, x =>
      if fs.dynamic then rec x start eb d off
      else rec x (8 * (start / 8 + i * (eb / 8))) eb d off
    | .str, rec, x => rec x start eb d off
    | .bytes, rec, x => rec x start eb d off
  else rec x (start + i * eb) eb d off

/-- `fieldData(i)` of a constant: byte `i` of `binary.Write(order, literal)` at the full width of
the field type (golang.go 1468-1486).  The Go expression is an untyped constant; 64 bits are wide
enough for every shift the statements apply to it. -/
def constData (p : Prim) (big : Bool) (val i : Nat) : BitVec 64 :=
  let v : BitVec p.width := BitVec.ofNat p.width val
  let byte : Byte := if big then (v >>> (p.width - 8 * (i + 1))).setWidth 8 else (v >>> (8 * i)).setWidth 8
  byte.setWidth 64

mutual
  /-- `generateEncodeNormalFieldImpl` (golang.go 1742-1852) for a value of type `t` at bits
  `[start, start+n)` relative to `8*off`; `arr`: called for an unrolled array element.
  Nested structs: template encodeNormalFieldStruct (golang.go 1373-1375) calling EncodeTo of the
  nested type (1287-1297). -/
  def Ty.encElem (c : Cfg) : (t : Ty) → (big arr : Bool) → t.Val → (start n : Nat) → Buf → Nat →
      Option (Buf × Nat)
    | .sc s, big, arr, (x : BitVec s.width), start, n, d, off =>
      match encField big start n (x.setWidth (s.tempWidth arr n)) off d with
      | none => none
      | some d => some (d, off)
    | .str, _, _, s, start, _, d, off => encString s (start / 8) d off
    | .bytes, _, _, s, start, _, d, off => encBytes s (start / 8) d off
    | .struct fs, _, _, v, start, _, d, off =>
      match d.from? (off + start / 8) with
      | none => none
      | some sub =>
        match fs.encFields c v 0 sub 0 with
        | none => none
        | some (sub', o) =>
          some (d.take (off + start / 8) ++ sub',
            if fs.dynamic then off + (o + fs.sum / 8) else off)
  /-- The statements of EncodeTo, field by field (golang.go 1303-1361; definition/struct.go 97-111
  for the start positions). -/
  def Fields.encFields (c : Cfg) : (fs : Fields) → fs.Val → (start : Nat) → Buf → Nat →
      Option (Buf × Nat)
    | .nil, _, _, d, off => some (d, off)
    | .void n r, v, start, d, off => r.encFields c v (start + n) d off
    | .const p n big val r, v, start, d, off =>
      match execEnc (constData p big val) off (encStmts start n) d with
      | none => none
      | some d => r.encFields c v (start + n) d off
    | .one t bits big r, (v : t.Val × r.Val), start, d, off =>
      match t.encElem c big false v.1 start (bits.getD 0) d off with
      | none => none
      | some (d, off) => r.encFields c v.2 (start + bits.getD 0) d off
    | .arr t len bits big r, (v : List t.Val × r.Val), start, d, off =>
      match encIdx (arrElemEnc c t (fun x from_ n d off => t.encElem c big true x from_ n d off)
          len (bits.getD 0 / len) start big) 0 v.1 d off with
      | none => none
      | some (d, off) => r.encFields c v.2 (start + bits.getD 0) d off
end

/-- `EncodeTo(data)` (golang.go 1287-1297): new contents of the buffer and the returned count. -/
def Fields.encodeTo (c : Cfg) (fs : Fields) (v : fs.Val) (d : Buf) : Option (Buf × Nat) :=
  match fs.encFields c v 0 d 0 with
  | none => none
  | some (d, off) => some (d, off + fs.sum / 8)

mutual
  /-- What EncodeSize adds for one element (golang.go 1203-1275). -/
  def Ty.sizeExtra : (t : Ty) → t.Val → Nat
    | .sc _, _ => 0
    | .str, (s : List Byte) => s.length + 1
    | .bytes, (s : List Byte) => s.length + 1 + lenExtra s.length
    | .struct fs, v => if fs.dynamic then fs.sum / 8 + fs.sizeExtra v else 0
  def Fields.sizeExtra : (fs : Fields) → fs.Val → Nat
    | .nil, _ => 0
    | .void _ r, v => r.sizeExtra v
    | .const _ _ _ _ r, v => r.sizeExtra v
    | .one t _ _ r, (v : t.Val × r.Val) => t.sizeExtra v.1 + r.sizeExtra v.2
    | .arr t _ _ _ r, (v : List t.Val × r.Val) => (v.1.map (fun x => t.sizeExtra x)).sum + r.sizeExtra v.2
end

/-- `EncodeSize()` (golang.go 1192-1279). -/
def Fields.encodeSize (fs : Fields) (v : fs.Val) : Nat :=
  if fs.dynamic then fs.sum / 8 + fs.sizeExtra v else fs.sum / 8

/-- `Encode()` (golang.go 1281-1285). -/
def Fields.encode (c : Cfg) (fs : Fields) (v : fs.Val) : Option Buf :=
  match fs.encodeTo c v (List.replicate (fs.encodeSize v) 0#8) with
  | none => none
  | some (d, _) => some d

end Bubbler
