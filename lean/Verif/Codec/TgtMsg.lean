import Verif.Codec.Decode
import Verif.Codec.Encode

/-
The encode/decode/decode_size/encode_size methods of the targets whose methods take an array and a start
position (`data`, `start`): CommonJS, ES modules, C#, Java (and C++, whose `subspan`s are the same thing).
Their templates have the same skeleton; what differs is the value types and the leaf statements, collected in
`Tgt`.  The instances are in JsTgt.lean, CsTgt.lean, JavaTgt.lean, CppTgt.lean.

Lines cited below are those of the ES module target (esm_encode.go, esm_decode.go) unless said otherwise; the
other generators have functions of the same names:
  generateEncodeNormalField      esm_encode.go 346-564, commonjs.go 2054-2349, csharp.go 1541-1870, java.go 1524-1837, cpp.go 1921-2162
  generateEncodeNormalFieldImpl  esm_encode.go 566-643, commonjs.go 2350-2450, csharp.go 1871-1985, java.go 1840-1950, cpp.go 2165-2273
  generateDecodeNormalField      esm_decode.go 466-678, commonjs.go 3089-3381, csharp.go 2779-3142, java.go 2526-2878, cpp.go 2974-3226
  generateDecodeNormalFieldImpl  esm_decode.go 680-798, commonjs.go 3382-3566, csharp.go 3144-3334, java.go 2880-3048, cpp.go 3228-3402

`start` of the methods is called `base` here; `start` is the bit position of a field in its struct, `off` is
the variable `offset`.  An exception is `none` in encoders and `panic` in decoders; `fail` is the result -1.
-/
namespace Bubbler

/-- What distinguishes the targets. -/
structure Tgt where
  /-- value of a scalar attribute -/
  SVal : Sc → Type
  /-- value of a string attribute -/
  Str : Type
  /-- `shouldUseLoop` for an array of this length -/
  loop : Nat → Bool
  /-- what loops over elements of fixed width add for `start` (the identity, except in Java) -/
  loopBase : Nat → Nat
  /-- `decode` calls `decode_size` first -/
  checks : Bool
  /-- result of an integer operation on offsets -/
  wrap : Int → Int
  /-- conversion of an offset, or the sum of two of them, to the result of `decode_size` -/
  ret : Int → Int
  /-- bytes from a position to the end of the data, as `decode_size` computes them -/
  rem : Nat → Int → Int
  /-- an array of this size can be allocated -/
  alloc : Nat → Bool
  /-- the data from `base + rel` on can be passed to a nested call: length of the data, `start`, position after
  it (C# slices throw beyond the end; the others pass the position) -/
  sub : Nat → (base rel : Int) → Bool
  /-- bytes of a string, without the NUL, in `encode_size` -/
  strSize : Str → Nat
  /-- bytes of a length prefix in `encode_size` -/
  lenSize : Nat → Nat
  /-- the statements writing a scalar: path of the field, byte order, element of an unrolled array?, value,
  bit position in the struct, bits, position of the struct in the data (with `offset`) -/
  encSc : List Fields → (s : Sc) → (big arr : Bool) → SVal s → (start n base : Nat) → Buf → Option Buf
  /-- the body of the loop over the scalar elements of an array: bit position in the data, bits -/
  encScLoop : List Fields → (s : Sc) → (big : Bool) → SVal s → (pos n : Nat) → Buf → Option Buf
  encConst : (p : Prim) → (n : Nat) → (big : Bool) → (val start base : Nat) → Buf → Option Buf
  /-- a string at a byte position; the bytes `offset` advances -/
  encStr : Str → (pos : Nat) → Buf → Option (Buf × Nat)
  encBytes : List Byte → (pos : Nat) → Buf → Option (Buf × Nat)
  /-- strings and bytes in `decode_size`: byte position in the struct, data, `start`, `offset` -/
  dsStr : (k : Nat) → Buf → (base off : Int) → ScanX
  dsBytes : (k : Nat) → Buf → (base off : Int) → ScanX
  decSc : List Fields → (s : Sc) → (big arr : Bool) → Buf → (start n base : Nat) → Option (SVal s)
  decScLoop : List Fields → (s : Sc) → (big : Bool) → Buf → (pos n : Nat) → Option (SVal s)
  /-- does the constant stand there? -/
  decConst : (p : Prim) → (n : Nat) → (big : Bool) → (val : Nat) → Buf → (start base : Nat) → Option Bool
  decStr : Buf → (pos : Nat) → Res (Str × Nat)
  decBytes : Buf → (pos : Nat) → Res (List Byte × Nat)

mutual
  /-- The value of a field type. -/
  def Ty.TVal (T : Tgt) : Ty → Type
    | .sc s => T.SVal s
    | .str => T.Str
    | .bytes => List Byte
    | .struct fs => fs.TVal T
  /-- The attributes of an object of the generated class. -/
  def Fields.TVal (T : Tgt) : Fields → Type
    | .nil => Unit
    | .void _ r => r.TVal T
    | .const _ _ _ _ r => r.TVal T
    | .one t _ _ r => t.TVal T × r.TVal T
    | .arr t _ _ _ r => List (t.TVal T) × r.TVal T
end

/-! ### encode_size, encode -/

mutual
  /-- What a value adds to `size` (esm_encode.go 36-92). -/
  def Ty.tSizeOf (T : Tgt) : (t : Ty) → t.TVal T → Nat
    | .sc _, _ => 0
    | .str, (s : T.Str) => T.strSize s + 1
    | .bytes, (s : List Byte) => s.length + T.lenSize s.length
    | .struct fs, v => if fs.dynamic then fs.sum / 8 + fs.tSizeFields T v else 0
  def Fields.tSizeFields (T : Tgt) : (fs : Fields) → fs.TVal T → Nat
    | .nil, _ => 0
    | .void _ r, v => r.tSizeFields T v
    | .const _ _ _ _ r, v => r.tSizeFields T v
    | .one t _ _ r, (v : t.TVal T × r.TVal T) => t.tSizeOf T v.1 + r.tSizeFields T v.2
    | .arr t _ _ _ r, (v : List (t.TVal T) × r.TVal T) => (v.1.map (fun x => t.tSizeOf T x)).sum + r.tSizeFields T v.2
end

/-- `encode_size` (esm_encode.go 33-97; csharp.go 1156-1230; java.go 1218-1290). -/
def Fields.tEncodeSize (T : Tgt) (fs : Fields) (v : fs.TVal T) : Nat :=
  if fs.dynamic then fs.sum / 8 + fs.tSizeFields T v else fs.sum / 8

/-- Element `i` of an array (esm_encode.go 387-555): unrolled, in a loop over elements of dynamic type, or in
a loop over elements of fixed width. -/
def tArrElemEnc (T : Tgt) (t : Ty) (ctx : List Fields) (rec : t.TVal T → (start n base : Nat) → Buf → Nat → Option (Buf × Nat))
    (len eb start base : Nat) (big : Bool) (i : Nat) (x : t.TVal T) (d : Buf) (off : Nat) : Option (Buf × Nat) :=
  if T.loop len then
    match t, rec, x with
    | .sc s, _, x =>
      match T.encScLoop ctx s big x (8 * (T.loopBase base + off) + (start + i * eb)) eb d with
      | none => none
      | some d => some (d, off)
    | .struct fs, rec, x =>
      if fs.dynamic then rec x start eb base d off
      else rec x (8 * (start / 8 + i * (eb / 8))) eb (T.loopBase base) d off
    | .str, rec, x => rec x start eb base d off
    | .bytes, rec, x => rec x start eb base d off
  else rec x (start + i * eb) eb base d off

mutual
  /-- `generateEncodeNormalFieldImpl` (esm_encode.go 566-643, templates 221-290). -/
  def Ty.tEnc (T : Tgt) : (t : Ty) → (ctx : List Fields) → (big arr : Bool) → t.TVal T → (start n base : Nat) → Buf → Nat →
      Option (Buf × Nat)
    | .sc s, ctx, big, arr, (x : T.SVal s), start, n, base, d, off =>
      match T.encSc ctx s big arr x start n (base + off) d with
      | none => none
      | some d => some (d, off)
    | .str, _, _, _, (s : T.Str), start, _, base, d, off =>
      match T.encStr s (base + off + start / 8) d with
      | none => none
      | some (d, m) => some (d, off + m)
    | .bytes, _, _, _, (s : List Byte), start, _, base, d, off =>
      match T.encBytes s (base + off + start / 8) d with
      | none => none
      | some (d, m) => some (d, off + m)
    | .struct fs, ctx, _, _, v, start, _, base, d, off =>
      if T.sub d.length base (off + start / 8 : Nat) then
        match fs.tEncFields T ctx v 0 (base + off + start / 8) d 0 with
        | none => none
        | some (d, o) => some (d, if fs.dynamic then off + (o + fs.sum / 8) else off)
      else none
  /-- The statements of `encode`, field by field (esm_encode.go 118-131, 195-212, 322-385). -/
  def Fields.tEncFields (T : Tgt) : (fs : Fields) → (ctx : List Fields) → fs.TVal T → (start base : Nat) → Buf → Nat →
      Option (Buf × Nat)
    | .nil, _, _, _, _, d, off => some (d, off)
    | .void n r, ctx, v, start, base, d, off => r.tEncFields T ctx v (start + n) base d off
    | .const p n big val r, ctx, v, start, base, d, off =>
      match T.encConst p n big val start (base + off) d with
      | none => none
      | some d => r.tEncFields T ctx v (start + n) base d off
    | .one t bits big r, ctx, (v : t.TVal T × r.TVal T), start, base, d, off =>
      match t.tEnc T (.one t bits big r :: ctx) big false v.1 start (bits.getD 0) base d off with
      | none => none
      | some (d, off) => r.tEncFields T ctx v.2 (start + bits.getD 0) base d off
    | .arr t len bits big r, ctx, (v : List (t.TVal T) × r.TVal T), start, base, d, off =>
      match encIdx (tArrElemEnc T t (.arr t len bits big r :: ctx)
          (fun x start n base d off => t.tEnc T (.arr t len bits big r :: ctx) big true x start n base d off)
          len (bits.getD 0 / len) start base big) 0 v.1 d off with
      | none => none
      | some (d, off) => r.tEncFields T ctx v.2 (start + bits.getD 0) base d off
end

/-- `encode(data, start)` (esm_encode.go 118-131): new contents of the array and the returned count. -/
def Fields.tEncodeTo (T : Tgt) (fs : Fields) (v : fs.TVal T) (d : Buf) (base : Nat) : Option (Buf × Nat) :=
  match fs.tEncFields T [] v 0 base d 0 with
  | none => none
  | some (d, off) => some (d, off + fs.sum / 8)

/-- `encode()`: the returned array. -/
def Fields.tEncode (T : Tgt) (fs : Fields) (v : fs.TVal T) : Option Buf :=
  if T.alloc (fs.tEncodeSize T v) then
    match fs.tEncodeTo T v (List.replicate (fs.tEncodeSize T v) 0#8) 0 with
    | none => none
    | some (d, _) => some d
  else none

/-! ### decode_size -/

/-- A nested dynamic struct (esm_decode.go 140-160). -/
def tDsSub (T : Tgt) (size : Int → Option Int) (k n : Nat) (base off : Int) : ScanX :=
  if T.sub n base (T.wrap (off + k)) then
    match size (T.wrap (off + base + k)) with
    | none => .panic
    | some subSize =>
      if subSize < 0 then .ret (T.ret (T.ret (-(T.wrap (off + k))) + subSize)) else .ok (T.wrap (off + subSize))
  else .panic

/-- The end of `decode_size` (esm_decode.go 214-216). -/
def tDsFinish (T : Tgt) (d : Buf) (base : Int) (fixed : Nat) : ScanX → Option Int
  | .panic => none
  | .ret r => some r
  | .ok off =>
    if T.rem d.length base < T.wrap (off + fixed) then some (T.ret (-(T.wrap (off + fixed))))
    else some (T.ret (T.wrap (off + fixed)))

mutual
  /-- decoderSizeField for one value (esm_decode.go 68-189). -/
  def Ty.tDsElem (T : Tgt) : (t : Ty) → (k : Nat) → Buf → (base off : Int) → ScanX
    | .sc _, _, _, _, off => .ok off
    | .str, k, d, base, off => T.dsStr k d base off
    | .bytes, k, d, base, off => T.dsBytes k d base off
    | .struct fs, k, d, base, off =>
      if fs.dynamic then tDsSub T (fun b => tDsFinish T d b (fs.sum / 8) (fs.tDsFields T 0 d b 0)) k d.length base off
      else .ok off
  /-- The fields in `decode_size` (esm_decode.go 203-213): normal fields of bit size -1. -/
  def Fields.tDsFields (T : Tgt) : (fs : Fields) → (start : Nat) → Buf → (base off : Int) → ScanX
    | .nil, _, _, _, off => .ok off
    | .void n r, start, d, base, off => r.tDsFields T (start + n) d base off
    | .const _ n _ _ r, start, d, base, off => r.tDsFields T (start + n) d base off
    | .one t bits _ r, start, d, base, off =>
      if bits.isNone then
        match t.tDsElem T (start / 8) d base off with
        | .ok off => r.tDsFields T start d base off
        | o => o
      else r.tDsFields T (start + bits.getD 0) d base off
    | .arr t len bits _ r, start, d, base, off =>
      if bits.isNone then
        match iterX (fun off => t.tDsElem T (start / 8) d base off) len off with
        | .ok off => r.tDsFields T start d base off
        | o => o
      else r.tDsFields T (start + bits.getD 0) d base off
end

/-- `decode_size(data, start)` (esm_decode.go 191-221). -/
def Fields.tDecodeSize (T : Tgt) (fs : Fields) (d : Buf) (base : Int) : Option Int :=
  if fs.dynamic then tDsFinish T d base (fs.sum / 8) (fs.tDsFields T 0 d base 0)
  else if T.rem d.length base < (fs.sum / 8 : Nat) then some (-(fs.sum / 8 : Nat)) else some (fs.sum / 8 : Nat)

/-! ### decode -/

/-- The size check at the start of `decode` (esm_decode.go 37). -/
def Fields.tCheck (T : Tgt) (fs : Fields) (d : Buf) (base : Nat) : Res Unit :=
  if T.checks then
    match fs.tDecodeSize T d base with
    | none => .panic
    | some sz => if sz < 0 then .fail else .ok ()
  else .ok ()

/-- Element `i` of an array (esm_decode.go 505-670). -/
def tArrElemDec (T : Tgt) (t : Ty) (ctx : List Fields) (rec : (start n base off : Nat) → Res (t.TVal T × Nat))
    (len eb start base : Nat) (big : Bool) (d : Buf) (i off : Nat) : Res (t.TVal T × Nat) :=
  if T.loop len then
    match t, rec with
    | .sc s, _ =>
      match T.decScLoop ctx s big d (8 * (T.loopBase base + off) + (start + i * eb)) eb with
      | none => .panic
      | some x => .ok (x, off)
    | .struct fs, rec =>
      if fs.dynamic then rec start eb base off
      else rec (8 * (start / 8 + i * (eb / 8))) eb (T.loopBase base) off
    | .str, rec => rec start eb base off
    | .bytes, rec => rec start eb base off
  else rec (start + i * eb) eb base off

mutual
  /-- `generateDecodeNormalFieldImpl` (esm_decode.go 680-798, templates 330-398). -/
  def Ty.tDec (T : Tgt) : (t : Ty) → (ctx : List Fields) → (big arr : Bool) → (d : Buf) → (start n base off : Nat) →
      Res (t.TVal T × Nat)
    | .sc s, ctx, big, arr, d, start, n, base, off =>
      match T.decSc ctx s big arr d start n (base + off) with
      | none => .panic
      | some x => .ok (x, off)
    | .str, _, _, _, d, start, _, base, off =>
      match T.decStr d (base + off + start / 8) with
      | .fail => .fail
      | .panic => .panic
      | .ok (s, m) => .ok (s, off + m)
    | .bytes, _, _, _, d, start, _, base, off =>
      match T.decBytes d (base + off + start / 8) with
      | .fail => .fail
      | .panic => .panic
      | .ok (s, m) => .ok (s, off + m)
    | .struct fs, ctx, _, _, d, start, _, base, off =>
      if T.sub d.length base (off + start / 8 : Nat) then
        match fs.tCheck T d (base + off + start / 8) with
        | .fail => .fail
        | .panic => .panic
        | .ok () =>
          match fs.tDecFields T ctx d 0 (base + off + start / 8) 0 with
          | .fail => .fail
          | .panic => .panic
          | .ok (v, o) => .ok (v, if fs.dynamic then off + (o + fs.sum / 8) else off)
      else .panic
  /-- The statements of `decode`, field by field (esm_decode.go 38-46, 438-500). -/
  def Fields.tDecFields (T : Tgt) : (fs : Fields) → (ctx : List Fields) → (d : Buf) → (start base off : Nat) →
      Res (fs.TVal T × Nat)
    | .nil, _, _, _, _, off => .ok ((), off)
    | .void n r, ctx, d, start, base, off => r.tDecFields T ctx d (start + n) base off
    | .const p n big val r, ctx, d, start, base, off =>
      match T.decConst p n big val d start (base + off) with
      | none => .panic
      | some false => .fail
      | some true => r.tDecFields T ctx d (start + n) base off
    | .one t bits big r, ctx, d, start, base, off =>
      match t.tDec T (.one t bits big r :: ctx) big false d start (bits.getD 0) base off with
      | .fail => .fail
      | .panic => .panic
      | .ok (x, off) =>
        match r.tDecFields T ctx d (start + bits.getD 0) base off with
        | .fail => .fail
        | .panic => .panic
        | .ok (v, off) => .ok ((x, v), off)
    | .arr t len bits big r, ctx, d, start, base, off =>
      match decIdx (tArrElemDec T t (.arr t len bits big r :: ctx)
          (fun start n base off => t.tDec T (.arr t len bits big r :: ctx) big true d start n base off)
          len (bits.getD 0 / len) start base big d) len 0 off with
      | .fail => .fail
      | .panic => .panic
      | .ok (xs, off) =>
        match r.tDecFields T ctx d (start + bits.getD 0) base off with
        | .fail => .fail
        | .panic => .panic
        | .ok (v, off) => .ok ((xs, v), off)
end

/-- `decode(data, start)` (esm_decode.go 32-46). -/
def Fields.tDecode (T : Tgt) (fs : Fields) (d : Buf) (base : Nat) : Res (fs.TVal T × Nat) :=
  match fs.tCheck T d base with
  | .fail => .fail
  | .panic => .panic
  | .ok () =>
    match fs.tDecFields T [] d 0 base 0 with
    | .fail => .fail
    | .panic => .panic
    | .ok (v, off) => .ok (v, off + fs.sum / 8)

end Bubbler
