import Verif.Codec.Decode
import Verif.Codec.Encode

/-
The Kotlin methods `encodeSize`, `encode`, `decodeSize` and `decode` of a generated class
(generator/target/kotlin/kotlin_encode.go, kotlin_decode.go and the helpers in kotlin.go).

Values: a Boolean is the byte 0 or 1, a Float/Double its bit pattern (`toRawBits`/`fromBits`), a String the
list of its UTF-8 bytes (`encodeToByteArray`), an enum attribute is null (`none`) or the number of a member.
An exception is `none` (encoder), `panic` (decoder), `none` (decodeSize).

`start` of the Kotlin methods is called `base` here; `start` is the bit position of a field in its struct.

`-unroll` does not matter: `emitArray` (kotlin_encode.go 203-220) emits the same statements `length` times
or once inside `for (_i in 0 until length)`.
-/
namespace Bubbler

/-- What the Kotlin code depends on besides the definitions: `-signext`; what `decodeToString` makes of a
byte string (malformed UTF-8 is replaced); which numbers are members of the enum class of an enum field
(identified by its path, as in `PyCfg`). -/
structure KtCfg where
  signExt : SignExt
  decStr : List Byte → List Byte
  member : List Fields → BitVec 64 → Bool

/-- kotlin.go 146-158 (`kotlinTypeMap`); enum attributes are nullable (kotlin.go 341-343). -/
def Sc.KtVal : Sc → Type
  | .prim p => BitVec p.width
  | .enum _ => Option (BitVec 64)

mutual
  /-- The Kotlin value of a field type. -/
  def Ty.KtVal : Ty → Type
    | .sc s => s.KtVal
    | .str => List Byte
    | .bytes => List Byte
    | .struct fs => fs.KtVal
  /-- The properties of an object of the generated class. -/
  def Fields.KtVal : Fields → Type
    | .nil => Unit
    | .void _ r => r.KtVal
    | .const _ _ _ _ r => r.KtVal
    | .one t _ _ r => t.KtVal × r.KtVal
    | .arr t _ _ _ r => List t.KtVal × r.KtVal
end

/-! ### Bit helpers -/

/-- `sourceBit` / `targetBit` (kotlin.go 640, 658):
`if (bigEndian) maxOf(0L, bitSize - 8L * (byteIndex + 1L)) + (fieldBit and 7L) else fieldBit`. -/
def ktPos (big : Bool) (n j : Nat) : Nat := if big then (n - 8 * (j / 8 + 1)) + j % 8 else j

/-- One iteration of the loop of `bbWriteFieldBits` (kotlin.go 638-646).  Kotlin shifts a ULong by the low
six bits of the count. -/
def ktWriteStep (bitFrom n : Nat) (value : BitVec 64) (big : Bool) (d : Buf) (fieldBit : Nat) : Option Buf :=
  match d.rd ((bitFrom + fieldBit) / 8) with
  | none => none
  | some b =>
    if (value >>> (ktPos big n fieldBit % 64)) &&& 1#64 ≠ 0#64 then
      d.wr ((bitFrom + fieldBit) / 8) (b ||| 1#8 <<< ((bitFrom + fieldBit) % 8))
    else d.wr ((bitFrom + fieldBit) / 8) (b &&& ~~~(1#8 <<< ((bitFrom + fieldBit) % 8)))

/-- `bbWriteFieldBits` (kotlin.go 632-648). -/
def ktWriteFieldBits (d : Buf) (bitFrom n : Nat) (value : BitVec 64) (big : Bool) : Option Buf :=
  (List.range n).foldlM
    (ktWriteStep bitFrom n (if n < 64 then value &&& ((1#64 <<< n) - 1#64) else value) big) d

/-- One iteration of the loop of `bbReadFieldBits` (kotlin.go 653-661). -/
def ktReadStep (d : Buf) (bitFrom n : Nat) (big : Bool) (value : BitVec 64) (fieldBit : Nat) : Option (BitVec 64) :=
  match d.rd ((bitFrom + fieldBit) / 8) with
  | none => none
  | some b =>
    if (b.signExtend 32 >>> ((bitFrom + fieldBit) % 8)) &&& 1#32 ≠ 0#32 then
      some (value ||| 1#64 <<< (ktPos big n fieldBit % 64))
    else some value

/-- `bbReadFieldBits` (kotlin.go 650-663). -/
def ktReadFieldBits (d : Buf) (bitFrom n : Nat) (big : Bool) : Option (BitVec 64) :=
  (List.range n).foldlM (ktReadStep d bitFrom n big) 0#64

/-- `bbSignExtend` (kotlin.go 665-669) or the arithmetic form (`signExtend`, kotlin_decode.go 260-266). -/
def ktSignExt (m : SignExt) (n : Nat) (v : BitVec 64) : BitVec 64 :=
  if m = .arith ∧ n < 64 then (v ^^^ 1#64 <<< (n - 1)) - 1#64 <<< (n - 1)
  else if 64 ≤ n then v
  else (v <<< (64 - n)).sshiftRight (64 - n)

/-- `bbMask` (kotlin.go 671-673). -/
def ktMask (n : Nat) : BitVec 64 := if 64 ≤ n then BitVec.allOnes 64 else (1#64 <<< n) - 1#64

/-! ### Encoding -/

/-- `offset` appears in a position only after a field of bit size -1 (`dynamic`, kotlin_encode.go 235-261). -/
def ktOff (dyn : Bool) (off : Nat) : Nat := if dyn then off else 0

/-- `bitBase` (kotlin_encode.go 235-243). -/
def ktBitBase (base : Nat) (dyn : Bool) (off start : Nat) : Nat :=
  (base + ktOff dyn off + start / 8) * 8 + start % 8

/-- `basicToULong` (kotlin_encode.go 222-233), and `!!.number.toULong()` for enums (118): null throws. -/
def Sc.ktULong : (s : Sc) → s.KtVal → Option (BitVec 64)
  | .prim p, (x : BitVec p.width) =>
    if p = .bool then some (if x = 0#_ then 0#64 else 1#64)
    else some (if p.signed then x.signExtend 64 else x.setWidth 64)
  | .enum _, (x : Option (BitVec 64)) => x

/-- `literalForType` (kotlin.go 566-619) followed by `.toULong()`: the literal as a value of its type. -/
def ktConst (p : Prim) (val : Nat) : BitVec 64 :=
  if p.signed then (BitVec.ofNat p.width val).signExtend 64 else (BitVec.ofNat p.width val).setWidth 64

/-- `bytes.copyInto(data, pos)`: throws unless everything fits. -/
def ktCopyInto (s : List Byte) (d : Buf) (pos : Nat) : Option Buf :=
  if pos + s.length ≤ d.length then some (d.take pos ++ s ++ d.drop (pos + s.length)) else none

/-- A string (kotlin_encode.go 124-130, 167-173). -/
def ktEncString (s : List Byte) (base k : Nat) (d : Buf) (off : Nat) : Option (Buf × Nat) :=
  match ktCopyInto s d (base + off + k) with
  | none => none
  | some d =>
    match d.wr (base + off + k + s.length) 0#8 with
    | none => none
    | some d => some (d, off + (s.length + 1))

/-- The `do … while (length != 0)` loop of emitEncodeBytes (kotlin_encode.go 189-196). -/
def ktEncLen (base k length : Nat) (d : Buf) (off : Nat) : Option (Buf × Nat) :=
  match d.wr (base + off + k)
      (BitVec.ofNat 8 (if length >>> 7 ≠ 0 then length &&& 0x7F ||| 0x80 else length &&& 0x7F)) with
  | none => none
  | some d => if h : length >>> 7 ≠ 0 then ktEncLen base k (length >>> 7) d (off + 1) else some (d, off + 1)
termination_by length
decreasing_by
  have : length >>> 7 = length / 128 := by simp [Nat.shiftRight_eq_div_pow]
  omega

/-- emitEncodeBytes (kotlin_encode.go 187-201). -/
def ktEncBytes (s : List Byte) (base k : Nat) (d : Buf) (off : Nat) : Option (Buf × Nat) :=
  match ktEncLen base k s.length d off with
  | none => none
  | some (d, off) =>
    match ktCopyInto s d (base + off + k) with
    | none => none
    | some d => some (d, off + s.length)

/-- `bbVarUIntSize` (kotlin.go 675-682). -/
def ktVarUIntSize (value : Nat) : Nat :=
  if h : 0x80 ≤ value then 1 + ktVarUIntSize (value >>> 7) else 1
termination_by value
decreasing_by
  have : value >>> 7 = value / 128 := by simp [Nat.shiftRight_eq_div_pow]
  omega

mutual
  /-- emitEncodeSizeValue (kotlin_encode.go 72-87). -/
  def Ty.ktSizeOf : (t : Ty) → t.KtVal → Nat
    | .sc _, _ => 0
    | .str, (s : List Byte) => s.length + 1
    | .bytes, (s : List Byte) => s.length + ktVarUIntSize s.length
    | .struct fs, v => if fs.dynamic then fs.sum / 8 + fs.ktSizeFields v else 0
  /-- The `result += …` statements of `encodeSize` (kotlin_encode.go 18-27, 62-70). -/
  def Fields.ktSizeFields : (fs : Fields) → fs.KtVal → Nat
    | .nil, _ => 0
    | .void _ r, v => r.ktSizeFields v
    | .const _ _ _ _ r, v => r.ktSizeFields v
    | .one t _ _ r, (v : t.KtVal × r.KtVal) => t.ktSizeOf v.1 + r.ktSizeFields v.2
    | .arr t _ _ _ r, (v : List t.KtVal × r.KtVal) => (v.1.map (fun x => t.ktSizeOf x)).sum + r.ktSizeFields v.2
end

/-- `encodeSize()` (kotlin_encode.go 14-28).  The sum is an Int in Kotlin; see `ktEncode`. -/
def Fields.ktEncodeSize (fs : Fields) (v : fs.KtVal) : Nat :=
  if fs.dynamic then fs.sum / 8 + fs.ktSizeFields v else fs.sum / 8

mutual
  /-- The statements writing one value (encodeNormalField, kotlin_encode.go 107-162, emitEncodeDynamicValue
  164-185): a field (`i = 0`) or element `i` of an array with elements of `n` bits.  Indices that do not fit
  an Int are negative in Kotlin and throw, as out-of-range indices do here. -/
  def Ty.ktEnc : (t : Ty) → (big : Bool) → t.KtVal → (base start n : Nat) → (dyn : Bool) → (i : Nat) → Buf → Nat →
      Option (Buf × Nat)
    | .sc s, big, (x : s.KtVal), base, start, n, dyn, i, d, off =>
      match s.ktULong x with
      | none => none
      | some u =>
        match ktWriteFieldBits d (ktBitBase base dyn off start + i * n) n u big with
        | none => none
        | some d => some (d, off)
    | .str, _, (s : List Byte), base, start, _, _, _, d, off => ktEncString s base (start / 8) d off
    | .bytes, _, (s : List Byte), base, start, _, _, _, d, off => ktEncBytes s base (start / 8) d off
    | .struct fs, _, v, base, start, n, dyn, i, d, off =>
      match fs.ktEncFields v (base + ktOff dyn off + start / 8 + i * (n / 8)) 0 false d 0 with
      | none => none
      | some (d, _) => some (d, if fs.dynamic then off + fs.ktEncodeSize v else off)
  /-- The statements of `encode`, field by field (kotlin_encode.go 39-52, 89-105).  `dyn` is the flag of
  `ForEachField` (definition/struct.go 97-111): a field of bit size -1 came before.  Elements of dynamic type
  are addressed with `offset` (byteBase(startBits, true)) and without index. -/
  def Fields.ktEncFields : (fs : Fields) → fs.KtVal → (base start : Nat) → (dyn : Bool) → Buf → Nat → Option (Buf × Nat)
    | .nil, _, _, _, _, d, off => some (d, off)
    | .void n r, v, base, start, dyn, d, off => r.ktEncFields v base (start + n) dyn d off
    | .const p n big val r, v, base, start, dyn, d, off =>
      match ktWriteFieldBits d (ktBitBase base dyn off start) n (ktConst p val) big with
      | none => none
      | some d => r.ktEncFields v base (start + n) dyn d off
    | .one t bits big r, (v : t.KtVal × r.KtVal), base, start, dyn, d, off =>
      match t.ktEnc big v.1 base start (bits.getD 0) dyn 0 d off with
      | none => none
      | some (d, off) => r.ktEncFields v.2 base (start + bits.getD 0) (dyn || bits.isNone) d off
    | .arr t len bits big r, (v : List t.KtVal × r.KtVal), base, start, dyn, d, off =>
      match encIdx (fun i x d off => t.ktEnc big x base start (bits.getD 0 / len) (dyn || t.dynamic)
          (if t.dynamic then 0 else i) d off) 0 v.1 d off with
      | none => none
      | some (d, off) => r.ktEncFields v.2 base (start + bits.getD 0) (dyn || bits.isNone) d off
end

/-- `encode(data, start)` (kotlin_encode.go 35-59): new contents of the array and the returned count. -/
def Fields.ktEncodeTo (fs : Fields) (v : fs.KtVal) (d : Buf) (base : Nat) : Option (Buf × Nat) :=
  match fs.ktEncFields v base 0 false d 0 with
  | none => none
  | some (d, off) => some (d, off + fs.sum / 8)

/-- `encode()` (kotlin_encode.go 30-34).  A size of 2^31 or more does not fit an Int; what Kotlin does then
(a negative or too small array: an exception) is taken to be an exception. -/
def Fields.ktEncode (fs : Fields) (v : fs.KtVal) : Option Buf :=
  if 2 ^ 31 ≤ fs.ktEncodeSize v then none
  else match fs.ktEncodeTo v (List.replicate (fs.ktEncodeSize v) 0#8) 0 with
    | none => none
    | some (d, _) => some d

/-! ### decodeSize -/

/-- Kotlin's `Int` arithmetic: wrap to 32-bit two's complement. -/
def w32 (x : Int) : Int := (x + 2 ^ 31) % 2 ^ 32 - 2 ^ 31

/-- The loop over the characters of a string (kotlin_decode.go 78-81) at index `q`: the index of the NUL, or
a returned result.  `q` never exceeds `data.size`, so it does not wrap. -/
def ktScanStr (d : Buf) (base : Int) (q : Nat) : Option (Int ⊕ Nat) :=
  match d.rd q with
  | none => none
  | some b =>
    if b = 0#8 then some (.inr q)
    else if d.length ≤ q + 1 then some (.inl (w32 (-(w32 ((q + 1 + 1 : Nat) - base)))))
    else ktScanStr d base (q + 1)
termination_by d.length - q
decreasing_by omega

/-- A string in `decodeSize` (kotlin_decode.go 74-84). -/
def ktDsString (k : Nat) (d : Buf) (base off : Int) : ScanX :=
  let pos := w32 (base + off + k)
  if (d.length : Int) ≤ pos then .ret (w32 (-(w32 (pos + 1 - base))))
  else if pos < 0 then .panic
  else match ktScanStr d base pos.toNat with
    | none => .panic
    | some (.inl r) => .ret r
    | some (.inr q) => .ok (w32 (off + (q - pos + 1)))

/-- `data[i]`. -/
def ktRd (d : Buf) (i : Int) : Option Byte := if i < 0 then none else d.rd i.toNat

/-- The `while (true)` loop reading a length prefix (kotlin_decode.go 89-97): a returned result, or the
length and the new offset.  Kotlin shifts an Int by the low five bits of the count. -/
def ktScanLen (k : Nat) (d : Buf) (base : Int) (length : BitVec 32) (shift : Nat) (off : Int) :
    Option (Int ⊕ (BitVec 32 × Int)) :=
  let pos := w32 (base + off + k)
  if (d.length : Int) ≤ pos then some (.inl (w32 (-(w32 (pos + 1 - base)))))
  else match ktRd d pos with
    | none => none
    | some part =>
      let length := length ||| (part &&& 0x7F#8).setWidth 32 <<< (shift % 32)
      if part &&& 0x80#8 = 0#8 then some (.inr (length, w32 (off + 1)))
      else if h : 28 < shift + 7 then some (.inl (-1))
      else ktScanLen k d base length (shift + 7) (w32 (off + 1))
termination_by 28 - shift
decreasing_by omega

/-- Bytes in `decodeSize` (kotlin_decode.go 85-101). -/
def ktDsBytes (k : Nat) (d : Buf) (base off : Int) : ScanX :=
  let pos := w32 (base + off + k)
  if (d.length : Int) ≤ pos then .ret (w32 (-(w32 (pos + 1 - base))))
  else match ktScanLen k d base 0#32 0 off with
    | none => .panic
    | some (.inl r) => .ret r
    | some (.inr (length, off)) =>
      if w32 (d.length - base) < w32 (off + k + length.toInt) then .ret (w32 (-(w32 (off + k + length.toInt))))
      else .ok (w32 (off + length.toInt))

/-- A nested dynamic struct in `decodeSize` (kotlin_decode.go 102-110). -/
def ktDsSub (size : Int → Option Int) (k : Nat) (base off : Int) : ScanX :=
  match size (w32 (base + off + k)) with
  | none => .panic
  | some subSize =>
    if subSize < 0 then .ret (w32 (w32 (-(w32 (off + k))) + subSize)) else .ok (w32 (off + subSize))

/-- The end of `decodeSize` (kotlin_decode.go 30-32). -/
def ktDsFinish (d : Buf) (base : Int) (fixed : Nat) : ScanX → Option Int
  | .panic => none
  | .ret r => some r
  | .ok off =>
    if w32 (d.length - base) < w32 (off + fixed) then some (w32 (-(w32 (off + fixed)))) else some (w32 (off + fixed))

mutual
  /-- emitDecodeSizeValue (kotlin_decode.go 70-117). -/
  def Ty.ktDsElem : (t : Ty) → (k : Nat) → Buf → (base off : Int) → ScanX
    | .sc _, _, _, _, off => .ok off
    | .str, k, d, base, off => ktDsString k d base off
    | .bytes, k, d, base, off => ktDsBytes k d base off
    | .struct fs, k, d, base, off =>
      if fs.dynamic then ktDsSub (fun b => ktDsFinish d b (fs.sum / 8) (fs.ktDsFields 0 d b 0)) k base off
      else .ok off
  /-- The fields in `decodeSize` (kotlin_decode.go 19-29, 60-68): normal fields of dynamic type. -/
  def Fields.ktDsFields : (fs : Fields) → (start : Nat) → Buf → (base off : Int) → ScanX
    | .nil, _, _, _, off => .ok off
    | .void n r, start, d, base, off => r.ktDsFields (start + n) d base off
    | .const _ n _ _ r, start, d, base, off => r.ktDsFields (start + n) d base off
    | .one t bits _ r, start, d, base, off =>
      if t.dynamic then
        match t.ktDsElem (start / 8) d base off with
        | .ok off => r.ktDsFields (start + bits.getD 0) d base off
        | o => o
      else r.ktDsFields (start + bits.getD 0) d base off
    | .arr t len bits _ r, start, d, base, off =>
      if t.dynamic then
        match iterX (fun off => t.ktDsElem (start / 8) d base off) len off with
        | .ok off => r.ktDsFields (start + bits.getD 0) d base off
        | o => o
      else r.ktDsFields (start + bits.getD 0) d base off
end

/-- `decodeSize(data, start)` (kotlin_decode.go 14-35). -/
def Fields.ktDecodeSize (fs : Fields) (d : Buf) (base : Int) : Option Int :=
  if fs.dynamic then ktDsFinish d base (fs.sum / 8) (fs.ktDsFields 0 d base 0)
  else if w32 (d.length - base) < (fs.sum / 8 : Nat) then some (-(fs.sum / 8 : Nat)) else some (fs.sum / 8 : Nat)

/-! ### decode -/

/-- emitDecodeString (kotlin_decode.go 205-212): the unguarded scan for the NUL is that of the Go target
(`decStrLen`). -/
def ktDecString (c : KtCfg) (base k : Nat) (d : Buf) (off : Nat) : Res (List Byte × Nat) :=
  match decStrLen d (base + off + k) 0 with
  | .panic => .panic
  | .fail => .fail
  | .ok length => .ok (c.decStr ((d.drop (base + off + k)).take length), off + (length + 1))

/-- The prefix loop of emitDecodeBytes (kotlin_decode.go 218-224). -/
def ktDecLen (base k : Nat) (d : Buf) (length : BitVec 32) (shift off : Nat) : Res (BitVec 32 × Nat) :=
  match h : d.rd (base + off + k) with
  | none => .panic
  | some part =>
    if part &&& 0x80#8 = 0#8 then .ok (length ||| (part &&& 0x7F#8).setWidth 32 <<< (shift % 32), off + 1)
    else ktDecLen base k d (length ||| (part &&& 0x7F#8).setWidth 32 <<< (shift % 32)) (shift + 7) (off + 1)
termination_by d.length - (base + off + k)
decreasing_by
  have : base + off + k < d.length := by
    simp only [Buf.rd] at h
    exact (List.getElem?_eq_some_iff.mp h).1
  omega

/-- emitDecodeBytes (kotlin_decode.go 214-229): `copyOfRange` throws on a negative length and past the end
(`pos + length` that does not fit an Int is negative: an exception too). -/
def ktDecBytes (base k : Nat) (d : Buf) (off : Nat) : Res (List Byte × Nat) :=
  match ktDecLen base k d 0#32 0 off with
  | .panic => .panic
  | .fail => .fail
  | .ok (length, off) =>
    if 0 ≤ length.toInt ∧ base + off + k + length.toNat ≤ d.length then
      .ok ((d.drop (base + off + k)).take length.toNat, off + length.toNat)
    else .panic

/-- What becomes of the ULong read for a scalar of `n` bits: decodeBasic (kotlin_decode.go 231-258), or
`EnumName.fromNumber(….toLong())` (146, 171; kotlin.go 320-329). -/
def Sc.ktOf (c : KtCfg) (ctx : List Fields) : (s : Sc) → (n : Nat) → BitVec 64 → s.KtVal
  | .prim p, n, v =>
    ((if p = .bool then (if v ≠ 0#64 then 1#_ else 0#_)
      else if p.signed then (ktSignExt c.signExt n v).setWidth _
      else v.setWidth _ : BitVec p.width))
  | .enum _, _, v => ((if c.member ctx v then some v else none : Option (BitVec 64)))

mutual
  /-- The statements reading one value (decodeNormalField, kotlin_decode.go 137-186, emitDecodeDynamicValue
  188-203), laid out as in `Ty.ktEnc`.  A nested object's `decode` starts with its own `decodeSize`; the outer
  code calls `decodeSize` again on the same data to advance `offset`.  (Offsets are natural numbers: a nested
  `decode` that succeeds has the size `decodeSize` says, see `Fields.ktDecode_to_repr`, so nothing wraps.) -/
  def Ty.ktDec (c : KtCfg) : (t : Ty) → (ctx : List Fields) → (big : Bool) → (d : Buf) → (base start n : Nat) →
      (dyn : Bool) → (i off : Nat) → Res (t.KtVal × Nat)
    | .sc s, ctx, big, d, base, start, n, dyn, i, off =>
      match ktReadFieldBits d (ktBitBase base dyn off start + i * n) n big with
      | none => .panic
      | some v => .ok ((s.ktOf c ctx n v : s.KtVal), off)
    | .str, _, _, d, base, start, _, _, _, off => ktDecString c base (start / 8) d off
    | .bytes, _, _, d, base, start, _, _, _, off => ktDecBytes base (start / 8) d off
    | .struct fs, ctx, _, d, base, start, n, dyn, i, off =>
      match fs.ktDecodeSize d (w32 ((base + ktOff dyn off + start / 8 + i * (n / 8) : Nat))) with
      | none => .panic
      | some sz =>
        if sz < 0 then .fail
        else match fs.ktDecFields c ctx d (base + ktOff dyn off + start / 8 + i * (n / 8)) 0 false 0 with
          | .fail => .fail
          | .panic => .panic
          | .ok (v, _) => .ok (v, if fs.dynamic then off + sz.toNat else off)
  /-- The statements of `decode`, field by field (kotlin_decode.go 37-57, 119-135).  A constant is compared
  with its literal cut to the width of the field. -/
  def Fields.ktDecFields (c : KtCfg) : (fs : Fields) → (ctx : List Fields) → (d : Buf) → (base start : Nat) →
      (dyn : Bool) → (off : Nat) → Res (fs.KtVal × Nat)
    | .nil, _, _, _, _, _, off => .ok ((), off)
    | .void n r, ctx, d, base, start, dyn, off => r.ktDecFields c ctx d base (start + n) dyn off
    | .const p n big val r, ctx, d, base, start, dyn, off =>
      match ktReadFieldBits d (ktBitBase base dyn off start) n big with
      | none => .panic
      | some v =>
        if v ≠ ktConst p val &&& ktMask n then .fail else r.ktDecFields c ctx d base (start + n) dyn off
    | .one t bits big r, ctx, d, base, start, dyn, off =>
      match t.ktDec c (.one t bits big r :: ctx) big d base start (bits.getD 0) dyn 0 off with
      | .fail => .fail
      | .panic => .panic
      | .ok (x, off) =>
        match r.ktDecFields c ctx d base (start + bits.getD 0) (dyn || bits.isNone) off with
        | .fail => .fail
        | .panic => .panic
        | .ok (v, off) => .ok ((x, v), off)
    | .arr t len bits big r, ctx, d, base, start, dyn, off =>
      match decIdx (fun i off => t.ktDec c (.arr t len bits big r :: ctx) big d base start (bits.getD 0 / len)
          (dyn || t.dynamic) (if t.dynamic then 0 else i) off) len 0 off with
      | .fail => .fail
      | .panic => .panic
      | .ok (xs, off) =>
        match r.ktDecFields c ctx d base (start + bits.getD 0) (dyn || bits.isNone) off with
        | .fail => .fail
        | .panic => .panic
        | .ok (v, off) => .ok ((xs, v), off)
end

/-- `decode(data, start)` (kotlin_decode.go 36-57): `fail` is the result -1. -/
def Fields.ktDecode (c : KtCfg) (fs : Fields) (d : Buf) (base : Nat) : Res (fs.KtVal × Nat) :=
  match fs.ktDecodeSize d base with
  | none => .panic
  | some sz =>
    if sz < 0 then .fail
    else match fs.ktDecFields c [] d base 0 false 0 with
      | .fail => .fail
      | .panic => .panic
      | .ok (v, off) => .ok (v, off + fs.sum / 8)

/-! ### Kotlin values and Go values -/

mutual
  /-- The Go value with the same meaning as a Kotlin value. -/
  def Ty.ofKt : (t : Ty) → t.KtVal → t.Val
    | .sc (.prim _), x => x
    | .sc (.enum b), (x : Option (BitVec 64)) => (x.getD 0#64).setWidth (Sc.enum b).width
    | .str, (x : List Byte) => x
    | .bytes, (x : List Byte) => x
    | .struct fs, v => fs.ofKt v
  def Fields.ofKt : (fs : Fields) → fs.KtVal → fs.Val
    | .nil, _ => ()
    | .void _ r, v => r.ofKt v
    | .const _ _ _ _ r, v => r.ofKt v
    | .one t _ _ r, (v : t.KtVal × r.KtVal) => (t.ofKt v.1, r.ofKt v.2)
    | .arr t _ _ _ r, (v : List t.KtVal × r.KtVal) => (v.1.map (fun x => t.ofKt x), r.ofKt v.2)
end

mutual
  /-- The Kotlin value for a Go value: a bool is its truth value, an enum number without a member is null,
  the bytes of a string are decoded as UTF-8. -/
  def Ty.toKt (c : KtCfg) : (t : Ty) → (ctx : List Fields) → t.Val → t.KtVal
    | .sc (.prim p), _, (x : BitVec p.width) => ((if p = .bool then (if x = 0#_ then 0#_ else 1#_) else x : BitVec p.width))
    | .sc (.enum b), ctx, (x : BitVec (Sc.enum b).width) =>
      ((if c.member ctx (x.setWidth 64) then some (x.setWidth 64) else none : Option (BitVec 64)))
    | .str, _, (s : List Byte) => c.decStr s
    | .bytes, _, (s : List Byte) => s
    | .struct fs, ctx, v => fs.toKt c ctx v
  def Fields.toKt (c : KtCfg) : (fs : Fields) → (ctx : List Fields) → fs.Val → fs.KtVal
    | .nil, _, _ => ()
    | .void _ r, ctx, v => r.toKt c ctx v
    | .const _ _ _ _ r, ctx, v => r.toKt c ctx v
    | .one t bits big r, ctx, (v : t.Val × r.Val) => (t.toKt c (.one t bits big r :: ctx) v.1, r.toKt c ctx v.2)
    | .arr t len bits big r, ctx, (v : List t.Val × r.Val) =>
      (v.1.map (fun x => t.toKt c (.arr t len bits big r :: ctx) x), r.toKt c ctx v.2)
end

mutual
  /-- Kotlin values `encode` is meant for: arrays have the declared length, no enum is null, a Boolean is 0
  or 1, byte arrays are shorter than 2^31. -/
  def Ty.KtLegal : (t : Ty) → t.KtVal → Prop
    | .sc (.prim p), (x : BitVec p.width) => p = .bool → x.toNat ≤ 1
    | .sc (.enum _), (x : Option (BitVec 64)) => x ≠ none
    | .str, _ => True
    | .bytes, (s : List Byte) => s.length < 2 ^ 31
    | .struct fs, v => fs.KtLegal v
  def Fields.KtLegal : (fs : Fields) → fs.KtVal → Prop
    | .nil, _ => True
    | .void _ r, v => r.KtLegal v
    | .const _ _ _ _ r, v => r.KtLegal v
    | .one t _ _ r, (v : t.KtVal × r.KtVal) => t.KtLegal v.1 ∧ r.KtLegal v.2
    | .arr t len _ _ r, (v : List t.KtVal × r.KtVal) => v.1.length = len ∧ (∀ x ∈ v.1, t.KtLegal x) ∧ r.KtLegal v.2
end

mutual
  /-- The fixed part of every struct is below 2^30 bytes (Kotlin positions are Ints). -/
  def Ty.ktSmall : Ty → Bool
    | .struct fs => fs.ktSmall && decide (fs.sum / 8 < 2 ^ 30)
    | _ => true
  def Fields.ktSmall : Fields → Bool
    | .nil => true
    | .void _ r => r.ktSmall
    | .const _ _ _ _ r => r.ktSmall
    | .one t _ _ r => t.ktSmall && r.ktSmall
    | .arr t _ _ _ r => t.ktSmall && r.ktSmall
end

end Bubbler
