import Verif.Codec.TgtMsg
import Verif.Codec.CChunk

/-
The JavaScript targets (CommonJS and ES modules) as an instance of TgtMsg.lean.

Values: a Number or BigInt holding an integer is an `Int`; a boolean is 0 or 1; a float attribute is the bit
pattern that `floatToUint32Bits`/`doubleToUint64Bits` yield (esm.go 323-375, commonjs.go 357-415; engines may
change the payload of a NaN); a string is the list of its UTF-16 code units; byte sequences and the data are
`Uint8Array`s, for which writes out of bounds are ignored and reads out of bounds yield `undefined`.
`-compatible` (plain Arrays), attributes of other types, and positions of 2^31 bits and more (where the
helpers' 32-bit operations wrap) are not modelled; the theorems assume fewer than 2^28 bytes.
`-signext` does not matter (esm_decode.go 745-768: one form for all methods).
-/
namespace Bubbler

/-- What the generated code depends on besides the definitions: `-unroll`, and the members (name, number) of
the enum of an enum field, identified by its path. -/
structure JsCfg where
  unroll : Int
  members : List Fields → List (String × Nat)

/-- An enum attribute: a number, a string, or anything else (null, the default, or undefined). -/
inductive JsEnum where
  | num (x : Int)
  | name (s : String)
  | undef
deriving DecidableEq, Repr

/-- Value of a scalar attribute. -/
def Sc.JsVal : Sc → Type
  | .prim _ => Int
  | .enum _ => JsEnum

/-! ### Typed arrays -/

/-- `data[i]` used as a number: `undefined` counts as 0 in bit operations. -/
def jsGet (d : Buf) (i : Nat) : Byte := d.getD i 0#8

/-- The same for an index that may be negative. -/
def jsGetI (d : Buf) (i : Int) : Option Byte := if i < 0 then none else d[i.toNat]?

/-- `data[i] = b`. -/
def jsPut (d : Buf) (i : Nat) (b : Byte) : Buf := d.set i b

/-- `data[i++] = b` for a sequence of bytes. -/
def jsPutAll : Buf → Nat → List Byte → Buf
  | d, _, [] => d
  | d, i, b :: bs => jsPutAll (jsPut d i b) (i + 1) bs

/-! ### Scalars: encoding -/

/-- An emitted statement (esm_encode.go 645-700, commonjs.go 2470-2600; the numbers are those of the C
target, `cEncStmt`).  The terms are below 2^23, so Number operations do not wrap. -/
def CEnc.jsExec (fd : Nat → BitVec 64) (base : Nat) (d : Buf) (s : CEnc) : Buf :=
  let v : Byte := (s.value fd).setWidth 8
  jsPut d (base + s.bytePos) (if s.assign then v else jsGet d (base + s.bytePos) ||| v)

def jsExecEnc (fd : Nat → BitVec 64) (base : Nat) (ss : List CEnc) (d : Buf) : Buf :=
  ss.foldl (CEnc.jsExec fd base) d

/-- `fieldData` (esm_encode.go 605-633): `x >> k` on Numbers (to 32 bits, count modulo 32), `x >> kn` on
BigInts for types of more than 32 bits (of the result only the low bits matter). -/
def jsFieldData (wide big : Bool) (n : Nat) (x : Int) (i : Nat) : BitVec 64 :=
  let k := if big then n - 8 * (i + 1) else 8 * i
  if wide then BitVec.ofInt 64 (x >>> k)
  else ((BitVec.ofInt 32 x).sshiftRight (k % 32)).signExtend 64

/-- `Enum[name]` (esm.go 1428-1436): the last number assigned to the name. -/
def jsEnumNum (c : JsCfg) (ctx : List Fields) : JsEnum → Option Int
  | .num x => some x
  | .name s => ((c.members ctx).find? (fun m => m.1 == s)).map (fun m => (m.2 : Int))
  | .undef => none

/-- Single scalars and elements of unrolled arrays (esm_encode.go 363-394, 529-560, 598-636).  Enums go through
`Uint32`; `undefined >> k` is 0. -/
def jsEncSc (c : JsCfg) (ctx : List Fields) : (s : Sc) → (big arr : Bool) → s.JsVal → (start n base : Nat) → Buf → Option Buf
  | .prim p, big, _, (x : Int), start, n, base, d =>
    some (jsExecEnc (jsFieldData (decide (32 < p.width)) big n x) base (cEncStmts start n) d)
  | .enum _, big, _, (x : JsEnum), start, n, base, d =>
    some (jsExecEnc (jsFieldData false big n ((jsEnumNum c ctx x).getD 0)) base (cEncStmts start n) d)

/-- `bbWriteFieldBits` (esm.go 475-530, commonjs.go 512-568). -/
def jsWriteFieldBits (d : Buf) (bitFrom n : Nat) (value : Int) (big : Bool) : Buf :=
  let value : BitVec 64 := BitVec.ofInt 64 value
  let value := if n < 64 then value &&& ((1#64 <<< n) - 1#64) else value
  jsExecEnc (fun i => fieldData big n value i &&& 0xFF#64) 0 (cEncStmtsFrom assignHelper bitFrom (bitFrom + n) bitFrom) d

/-- The body of the loop over scalars (esm_encode.go 445-495): `BigInt(undefined)` throws. -/
def jsEncScLoop (c : JsCfg) (ctx : List Fields) : (s : Sc) → (big : Bool) → s.JsVal → (pos n : Nat) → Buf → Option Buf
  | .prim _, big, (x : Int), pos, n, d => some (jsWriteFieldBits d pos n x big)
  | .enum _, big, (x : JsEnum), pos, n, d =>
    match jsEnumNum c ctx x with
    | none => none
    | some x => some (jsWriteFieldBits d pos n x big)

/-- Constants (esm_encode.go 322-336): byte literals. -/
def jsEncConst (p : Prim) (n : Nat) (big : Bool) (val start base : Nat) (d : Buf) : Option Buf :=
  some (jsExecEnc (constData p big val) base (cEncStmts start n) d)

/-! ### Scalars: decoding -/

/-- The extracted chunk on Numbers (esm_decode.go 800-838). -/
def CDec.jsValue (base : Nat) (d : Buf) (s : CDec) : BitVec 64 :=
  let first := ((jsGet d (base + s.byte1)).setWidth 64 &&& s.mask1) >>> s.shr1
  match s.second with
  | none => first
  | some (byte2, mask2, shl2) => first ||| (((jsGet d (base + byte2)).setWidth 64 &&& mask2) <<< shl2)

/-- `x = chunk << shift` / `x |= chunk << shift` on Numbers (esm_decode.go 726-741). -/
def jsDec32 (big : Bool) (start n base : Nat) (d : Buf) : BitVec 32 :=
  (cDecStmts start n).foldl (fun (x : BitVec 32) (s : CDec) =>
    let t := ((s.jsValue base d).setWidth 32) <<< (decShift big n s.idx % 32)
    if s.idx = 0 then t else x ||| t) 0#32

/-- The same on BigInts (below 2^64): `BigInt(undefined)` throws (`CDec.value`). -/
def jsDec64 (big : Bool) (start n base : Nat) (d : Buf) : Option (BitVec 64) := cDecField big start n base d 0#64

/-- Sign extension and conversion after the statements on Numbers (esm_decode.go 745-785); the value is an
int32.  For 32 bits, `(x >>> 31) ? -(~x + 1) : x` is `x`. -/
def jsFix32 (p : Prim) (n : Nat) (x : BitVec 32) : Int :=
  if p = .bool then (if x = 0#32 then 0 else 1)
  else if p = .f32 then x.toNat
  else if p.signed then
    if n = 32 then (if x >>> 31 ≠ 0#32 then -((~~~x).toInt + 1) else x.toInt)
    else (x ^^^ BitVec.ofNat 32 (2 ^ (n - 1))).toInt - 2 ^ (n - 1)
  else x.toInt

/-- The same on BigInts: for 32 bits `>>>` throws. -/
def jsFix64 (p : Prim) (n : Nat) (x : BitVec 64) : Option Int :=
  if p.signed then
    if n = 32 then none
    else some ((x ^^^ BitVec.ofNat 64 (2 ^ (n - 1))).toNat - 2 ^ (n - 1))
  else some x.toNat

/-- A scalar of basic type (esm_decode.go 478-503, 705-790). -/
def jsDecPrim (p : Prim) (big : Bool) (d : Buf) (start n base : Nat) : Option Int :=
  if 32 < p.width then
    match jsDec64 big start n base d with
    | none => none
    | some x => jsFix64 p n x
  else some (jsFix32 p n (jsDec32 big start n base d))

/-- `Enum[x]` for a number: the name the number was last given, or undefined. -/
def jsEnumName (c : JsCfg) (ctx : List Fields) (x : Int) : JsEnum :=
  match (c.members ctx).reverse.find? (fun m => (m.2 : Int) == x) with
  | none => .undef
  | some m => .name m.1

/-- Single scalars and elements of unrolled arrays; enums go through `Uint32` (esm_decode.go 505-518). -/
def jsDecSc (c : JsCfg) (ctx : List Fields) : (s : Sc) → (big arr : Bool) → Buf → (start n base : Nat) → Option s.JsVal
  | .prim p, big, _, d, start, n, base => jsDecPrim p big d start n base
  | .enum _, big, _, d, start, n, base => some (jsEnumName c ctx (jsDec32 big start n base d).toInt)

/-- `bbReadFieldBits` (esm.go 541-575, commonjs.go 579-615): a BigInt below 2^n. -/
def jsReadFieldBits (d : Buf) (bitFrom n : Nat) (big : Bool) : BitVec 64 :=
  (cDecStmts bitFrom n).foldl (fun (out : BitVec 64) (s : CDec) => out ||| (s.jsValue 0 d <<< decShift big n s.idx)) 0#64

/-- `decodeBasicValueExpr` (esm.go 147-170, commonjs.go 139-165). -/
def jsLoopVal (p : Prim) (n : Nat) (v : BitVec 64) : Int :=
  if p = .bool then (if v = 0#64 then 0 else 1)
  else if p = .f32 then (v &&& 0xFFFFFFFF#64).toNat
  else if p.signed then (v.setWidth n).toInt
  else v.toNat

/-- The body of the loop over scalars (esm_decode.go 605-622). -/
def jsDecScLoop (c : JsCfg) (ctx : List Fields) : (s : Sc) → (big : Bool) → Buf → (pos n : Nat) → Option s.JsVal
  | .prim p, big, d, pos, n => some (jsLoopVal p n (jsReadFieldBits d pos n big))
  | .enum _, big, d, pos, n => some (jsEnumName c ctx (jsReadFieldBits d pos n big).toNat)

/-- Constants (esm_decode.go 438-456): `!==` between the decoded value (a BigInt for 64-bit types) and the
literal (a BigInt from 2^31 on, 992-1010).  Only integer types; the others are not modelled. -/
def jsDecConst (p : Prim) (n : Nat) (big : Bool) (val : Nat) (d : Buf) (start base : Nat) : Option Bool :=
  if p.isInteger then
    match jsDecPrim p big d start n base with
    | none => none
    | some x => some (decide (32 < p.width) == decide (2 ^ 31 ≤ val) && x == (val : Int))
  else none

/-! ### Strings (esm.go 377-460, commonjs.go 419-500) -/

/-- `stringToUTF8BytesCount` (esm.go 386-396). -/
def jsUtf8Count : List (BitVec 16) → Nat
  | [] => 0
  | u :: us =>
    if u.toNat < 0x80 then 1 + jsUtf8Count us
    else if u.toNat < 0x800 then 2 + jsUtf8Count us
    else if u.toNat < 0xD800 ∨ 0xE000 ≤ u.toNat then 3 + jsUtf8Count us
    else 4 + (match us with | [] => 0 | _ :: us => jsUtf8Count us)

/-- The bytes written for one code point by `stringToUTF8Bytes` (esm.go 412-430). -/
def jsUtf8Unit2 (code : Nat) : List Byte :=
  [BitVec.ofNat 8 (0xC0 ||| code >>> 6), BitVec.ofNat 8 (0x80 ||| code &&& 0x3F)]
def jsUtf8Unit3 (code : Nat) : List Byte :=
  [BitVec.ofNat 8 (0xE0 ||| code >>> 12), BitVec.ofNat 8 (0x80 ||| (code >>> 6) &&& 0x3F), BitVec.ofNat 8 (0x80 ||| code &&& 0x3F)]
def jsUtf8Unit4 (code : Nat) : List Byte :=
  [BitVec.ofNat 8 (0xF0 ||| code >>> 18), BitVec.ofNat 8 (0x80 ||| (code >>> 12) &&& 0x3F),
    BitVec.ofNat 8 (0x80 ||| (code >>> 6) &&& 0x3F), BitVec.ofNat 8 (0x80 ||| code &&& 0x3F)]

/-- The code point of a surrogate pair (esm.go 424; `charCodeAt` past the end is NaN, and `NaN & 0x3FF` is 0). -/
def jsPair (hi lo : Nat) : Nat := 0x10000 + ((hi &&& 0x3FF) <<< 10 ||| lo &&& 0x3FF)

/-- `stringToUTF8Bytes` (esm.go 407-434): the data and the number of bytes written. -/
def jsUtf8Put : List (BitVec 16) → Buf → Nat → Buf × Nat
  | [], d, _ => (d, 0)
  | u :: us, d, pos =>
    if u.toNat < 0x80 then
      let r := jsUtf8Put us (jsPutAll d pos [BitVec.ofNat 8 u.toNat]) (pos + 1)
      (r.1, 1 + r.2)
    else if u.toNat < 0x800 then
      let r := jsUtf8Put us (jsPutAll d pos (jsUtf8Unit2 u.toNat)) (pos + 2)
      (r.1, 2 + r.2)
    else if u.toNat < 0xD800 ∨ 0xE000 ≤ u.toNat then
      let r := jsUtf8Put us (jsPutAll d pos (jsUtf8Unit3 u.toNat)) (pos + 3)
      (r.1, 3 + r.2)
    else match us with
      | [] => (jsPutAll d pos (jsUtf8Unit4 (jsPair u.toNat 0)), 4)
      | v :: us =>
        let r := jsUtf8Put us (jsPutAll d pos (jsUtf8Unit4 (jsPair u.toNat v.toNat))) (pos + 4)
        (r.1, 4 + r.2)

/-- encodeNormalFieldString (esm_encode.go 268-274). -/
def jsEncStr (s : List (BitVec 16)) (pos : Nat) (d : Buf) : Option (Buf × Nat) :=
  let r := jsUtf8Put s d pos
  some (jsPut r.1 (pos + r.2) 0#8, r.2 + 1)

/-- A continuation byte in `stringFromUTF8Bytes`. -/
def jsCont (d : Buf) (i : Nat) : Nat := (jsGet d i).toNat &&& 0x3F

/-- `stringFromUTF8Bytes` (esm.go 444-462): the code units and the position after them. -/
def jsFromUtf8 (d : Buf) (pos : Nat) : List (BitVec 16) × Nat :=
  if h : pos < d.length then
    let code := (jsGet d pos).toNat
    if code = 0 then ([], pos)
    else if code < 0x80 then
      let r := jsFromUtf8 d (pos + 1)
      (BitVec.ofNat 16 code :: r.1, r.2)
    else if code < 0xE0 then
      let r := jsFromUtf8 d (pos + 2)
      (BitVec.ofNat 16 ((code &&& 0x1F) <<< 6 ||| jsCont d (pos + 1)) :: r.1, r.2)
    else if code < 0xF0 then
      let r := jsFromUtf8 d (pos + 3)
      (BitVec.ofNat 16 ((code &&& 0xF) <<< 12 ||| jsCont d (pos + 1) <<< 6 ||| jsCont d (pos + 2)) :: r.1, r.2)
    else
      let r := jsFromUtf8 d (pos + 4)
      let code := (code &&& 0x7) <<< 18 ||| jsCont d (pos + 1) <<< 12 ||| jsCont d (pos + 2) <<< 6 ||| jsCont d (pos + 3)
      if code < 0x10000 then (BitVec.ofNat 16 code :: r.1, r.2)
      else
        (BitVec.ofNat 16 (0xD800 + (code - 0x10000) >>> 10) :: BitVec.ofNat 16 (0xDC00 + ((code - 0x10000) &&& 0x3FF)) :: r.1, r.2)
  else ([], pos)
termination_by d.length - pos

/-- decodeNormalFieldString (esm_decode.go 366-374). -/
def jsDecStr (d : Buf) (pos : Nat) : Res (List (BitVec 16) × Nat) :=
  let r := jsFromUtf8 d pos
  if d.length ≤ r.2 ∨ jsGet d r.2 ≠ 0#8 then .fail else .ok (r.1, r.2 - pos + 1)

/-- The `while` loop for strings in `decode_size` (esm_decode.go 146-150): `undefined !== 0` holds. -/
def jsScanStr (k : Nat) (d : Buf) (base off : Int) (length : Nat) : ScanX :=
  if jsGetI d (off + base + k + length) = some 0#8 then .ok (off + (length + 1))
  else if h : (d.length : Int) - base ≤ off + k + (length + 1) then .ret (-(off + k + (length + 1) + 1))
  else jsScanStr k d base off (length + 1)
termination_by ((d.length : Int) - base - (off + k + length)).toNat
decreasing_by omega

/-- Strings in `decode_size` (esm_decode.go 143-153). -/
def jsDsStr (k : Nat) (d : Buf) (base off : Int) : ScanX :=
  if (d.length : Int) - base ≤ off + k then .ret (-(off + k + 1)) else jsScanStr k d base off 0

/-! ### Bytes -/

/-- The `do … while` loop in `encode_size` (esm_encode.go 83-87). -/
def jsLenSize (length : Nat) : Nat :=
  if h : length / 128 > 0 then 1 + jsLenSize (length / 128) else 1
termination_by length
decreasing_by omega

/-- The `do … while` loop of encodeNormalFieldBytes (esm_encode.go 278-284). -/
def jsEncLen (length pos : Nat) (d : Buf) : Buf × Nat :=
  let d := jsPut d pos (BitVec.ofNat 8 (length % 128 ||| (if length / 128 > 0 then 0x80 else 0)))
  if h : length / 128 > 0 then
    let r := jsEncLen (length / 128) (pos + 1) d
    (r.1, 1 + r.2)
  else (d, 1)
termination_by length
decreasing_by omega

/-- encodeNormalFieldBytes (esm_encode.go 276-288). -/
def jsEncBytes (s : List Byte) (pos : Nat) (d : Buf) : Option (Buf × Nat) :=
  let r := jsEncLen s.length pos d
  some (jsPutAll r.1 (pos + r.2) s, r.2 + s.length)

/-- The prefix loop of decodeNormalFieldBytes (esm_decode.go 379-390): the length and the position after the
prefix. -/
def jsDecLen (d : Buf) (length shift pos : Nat) : Option (Nat × Nat) :=
  if d.length ≤ pos then none
  else if shift = 28 ∧ jsGet d pos &&& 0xF0#8 ≠ 0#8 then none
  else if jsGet d pos &&& 0x80#8 = 0#8 then some (length + (jsGet d pos &&& 0x7F#8).toNat * 2 ^ shift, pos + 1)
  else if h : 28 < shift + 7 then none
  else jsDecLen d (length + (jsGet d pos &&& 0x7F#8).toNat * 2 ^ shift) (shift + 7) (pos + 1)
termination_by 28 - shift
decreasing_by omega

/-- decodeNormalFieldBytes (esm_decode.go 376-395). -/
def jsDecBytes (d : Buf) (pos : Nat) : Res (List Byte × Nat) :=
  match jsDecLen d 0 0 pos with
  | none => .fail
  | some (length, p) =>
    if (length : Int) > (d.length : Int) - p then .fail
    else .ok ((d.drop p).take length, p + length - pos)

/-- The prefix loop in `decode_size` (esm_decode.go 161-170). -/
def jsScanLen (k : Nat) (d : Buf) (base : Int) (length shift : Nat) (off : Int) : Int ⊕ (Nat × Int) :=
  let byte := (jsGetI d (off + base + k)).getD 0#8
  if shift = 28 ∧ byte &&& 0xF0#8 ≠ 0#8 then .inl (-1)
  else if byte &&& 0x80#8 = 0#8 then .inr (length + (byte &&& 0x7F#8).toNat * 2 ^ shift, off + 1)
  else if h : 28 < shift + 7 then .inl (-1)
  else if (d.length : Int) - base ≤ off + 1 + k then .inl (-(off + 1 + k + 1))
  else jsScanLen k d base (length + (byte &&& 0x7F#8).toNat * 2 ^ shift) (shift + 7) (off + 1)
termination_by 28 - shift
decreasing_by omega

/-- Bytes in `decode_size` (esm_decode.go 156-174). -/
def jsDsBytes (k : Nat) (d : Buf) (base off : Int) : ScanX :=
  if (d.length : Int) - base ≤ off + k then .ret (-(off + k + 1))
  else match jsScanLen k d base 0 0 off with
    | .inl r => .ret r
    | .inr (length, off) =>
      if (d.length : Int) - base < off + k + length then .ret (-(off + k + length)) else .ok (off + length)

/-! ### The target -/

/-- CommonJS and ES modules. -/
def jsTgt (c : JsCfg) : Tgt where
  SVal := Sc.JsVal
  Str := List (BitVec 16)
  loop := fun len => decide (0 ≤ c.unroll) && decide (c.unroll < len)
  loopBase := fun b => b
  checks := true
  wrap := fun x => x
  ret := fun x => x
  rem := fun n base => n - base
  alloc := fun _ => true
  sub := fun _ _ _ => true
  strSize := jsUtf8Count
  lenSize := jsLenSize
  encSc := jsEncSc c
  encScLoop := jsEncScLoop c
  encConst := jsEncConst
  encStr := jsEncStr
  encBytes := jsEncBytes
  dsStr := jsDsStr
  dsBytes := jsDsBytes
  decSc := jsDecSc c
  decScLoop := jsDecScLoop c
  decConst := jsDecConst
  decStr := jsDecStr
  decBytes := jsDecBytes

end Bubbler
