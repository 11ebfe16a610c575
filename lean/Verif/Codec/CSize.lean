import Verif.Codec.Decode
import Verif.Codec.Encode

/-
`X_encode_size` and `X_decode_size` of the C target and `encode_size`, `decode_size` of the C++ target: the
two generators emit the same statements (c.go 1505-1555 and cpp.go 1601-1669; c.go 2306-2460 and cpp.go
2469-2664), C with casts where C++ has `static_cast`, C with a pointer and a size where C++ has a span.

`size` and `offset` are uint64_t, so sums wrap (`u64`); results are int64_t, where overflow is undefined.
Undefined behaviour is `panic` (`none` for the whole function).  Not modelled: that forming a pointer past
the end of the data (for the empty rest given to a nested struct) is itself undefined.
-/
namespace Bubbler

/-- uint64_t arithmetic. -/
def u64 (n : Nat) : Nat := n % 2 ^ 64

/-- `return -(int64_t)(n)` for a uint64_t `n`: the cast wraps, the negation of INT64_MIN is undefined. -/
def cNegRet (n : Nat) : Scan :=
  if w64 (u64 n) = -2 ^ 63 then .panic else .ret (-(w64 (u64 n)))

/-- A string from index `p` on (c.go 2316-2319, cpp.go 2480-2483): `memchr(p, '\0', size - p)`. -/
def cStringAt (d : Buf) (p : Nat) : Scan :=
  match (d.drop p).idxOf? 0#8 with
  | none => cNegRet (d.length + 1)
  | some i => .ok (i + 1)

/-- The prefix loop (c.go 2337-2346, cpp.go 2501-2510); a shift of 64 bits or more is undefined. -/
def cScanLen (d : Buf) (acc : BitVec 64) (shift pos : Nat) : LenScan :=
  match d.rd pos with
  | none => .panic
  | some b =>
    if 64 ≤ shift then .panic
    else if b &&& 0x80#8 = 0#8 then .ok (acc ||| ((b &&& 0x7F#8).setWidth 64 <<< shift)) pos
    else if d.length ≤ pos + 1 then
      match cNegRet (pos + 1 + 1) with
      | .ret r => .ret r
      | _ => .panic
    else cScanLen d (acc ||| ((b &&& 0x7F#8).setWidth 64 <<< shift)) (shift + 7) (pos + 1)
termination_by d.length - pos
decreasing_by omega

/-- A byte sequence whose prefix starts at index `p` (c.go 2337-2349, cpp.go 2501-2513): the number of bytes
`offset` advances.  `offset + FromByte + len` wraps. -/
def cBytesAt (d : Buf) (p : Nat) : Scan :=
  match cScanLen d 0#64 0 p with
  | .panic => .panic
  | .ret r => .ret r
  | .ok len last =>
    if d.length < u64 (last + 1 + len.toNat) then cNegRet (last + 1 + len.toNat)
    else .ok (last + 1 - p + len.toNat)

/-- The first check and the advance of `offset` (c.go 2315, 2319, 2336, 2350). -/
def cLeaf (leaf : Buf → Nat → Scan) (k : Nat) (d : Buf) (off : Nat) : Scan :=
  if d.length ≤ u64 (off + k) then cNegRet (u64 (off + k) + 1)
  else match leaf d (u64 (off + k)) with
    | .ok consumed => .ok (u64 (off + consumed))
    | r => r

/-- A nested dynamic struct (c.go 2380-2386, cpp.go 2552-2561): its `decode_size` on the rest of the data. -/
def cSub (size : Buf → Option Int) (k : Nat) (d : Buf) (off : Nat) : Scan :=
  match size (d.drop (u64 (off + k))) with
  | none => .panic
  | some s =>
    if s < 0 then
      if w64 (u64 (off + k)) = -2 ^ 63 ∨ w64 (-(w64 (u64 (off + k))) + s) ≠ -(w64 (u64 (off + k))) + s then .panic
      else .ret (-(w64 (u64 (off + k))) + s)
    else .ok (u64 (off + s.toNat))

/-- `len` times the statements of one element, in a loop or not. -/
def cIter (f : Nat → Scan) : Nat → Nat → Scan
  | 0, off => .ok off
  | n + 1, off =>
    match f off with
    | .ok off => cIter f n off
    | r => r

/-- The end of `decode_size` (c.go 2445-2451, cpp.go 2629-2630). -/
def cFinish (d : Buf) (bytes : Nat) : Scan → Option Int
  | .panic => none
  | .ret r => some r
  | .ok off =>
    if d.length < u64 (off + bytes) then
      match cNegRet (off + bytes) with
      | .ret r => some r
      | _ => none
    else some (w64 (u64 (off + bytes)))

mutual
  /-- decoderSizeField for one value (c.go 2306-2425, cpp.go 2469-2605). -/
  def Ty.cDsElem : (t : Ty) → (k : Nat) → Buf → Nat → Scan
    | .sc _, _, _, off => .ok off
    | .str, k, d, off => cLeaf cStringAt k d off
    | .bytes, k, d, off => cLeaf cBytesAt k d off
    | .struct fs, k, d, off =>
      if fs.dynamic then cSub (fun sub => cFinish sub (fs.sum / 8) (fs.cDsFields 0 sub 0)) k d off
      else .ok off
  /-- The fields in `decode_size` (c.go 2435-2444, cpp.go 2619-2628): normal fields of bit size -1. -/
  def Fields.cDsFields : (fs : Fields) → (start : Nat) → Buf → Nat → Scan
    | .nil, _, _, off => .ok off
    | .void n r, start, d, off => r.cDsFields (start + n) d off
    | .const _ n _ _ r, start, d, off => r.cDsFields (start + n) d off
    | .one t bits _ r, start, d, off =>
      if bits.isNone then
        match t.cDsElem (start / 8) d off with
        | .ok off => r.cDsFields start d off
        | o => o
      else r.cDsFields (start + bits.getD 0) d off
    | .arr t len bits _ r, start, d, off =>
      if bits.isNone then
        match cIter (fun off => t.cDsElem (start / 8) d off) len off with
        | .ok off => r.cDsFields start d off
        | o => o
      else r.cDsFields (start + bits.getD 0) d off
end

/-- `X_decode_size(data, size)` (c.go 2427-2460, cpp.go 2607-2664); `none`: undefined behaviour. -/
def Fields.cDecodeSize (fs : Fields) (d : Buf) : Option Int :=
  if fs.dynamic then cFinish d (fs.sum / 8) (fs.cDsFields 0 d 0)
  else if d.length < fs.sum / 8 then some (-(fs.sum / 8 : Nat)) else some (fs.sum / 8 : Nat)

/-! ### encode_size -/

/-- `1 + (bool)(length >> 7) + … + (bool)(length >> 63)` (c.go 1538, cpp.go 1646; `iterate 1 10` ends at 9,
util/template.go 42-50). -/
def cLenSize (n : Nat) : Nat :=
  (List.range' 1 9).foldl (fun (acc j : Nat) => acc + if n >>> (7 * j) = 0 then 0 else 1) 1

mutual
  /-- What a value adds to `size` (c.go 1511-1550, cpp.go 1609-1663). -/
  def Ty.cSizeOf : (t : Ty) → t.Val → Nat
    | .sc _, _ => 0
    | .str, (s : List Byte) => s.length + 1
    | .bytes, (s : List Byte) => s.length + cLenSize s.length
    | .struct fs, v => if fs.dynamic then fs.sum / 8 + fs.cSizeFields v else 0
  def Fields.cSizeFields : (fs : Fields) → fs.Val → Nat
    | .nil, _ => 0
    | .void _ r, v => r.cSizeFields v
    | .const _ _ _ _ r, v => r.cSizeFields v
    | .one t _ _ r, (v : t.Val × r.Val) => t.cSizeOf v.1 + r.cSizeFields v.2
    | .arr t _ _ _ r, (v : List t.Val × r.Val) => (v.1.map (fun x => t.cSizeOf x)).sum + r.cSizeFields v.2
end

/-- `X_encode_size(ptr)` (c.go 1505-1555, cpp.go 1601-1669). -/
def Fields.cEncodeSize (fs : Fields) (v : fs.Val) : Nat :=
  if fs.dynamic then fs.sum / 8 + fs.cSizeFields v else fs.sum / 8

end Bubbler
