import Verif.Codec.CChunk

/-
The generated C functions `X_encode` and `X_decode` for whole messages.
-/
namespace Bubbler

/-- Element `i` of an array in C's encoder (c.go 1815-2010): the same three branches as the Go target
(`arrElemEnc`); the fixed-width loop calls the C helper. -/
def cArrElemEnc (c : Cfg) (t : Ty) (rec : t.Val → Nat → Nat → Buf → Nat → Option (Buf × Nat))
    (len eb start : Nat) (big : Bool) (i : Nat) (x : t.Val) (d : Buf) (off : Nat) :
    Option (Buf × Nat) :=
  if c.useLoop len then
    match t, rec, x with
    | .sc s, _, x =>
      match cWriteFieldBits d (8 * off + (start + i * eb)) eb (s.toU64 x) big with
      | none => none
      | some d => some (d, off)
    | .struct fs, rec, x =>
      if fs.dynamic then rec x start eb d off
      else rec x (8 * (start / 8 + i * (eb / 8))) eb d off
    | .str, rec, x => rec x start eb d off
    | .bytes, rec, x => rec x start eb d off
  else rec x (start + i * eb) eb d off

mutual
  /-- `generateEncodeNormalFieldImpl` of the C target (c.go 2020-2126; templates 1651-1696).  Strings
  (memcpy and a zero byte) and bytes (prefix loop, then memcpy) have the effect of the Go statements;
  enums go through a temporary as in Go (c.go 1796-1815, 1957-2005). -/
  def Ty.cEncElem (c : Cfg) : (t : Ty) → (big arr : Bool) → t.Val → (start n : Nat) → Buf → Nat →
      Option (Buf × Nat)
    | .sc s, big, arr, (x : BitVec s.width), start, n, d, off =>
      match cEncField big start n (x.setWidth (s.tempWidth arr n)) off d with
      | none => none
      | some d => some (d, off)
    | .str, _, _, s, start, _, d, off => encString s (start / 8) d off
    | .bytes, _, _, s, start, _, d, off => encBytes s (start / 8) d off
    | .struct fs, _, _, v, start, _, d, off =>
      match d.from? (off + start / 8) with
      | none => none
      | some sub =>
        match fs.cEncFields c v 0 sub 0 with
        | none => none
        | some (sub', o) =>
          some (d.take (off + start / 8) ++ sub',
            if fs.dynamic then off + (o + fs.sum / 8) else off)
  /-- The body of `X_encode`, field by field (c.go 1574-1625, 1747-1786). -/
  def Fields.cEncFields (c : Cfg) : (fs : Fields) → fs.Val → (start : Nat) → Buf → Nat →
      Option (Buf × Nat)
    | .nil, _, _, d, off => some (d, off)
    | .void n r, v, start, d, off => r.cEncFields c v (start + n) d off
    | .const p n big val r, v, start, d, off =>
      match cExecEnc (constData p big val) off (cEncStmts start n) d with
      | none => none
      | some d => r.cEncFields c v (start + n) d off
    | .one t bits big r, (v : t.Val × r.Val), start, d, off =>
      match t.cEncElem c big false v.1 start (bits.getD 0) d off with
      | none => none
      | some (d, off) => r.cEncFields c v.2 (start + bits.getD 0) d off
    | .arr t len bits big r, (v : List t.Val × r.Val), start, d, off =>
      match encIdx (cArrElemEnc c t (fun x from_ n d off => t.cEncElem c big true x from_ n d off)
          len (bits.getD 0 / len) start big) 0 v.1 d off with
      | none => none
      | some (d, off) => r.cEncFields c v.2 (start + bits.getD 0) d off
end

/-- `X_encode(ptr, data)` (c.go 1559-1571): new contents of the buffer and the returned count. -/
def Fields.cEncodeTo (c : Cfg) (fs : Fields) (v : fs.Val) (d : Buf) : Option (Buf × Nat) :=
  match fs.cEncFields c v 0 d 0 with
  | none => none
  | some (d, off) => some (d, off + fs.sum / 8)

/-! ### Decoding -/

/-- The prefix loop of decodeNormalFieldBytes (c.go 2572-2574).  `(data[…] & 0x7f) << shift` is computed
in C's 32-bit `int`: shifting by 32 or more, or out of the range of `int`, is undefined (`panic`). -/
def cDecLen (k : Nat) (d : Buf) (acc : BitVec 64) (shift off : Nat) : Res (BitVec 64 × Nat) :=
  match h : d.rd (off + k) with
  | none => .panic
  | some b =>
    if 32 ≤ shift ∨ 2 ^ 31 ≤ (b &&& 0x7F#8).toNat * 2 ^ shift then .panic
    else
      let acc := acc ||| BitVec.ofNat 64 ((b &&& 0x7F#8).toNat * 2 ^ shift)
      if b &&& 0x80#8 = 0#8 then .ok (acc, off + 1)
      else cDecLen k d acc (shift + 7) (off + 1)
termination_by d.length - (off + k)
decreasing_by
  have : off + k < d.length := by
    simp only [Buf.rd] at h
    exact (List.getElem?_eq_some_iff.mp h).1
  omega

/-- Template decodeNormalFieldBytes (c.go 2565-2583); reading past the end of the data is `panic`. -/
def cDecBytes (k : Nat) (d : Buf) (off : Nat) : Res (List Byte × Nat) :=
  (cDecLen k d 0#64 0 off).bind fun (lenv, off) =>
    if d.length < off + k + lenv.toNat then .panic
    else .ok ((d.drop (off + k)).take lenv.toNat, off + lenv.toNat)

/-- Conversion of `_v` to a signed element of `w` bits in a decode loop (`decodeBasicValueExpr`,
c.go 119-146; templates intSignExtShift / intSignExtArith 2648-2654). -/
def cLoopInt (m : SignExt) (w n : Nat) (v : BitVec 64) : BitVec w :=
  if w ≤ n then v.setWidth w
  else match m with
    | .arith => (v ^^^ (1#64 <<< (n - 1))).setWidth w - (1#w <<< (n - 1))
    | _ => signExtShift n (v.setWidth w)

/-- Conversion of `_v` to the element type (c.go 119-146, 2893-2896). -/
def Sc.cOfU64 (m : SignExt) (s : Sc) (n : Nat) (v : BitVec 64) : BitVec s.width :=
  if s.isBool then (if v = 0#64 then 0#_ else 1#_)
  else if s.signed then cLoopInt m s.width n v
  else v.setWidth s.width

/-- Element `i` of an array in C's decoder (c.go 2765-2950). -/
def cArrElemDec (c : Cfg) (t : Ty) (rec : Nat → Nat → Nat → Res (t.Val × Nat))
    (len eb start : Nat) (big : Bool) (d : Buf) (i off : Nat) : Res (t.Val × Nat) :=
  if c.useLoop len then
    match t, rec with
    | .sc s, _ =>
      match cReadFieldBits d (8 * off + (start + i * eb)) eb big with
      | none => .panic
      | some v => .ok (s.cOfU64 c.signExt eb v, off)
    | .struct fs, rec =>
      if fs.dynamic then rec start eb off
      else rec (8 * (start / 8 + i * (eb / 8))) eb off
    | .str, rec => rec start eb off
    | .bytes, rec => rec start eb off
  else rec (start + i * eb) eb off

mutual
  /-- `generateDecodeNormalFieldImpl` of the C target (c.go 2964-3140; templates 2523-2596).  Nested
  structs call their own `_decode`, which checks no size. -/
  def Ty.cDecElem (c : Cfg) : (t : Ty) → (big arr : Bool) → (d : Buf) → (start n off : Nat) →
      Res (t.Val × Nat)
    | .sc s, big, arr, d, start, n, off =>
      match cDecField big start n off d (c.prev (s.tempWidth arr n)) with
      | none => .panic
      | some y => .ok ((((signExtUnrolled c.signExt s.signed n y).setWidth s.width : BitVec s.width)), off)
    | .str, _, _, d, start, _, off => decString (start / 8) d off
    | .bytes, _, _, d, start, _, off => cDecBytes (start / 8) d off
    | .struct fs, _, _, d, start, _, off =>
      match d.from? (off + start / 8) with
      | none => .panic
      | some sub =>
        match fs.cDecFields c sub 0 0 with
        | .fail => .fail
        | .panic => .panic
        | .ok (v, o) => .ok (v, if fs.dynamic then off + (o + fs.sum / 8) else off)
  /-- The body of `X_decode`, field by field (c.go 2447-2500, 2673-2745). -/
  def Fields.cDecFields (c : Cfg) : (fs : Fields) → (d : Buf) → (start off : Nat) → Res (fs.Val × Nat)
    | .nil, _, _, off => .ok ((), off)
    | .void n r, d, start, off => r.cDecFields c d (start + n) off
    | .const p n big val r, d, start, off =>
      match cDecField big start n off d (0#p.width) with
      | none => .panic
      | some y => if y.toNat = val then r.cDecFields c d (start + n) off else .fail
    | .one t bits big r, d, start, off =>
      match t.cDecElem c big false d start (bits.getD 0) off with
      | .fail => .fail
      | .panic => .panic
      | .ok (x, off) =>
        match r.cDecFields c d (start + bits.getD 0) off with
        | .fail => .fail
        | .panic => .panic
        | .ok (v, off) => .ok ((x, v), off)
    | .arr t len bits big r, d, start, off =>
      match decIdx (cArrElemDec c t (fun from_ n off => t.cDecElem c big true d from_ n off)
          len (bits.getD 0 / len) start big d) len 0 off with
      | .fail => .fail
      | .panic => .panic
      | .ok (xs, off) =>
        match r.cDecFields c d (start + bits.getD 0) off with
        | .fail => .fail
        | .panic => .panic
        | .ok (v, off) => .ok ((xs, v), off)
end

/-- `X_decode(data, ptr)` (c.go 2285-2297): the value and the returned count. -/
def Fields.cDecode (c : Cfg) (fs : Fields) (d : Buf) : Res (fs.Val × Nat) :=
  match fs.cDecFields c d 0 0 with
  | .fail => .fail
  | .panic => .panic
  | .ok (v, off) => .ok (v, off + fs.sum / 8)

/-! ### Which definitions the C encoder gets right -/

/-- The positions for which the C statements are right: the field starts a byte, or lies within one
byte, or its last partial byte holds no more bits than lie before its start in the first byte. -/
def cOk (start n : Nat) : Bool :=
  decide (start % 8 = 0) || decide (start % 8 + n ≤ 8) || decide ((start + n) % 8 ≤ start % 8)

mutual
  def Ty.cAligned : Ty → Bool
    | .struct fs => fs.cAligned 0
    | _ => true
  /-- Every scalar, constant and scalar array element, at any depth, is at a position the C
  statements handle correctly. -/
  def Fields.cAligned : Fields → Nat → Bool
    | .nil, _ => true
    | .void n r, start => r.cAligned (start + n)
    | .const _ n _ _ r, start => cOk start n && r.cAligned (start + n)
    | .one t bits _ r, start =>
      t.cAligned && r.cAligned (start + bits.getD 0) &&
        match t with
        | .sc _ => cOk start (bits.getD 0)
        | _ => true
    | .arr t len bits _ r, start =>
      t.cAligned && r.cAligned (start + bits.getD 0) &&
        match t with
        | .sc _ => (List.range len).all (fun i => cOk (start + i * (bits.getD 0 / len)) (bits.getD 0 / len))
        | _ => true
end

end Bubbler
