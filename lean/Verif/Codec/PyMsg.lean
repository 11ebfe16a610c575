import Verif.Codec.PyChunk
import Verif.Codec.Decode
import Verif.Codec.Encode

/-
The Python methods `encode_size`, `encode`, `decode_size` and `decode` of a generated class
(generator/target/python/python.go).

Values: numbers are Python ints.  A bool attribute is an int as well (`True`/`False` are the ints 1 and
0, and `decode` stores plain ints).  A float attribute is represented by its bit pattern: `struct.pack`
followed by `struct.unpack` (python.go 1100-1102, 1877-1879) is taken to be the identity on patterns
(rounding of a Python float to 32 bits and quieting of NaNs are not modelled).  A `str` is the list of
its UTF-8 bytes.  An exception is `none` (encoder), `panic` (decoder).
-/
namespace Bubbler

/-- What the Python code depends on besides the definitions: `-unroll`; which byte strings
`str(…, 'utf-8')` accepts; and which numbers are members of the `Enum` class of an enum field.  The field
is identified by its path: the fields from it to the end of its struct, and the same for the enclosing
structs. -/
structure PyCfg where
  unroll : Int
  utf8 : List Byte → Bool
  member : List Fields → Int → Bool

/-- `shouldUseLoop` (python.go 1233-1234, 2040-2041). -/
def PyCfg.useLoop (c : PyCfg) (len : Nat) : Bool := decide (0 ≤ c.unroll) && decide ((len : Int) > c.unroll)

mutual
  /-- The Python value of a field type. -/
  def Ty.PyVal : Ty → Type
    | .sc _ => Int
    | .str => List Byte
    | .bytes => List Byte
    | .struct fs => fs.PyVal
  /-- The attributes of an object of the generated class. -/
  def Fields.PyVal : Fields → Type
    | .nil => Unit
    | .void _ r => r.PyVal
    | .const _ _ _ _ r => r.PyVal
    | .one t _ _ r => t.PyVal × r.PyVal
    | .arr t _ _ _ r => List t.PyVal × r.PyVal
end

/-! ### Encoding -/

/-- `data[a:a+len(s)] = s` on a memoryview: the slice is clipped to the buffer and must have exactly the
length of `s`, otherwise ValueError. -/
def pySetSlice (d : Buf) (a : Nat) (s : List Byte) : Option Buf :=
  if a + s.length ≤ d.length ∨ s = [] then some (d.take a ++ s ++ d.drop (a + s.length)) else none

/-- Template encodeNormalFieldString (python.go 1104-1109). -/
def pyEncString (s : List Byte) (k : Nat) (d : Buf) (off : Nat) : Option (Buf × Nat) :=
  match pySetSlice d (off + k) s with
  | none => none
  | some d =>
    match pyStore d (off + k + s.length) 0 with
    | none => none
    | some d => some (d, off + (s.length + 1))

/-- The `while True` loop of encodeNormalFieldBytes (python.go 1113-1118). -/
def pyEncLenLoop (k temp : Nat) (d : Buf) (off : Nat) : Option (Buf × Nat) :=
  match pyStore d (off + k) (temp &&& 0x7F ||| 0x80) with
  | none => none
  | some d => if h : temp >>> 7 = 0 then some (d, off + 1) else pyEncLenLoop k (temp >>> 7) d (off + 1)
termination_by temp
decreasing_by
  have : temp >>> 7 = temp / 128 := by simp [Nat.shiftRight_eq_div_pow]
  omega

/-- Template encodeNormalFieldBytes (python.go 1111-1122). -/
def pyEncBytes (s : List Byte) (k : Nat) (d : Buf) (off : Nat) : Option (Buf × Nat) :=
  match pyEncLenLoop k s.length d off with
  | none => none
  | some (d, off) =>
    match d.rd (off - 1 + k) with
    | none => none
    | some b =>
      match pyStore d (off - 1 + k) (pyAnd (pyNot 0x80) b.toNat) with
      | none => none
      | some d =>
        match pySetSlice d (off + k) s with
        | none => none
        | some d => some (d, off + s.length)

/-- Element `i` of an array (python.go 1219-1398): loop over dynamic elements 1244-1298, over fixed
elements 1299-1350 (struct elements at `(offset*8 + (from + _i*elemBitSize)) // 8`), unrolled 1351-1398. -/
def pyArrElemEnc (c : PyCfg) (t : Ty) (rec : t.PyVal → Nat → Nat → Buf → Nat → Option (Buf × Nat))
    (len eb start : Nat) (big : Bool) (i : Nat) (x : t.PyVal) (d : Buf) (off : Nat) : Option (Buf × Nat) :=
  if c.useLoop len then
    match t, rec, x with
    | .sc _, _, (x : Int) =>
      match pyWriteFieldBits d (8 * off + (start + i * eb)) eb x big with
      | none => none
      | some d => some (d, off)
    | .struct fs, rec, x =>
      if fs.dynamic then rec x start eb d off
      else rec x (8 * ((start + i * eb) / 8)) eb d off
    | .str, rec, x => rec x start eb d off
    | .bytes, rec, x => rec x start eb d off
  else rec x (start + i * eb) eb d off

/-- `fieldData(i)` of a constant field (python.go 1158-1176): the byte `i` of the literal, a Python int. -/
def pyConstData (p : Prim) (big : Bool) (val i : Nat) : Int := ((constData p big val i).toNat : Int)

mutual
  /-- `generateEncodeNormalFieldImpl` (python.go 1410-1518); a nested object writes into the memoryview
  slice `data[offset+k:]` (1091-1093), and slicing past the end gives an empty view. -/
  def Ty.pyEncElem (c : PyCfg) : (t : Ty) → (big : Bool) → t.PyVal → (start n : Nat) → Buf → Nat →
      Option (Buf × Nat)
    | .sc _, big, (x : Int), start, n, d, off =>
      match pyEncField big start n x off d with
      | none => none
      | some d => some (d, off)
    | .str, _, (s : List Byte), start, _, d, off => pyEncString s (start / 8) d off
    | .bytes, _, (s : List Byte), start, _, d, off => pyEncBytes s (start / 8) d off
    | .struct fs, _, v, start, _, d, off =>
      match fs.pyEncFields c v 0 (d.drop (off + start / 8)) 0 with
      | none => none
      | some (sub', o) =>
        some (d.take (off + start / 8) ++ sub', if fs.dynamic then off + (o + fs.sum / 8) else off)
  /-- The statements of `encode`, field by field (python.go 1003-1010, 1017-1050, 1158-1407). -/
  def Fields.pyEncFields (c : PyCfg) : (fs : Fields) → fs.PyVal → (start : Nat) → Buf → Nat →
      Option (Buf × Nat)
    | .nil, _, _, d, off => some (d, off)
    | .void n r, v, start, d, off => r.pyEncFields c v (start + n) d off
    | .const p n big val r, v, start, d, off =>
      match pyExecEnc (pyConstData p big val) off (encStmts start n) d with
      | none => none
      | some d => r.pyEncFields c v (start + n) d off
    | .one t bits big r, (v : t.PyVal × r.PyVal), start, d, off =>
      match t.pyEncElem c big v.1 start (bits.getD 0) d off with
      | none => none
      | some (d, off) => r.pyEncFields c v.2 (start + bits.getD 0) d off
    | .arr t len bits big r, (v : List t.PyVal × r.PyVal), start, d, off =>
      match encIdx (pyArrElemEnc c t (fun x from_ n d off => t.pyEncElem c big x from_ n d off)
          len (bits.getD 0 / len) start big) 0 v.1 d off with
      | none => none
      | some (d, off) => r.pyEncFields c v.2 (start + bits.getD 0) d off
end

/-- `encode(buffer)` (python.go 995-1013): new contents of the buffer and the returned count. -/
def Fields.pyEncodeTo (c : PyCfg) (fs : Fields) (v : fs.PyVal) (d : Buf) : Option (Buf × Nat) :=
  match fs.pyEncFields c v 0 d 0 with
  | none => none
  | some (d, off) => some (d, off + fs.sum / 8)

/-- `1 + bool(len >> 7) + … + bool(len >> 63)` (python.go 961, 966, 977: `iterate 1 10`). -/
def pyLenBytes (len : Nat) : Nat :=
  1 + ((List.range 9).map (fun j => if len >>> ((j + 1) * 7) = 0 then 0 else 1)).sum

mutual
  /-- What `encode_size` adds for one element (python.go 931-980). -/
  def Ty.pySizeExtra : (t : Ty) → t.PyVal → Nat
    | .sc _, _ => 0
    | .str, (s : List Byte) => s.length + 1
    | .bytes, (s : List Byte) => s.length + pyLenBytes s.length
    | .struct fs, v => if fs.dynamic then fs.sum / 8 + fs.pySizeExtra v else 0
  def Fields.pySizeExtra : (fs : Fields) → fs.PyVal → Nat
    | .nil, _ => 0
    | .void _ r, v => r.pySizeExtra v
    | .const _ _ _ _ r, v => r.pySizeExtra v
    | .one t _ _ r, (v : t.PyVal × r.PyVal) => t.pySizeExtra v.1 + r.pySizeExtra v.2
    | .arr t _ _ _ r, (v : List t.PyVal × r.PyVal) =>
      (v.1.map (fun x => t.pySizeExtra x)).sum + r.pySizeExtra v.2
end

/-- `encode_size()` (python.go 926-984). -/
def Fields.pyEncodeSize (fs : Fields) (v : fs.PyVal) : Nat :=
  if fs.dynamic then fs.sum / 8 + fs.pySizeExtra v else fs.sum / 8

/-- `encode()` without a buffer (python.go 995-1012). -/
def Fields.pyEncode (c : PyCfg) (fs : Fields) (v : fs.PyVal) : Option Buf :=
  match fs.pyEncodeTo c v (List.replicate (fs.pyEncodeSize v) 0#8) with
  | none => none
  | some (d, _) => some d

/-! ### Decoding -/

/-- The prefix loop of `decode_size` (python.go 1649-1660, 1672-1683, 1729-1740) from index `pos`:
the length, and the index of the last prefix byte. -/
def pyScanLen (d : Buf) (acc shift pos : Nat) : Option (Int ⊕ (Nat × Nat)) :=
  match d.rd pos with
  | none => none
  | some b =>
    if b.toNat &&& 0x80 = 0 then
      if 63 ≤ shift then some (.inl (-1))
      else some (.inr (acc ||| ((b.toNat &&& 0x7F) <<< shift), pos))
    else if 63 ≤ shift then some (.inl (-1))
    else if d.length ≤ pos + 1 then some (.inl (-((pos + 1 + 1 : Nat) : Int)))
    else pyScanLen d (acc ||| ((b.toNat &&& 0x7F) <<< shift)) (shift + 7) (pos + 1)
termination_by d.length - pos
decreasing_by omega

/-- `decode_size` for a bytes field whose prefix starts at the valid index `p` (python.go 1647-1664,
1668-1687, 1725-1744): number of bytes consumed. -/
def pyBytesAt (d : Buf) (p : Nat) : Scan :=
  match pyScanLen d 0 0 p with
  | none => .panic
  | some (.inl r) => .ret r
  | some (.inr (length, last)) =>
    if d.length < last + 1 + length then .ret (-((last + 1 + length : Nat) : Int)) else .ok (last + 1 + length - p)

/-- The first length check and the scan of a string or bytes field (python.go 1626-1634, 1645-1647,
1712-1720, 1722-1725).  The statements scanning a string are those of the Go target (`dsStringAt`). -/
def pyLeaf (leaf : Buf → Nat → Scan) (k : Nat) (d : Buf) (off : Nat) : Scan :=
  if d.length ≤ off + k then .ret (-((off + k + 1 : Nat) : Int))
  else match leaf d (off + k) with
    | .ok consumed => .ok (off + consumed)
    | .ret r => .ret r
    | .panic => .panic

/-- A nested dynamic struct (python.go 1691-1708, 1745-1751). -/
def pySub (size : Buf → Option Int) (k : Nat) (d : Buf) (off : Nat) : Scan :=
  match size (d.drop (off + k)) with
  | none => .panic
  | some sub => if sub < 0 then .ret (-((off + k : Nat) : Int) + sub) else .ok (off + sub.toNat)

/-- `len` runs of `f`. -/
def pyIter (f : Nat → Scan) : Nat → Nat → Scan
  | 0, off => .ok off
  | n + 1, off =>
    match f off with
    | .ok off => pyIter f n off
    | r => r

/-- The end of `decode_size` (python.go 1774-1783). -/
def pyFinish (d : Buf) (bytes : Nat) : Scan → Option Int
  | .panic => none
  | .ret r => some r
  | .ok off =>
    if d.length < off + bytes then some (-((off + bytes : Nat) : Int)) else some ((off + bytes : Nat) : Int)

mutual
  /-- Template decoderSizeField (python.go 1620-1753). -/
  def Ty.pyDsElem : (t : Ty) → (k : Nat) → Buf → Nat → Scan
    | .sc _, _, _, off => .ok off
    | .str, k, d, off => pyLeaf dsStringAt k d off
    | .bytes, k, d, off => pyLeaf pyBytesAt k d off
    | .struct fs, k, d, off =>
      if fs.dynamic then pySub (fun sub => pyFinish sub (fs.sum / 8) (fs.pyDsFields 0 sub 0)) k d off
      else .ok off
  /-- The fields in `decode_size` (python.go 1764-1773): only normal fields of negative bit size. -/
  def Fields.pyDsFields : (fs : Fields) → (start : Nat) → Buf → Nat → Scan
    | .nil, _, _, off => .ok off
    | .void n r, start, d, off => r.pyDsFields (start + n) d off
    | .const _ n _ _ r, start, d, off => r.pyDsFields (start + n) d off
    | .one _ (some n) _ r, start, d, off => r.pyDsFields (start + n) d off
    | .one t none _ r, start, d, off =>
      match t.pyDsElem (start / 8) d off with
      | .ok off => r.pyDsFields start d off
      | o => o
    | .arr _ _ (some n) _ r, start, d, off => r.pyDsFields (start + n) d off
    | .arr t len none _ r, start, d, off =>
      match pyIter (fun off => t.pyDsElem (start / 8) d off) len off with
      | .ok off => r.pyDsFields start d off
      | o => o
end

/-- `decode_size(data)` (python.go 1755-1785); `none` = exception. -/
def Fields.pyDecodeSize (fs : Fields) (d : Buf) : Option Int :=
  if fs.dynamic then pyFinish d (fs.sum / 8) (fs.pyDsFields 0 d 0)
  else if d.length < fs.sum / 8 then some (-(fs.sum / 8 : Nat)) else some (fs.sum / 8 : Nat)

/-- Template decodeNormalFieldString (python.go 1881-1887): the scan is that of the Go target
(`decString`); `str(…, 'utf-8')` raises on bytes that are not UTF-8. -/
def pyDecString (c : PyCfg) (k : Nat) (d : Buf) (off : Nat) : Res (List Byte × Nat) :=
  match decString k d off with
  | .ok (s, off) => if c.utf8 s then .ok (s, off) else .panic
  | .fail => .fail
  | .panic => .panic

/-- The prefix loop of decodeNormalFieldBytes (python.go 1889-1897). -/
def pyDecLen (k : Nat) (d : Buf) (acc shift off : Nat) : Res (Nat × Nat) :=
  match h : d.rd (off + k) with
  | none => .panic
  | some b =>
    if b.toNat &&& 0x80 = 0 then .ok (acc ||| ((b.toNat &&& 0x7F) <<< shift), off + 1)
    else pyDecLen k d (acc ||| ((b.toNat &&& 0x7F) <<< shift)) (shift + 7) (off + 1)
termination_by d.length - (off + k)
decreasing_by
  have : off + k < d.length := by
    simp only [Buf.rd] at h
    exact (List.getElem?_eq_some_iff.mp h).1
  omega

/-- Template decodeNormalFieldBytes (python.go 1889-1904); the slice is clipped to the data. -/
def pyDecBytes (k : Nat) (d : Buf) (off : Nat) : Res (List Byte × Nat) :=
  match pyDecLen k d 0 0 off with
  | .panic => .panic
  | .fail => .fail
  | .ok (len, off) => .ok ((d.drop (off + k)).take len, off + len)

/-- What becomes of the number read for a scalar of `n` bits (python.go 2002-2024, 2104-2163, 2329-2368): sign
extension for signed types, `EnumName(…)` for enums, which raises unless the number is a member. -/
def Sc.pyFinish (c : PyCfg) (ctx : List Fields) (s : Sc) (n : Nat) (y : Nat) : Res Int :=
  match s with
  | .enum _ => if c.member ctx (y : Int) then .ok (y : Int) else .panic
  | .prim p => .ok (if p.signed then pySignExt n y else (y : Int))

/-- Element `i` of an array (python.go 2026-2219): loop over dynamic elements 2052-2107, over fixed elements
2108-2170, unrolled 2171-2219. -/
def pyArrElemDec (c : PyCfg) (ctx : List Fields) (t : Ty) (rec : Nat → Nat → Nat → Res (t.PyVal × Nat))
    (len eb start : Nat) (big : Bool) (d : Buf) (i off : Nat) : Res (t.PyVal × Nat) :=
  if c.useLoop len then
    match t, rec with
    | .sc s, _ =>
      match pyReadFieldBits d (8 * off + (start + i * eb)) eb big with
      | none => .panic
      | some v =>
        match s.pyFinish c ctx eb v with
        | .ok x => .ok ((x : Int), off)
        | .fail => .fail
        | .panic => .panic
    | .struct fs, rec =>
      if fs.dynamic then rec start eb off
      else rec (8 * ((start + i * eb) / 8)) eb off
    | .str, rec => rec start eb off
    | .bytes, rec => rec start eb off
  else rec (start + i * eb) eb off

mutual
  /-- `generateDecodeNormalFieldImpl` (python.go 2228-2376); nested objects: template
  decodeNormalFieldStruct (1863-1874) calling `decode` of the nested class (1597-1613). -/
  def Ty.pyDecElem (c : PyCfg) : (t : Ty) → (ctx : List Fields) → (big : Bool) → (d : Buf) → (start n off : Nat) →
      Res (t.PyVal × Nat)
    | .sc s, ctx, big, d, start, n, off =>
      match pyDecField big start n off d with
      | none => .panic
      | some y =>
        match s.pyFinish c ctx n y with
        | .ok x => .ok ((x : Int), off)
        | .fail => .fail
        | .panic => .panic
    | .str, _, _, d, start, _, off => pyDecString c (start / 8) d off
    | .bytes, _, _, d, start, _, off => pyDecBytes (start / 8) d off
    | .struct fs, ctx, _, d, start, _, off =>
      match fs.pyDecodeSize (d.drop (off + start / 8)) with
      | none => .panic
      | some sz =>
        if sz < 0 then .fail
        else match fs.pyDecFields c ctx (d.drop (off + start / 8)) 0 0 with
          | .fail => .fail
          | .panic => .panic
          | .ok (v, o) => .ok (v, if fs.dynamic then off + (o + fs.sum / 8) else off)
  /-- The statements of `decode`, field by field (python.go 1787-1825, 1957-2226).  A constant is compared
  with its literal after sign extension (1957-1984). -/
  def Fields.pyDecFields (c : PyCfg) : (fs : Fields) → (ctx : List Fields) → (d : Buf) → (start off : Nat) →
      Res (fs.PyVal × Nat)
    | .nil, _, _, _, off => .ok ((), off)
    | .void n r, ctx, d, start, off => r.pyDecFields c ctx d (start + n) off
    | .const p n big val r, ctx, d, start, off =>
      match pyDecField big start n off d with
      | none => .panic
      | some y =>
        if (if p.signed then pySignExt n y else (y : Int)) = (val : Int) then r.pyDecFields c ctx d (start + n) off
        else .fail
    | .one t bits big r, ctx, d, start, off =>
      match t.pyDecElem c (.one t bits big r :: ctx) big d start (bits.getD 0) off with
      | .fail => .fail
      | .panic => .panic
      | .ok (x, off) =>
        match r.pyDecFields c ctx d (start + bits.getD 0) off with
        | .fail => .fail
        | .panic => .panic
        | .ok (v, off) => .ok ((x, v), off)
    | .arr t len bits big r, ctx, d, start, off =>
      match decIdx (pyArrElemDec c (.arr t len bits big r :: ctx) t
          (fun from_ n off => t.pyDecElem c (.arr t len bits big r :: ctx) big d from_ n off)
          len (bits.getD 0 / len) start big d) len 0 off with
      | .fail => .fail
      | .panic => .panic
      | .ok (xs, off) =>
        match r.pyDecFields c ctx d (start + bits.getD 0) off with
        | .fail => .fail
        | .panic => .panic
        | .ok (v, off) => .ok ((xs, v), off)
end

/-- `decode(data)` (python.go 1597-1613): `ok` is `(True, n)`, `fail` is `(False, _)`. -/
def Fields.pyDecode (c : PyCfg) (fs : Fields) (d : Buf) : Res (fs.PyVal × Nat) :=
  match fs.pyDecodeSize d with
  | none => .panic
  | some sz =>
    if sz < 0 then .fail
    else match fs.pyDecFields c [] d 0 0 with
      | .fail => .fail
      | .panic => .panic
      | .ok (v, off) => .ok (v, off + fs.sum / 8)

/-! ### Python values and Go values -/

mutual
  /-- The Go value with the same meaning as a Python value (numbers modulo the width of the Go type). -/
  def Ty.ofPy : (t : Ty) → t.PyVal → t.Val
    | .sc s, (x : Int) => BitVec.ofInt s.width x
    | .str, (x : List Byte) => x
    | .bytes, (x : List Byte) => x
    | .struct fs, v => fs.ofPy v
  def Fields.ofPy : (fs : Fields) → fs.PyVal → fs.Val
    | .nil, _ => ()
    | .void _ r, v => r.ofPy v
    | .const _ _ _ _ r, v => r.ofPy v
    | .one t _ _ r, (v : t.PyVal × r.PyVal) => (t.ofPy v.1, r.ofPy v.2)
    | .arr t _ _ _ r, (v : List t.PyVal × r.PyVal) => (v.1.map (fun x => t.ofPy x), r.ofPy v.2)
end

mutual
  /-- The Python value with the same meaning as a Go value. -/
  def Ty.toPy : (t : Ty) → t.Val → t.PyVal
    | .sc s, (x : BitVec s.width) => if s.signed then x.toInt else (x.toNat : Int)
    | .str, (x : List Byte) => x
    | .bytes, (x : List Byte) => x
    | .struct fs, v => fs.toPy v
  def Fields.toPy : (fs : Fields) → fs.Val → fs.PyVal
    | .nil, _ => ()
    | .void _ r, v => r.toPy v
    | .const _ _ _ _ r, v => r.toPy v
    | .one t _ _ r, (v : t.Val × r.Val) => (t.toPy v.1, r.toPy v.2)
    | .arr t _ _ _ r, (v : List t.Val × r.Val) => (v.1.map (fun x => t.toPy x), r.toPy v.2)
end

mutual
  /-- Every string of the value is UTF-8 and every enum number a member: Python can hold the value. -/
  def Ty.pyAcc (c : PyCfg) : (t : Ty) → (ctx : List Fields) → t.Val → Bool
    | .sc (.enum b), ctx, (x : BitVec (Sc.enum b).width) => c.member ctx (x.toNat : Int)
    | .sc (.prim _), _, _ => true
    | .str, _, (s : List Byte) => c.utf8 s
    | .bytes, _, _ => true
    | .struct fs, ctx, v => fs.pyAcc c ctx v
  def Fields.pyAcc (c : PyCfg) : (fs : Fields) → (ctx : List Fields) → fs.Val → Bool
    | .nil, _, _ => true
    | .void _ r, ctx, v => r.pyAcc c ctx v
    | .const _ _ _ _ r, ctx, v => r.pyAcc c ctx v
    | .one t bits big r, ctx, (v : t.Val × r.Val) => t.pyAcc c (.one t bits big r :: ctx) v.1 && r.pyAcc c ctx v.2
    | .arr t len bits big r, ctx, (v : List t.Val × r.Val) =>
      v.1.all (fun x => t.pyAcc c (.arr t len bits big r :: ctx) x) && r.pyAcc c ctx v.2
end

/-! ### Which definitions the Python decoder gets right -/

/-- Position of an element the decode statements handle correctly. -/
def Ty.pyElemOk : Ty → (big : Bool) → Nat → Nat → Bool
  | .sc _, big, start, n => pyOk big start n
  | _, _, _, _ => true

mutual
  def Ty.pyAligned (c : PyCfg) : Ty → Bool
    | .struct fs => fs.pyAligned c 0
    | _ => true
  /-- Every scalar, constant and unrolled scalar array element, at any depth, is at a position the
  Python decode statements handle; constants of signed type are below half their range. -/
  def Fields.pyAligned (c : PyCfg) : Fields → Nat → Bool
    | .nil, _ => true
    | .void n r, start => r.pyAligned c (start + n)
    | .const p n big val r, start =>
      pyOk big start n && (!p.signed || decide (val < 2 ^ (n - 1))) && r.pyAligned c (start + n)
    | .one t bits big r, start =>
      t.pyAligned c && r.pyAligned c (start + bits.getD 0) && t.pyElemOk big start (bits.getD 0)
    | .arr t len bits big r, start =>
      t.pyAligned c && r.pyAligned c (start + bits.getD 0) &&
        (c.useLoop len ||
          (List.range len).all (fun i => t.pyElemOk big (start + i * (bits.getD 0 / len)) (bits.getD 0 / len)))
end

end Bubbler
