import Verif.Codec.Chunk

/-
Model of the fixed-width field codec emitted by the Python target (generator/target/python/python.go).

Python integers are unbounded: `Int`, or `Nat` where the code can only produce a non-negative number.
An exception (IndexError for an index outside a memoryview, ValueError for storing a number that is no
byte) is `none`.  The statement lists are those of the Go target (`generateEncodeImpl`, python.go
1541-1584, and `generateDecodeImpl`, 2393-2416, are the same text as golang.go 1872-1915 and 2808-2831);
what differs is the meaning of the emitted expressions.
-/
namespace Bubbler

/-- Python `x & m` with `m ≥ 0`; negative numbers are in infinite two's complement. -/
def pyAnd : Int → Nat → Nat
  | .ofNat a, m => a &&& m
  | .negSucc a, m => m ^^^ (m &&& a)

/-- Python `~m`. -/
def pyNot (m : Nat) : Int := -(m : Int) - 1

/-- `data[i] = v` on a memoryview of bytes: IndexError, or ValueError if `v` is not in `range(256)`. -/
def pyStore (d : Buf) (i v : Nat) : Option Buf :=
  if v < 256 then d.wr i (BitVec.ofNat 8 v) else none

/-- `(((fd) >> shr) & mask) << shl` (python.go 1554-1561). -/
def EncPart.pyEval (fd : Nat → Int) (p : EncPart) : Nat := pyAnd (fd p.src >>> p.shr) p.mask <<< p.shl

/-- `data[k] = (data[k] & ~mask) | ((p1 | p2 …) & mask)` (python.go 1566-1581, template encodeImpl 1137-1139). -/
def EncStmt.pyExec (fd : Nat → Int) (base : Nat) (d : Buf) (s : EncStmt) : Option Buf :=
  match d.rd (base + s.bytePos) with
  | none => none
  | some b =>
    pyStore d (base + s.bytePos)
      (pyAnd (pyNot s.dataMask) b.toNat ||| (s.parts.foldl (fun acc p => acc ||| p.pyEval fd) 0 &&& s.dataMask))

def pyExecEnc (fd : Nat → Int) (base : Nat) (ss : List EncStmt) (d : Buf) : Option Buf :=
  ss.foldlM (EncStmt.pyExec fd base) d

/-- `fieldData` of a normal field (python.go 1474-1509): `x >> 8*i`, big endian
`x >> max(0, fieldBitSize-8*(i+1))`. -/
def pyFieldData (big : Bool) (n : Nat) (x : Int) (i : Nat) : Int :=
  if big then x >>> (max 0 ((n : Int) - 8 * (i + 1))).toNat else x >>> (8 * i)

/-- The unrolled statements for the value `x` at bits `[start, start+n)` (python.go 1474-1510). -/
def pyEncField (big : Bool) (start n : Nat) (x : Int) (base : Nat) (d : Buf) : Option Buf :=
  pyExecEnc (pyFieldData big n x) base (encStmts start n) d

/-- `value_bit` of the helpers (python.go 133-136, 149-152):
`max(field_bit % 8, bit_size - 8 * (byte_index + 1) + field_bit % 8)` for big endian. -/
def pyValueBit (big : Bool) (n j : Nat) : Nat :=
  if big then (max ((j % 8 : Nat) : Int) ((n : Int) - 8 * ((j / 8 : Nat) + 1) + (j % 8 : Nat))).toNat else j

/-- One iteration of `_bb_write_field_bits` (python.go 132-141). -/
def pyWriteStep (bitFrom n value : Nat) (big : Bool) (d : Buf) (fieldBit : Nat) : Option Buf :=
  let dataBit := bitFrom + fieldBit
  let mask := 1 <<< (dataBit &&& 7)
  match d.rd (dataBit / 8) with
  | none => none
  | some b =>
    match pyStore d (dataBit / 8) (pyAnd (pyNot mask) b.toNat) with
    | none => none
    | some d =>
      if value &&& (1 <<< pyValueBit big n fieldBit) ≠ 0 then
        match d.rd (dataBit / 8) with
        | none => none
        | some b => pyStore d (dataBit / 8) (b.toNat ||| mask)
      else some d

/-- `_bb_write_field_bits` (python.go 128-141); `bit_size <= 0` is the empty loop. -/
def pyWriteFieldBits (d : Buf) (bitFrom n : Nat) (value : Int) (big : Bool) : Option Buf :=
  (List.range n).foldlM (pyWriteStep bitFrom n (pyAnd value ((1 <<< n) - 1)) big) d

/-- One iteration of `_bb_read_field_bits` (python.go 148-156). -/
def pyReadStep (d : Buf) (bitFrom n : Nat) (big : Bool) (out fieldBit : Nat) : Option Nat :=
  let dataBit := bitFrom + fieldBit
  match d.rd (dataBit / 8) with
  | none => none
  | some b =>
    if b.toNat &&& (1 <<< (dataBit &&& 7)) ≠ 0 then some (out ||| (1 <<< pyValueBit big n fieldBit)) else some out

/-- `_bb_read_field_bits` (python.go 144-158). -/
def pyReadFieldBits (d : Buf) (bitFrom n : Nat) (big : Bool) : Option Nat :=
  (List.range n).foldlM (pyReadStep d bitFrom n big) 0

/-! ### Decode statements -/

/-- `(((data[k]) >> shr) & mask) << shl` (python.go 2404-2408). -/
def DecPart.pyEval (base : Nat) (d : Buf) (p : DecPart) : Option Nat :=
  match d.rd (base + p.byte) with
  | none => none
  | some b => some (((b.toNat >>> p.shr) &&& p.mask) <<< p.shl)

/-- Value of the text `p1 | p2 | … << s`: the parts are joined with ` | ` (python.go 2411) and the result
becomes the left operand of `<<` **without parentheses** (`fieldProcessor`, 2293-2327; a binary expression
is printed as `(left op right)` and a raw operand verbatim, 2420-2545), and Python's `<<` binds tighter
than `|`: only the last part is shifted. -/
def pyShiftText (s : Nat) : List Nat → Nat
  | [] => 0
  | [p] => p <<< s
  | p :: ps => p ||| pyShiftText s ps

/-- `x = …` for chunk 0, `x |= …` for the others (python.go 2293-2327; `shiftCalc` 2283-2291 is the same
as in the Go target). -/
def DecStmt.pyExec (big : Bool) (n base : Nat) (d : Buf) (x : Nat) (s : DecStmt) : Option Nat :=
  match s.parts.mapM (DecPart.pyEval base d) with
  | none => none
  | some ps =>
    let t := pyShiftText (decShift big n s.idx) ps
    if s.idx = 0 then some t else some (x ||| t)

/-- Value of the target variable after the decode statements of an `n`-bit field at `[start, start+n)`
(before sign extension). -/
def pyDecField (big : Bool) (start n base : Nat) (d : Buf) : Option Nat :=
  (decStmts start n).foldlM (DecStmt.pyExec big n base d) 0

/-- `x = ((x) ^ signMask) - signMask`, `signMask = 1 << (fieldBits-1)` (python.go 2329-2350 and 2151-2153,
template signExtendArith 1936-1938); unlike in the Go target also when the field has the full width. -/
def pySignExt (n : Nat) (x : Nat) : Int := ((x ^^^ (1 <<< (n - 1)) : Nat) : Int) - ((1 <<< (n - 1) : Nat) : Int)

/-- Positions for which the unrolled decode statements are right. -/
def pyOk (big : Bool) (start n : Nat) : Bool :=
  decide (start % 8 = 0) || decide (n ≤ 8) || (!big && decide (start % 8 + n ≤ 16))

end Bubbler
