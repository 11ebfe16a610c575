import Verif.Codec.Encode
import Verif.Codec.Decode

/-
Model of the fixed-width field codec emitted by the C target (generator/target/c/c.go).  It uses
another algorithm than the Go target: at most two masked terms per statement and the operators
`=` / `|=` instead of a read-modify-write with a mask.  The C++, C#, Java, CommonJS and ES module targets contain
the same chunk algorithm (cpp.go 2294, csharp.go 1987, java.go 1954, commonjs.go 2470).

C has no bounds checks: an access outside the buffer is modelled as `none` (undefined behaviour).
All intermediate values are below 2^23, so C's integer promotions never overflow and every
expression is computed here on 64 bits.
-/
namespace Bubbler

/-- `((1 << hi) - 1) & ^((1 << lo) - 1)`: the mask of bits `lo … hi-1` (c.go 2158, 2188, 2214). -/
def cMask (lo hi : Nat) : BitVec 64 := ((1#64 <<< hi) - 1#64) &&& ~~~((1#64 <<< lo) - 1#64)

/-- One emitted encode statement
`data[bytePos] op ((((fd(src1) & mask1) >> shr1) | ((fd(src2) & mask2) << shl2)) << shl) & mask`
(c.go 2152-2267; template encodeImpl 1698-1700). -/
structure CEnc where
  bytePos : Nat
  mask : BitVec 64
  /-- operator `=` (true) or `|=` (false) -/
  assign : Bool
  src1 : Nat
  mask1 : BitVec 64
  shr1 : Nat
  /-- second half: source byte, mask, left shift -/
  second : Option (Nat × BitVec 64 × Nat)
  shl : Nat

/-- One iteration of the loop of `generateEncodeImpl` (c.go 2153-2268) and of the loop of the
run-time helper `bb_write_field_bits` (c.go 213-262), which computes the same numbers; `assign` is
chosen from `i` and the mask: `i%8 == 0` in emitted statements (2161-2166), `data_mask == 0xFF` in
the helper (257-261). -/
def cEncStmt (assign : Nat → BitVec 64 → Bool) (start stop i : Nat) : CEnc :=
  let nextI := min stop (8 * (i / 8 + 1))
  let mask := cMask (i % 8) ((nextI - 1) % 8 + 1)
  let begin_ := i - start
  let end_ := nextI - start
  let nextJ := min end_ (8 * (begin_ / 8 + 1))
  { bytePos := i / 8
    mask := mask
    assign := assign i mask
    src1 := begin_ / 8
    mask1 := cMask (begin_ % 8) ((nextJ - 1) % 8 + 1)
    shr1 := begin_ % 8
    second :=
      if nextJ < end_ then
        let nextJ2 := min end_ (8 * (nextJ / 8 + 1))
        some (nextJ / 8, cMask (nextJ % 8) ((nextJ2 - 1) % 8 + 1), 8 - nextJ2 % 8)
      else none
    shl := i % 8 }

/-- The loop `for i := from; i < to; i = (i + 8) & ^7` (c.go 2153 and 213, 261). -/
def cEncStmtsFrom (assign : Nat → BitVec 64 → Bool) (start stop i : Nat) : List CEnc :=
  if i < stop then cEncStmt assign start stop i :: cEncStmtsFrom assign start stop (8 * (i / 8 + 1))
  else []
termination_by stop - i
decreasing_by omega

/-- Operator of emitted statements (c.go 2161-2166). -/
def assignEmitted (i : Nat) (_ : BitVec 64) : Bool := decide (i % 8 = 0)

/-- Operator of the helper (c.go 257-261). -/
def assignHelper (_ : Nat) (mask : BitVec 64) : Bool := decide (mask = 0xFF#64)

/-- `generateEncodeImpl(from, to, …)` of the C target with `n = to - from`. -/
def cEncStmts (start n : Nat) : List CEnc := cEncStmtsFrom assignEmitted start (start + n) start

/-- The right-hand side of a statement. -/
def CEnc.value {w : Nat} (fd : Nat → BitVec w) (s : CEnc) : BitVec 64 :=
  let first := ((fd s.src1).setWidth 64 &&& s.mask1) >>> s.shr1
  let both : BitVec 64 := match s.second with
    | none => first
    | some (src2, mask2, shl2) => first ||| (((fd src2).setWidth 64 &&& mask2) <<< shl2)
  (both <<< s.shl) &&& s.mask

/-- Effect of a statement; `base` is the run-time `offset` (0 in a struct without dynamic fields). -/
def CEnc.exec {w : Nat} (fd : Nat → BitVec w) (base : Nat) (d : Buf) (s : CEnc) : Option Buf := do
  let b ← d.rd (base + s.bytePos)
  let v : Byte := (s.value fd).setWidth 8
  d.wr (base + s.bytePos) (if s.assign then v else b ||| v)

def cExecEnc {w : Nat} (fd : Nat → BitVec w) (base : Nat) (ss : List CEnc) (d : Buf) : Option Buf :=
  ss.foldlM (CEnc.exec fd base) d

/-- The statements for an `n`-bit scalar `x` at bits `[start, start+n)` (c.go 2067-2118; `fieldData`
2080-2117 is the same as in the Go target). -/
def cEncField {w : Nat} (big : Bool) (start n : Nat) (x : BitVec w) (base : Nat) (d : Buf) : Option Buf :=
  cExecEnc (fieldData big n x) base (cEncStmts start n) d

/-- The helper `bb_write_field_bits` (c.go 208-263): `src_byte` is `(value >> src_shift) & 0xFF`
(226-236, 245-254); the masks have no bit above 7, so the `& 0xFF` changes nothing. -/
def cWriteFieldBits (d : Buf) (bitFrom n : Nat) (value : BitVec 64) (big : Bool) : Option Buf :=
  let value := if n < 64 then value &&& ((1#64 <<< n) - 1#64) else value
  cExecEnc (fun i => fieldData big n value i &&& 0xFF#64) 0
    (cEncStmtsFrom assignHelper bitFrom (bitFrom + n) bitFrom) d

/-! ### Decoding -/

/-- `((data[byte1] & mask1) >> shr1) | ((data[byte2] & mask2) << shl2)` of `generateDecodeImpl`
(c.go 3158-3215). -/
structure CDec where
  idx : Nat
  byte1 : Nat
  mask1 : BitVec 64
  shr1 : Nat
  second : Option (Nat × BitVec 64 × Nat)

/-- One iteration of `generateDecodeImpl` (c.go 3157-3229), and of `bb_read_field_bits`
(c.go 272-298). -/
def cDecStmt (start stop i : Nat) : CDec :=
  let end_ := min stop (i + 8)
  let width := end_ - i
  let sep := min end_ (8 * (i / 8 + 1))
  { idx := (i - start) / 8
    byte1 := i / 8
    mask1 := cMask (i % 8) ((sep - 1) % 8 + 1)
    shr1 := i % 8
    second :=
      if sep < end_ then some (sep / 8, cMask (sep % 8) ((end_ - 1) % 8 + 1), width - end_ % 8)
      else none }

/-- The loop `for i := from; i < to; i += 8` (c.go 3157). -/
def cDecStmtsFrom (start stop i : Nat) : List CDec :=
  if i < stop then cDecStmt start stop i :: cDecStmtsFrom start stop (i + 8) else []
termination_by stop - i
decreasing_by omega

def cDecStmts (start n : Nat) : List CDec := cDecStmtsFrom start (start + n) start

/-- Value of the extracted chunk (in C: `int`, here 64 bits). -/
def CDec.value (base : Nat) (d : Buf) (s : CDec) : Option (BitVec 64) := do
  let b1 ← d.rd (base + s.byte1)
  let first := (b1.setWidth 64 &&& s.mask1) >>> s.shr1
  match s.second with
  | none => some first
  | some (byte2, mask2, shl2) => do
    let b2 ← d.rd (base + byte2)
    some (first ||| ((b2.setWidth 64 &&& mask2) <<< shl2))

/-- `x = (T)chunk << shift` for chunk 0, `x |= (T)chunk << shift` for the others (`fieldProcessor`,
c.go 3031-3075; `shiftCalc` 3020-3029 is the same as in the Go target). -/
def CDec.exec {w : Nat} (big : Bool) (n base : Nat) (d : Buf) (x : BitVec w) (s : CDec) :
    Option (BitVec w) := do
  let e ← s.value base d
  let t := (e.setWidth w) <<< decShift big n s.idx
  if s.idx = 0 then some t else some (x ||| t)

def cDecField {w : Nat} (big : Bool) (start n base : Nat) (d : Buf) (x0 : BitVec w) : Option (BitVec w) :=
  (cDecStmts start n).foldlM (CDec.exec big n base d) x0

/-- `bb_read_field_bits` (c.go 267-301): `out` starts at 0 and every chunk is or-ed in. -/
def cReadFieldBits (d : Buf) (bitFrom n : Nat) (big : Bool) : Option (BitVec 64) :=
  (cDecStmts bitFrom n).foldlM (fun out s => do
    let e ← CDec.value 0 d s
    some (out ||| (e <<< decShift big n s.idx))) 0#64

end Bubbler
