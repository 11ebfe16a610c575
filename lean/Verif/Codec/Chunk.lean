import Verif.Codec.Bits

/-
Model of the fixed-width field codec emitted by the Go target:

* the run-time helpers `bbWriteFieldBits` / `bbReadFieldBits` used in array loops;
* the statements produced by `generateEncodeImpl` / `generateDecodeImpl`, as a small statement
  language (`EncStmt`, `DecStmt`) with an interpreter giving the effect of the Go text;
* the sign extension statements.
-/
namespace Bubbler

/-- Which bit of the value goes to bit `j` of an `n`-bit field.
golang.go 283-290 and 307-314: `valueBit := fieldBit`, for big endian
`valueBit = bitSize - 8*(byteIndex+1) + fieldBit%8; if valueBit < fieldBit%8 { valueBit = fieldBit%8 }`. -/
def valueBit (big : Bool) (n j : Nat) : Nat :=
  if big then
    let vb : Int := (n : Int) - 8 * ((j / 8 : Nat) + 1) + (j % 8 : Nat)
    if vb < (j % 8 : Nat) then j % 8 else vb.toNat
  else j

/-- One iteration of the loop of `bbWriteFieldBits` (golang.go 283-296):
clear the bit in its byte, then set it if the value bit is set. -/
def bbWriteStep (bitFrom n : Nat) (value : BitVec 64) (big : Bool) (d : Buf) (fieldBit : Nat) :
    Option Buf := do
  let vb := valueBit big n fieldBit
  let dataBit := bitFrom + fieldBit
  let mask : Byte := 1#8 <<< (dataBit % 8)
  let b ← d.rd (dataBit / 8)
  let d ← d.wr (dataBit / 8) (b &&& ~~~mask)
  if value &&& (1#64 <<< vb) != 0#64 then
    let b ← d.rd (dataBit / 8)
    d.wr (dataBit / 8) (b ||| mask)
  else
    some d

/-- `bbWriteFieldBits` (golang.go 275-298).  The early return for `bitSize <= 0` is the empty loop. -/
def bbWriteFieldBits (d : Buf) (bitFrom n : Nat) (value : BitVec 64) (big : Bool) : Option Buf :=
  let value := if n < 64 then value &&& ((1#64 <<< n) - 1#64) else value
  (List.range n).foldlM (bbWriteStep bitFrom n value big) d

/-- One iteration of the loop of `bbReadFieldBits` (golang.go 307-318). -/
def bbReadStep (d : Buf) (bitFrom n : Nat) (big : Bool) (out : BitVec 64) (fieldBit : Nat) :
    Option (BitVec 64) := do
  let vb := valueBit big n fieldBit
  let dataBit := bitFrom + fieldBit
  let b ← d.rd (dataBit / 8)
  if b &&& (1#8 <<< (dataBit % 8)) != 0#8 then
    some (out ||| (1#64 <<< vb))
  else
    some out

/-- `bbReadFieldBits` (golang.go 301-321). -/
def bbReadFieldBits (d : Buf) (bitFrom n : Nat) (big : Bool) : Option (BitVec 64) :=
  (List.range n).foldlM (bbReadStep d bitFrom n big) 0#64

/-! ### Chunked encode statements -/

/-- A term `((fieldData(src) >> shr) & mask) << shl` of an encode statement
(golang.go 1883-1890; the text `<< 0` is omitted by the generator, same value). -/
structure EncPart where
  src : Nat
  shr : Nat
  mask : Nat
  shl : Nat
deriving DecidableEq, Repr

/-- `data[bytePos] = byte((uint64(data[bytePos]) & ^mask) | (uint64(p1 | p2 | …) & mask))`
(golang.go 1895-1911, template encodeImpl 1421-1423). -/
structure EncStmt where
  bytePos : Nat
  dataMask : Nat
  parts : List EncPart
deriving DecidableEq, Repr

/-- The inner loop of `generateEncodeImpl` (golang.go 1880-1893). -/
def encParts (fieldFrom dataFrom chunkSize consumed : Nat) : List EncPart :=
  if consumed < chunkSize then
    let sourceBit := fieldFrom + consumed
    let partSize := min (chunkSize - consumed) (8 - sourceBit % 8)
    { src := sourceBit / 8, shr := sourceBit % 8, mask := 2 ^ partSize - 1,
      shl := dataFrom % 8 + consumed } :: encParts fieldFrom dataFrom chunkSize (consumed + partSize)
  else []
termination_by chunkSize - consumed
decreasing_by omega

/-- The outer loop of `generateEncodeImpl` (golang.go 1872-1915), for a field at bits
`[start, start + n)`, from field bit `fieldFrom` on. -/
def encStmtsFrom (start n fieldFrom : Nat) : List EncStmt :=
  if fieldFrom < n then
    let dataFrom := start + fieldFrom
    let chunkSize := min (n - fieldFrom) (8 - dataFrom % 8)
    { bytePos := dataFrom / 8, dataMask := (2 ^ chunkSize - 1) <<< (dataFrom % 8),
      parts := encParts fieldFrom dataFrom chunkSize 0 } :: encStmtsFrom start n (fieldFrom + chunkSize)
  else []
termination_by n - fieldFrom
decreasing_by omega

/-- `generateEncodeImpl(from, to, …)` with `n = to - from`. -/
def encStmts (start n : Nat) : List EncStmt := encStmtsFrom start n 0

/-- Value of one term; `fd i` is the Go expression `fieldData(i)`, of an unsigned type of `w` bits. -/
def EncPart.eval {w : Nat} (fd : Nat → BitVec w) (p : EncPart) : BitVec w :=
  ((fd p.src >>> p.shr) &&& BitVec.ofNat w p.mask) <<< p.shl

/-- Value of `p1 | p2 | …`. -/
def evalParts {w : Nat} (fd : Nat → BitVec w) (ps : List EncPart) : BitVec w :=
  ps.foldl (fun acc p => acc ||| p.eval fd) 0#w

/-- Effect of one encode statement on the buffer; `base` is the run-time `offset`
(0 in a struct without dynamic fields). -/
def EncStmt.exec {w : Nat} (fd : Nat → BitVec w) (base : Nat) (d : Buf) (s : EncStmt) : Option Buf := do
  let b ← d.rd (base + s.bytePos)
  let m := BitVec.ofNat 64 s.dataMask
  let v : BitVec 64 := (b.setWidth 64 &&& ~~~m) ||| ((evalParts fd s.parts).setWidth 64 &&& m)
  d.wr (base + s.bytePos) (v.setWidth 8)

/-- Effect of all encode statements of a field. -/
def execEnc {w : Nat} (fd : Nat → BitVec w) (base : Nat) (ss : List EncStmt) (d : Buf) : Option Buf :=
  ss.foldlM (EncStmt.exec fd base) d

/-- `fieldData` of a normal field (golang.go 1803-1841): `x >> 8*i`, or for big endian
`x >> max(0, fieldBitSize-8*(i+1))`. -/
def fieldData {w : Nat} (big : Bool) (n : Nat) (x : BitVec w) (i : Nat) : BitVec w :=
  if big then x >>> (max 0 ((n : Int) - 8 * (i + 1))).toNat else x >>> (8 * i)

/-- Effect of the unrolled statements for an `n`-bit field with value `x` at bits
`[start, start+n)` (golang.go 1787-1842). -/
def encField {w : Nat} (big : Bool) (start n : Nat) (x : BitVec w) (base : Nat) (d : Buf) : Option Buf :=
  execEnc (fieldData big n x) base (encStmts start n) d

/-! ### Chunked decode statements -/

/-- A term `((data[byte] >> shr) & mask) << shl` (golang.go 2816-2823). -/
structure DecPart where
  byte : Nat
  shr : Nat
  mask : Nat
  shl : Nat
deriving DecidableEq, Repr

/-- Statement number `idx`: `x = T(p1|p2) << shift(idx)` when `idx = 0`, `x |= …` otherwise
(golang.go 2705-2741, 2826-2828). -/
structure DecStmt where
  idx : Nat
  parts : List DecPart
deriving DecidableEq, Repr

/-- Inner loop of `generateDecodeImpl` (golang.go 2813-2825). -/
def decParts (start fieldFrom chunkSize consumed : Nat) : List DecPart :=
  if consumed < chunkSize then
    let dataBit := start + fieldFrom + consumed
    let partSize := min (chunkSize - consumed) (8 - dataBit % 8)
    { byte := dataBit / 8, shr := dataBit % 8, mask := 2 ^ partSize - 1, shl := consumed } ::
      decParts start fieldFrom chunkSize (consumed + partSize)
  else []
termination_by chunkSize - consumed
decreasing_by omega

/-- Outer loop of `generateDecodeImpl` (golang.go 2808-2831). -/
def decStmtsFrom (start n fieldFrom : Nat) : List DecStmt :=
  if fieldFrom < n then
    { idx := fieldFrom / 8, parts := decParts start fieldFrom (min 8 (n - fieldFrom)) 0 } ::
      decStmtsFrom start n (fieldFrom + 8)
  else []
termination_by n - fieldFrom
decreasing_by omega

def decStmts (start n : Nat) : List DecStmt := decStmtsFrom start n 0

/-- A term is computed in Go type `byte`. -/
def DecPart.eval (base : Nat) (d : Buf) (p : DecPart) : Option Byte := do
  let b ← d.rd (base + p.byte)
  some (((b >>> p.shr) &&& BitVec.ofNat 8 p.mask) <<< p.shl)

def evalDecParts (base : Nat) (d : Buf) (ps : List DecPart) : Option Byte :=
  ps.foldlM (fun acc p => do let v ← p.eval base d; some (acc ||| v)) 0#8

/-- `shiftCalc` (golang.go 2694-2703). -/
def decShift (big : Bool) (n i : Nat) : Nat :=
  if big then (max 0 ((n : Int) - 8 * (i + 1))).toNat else i * 8

def DecStmt.exec {w : Nat} (big : Bool) (n base : Nat) (d : Buf) (x : BitVec w) (s : DecStmt) :
    Option (BitVec w) := do
  let e ← evalDecParts base d s.parts
  let t := (e.setWidth w) <<< decShift big n s.idx
  if s.idx = 0 then some t else some (x ||| t)

/-- Value held by the target variable after the decode statements of an `n`-bit field at
`[start, start+n)`; `x0` is what the variable held before. -/
def decField {w : Nat} (big : Bool) (start n base : Nat) (d : Buf) (x0 : BitVec w) : Option (BitVec w) :=
  (decStmts start n).foldlM (DecStmt.exec big n base d) x0

/-! ### Sign extension -/

/-- `-signext` (generator/gen/gen_option.go): default and `shift` generate the shift form in
unrolled code; the loop form uses `shift` only when asked for explicitly (golang.go 150-162). -/
inductive SignExt | default | shift | arith
deriving DecidableEq, Repr

/-- `x = intT(x << shift) >> shift` with `shift = typeBits - fieldBits` (golang.go 2752-2761,
template signExtendShift 2286-2288): left shift, then arithmetic right shift, on `w` bits. -/
def signExtShift {w : Nat} (n : Nat) (x : BitVec w) : BitVec w := (x <<< (w - n)).sshiftRight (w - n)

/-- `x = (x ^ signMask) - signMask`, `signMask = 1 << (fieldBits-1)` (golang.go 2763-2773, template 2290-2292). -/
def signExtArith {w : Nat} (n : Nat) (x : BitVec w) : BitVec w :=
  (x ^^^ (1#w <<< (n - 1))) - (1#w <<< (n - 1))

/-- Sign extension of unrolled code (golang.go 2745-2778): only for signed types wider than the field. -/
def signExtUnrolled {w : Nat} (m : SignExt) (signed : Bool) (n : Nat) (x : BitVec w) : BitVec w :=
  if signed && decide (n < w) then
    match m with
    | .default | .shift => signExtShift n x
    | .arith => signExtArith n x
  else x

/-- Conversion of the helper's `_v` to a signed element of `w` bits (golang.go 143-163). -/
def loopInt (m : SignExt) (w n : Nat) (v : BitVec 64) : BitVec w :=
  if 64 ≤ n then v.setWidth w
  else match m with
    | .shift => (signExtShift n v).setWidth w
    | _ => (signExtArith n v).setWidth w

end Bubbler
