import Verif.Codec.Bits

/-
Model of the variable-length field codec emitted by the Go target: NUL-terminated strings and
length-prefixed byte sequences, and of the length scanning done by `DecodeSize`.

`k` is the constant byte position `FromByte = from/8` in the templates, `off` the run-time `offset`.
-/
namespace Bubbler

/-- Template encodeNormalFieldString (golang.go 1393-1400). -/
def encString (s : List Byte) (k : Nat) (d : Buf) (off : Nat) : Option (Buf × Nat) := do
  let d ← d.copyAt (off + k) s
  let d ← d.wr (off + k + s.length) 0#8
  some (d, off + (s.length + 1))

/-- The `for` loop of encodeNormalFieldBytes (golang.go 1407-1414): seven bits per byte,
continuation flag set on every byte.  Returns the buffer and the new offset. -/
def encLenLoop (k temp : Nat) (d : Buf) (off : Nat) : Option (Buf × Nat) := do
  let d ← d.wr (off + k) (BitVec.ofNat 8 (temp &&& 0x7F ||| 0x80))
  let temp' := temp >>> 7
  let off := off + 1
  if h : temp' = 0 then some (d, off) else encLenLoop k temp' d off
termination_by temp
decreasing_by
  have : temp >>> 7 = temp / 128 := by simp [Nat.shiftRight_eq_div_pow]
  have h' : ¬ temp >>> 7 = 0 := h
  show temp >>> 7 < temp
  omega

/-- Template encodeNormalFieldBytes (golang.go 1402-1419). -/
def encBytes (s : List Byte) (k : Nat) (d : Buf) (off : Nat) : Option (Buf × Nat) := do
  let (d, off) ← encLenLoop k s.length d off
  let b ← d.rd (off - 1 + k)
  let d ← d.wr (off - 1 + k) (b &&& ~~~(0x80#8))
  let d ← d.copyAt (off + k) s
  some (d, off + s.length)

/-- The extra bytes counted by EncodeSize for a length prefix
(golang.go 1226-1237: `for { length >>= 7; if length == 0 { break }; size++ }`). -/
def lenExtra (length : Nat) : Nat :=
  if h : length >>> 7 = 0 then 0 else 1 + lenExtra (length >>> 7)
termination_by length
decreasing_by
  have : length >>> 7 = length / 128 := by simp [Nat.shiftRight_eq_div_pow]
  omega

/-- Outcome of a piece of `DecodeSize`: continue with an offset, `return r`, or a Go panic. -/
inductive Scan where
  | ok (off : Nat)
  | ret (r : Int)
  | panic
deriving DecidableEq, Repr

/-- The inner loop `for data[pos+length] != 0 { length++; if len(data) <= pos+length { return -(pos+length+1) } }`
(golang.go 1956-1962). On success returns `length`. -/
def scanStr (d : Buf) (pos length : Nat) : Scan :=
  match d.rd (pos + length) with
  | none => .panic
  | some b =>
    if b = 0#8 then .ok length
    else if d.length ≤ pos + (length + 1) then .ret (-((pos + (length + 1) + 1 : Nat) : Int))
    else scanStr d pos (length + 1)
termination_by d.length - (pos + length)
decreasing_by omega

/-- The body of DecodeSize for a string that starts at the valid index `p` (golang.go 1957-1963,
1969-1975, 2056-2060): number of bytes consumed. -/
def dsStringAt (d : Buf) (p : Nat) : Scan :=
  match scanStr d p 0 with
  | .ok length => .ok (length + 1)
  | r => r

/-- Go's largest `int` (64-bit platform), `int(^uint(0)>>1)`. -/
def maxInt : Nat := 2 ^ 63 - 1

/-- Outcome of reading a length prefix. -/
inductive LenScan where
  | ok (lengthValue : BitVec 64) (off : Nat)
  | ret (r : Int)
  | panic
deriving DecidableEq, Repr

/-- The varint loop of DecodeSize (golang.go 1980-1993): `acc` is `lengthValue`, `pos` is
`offset + FromByte`.  On success gives the length and the index of the last prefix byte. -/
def scanLen (d : Buf) (acc : BitVec 64) (shift pos : Nat) : LenScan :=
  match d.rd pos with
  | none => .panic
  | some b =>
    if b &&& 0x80#8 = 0#8 then
      -- after the loop
      if 63 ≤ shift then .ret (-1)
      else .ok (acc ||| ((b &&& 0x7F#8).setWidth 64 <<< shift)) pos
    else if 63 ≤ shift then .ret (-1)
    else if d.length ≤ pos + 1 then .ret (-((pos + 1 + 1 : Nat) : Int))
    else scanLen d (acc ||| ((b &&& 0x7F#8).setWidth 64 <<< shift)) (shift + 7) (pos + 1)
termination_by d.length - pos
decreasing_by omega

/-- The body of DecodeSize for a bytes field whose prefix starts at the valid index `p`
(golang.go 1980-2000, 2005-2025, 2066-2086): number of bytes consumed. -/
def dsBytesAt (d : Buf) (p : Nat) : Scan :=
  match scanLen d 0#64 0 p with
  | .panic => .panic
  | .ret r => .ret r
  | .ok lengthValue last =>
    if maxInt < lengthValue.toNat then .ret (-1)
    else
      let length := lengthValue.toNat
      let base := last + 1
      -- Go ints: `len(data) - base` cannot overflow since `base ≤ len(data)`
      if ((d.length : Int) - base < length) then
        if ((maxInt : Int) - base < length) then .ret (-1) else .ret (-((base + length : Nat) : Int))
      else .ok (base + length - p)

/-- Outcome of (a piece of) `Decode`: value, `return -1`, or a Go panic. -/
inductive Res (α : Type) where
  | ok (a : α)
  | fail
  | panic
deriving Repr

def Res.bind {α β : Type} : Res α → (α → Res β) → Res β
  | .ok a, f => f a
  | .fail, _ => .fail
  | .panic, _ => .panic

instance : Monad Res where
  pure := .ok
  bind := Res.bind

/-- A Go panic inside an expression. -/
def Res.ofOption {α : Type} : Option α → Res α
  | some a => .ok a
  | none => .panic

/-- Template decodeNormalFieldString (golang.go 2249-2258): unguarded scan for the zero byte. -/
def decStrLen (d : Buf) (pos length : Nat) : Res Nat :=
  match h : d.rd (pos + length) with
  | none => .panic
  | some b => if b = 0#8 then .ok length else decStrLen d pos (length + 1)
termination_by d.length - (pos + length)
decreasing_by
  have : pos + length < d.length := by
    simp only [Buf.rd] at h
    exact (List.getElem?_eq_some_iff.mp h).1
  omega

def decString (k : Nat) (d : Buf) (off : Nat) : Res (List Byte × Nat) :=
  (decStrLen d (off + k) 0).bind fun length =>
    .ok ((d.drop (off + k)).take length, off + (length + 1))

/-- The varint loop of decodeNormalFieldBytes (golang.go 2263-2271), on 64-bit `int`s. -/
def decLen (k : Nat) (d : Buf) (acc : BitVec 64) (shift off : Nat) : Res (BitVec 64 × Nat) :=
  match h : d.rd (off + k) with
  | none => .panic
  | some b =>
    if b &&& 0x80#8 = 0#8 then
      .ok (acc ||| ((b &&& 0x7F#8).setWidth 64 <<< shift), off + 1)
    else decLen k d (acc ||| ((b &&& 0x7F#8).setWidth 64 <<< shift)) (shift + 7) (off + 1)
termination_by d.length - (off + k)
decreasing_by
  have : off + k < d.length := by
    simp only [Buf.rd] at h
    exact (List.getElem?_eq_some_iff.mp h).1
  omega

/-- Template decodeNormalFieldBytes (golang.go 2260-2280).  A negative length (bit 63) or a slice
past the end panics (`data[a:b]` up to the capacity would not panic in Go; counting every
over-read as a panic is the stronger notion of safety). With or without `-memcpy` the value read
is the same byte sequence; aliasing of the non-copying variant is not modelled. -/
def decBytes (k : Nat) (d : Buf) (off : Nat) : Res (List Byte × Nat) :=
  (decLen k d 0#64 0 off).bind fun (lenv, off) =>
    if lenv.msb then .panic
    else if d.length < off + k + lenv.toNat then .panic
    else .ok ((d.drop (off + k)).take lenv.toNat, off + lenv.toNat)

end Bubbler
