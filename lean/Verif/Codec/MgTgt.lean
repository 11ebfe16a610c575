import Verif.Codec.TgtMsg
import Verif.Codec.CMsg
import Verif.Codec.KtMsg

/-
The Java and C# targets as instances of TgtMsg.lean (java.go, csharp.go).  C# comes in two forms: with
`-memcpy` the methods take an array and a start position, as in Java; without it they take a `Span`/`Memory` and
pass slices of it to nested calls.

Values: integers are their bits (Java has no unsigned types: java.go 305-319); a boolean is 0 or 1; a float is its
bit pattern (`floatToRawIntBits`, `BitConverter`); a string is the list of its UTF-8 bytes; an enum attribute is an
`int`, in Java null (`none`) or a member.  An index out of bounds, a null reference and a negative array size are
exceptions.  Arrays are shorter than 2^31 bytes, positions are `int`s.

Where the generated code does not compile (enums of more than 32 bits in Java, constants narrower than their type
or, in C#, signed ones, `-signext arith` with int64 fields of 64 bits in C# or int64 elements in Java's loops) the
model computes something; the theorems exclude these definitions or say nothing about compiling.
Without `-memcpy`, `Decode(data, start)` and `DecodeSize(data, start)` throw for `start > data.Length`
(`new Memory<byte>(data, start, data.Length - start)`); the theorems are for positions within the data.
-/
namespace Bubbler

inductive MgLang
  | java
  /-- C# with `-memcpy` -/
  | csArray
  /-- C# without `-memcpy` -/
  | csSpan
deriving DecidableEq, Repr

/-- The language and the options the code depends on; what decoding UTF-8 makes of bytes (malformed sequences are
replaced); the numbers of the members of the enum of a field (`forNumber`, java.go 1148-1155), identified by its
path. -/
structure MgCfg where
  lang : MgLang
  unroll : Int
  signExt : SignExt
  decStr : List Byte → List Byte
  member : List Fields → BitVec 32 → Bool

def MgCfg.java (c : MgCfg) : Bool := c.lang == .java

/-- Value of a scalar attribute (java.go 305-319, 1112-1160; csharp.go 1096-1106: enums are `int`s). -/
def Sc.MgVal : Sc → Type
  | .prim p => BitVec p.width
  | .enum _ => Option (BitVec 32)

/-! ### Scalars: encoding -/

/-- `x >> k` for an integer of `w` bits, signed (`sg`) or not, widened to 64 bits: up to 32 bits the operation is
done on 32 bits (java.go 1885-1925, csharp.go 1915-1960; counts are taken modulo 32 or 64). -/
def mgFieldData {w : Nat} (sg big : Bool) (n : Nat) (x : BitVec w) (i : Nat) : BitVec 64 :=
  let k := if big then n - 8 * (i + 1) else 8 * i
  if w ≤ 32 then
    if sg then ((x.signExtend 32).sshiftRight (k % 32)).signExtend 64
    else ((x.setWidth 32) >>> (k % 32)).setWidth 64
  else
    if sg then (x.signExtend 64).sshiftRight (k % 64)
    else (x.setWidth 64) >>> (k % 64)

/-- Single scalars and elements of unrolled arrays (java.go 1524-1601, 1727-1837; csharp.go 1541-1622,
1762-1870): booleans go through a byte, floats through their bits, enums through an integer of `tempWidth`
bits (unsigned in C#).  The emitted statements have the numbers of the C target (java.go 1954-2076, csharp.go
1987-2110). -/
def mgEncSc (c : MgCfg) (_ctx : List Fields) : (s : Sc) → (big arr : Bool) → s.MgVal → (start n base : Nat) → Buf → Option Buf
  | .prim p, big, _, (x : BitVec p.width), start, n, base, d =>
    cExecEnc (mgFieldData (c.java || p.signed) big n x) base (cEncStmts start n) d
  | .enum _, _, _, none, _, _, _, _ => none
  | .enum b, big, arr, some x, start, n, base, d =>
    cExecEnc (mgFieldData c.java big n (x.signExtend ((Sc.enum b).tempWidth arr n))) base (cEncStmts start n) d

/-- The value passed to the helper in a loop (java.go 1703-1722, csharp.go 1725-1752): Java widens with the
sign, except for floats and booleans. -/
def mgU64 (c : MgCfg) (p : Prim) (x : BitVec p.width) : BitVec 64 :=
  if p = .bool ∨ p = .f32 ∨ p = .f64 then x.setWidth 64
  else if c.java || p.signed then x.signExtend 64
  else x.setWidth 64

/-- The body of the loop over scalars; `bbWriteFieldBits` (java.go 428-484, csharp.go 490-547) is the helper of
the C target. -/
def mgEncScLoop (c : MgCfg) (_ctx : List Fields) : (s : Sc) → (big : Bool) → s.MgVal → (pos n : Nat) → Buf → Option Buf
  | .prim p, big, (x : BitVec p.width), pos, n, d => cWriteFieldBits d pos n (mgU64 c p x) big
  | .enum _, _, none, _, _, _ => none
  | .enum _, big, some x, pos, n, d => cWriteFieldBits d pos n (x.signExtend 64) big

/-- Constants (java.go 1492-1515, csharp.go 1507-1530): byte literals. -/
def mgEncConst (p : Prim) (n : Nat) (big : Bool) (val start base : Nat) (d : Buf) : Option Buf :=
  cExecEnc (constData p big val) base (cEncStmts start n) d

/-! ### Scalars: decoding -/

/-- Sign extension of a field (java.go 3014-3034: one form for all methods; csharp.go 3286-3318). -/
def mgSignExt (c : MgCfg) {w : Nat} (n : Nat) (x : BitVec w) : BitVec w :=
  if c.java || c.signExt == .arith then signExtArith n x else signExtShift n x

/-- The width of the variable a field is read into: that of its type, except for single floats, for which it is
the least size holding the field's bits (java.go 2560-2580, csharp.go 2815-2835). -/
def mgWidth (p : Prim) (arr : Bool) (n : Nat) : Nat :=
  if (p = .f32 ∨ p = .f64) ∧ arr = false then goUintWidth n else p.width

/-- From the variable to the attribute (java.go 2386-2396, csharp.go 2623-2633): in Java a narrow variable is
widened with its sign, in C# `ToSingle`/`ToDouble` throw for one. -/
def mgFinish (c : MgCfg) (p : Prim) (n : Nat) {w : Nat} (x : BitVec w) : Option (BitVec p.width) :=
  if p = .bool then some (if x = 0#w then 0#_ else 1#_)
  else if p = .f32 ∨ p = .f64 then
    if c.java then some (x.signExtend _)
    else if w < p.width then none
    else some (x.setWidth _)
  else if p.signed then some ((mgSignExt c n x).setWidth _)
  else some (x.setWidth _)

/-- `forNumber` in Java (bytes and shorts are taken as unsigned), a cast in C#. -/
def mgEnum (c : MgCfg) (ctx : List Fields) (x : BitVec 32) : Option (BitVec 32) :=
  if c.java then (if c.member ctx x then some x else none) else some x

/-- Single scalars and elements of unrolled arrays (java.go 2526-2640, 2782-2878, 2930-3012; csharp.go 2779-2890,
3032-3142, 3206-3284); the statements have the numbers of the C target (java.go 3051-3130, csharp.go 3336-3415). -/
def mgDecSc (c : MgCfg) (ctx : List Fields) : (s : Sc) → (big arr : Bool) → Buf → (start n base : Nat) → Option s.MgVal
  | .prim p, big, arr, d, start, n, base =>
    match cDecField big start n base d (0#(mgWidth p arr n)) with
    | none => none
    | some x => mgFinish c p n x
  | .enum b, big, arr, d, start, n, base =>
    match cDecField big start n base d (0#((Sc.enum b).tempWidth arr n)) with
    | none => none
    | some x => some (mgEnum c ctx (x.setWidth 32))

/-- `decodeBasicValueExpr` (java.go 100-133, csharp.go 101-133; templates 2449-2455, 2703-2709). -/
def mgLoopVal (c : MgCfg) (p : Prim) (n : Nat) (v : BitVec 64) : BitVec p.width :=
  if p = .bool then (if v = 0#64 then 0#_ else 1#_)
  else if p.signed && decide (n < p.width) then
    (if c.signExt == .arith then signExtArith n v else signExtShift n v).setWidth _
  else v.setWidth _

/-- The body of the loop over scalars (java.go 2730-2780, csharp.go 2966-3030). -/
def mgDecScLoop (c : MgCfg) (ctx : List Fields) : (s : Sc) → (big : Bool) → Buf → (pos n : Nat) → Option s.MgVal
  | .prim p, big, d, pos, n =>
    match cReadFieldBits d pos n big with
    | none => none
    | some v => some (mgLoopVal c p n v : BitVec p.width)
  | .enum _, big, d, pos, n =>
    match cReadFieldBits d pos n big with
    | none => none
    | some v => some (mgEnum c ctx (v.setWidth 32))

/-- Constants (java.go 2474-2516, csharp.go 2727-2769): the field is read into a variable of its type (others do
not compile) and compared with the literal cast to it. -/
def mgDecConst (c : MgCfg) (p : Prim) (n : Nat) (big : Bool) (val : Nat) (d : Buf) (start base : Nat) : Option Bool :=
  if p.isInteger then
    match cDecField big start n base d (0#(p.width)) with
    | none => none
    | some x => some ((if p.signed then mgSignExt c n x else x) == BitVec.ofNat p.width val)
  else none

/-! ### Strings and bytes: encoding -/

/-- encodeNormalFieldString (java.go 1433-1440, csharp.go 1440-1452): copy, then the NUL. -/
def mgEncStr (s : List Byte) (pos : Nat) (d : Buf) : Option (Buf × Nat) := ktEncString s pos 0 d 0

/-- The `do … while` loop of encodeNormalFieldBytes (java.go 1444-1445, csharp.go 1458): every byte gets the
continuation bit. -/
def mgEncLen (length pos : Nat) (d : Buf) : Option (Buf × Nat) :=
  match d.wr pos (BitVec.ofNat 8 (length &&& 0x7F ||| 0x80)) with
  | none => none
  | some d =>
    if h : length >>> 7 > 0 then
      match mgEncLen (length >>> 7) (pos + 1) d with
      | none => none
      | some (d, n) => some (d, n + 1)
    else some (d, 1)
termination_by length
decreasing_by rw [Nat.shiftRight_eq_div_pow] at h ⊢; omega

/-- encodeNormalFieldBytes (java.go 1442-1450, csharp.go 1454-1470): then it is cleared in the last one, and the
contents are copied. -/
def mgEncBytes (s : List Byte) (pos : Nat) (d : Buf) : Option (Buf × Nat) :=
  match mgEncLen s.length pos d with
  | none => none
  | some (d, n) =>
    match d.rd (pos + n - 1) with
    | none => none
    | some b =>
      match d.wr (pos + n - 1) (b &&& ~~~0x80#8) with
      | none => none
      | some d =>
        match ktCopyInto s d (pos + n) with
        | none => none
        | some d => some (d, n + s.length)

/-- Bytes of the length prefix in `encodeSize` (java.go 1245-1250, 1268-1270; csharp.go 1196-1230):
`1 + (length >> 7 > 0 ? 1 : 0) + … + (length >> 28 > 0 ? 1 : 0)`. -/
def mgLenSize (length : Nat) : Nat :=
  ([7, 14, 21, 28].map (fun k => if length >>> k > 0 then 1 else 0)).foldl (fun (a b : Nat) => a + b) 1

/-! ### Strings and bytes: decodeSize -/

/-- Bytes from `start` to the end (`data.length - start`; the length of a slice). -/
def mgRem (c : MgCfg) (n : Nat) (base : Int) : Int :=
  if c.lang = .csSpan then n - base else w32 (n - base)

/-- The data from index `rel` after `start` on; an index before the array, or before the slice, is an exception. -/
def mgFrom (c : MgCfg) (d : Buf) (base rel : Int) : Option Buf :=
  if c.lang = .csSpan then (if rel < 0 then none else some (d.drop (base + rel).toNat))
  else if w32 (base + rel) < 0 then none
  else some (d.drop (w32 (base + rel)).toNat)

/-- The `while` loop for strings in `decodeSize` (java.go 2206-2211, csharp.go 2215-2230), over the bytes from
the current index on (no array has 2^31 bytes, so the index does not wrap). -/
def mgScanStr (rem : Int) (k : Nat) (off : Int) : Buf → (length : Nat) → ScanX
  | [], _ => .panic
  | b :: bs, length =>
    if b = 0#8 then .ok (w32 (off + w32 (length + 1)))
    else if rem ≤ w32 (off + k + (length + 1 : Nat)) then .ret (w32 (-(w32 (off + k + (length + 1 : Nat) + 1))))
    else mgScanStr rem k off bs (length + 1)

/-- Strings in `decodeSize` (java.go 2203-2213). -/
def mgDsStr (c : MgCfg) (k : Nat) (d : Buf) (base off : Int) : ScanX :=
  if mgRem c d.length base ≤ w32 (off + k) then .ret (w32 (-(w32 (off + k + 1))))
  else match mgFrom c d base (w32 (off + k)) with
    | none => .panic
    | some bs => mgScanStr (mgRem c d.length base) k off bs 0

/-- The `while` loop for length prefixes in `decodeSize` (java.go 2219-2226): a returned result, or the length
and the new offset.  Counts of shifts of an `int` are taken modulo 32; there is no limit on the number of bytes. -/
def mgScanLen (rem : Int) (k : Nat) : Buf → (length : BitVec 32) → (shift : Nat) → (off : Int) → Option (Int ⊕ (BitVec 32 × Int))
  | [], _, _, _ => none
  | b :: bs, length, shift, off =>
    if b &&& 0x80#8 = 0#8 then some (.inr (length ||| (b &&& 0x7F#8).setWidth 32 <<< (shift % 32), w32 (off + 1)))
    else if rem ≤ w32 (off + 1 + k) then some (.inl (w32 (-(w32 (off + 1 + k + 1)))))
    else mgScanLen rem k bs (length ||| (b &&& 0x7F#8).setWidth 32 <<< (shift % 32)) (shift + 7) (w32 (off + 1))

/-- Bytes in `decodeSize` (java.go 2214-2230, csharp.go 2254-2300). -/
def mgDsBytes (c : MgCfg) (k : Nat) (d : Buf) (base off : Int) : ScanX :=
  if mgRem c d.length base ≤ w32 (off + k) then .ret (w32 (-(w32 (off + k + 1))))
  else match mgFrom c d base (w32 (off + k)) with
    | none => .panic
    | some bs =>
      match mgScanLen (mgRem c d.length base) k bs 0#32 0 off with
      | none => .panic
      | some (.inl r) => .ret r
      | some (.inr (length, off)) =>
        if mgRem c d.length base < w32 (off + k + length.toInt) then .ret (w32 (-(w32 (off + k + length.toInt))))
        else .ok (w32 (off + length.toInt))

/-! ### Strings and bytes: decode -/

/-- decodeNormalFieldString (java.go 2397-2404, csharp.go 2635-2646): the scan for the NUL is not guarded. -/
def mgDecStr (c : MgCfg) (d : Buf) (pos : Nat) : Res (List Byte × Nat) :=
  match decStrLen d pos 0 with
  | .panic => .panic
  | .fail => .fail
  | .ok length => .ok (c.decStr ((d.drop pos).take length), length + 1)

/-- decodeNormalFieldBytes (java.go 2406-2415, csharp.go 2648-2663): a negative length and one past the end are
exceptions, as in Kotlin (`ktDecBytes`). -/
def mgDecBytes (d : Buf) (pos : Nat) : Res (List Byte × Nat) := ktDecBytes pos 0 d 0

/-! ### The target -/

/-- Java and C#.  In Java, loops over elements of fixed width do not add `start` (java.go 1674-1702,
2733-2755). -/
def mgTgt (c : MgCfg) : Tgt where
  SVal := Sc.MgVal
  Str := List Byte
  loop := fun len => decide (0 ≤ c.unroll) && decide (c.unroll < len)
  loopBase := fun b => if c.java then 0 else b
  checks := true
  wrap := w32
  ret := w32
  rem := mgRem c
  alloc := fun n => decide (n < 2 ^ 31)
  sub := fun n base rel => c.lang != .csSpan || (decide (0 ≤ rel) && decide (rel ≤ n - base))
  strSize := List.length
  lenSize := mgLenSize
  encSc := mgEncSc c
  encScLoop := mgEncScLoop c
  encConst := mgEncConst
  encStr := mgEncStr
  encBytes := mgEncBytes
  dsStr := mgDsStr c
  dsBytes := mgDsBytes c
  decSc := mgDecSc c
  decScLoop := mgDecScLoop c
  decConst := mgDecConst c
  decStr := mgDecStr c
  decBytes := mgDecBytes

end Bubbler
