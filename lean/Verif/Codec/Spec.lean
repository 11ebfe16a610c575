import Verif.Codec.Schema

/-
Specification vocabulary for the wire format, independent of the generated code: a message is a
sequence of bits, `none` standing for a padding bit whose value the message does not determine.
-/
namespace Bubbler

/-- Value bit carried by bit `j` of an `n`-bit field on the wire.  Little endian: bit `j`.
Big endian: the value is cut into bytes from the most significant end, full bytes first
(`n / 8` of them), the remaining `n % 8` low bits last; inside a byte the least significant bit
comes first. -/
def specBit (big : Bool) (n j : Nat) : Nat :=
  if big then (if j / 8 < n / 8 then n - 8 * (j / 8 + 1) + j % 8 else j % 8) else j

/-- Wire of an `n`-bit scalar. -/
def scWire {w : Nat} (n : Nat) (big : Bool) (x : BitVec w) : List (Option Bool) :=
  (List.range n).map (fun j => some (x.getLsbD (specBit big n j)))

/-- Wire of a byte sequence. -/
def byteWire : List Byte → List (Option Bool)
  | [] => []
  | b :: bs => scWire 8 false b ++ byteWire bs

/-- LEB128: base-128 digits, least significant first, high bit set on all but the last. -/
def varint (n : Nat) : List Byte :=
  if n < 128 then [BitVec.ofNat 8 n]
  else BitVec.ofNat 8 (n % 128 + 128) :: varint (n / 128)
termination_by n
decreasing_by omega

mutual
  /-- Wire of a value of a field type, given the bits `n` an element occupies and the byte order. -/
  def Ty.wire : (t : Ty) → (n : Nat) → (big : Bool) → t.Val → List (Option Bool)
    | .sc s, n, big, (x : BitVec s.width) => scWire n big x
    | .str, _, _, (s : List Byte) => byteWire (s ++ [0#8])
    | .bytes, _, _, (s : List Byte) => byteWire (varint s.length ++ s)
    | .struct fs, _, _, v => fs.wire v
  /-- Wire of a struct: the concatenation of the wires of its fields.  (A directly nested dynamic
  struct is followed by as many unused bits as its fixed part has: this is what the code does.) -/
  def Fields.wire : (fs : Fields) → fs.Val → List (Option Bool)
    | .nil, _ => []
    | .void n r, v => List.replicate n none ++ r.wire v
    | .const _ n big val r, v => scWire n big (BitVec.ofNat 64 val) ++ r.wire v
    | .one t bits big r, (v : t.Val × r.Val) =>
      t.wire (bits.getD 0) big v.1 ++
        (if t.dynamic then List.replicate (bits.getD 0) none else []) ++ r.wire v.2
    | .arr t len bits big r, (v : List t.Val × r.Val) =>
      (v.1.map (fun x => t.wire (bits.getD 0 / len) big x)).flatten ++ r.wire v.2
end

/-- `d'` is `d` with the determined bits of `ws` written from bit `pos` on, and nothing else changed. -/
def Overlay (d d' : Buf) (pos : Nat) (ws : List (Option Bool)) : Prop :=
  d'.length = d.length ∧
  ∀ i, bitAt d' i = if pos ≤ i then ((ws.getD (i - pos) none).getD (bitAt d i)) else bitAt d i

/-- `d` contains the determined bits of `ws` from bit `pos` on (and is long enough). -/
def Agrees (d : Buf) (pos : Nat) (ws : List (Option Bool)) : Prop :=
  pos + ws.length ≤ 8 * d.length ∧
  ∀ j b, ws[j]? = some (some b) → bitAt d (pos + j) = b

/-- Scalar values representable in `n` bits. -/
def Sc.InRange (s : Sc) (n : Nat) (x : BitVec s.width) : Prop :=
  if s.signed then -(2 : Int) ^ (n - 1) ≤ x.toInt ∧ x.toInt < (2 : Int) ^ (n - 1)
  else x.toNat < 2 ^ n

mutual
  /-- Values that fit their declaration: integers in the range of their bit width, strings without
  NUL. -/
  def Ty.InRange : (t : Ty) → Nat → t.Val → Prop
    | .sc s, n, x => s.InRange n x
    | .str, _, (s : List Byte) => 0#8 ∉ s
    | .bytes, _, _ => True
    | .struct fs, _, v => fs.InRange v
  def Fields.InRange : (fs : Fields) → fs.Val → Prop
    | .nil, _ => True
    | .void _ r, v => r.InRange v
    | .const _ _ _ _ r, v => r.InRange v
    | .one t bits _ r, (v : t.Val × r.Val) => t.InRange (bits.getD 0) v.1 ∧ r.InRange v.2
    | .arr t len bits _ r, (v : List t.Val × r.Val) =>
      (∀ x ∈ v.1, t.InRange (bits.getD 0 / len) x) ∧ r.InRange v.2
end

mutual
  /-- Values that are legal Go values of the generated type: arrays have their length, byte slices
  at most maxInt bytes, and a bool is 0 or 1 (`strict`), or, not `strict`, a bool that is not an
  element of a looped array may hold any byte (Decode stores raw bytes in such bools). -/
  def Ty.Valid (c : Cfg) (strict : Bool) : (t : Ty) → (looped : Bool) → t.Val → Prop
    | .sc s, looped, (x : BitVec s.width) => s.isBool → (strict || looped) → x.toNat ≤ 1
    | .str, _, _ => True
    | .bytes, _, (s : List Byte) => s.length ≤ maxInt
    | .struct fs, _, v => fs.Valid c strict v
  def Fields.Valid (c : Cfg) (strict : Bool) : (fs : Fields) → fs.Val → Prop
    | .nil, _ => True
    | .void _ r, v => r.Valid c strict v
    | .const _ _ _ _ r, v => r.Valid c strict v
    | .one t _ _ r, (v : t.Val × r.Val) => t.Valid c strict false v.1 ∧ r.Valid c strict v.2
    | .arr t len _ _ r, (v : List t.Val × r.Val) =>
      v.1.length = len ∧ (∀ x ∈ v.1, t.Valid c strict (c.useLoop len) x) ∧ r.Valid c strict v.2
end

end Bubbler
