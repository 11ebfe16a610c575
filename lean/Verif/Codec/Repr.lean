import Verif.Codec.Spec

/-
Which bit strings represent a value: the relation the decoder should decide.  It is the wire form of
`Spec.lean`, except that a length prefix may be any LEB128 form of at most 9 bytes (leading zero
groups allowed) and that, in arrays decoded by a loop, any non-zero pattern means `true`.
-/
namespace Bubbler

/-- Value of an LEB128 byte string; `none` if it is not one. -/
def leb : List Byte → Option Nat
  | [] => none
  | b :: bs =>
    if b.toNat < 128 then (if bs = [] then some b.toNat else none)
    else (leb bs).map (fun m => (b.toNat - 128) + 128 * m)

/-- Elementwise relation between two lists of the same length. -/
inductive All2 {α β : Type} (R : α → β → Prop) : List α → List β → Prop
  | nil : All2 R [] []
  | cons {a b as bs} : R a b → All2 R as bs → All2 R (a :: as) (b :: bs)

mutual
  /-- `ws` represents `v`, a value of an element of type `t` declared with `n` bits. -/
  def Ty.Repr (c : Cfg) : (t : Ty) → (looped : Bool) → (n : Nat) → (big : Bool) → t.Val →
      List (Option Bool) → Prop
    | .sc s, looped, n, big, (x : BitVec s.width), ws =>
      if s.isBool && looped then ∃ y : BitVec n, ws = scWire n big y ∧ x = (if y = 0#n then 0#_ else 1#_)
      else s.InRange n x ∧ ws = scWire n big x
    | .str, _, _, _, (s : List Byte), ws => 0#8 ∉ s ∧ ws = byteWire (s ++ [0#8])
    | .bytes, _, _, _, (s : List Byte), ws =>
      ∃ bs, leb bs = some s.length ∧ bs.length ≤ 9 ∧ ws = byteWire (bs ++ s)
    | .struct fs, _, _, _, v, ws => fs.Repr c v ws
  def Fields.Repr (c : Cfg) : (fs : Fields) → fs.Val → List (Option Bool) → Prop
    | .nil, _, ws => ws = []
    | .void n r, v, ws => ∃ ws', r.Repr c v ws' ∧ ws = List.replicate n none ++ ws'
    | .const _ n big val r, v, ws => ∃ ws', r.Repr c v ws' ∧ ws = scWire n big (BitVec.ofNat 64 val) ++ ws'
    | .one t bits big r, (v : t.Val × r.Val), ws =>
      ∃ w1 w2, t.Repr c false (bits.getD 0) big v.1 w1 ∧ r.Repr c v.2 w2 ∧
        ws = w1 ++ (if t.dynamic then List.replicate (bits.getD 0) none else []) ++ w2
    | .arr t len bits big r, (v : List t.Val × r.Val), ws =>
      ∃ wss w2, v.1.length = len ∧
        All2 (fun x w => t.Repr c (c.useLoop len) (bits.getD 0 / len) big x w) v.1 wss ∧
        r.Repr c v.2 w2 ∧ ws = wss.flatten ++ w2
end

end Bubbler
