import Verif.Codec.MgSound
import Verif.Props.CodecNeg

/-
C53: the Java target against the Go target.
-/
set_option linter.unusedSimpArgs false
namespace Bubbler
open Sample

/-- The options Java's code depends on, the effect of `new String(bytes, UTF_8)` and the members of the enums. -/
structure JavaCfg where
  unroll : Int
  signExt : SignExt
  decStr : List Byte → List Byte
  member : List Fields → BitVec 32 → Bool

def JavaCfg.mg (c : JavaCfg) : MgCfg := ⟨.java, c.unroll, c.signExt, c.decStr, c.member⟩
abbrev JavaCfg.tgt (c : JavaCfg) : Tgt := mgTgt c.mg

/-- The Go value with the meaning of an object of the generated class: the same bits; enums by their number. -/
abbrev Fields.ofJava (c : JavaCfg) (fs : Fields) (v : fs.TVal c.tgt) : fs.Val := fs.ofT (mgSpec c.mg) [] v
/-- The object for a Go value: enum numbers become members (null if there is none), booleans are 0 or 1. -/
abbrev Fields.toJava (c : JavaCfg) (fs : Fields) (v : fs.Val) : fs.TVal c.tgt := fs.toT (mgDecSpec c.mg) [] v

/-- C53, encoding: for objects with legal attributes (arrays of the declared length, no null enum),
`encodeSize()` is Go's EncodeSize, `encode(data, start)` returns it and leaves in a zeroed tail of `data` from
`start` on what Go's EncodeTo leaves there, and `encode()` returns the bytes Go's Encode returns.  `tOk`: bit
positions the emitted statements handle (`cOk`), enum fields of at most 32 bits, and no looped array of elements of
fixed width anywhere; with `top`, which is for messages at position 0, such arrays are allowed at top level in
front of strings, bytes and dynamic structs. -/
theorem C53_encode_agrees (cg : Cfg) (c : JavaCfg) {fs : Fields} (hacc : fs.accepted = true) {top : Bool}
    (hk : fs.tOk (mgSpec c.mg) top 0 = true) (v : fs.TVal c.tgt) (hv : fs.TLegal (mgSpec c.mg) [] v) :
    fs.tEncodeSize c.tgt v = fs.encodeSize (fs.ofJava c v) ∧
    (∀ (d : Buf) (base : Nat), (top = true → base = 0) → base + fs.tEncodeSize c.tgt v ≤ d.length → d.length < 2 ^ 30 →
      ZeroFrom d (8 * base) →
      fs.tEncodeTo c.tgt v d base =
        (fs.encodeTo cg (fs.ofJava c v) (d.drop base)).map (fun r => (d.take base ++ r.1, r.2))) ∧
    (fs.tEncodeSize c.tgt v < 2 ^ 30 → fs.tEncode c.tgt v = fs.encode cg (fs.ofJava c v)) := by
  obtain ⟨h1, h2, h3⟩ := Fields.t_encode_agrees (mgSpec_ok c.mg) cg hacc hk v hv
  exact ⟨h1, h2, fun h => h3 (decide_eq_true (Nat.lt_trans h (by decide))) h⟩

/-- C53, decoding: whatever Go's Decode accepts, `decode` accepts with the same value and count, and `decodeSize`
gives the count, if the values are of those Java reads correctly (`DFits`, `Sc.mgFit`: enum fields of at most 32
bits; floats, if not in a loop, with all their bits or without the top bit of the variable). -/
theorem C53_decode_agrees (cg : Cfg) (c : JavaCfg) {fs : Fields} (hacc : fs.accepted = true) (hn : fs.noDirectDyn = true)
    {top : Bool} (hk : fs.tDecOk (mgDecSpec c.mg) top = true) (d : Buf) (hd : d.length < 2 ^ 30) (base : Nat)
    (ht : top = true → base = 0) (hb : base ≤ d.length)
    (hw : fs.NoWrap (d.drop base)) {v : fs.Val} {n : Nat} (hg : fs.decode cg (d.drop base) = .ok (v, n))
    (hf : fs.DFits (mgDecSpec c.mg) [] v) :
    fs.tDecode c.tgt d base = .ok (fs.toJava c v, n) ∧ fs.tDecodeSize c.tgt d base = some (n : Int) :=
  Fields.t_decode_go (mgDecSpec_ok c.mg) (mgDecSpec_lenAny c.mg) cg (fun e => nomatch e) hacc hn hk d hd
    (by show 2 ^ 30 ≤ 2 ^ 62; decide) base ht hb hw hg hf

/-- C53, from Go to Java. -/
theorem C53_from_go (cg : Cfg) (c : JavaCfg) {fs : Fields} (hacc : fs.accepted = true) (hn : fs.noDirectDyn = true)
    {top : Bool} (hk : fs.tDecOk (mgDecSpec c.mg) top = true) (v : fs.Val) (hv : fs.Legal v) (hr : fs.InRange v)
    (hf : fs.DFits (mgDecSpec c.mg) [] v) (pre rest : Buf) (ht : top = true → pre = [])
    (hsz : pre.length + fs.encodeSize v + rest.length < 2 ^ 30) :
    ∃ d, fs.encode cg v = some d ∧ d.length = fs.encodeSize v ∧
      fs.tDecode c.tgt (pre ++ d ++ rest) pre.length = .ok (fs.toJava c v, d.length) ∧
      fs.tDecodeSize c.tgt (pre ++ d ++ rest) pre.length = some (d.length : Int) :=
  Fields.t_from_go (mgDecSpec_ok c.mg) (mgDecSpec_len c.mg) cg (fun e => nomatch e) hacc hn hk v (Fields.Legal.valid cg false fs v hv) hr hf
    pre rest ht hsz

/-- C53, round trip and exchange: an object whose attributes fit their declaration (`TFits`, `Sc.mgGood`: numbers in
range, enum members below 2^31, strings that survive UTF-8 and have no NUL) is encoded and read back unchanged,
wherever in an array it stands, and Go reads the same value from the same bytes. -/
theorem C53_roundtrip (cg : Cfg) (c : JavaCfg) {fs : Fields} (hacc : fs.accepted = true) (hn : fs.noDirectDyn = true)
    {top : Bool} (hk : fs.tOk (mgSpec c.mg) top 0 = true) (hk2 : fs.tDecOk (mgDecSpec c.mg) top = true)
    (v : fs.TVal c.tgt) (hv : fs.TFits (mgGood c.mg) [] v) (pre rest : Buf) (ht : top = true → pre = [])
    (hsz : pre.length + fs.tEncodeSize c.tgt v + rest.length < 2 ^ 30) :
    ∃ d, fs.tEncode c.tgt v = some d ∧ d.length = fs.tEncodeSize c.tgt v ∧
      fs.tDecode c.tgt (pre ++ d ++ rest) pre.length = .ok (v, d.length) ∧
      fs.tDecodeSize c.tgt (pre ++ d ++ rest) pre.length = some (d.length : Int) ∧
      fs.decode cg (d ++ rest) = .ok (fs.ofJava c v, d.length) :=
  Fields.t_roundtrip (mgGood_ok c.mg) (mgSpec_ok c.mg) (mgDecSpec_ok c.mg) (mgDecSpec_len c.mg) (Nat.le_refl _)
    (by show 2 ^ 30 ≤ 2 ^ 62; decide) cg (fun e => nomatch e) hacc hn hk hk2 v hv
    (decide_eq_true (Nat.lt_trans (Nat.lt_of_le_of_lt (Nat.le_trans (Nat.le_add_left _ _) (Nat.le_add_right _ _)) hsz) (by decide)))
    pre rest ht hsz

/-- C53, what Java accepts: `decode` stays within the data and `decodeSize` gives its count; and for definitions
without `bytes` (`C53_prefix_counterexample`) Go's Decode accepts the data with the same count, and the object has
Go's value if that is one Java reads correctly. -/
theorem C53_decode_sound (cg : Cfg) (c : JavaCfg) {fs : Fields} (hacc : fs.accepted = true) (hn : fs.noDirectDyn = true)
    {top : Bool} (hk : fs.tDecOk (mgDecSpec c.mg) top = true) (hr : (Ty.struct fs).ktReach < 2 ^ 30)
    (d : Buf) (hd : d.length < 2 ^ 30) (base : Nat) (ht : top = true → base = 0) (hb : base ≤ d.length)
    {tv : fs.TVal c.tgt} {n : Nat} (h : fs.tDecode c.tgt d base = .ok (tv, n)) :
    (base + n ≤ d.length ∧ fs.tDecodeSize c.tgt d base = some (n : Int)) ∧
    (fs.noBytes = true → ∃ v : fs.Val, fs.decode cg (d.drop base) = .ok (v, n) ∧
      (fs.DFits (mgDecSpec c.mg) [] v → tv = fs.toJava c v)) := by
  refine ⟨Fields.t_decode_bounds (mgDecSpec_ok c.mg) (mgDecSpec_sound c.mg) cg hacc hn hk rfl hr d hd base ht hb h, fun hnb => ?_⟩
  obtain ⟨v, h1, _, _, h4⟩ := Fields.t_decode_sound (mgDecSpec_ok c.mg) (mgDecSpec_sound c.mg) cg (fun e => nomatch e) (Or.inr hnb)
    hacc hn hk rfl hr d hd base ht hb h
  exact ⟨v, h1, h4⟩

/-! ### The hypotheses are met, and cannot be dropped -/

/-- Arrays of more than two elements are looped; the enum is `{0, 17, 31}`; strings are taken as they are. -/
def javaCfg : JavaCfg := ⟨2, .shift, fun s => s, fun _ x => x == 0#32 || x == 17#32 || x == 31#32⟩
/-- The same, with arrays of up to four elements unrolled. -/
def javaCfg4 : JavaCfg := { javaCfg with unroll := 4 }

def javaPoint (c : JavaCfg) : point.TVal c.tgt := (5#8, ((-1234 : Int) : BitVec 16), ())
def javaEntry (c : JavaCfg) (a b : List Byte) : entry.TVal c.tgt := (a, b, ())
def javaMsg (c : JavaCfg) : msg.TVal c.tgt :=
  ((1#8 : BitVec 8), some (17#32 : BitVec 32), javaPoint c, [(0xABC#16 : BitVec 16), 1#16, 0xFFF#16],
    ([1#8, 0#8, 3#8] : List Byte), ([0x68#8, 0x69#8] : List Byte),
    [javaEntry c [0x61#8] [9#8], javaEntry c [] []], ((-70000 : Int) : BitVec 32), ())

theorem javaMsg_fits (c : JavaCfg) (hd : c.decStr = fun s => s) (hm : c.member = javaCfg.member) : msg.TFits (mgGood c.mg) [] (javaMsg c) := by
  refine ⟨?_, ?_, ⟨?_, ?_, trivial⟩, rfl, ?_, (by show 3 < 2 ^ 31; decide), ⟨congrFun hd _, ?_⟩, rfl, ?_, ?_, trivial⟩
  · exact ⟨fun _ => by show (1#8).toNat ≤ 1; decide, by show (1#8).toNat < 2 ^ 1; decide, fun e => by rcases e with e | e <;> cases e⟩
  · exact ⟨by decide, 17#32, rfl, by decide, by decide, fun _ => by rw [show c.mg.member = javaCfg.member from hm]; rfl⟩
  · exact ⟨fun e => (nomatch e), by show (5#8).toNat < 2 ^ 3; decide, fun e => by rcases e with e | e <;> cases e⟩
  · have key : (Sc.prim .i16).InRange 13 (((-1234 : Int) : BitVec 16)) := by
      show -(2 : Int) ^ 12 ≤ (((-1234 : Int) : BitVec 16)).toInt ∧ (((-1234 : Int) : BitVec 16)).toInt < (2 : Int) ^ 12
      decide +kernel
    exact mgGood_of key nofun nofun nofun
  · intro x hx
    have key : ∀ y ∈ [(0xABC#16 : BitVec 16), 1#16, 0xFFF#16], y.toNat < 2 ^ 12 := by simp
    have key2 : (Sc.prim .u16).InRange 12 x := key x hx
    exact mgGood_of key2 nofun nofun nofun
  · show 0#8 ∉ [0x68#8, 0x69#8]
    decide
  · have e1 : ∀ (a b : List Byte), 0#8 ∉ a → b.length < 2 ^ 31 → ∀ ctx, entry.TFits (mgGood c.mg) ctx (javaEntry c a b) :=
      fun a b ha hb ctx => ⟨⟨congrFun hd a, ha⟩, hb, trivial⟩
    intro x hx
    rcases List.mem_cons.mp hx with rfl | hx
    · exact e1 [0x61#8] [9#8] (by decide) (by decide) _
    · rcases List.mem_cons.mp hx with rfl | hx
      · exact e1 [] [] (by decide) (by decide) _
      · cases hx
  · have key : (Sc.prim .i32).InRange 24 (((-70000 : Int) : BitVec 32)) := by
      show -(2 : Int) ^ 23 ≤ (((-70000 : Int) : BitVec 32)).toInt ∧ (((-70000 : Int) : BitVec 32)).toInt < (2 : Int) ^ 23
      decide +kernel
    exact mgGood_of key nofun nofun nofun

/-- `C53_roundtrip` on a message with every kind of field, at position 0 with a looped array … -/
example : ∃ d, msg.tEncode javaCfg.tgt (javaMsg javaCfg) = some d ∧ d.length = msg.tEncodeSize javaCfg.tgt (javaMsg javaCfg) ∧
    msg.tDecode javaCfg.tgt ([] ++ d ++ [2#8, 3#8]) 0 = .ok (javaMsg javaCfg, d.length) ∧
    msg.tDecodeSize javaCfg.tgt ([] ++ d ++ [2#8, 3#8]) 0 = some (d.length : Int) ∧
    msg.decode cfg' (d ++ [2#8, 3#8]) = .ok (msg.ofJava javaCfg (javaMsg javaCfg), d.length) :=
  C53_roundtrip (top := true) cfg' javaCfg msg_accepted msg_noDirectDyn (by decide +kernel) (by decide +kernel) (javaMsg javaCfg)
    (javaMsg_fits _ rfl rfl) [] [2#8, 3#8] (fun _ => rfl)
    (by rw [show msg.tEncodeSize javaCfg.tgt (javaMsg javaCfg) = 25 by decide +kernel]; decide)

/-- … and anywhere if it is unrolled. -/
example : ∃ d, msg.tEncode javaCfg4.tgt (javaMsg javaCfg4) = some d ∧ d.length = msg.tEncodeSize javaCfg4.tgt (javaMsg javaCfg4) ∧
    msg.tDecode javaCfg4.tgt ([1#8] ++ d ++ [2#8, 3#8]) 1 = .ok (javaMsg javaCfg4, d.length) ∧
    msg.tDecodeSize javaCfg4.tgt ([1#8] ++ d ++ [2#8, 3#8]) 1 = some (d.length : Int) ∧
    msg.decode cfg' (d ++ [2#8, 3#8]) = .ok (msg.ofJava javaCfg4 (javaMsg javaCfg4), d.length) :=
  C53_roundtrip (top := false) cfg' javaCfg4 msg_accepted msg_noDirectDyn (by decide +kernel) (by decide +kernel) (javaMsg javaCfg4)
    (javaMsg_fits _ rfl rfl) [1#8] [2#8, 3#8] nofun
    (by rw [show msg.tEncodeSize javaCfg4.tgt (javaMsg javaCfg4) = 25 by decide +kernel]; decide)

example : ∀ cg : Cfg, msg.tEncode javaCfg.tgt (javaMsg javaCfg) = msg.encode cg (msg.ofJava javaCfg (javaMsg javaCfg)) := fun cg =>
  (C53_encode_agrees (top := true) cg javaCfg msg_accepted (by decide +kernel) (javaMsg javaCfg)
    (Fields.TFits.facts (mgGood_ok javaCfg.mg) msg [] 0 (javaMsg javaCfg) (Fields.accepted_facts msg_accepted).1 (javaMsg_fits _ rfl rfl)).1).2.2
    (by rw [show msg.tEncodeSize javaCfg.tgt (javaMsg javaCfg) = 25 by decide +kernel]; decide)

theorem msg_javaDFits : msg.DFits (mgDecSpec javaCfg.mg) [] msgVal := by
  have i1 : ∀ (p : Prim) (lp : Bool) (n : Nat) (x : BitVec p.width), p ≠ .f32 → p ≠ .f64 → (Sc.prim p).mgFit javaCfg.mg lp n x :=
    fun p lp n x h1 h2 => ⟨nofun, fun e => (e.elim (fun e => absurd (Sc.prim.inj e) h1) (fun e => absurd (Sc.prim.inj e) h2))⟩
  refine ⟨i1 .bool _ _ _ nofun nofun, ⟨fun _ _ => by decide, fun e => by rcases e with e | e <;> cases e⟩,
    ⟨i1 .u8 _ _ _ nofun nofun, i1 .i16 _ _ _ nofun nofun, trivial⟩, fun x _ => i1 .u16 _ _ x nofun nofun, trivial, trivial,
    fun x _ => ⟨trivial, trivial, trivial⟩, i1 .i32 _ _ _ nofun nofun, trivial⟩

/-- `C53_from_go` on the sample message. -/
example : ∃ d, msg.encode cfg msgVal = some d ∧ d.length = msg.encodeSize msgVal ∧
    msg.tDecode javaCfg.tgt ([] ++ d ++ [2#8]) 0 = .ok (msg.toJava javaCfg msgVal, d.length) ∧
    msg.tDecodeSize javaCfg.tgt ([] ++ d ++ [2#8]) 0 = some (d.length : Int) :=
  C53_from_go (top := true) cfg javaCfg msg_accepted msg_noDirectDyn (by decide +kernel) msgVal msg_legal msg_inRange msg_javaDFits [] [2#8]
    (fun _ => rfl) (by rw [msg_size_eq]; decide)

/-- `struct S { string s; uint16 n[#16] big; bytes b; }` -/
def javaText : Fields := .one .str none false <| .one (.sc (.prim .u16)) (some 16) true <| .one .bytes none false .nil
instance : DecidableEq javaText.Val := inferInstanceAs (DecidableEq (List Byte × BitVec 16 × List Byte × Unit))

/-- `C53_decode_agrees` on data that Go accepts, behind other data, with a prefix longer than necessary. -/
example : javaText.tDecode javaCfg.tgt [7#8, 0x41#8, 0#8, 1#8, 2#8, 0x81#8, 0x80#8, 0#8, 9#8, 5#8] 1 =
    .ok ((([0x41#8] : List Byte), (258#16 : BitVec 16), ([9#8] : List Byte), ()), 8) := by
  have hg : javaText.decode cfg ([7#8, 0x41#8, 0#8, 1#8, 2#8, 0x81#8, 0x80#8, 0#8, 9#8, 5#8].drop 1) =
    .ok ((([0x41#8] : List Byte), (258#16 : BitVec 16), ([9#8] : List Byte), ()), 8) := by decide +kernel
  have hw : javaText.NoWrap ([7#8, 0x41#8, 0#8, 1#8, 2#8, 0x81#8, 0x80#8, 0#8, 9#8, 5#8].drop 1) :=
    Fields.noWrap_of_noDynArr (by decide +kernel) (by decide +kernel) (by decide)
  exact (C53_decode_agrees (top := false) cfg javaCfg (by decide +kernel) (by decide +kernel) (by decide +kernel) _ (by decide) 1 nofun (by decide) hw hg
    ⟨trivial, ⟨nofun, fun e => by rcases e with e | e <;> cases e⟩, trivial, trivial⟩).1

/-- `struct S { uint16 K = 0xABCD; int8 a[#4]; void[#4]; string s; int32 L = -2; Point[2] p; }` -/
def javaPlain : Fields :=
  .const .u16 16 false 0xABCD <| .one (.sc (.prim .i8)) (some 4) false <| .void 4 <| .one .str none false <|
  .const .i32 32 false 0xFFFFFFFE <| .arr (.struct point) 2 (some 32) false .nil

/-- `C53_decode_sound`: two constants, a string and an array of structs. -/
example (d : Buf) (hd : d.length < 2 ^ 30) (base : Nat) (hb : base ≤ d.length) (tv : javaPlain.TVal javaCfg.tgt) (n : Nat)
    (h : javaPlain.tDecode javaCfg.tgt d base = .ok (tv, n)) :
    ∃ v : javaPlain.Val, javaPlain.decode cfg (d.drop base) = .ok (v, n) ∧ tv = javaPlain.toJava javaCfg v := by
  have i1 : ∀ (p : Prim) (lp : Bool) (n : Nat) (x : BitVec p.width), p ≠ .f32 → p ≠ .f64 → (Sc.prim p).mgFit javaCfg.mg lp n x :=
    fun p lp n x h1 h2 => ⟨nofun, fun e => (e.elim (fun e => absurd (Sc.prim.inj e) h1) (fun e => absurd (Sc.prim.inj e) h2))⟩
  obtain ⟨v, h1, h4⟩ := (C53_decode_sound (top := false) cfg javaCfg (by decide +kernel) (by decide +kernel) (by decide +kernel) (by decide +kernel)
    d hd base nofun hb h).2 (by decide +kernel)
  exact ⟨v, h1, h4 ⟨i1 .i8 _ _ _ nofun nofun, trivial,
    fun x _ => ⟨i1 .u8 _ _ _ nofun nofun, i1 .i16 _ _ _ nofun nofun, trivial⟩, trivial⟩⟩

example : (match javaPlain.tDecode javaCfg.tgt [7#8, 0xCD#8, 0xAB#8, 1#8, 0x41#8, 0#8, 0xFE#8, 0xFF#8, 0xFF#8, 0xFF#8, 5#8, 0#8, 6#8, 0#8] 1 with
    | .ok r => r.2 == 13 | _ => false) = true := by decide +kernel

/-- `struct S { uint8[3] a; }`, looped. -/
def javaLoop : Fields := .arr (.sc (.prim .u8)) 3 (some 24) false .nil
instance : DecidableEq (javaLoop.TVal javaCfg.tgt) := inferInstanceAs (DecidableEq (List (BitVec 8) × Unit))
instance : DecidableEq javaLoop.Val := inferInstanceAs (DecidableEq (List (BitVec 8) × Unit))

/-- A looped array of elements of fixed width is written and read at position 0 whatever `start` is: `encode` at 1
overwrites the byte in front, and `decode` at 1 does not see the data of the message. -/
theorem C53_start_counterexample :
    javaLoop.accepted = true ∧
    javaLoop.tEncodeTo javaCfg.tgt ([1#8, 2#8, 3#8], ()) [0#8, 0#8, 0#8, 0#8] 1 = some ([1#8, 2#8, 3#8, 0#8], 3) ∧
    javaLoop.tDecode javaCfg.tgt [9#8, 1#8, 2#8, 3#8] 1 = .ok (([9#8, 1#8, 2#8], ()), 3) ∧
    javaLoop.decode cfg [1#8, 2#8, 3#8] = .ok (([1#8, 2#8, 3#8], ()), 3) := by
  refine ⟨by decide +kernel, by decide +kernel, by decide +kernel, by decide +kernel⟩

/-- `struct S { uint8 x; T t; }` with `struct T[3] { uint8[3] a; }` -/
def javaNested : Fields := .one (.sc (.prim .u8)) (some 8) false <| .one (.struct javaLoop) (some 24) false .nil
instance : DecidableEq (javaNested.TVal javaCfg.tgt) := inferInstanceAs (DecidableEq (BitVec 8 × (List (BitVec 8) × Unit) × Unit))
instance : DecidableEq javaNested.Val := inferInstanceAs (DecidableEq (BitVec 8 × (List (BitVec 8) × Unit) × Unit))

/-- The same in a nested struct, which is never at position 0 behind another field: the message is garbled and not
what Go writes. -/
theorem C53_nested_counterexample :
    javaNested.accepted = true ∧
    javaNested.tEncode javaCfg.tgt ((7#8 : BitVec 8), (([1#8, 2#8, 3#8] : List (BitVec 8)), ()), ()) = some [1#8, 2#8, 3#8, 0#8] ∧
    javaNested.encode cfg ((7#8 : BitVec 8), (([1#8, 2#8, 3#8] : List (BitVec 8)), ()), ()) = some [7#8, 1#8, 2#8, 3#8] := by
  refine ⟨by decide +kernel, by decide +kernel, by decide +kernel⟩

/-- `struct S { bytes b; }` -/
def javaBytes : Fields := .one .bytes none false .nil
instance : DecidableEq (javaBytes.TVal javaCfg.tgt) := inferInstanceAs (DecidableEq (List Byte × Unit))

/-- A length prefix of 2^32 + 1 is read as 1 and accepted; Go asks for more data.  One of 2^32 - 1 is the
length -1, which passes `decodeSize` and throws in `decode`. -/
theorem C53_prefix_counterexample :
    javaBytes.accepted = true ∧
    javaBytes.tDecode javaCfg.tgt [0x81#8, 0x80#8, 0x80#8, 0x80#8, 0x10#8, 9#8] 0 = .ok ((([9#8] : List Byte), ()), 6) ∧
    javaBytes.decode cfg [0x81#8, 0x80#8, 0x80#8, 0x80#8, 0x10#8, 9#8] = .fail ∧
    javaBytes.tDecode javaCfg.tgt [0xFF#8, 0xFF#8, 0xFF#8, 0xFF#8, 0x0F#8] 0 = .panic := by
  refine ⟨by decide +kernel, by decide +kernel, ?_, ?_⟩
  · rw [← Res.isFail_iff]; decide +kernel
  · rw [← Res.isPanic_iff]; decide +kernel

/-- `struct S { float32 x[#16]; }` -/
def javaFloat : Fields := .one (.sc (.prim .f32)) (some 16) false .nil
instance : DecidableEq (javaFloat.TVal javaCfg.tgt) := inferInstanceAs (DecidableEq (BitVec 32 × Unit))
instance : DecidableEq javaFloat.Val := inferInstanceAs (DecidableEq (BitVec 32 × Unit))

/-- A float of 16 bits is read into a `short`, whose sign then fills the upper bits: the value differs from Go's. -/
theorem C53_float_counterexample :
    javaFloat.accepted = true ∧
    javaFloat.tEncode javaCfg.tgt ((0x8001#32 : BitVec 32), ()) = some [0x01#8, 0x80#8] ∧
    javaFloat.tDecode javaCfg.tgt [0x01#8, 0x80#8] 0 = .ok (((0xFFFF8001#32 : BitVec 32), ()), 2) ∧
    javaFloat.decode cfg [0x01#8, 0x80#8] = .ok (((0x8001#32 : BitVec 32), ()), 2) := by
  refine ⟨by decide +kernel, by decide +kernel, by decide +kernel, by decide +kernel⟩

end Bubbler
