import Verif.Codec.MgSound
import Verif.Props.CodecNeg

/-
C54: the C# target against the Go target.
-/
set_option linter.unusedSimpArgs false
namespace Bubbler
open Sample

/-- The options C#'s code depends on and the effect of `Encoding.UTF8.GetString`. -/
structure CsCfg where
  memcpy : Bool
  unroll : Int
  signExt : SignExt
  decStr : List Byte → List Byte

def CsCfg.mg (c : CsCfg) : MgCfg := ⟨if c.memcpy then .csArray else .csSpan, c.unroll, c.signExt, c.decStr, fun _ _ => true⟩
abbrev CsCfg.tgt (c : CsCfg) : Tgt := mgTgt c.mg

/-- The Go value with the meaning of an object of the generated class: the same bits; enums by their number. -/
abbrev Fields.ofCs (c : CsCfg) (fs : Fields) (v : fs.TVal c.tgt) : fs.Val := fs.ofT (mgSpec c.mg) [] v
/-- The object for a Go value: booleans are 0 or 1. -/
abbrev Fields.toCs (c : CsCfg) (fs : Fields) (v : fs.Val) : fs.TVal c.tgt := fs.toT (mgDecSpec c.mg) [] v

/-- C54, encoding: for objects with arrays of the declared length, `EncodeSize()` is Go's EncodeSize,
`Encode(data, start)` returns it and leaves in a zeroed tail of `data` from `start` on what Go's EncodeTo leaves
there, and `Encode()` returns the bytes Go's Encode returns.  `tOk`: bit positions the emitted statements handle
(`cOk`). -/
theorem C54_encode_agrees (cg : Cfg) (c : CsCfg) {fs : Fields} (hacc : fs.accepted = true)
    (hk : fs.tOk (mgSpec c.mg) false 0 = true) (v : fs.TVal c.tgt) (hv : fs.TLegal (mgSpec c.mg) [] v) :
    fs.tEncodeSize c.tgt v = fs.encodeSize (fs.ofCs c v) ∧
    (∀ (d : Buf) (base : Nat), base + fs.tEncodeSize c.tgt v ≤ d.length → d.length < 2 ^ 30 →
      ZeroFrom d (8 * base) →
      fs.tEncodeTo c.tgt v d base =
        (fs.encodeTo cg (fs.ofCs c v) (d.drop base)).map (fun r => (d.take base ++ r.1, r.2))) ∧
    (fs.tEncodeSize c.tgt v < 2 ^ 30 → fs.tEncode c.tgt v = fs.encode cg (fs.ofCs c v)) := by
  obtain ⟨h1, h2, h3⟩ := Fields.t_encode_agrees (mgSpec_ok c.mg) cg hacc hk v hv
  exact ⟨h1, fun d base => h2 d base nofun, fun h => h3 (decide_eq_true (Nat.lt_trans h (by decide))) h⟩

/-- C54, decoding: whatever Go's Decode accepts, `Decode` accepts with the same value and count, and `DecodeSize`
gives the count, if the values are of those C# reads correctly (`DFits`, `Sc.mgFit`: enum fields of at most 32
bits; floats, if not in a loop, of more bits than the next smaller integer type has). -/
theorem C54_decode_agrees (cg : Cfg) (c : CsCfg) {fs : Fields} (hacc : fs.accepted = true) (hn : fs.noDirectDyn = true)
    (hk : fs.tDecOk (mgDecSpec c.mg) false = true) (d : Buf) (hd : d.length < 2 ^ 30) (base : Nat) (hb : base ≤ d.length)
    (hw : fs.NoWrap (d.drop base)) {v : fs.Val} {n : Nat} (hg : fs.decode cg (d.drop base) = .ok (v, n))
    (hf : fs.DFits (mgDecSpec c.mg) [] v) :
    fs.tDecode c.tgt d base = .ok (fs.toCs c v, n) ∧ fs.tDecodeSize c.tgt d base = some (n : Int) :=
  Fields.t_decode_go (mgDecSpec_ok c.mg) (mgDecSpec_lenAny c.mg) cg (fun e => nomatch e) hacc hn hk d hd
    (by show 2 ^ 30 ≤ 2 ^ 62; decide) base nofun hb hw hg hf

/-- C54, from Go to C#. -/
theorem C54_from_go (cg : Cfg) (c : CsCfg) {fs : Fields} (hacc : fs.accepted = true) (hn : fs.noDirectDyn = true)
    (hk : fs.tDecOk (mgDecSpec c.mg) false = true) (v : fs.Val) (hv : fs.Legal v) (hr : fs.InRange v)
    (hf : fs.DFits (mgDecSpec c.mg) [] v) (pre rest : Buf)
    (hsz : pre.length + fs.encodeSize v + rest.length < 2 ^ 30) :
    ∃ d, fs.encode cg v = some d ∧ d.length = fs.encodeSize v ∧
      fs.tDecode c.tgt (pre ++ d ++ rest) pre.length = .ok (fs.toCs c v, d.length) ∧
      fs.tDecodeSize c.tgt (pre ++ d ++ rest) pre.length = some (d.length : Int) :=
  Fields.t_from_go (mgDecSpec_ok c.mg) (mgDecSpec_len c.mg) cg (fun e => nomatch e) hacc hn hk v (Fields.Legal.valid cg false fs v hv) hr hf
    pre rest nofun hsz

/-- C54, round trip and exchange: an object whose attributes fit their declaration (`TFits`, `Sc.mgGood`: numbers in
range, enum values of at most 32 bits below 2^31, strings that survive UTF-8 and have no NUL) is encoded and read
back unchanged, wherever in an array it stands, and Go reads the same value from the same bytes. -/
theorem C54_roundtrip (cg : Cfg) (c : CsCfg) {fs : Fields} (hacc : fs.accepted = true) (hn : fs.noDirectDyn = true)
    (hk : fs.tOk (mgSpec c.mg) false 0 = true) (hk2 : fs.tDecOk (mgDecSpec c.mg) false = true)
    (v : fs.TVal c.tgt) (hv : fs.TFits (mgGood c.mg) [] v) (pre rest : Buf)
    (hsz : pre.length + fs.tEncodeSize c.tgt v + rest.length < 2 ^ 30) :
    ∃ d, fs.tEncode c.tgt v = some d ∧ d.length = fs.tEncodeSize c.tgt v ∧
      fs.tDecode c.tgt (pre ++ d ++ rest) pre.length = .ok (v, d.length) ∧
      fs.tDecodeSize c.tgt (pre ++ d ++ rest) pre.length = some (d.length : Int) ∧
      fs.decode cg (d ++ rest) = .ok (fs.ofCs c v, d.length) :=
  Fields.t_roundtrip (mgGood_ok c.mg) (mgSpec_ok c.mg) (mgDecSpec_ok c.mg) (mgDecSpec_len c.mg) (Nat.le_refl _)
    (by show 2 ^ 30 ≤ 2 ^ 62; decide) cg (fun e => nomatch e) hacc hn hk hk2 v hv
    (decide_eq_true (Nat.lt_trans (Nat.lt_of_le_of_lt (Nat.le_trans (Nat.le_add_left _ _) (Nat.le_add_right _ _)) hsz) (by decide)))
    pre rest nofun hsz

/-- C54, what C# accepts: `Decode` stays within the data and `DecodeSize` gives its count; and for definitions
without `bytes` (`C54_prefix_counterexample`) Go's Decode accepts the data with the same count, and the object has
Go's value if that is one C# reads correctly. -/
theorem C54_decode_sound (cg : Cfg) (c : CsCfg) {fs : Fields} (hacc : fs.accepted = true) (hn : fs.noDirectDyn = true)
    (hk : fs.tDecOk (mgDecSpec c.mg) false = true) (hr : (Ty.struct fs).ktReach < 2 ^ 30)
    (d : Buf) (hd : d.length < 2 ^ 30) (base : Nat) (hb : base ≤ d.length)
    {tv : fs.TVal c.tgt} {n : Nat} (h : fs.tDecode c.tgt d base = .ok (tv, n)) :
    (base + n ≤ d.length ∧ fs.tDecodeSize c.tgt d base = some (n : Int)) ∧
    (fs.noBytes = true → ∃ v : fs.Val, fs.decode cg (d.drop base) = .ok (v, n) ∧
      (fs.DFits (mgDecSpec c.mg) [] v → tv = fs.toCs c v)) := by
  refine ⟨Fields.t_decode_bounds (mgDecSpec_ok c.mg) (mgDecSpec_sound c.mg) cg hacc hn hk rfl hr d hd base nofun hb h, fun hnb => ?_⟩
  obtain ⟨v, h1, _, _, h4⟩ := Fields.t_decode_sound (mgDecSpec_ok c.mg) (mgDecSpec_sound c.mg) cg (fun e => nomatch e) (Or.inr hnb)
    hacc hn hk rfl hr d hd base nofun hb h
  exact ⟨v, h1, h4⟩

/-! ### The hypotheses are met, and cannot be dropped -/

/-- Arrays of more than two elements are looped; strings are taken as they are; without or with `-memcpy`. -/
def csCfg (memcpy : Bool) : CsCfg := ⟨memcpy, 2, .shift, fun s => s⟩
def csPoint (c : CsCfg) : point.TVal c.tgt := (5#8, ((-1234 : Int) : BitVec 16), ())
def csEntry (c : CsCfg) (a b : List Byte) : entry.TVal c.tgt := (a, b, ())
def csMsg (c : CsCfg) : msg.TVal c.tgt :=
  ((1#8 : BitVec 8), some (17#32 : BitVec 32), csPoint c, [(0xABC#16 : BitVec 16), 1#16, 0xFFF#16],
    ([1#8, 0#8, 3#8] : List Byte), ([0x68#8, 0x69#8] : List Byte),
    [csEntry c [0x61#8] [9#8], csEntry c [] []], ((-70000 : Int) : BitVec 32), ())

theorem csMsg_fits (c : CsCfg) (hd : c.decStr = fun s => s) : msg.TFits (mgGood c.mg) [] (csMsg c) := by
  refine ⟨?_, ?_, ⟨?_, ?_, trivial⟩, rfl, ?_, (by show 3 < 2 ^ 31; decide), ⟨congrFun hd _, ?_⟩, rfl, ?_, ?_, trivial⟩
  · exact ⟨fun _ => by show (1#8).toNat ≤ 1; decide, by show (1#8).toNat < 2 ^ 1; decide, fun e => by rcases e with e | e <;> cases e⟩
  · exact ⟨by decide, 17#32, rfl, by decide, by decide, fun _ => rfl⟩
  · exact ⟨fun e => (nomatch e), by show (5#8).toNat < 2 ^ 3; decide, fun e => by rcases e with e | e <;> cases e⟩
  · have key : (Sc.prim .i16).InRange 13 (((-1234 : Int) : BitVec 16)) := by
      show -(2 : Int) ^ 12 ≤ (((-1234 : Int) : BitVec 16)).toInt ∧ (((-1234 : Int) : BitVec 16)).toInt < (2 : Int) ^ 12
      decide +kernel
    exact mgGood_of key nofun nofun nofun
  · intro x hx
    have key : ∀ y ∈ [(0xABC#16 : BitVec 16), 1#16, 0xFFF#16], y.toNat < 2 ^ 12 := by simp
    have key2 : (Sc.prim .u16).InRange 12 x := key x hx
    exact mgGood_of key2 nofun nofun nofun
  · show 0#8 ∉ [0x68#8, 0x69#8]
    decide
  · have e1 : ∀ (a b : List Byte), 0#8 ∉ a → b.length < 2 ^ 31 → ∀ ctx, entry.TFits (mgGood c.mg) ctx (csEntry c a b) :=
      fun a b ha hb ctx => ⟨⟨congrFun hd a, ha⟩, hb, trivial⟩
    intro x hx
    rcases List.mem_cons.mp hx with rfl | hx
    · exact e1 [0x61#8] [9#8] (by decide) (by decide) _
    · rcases List.mem_cons.mp hx with rfl | hx
      · exact e1 [] [] (by decide) (by decide) _
      · cases hx
  · have key : (Sc.prim .i32).InRange 24 (((-70000 : Int) : BitVec 32)) := by
      show -(2 : Int) ^ 23 ≤ (((-70000 : Int) : BitVec 32)).toInt ∧ (((-70000 : Int) : BitVec 32)).toInt < (2 : Int) ^ 23
      decide +kernel
    exact mgGood_of key nofun nofun nofun

/-- `C54_roundtrip` on a message with every kind of field and a looped array, in both variants. -/
example (m : Bool) : ∃ d, msg.tEncode (csCfg m).tgt (csMsg (csCfg m)) = some d ∧ d.length = msg.tEncodeSize (csCfg m).tgt (csMsg (csCfg m)) ∧
    msg.tDecode (csCfg m).tgt ([1#8] ++ d ++ [2#8, 3#8]) 1 = .ok (csMsg (csCfg m), d.length) ∧
    msg.tDecodeSize (csCfg m).tgt ([1#8] ++ d ++ [2#8, 3#8]) 1 = some (d.length : Int) ∧
    msg.decode cfg' (d ++ [2#8, 3#8]) = .ok (msg.ofCs (csCfg m) (csMsg (csCfg m)), d.length) :=
  C54_roundtrip cfg' (csCfg m) msg_accepted msg_noDirectDyn (by cases m <;> decide +kernel) (by cases m <;> decide +kernel) (csMsg (csCfg m))
    (csMsg_fits _ rfl) [1#8] [2#8, 3#8]
    (by rw [show msg.tEncodeSize (csCfg m).tgt (csMsg (csCfg m)) = 25 by cases m <;> decide +kernel]; decide)

example (m : Bool) : ∀ cg : Cfg, msg.tEncode (csCfg m).tgt (csMsg (csCfg m)) = msg.encode cg (msg.ofCs (csCfg m) (csMsg (csCfg m))) := fun cg =>
  (C54_encode_agrees cg (csCfg m) msg_accepted (by cases m <;> decide +kernel) (csMsg (csCfg m))
    (Fields.TFits.facts (mgGood_ok (csCfg m).mg) msg [] 0 (csMsg (csCfg m)) (Fields.accepted_facts msg_accepted).1 (csMsg_fits _ rfl)).1).2.2
    (by rw [show msg.tEncodeSize (csCfg m).tgt (csMsg (csCfg m)) = 25 by cases m <;> decide +kernel]; decide)

theorem msg_csDFits (m : Bool) : msg.DFits (mgDecSpec (csCfg m).mg) [] msgVal := by
  have i1 : ∀ (p : Prim) (lp : Bool) (n : Nat) (x : BitVec p.width), p ≠ .f32 → p ≠ .f64 → (Sc.prim p).mgFit (csCfg m).mg lp n x :=
    fun p lp n x h1 h2 => ⟨nofun, fun e => (e.elim (fun e => absurd (Sc.prim.inj e) h1) (fun e => absurd (Sc.prim.inj e) h2))⟩
  refine ⟨i1 .bool _ _ _ nofun nofun, ⟨fun _ _ => by decide, fun e => by rcases e with e | e <;> cases e⟩,
    ⟨i1 .u8 _ _ _ nofun nofun, i1 .i16 _ _ _ nofun nofun, trivial⟩, fun x _ => i1 .u16 _ _ x nofun nofun, trivial, trivial,
    fun x _ => ⟨trivial, trivial, trivial⟩, i1 .i32 _ _ _ nofun nofun, trivial⟩

/-- `C54_from_go` on the sample message. -/
example (m : Bool) : ∃ d, msg.encode cfg msgVal = some d ∧ d.length = msg.encodeSize msgVal ∧
    msg.tDecode (csCfg m).tgt ([1#8] ++ d ++ [2#8]) 1 = .ok (msg.toCs (csCfg m) msgVal, d.length) ∧
    msg.tDecodeSize (csCfg m).tgt ([1#8] ++ d ++ [2#8]) 1 = some (d.length : Int) :=
  C54_from_go cfg (csCfg m) msg_accepted msg_noDirectDyn (by cases m <;> decide +kernel) msgVal msg_legal msg_inRange (msg_csDFits m) [1#8] [2#8]
    (by rw [msg_size_eq]; decide)

/-- `struct S { string s; uint16 n[#16] big; bytes b; }` -/
def csText : Fields := .one .str none false <| .one (.sc (.prim .u16)) (some 16) true <| .one .bytes none false .nil
instance : DecidableEq csText.Val := inferInstanceAs (DecidableEq (List Byte × BitVec 16 × List Byte × Unit))

/-- `C54_decode_agrees` on data that Go accepts, behind other data, with a prefix longer than necessary. -/
example : csText.tDecode (csCfg false).tgt [7#8, 0x41#8, 0#8, 1#8, 2#8, 0x81#8, 0x80#8, 0#8, 9#8, 5#8] 1 =
    .ok ((([0x41#8] : List Byte), (258#16 : BitVec 16), ([9#8] : List Byte), ()), 8) := by
  have hg : csText.decode cfg ([7#8, 0x41#8, 0#8, 1#8, 2#8, 0x81#8, 0x80#8, 0#8, 9#8, 5#8].drop 1) =
    .ok ((([0x41#8] : List Byte), (258#16 : BitVec 16), ([9#8] : List Byte), ()), 8) := by decide +kernel
  have hw : csText.NoWrap ([7#8, 0x41#8, 0#8, 1#8, 2#8, 0x81#8, 0x80#8, 0#8, 9#8, 5#8].drop 1) :=
    Fields.noWrap_of_noDynArr (by decide +kernel) (by decide +kernel) (by decide)
  exact (C54_decode_agrees cfg (csCfg false) (by decide +kernel) (by decide +kernel) (by decide +kernel) _ (by decide) 1 (by decide) hw hg
    ⟨trivial, ⟨nofun, fun e => by rcases e with e | e <;> cases e⟩, trivial, trivial⟩).1

/-- `struct S { uint16 K = 0xABCD; int8 a[#4]; void[#4]; string s; uint32 L = 0xFFFFFFFE; Point[2] p; }` -/
def csPlain : Fields :=
  .const .u16 16 false 0xABCD <| .one (.sc (.prim .i8)) (some 4) false <| .void 4 <| .one .str none false <|
  .const .u32 32 false 0xFFFFFFFE <| .arr (.struct point) 2 (some 32) false .nil

/-- `C54_decode_sound`: two constants, a string and an array of structs. -/
example (d : Buf) (hd : d.length < 2 ^ 30) (base : Nat) (hb : base ≤ d.length) (tv : csPlain.TVal (csCfg false).tgt) (n : Nat)
    (h : csPlain.tDecode (csCfg false).tgt d base = .ok (tv, n)) :
    ∃ v : csPlain.Val, csPlain.decode cfg (d.drop base) = .ok (v, n) ∧ tv = csPlain.toCs (csCfg false) v := by
  have i1 : ∀ (p : Prim) (lp : Bool) (n : Nat) (x : BitVec p.width), p ≠ .f32 → p ≠ .f64 → (Sc.prim p).mgFit (csCfg false).mg lp n x :=
    fun p lp n x h1 h2 => ⟨nofun, fun e => (e.elim (fun e => absurd (Sc.prim.inj e) h1) (fun e => absurd (Sc.prim.inj e) h2))⟩
  obtain ⟨v, h1, h4⟩ := (C54_decode_sound cfg (csCfg false) (by decide +kernel) (by decide +kernel) (by decide +kernel) (by decide +kernel)
    d hd base hb h).2 (by decide +kernel)
  exact ⟨v, h1, h4 ⟨i1 .i8 _ _ _ nofun nofun, trivial,
    fun x _ => ⟨i1 .u8 _ _ _ nofun nofun, i1 .i16 _ _ _ nofun nofun, trivial⟩, trivial⟩⟩

example : (match csPlain.tDecode (csCfg false).tgt [7#8, 0xCD#8, 0xAB#8, 1#8, 0x41#8, 0#8, 0xFE#8, 0xFF#8, 0xFF#8, 0xFF#8, 5#8, 0#8, 6#8, 0#8] 1 with
    | .ok r => r.2 == 13 | _ => false) = true := by decide +kernel

/-- `struct S { bytes b; }` -/
def csBytes : Fields := .one .bytes none false .nil
instance : DecidableEq (csBytes.TVal (csCfg false).tgt) := inferInstanceAs (DecidableEq (List Byte × Unit))

/-- A length prefix of 2^32 + 1 is read as 1 and accepted; Go asks for more data.  One of 2^32 - 1 is the
length -1, which passes `decodeSize` and throws in `decode`. -/
theorem C54_prefix_counterexample :
    csBytes.accepted = true ∧
    csBytes.tDecode (csCfg false).tgt [0x81#8, 0x80#8, 0x80#8, 0x80#8, 0x10#8, 9#8] 0 = .ok ((([9#8] : List Byte), ()), 6) ∧
    csBytes.decode cfg [0x81#8, 0x80#8, 0x80#8, 0x80#8, 0x10#8, 9#8] = .fail ∧
    csBytes.tDecode (csCfg false).tgt [0xFF#8, 0xFF#8, 0xFF#8, 0xFF#8, 0x0F#8] 0 = .panic := by
  refine ⟨by decide +kernel, by decide +kernel, ?_, ?_⟩
  · rw [← Res.isFail_iff]; decide +kernel
  · rw [← Res.isPanic_iff]; decide +kernel

/-- `struct S { float32 x[#16]; }` -/
def csFloat : Fields := .one (.sc (.prim .f32)) (some 16) false .nil
instance : DecidableEq (csFloat.TVal (csCfg false).tgt) := inferInstanceAs (DecidableEq (BitVec 32 × Unit))
instance : DecidableEq csFloat.Val := inferInstanceAs (DecidableEq (BitVec 32 × Unit))

/-- A float of 16 bits is encoded, but read into a `ushort`, for which `BitConverter.ToSingle` throws. -/
theorem C54_float_counterexample :
    csFloat.accepted = true ∧
    csFloat.tEncode (csCfg false).tgt ((0x8001#32 : BitVec 32), ()) = some [0x01#8, 0x80#8] ∧
    csFloat.tDecode (csCfg false).tgt [0x01#8, 0x80#8] 0 = .panic ∧
    csFloat.decode cfg [0x01#8, 0x80#8] = .ok (((0x8001#32 : BitVec 32), ()), 2) := by
  refine ⟨by decide +kernel, by decide +kernel, ?_, by decide +kernel⟩
  rw [← Res.isPanic_iff]; decide +kernel

/-- `struct S { E e; }` with an enum of 40 bits -/
def csEnum : Fields := .one (.sc (.enum 40)) (some 40) false .nil
instance : DecidableEq (csEnum.TVal (csCfg false).tgt) := inferInstanceAs (DecidableEq (Option (BitVec 32) × Unit))
instance : DecidableEq csEnum.Val := inferInstanceAs (DecidableEq (BitVec 64 × Unit))

/-- The enum type is an `int`: the upper bits of a wider value are lost. -/
theorem C54_enum_counterexample :
    csEnum.accepted = true ∧
    csEnum.tDecode (csCfg false).tgt [1#8, 0#8, 0#8, 0#8, 1#8] 0 = .ok ((some (1#32), ()), 5) ∧
    csEnum.decode cfg [1#8, 0#8, 0#8, 0#8, 1#8] = .ok (((0x100000001#64 : BitVec 64), ()), 5) := by
  refine ⟨by decide +kernel, by decide +kernel, by decide +kernel⟩

/-- `struct S { T[1] t; uint32 x; T[1] u; }` with `struct T { string s; }` -/
def csCut : Fields :=
  .arr (.struct (.one .str none false .nil)) 1 none false <| .one (.sc (.prim .u32)) (some 32) false <|
  .arr (.struct (.one .str none false .nil)) 1 none false .nil

/-- Without `-memcpy`, `DecodeSize` and `Decode` of truncated data take a slice that starts behind its end and
throw; with it, and in Go, the data is refused. -/
theorem C54_slice_counterexample :
    csCut.accepted = true ∧ csCut.noDirectDyn = true ∧
    csCut.tDecodeSize (csCfg false).tgt [0#8] 0 = none ∧ csCut.tDecode (csCfg false).tgt [0#8] 0 = .panic ∧
    csCut.tDecode (csCfg true).tgt [0#8] 0 = .fail ∧ csCut.decode cfg [0#8] = .fail := by
  refine ⟨by decide +kernel, by decide +kernel, by decide +kernel, ?_, ?_, ?_⟩
  · rw [← Res.isPanic_iff]; decide +kernel
  · rw [← Res.isFail_iff]; decide +kernel
  · rw [← Res.isFail_iff]; decide +kernel

end Bubbler
