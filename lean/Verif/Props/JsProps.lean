import Verif.Codec.JsSound
import Verif.Props.CodecNeg

/-
C50: the JavaScript targets (CommonJS, ES modules) against the Go target.
C51: the string functions of the JavaScript targets are UTF-8.
-/
set_option linter.unusedSimpArgs false
namespace Bubbler
open Sample

/-- The Go value with the meaning of an object of the generated class: numbers taken modulo the width of
their type, enum names replaced by their numbers, strings as their UTF-8 bytes. -/
abbrev Fields.ofJs (c : JsCfg) (fs : Fields) (v : fs.TVal (jsTgt c)) : fs.Val := fs.ofT (jsSpec c) [] v
/-- The object for a Go value: enum numbers become names (`undefined` if there is none), bytes of strings
become UTF-16. -/
abbrev Fields.toJs (c : JsCfg) (fs : Fields) (v : fs.Val) : fs.TVal (jsTgt c) := fs.toT (jsDecSpec c) [] v

/-- C50, encoding: for objects with legal attributes (arrays of the declared length, booleans, bit patterns of
floats, names of members, well-formed strings), `encode_size()` is Go's EncodeSize, `encode(data, start)`
returns it and leaves in a zeroed tail of `data` from `start` on what Go's EncodeTo leaves there, and
`encode()` returns the bytes Go's Encode returns.  `tOk`: bit positions the emitted statements handle (`cOk`),
no enum field of more than 32 bits (53 in looped arrays). -/
theorem C50_encode_agrees (cg : Cfg) (c : JsCfg) {fs : Fields} (hacc : fs.accepted = true)
    (hk : fs.tOk (jsSpec c) false 0 = true) (v : fs.TVal (jsTgt c)) (hv : fs.TLegal (jsSpec c) [] v) :
    fs.tEncodeSize (jsTgt c) v = fs.encodeSize (fs.ofJs c v) ∧
    (∀ (d : Buf) (base : Nat), base + fs.tEncodeSize (jsTgt c) v ≤ d.length → d.length < 2 ^ 28 → ZeroFrom d (8 * base) →
      fs.tEncodeTo (jsTgt c) v d base =
        (fs.encodeTo cg (fs.ofJs c v) (d.drop base)).map (fun r => (d.take base ++ r.1, r.2))) ∧
    (fs.tEncodeSize (jsTgt c) v < 2 ^ 28 → fs.tEncode (jsTgt c) v = fs.encode cg (fs.ofJs c v)) := by
  obtain ⟨h1, h2, h3⟩ := Fields.t_encode_agrees (jsSpec_ok c) cg hacc hk v hv
  exact ⟨h1, fun d base => h2 d base nofun, h3 rfl⟩

/-- C50, decoding what an encoder can have written: if Go's Decode accepts the data and its length prefixes
are as short as an encoder writes them (the count is EncodeSize of the value), and the values are of those
JavaScript reads correctly (`DFits`), `decode` accepts it with the same value and count and `decode_size`
gives the count. -/
theorem C50_decode_canonical (cg : Cfg) (c : JsCfg) {fs : Fields} (hacc : fs.accepted = true) (hn : fs.noDirectDyn = true)
    (hk : fs.tDecOk (jsDecSpec c) false = true) (d : Buf) (hd : d.length < 2 ^ 28) (base : Nat) (hb : base ≤ d.length)
    (hw : fs.NoWrap (d.drop base)) {v : fs.Val} {n : Nat} (hg : fs.decode cg (d.drop base) = .ok (v, n))
    (hcan : n = fs.encodeSize v) (hf : fs.DFits (jsDecSpec c) [] v) :
    fs.tDecode (jsTgt c) d base = .ok (fs.toJs c v, n) ∧ fs.tDecodeSize (jsTgt c) d base = some (n : Int) :=
  Fields.t_decode_canonical (jsDecSpec_ok c) (jsDecSpec_len c) cg (fun e => nomatch e) hacc hn hk d hd (by show 2 ^ 28 ≤ 2 ^ 62; decide) base nofun hb hw hg hcan hf

/-- C50, from Go to JavaScript. -/
theorem C50_from_go (cg : Cfg) (c : JsCfg) {fs : Fields} (hacc : fs.accepted = true) (hn : fs.noDirectDyn = true)
    (hk : fs.tDecOk (jsDecSpec c) false = true) (v : fs.Val) (hv : fs.Legal v) (hr : fs.InRange v)
    (hf : fs.DFits (jsDecSpec c) [] v) (pre rest : Buf) (hsz : pre.length + fs.encodeSize v + rest.length < 2 ^ 28) :
    ∃ d, fs.encode cg v = some d ∧ d.length = fs.encodeSize v ∧
      fs.tDecode (jsTgt c) (pre ++ d ++ rest) pre.length = .ok (fs.toJs c v, d.length) ∧
      fs.tDecodeSize (jsTgt c) (pre ++ d ++ rest) pre.length = some (d.length : Int) :=
  Fields.t_from_go (jsDecSpec_ok c) (jsDecSpec_len c) cg (fun e => nomatch e) hacc hn hk v (Fields.Legal.valid cg false fs v hv) hr hf pre rest nofun hsz

/-- C50, round trip and exchange: an object whose attributes fit their declaration (`TFits`, `Sc.jsGood`:
numbers in range, unrolled uint32 fields of 32 bits below 2^31, no unrolled int64 field of 32 bits, enums by
name, strings well-formed without NUL) is encoded and read back unchanged, wherever in an array it stands,
and Go reads the same value from the same bytes. -/
theorem C50_roundtrip (cg : Cfg) (c : JsCfg) {fs : Fields} (hacc : fs.accepted = true) (hn : fs.noDirectDyn = true)
    (hk : fs.tOk (jsSpec c) false 0 = true) (hk2 : fs.tDecOk (jsDecSpec c) false = true)
    (v : fs.TVal (jsTgt c)) (hv : fs.TFits (jsGood c) [] v) (pre rest : Buf)
    (hsz : pre.length + fs.tEncodeSize (jsTgt c) v + rest.length < 2 ^ 28) :
    ∃ d, fs.tEncode (jsTgt c) v = some d ∧ d.length = fs.tEncodeSize (jsTgt c) v ∧
      fs.tDecode (jsTgt c) (pre ++ d ++ rest) pre.length = .ok (v, d.length) ∧
      fs.tDecodeSize (jsTgt c) (pre ++ d ++ rest) pre.length = some (d.length : Int) ∧
      fs.decode cg (d ++ rest) = .ok (fs.ofJs c v, d.length) :=
  Fields.t_roundtrip (jsGood_ok c) (jsSpec_ok c) (jsDecSpec_ok c) (jsDecSpec_len c) (Nat.le_refl _) (by show 2 ^ 28 ≤ 2 ^ 62; decide)
    cg (fun e => nomatch e) hacc hn hk hk2 v hv rfl pre rest nofun hsz

/-- C50, what JavaScript accepts: for definitions without strings (malformed UTF-8:
`C50_utf8_counterexample`), everything `decode` accepts Go's Decode accepts with the same count, `decode_size`
gives that count, and the object has Go's value if that is one JavaScript reads correctly. -/
theorem C50_decode_sound (cg : Cfg) (c : JsCfg) {fs : Fields} (hacc : fs.accepted = true) (hn : fs.noDirectDyn = true)
    (hk : fs.tDecOk (jsDecSpec c) false = true) (hs : fs.noStr = true) (hr : (Ty.struct fs).ktReach < 2 ^ 30)
    (d : Buf) (hd : d.length < 2 ^ 28) (base : Nat) (hb : base ≤ d.length) {tv : fs.TVal (jsTgt c)} {n : Nat}
    (h : fs.tDecode (jsTgt c) d base = .ok (tv, n)) :
    ∃ v : fs.Val, fs.decode cg (d.drop base) = .ok (v, n) ∧ base + n ≤ d.length ∧
      fs.tDecodeSize (jsTgt c) d base = some (n : Int) ∧ (fs.DFits (jsDecSpec c) [] v → tv = fs.toJs c v) :=
  Fields.t_decode_sound (jsDecSpec_ok c) (jsDecSpec_sound c) cg (fun e => nomatch e) (Or.inl (jsDecSpec_lenGo c)) hacc hn hk (by simpa using hs) hr d hd base
    nofun hb h

/-! ### Text -/

/-- C51, size: for the UTF-16 form of any text, `stringToUTF8BytesCount` gives the length of its UTF-8 form. -/
theorem C51_count (cs : List Char) : jsUtf8Count (utf16 cs) = (utf8 cs).length := jsUtf8Count_eq cs

/-- C51, writing: `stringToUTF8Bytes` puts exactly the UTF-8 form at the position, if there is room, leaves
the rest as it was, and returns the number of bytes. -/
theorem C51_write (cs : List Char) (d : Buf) (pos : Nat) (h : pos + (utf8 cs).length ≤ d.length) :
    jsUtf8Put (utf16 cs) d pos = (d.take pos ++ utf8 cs ++ d.drop (pos + (utf8 cs).length), (utf8 cs).length) := by
  have key : ∀ (bs : List Byte) (d : Buf) (pos : Nat), pos + bs.length ≤ d.length →
      jsPutAll d pos bs = d.take pos ++ bs ++ d.drop (pos + bs.length) := by
    intro bs
    induction bs with
    | nil => intro d pos _; simp [jsPutAll]
    | cons b bs ih =>
      intro d pos h
      simp only [List.length_cons] at h
      simp only [jsPutAll, jsPut]
      rw [ih _ _ (by rw [List.length_set]; omega)]
      have h1 : (d.set pos b).take (pos + 1) = d.take pos ++ [b] := by
        rw [List.take_succ_eq_append_getElem (by rw [List.length_set]; omega)]
        simp [List.take_set_of_le]
      have h2 : (d.set pos b).drop (pos + 1 + bs.length) = d.drop (pos + 1 + bs.length) := by
        rw [List.drop_set_of_lt (by omega)]
      rw [h1, h2, List.length_cons]
      simp only [List.append_assoc, List.cons_append, List.nil_append]
      rw [show pos + 1 + bs.length = pos + (bs.length + 1) from by omega]
  rw [jsUtf8Put_eq, key _ _ _ h]

/-- C51, reading: where the UTF-8 form of a text without NUL stands, followed by NUL, `stringFromUTF8Bytes`
returns its UTF-16 form and the position of the NUL. -/
theorem C51_read (cs : List Char) (hz : '\x00' ∉ cs) (pre rest : Buf) :
    jsFromUtf8 (pre ++ utf8 cs ++ [0#8] ++ rest) pre.length = (utf16 cs, pre.length + (utf8 cs).length) := by
  refine jsFromUtf8_eq _ cs pre.length ?_ ?_ ?_ ?_
  · intro c hc e
    have : c = '\x00' := Char.ext (UInt32.toNat_inj.mp (by simpa using e))
    exact hz (this ▸ hc)
  · simp only [List.length_append, List.length_cons, List.length_nil]; omega
  · simp only [List.append_assoc, List.drop_left, List.take_left]
  · unfold jsGet
    rw [List.getD_eq_getElem?_getD, List.append_assoc, List.getElem?_append_right (by simp)]
    simp

/-- C51: no text is confused with another. -/
theorem C51_injective (a b : List Char) (h : utf8 a = utf8 b) : a = b := by
  rw [← utf8Dec_utf8 a, h, utf8Dec_utf8]

/-! ### The hypotheses are met, and cannot be dropped -/

/-- Arrays of two elements are unrolled, longer ones looped; the enum is `{A = 0, B = 17, C = 3000000000}`. -/
def jsCfg : JsCfg := ⟨2, fun _ => [("A", 0), ("B", 17), ("C", 3000000000)]⟩

def jsPoint : point.TVal (jsTgt jsCfg) := ((5 : Int), (-1234 : Int), ())
def jsEntry (a : List Char) (b : List Byte) : entry.TVal (jsTgt jsCfg) := (utf16 a, b, ())
def jsMsg : msg.TVal (jsTgt jsCfg) :=
  ((1 : Int), JsEnum.name "B", jsPoint, [(0xABC : Int), (1 : Int), (0xFFF : Int)],
    ([1#8, 0#8, 3#8] : List Byte), utf16 ['h', 'é', '😀'],
    [jsEntry ['a'] [9#8], jsEntry [] []], (-70000 : Int), ())

theorem jsMsg_fits : msg.TFits (jsGood jsCfg) [] jsMsg := by
  have i1 : ∀ ctx p lp n (x : Int), p ≠ .u32 → p ≠ .i64 → p ≠ .bool →
      (if p.signed then -2 ^ (n - 1) ≤ x ∧ x < 2 ^ (n - 1) else 0 ≤ x ∧ x < 2 ^ n) → (Sc.prim p).jsGood jsCfg ctx lp n x := by
    intro ctx p lp n x h1 h2 h3 h4
    cases p <;> first | exact absurd rfl h3 | exact ⟨h4, fun e => absurd e h1, fun e => absurd e h2⟩
  have e1 : ∀ (a : List Char) (b : List Byte), '\x00' ∉ a → b.length < 2 ^ 32 → ∀ ctx, entry.TFits (jsGood jsCfg) ctx (jsEntry a b) :=
    fun a b ha hb ctx => ⟨⟨a, rfl, ha⟩, hb, trivial⟩
  refine ⟨Or.inr rfl, ⟨"B", 17, rfl, by decide +kernel, by decide +kernel, by decide, by decide⟩,
    ⟨i1 [] .u8 _ 3 5 nofun nofun nofun (by decide), i1 [] .i16 _ 13 (-1234) nofun nofun nofun (by decide), trivial⟩,
    rfl, ?_, (by show 3 < 2 ^ 32; decide), ⟨['h', 'é', '😀'], rfl, by decide⟩, rfl, ?_, i1 [] .i32 _ 24 (-70000) nofun nofun nofun (by decide), trivial⟩
  · intro x hx
    have key : ∀ y ∈ [(0xABC : Int), (1 : Int), (0xFFF : Int)], (0 : Int) ≤ y ∧ y < 2 ^ 12 := by decide
    exact i1 [] .u16 _ 12 x nofun nofun nofun (key x hx)
  · intro x hx
    rcases List.mem_cons.mp hx with rfl | hx
    · exact e1 ['a'] [9#8] (by decide) (by decide) _
    · rcases List.mem_cons.mp hx with rfl | hx
      · exact e1 [] [] (by decide) (by decide) _
      · cases hx

theorem jsMsg_tOk : msg.tOk (jsSpec jsCfg) false 0 = true := by decide +kernel
theorem jsMsg_tDecOk : msg.tDecOk (jsDecSpec jsCfg) false = true := by decide +kernel
theorem jsMsg_size : msg.tEncodeSize (jsTgt jsCfg) jsMsg = 30 := by decide +kernel

/-- `C50_roundtrip` on a message with every kind of field (the text is "hé😀": 7 bytes). -/
example : ∃ d, msg.tEncode (jsTgt jsCfg) jsMsg = some d ∧ d.length = msg.tEncodeSize (jsTgt jsCfg) jsMsg ∧
    msg.tDecode (jsTgt jsCfg) ([1#8] ++ d ++ [2#8, 3#8]) 1 = .ok (jsMsg, d.length) ∧
    msg.tDecodeSize (jsTgt jsCfg) ([1#8] ++ d ++ [2#8, 3#8]) 1 = some (d.length : Int) ∧
    msg.decode cfg' (d ++ [2#8, 3#8]) = .ok (msg.ofJs jsCfg jsMsg, d.length) :=
  C50_roundtrip cfg' jsCfg msg_accepted msg_noDirectDyn jsMsg_tOk jsMsg_tDecOk jsMsg jsMsg_fits [1#8] [2#8, 3#8]
    (by rw [jsMsg_size]; decide)

/-- `C50_encode_agrees` allows numbers out of range, like Go's conversion. -/
example : msg.TLegal (jsSpec jsCfg) [] jsMsg := (Fields.TFits.facts (jsGood_ok jsCfg) msg [] 0 jsMsg (Fields.accepted_facts msg_accepted).1 jsMsg_fits).1

example : ∀ cg : Cfg, msg.tEncode (jsTgt jsCfg) jsMsg = msg.encode cg (msg.ofJs jsCfg jsMsg) := fun cg =>
  (C50_encode_agrees cg jsCfg msg_accepted jsMsg_tOk jsMsg
    (Fields.TFits.facts (jsGood_ok jsCfg) msg [] 0 jsMsg (Fields.accepted_facts msg_accepted).1 jsMsg_fits).1).2.2
    (by rw [jsMsg_size]; decide)

theorem msg_jsDFits : msg.DFits (jsDecSpec jsCfg) [] msgVal := by
  have i1 : ∀ p lp n (x : BitVec p.width), p ≠ .u32 → p ≠ .i64 → (Sc.prim p).jsFit lp n x :=
    fun p lp n x h1 h2 => ⟨fun e => absurd (Sc.prim.inj e) h1, fun e => absurd (Sc.prim.inj e) h2, nofun⟩
  have e1 : ∀ (a : List Char) (b : List Byte) ctx, entry.DFits (jsDecSpec jsCfg) ctx (entryVal (utf8 a) b) :=
    fun a b ctx => ⟨⟨a, rfl⟩, trivial, trivial⟩
  refine ⟨i1 .bool _ _ _ nofun nofun, ⟨nofun, nofun, fun b _ => ⟨by decide, by show (17#8).toNat < 2 ^ 31; decide⟩⟩,
    ⟨i1 .u8 _ _ _ nofun nofun, i1 .i16 _ _ _ nofun nofun, trivial⟩, fun x _ => i1 .u16 _ _ x nofun nofun, trivial,
    ⟨['h', 'i'], (by show [0x68#8, 0x69#8] = utf8 ['h', 'i']; decide +kernel)⟩, ?_, i1 .i32 _ _ _ nofun nofun, trivial⟩
  intro x hx
  rcases List.mem_cons.mp hx with rfl | hx
  · exact e1 ['a'] [9#8] _
  · rcases List.mem_cons.mp hx with rfl | hx
    · exact e1 [] [] _
    · cases hx

/-- `C50_from_go` on the sample message. -/
example : ∃ d, msg.encode cfg msgVal = some d ∧ d.length = msg.encodeSize msgVal ∧
    msg.tDecode (jsTgt jsCfg) ([1#8] ++ d ++ [2#8]) 1 = .ok (msg.toJs jsCfg msgVal, d.length) ∧
    msg.tDecodeSize (jsTgt jsCfg) ([1#8] ++ d ++ [2#8]) 1 = some (d.length : Int) :=
  C50_from_go cfg jsCfg msg_accepted msg_noDirectDyn jsMsg_tDecOk msgVal msg_legal msg_inRange msg_jsDFits [1#8] [2#8]
    (by rw [msg_size_eq]; decide)

/-- `struct S { string s; uint16 n[#16] big; bytes b; }` -/
def jsText : Fields := .one .str none false <| .one (.sc (.prim .u16)) (some 16) true <| .one .bytes none false .nil
instance : DecidableEq jsText.Val := inferInstanceAs (DecidableEq (List Byte × BitVec 16 × List Byte × Unit))

/-- `C50_decode_canonical` on data that Go accepts, behind other data. -/
example : jsText.tDecode (jsTgt jsCfg) [7#8, 0xC3#8, 0xA9#8, 0#8, 1#8, 2#8, 1#8, 9#8, 5#8] 1 =
    .ok ((utf16 ['é'], (258 : Int), ([9#8] : List Byte), ()), 7) := by
  have hg : jsText.decode cfg ([7#8, 0xC3#8, 0xA9#8, 0#8, 1#8, 2#8, 1#8, 9#8, 5#8].drop 1) =
    .ok ((utf8 ['é'], (258#16 : BitVec 16), ([9#8] : List Byte), ()), 7) := by decide +kernel
  have hw : jsText.NoWrap ([7#8, 0xC3#8, 0xA9#8, 0#8, 1#8, 2#8, 1#8, 9#8, 5#8].drop 1) :=
    Fields.noWrap_of_noDynArr (by decide +kernel) (by decide +kernel) (by decide)
  refine (C50_decode_canonical cfg jsCfg (by decide +kernel) (by decide +kernel) (by decide +kernel) _ (by decide) 1 (by decide) hw hg
    (by decide +kernel) ⟨⟨['é'], rfl⟩, ⟨nofun, nofun, nofun⟩, trivial, trivial⟩).1.trans ?_
  show Res.ok ((utf16 (utf8Dec (utf8 ['é'])), (258 : Int), ([9#8] : List Byte), ()), 7) = _
  rw [utf8Dec_utf8]
  rfl

/-- `struct S { uint16 K[#12] = 0xABC; int8 a[#4]; bytes b; uint64 L = 0x8000000000000001; Point[2] p; }` -/
def jsPlain : Fields :=
  .const .u16 12 false 0xABC <| .one (.sc (.prim .i8)) (some 4) false <| .one .bytes none false <|
  .const .u64 64 false 0x8000000000000001 <| .arr (.struct point) 2 (some 32) false .nil

/-- `C50_decode_sound`: two constants, bytes and an array of structs.  Values of other types than those that
JavaScript misreads always fit. -/
example (d : Buf) (hd : d.length < 2 ^ 28) (tv : jsPlain.TVal (jsTgt jsCfg)) (n : Nat) (h : jsPlain.tDecode (jsTgt jsCfg) d 0 = .ok (tv, n)) :
    ∃ v : jsPlain.Val, jsPlain.decode cfg d = .ok (v, n) ∧ tv = jsPlain.toJs jsCfg v := by
  obtain ⟨v, h1, _, _, h4⟩ := C50_decode_sound cfg jsCfg (by decide +kernel) (by decide +kernel) (by decide +kernel) (by decide +kernel)
    (by decide +kernel) d hd 0 (by omega) h
  refine ⟨v, h1, h4 ⟨⟨nofun, nofun, nofun⟩, trivial, fun x _ => ⟨⟨nofun, nofun, nofun⟩, ⟨nofun, nofun, nofun⟩, trivial⟩, trivial⟩⟩

example : (match jsPlain.tDecode (jsTgt jsCfg) [0xBC#8, 0x7A#8, 1#8, 9#8, 1#8, 0#8, 0#8, 0#8, 0#8, 0#8, 0#8, 0x80#8, 5#8, 0#8, 6#8, 0#8] 0 with
    | .ok r => r.2 == 16 | _ => false) = true := by decide +kernel

/-- `struct S { uint32 x; }` -/
def jsU32 : Fields := .one (.sc (.prim .u32)) (some 32) false .nil
instance : DecidableEq (jsU32.TVal (jsTgt jsCfg)) := inferInstanceAs (DecidableEq (Int × Unit))

/-- An unrolled uint32 field of 32 bits is read as a negative number from 2^31 on. -/
theorem C50_uint32_counterexample :
    jsU32.accepted = true ∧ jsU32.tEncode (jsTgt jsCfg) ((4000000000 : Int), ()) = some [0x00#8, 0x28#8, 0x6B#8, 0xEE#8] ∧
    jsU32.tDecode (jsTgt jsCfg) [0x00#8, 0x28#8, 0x6B#8, 0xEE#8] 0 = .ok (((-294967296 : Int), ()), 4) := by
  refine ⟨by decide +kernel, by decide +kernel, by decide +kernel⟩

/-- `struct S { int64 x[#32]; }` -/
def jsI64 : Fields := .one (.sc (.prim .i64)) (some 32) false .nil

/-- An int64 field of 32 bits is encoded, but decoding any data throws (`>>>` on a BigInt). -/
theorem C50_int64_counterexample :
    jsI64.accepted = true ∧ jsI64.tEncode (jsTgt jsCfg) ((-2 : Int), ()) = some [0xFE#8, 0xFF#8, 0xFF#8, 0xFF#8] ∧
    jsI64.tDecode (jsTgt jsCfg) [0xFE#8, 0xFF#8, 0xFF#8, 0xFF#8] 0 = .panic := by
  refine ⟨by decide +kernel, by decide +kernel, ?_⟩
  rw [← Res.isPanic_iff]; decide +kernel

/-- `struct S { uint32 X = 0xDEADBEEF; }` -/
def jsConst : Fields := .const .u32 32 false 0xDEADBEEF .nil
instance : DecidableEq jsConst.Val := inferInstanceAs (DecidableEq Unit)

/-- A uint32 constant from 2^31 on is not recognised in what the same program encodes. -/
theorem C50_const_counterexample :
    jsConst.accepted = true ∧ jsConst.tEncode (jsTgt jsCfg) () = some [0xEF#8, 0xBE#8, 0xAD#8, 0xDE#8] ∧
    jsConst.decode cfg [0xEF#8, 0xBE#8, 0xAD#8, 0xDE#8] = .ok ((), 4) ∧
    jsConst.tDecode (jsTgt jsCfg) [0xEF#8, 0xBE#8, 0xAD#8, 0xDE#8] 0 = .fail := by
  refine ⟨by decide +kernel, by decide +kernel, ?_, ?_⟩
  · decide +kernel
  · rw [← Res.isFail_iff]; decide +kernel

/-- `struct S { E e; }` with an enum of 32 bits -/
def jsEnum : Fields := .one (.sc (.enum 32)) (some 32) false .nil
instance : DecidableEq (jsEnum.TVal (jsTgt jsCfg)) := inferInstanceAs (DecidableEq (JsEnum × Unit))

/-- An enum member from 2^31 on is read as undefined. -/
theorem C50_enum_counterexample :
    jsEnum.accepted = true ∧ jsEnum.tEncode (jsTgt jsCfg) (JsEnum.name "C", ()) = some [0x00#8, 0x5E#8, 0xD0#8, 0xB2#8] ∧
    jsEnum.tDecode (jsTgt jsCfg) [0x00#8, 0x5E#8, 0xD0#8, 0xB2#8] 0 = .ok ((JsEnum.undef, ()), 4) := by
  refine ⟨by decide +kernel, by decide +kernel, by decide +kernel⟩

/-- `struct S { string s; }` -/
def jsStr : Fields := .one .str none false .nil
instance : DecidableEq jsStr.Val := inferInstanceAs (DecidableEq (List Byte × Unit))
instance : DecidableEq (jsStr.TVal (jsTgt jsCfg)) := inferInstanceAs (DecidableEq (List (BitVec 16) × Unit))

/-- On malformed UTF-8 the reader takes the terminator for a continuation byte: Go reads the string C3 and two
bytes, JavaScript "ÀA" and four, although `decode_size` says two. -/
theorem C50_utf8_counterexample :
    jsStr.decode cfg [0xC3#8, 0#8, 0x41#8, 0#8] = .ok ((([0xC3#8] : List Byte), ()), 2) ∧
    jsStr.tDecode (jsTgt jsCfg) [0xC3#8, 0#8, 0x41#8, 0#8] 0 = .ok ((([0xC0#16, 0x41#16] : List (BitVec 16)), ()), 4) ∧
    jsStr.tDecodeSize (jsTgt jsCfg) [0xC3#8, 0#8, 0x41#8, 0#8] 0 = some 2 := by
  refine ⟨by decide +kernel, by decide +kernel, by decide +kernel⟩

/-- A lone surrogate swallows the unit after it: "\uD800A" is written as the four bytes of U+10041 and read
back as that. -/
theorem C50_surrogate_counterexample :
    jsStr.tEncode (jsTgt jsCfg) (([0xD800#16, 0x41#16] : List (BitVec 16)), ()) = some [0xF0#8, 0x90#8, 0x81#8, 0x81#8, 0#8] ∧
    jsStr.tDecode (jsTgt jsCfg) [0xF0#8, 0x90#8, 0x81#8, 0x81#8, 0#8] 0 = .ok ((([0xD800#16, 0xDC41#16] : List (BitVec 16)), ()), 5) := by
  refine ⟨by decide +kernel, by decide +kernel⟩

/-- The text functions on a text with code points of one to four bytes. -/
example : utf8 ['a', 'é', '€', '😀'] =
      [0x61#8, 0xC3#8, 0xA9#8, 0xE2#8, 0x82#8, 0xAC#8, 0xF0#8, 0x9F#8, 0x98#8, 0x80#8] ∧
    utf16 ['a', 'é', '€', '😀'] = [0x61#16, 0xE9#16, 0x20AC#16, 0xD83D#16, 0xDE00#16] := by
  refine ⟨by decide +kernel, by decide +kernel⟩

end Bubbler
