import Verif.Props.CodecA

/-
Properties C04, C12-C16: byte order, sign extension, bytes and string fields, constants, decoded values.
-/
set_option linter.unusedSimpArgs false
namespace Bubbler
open Sample

/-! ### C04 -/

/-- C04: wire bit `j` of an `n`-bit big-endian field carries value bit `max(0, n-8(k+1)) + j%8`, `k = j/8`
being the wire byte (natural-number subtraction is cut off at 0). -/
theorem C04_big_endian_bit (n j : Nat) (hj : j < n) : specBit true n j = (n - 8 * (j / 8 + 1)) + j % 8 := by
  unfold specBit
  simp only [if_true]
  split
  · rfl
  · omega

/-- C04: for either byte order and every width, wire bits and value bits correspond one to one. -/
theorem C04_bijection (big : Bool) (n : Nat) :
    (∀ j, j < n → specBit big n j < n) ∧
    (∀ i j, i < n → j < n → specBit big n i = specBit big n j → i = j) ∧
    (∀ k, k < n → ∃ j, j < n ∧ specBit big n j = k) := by
  refine ⟨fun j hj => ?_, fun i j hi hj h => ?_, fun k hk => ?_⟩
  · rw [specBit_eq big hj]; exact valueBit_lt hj
  · cases big with
    | false => simpa [specBit] using h
    | true =>
      rw [C04_big_endian_bit n i hi, C04_big_endian_bit n j hj] at h
      omega
  · obtain ⟨j, hj, e⟩ := valueBit_surj (big := big) hk
    exact ⟨j, hj, by rw [specBit_eq big hj]; exact e⟩

/-- Byte `k` (from the least significant) of a value. -/
def valueByte {w : Nat} (x : BitVec w) (k : Nat) : Byte := (x >>> (8 * k)).setWidth 8

theorem scWire_bytes {w : Nat} (m : Nat) (big : Bool) (x : BitVec w) :
    scWire (8 * m) big x = byteWire ((List.range m).map fun k => valueByte x (if big then m - 1 - k else k)) := by
  apply List.ext_getElem?
  intro j
  rw [scWire_getElem?, byteWire_getElem?]
  simp only [List.length_map, List.length_range]
  by_cases hj : j < 8 * m
  · have h1 : j / 8 < m := by omega
    simp only [hj, if_true, ← specBit_eq big hj]
    unfold bitAt
    rw [List.getD_eq_getElem?_getD, List.getElem?_map, List.getElem?_range h1, Option.map_some, Option.getD_some]
    unfold valueByte
    rw [BitVec.getLsbD_setWidth, BitVec.getLsbD_ushiftRight]
    have h8 : j % 8 < 8 := by omega
    simp only [h8, decide_true, Bool.true_and, Option.some.injEq]
    have : specBit big (8 * m) j = 8 * (if big = true then m - 1 - j / 8 else j / 8) + j % 8 := by
      cases big with
      | false => simp only [specBit, Bool.false_eq_true, if_false]; omega
      | true => rw [C04_big_endian_bit _ _ hj]; simp only [if_true]; omega
    rw [this]
  · simp [hj]

/-- C04 on whole messages: a message with a single scalar field of `m` bytes encodes to the bytes of
its value, most significant first for big endian, least significant first for little endian. -/
theorem C04_bytes (c : Cfg) (s : Sc) (m : Nat) (big : Bool)
    (hacc : (Fields.one (.sc s) (some (8 * m)) big .nil).accepted = true)
    (x : BitVec s.width) (hv : (Fields.one (.sc s) (some (8 * m)) big .nil).Legal (x, ())) :
    (Fields.one (.sc s) (some (8 * m)) big .nil).encode c (x, ()) =
      some ((List.range m).map fun k => valueByte x (if big then m - 1 - k else k)) := by
  obtain ⟨d, e, _, hl, _, ha⟩ := Fields.encode_spec c hacc (Fields.Legal.valid c false _ _ hv)
  rw [e]
  have hwire : (Fields.one (.sc s) (some (8 * m)) big .nil).wire (x, ()) =
      byteWire ((List.range m).map fun k => valueByte x (if big then m - 1 - k else k)) := by
    simp only [Fields.wire, Ty.wire, Ty.dynamic, Option.getD_some, Bool.false_eq_true, if_false, List.append_nil]
    exact scWire_bytes m big x
  rw [hwire] at ha hl
  have hb := Agrees.bytes (k := 0) (by simpa using ha)
  rw [byteWire_length] at hl
  simp only [List.drop_zero] at hb
  congr 1
  rw [← hb.1]
  exact (List.take_of_length_le (by omega)).symm

example : (Fields.one (.sc (.prim .u32)) (some (8 * 3)) true .nil).encode cfg ((0x00ABCDEF#32 : BitVec 32), ()) =
    some [0xAB#8, 0xCD#8, 0xEF#8] := by
  refine (C04_bytes cfg (.prim .u32) 3 true (by decide +kernel) _ ⟨nofun, trivial⟩).trans ?_
  decide +kernel

/-! ### C12 -/

theorem inRange_toInt {s : Sc} {n : Nat} (h : s.wf n = true) (x : BitVec s.width) (hx : s.InRange n x) :
    if s.signed then x.toInt = (x.setWidth n).toInt else x.toNat = (x.setWidth n).toNat := by
  have hf := Sc.wf_facts h
  have hc := Sc.conv_setWidth h x hx
  unfold Sc.conv at hc
  cases hs : s.signed with
  | true =>
    rw [hs] at hc
    simp only [if_true] at hc ⊢
    conv => lhs; rw [← hc]
    rw [BitVec.toInt_signExtend_of_le hf.2.1]
  | false =>
    rw [hs] at hc
    simp only [Bool.false_eq_true, if_false] at hc ⊢
    conv => lhs; rw [← hc]
    rw [BitVec.toNat_setWidth_of_le hf.2.1]

/-- C12: whatever bytes Decode accepts, a scalar field anywhere in the message gets the number its
`n` bits stand for: two's complement for signed types, binary for unsigned ones, under every
sign-extension option.  `pos` is the position of the field: behind the bits `pre` occupies. -/
theorem C12_sign_extension (c : Cfg) (pre post : Fields) (s : Sc) (n : Nat) (big : Bool)
    (hacc : (pre.append (.one (.sc s) (some n) big post)).accepted = true)
    (hwf : s.wf n = true)
    (hn : (pre.append (.one (.sc s) (some n) big post)).noDirectDyn = true)
    (d : Buf) (hd : d.length < 2 ^ 62) (hw : (pre.append (.one (.sc s) (some n) big post)).NoWrap d)
    (v : (pre.append (.one (.sc s) (some n) big post)).Val) (k : Nat)
    (h : (pre.append (.one (.sc s) (some n) big post)).decode c d = .ok (v, k)) :
    ∃ (x : pre.Val) (y : BitVec s.width) (z : post.Val) (w : List (Option Bool)) (raw : BitVec n),
      v = pre.join (.one (.sc s) (some n) big post) x (y, z) ∧
      pre.Repr c x w ∧ w.length + n ≤ 8 * k ∧
      (∀ j, j < n → raw.getLsbD (specBit big n j) = bitAt d (w.length + j)) ∧
      (if s.signed then y.toInt = raw.toInt else y.toNat = raw.toNat) := by
  obtain ⟨ws, hr, ha, hl⟩ := (Fields.decode_iff c hacc hn hd hw v k).mp h
  obtain ⟨x, ⟨y, z⟩, rfl⟩ := Fields.join_surj pre (.one (.sc s) (some n) big post) v
  obtain ⟨w1, w2, h1, h2, rfl⟩ := (Fields.Repr_append c pre (.one (.sc s) (some n) big post) x (y, z) ws).mp hr
  obtain ⟨u1, u2, g1, g2, rfl⟩ := h2
  rw [Option.getD_some] at g1
  obtain ⟨hir, rfl⟩ : s.InRange n y ∧ u1 = scWire n big (y : BitVec s.width) := by
    simpa only [Ty.Repr, Bool.and_false, Bool.false_eq_true, if_false] using g1
  simp only [Ty.dynamic, Bool.false_eq_true, if_false, List.append_nil] at ha hl
  refine ⟨x, y, z, w1, BitVec.setWidth n (y : BitVec s.width), rfl, h1, ?_, ?_, inRange_toInt hwf y hir⟩
  · rw [hl]
    have : (@scWire s.width n big y).length = n := scWire_length n big (show BitVec s.width from y)
    simp only [List.length_append]
    omega
  · intro j hj
    have a2 := (Agrees.append.mp (Agrees.append.mp ha).2).1
    have := RawAt.agrees a2 j hj
    rw [Nat.zero_add] at this
    rw [specBit_eq big hj]; exact this

/-- C12: a message that holds one scalar is never refused when enough bytes are given. -/
theorem C12_total (c : Cfg) (s : Sc) (n pad : Nat) (big : Bool)
    (hacc : (Fields.one (.sc s) (some n) big (.void pad .nil)).accepted = true) (hwf : s.wf n = true)
    (d : Buf) (hd : d.length < 2 ^ 62) (hlen : n + pad ≤ 8 * d.length) :
    ∃ x : BitVec s.width, (Fields.one (.sc s) (some n) big (.void pad .nil)).decode c d = .ok ((x, ()), (n + pad) / 8) := by
  obtain ⟨v, _, r, hraw, _⟩ := sc_dec_loop (big := big) .shift hwf 0 d (by omega)
  have hag := RawAt.toAgrees (x := s.conv r) hraw (by omega) (Sc.conv_bits hwf r)
  have hrep : (Fields.one (.sc s) (some n) big (.void pad .nil)).Repr c (s.conv r, ())
      (scWire n big (s.conv r) ++ List.replicate pad none) := by
    refine ⟨scWire n big (s.conv r), List.replicate pad none, ?_, ⟨[], rfl, by simp⟩, by simp [Ty.dynamic]⟩
    simp only [Ty.Repr, Bool.and_false, Bool.false_eq_true, if_false, Option.getD_some]
    exact ⟨Sc.conv_inRange hwf r, trivial⟩
  have ha : Agrees d 0 (scWire n big (s.conv r) ++ List.replicate pad none) := by
    rw [Agrees.append]
    refine ⟨hag, by simp; omega, fun j b hj => ?_⟩
    rw [List.getElem?_replicate] at hj
    split at hj <;> cases hj
  obtain ⟨k, e, _, hk⟩ := Fields.decode_of_repr c hacc (by simp [Fields.noDirectDyn, Ty.noDirectDyn]) hd hrep ha
  refine ⟨s.conv r, ?_⟩
  simp only [List.length_append, scWire_length, List.length_replicate] at hk
  have : k = (n + pad) / 8 := by omega
  rw [e, this]

/-- A 13-bit signed big-endian field followed by 3 padding bits, all ones but the lowest: -2. -/
example : ∃ x : BitVec 16, (Fields.one (.sc (.prim .i16)) (some 13) true (.void 3 .nil)).decode cfg [0xFF#8, 0x1E#8] =
    .ok ((x, ()), 2) ∧ x.toInt = -2 := by
  obtain ⟨x, e⟩ := C12_total cfg (.prim .i16) 13 3 true (by decide +kernel) (by decide) [0xFF#8, 0x1E#8] (by decide) (by decide)
  have : (match (Fields.one (.sc (.prim .i16)) (some 13) true (.void 3 .nil)).decode cfg [0xFF#8, 0x1E#8] with
    | .ok (v, _) => decide ((show BitVec 16 from v.1).toInt = -2)
    | _ => false) = true := by decide +kernel
  rw [e] at this
  simp only [decide_eq_true_eq] at this
  exact ⟨x, e, this⟩

/-! ### C13 -/

/-- The message `{ bytes b; }`. -/
def bytesMsg : Fields := .one .bytes none false .nil
/-- The message `{ string s; }`. -/
def stringMsg : Fields := .one .str none false .nil

theorem bytesMsg_ok : bytesMsg.accepted = true ∧ bytesMsg.noDirectDyn = true ∧ bytesMsg.noDynArr = true := by
  decide +kernel
theorem stringMsg_ok : stringMsg.accepted = true ∧ stringMsg.noDirectDyn = true ∧ stringMsg.noDynArr = true := by
  decide +kernel

theorem encode_eq_of_bytes (c : Cfg) {fs : Fields} (hacc : fs.accepted = true) {v : fs.Val} (hv : fs.Legal v)
    {bs : List Byte} (hw : fs.wire v = byteWire bs) : fs.encode c v = some bs := by
  obtain ⟨d, e, _, hl, _, ha⟩ := Fields.encode_spec c hacc (Fields.Legal.valid c false _ _ hv)
  rw [hw] at ha hl
  have hb := Agrees.bytes (k := 0) (by simpa using ha)
  rw [byteWire_length] at hl
  simp only [List.drop_zero] at hb
  rw [e]
  congr 1
  rw [← hb.1]
  exact (List.take_of_length_le (by omega)).symm

/-- C13: a bytes field is encoded as the base-128 little-endian varint of its length, then its bytes. -/
theorem C13_bytes_encoding (c : Cfg) (b : List Byte) (h : b.length ≤ maxInt) :
    bytesMsg.encode c (b, ()) = some (varint b.length ++ b) ∧
    bytesMsg.encodeSize (b, ()) = (varint b.length).length + b.length := by
  have hv : bytesMsg.Legal (b, ()) := ⟨h, trivial⟩
  have hw : bytesMsg.wire (b, ()) = byteWire (varint b.length ++ b) := by
    simp only [bytesMsg, Fields.wire, Ty.wire, Option.getD_none, List.replicate_zero, ite_self, List.append_nil]
  refine ⟨encode_eq_of_bytes c bytesMsg_ok.1 hv hw, ?_⟩
  have := C02_size_is_wire_size bytesMsg_ok.1 _ hv
  rw [hw, byteWire_length, List.length_append] at this
  omega

/-- C13: the varint is a varint: reading it as LEB128 gives the number back, it has the fewest
bytes possible, and at most nine for a length that fits Go's int. -/
theorem C13_varint (n : Nat) :
    leb (varint n) = some n ∧ (∀ bs, leb bs = some n → (varint n).length ≤ bs.length) ∧
    (n ≤ maxInt → (varint n).length ≤ 9) :=
  ⟨leb_varint n, fun _ h => leb_varint_le h, varint_le9⟩

/-- C13: exactly which inputs Decode accepts for a bytes field. -/
theorem C13_bytes_decoding (c : Cfg) (d : Buf) (hd : d.length < 2 ^ 62) (b : List Byte) (n : Nat) :
    bytesMsg.decode c d = .ok ((b, ()), n) ↔
      ∃ pre rest, d = pre ++ b ++ rest ∧ leb pre = some b.length ∧ pre.length ≤ 9 ∧ n = pre.length + b.length := by
  refine (Fields.decode_iff c bytesMsg_ok.1 bytesMsg_ok.2.1 hd
    (Fields.noWrap_of_noDynArr bytesMsg_ok.1 bytesMsg_ok.2.2 hd) (b, ()) n).trans ?_
  constructor
  · rintro ⟨ws, ⟨w1, w2, ⟨bs, h1, h2, rfl⟩, h3, rfl⟩, ha, hl⟩
    simp only [Fields.Repr] at h3
    subst h3
    simp only [Option.getD_none, List.replicate_zero, ite_self, List.append_nil] at ha hl
    have hb := Agrees.bytes (k := 0) (by simpa using ha)
    simp only [List.drop_zero] at hb
    rw [byteWire_length, List.length_append] at hl
    refine ⟨bs, d.drop (bs ++ b).length, ?_, h1, h2, by omega⟩
    conv => lhs; rw [← List.take_append_drop (bs ++ b).length d, hb.1]
  · rintro ⟨pre, rest, rfl, h1, h2, rfl⟩
    refine ⟨byteWire (pre ++ b), ⟨byteWire (pre ++ b), [], ⟨pre, h1, h2, rfl⟩, rfl, by simp⟩, ?_, ?_⟩
    · have := (agrees_bytes_iff (d := pre ++ b ++ rest) (k := 0) (s := pre ++ b)).mpr
        ⟨by rw [List.drop_zero, List.take_left'  rfl], by simp⟩
      simpa using this
    · rw [byteWire_length, List.length_append]

theorem leb_all_ge : ∀ (pre : List Byte) (m : Nat), leb pre = some m → ∃ k, k + 1 = pre.length ∧ ∀ b, pre[k]? = some b → b.toNat < 128
  | [], m => by intro h; simp [leb] at h
  | b :: bs, m => by
    intro h
    simp only [leb] at h
    split at h
    · rename_i hb
      split at h
      · rename_i he
        subst he
        exact ⟨0, rfl, fun b' hb' => by simp at hb'; rw [← hb']; exact hb⟩
      · cases h
    · cases hl : leb bs with
      | none => rw [hl] at h; cases h
      | some m' =>
        obtain ⟨k, hk, hlt⟩ := leb_all_ge bs m' hl
        exact ⟨k + 1, by simp [hk], fun b' hb' => hlt b' (by simpa using hb')⟩

/-- C13: a prefix longer than nine bytes (more than 63 bits) is refused, whatever follows. -/
theorem C13_long_prefix_refused (c : Cfg) (d : Buf) (hd : d.length < 2 ^ 62)
    (h : ∀ i b, i < 9 → d[i]? = some b → 128 ≤ b.toNat) : bytesMsg.decode c d = .fail := by
  rcases (C09_decode_total_noDynArr c bytesMsg_ok.1 bytesMsg_ok.2.1 bytesMsg_ok.2.2 d hd).1 with hf | ⟨⟨(b : List Byte), u⟩, n, e, _⟩
  · exact hf
  · obtain ⟨pre, rest, rfl, h1, h2, _⟩ := (C13_bytes_decoding c d hd b n).mp e
    obtain ⟨k, hk, hlt⟩ := leb_all_ge pre _ h1
    have hkl : k < pre.length := by omega
    have e1 : pre[k]? = some pre[k] := List.getElem?_eq_getElem hkl
    have e2 : (pre ++ (b : List Byte) ++ rest)[k]? = some pre[k] := by
      rw [List.append_assoc, List.getElem?_append_left hkl, e1]
    have := hlt _ e1
    have := h k _ (by omega) e2
    omega

example : bytesMsg.encode cfg ((List.replicate 300 7#8 : List Byte), ()) =
    some ([0xAC#8, 0x02#8] ++ List.replicate 300 7#8) := by
  rw [(C13_bytes_encoding cfg (List.replicate 300 7#8) (by rw [List.length_replicate]; decide)).1]
  have : varint (List.replicate 300 7#8).length = [0xAC#8, 0x02#8] := by decide +kernel
  rw [this]

/-! ### C14 -/

/-- C14: a string is encoded as its bytes and a zero byte. -/
theorem C14_string_encoding (c : Cfg) (s : List Byte) :
    stringMsg.encode c (s, ()) = some (s ++ [0#8]) ∧ stringMsg.encodeSize (s, ()) = s.length + 1 := by
  have hv : stringMsg.Legal (s, ()) := ⟨trivial, trivial⟩
  have hw : stringMsg.wire (s, ()) = byteWire (s ++ [0#8]) := by
    simp only [stringMsg, Fields.wire, Ty.wire, Option.getD_none, List.replicate_zero, ite_self, List.append_nil]
  refine ⟨encode_eq_of_bytes c stringMsg_ok.1 hv hw, ?_⟩
  have := C02_size_is_wire_size stringMsg_ok.1 _ hv
  rw [hw, byteWire_length, List.length_append] at this
  simp only [List.length_cons, List.length_nil] at this
  omega

/-- C14: exactly which inputs Decode accepts for a string field. -/
theorem C14_string_decoding (c : Cfg) (d : Buf) (hd : d.length < 2 ^ 62) (s : List Byte) (n : Nat) :
    stringMsg.decode c d = .ok ((s, ()), n) ↔
      ∃ rest, d = s ++ 0#8 :: rest ∧ 0#8 ∉ s ∧ n = s.length + 1 := by
  refine (Fields.decode_iff c stringMsg_ok.1 stringMsg_ok.2.1 hd
    (Fields.noWrap_of_noDynArr stringMsg_ok.1 stringMsg_ok.2.2 hd) (s, ()) n).trans ?_
  constructor
  · rintro ⟨ws, ⟨w1, w2, ⟨h1, rfl⟩, h3, rfl⟩, ha, hl⟩
    simp only [Fields.Repr] at h3
    subst h3
    simp only [Option.getD_none, List.replicate_zero, ite_self, List.append_nil] at ha hl
    have hb := Agrees.bytes (k := 0) (by simpa using ha)
    simp only [List.drop_zero] at hb
    rw [byteWire_length, List.length_append] at hl
    simp only [List.length_cons, List.length_nil] at hl
    refine ⟨d.drop (s ++ [0#8]).length, ?_, h1, by omega⟩
    conv => lhs; rw [← List.take_append_drop (s ++ [0#8]).length d, hb.1]
    simp
  · rintro ⟨rest, rfl, h1, rfl⟩
    refine ⟨byteWire (s ++ [0#8]), ⟨byteWire (s ++ [0#8]), [], ⟨h1, rfl⟩, rfl, by simp⟩, ?_, ?_⟩
    · have := (agrees_bytes_iff (d := s ++ 0#8 :: rest) (k := 0) (s := s ++ [0#8])).mpr
        ⟨by rw [List.drop_zero, show s ++ 0#8 :: rest = (s ++ [0#8]) ++ rest by simp, List.take_left' rfl], by simp⟩
      simpa using this
    · rw [byteWire_length, List.length_append]; simp

theorem takeWhile_split (s : List Byte) : ∃ rest, s ++ [0#8] = s.takeWhile (· ≠ 0#8) ++ 0#8 :: rest ∧ 0#8 ∉ s.takeWhile (· ≠ 0#8) := by
  induction s with
  | nil => exact ⟨[], by simp, by simp⟩
  | cons b bs ih =>
    by_cases hb : b = 0#8
    · subst hb; exact ⟨bs ++ [0#8], by simp, by simp⟩
    · obtain ⟨rest, e, hn⟩ := ih
      refine ⟨rest, ?_, ?_⟩
      · rw [List.takeWhile_cons_of_pos (by simpa using hb), List.cons_append, List.cons_append, e]
      · rw [List.takeWhile_cons_of_pos (by simpa using hb)]
        simp only [List.mem_cons, not_or]
        exact ⟨fun h => hb h.symm, hn⟩

theorem takeWhile_self : ∀ (s : List Byte), 0#8 ∉ s → s.takeWhile (· ≠ 0#8) = s
  | [], _ => rfl
  | b :: bs, h => by
    simp only [List.mem_cons, not_or] at h
    rw [List.takeWhile_cons_of_pos (by simpa using fun e => h.1 e.symm), takeWhile_self bs h.2]

/-- C14: a string comes back cut at its first zero byte; so it round-trips exactly when it has none. -/
theorem C14_string_roundtrip (c c' : Cfg) (s : List Byte) (hs : s.length < 2 ^ 61) :
    ∃ d, stringMsg.encode c (s, ()) = some d ∧
      stringMsg.decode c' d = .ok ((s.takeWhile (· ≠ 0#8), ()), (s.takeWhile (· ≠ 0#8)).length + 1) ∧
      (s.takeWhile (· ≠ 0#8) = s ↔ 0#8 ∉ s) := by
  refine ⟨s ++ [0#8], (C14_string_encoding c s).1, ?_, ?_⟩
  · refine (C14_string_decoding c' (s ++ [0#8]) (by simp; omega) _ _).mpr ?_
    obtain ⟨rest, e, hn⟩ := takeWhile_split s
    exact ⟨rest, e, hn, rfl⟩
  · obtain ⟨rest, e, hn⟩ := takeWhile_split s
    constructor
    · intro h; rw [h] at hn; exact hn
    · intro h
      exact takeWhile_self s h

/-! ### C15 -/

/-- C15: if Decode succeeds, the bits at the place of a constant field are those of the literal; and
conversely an encoded message holds the literal there. -/
theorem C15_constant_checked (c : Cfg) (pre post : Fields) (p : Prim) (n : Nat) (big : Bool) (val : Nat)
    (hacc : (pre.append (.const p n big val post)).accepted = true)
    (hn : (pre.append (.const p n big val post)).noDirectDyn = true)
    (d : Buf) (hd : d.length < 2 ^ 62) (hw : (pre.append (.const p n big val post)).NoWrap d)
    (v : (pre.append (.const p n big val post)).Val) (k : Nat)
    (h : (pre.append (.const p n big val post)).decode c d = .ok (v, k)) :
    ∃ (x : pre.Val) (y : post.Val) (w : List (Option Bool)),
      v = pre.join (.const p n big val post) x y ∧ pre.Repr c x w ∧
      ∀ j, j < n → bitAt d (w.length + j) = val.testBit (specBit big n j) := by
  obtain ⟨ws, hr, ha, hl⟩ := (Fields.decode_iff c hacc hn hd hw v k).mp h
  obtain ⟨x, y, rfl⟩ := Fields.join_surj pre (.const p n big val post) v
  obtain ⟨w1, w2, h1, h2, rfl⟩ := (Fields.Repr_append c pre _ x y ws).mp hr
  obtain ⟨w', h3, rfl⟩ := h2
  refine ⟨x, y, w1, rfl, h1, fun j hj => ?_⟩
  have a2 := (Agrees.append.mp (Agrees.append.mp ha).2).1
  have := a2.2 j ((BitVec.ofNat 64 val).getLsbD (specBit big n j)) (by simp [scWire, hj])
  rw [Nat.zero_add] at this
  rw [this, BitVec.getLsbD_ofNat]
  have hn64 : n ≤ 64 := by
    have hwf := (Fields.accepted_facts hacc).1
    have : ∀ (f : Fields) (start : Nat), (f.append (.const p n big val post)).wf start = true → n ≤ p.width := by
      intro f
      induction f using Fields.rec (motive_1 := fun _ => True) with
      | nil =>
        intro start h
        simp only [Fields.append, Fields.wf, Bool.and_eq_true, decide_eq_true_eq] at h
        omega
      | void m r ih => intro start h; exact ih _ (by simpa [Fields.append, Fields.wf] using h)
      | const p' m b v' r ih =>
        intro start h
        simp only [Fields.append, Fields.wf, Bool.and_eq_true] at h
        exact ih _ h.2
      | one t bits b r _ ih =>
        intro start h
        exact ih _ (wf_one h).2.1
      | arr t len bits b r _ ih =>
        intro start h
        exact ih _ (wf_arr h).2.2.1
      | _ => trivial
    have := this pre 0 hwf
    have := p.width_facts
    omega
  have : specBit big n j < 64 := by rw [specBit_eq big hj]; have := valueBit_lt (big := big) hj; omega
  simp [this]

/-- C15: constants behind fixed-size fields: a message whose bits differ from the literal is refused. -/
theorem C15_wrong_constant_refused (c : Cfg) (pre post : Fields) (p : Prim) (n : Nat) (big : Bool) (val : Nat)
    (hacc : (pre.append (.const p n big val post)).accepted = true)
    (hn : (pre.append (.const p n big val post)).noDirectDyn = true)
    (hpre : pre.wf 0 = true) (hstat : pre.dynamic = false)
    (d : Buf) (hd : d.length < 2 ^ 62) (hw : (pre.append (.const p n big val post)).NoWrap d)
    (j : Nat) (hj : j < n) (hdiff : bitAt d (pre.sum + j) ≠ val.testBit (specBit big n j)) :
    (pre.append (.const p n big val post)).decode c d = .fail := by
  rcases (C09_decode_total c hacc hn d hd hw).1 with hf | ⟨v, k, e, _⟩
  · exact hf
  · obtain ⟨x, y, w, _, hr, hb⟩ := C15_constant_checked c pre post p n big val hacc hn d hd hw v k e
    have := Fields.Repr_length c pre 0 x w hpre hstat hr
    rw [this] at hb
    exact absurd (hb j hj) hdiff

/-- C15: a constant field always encodes its literal. -/
theorem C15_constant_encoded (c : Cfg) (pre post : Fields) (p : Prim) (n : Nat) (big : Bool) (val : Nat)
    (hacc : (pre.append (.const p n big val post)).accepted = true) (hn64 : n ≤ 64)
    (x : pre.Val) (y : post.Val) (hv : (pre.append (.const p n big val post)).Legal (pre.join (.const p n big val post) x y)) :
    ∃ d, (pre.append (.const p n big val post)).encode c (pre.join (.const p n big val post) x y) = some d ∧
      ∀ j, j < n → bitAt d ((pre.wire x).length + j) = val.testBit (specBit big n j) := by
  obtain ⟨d, e, _, _, _, ha⟩ := Fields.encode_spec c hacc (Fields.Legal.valid c false _ _ hv)
  refine ⟨d, e, fun j hj => ?_⟩
  have ha' := Eq.mp (congrArg (Agrees d 0) (Fields.wire_append pre (.const p n big val post) x y)) ha
  have h2 := (Agrees.append.mp ha').2
  simp only [Fields.wire] at h2
  have h3 := (Agrees.append.mp h2).1.2 j ((BitVec.ofNat 64 val).getLsbD (specBit big n j)) (by simp [scWire, hj])
  rw [Nat.zero_add] at h3
  rw [h3, BitVec.getLsbD_ofNat]
  have : specBit big n j < 64 := by rw [specBit_eq big hj]; have := valueBit_lt (big := big) hj; omega
  simp [this]

/-! ### C16 -/

/-- C16: whatever Decode accepts is in range, and encoding it gives a message, not longer than what
was read, that decodes to the same value. -/
theorem C16_decoded_reencodable (c : Cfg) {fs : Fields} (hacc : fs.accepted = true) (hn : fs.noDirectDyn = true)
    (d : Buf) (hd : d.length < 2 ^ 62) (hw : fs.NoWrap d) (v : fs.Val) (n : Nat)
    (h : fs.decode c d = .ok (v, n)) :
    fs.InRange v ∧ ∃ d', fs.encode c v = some d' ∧ d'.length ≤ n ∧ fs.decode c d' = .ok (v, d'.length) := by
  obtain ⟨ws, hr, ha, hl⟩ := (Fields.decode_iff c hacc hn hd hw v n).mp h
  have h1 := (Fields.accepted_facts hacc).1
  obtain ⟨hv, hir⟩ := Fields.Repr_ok c fs 0 v ws h1 hr
  obtain ⟨d', e, _, hl8, _, ha'⟩ := Fields.encode_spec c hacc hv
  have hle := Fields.wire_le_repr c fs v ws hr
  have hlen := ha.length_le
  refine ⟨hir, d', e, by omega, ?_⟩
  obtain ⟨k, e1, _, hk⟩ := Fields.decode_of_repr c hacc hn (d := d') (by omega)
    (Fields.wire_repr c fs 0 v h1 hv hir) ha'
  have : k = d'.length := by omega
  rw [e1, this]

/-! ### Concrete messages that meet the hypotheses of C03, C06, C08-C11, C15, C16 -/

/-- `struct Small { uint8 MAGIC = 0xA5; uint16 n[#12]; void[#4]; bytes b; }` -/
def small : Fields :=
  .const .u8 8 false 0xA5 <| .one (.sc (.prim .u16)) (some 12) false <| .void 4 <| .one .bytes none false <| .nil

def smallVal : small.Val := ((0xABC#16 : BitVec 16), ([7#8, 8#8] : List Byte), ())
/-- `Small{n: 0xABC, b: {7, 8}}` on the wire, and the same message with a non-minimal length prefix. -/
def smallMsg : Buf := [0xA5#8, 0xBC#8, 0x0A#8, 2#8, 7#8, 8#8]
def smallLong : Buf := [0xA5#8, 0xBC#8, 0xFA#8, 0x82#8, 0#8, 7#8, 8#8]

theorem small_accepted : small.accepted = true := by decide +kernel
theorem small_noDirectDyn : small.noDirectDyn = true := by decide +kernel
theorem small_noDynArr : small.noDynArr = true := by decide +kernel
theorem small_noBoolArr : small.noBoolArr = true := by decide +kernel
theorem small_noWrap (d : Buf) (hd : d.length < 2 ^ 62) : small.NoWrap d :=
  Fields.noWrap_of_noDynArr small_accepted small_noDynArr hd

/-- What Decode makes of an input of `Small`, as plain data (to let the kernel evaluate it). -/
def smallRun (d : Buf) : Option ((Nat × List Byte) × Nat) :=
  match small.decode cfg d with
  | .ok (v, n) => some (((show BitVec 16 from v.1).toNat, (show List Byte from v.2.1)), n)
  | _ => none

theorem smallRun_some {d : Buf} {a : Nat} {b : List Byte} {n : Nat} (h : smallRun d = some ((a, b), n)) :
    small.decode cfg d = .ok ((BitVec.ofNat 16 a, b, ()), n) := by
  simp only [smallRun] at h
  split at h
  · rename_i v m e
    rw [e]
    obtain ⟨x, y, z⟩ := v
    simp only [Option.some.injEq, Prod.mk.injEq] at h
    obtain ⟨⟨rfl, rfl⟩, rfl⟩ := h
    congr 2
    refine Prod.ext ?_ rfl
    show x = BitVec.ofNat 16 (BitVec.toNat (w := 16) x)
    exact ((BitVec.ofNat_toNat 16 (show BitVec 16 from x)).trans (BitVec.setWidth_eq _)).symm
  · cases h

theorem smallMsg_decodes : small.decode cfg smallMsg = .ok (smallVal, 6) :=
  smallRun_some (a := 0xABC) (b := [7#8, 8#8]) (by decide +kernel)
theorem smallLong_decodes : small.decode cfg smallLong = .ok (smallVal, 7) :=
  smallRun_some (a := 0xABC) (b := [7#8, 8#8]) (by decide +kernel)

/-- C06: the options do not change what Decode makes of an input. -/
example : small.decode cfg' smallLong = .ok (smallVal, 7) := by
  rw [← C06_decode_option_independent cfg cfg' small_accepted small_noDirectDyn small_noBoolArr smallLong (by decide)
    (small_noWrap _ (by decide))]
  exact smallLong_decodes

/-- C08: every strict prefix of the 25 byte sample message is refused. -/
example : ∃ d, msg.encode cfg msgVal = some d ∧ ∀ k, k < d.length → msg.decode cfg' (d.take k) = .fail := by
  obtain ⟨d, e, h⟩ := C08_truncated cfg cfg' msg_accepted msg_noDirectDyn msgVal msg_legal msg_inRange msg_size
  exact ⟨d, e, fun k hk => (h k hk).1⟩

/-- C10: the size DecodeSize reports for the sample message, and for a non-minimal encoding. -/
example : ∃ d, msg.encode cfg msgVal = some d ∧ msg.decodeSize d = some 25 := by
  obtain ⟨d, e, h, h'⟩ := C10_decodeSize_of_encoding cfg msg_accepted msg_noDirectDyn msgVal msg_legal msg_inRange msg_size
  rw [h', msg_size_eq] at h
  exact ⟨d, e, h⟩
example : small.decodeSize smallLong = some 7 :=
  (C10_decode_count cfg small_accepted small_noDirectDyn smallLong (by decide) (small_noWrap _ (by decide)) _ _
    smallLong_decodes).1

/-- C11: with the constant, the number and the length prefix read, DecodeSize asks for six bytes. -/
example (e : Buf) (v : small.Val) (n : Nat) (he : (smallMsg.take 4 ++ e).length < 2 ^ 62)
    (h : small.decode cfg (smallMsg.take 4 ++ e) = .ok (v, n)) : 6 ≤ (smallMsg.take 4 ++ e).length :=
  (C11_missing_bytes cfg small_accepted small_noDirectDyn (smallMsg.take 4) (by decide) (small_noWrap _ (by decide)) 6
    (by decide) (by decide +kernel)).1 e v n he (small_noWrap _ he) h

/-- C09: garbage is refused or read within its bounds. -/
example (d : Buf) (hd : d.length < 2 ^ 62) : small.decode cfg' d = .fail ∨ ∃ v n, small.decode cfg' d = .ok (v, n) ∧ n ≤ d.length :=
  (C09_decode_total_noDynArr cfg' small_accepted small_noDirectDyn small_noDynArr d hd).1

/-- The fields of `Small` behind the constant, and a message with a constant behind a number:
`struct Late { uint16 n[#12]; uint8 K[#4] = 9; bytes b; }`. -/
def latePre : Fields := .one (.sc (.prim .u16)) (some 12) false .nil
def latePost : Fields := .one .bytes none false .nil
abbrev late : Fields := latePre.append (.const .u8 4 false 9 latePost)

theorem late_accepted : late.accepted = true := by decide +kernel
theorem late_noDirectDyn : late.noDirectDyn = true := by decide +kernel

theorem late_noWrap (d : Buf) (hd : d.length < 2 ^ 62) : late.NoWrap d :=
  Fields.noWrap_of_noDynArr late_accepted (by decide +kernel) hd

/-- C15: the upper half of the second byte must be 9; here it is 0xF, and the message is refused. -/
example : late.decode cfg [0xBC#8, 0xFA#8, 0#8] = .fail :=
  C15_wrong_constant_refused cfg latePre latePost .u8 4 false 9 late_accepted late_noDirectDyn (by decide +kernel)
    (by decide +kernel) _ (by decide) (late_noWrap _ (by decide)) 1 (by decide) (by decide +kernel)

/-- C15: and in every message that is read it is 9. -/
example (d : Buf) (hd : d.length < 2 ^ 62) (v : late.Val) (k : Nat) (h : late.decode cfg d = .ok (v, k)) :
    bitAt d 12 = true ∧ bitAt d 13 = false ∧ bitAt d 14 = false ∧ bitAt d 15 = true := by
  obtain ⟨x, y, w, _, hr, hb⟩ := C15_constant_checked cfg latePre latePost .u8 4 false 9 late_accepted late_noDirectDyn d hd
    (late_noWrap d hd) v k h
  have hl : w.length = 12 := (Fields.Repr_length cfg latePre 0 x w (by decide +kernel) (by decide +kernel) hr).trans
    (by decide +kernel)
  rw [hl] at hb
  exact ⟨(hb 0 (by decide)).trans (by decide +kernel), (hb 1 (by decide)).trans (by decide +kernel),
    (hb 2 (by decide)).trans (by decide +kernel), (hb 3 (by decide)).trans (by decide +kernel)⟩

/-- C15: and every encoded message has it. -/
example : ∃ d, late.encode cfg ((0xABC#16 : BitVec 16), ([7#8] : List Byte), ()) = some d ∧
    bitAt d 12 = true ∧ bitAt d 13 = false := by
  obtain ⟨d, e, hb⟩ := C15_constant_encoded cfg latePre latePost .u8 4 false 9 late_accepted (by decide)
    ((0xABC#16 : BitVec 16), ()) (([7#8] : List Byte), ())
    ⟨nofun, Nat.le_of_ble_eq_true rfl, trivial⟩
  exact ⟨d, e, (hb 0 (by decide)).trans (by decide +kernel), (hb 1 (by decide)).trans (by decide +kernel)⟩

/-- C03: the number is found behind the constant of `Small`. -/
example : ∃ d, small.encode cfg smallVal = some d ∧ ∀ j, j < 12 → bitAt d (8 + j) = (0xABC#16).getLsbD (specBit false 12 j) :=
  C03_field_position cfg (.const .u8 8 false 0xA5 .nil) (.void 4 <| .one .bytes none false <| .nil) (.prim .u16) 12 false
    small_accepted () (0xABC#16 : BitVec 16) (([7#8, 8#8] : List Byte), ()) ⟨nofun, Nat.le_of_ble_eq_true rfl, trivial⟩

/-- C16: a message with an overlong prefix and dirty padding is read, and re-encoded shorter. -/
example : small.InRange smallVal ∧ ∃ d', small.encode cfg smallVal = some d' ∧ d'.length ≤ 7 ∧
    small.decode cfg d' = .ok (smallVal, d'.length) :=
  C16_decoded_reencodable cfg small_accepted small_noDirectDyn smallLong (by decide) (small_noWrap _ (by decide)) _ _
    smallLong_decodes

end Bubbler
