import Verif.Codec.CSim
import Verif.Props.CodecNeg

/-
Property C17: the C target against the Go target.

`fs.cEncodeTo c v buf` is the generated C function `X_encode(&v, buf)` (contents of the buffer
afterwards and returned count; `none` = access outside the buffer), `fs.cDecode c d` is
`X_decode(d, &out)` (`panic` = access outside the data or another undefined operation).

`cOk start n` is about positions only: the field of `n` bits at bit `start` begins a byte, or lies
within one byte, or the bits it has in its last byte are at most the bits before it in its first byte.
`fs.cAligned 0` says that every scalar, constant and scalar array element at any depth is so placed.
-/
set_option linter.unusedSimpArgs false
namespace Bubbler
open Sample

theorem zeroFrom_zeros (k p : Nat) : ZeroFrom (List.replicate k 0#8) p := by
  intro i _
  unfold bitAt
  rw [List.getD_eq_getElem?_getD, List.getElem?_replicate]
  split <;> simp

/-- C17, encoding: on a zeroed buffer that is large enough, `X_encode` of the C target stores exactly
the bytes Go's Encode returns and returns their number, whatever options the two were generated with,
provided the fields are placed as described above. -/
theorem C17_encode_agrees (cc cg : Cfg) {fs : Fields} (hacc : fs.accepted = true) (hal : fs.cAligned 0 = true)
    (v : fs.Val) (hv : fs.Legal v) :
    ∃ d, fs.encode cg v = some d ∧
      ∀ k, fs.cEncodeTo cc v (List.replicate (d.length + k) 0#8) = some (d ++ List.replicate k 0#8, d.length) := by
  obtain ⟨d, e, hl, hl8, o, _⟩ := Fields.encode_spec cg hacc (Fields.Legal.valid cg false fs v hv)
  refine ⟨d, e, fun k => ?_⟩
  have hvc := Fields.Legal.valid cc false fs v hv
  obtain ⟨_, d', e', o'⟩ := Fields.encodeTo_spec cc hacc hvc
    (d := List.replicate (d.length + k) 0#8) (by simp; omega)
  have heq := Fields.cEncFields_eq cc fs v 0 (List.replicate (d.length + k) 0#8) 0
    (Fields.accepted_facts hacc).1 hvc hal (zeroFrom_zeros _ _) (by simp; omega)
  have hd' : d' = d ++ List.replicate k 0#8 := by
    apply Buf.ext_bits
    · rw [o'.1]; simp
    · intro i _
      rw [o'.2, if_pos (by omega), zeroFrom_zeros _ 0 i (by omega), Nat.sub_zero]
      by_cases hi : i < 8 * d.length
      · have hb : bitAt (d ++ List.replicate k 0#8) i = bitAt d i := by
          unfold bitAt
          rw [List.getD_eq_getElem?_getD, List.getElem?_append_left (by omega), ← List.getD_eq_getElem?_getD]
        rw [hb, o.2, if_pos (by omega), zeroFrom_zeros _ 0 i (by omega), Nat.sub_zero]
      · have hb : bitAt (d ++ List.replicate k 0#8) i = false := by
          unfold bitAt
          rw [List.getD_eq_getElem?_getD, List.getElem?_append_right (by omega), List.getElem?_replicate]
          split <;> simp
        rw [hb, List.getD_eq_getElem?_getD, List.getElem?_eq_none (by omega)]
        rfl
  unfold Fields.encodeTo at e'
  unfold Fields.cEncodeTo
  rw [heq]
  rw [hd', ← hl] at e'
  exact e'

/-- C17, decoding: `X_decode` of the C target returns the value that was encoded by Go, and the number
of bytes, also with other data behind the message.  (Total length below 2^31: the C code computes
lengths in `int`.)  Unlike Go's Decode this also holds for directly nested variable-length structs. -/
theorem C17_decode_agrees (cc cg : Cfg) {fs : Fields} (hacc : fs.accepted = true) (v : fs.Val) (hv : fs.Legal v)
    (hr : fs.InRange v) :
    ∃ d, fs.encode cg v = some d ∧
      ∀ rest, (d ++ rest).length < 2 ^ 31 → fs.cDecode cc (d ++ rest) = .ok (v, d.length) := by
  obtain ⟨d, e, hl, hl8, _, ha⟩ := Fields.encode_spec cg hacc (Fields.Legal.valid cg false fs v hv)
  refine ⟨d, e, fun rest hlen => ?_⟩
  have ha' : Agrees (d ++ rest) (8 * 0 + 0) (fs.wire v) := by
    refine ⟨by simp; omega, fun j b hj => ?_⟩
    have hj' : j < (fs.wire v).length := (List.getElem?_eq_some_iff.mp hj).1
    rw [← ha.2 j b hj]
    unfold bitAt
    simp only [Nat.mul_zero, Nat.zero_add]
    rw [List.getD_eq_getElem?_getD, List.getElem?_append_left (by omega), ← List.getD_eq_getElem?_getD]
  obtain ⟨o, e1, l1⟩ := Fields.cDecFields_agrees cc fs v 0 (d ++ rest) 0 (Fields.accepted_facts hacc).1 hlen
    (Fields.Legal.valid cc false fs v hv) hr ha'
  have h2 := (Fields.accepted_facts hacc).2.1
  unfold Fields.cDecode
  rw [e1]
  simp only
  congr 2
  omega

/-- C17, decoding any data: on every input whose size Go's DecodeSize accepts (C's `X_decode` checks no
size), whether or not it is the encoding of a value and whatever options the two were generated with,
`X_decode` does what Go's Decode does: the same value and count, or failure on exactly the same inputs
(a constant that is not there).  Only when the definition contains a bytes field the C code may instead
be undefined (its length prefix is computed in `int`). -/
theorem C17_decode_any_input (cc cg : Cfg) {fs : Fields} (hacc : fs.accepted = true) (hn : fs.noDirectDyn = true)
    (hc : cc = cg ∨ fs.noBoolArr = true) (d : Buf) (hd : d.length < 2 ^ 62) (hw : fs.NoWrap d)
    {sz : Int} (hsz : fs.decodeSize d = some sz) (hpos : 0 ≤ sz) :
    fs.cDecode cc d = fs.decode cg d ∨ (fs.cDecode cc d = .panic ∧ fs.noBytes = false) := by
  have e : fs.decode cg d = fs.decode cc d := by
    rcases hc with rfl | hc
    · rfl
    · exact C06_decode_option_independent cg cc hacc hn hc d hd hw
  rw [e]
  exact Fields.cDecode_sim cc hacc hn hd hsz hpos hw

/-- C17, both directions: what the C target encodes is decoded by Go and by C to the same value. -/
theorem C17_exchange (cc cg cc' : Cfg) {fs : Fields} (hacc : fs.accepted = true) (hal : fs.cAligned 0 = true)
    (hn : fs.noDirectDyn = true) (v : fs.Val) (hv : fs.Legal v) (hr : fs.InRange v)
    (hsz : fs.encodeSize v < 2 ^ 31) :
    ∃ d, fs.cEncodeTo cc v (List.replicate (fs.encodeSize v) 0#8) = some (d, d.length) ∧
      fs.decode cg d = .ok (v, d.length) ∧ fs.cDecode cc' d = .ok (v, d.length) := by
  obtain ⟨d, e, hdec⟩ := C01_roundtrip cg cg hacc hn v hv hr (by omega)
  obtain ⟨d1, e1, h1⟩ := C17_encode_agrees cc cg hacc hal v hv
  obtain ⟨d2, e2, h2⟩ := C17_decode_agrees cc' cg hacc v hv hr
  obtain ⟨⟨d3, e3, l3⟩, _⟩ := C02_size_exact cg hacc v hv
  rw [e] at e1 e2 e3
  cases e1; cases e2; cases e3
  have := h1 0
  simp only [Nat.add_zero, List.replicate_zero, List.append_nil] at this
  have h22 := h2 [] (by simp; omega)
  simp only [List.append_nil] at h22
  exact ⟨d, by rw [← l3]; exact this, hdec, h22⟩

/-- C17, one field, emitted statements: exactly the described positions are encoded as Go does.  For
any position, width and byte order, the C statements and the Go statements agree for every value on
every buffer that is zero from the field on if and only if `cOk start n`. -/
theorem C17_field_positions (big : Bool) (w start n : Nat) (hw8 : 8 ≤ w) (hw64 : w ≤ 64) (hn : n ≤ w) :
    (∀ (x : BitVec w) (base : Nat) (d : Buf), 8 * base + start + n ≤ 8 * d.length →
        (∀ i, 8 * base + start ≤ i → bitAt d i = false) →
        cEncField big start n x base d = encField big start n x base d) ↔ cOk start n = true := by
  constructor
  · intro h
    cases hc : cOk start n with
    | true => rfl
    | false =>
      exfalso
      obtain ⟨j, hj, hlost⟩ := cFieldBit_lost (fieldData big n (BitVec.allOnes w)) hc
      have hz := zeroFrom_zeros (start + n) (8 * 0 + start)
      have hd : 8 * 0 + start + n ≤ 8 * (List.replicate (start + n) 0#8).length := by
        rw [List.length_replicate]; omega
      have heq := h (BitVec.allOnes w) 0 (List.replicate (start + n) 0#8) hd hz
      obtain ⟨d1, e1, w1⟩ := cExecEnc_spec (fieldData big n (BitVec.allOnes w)) hw64 assignEmitted_ok 0 start n _ hd hz
      obtain ⟨d2, e2, w2⟩ := encField_spec big start n (BitVec.allOnes w) hw8 0 _ hd
      have hc1 : cEncField big start n (BitVec.allOnes w) 0 (List.replicate (start + n) 0#8) = some d1 := e1
      rw [hc1, e2] at heq
      cases heq
      have b1 := w1.2 (8 * 0 + start + j)
      have b2 := w2.2 (8 * 0 + start + j)
      rw [if_pos (by omega)] at b1 b2
      have ej : 8 * 0 + start + j - (8 * 0 + start) = j := by omega
      rw [ej] at b1 b2
      rw [b1, hlost] at b2
      simp only [BitVec.getLsbD_allOnes] at b2
      have := valueBit_lt (big := big) hj
      have hlt : valueBit big n j < w := by omega
      simp [hlt] at b2
  · intro h x base d hd hz
    exact cEncField_eq big start n x hw8 hw64 base d hd hz h

/-- C17, one array element, run-time helper `bb_write_field_bits`: the same positions. -/
theorem C17_helper_positions (big : Bool) (pos n : Nat) (hn : n ≤ 64) :
    (∀ (x : BitVec 64) (d : Buf), pos + n ≤ 8 * d.length → (∀ i, pos ≤ i → bitAt d i = false) →
        cWriteFieldBits d pos n x big = bbWriteFieldBits d pos n x big) ↔ cOk pos n = true := by
  constructor
  · intro h
    cases hc : cOk pos n with
    | true => rfl
    | false =>
      exfalso
      obtain ⟨j, hj, hlost⟩ := cFieldBit_lost
        (fun i => fieldData big n (if n < 64 then BitVec.allOnes 64 &&& ((1#64 <<< n) - 1#64) else BitVec.allOnes 64) i &&& 0xFF#64) hc
      have hz := zeroFrom_zeros (pos + n) pos
      have hd : pos + n ≤ 8 * (List.replicate (pos + n) 0#8).length := by
        rw [List.length_replicate]; omega
      have heq := h (BitVec.allOnes 64) (List.replicate (pos + n) 0#8) hd hz
      obtain ⟨d1, e1, w1⟩ := cExecEnc_spec
        (fun i => fieldData big n (if n < 64 then BitVec.allOnes 64 &&& ((1#64 <<< n) - 1#64) else BitVec.allOnes 64) i &&& 0xFF#64)
        (Nat.le_refl _) assignHelper_ok 0 pos n _ (by omega) (hz.mono (by omega))
      obtain ⟨d2, e2, w2⟩ := bbWriteFieldBits_spec _ pos n (BitVec.allOnes 64) big hd
      have hc1 : cWriteFieldBits (List.replicate (pos + n) 0#8) pos n (BitVec.allOnes 64) big = some d1 := e1
      rw [hc1, e2] at heq
      cases heq
      have b1 := w1.2 (8 * 0 + pos + j)
      have b2 := w2.2 (pos + j)
      rw [if_pos (by omega)] at b1 b2
      have ej : 8 * 0 + pos + j - (8 * 0 + pos) = j := by omega
      have ej2 : pos + j - pos = j := by omega
      have ep : 8 * 0 + pos + j = pos + j := by omega
      rw [ej, ep, hlost] at b1
      rw [ej2, b1] at b2
      simp only [BitVec.getLsbD_allOnes] at b2
      have := valueBit_lt (big := big) hj
      have hlt : valueBit big n j < 64 := by omega
      simp [hlt] at b2
  · intro h x d hd hz
    exact cWriteFieldBits_eq big pos n x d hd hz h

/-- C17, decoding a field: on any data the C statements read what the Go statements read, at every
position, and so does the C helper. -/
theorem C17_field_decoding (big : Bool) (w start n base : Nat) (d : Buf) (x0 : BitVec w)
    (hd : 8 * base + start + n ≤ 8 * d.length) :
    cDecField big start n base d x0 = decField big start n base d x0 ∧
    (0 < n → n ≤ 64 → cReadFieldBits d (8 * base + start) n big = bbReadFieldBits d (8 * base + start) n big) :=
  ⟨cDecField_eq big start n base d x0 hd, fun h0 h64 => cReadFieldBits_eq d _ n big h0 h64 hd⟩

/-! Positions: a field that starts a byte or lies in one byte is always fine, and so are consecutive
fields that end on a byte boundary. -/

theorem C17_positions_aligned (start n : Nat) :
    (start % 8 = 0 → cOk start n = true) ∧ (start % 8 + n ≤ 8 → cOk start n = true) ∧
    ((start + n) % 8 = 0 → cOk start n = true) := by
  refine ⟨fun h => ?_, fun h => ?_, fun h => ?_⟩ <;> simp [cOk, h]

/-! ### The hypotheses are met, and cannot be dropped -/

theorem msg_cAligned : msg.cAligned 0 = true := by decide +kernel

example : ∃ d, msg.encode cfg msgVal = some d ∧
    ∀ k, msg.cEncodeTo cfg' msgVal (List.replicate (d.length + k) 0#8) = some (d ++ List.replicate k 0#8, d.length) :=
  C17_encode_agrees cfg' cfg msg_accepted msg_cAligned msgVal msg_legal

example : ∃ d, msg.cEncodeTo cfg msgVal (List.replicate (msg.encodeSize msgVal) 0#8) = some (d, d.length) ∧
    msg.decode cfg' d = .ok (msgVal, d.length) ∧ msg.cDecode cfg d = .ok (msgVal, d.length) :=
  C17_exchange cfg cfg' cfg msg_accepted msg_cAligned msg_noDirectDyn msgVal msg_legal msg_inRange
    (by rw [msg_size_eq]; decide)

/-- `struct K { uint16 k[#12] = 0xABC; uint8 x[#4]; }` -/
def cConst : Fields := .const .u16 12 false 0xABC <| .one (.sc (.prim .u8)) (some 4) false <| .nil

/-- Any two bytes: a wrong constant is refused by both, a right one accepted by both. -/
example (x y : Byte) : cConst.cDecode cfg [x, y] = cConst.decode cfg' [x, y] := by
  have hl : [x, y].length < 2 ^ 62 := by simp only [List.length_cons, List.length_nil]; omega
  rcases C17_decode_any_input cfg cfg' (fs := cConst) (by decide +kernel) (by decide +kernel) (Or.inr (by decide +kernel))
    [x, y] hl (Fields.noWrap_of_noDynArr (by decide +kernel) (by decide +kernel) hl)
    (sz := 2) rfl (by decide) with h | ⟨_, h⟩
  · exact h
  · exact absurd h (by decide +kernel)

/-- `struct S { uint8 a[#3]; uint16 b[#12]; void[#1]; }` -/
def cBad : Fields :=
  .one (.sc (.prim .u8)) (some 3) false <| .one (.sc (.prim .u16)) (some 12) false <| .void 1 .nil
def cBadVal : cBad.Val := ((5#8 : BitVec 8), (0xFFF#16 : BitVec 16), ())

/-- C17 does not hold for every accepted definition: this one is encoded by Go as FD 7F; the C code
stores FD 77 (a bit of `b` is lost), which Go decodes as `b = 0xEFF`. -/
theorem C17_encode_counterexample :
    cBad.accepted = true ∧ cBad.cAligned 0 = false ∧ cBad.Legal cBadVal ∧ cBad.InRange cBadVal ∧
    cBad.encode cfg cBadVal = some [0xFD#8, 0x7F#8] ∧
    cBad.cEncodeTo cfg cBadVal [0#8, 0#8] = some ([0xFD#8, 0x77#8], 2) ∧
    cBad.decode cfg [0xFD#8, 0x77#8] = .ok (((5#8 : BitVec 8), (0xEFF#16 : BitVec 16), ()), 2) := by
  refine ⟨by decide +kernel, by decide +kernel, ⟨nofun, nofun, trivial⟩,
    ⟨by show (5#8).toNat < 2 ^ 3; decide, by show (0xFFF#16).toNat < 2 ^ 12; decide, trivial⟩, by decide +kernel, by decide +kernel, ?_⟩
  obtain ⟨d, e, h⟩ := C01_roundtrip cfg cfg (fs := cBad) (by decide +kernel) (by decide +kernel)
    ((5#8 : BitVec 8), (0xEFF#16 : BitVec 16), ()) ⟨nofun, nofun, trivial⟩
    ⟨by show (5#8).toNat < 2 ^ 3; decide, by show (0xEFF#16).toNat < 2 ^ 12; decide, trivial⟩
    (by decide +kernel)
  have e' : cBad.encode cfg ((5#8 : BitVec 8), (0xEFF#16 : BitVec 16), ()) = some [0xFD#8, 0x77#8] := by decide +kernel
  rw [e] at e'
  cases e'
  exact h

/-- `struct S { void[#3]; uint8 x[#5]; }` -/
def cVoid : Fields := .void 3 <| .one (.sc (.prim .u8)) (some 5) false <| .nil
def cVoidVal : cVoid.Val := ((2#8 : BitVec 8), ())

/-- C17 needs a zeroed buffer: on other contents the C code (operator `|=`) leaves old bits of the
buffer in the field: `x = 2` stored over FF reads back as 31.  Go's EncodeTo is right on any buffer. -/
theorem C17_dirty_buffer_counterexample :
    cVoid.accepted = true ∧ cVoid.cAligned 0 = true ∧
    cVoid.cEncodeTo cfg cVoidVal [0xFF#8] = some ([0xFF#8], 1) ∧
    cVoid.encodeTo cfg cVoidVal [0xFF#8] = some ([0x17#8], 1) := by
  refine ⟨by decide +kernel, by decide +kernel, ?_, ?_⟩ <;> decide +kernel

theorem cDecLen_step {k : Nat} {d : Buf} {acc : BitVec 64} {shift off : Nat} {b : Byte} (h : d.rd (off + k) = some b) :
    cDecLen k d acc shift off =
      if 32 ≤ shift ∨ 2 ^ 31 ≤ (b &&& 0x7F#8).toNat * 2 ^ shift then .panic
      else if b &&& 0x80#8 = 0#8 then .ok (acc ||| BitVec.ofNat 64 ((b &&& 0x7F#8).toNat * 2 ^ shift), off + 1)
      else cDecLen k d (acc ||| BitVec.ofNat 64 ((b &&& 0x7F#8).toNat * 2 ^ shift)) (shift + 7) (off + 1) := by
  rw [cDecLen]
  split
  · rename_i h'; rw [h] at h'; cases h'
  · rename_i b' h'; rw [h] at h'; cases h'; rfl

theorem decLen_step {k : Nat} {d : Buf} {acc : BitVec 64} {shift off : Nat} {b : Byte} (h : d.rd (off + k) = some b) :
    decLen k d acc shift off =
      if b &&& 0x80#8 = 0#8 then .ok (acc ||| ((b &&& 0x7F#8).setWidth 64 <<< shift), off + 1)
      else decLen k d (acc ||| ((b &&& 0x7F#8).setWidth 64 <<< shift)) (shift + 7) (off + 1) := by
  rw [decLen]
  split
  · rename_i h'; rw [h] at h'; cases h'
  · rename_i b' h'; rw [h] at h'; cases h'; rfl

/-- The prefix `80 80 80 80 08` (length 2^31) is undefined in C: `int` shift. -/
theorem C17_length_counterexample :
    cDecLen 0 [0x80#8, 0x80#8, 0x80#8, 0x80#8, 0x08#8] 0#64 0 0 = .panic ∧
    decLen 0 [0x80#8, 0x80#8, 0x80#8, 0x80#8, 0x08#8] 0#64 0 0 = .ok (0x80000000#64, 5) := by
  constructor
  · rw [cDecLen_step (b := 0x80#8) rfl, if_neg (by decide), if_neg (by decide),
      cDecLen_step (b := 0x80#8) rfl, if_neg (by decide), if_neg (by decide),
      cDecLen_step (b := 0x80#8) rfl, if_neg (by decide), if_neg (by decide),
      cDecLen_step (b := 0x80#8) rfl, if_neg (by decide), if_neg (by decide),
      cDecLen_step (b := 0x08#8) rfl, if_pos (by decide)]
  · rw [decLen_step (b := 0x80#8) rfl, if_neg (by decide),
      decLen_step (b := 0x80#8) rfl, if_neg (by decide),
      decLen_step (b := 0x80#8) rfl, if_neg (by decide),
      decLen_step (b := 0x80#8) rfl, if_neg (by decide),
      decLen_step (b := 0x08#8) rfl, if_pos (by decide)]
    decide +kernel

end Bubbler
