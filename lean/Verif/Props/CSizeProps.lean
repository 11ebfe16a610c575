import Verif.Codec.CSizeProofs
import Verif.Props.CProps

/-
Property C52: `encode_size` and `decode_size` of the C and C++ targets.

`fs.cEncodeSize v` and `fs.cDecodeSize d` are the generated `X_encode_size(&v)` and `X_decode_size(d, size)`;
`none` stands for undefined behaviour.  `(Ty.struct fs).ktReach` is the largest sum of the fixed sizes of
structs nested in each other, in bytes.
-/
set_option linter.unusedSimpArgs false
namespace Bubbler
open Sample

/-- C52, encode_size: the buffer size C asks for is the number of bytes Go's Encode returns, and is enough. -/
theorem C52_encode_size (cc cg : Cfg) {fs : Fields} (hacc : fs.accepted = true) (hal : fs.cAligned 0 = true)
    (v : fs.Val) (hv : fs.Legal v) :
    ∃ d, fs.encode cg v = some d ∧ d.length = fs.cEncodeSize v ∧
      fs.cEncodeTo cc v (List.replicate (fs.cEncodeSize v) 0#8) = some (d, fs.cEncodeSize v) := by
  obtain ⟨d, e, h⟩ := C17_encode_agrees cc cg hacc hal v hv
  obtain ⟨d', e', hl⟩ := (C02_size_exact cg hacc v hv).1
  rw [e] at e'; cases e'
  rw [Fields.cEncodeSize_eq hv, ← hl]
  refine ⟨d, e, rfl, ?_⟩
  have := h 0
  rwa [Nat.add_zero, List.replicate_zero, List.append_nil] at this

theorem Fields.noWrap_of_reach {fs : Fields} (hnb : fs.noBytes = true) (hr : (Ty.struct fs).ktReach < 2 ^ 61) {d : Buf}
    (hd : d.length < 2 ^ 62) : fs.NoWrap d := by
  intro r h
  have := Fields.iSize_reach hnb h
  omega

/-- C52, decode_size without bytes fields: on any input whatever, the result of C is that of Go. -/
theorem C52_decode_size_any_input {fs : Fields} (hacc : fs.accepted = true) (hnb : fs.noBytes = true)
    (hr : (Ty.struct fs).ktReach < 2 ^ 61) (d : Buf) (hd : d.length < 2 ^ 62) :
    ∃ sz, fs.cDecodeSize d = some sz ∧ fs.decodeSize d = some sz := by
  obtain ⟨h1, h2, h3, h4⟩ := Fields.accepted_facts hacc
  have hc := Fields.cDecodeSize_rel (d := d) h1 h3 h4 hd (Or.inl hnb)
  have hg := Fields.decodeSize_rel (d := d) h1 h3 h4 hd
  cases hi : fs.iSize d with
  | ok o => rw [hi] at hc hg; exact ⟨o, hc, hg⟩
  | ret r =>
    have := Fields.iSize_reach hnb hi
    rw [hi] at hc hg
    exact ⟨r, hc (by omega), hg (by omega)⟩

/-- C52, checked decoding without bytes fields: if `X_decode_size` is not negative, `X_decode` stays within
the data and does what Go's Decode does. -/
theorem C52_checked_decode (cc : Cfg) {fs : Fields} (hacc : fs.accepted = true) (hn : fs.noDirectDyn = true)
    (hnb : fs.noBytes = true) (hr : (Ty.struct fs).ktReach < 2 ^ 61) (d : Buf) (hd : d.length < 2 ^ 62)
    {sz : Int} (hsz : fs.cDecodeSize d = some sz) (hpos : 0 ≤ sz) :
    fs.cDecode cc d = fs.decode cc d ∧
      (fs.cDecode cc d = .fail ∨ ∃ v n, fs.cDecode cc d = .ok (v, n) ∧ (n : Int) = sz) := by
  obtain ⟨sz', h1, h2⟩ := C52_decode_size_any_input hacc hnb hr d hd
  rw [hsz] at h1; cases h1
  have hw := Fields.noWrap_of_reach hnb hr hd
  have e : fs.cDecode cc d = fs.decode cc d := by
    rcases C17_decode_any_input cc cc hacc hn (Or.inl rfl) d hd hw h2 hpos with h | ⟨_, h⟩
    · exact h
    · rw [hnb] at h; cases h
  refine ⟨e, ?_⟩
  rw [e]
  rcases (C09_decode_total cc hacc hn d hd hw).1 with h | ⟨v, n, h, _⟩
  · exact Or.inl h
  · refine Or.inr ⟨v, n, h, ?_⟩
    have := (C10_decode_count cc hacc hn d hd hw v n h).1
    rw [h2] at this
    exact (Option.some.inj this).symm

/-- C52, decode_size with bytes fields: on data Go accepts, and on all the data received on the way there
(`d`, when `rest` is still to come), the result of C is that of Go: `n` if it is not negative, otherwise more
than what is there and not more than what is to be there. -/
theorem C52_decode_size {fs : Fields} (hacc : fs.accepted = true) (d rest : Buf)
    (hd : (d ++ rest).length < 2 ^ 62) (hw : fs.NoWrap (d ++ rest)) {n : Int} (hn : fs.decodeSize (d ++ rest) = some n)
    (hpos : 0 ≤ n) :
    ∃ sz, fs.cDecodeSize d = some sz ∧ fs.decodeSize d = some sz ∧ (0 ≤ sz → sz = n ∧ n ≤ d.length) ∧
      (sz < 0 → (d.length : Int) < -sz ∧ -sz ≤ ((d ++ rest).length : Int)) := by
  obtain ⟨h1, h2, h3, h4⟩ := Fields.accepted_facts hacc
  have hd' : d.length < 2 ^ 62 := by rw [List.length_append] at hd; omega
  have hm : maxInt = 2 ^ 63 - 1 := rfl
  have hfull := Fields.decodeSize_rel (d := d ++ rest) h1 h3 h4 hd
  obtain ⟨o, ho⟩ : ∃ o, fs.iSize (d ++ rest) = .ok o := by
    cases hi : fs.iSize (d ++ rest) with
    | ok o => exact ⟨o, rfl⟩
    | ret r =>
      rw [hi] at hfull
      have := hfull (hw r hi)
      rw [hn] at this
      cases this
      have := Fields.iSize_neg hi
      omega
  rw [ho] at hfull
  simp only [RelSize] at hfull
  rw [hn] at hfull
  cases hfull
  obtain ⟨o1, ho1, _⟩ := iFinish_bound ho
  have hc := Fields.cDecodeSize_rel (d := d) h1 h3 h4 hd' (Or.inr ⟨rest, o1, hd, ho1⟩)
  have hg := Fields.decodeSize_rel (d := d) h1 h3 h4 hd'
  cases hi : fs.iSize d with
  | ok o' =>
    rw [hi] at hc hg
    have := Fields.iSize_ext rest hi
    rw [ho] at this
    cases this
    have := Fields.iSize_bound hi
    exact ⟨o, hc, hg, fun _ => ⟨rfl, by omega⟩, by omega⟩
  | ret r =>
    have hs := Fields.iSize_ret hi
    have hneg := Fields.iSize_neg hi
    rw [hi] at hc hg
    have hb := hs.1 rest o (by omega) ho
    refine ⟨r, hc (by omega), hg (by omega), by omega, fun _ => ⟨?_, hb⟩⟩
    rcases hs.2 with h | h
    · exact h
    · exact absurd ho (h rest o (by omega))

/-- C52, messages: for the bytes Go's Encode returns, `X_decode_size` gives their number whatever follows, and
on every proper prefix a negative number whose magnitude is more than what is there and at most what is to
come. -/
theorem C52_decode_size_of_encoding (cg : Cfg) {fs : Fields} (hacc : fs.accepted = true) (hn : fs.noDirectDyn = true)
    (v : fs.Val) (hv : fs.Legal v) (hr : fs.InRange v) :
    ∃ d, fs.encode cg v = some d ∧
      (∀ rest, (d ++ rest).length < 2 ^ 62 → fs.cDecodeSize (d ++ rest) = some (d.length : Int)) ∧
      (d.length < 2 ^ 62 → ∀ k, k < d.length → ∃ need : Nat, fs.cDecodeSize (d.take k) = some (-(need : Int)) ∧
        k < need ∧ need ≤ d.length) := by
  obtain ⟨d, e, hl, hl8, _, ha⟩ := Fields.encode_spec cg hacc (Fields.Legal.valid cg false fs v hv)
  refine ⟨d, e, fun rest hlen => ?_, fun hlen k hk => ?_⟩
  · obtain ⟨d1, e1, _, h1, _⟩ := C07_stream cg cg hacc hn v hv hr rest (by rw [List.length_append] at hlen; omega)
    rw [e] at e1; cases e1
    have hw : fs.NoWrap ((d ++ rest) ++ []) := by
      intro r hi
      obtain ⟨q1, q2, q3, q4⟩ := Fields.accepted_facts hacc
      rw [List.append_nil] at hi
      have hrep := Fields.wire_repr cg fs 0 v q1 (Fields.Legal.valid cg false fs v hv) hr
      obtain ⟨n, hn', _⟩ := Fields.iSize_of_repr cg hacc hn hrep (ha.append_right (e := rest))
      rw [hi] at hn'; cases hn'
    obtain ⟨sz, s1, s2, _⟩ := C52_decode_size hacc (d ++ rest) [] (by simpa using hlen) hw (by simpa using h1) (by omega)
    rw [h1] at s2; cases s2
    exact s1
  · obtain ⟨d1, e1, h1⟩ := C08_truncated cg cg hacc hn v hv hr (by omega)
    rw [e] at e1; cases e1
    obtain ⟨need, n1, n2, n3⟩ := (h1 k hk).2
    obtain ⟨d2, e2, _, g, _⟩ := C07_stream cg cg hacc hn v hv hr [] (by simp; omega)
    rw [e] at e2; cases e2
    have hw : fs.NoWrap (d.take k ++ d.drop k) := by
      intro r hi
      obtain ⟨q1, q2, q3, q4⟩ := Fields.accepted_facts hacc
      rw [List.take_append_drop] at hi
      have hrep := Fields.wire_repr cg fs 0 v q1 (Fields.Legal.valid cg false fs v hv) hr
      obtain ⟨n, hn', _⟩ := Fields.iSize_of_repr cg hacc hn hrep ha
      rw [hi] at hn'; cases hn'
    obtain ⟨sz, s1, s2, _⟩ := C52_decode_size hacc (d.take k) (d.drop k) (by rw [List.take_append_drop]; exact hlen) hw
      (by rw [List.take_append_drop]; simpa using g) (by omega)
    rw [n1] at s2; cases s2
    exact ⟨need, s1, n2, n3⟩

/-! ### The hypotheses are met, and cannot be dropped -/

example : ∃ d, msg.encode cfg msgVal = some d ∧ d.length = msg.cEncodeSize msgVal ∧
    msg.cEncodeTo cfg' msgVal (List.replicate (msg.cEncodeSize msgVal) 0#8) = some (d, msg.cEncodeSize msgVal) :=
  C52_encode_size cfg' cfg msg_accepted msg_cAligned msgVal msg_legal

example : ∃ d, msg.encode cfg msgVal = some d ∧
    (∀ rest, (d ++ rest).length < 2 ^ 62 → msg.cDecodeSize (d ++ rest) = some (d.length : Int)) ∧
    (d.length < 2 ^ 62 → ∀ k, k < d.length → ∃ need : Nat, msg.cDecodeSize (d.take k) = some (-(need : Int)) ∧
      k < need ∧ need ≤ d.length) :=
  C52_decode_size_of_encoding cfg msg_accepted msg_noDirectDyn msgVal msg_legal msg_inRange

/-- Two strings in an array, and a number. -/
def cText : Fields := .one (.sc (.prim .u16)) (some 16) true <| .arr .str 2 none false .nil

example (d : Buf) (hd : d.length < 2 ^ 62) : ∃ sz, cText.cDecodeSize d = some sz ∧ cText.decodeSize d = some sz :=
  C52_decode_size_any_input (by decide +kernel) (by decide +kernel) (by decide +kernel) d hd

/-- The second string is not complete. -/
example : cText.cDecodeSize [1#8, 2#8, 0x61#8, 0#8, 0x62#8] = some (-6) := by decide +kernel
example : cText.cDecodeSize [1#8, 2#8, 0x61#8, 0#8, 0x62#8, 0#8] = some 6 := by decide +kernel

example (d : Buf) (hd : d.length < 2 ^ 62) {sz : Int} (h : cText.cDecodeSize d = some sz) (h0 : 0 ≤ sz) :
    cText.cDecode cfg d = cText.decode cfg d :=
  (C52_checked_decode cfg (by decide +kernel) (by decide +kernel) (by decide +kernel) (by decide +kernel) d hd h h0).1

/-- The hypothesis of `C52_decode_size` that the data can be completed is needed.  For a bytes field, the
prefix FF FF FF FF FF FF FF FF 7F (length 2^63 - 1) makes Go's DecodeSize refuse, and C's return the positive
number 2^63 - 8 although nothing follows. -/
theorem C52_positive_counterexample :
    bytesMsg.decodeSize (List.replicate 8 0xFF#8 ++ [0x7F#8]) = some (-1) ∧
    bytesMsg.cDecodeSize (List.replicate 8 0xFF#8 ++ [0x7F#8]) = some (2 ^ 63 - 8) := by
  constructor <;> decide +kernel

/-- With the prefix FF FF FF FF FF FF FF FF FF 01 (length 2^64 - 1), `offset + len` wraps: C accepts the ten
bytes as a message of nine, and reading it (`X_decode`) is undefined. -/
theorem C52_wrap_counterexample :
    bytesMsg.cDecodeSize (List.replicate 9 0xFF#8 ++ [0x01#8]) = some 9 ∧
    bytesMsg.cDecode cfg (List.replicate 9 0xFF#8 ++ [0x01#8]) = .panic ∧
    bytesMsg.decodeSize (List.replicate 9 0xFF#8 ++ [0x01#8]) = some (-1) := by
  refine ⟨by decide +kernel, ?_, by decide +kernel⟩
  rw [← Res.isPanic_iff]; decide +kernel

/-- Ten continuation bytes: a shift by 70, undefined in C; Go refuses. -/
theorem C52_shift_counterexample :
    bytesMsg.cDecodeSize (List.replicate 10 0x80#8 ++ [0#8]) = none ∧
    bytesMsg.decodeSize (List.replicate 10 0x80#8 ++ [0#8]) = some (-1) := by
  constructor <;> decide +kernel

end Bubbler
