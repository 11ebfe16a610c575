import Verif.Props.Sample

/-
Properties C01-C11: round trip, size, layout, frame, options, robustness of the generated Go codec.

Reading guide.  `Fields` is a struct definition; `fs.accepted` says that the compiler accepts it and
the Go target supports it; `fs.Val` is the generated Go struct type; `fs.Legal v` says that `v` is a
Go value of that type; `fs.InRange v` that every number fits its declared bit width and strings have
no NUL.  `fs.encode c`, `encodeTo c`, `encodeSize`, `decodeSize`, `decode c` are the generated methods
under generator options `c` (which also holds arbitrary previous contents of the decoded-into
variables).  `none`/`panic` is a Go run-time panic, `fail` is `return -1`.  `fs.wire v` is the
specified bit sequence (Spec.lean).  `noDirectDyn`: no field outside an array has a variable-length
struct as its type.  Inputs are shorter than 2^62 bytes.
-/
set_option linter.unusedSimpArgs false
namespace Bubbler
open Sample

/-! ### C01 -/

/-- C01: Decode(Encode(v)) = v and returns the number of encoded bytes, whatever options the two
sides were generated with and whatever the receiving variable held before. -/
theorem C01_roundtrip (ce cd : Cfg) {fs : Fields} (hacc : fs.accepted = true) (hn : fs.noDirectDyn = true)
    (v : fs.Val) (hv : fs.Legal v) (hr : fs.InRange v) (hsz : fs.encodeSize v < 2 ^ 62) :
    ∃ d, fs.encode ce v = some d ∧ fs.decode cd d = .ok (v, d.length) := by
  obtain ⟨d, e, hl, hl8, _, ha⟩ := Fields.encode_spec ce hacc (Fields.Legal.valid ce false fs v hv)
  refine ⟨d, e, ?_⟩
  have hrep := Fields.wire_repr cd fs 0 v (Fields.accepted_facts hacc).1 (Fields.Legal.valid cd false fs v hv) hr
  obtain ⟨n, h1, _, h3⟩ := Fields.decode_of_repr cd hacc hn (by omega) hrep ha
  have : n = d.length := by omega
  rw [h1, this]

example : ∃ d, msg.encode cfg msgVal = some d ∧ msg.decode cfg' d = .ok (msgVal, d.length) :=
  C01_roundtrip cfg cfg' msg_accepted msg_noDirectDyn msgVal msg_legal msg_inRange msg_size

/-! ### C02 -/

/-- C02: Encode succeeds with exactly EncodeSize() bytes; EncodeTo on any buffer of at least that
size does not panic, returns EncodeSize() and keeps the buffer's length. -/
theorem C02_size_exact (c : Cfg) {fs : Fields} (hacc : fs.accepted = true) (v : fs.Val) (hv : fs.Legal v) :
    (∃ d, fs.encode c v = some d ∧ d.length = fs.encodeSize v) ∧
    ∀ buf : Buf, fs.encodeSize v ≤ buf.length →
      ∃ buf', fs.encodeTo c v buf = some (buf', fs.encodeSize v) ∧ buf'.length = buf.length := by
  have hv' := Fields.Legal.valid c false fs v hv
  constructor
  · obtain ⟨d, e, hl, _⟩ := Fields.encode_spec c hacc hv'
    exact ⟨d, e, hl⟩
  · intro buf hb
    obtain ⟨_, d', e, o⟩ := Fields.encodeTo_spec c hacc hv' hb
    exact ⟨d', e, o.1⟩

/-- C02, what the size is: one eighth of the number of bits of the specified wire form. -/
theorem C02_size_is_wire_size {fs : Fields} (hacc : fs.accepted = true) (v : fs.Val) (hv : fs.Legal v) :
    8 * fs.encodeSize v = (fs.wire v).length :=
  (Fields.encodeTo_spec cfg hacc (Fields.Legal.valid cfg false fs v hv)
    (d := List.replicate (fs.encodeSize v) 0#8) (by simp)).1

example : ∃ d, msg.encode cfg msgVal = some d ∧ d.length = msg.encodeSize msgVal :=
  (C02_size_exact cfg msg_accepted msgVal msg_legal).1

/-! ### C03, C05 -/

/-- C03: EncodeTo puts the specified bit sequence (the concatenation of the wire forms of the fields
in declaration order, see `Fields.wire`) at the start of the buffer. -/
theorem C03_wire_layout (c : Cfg) {fs : Fields} (hacc : fs.accepted = true) (v : fs.Val) (hv : fs.Legal v)
    (buf : Buf) (hb : fs.encodeSize v ≤ buf.length) :
    ∃ buf' n, fs.encodeTo c v buf = some (buf', n) ∧
      ∀ i b, (fs.wire v)[i]? = some (some b) → bitAt buf' i = b := by
  obtain ⟨hl, d', e, o⟩ := Fields.encodeTo_spec c hacc (Fields.Legal.valid c false fs v hv) hb
  refine ⟨d', _, e, fun i b hi => ?_⟩
  have := (o.agrees (by omega)).2 i b hi
  simpa using this

/-- C03, position of one field: in a message made of the fields `pre`, then a scalar of `n` bits, then
`post`, wire bit `j` of the scalar is at bit (size of the wire of `pre`) + `j` of the message. -/
theorem C03_field_position (c : Cfg) (pre post : Fields) (s : Sc) (n : Nat) (big : Bool)
    (hacc : (pre.append (.one (.sc s) (some n) big post)).accepted = true)
    (x : pre.Val) (y : BitVec s.width) (z : post.Val)
    (hv : (pre.append (.one (.sc s) (some n) big post)).Legal (pre.join (.one (.sc s) (some n) big post) x (y, z))) :
    ∃ d, (pre.append (.one (.sc s) (some n) big post)).encode c (pre.join (.one (.sc s) (some n) big post) x (y, z)) = some d ∧
      ∀ j, j < n → bitAt d ((pre.wire x).length + j) = y.getLsbD (specBit big n j) := by
  obtain ⟨d, e, _, _, _, ha⟩ := Fields.encode_spec c hacc (Fields.Legal.valid c false _ _ hv)
  refine ⟨d, e, fun j hj => ?_⟩
  have ha' := Eq.mp (congrArg (Agrees d 0) (Fields.wire_append pre (.one (.sc s) (some n) big post) x (y, z))) ha
  have h2 := (Agrees.append.mp ha').2
  simp only [Fields.wire, Ty.wire, Ty.dynamic, Bool.false_eq_true, if_false, List.append_nil] at h2
  have h3 := (Agrees.append.mp h2).1.2 j (y.getLsbD (specBit big n j)) (by
    simp [scWire, hj])
  simpa using h3

/-- Position of a field behind fixed-size fields only: the sum of their declared sizes. -/
theorem C03_fixed_prefix {fs : Fields} (start : Nat) (hwf : fs.wf start = true) (hdyn : fs.dynamic = false)
    (v : fs.Val) (hv : fs.Legal v) : (fs.wire v).length = fs.sum := by
  rw [Fields.wire_length cfg false fs start v hwf (Fields.Legal.valid cfg false fs v hv),
    Fields.sizeExtra_static fs v hdyn]
  omega

/-- C05: EncodeTo changes no void bit, nothing past the encoded size, and what it writes does not
depend on what was there. -/
theorem C05_frame (c : Cfg) {fs : Fields} (hacc : fs.accepted = true) (v : fs.Val) (hv : fs.Legal v)
    (buf : Buf) (hb : fs.encodeSize v ≤ buf.length) :
    ∃ buf' n, fs.encodeTo c v buf = some (buf', n) ∧ buf'.length = buf.length ∧
      (∀ i, (fs.wire v)[i]? = some none → bitAt buf' i = bitAt buf i) ∧
      (∀ i, 8 * fs.encodeSize v ≤ i → bitAt buf' i = bitAt buf i) ∧
      (buf'.drop (fs.encodeSize v) = buf.drop (fs.encodeSize v)) ∧
      ∀ other other' m, fs.encodeSize v ≤ other.length → fs.encodeTo c v other = some (other', m) →
        ∀ i b, (fs.wire v)[i]? = some (some b) → bitAt buf' i = b ∧ bitAt other' i = b := by
  have hv' := Fields.Legal.valid c false fs v hv
  obtain ⟨hl, d', e, o⟩ := Fields.encodeTo_spec c hacc hv' hb
  have hend : ∀ i, 8 * fs.encodeSize v ≤ i → bitAt d' i = bitAt buf i := by
    intro i hi
    rw [o.2 i]
    simp only [Nat.zero_le, if_true, Nat.sub_zero]
    rw [List.getD_eq_getElem?_getD, List.getElem?_eq_none (by omega)]
    rfl
  refine ⟨d', _, e, o.1, ?_, hend, ?_, ?_⟩
  · intro i hi
    rw [o.2 i]
    simp only [Nat.zero_le, if_true, Nat.sub_zero]
    rw [List.getD_eq_getElem?_getD, hi]
    rfl
  · apply Buf.ext_bits
    · simp [o.1]
    · intro i _
      have := hend (8 * fs.encodeSize v + i) (by omega)
      simpa [bitAt_drop] using this
  · intro other other' m ho eo i b hi
    obtain ⟨_, d2, e2, o2⟩ := Fields.encodeTo_spec c hacc hv' ho
    rw [e2] at eo
    cases eo
    have a1 := (o.agrees (by omega)).2 i b hi
    have a2 := (o2.agrees (by omega)).2 i b hi
    exact ⟨by simpa using a1, by simpa using a2⟩

/-- C05: Encode leaves void bits zero. -/
theorem C05_void_zero (c : Cfg) {fs : Fields} (hacc : fs.accepted = true) (v : fs.Val) (hv : fs.Legal v) :
    ∃ d, fs.encode c v = some d ∧ ∀ i, (fs.wire v)[i]? = some none → bitAt d i = false := by
  obtain ⟨d, e, _, _, o, _⟩ := Fields.encode_spec c hacc (Fields.Legal.valid c false fs v hv)
  refine ⟨d, e, fun i hi => ?_⟩
  rw [o.2 i]
  simp only [Nat.zero_le, if_true, Nat.sub_zero]
  rw [List.getD_eq_getElem?_getD, hi]
  unfold bitAt
  rw [List.getD_eq_getElem?_getD, List.getElem?_replicate]
  split <;> simp

example : ∃ buf' n, msg.encodeTo cfg msgVal (List.replicate 40 0xFF#8) = some (buf', n) ∧ buf'.length = 40 := by
  have h : msg.encodeSize msgVal ≤ (List.replicate 40 0xFF#8).length := by
    have : msg.encodeSize msgVal = 25 := msg_size_eq
    rw [this]; decide
  obtain ⟨b, n, e, l, _⟩ := C05_frame cfg msg_accepted msgVal msg_legal _ h
  exact ⟨b, n, e, by simpa using l⟩

/-! ### C06 -/

/-- C06: the bytes written do not depend on the generator options. -/
theorem C06_encode_option_independent (c c' : Cfg) {fs : Fields} (hacc : fs.accepted = true) (v : fs.Val)
    (hv : fs.Legal v) :
    fs.encode c v = fs.encode c' v ∧
    ∀ buf : Buf, fs.encodeSize v ≤ buf.length → fs.encodeTo c v buf = fs.encodeTo c' v buf := by
  have key : ∀ buf : Buf, fs.encodeSize v ≤ buf.length → fs.encodeTo c v buf = fs.encodeTo c' v buf := by
    intro buf hb
    obtain ⟨_, d1, e1, o1⟩ := Fields.encodeTo_spec c hacc (Fields.Legal.valid c false fs v hv) hb
    obtain ⟨_, d2, e2, o2⟩ := Fields.encodeTo_spec c' hacc (Fields.Legal.valid c' false fs v hv) hb
    rw [e1, e2, o1.unique o2]
  refine ⟨?_, key⟩
  simp only [Fields.encode, key _ (by simp : fs.encodeSize v ≤ (List.replicate (fs.encodeSize v) 0#8).length)]

mutual
  /-- No array of bool, at any depth. -/
  def Ty.noBoolArr : Ty → Bool
    | .struct fs => fs.noBoolArr
    | _ => true
  def Fields.noBoolArr : Fields → Bool
    | .nil => true
    | .void _ r => r.noBoolArr
    | .const _ _ _ _ r => r.noBoolArr
    | .one t _ _ r => t.noBoolArr && r.noBoolArr
    | .arr t _ _ _ r => t.noBoolArr && r.noBoolArr &&
        match t with
        | .sc s => !s.isBool
        | _ => true
end

theorem All2.imp {α β : Type} {R S : α → β → Prop} (h : ∀ a b, R a b → S a b) {xs ys} (ha : All2 R xs ys) :
    All2 S xs ys := by
  induction ha with
  | nil => exact .nil
  | cons h1 _ ih => exact .cons (h _ _ h1) ih

mutual
  theorem Ty.Repr_cfg (c c' : Cfg) : ∀ (t : Ty) (lp lp' : Bool) (n : Nat) (big : Bool) (v : t.Val) (ws : List (Option Bool)),
      t.noBoolArr = true → ((∃ s, t = .sc s ∧ s.isBool = true) → lp = lp') → t.Repr c lp n big v ws → t.Repr c' lp' n big v ws
    | .sc s, lp, lp', n, big, (v : BitVec s.width), ws => by
      intro _ hlp h
      simp only [Ty.Repr] at h ⊢
      cases hb : s.isBool with
      | false => rw [hb] at h; simpa using h
      | true => rw [hb] at h; rw [← hlp ⟨s, rfl, hb⟩]; exact h
    | .str, lp, lp', n, big, v, ws => by intro _ _ h; exact h
    | .bytes, lp, lp', n, big, v, ws => by intro _ _ h; exact h
    | .struct fs, lp, lp', n, big, v, ws => by
      intro hb _ h
      simp only [Ty.noBoolArr] at hb
      simp only [Ty.Repr] at h ⊢
      exact Fields.Repr_cfg c c' fs v ws hb h
  theorem Fields.Repr_cfg (c c' : Cfg) : ∀ (fs : Fields) (v : fs.Val) (ws : List (Option Bool)),
      fs.noBoolArr = true → fs.Repr c v ws → fs.Repr c' v ws
    | .nil, v, ws => by intro _ h; exact h
    | .void n r, v, ws => by
      intro hb h
      simp only [Fields.noBoolArr] at hb
      obtain ⟨w', h, e⟩ := h
      exact ⟨w', Fields.Repr_cfg c c' r v w' hb h, e⟩
    | .const p n big val r, v, ws => by
      intro hb h
      simp only [Fields.noBoolArr] at hb
      obtain ⟨w', h, e⟩ := h
      exact ⟨w', Fields.Repr_cfg c c' r v w' hb h, e⟩
    | .one t bits big r, (v1, v2), ws => by
      intro hb h
      simp only [Fields.noBoolArr, Bool.and_eq_true] at hb
      obtain ⟨w1, w2, h1, h2, e⟩ := h
      exact ⟨w1, w2, Ty.Repr_cfg c c' t _ _ _ big v1 w1 hb.1 (fun _ => rfl) h1, Fields.Repr_cfg c c' r v2 w2 hb.2 h2, e⟩
    | .arr t len bits big r, (v1, v2), ws => by
      intro hb h
      simp only [Fields.noBoolArr, Bool.and_eq_true] at hb
      obtain ⟨wss, w2, hl, h1, h2, e⟩ := h
      refine ⟨wss, w2, hl, All2.imp (fun x w hx => Ty.Repr_cfg c c' t _ _ _ big x w hb.1.1 ?_ hx) h1,
        Fields.Repr_cfg c c' r v2 w2 hb.1.2 h2, e⟩
      rintro ⟨s, rfl, hs⟩
      simp [hs] at hb
end

/-- C06: on every input, Decode's result does not depend on the generator options or on what the
decoded-into variables held before, if the message has no array of bool. -/
theorem C06_decode_option_independent (c c' : Cfg) {fs : Fields} (hacc : fs.accepted = true)
    (hn : fs.noDirectDyn = true) (hb : fs.noBoolArr = true) (d : Buf) (hd : d.length < 2 ^ 62) (hw : fs.NoWrap d) :
    fs.decode c d = fs.decode c' d := by
  rcases Fields.decode_cases c hacc hn hd hw with h1 | ⟨v, n, ws, e, hr, ha, hl⟩
  · rcases Fields.decode_cases c' hacc hn hd hw with h2 | ⟨v, n, ws, e, hr, ha, hl⟩
    · rw [h1, h2]
    · have := (Fields.decode_iff c hacc hn hd hw v n).mpr ⟨ws, Fields.Repr_cfg c' c fs v ws hb hr, ha, hl⟩
      rw [h1] at this; cases this
  · have := (Fields.decode_iff c' hacc hn hd hw v n).mpr ⟨ws, Fields.Repr_cfg c c' fs v ws hb hr, ha, hl⟩
    rw [e, this]

example : msg.encode cfg msgVal = msg.encode cfg' msgVal :=
  (C06_encode_option_independent cfg cfg' msg_accepted msgVal msg_legal).1

/-! ### C07 -/

/-- C07: Decode looks only at the message: if it succeeds on `d` it gives the same value and count on
`d` followed by anything. -/
theorem C07_trailing_data (c : Cfg) {fs : Fields} (hacc : fs.accepted = true) (hn : fs.noDirectDyn = true)
    (d e : Buf) (hd : (d ++ e).length < 2 ^ 62) (hw : fs.NoWrap d) (v : fs.Val) (n : Nat)
    (h : fs.decode c d = .ok (v, n)) :
    fs.decode c (d ++ e) = .ok (v, n) ∧ fs.decodeSize (d ++ e) = some (n : Int) := by
  have hd' : d.length < 2 ^ 62 := by rw [List.length_append] at hd; omega
  obtain ⟨ws, hr, ha, hl⟩ := (Fields.decode_iff c hacc hn hd' hw v n).mp h
  obtain ⟨n', e1, e2, l⟩ := Fields.decode_of_repr c hacc hn hd hr ha.append_right
  have : n' = n := by omega
  subst this
  exact ⟨e1, e2⟩

/-- C07 for messages this library produced: reading them off a stream. -/
theorem C07_stream (ce cd : Cfg) {fs : Fields} (hacc : fs.accepted = true) (hn : fs.noDirectDyn = true)
    (v : fs.Val) (hv : fs.Legal v) (hr : fs.InRange v) (rest : Buf) (hsz : fs.encodeSize v + rest.length < 2 ^ 62) :
    ∃ d, fs.encode ce v = some d ∧ fs.decode cd (d ++ rest) = .ok (v, d.length) ∧
      fs.decodeSize (d ++ rest) = some (d.length : Int) ∧ (d ++ rest).drop d.length = rest := by
  obtain ⟨d, e, hl, hl8, _, ha⟩ := Fields.encode_spec ce hacc (Fields.Legal.valid ce false fs v hv)
  refine ⟨d, e, ?_⟩
  have hrep := Fields.wire_repr cd fs 0 v (Fields.accepted_facts hacc).1 (Fields.Legal.valid cd false fs v hv) hr
  obtain ⟨n, h1, h2, h3⟩ := Fields.decode_of_repr cd hacc hn (d := d ++ rest)
    (by rw [List.length_append]; omega) hrep ha.append_right
  have : n = d.length := by omega
  subst this
  exact ⟨h1, h2, by simp⟩

example (rest : Buf) (h : rest.length < 2 ^ 61) :
    ∃ d, msg.encode cfg msgVal = some d ∧ msg.decode cfg' (d ++ rest) = .ok (msgVal, d.length) := by
  obtain ⟨d, e1, e2, _⟩ := C07_stream cfg cfg' msg_accepted msg_noDirectDyn msgVal msg_legal msg_inRange rest
    (by rw [msg_size_eq]; omega)
  exact ⟨d, e1, e2⟩

/-! ### C08, C10, C11 -/

theorem Fields.iSize_of_repr (c : Cfg) {fs : Fields} (hacc : fs.accepted = true) (hn : fs.noDirectDyn = true)
    {d : Buf} {v : fs.Val} {ws : List (Option Bool)} (hr : fs.Repr c v ws) (ha : Agrees d 0 ws) :
    ∃ n, fs.iSize d = .ok n ∧ 8 * n = ws.length := by
  obtain ⟨h1, h2, h3, h4⟩ := Fields.accepted_facts hacc
  obtain ⟨o, e, l⟩ := Fields.iFields_agrees c fs v ws 0 d 0 h1 hn hr (by simpa using ha)
  have hle := ha.length_le
  refine ⟨o + fs.sum / 8, ?_, by omega⟩
  simp only [Fields.iSize, e, iFinish]
  rw [if_neg (by omega)]

/-- C08: a strict prefix of an encoded message is refused by Decode and DecodeSize; neither panics, and
DecodeSize asks for more bytes than given but not more than the message has. -/
theorem C08_truncated (ce cd : Cfg) {fs : Fields} (hacc : fs.accepted = true) (hn : fs.noDirectDyn = true)
    (v : fs.Val) (hv : fs.Legal v) (hr : fs.InRange v) (hsz : fs.encodeSize v < 2 ^ 62) :
    ∃ d, fs.encode ce v = some d ∧ ∀ k, k < d.length →
      fs.decode cd (d.take k) = .fail ∧
      ∃ need : Nat, fs.decodeSize (d.take k) = some (-(need : Int)) ∧ k < need ∧ need ≤ d.length := by
  obtain ⟨d, e, hl, hl8, _, ha⟩ := Fields.encode_spec ce hacc (Fields.Legal.valid ce false fs v hv)
  refine ⟨d, e, fun k hk => ?_⟩
  have hrep := Fields.wire_repr cd fs 0 v (Fields.accepted_facts hacc).1 (Fields.Legal.valid cd false fs v hv) hr
  obtain ⟨n, hs, hnn⟩ := Fields.iSize_of_repr cd hacc hn hrep ha
  have hnd : n = d.length := by omega
  subst hnd
  obtain ⟨h1, h2, h3, h4⟩ := Fields.accepted_facts hacc
  have htk : (d.take k).length = k := by simp; omega
  have hrel := Fields.decodeSize_rel (d := d.take k) h1 h3 h4 (by omega)
  have happ : d.take k ++ d.drop k = d := List.take_append_drop k d
  cases hs' : fs.iSize (d.take k) with
  | ok o =>
    have := Fields.iSize_ext (d.drop k) hs'
    rw [happ, hs] at this
    have hb := Fields.iSize_bound hs'
    cases this
    omega
  | ret r =>
    have hneg := Fields.iSize_neg hs'
    obtain ⟨q1, q2⟩ := Fields.iSize_ret hs'
    have hmax : (d.take k ++ d.drop k).length ≤ maxInt := by rw [happ]; simp only [maxInt]; omega
    have g1 := q1 (d.drop k) _ hmax (by rw [happ]; exact hs)
    rw [happ] at g1
    have g2 : ((d.take k).length : Int) < -r := by
      rcases q2 with q2 | q2
      · exact q2
      · exact absurd (by simp only [happ]; exact hs) (q2 (d.drop k) d.length hmax)
    rw [hs'] at hrel
    have hx := hrel (by omega)
    refine ⟨?_, (-r).toNat, ?_, by omega, by omega⟩
    · simp only [Fields.decode, hx, hneg, if_true]
    · rw [hx]; congr 1; omega

/-- C10: DecodeSize of an encoded message is its exact size. -/
theorem C10_decodeSize_of_encoding (ce : Cfg) {fs : Fields} (hacc : fs.accepted = true) (hn : fs.noDirectDyn = true)
    (v : fs.Val) (hv : fs.Legal v) (hr : fs.InRange v) (hsz : fs.encodeSize v < 2 ^ 62) :
    ∃ d, fs.encode ce v = some d ∧ fs.decodeSize d = some (d.length : Int) ∧ d.length = fs.encodeSize v := by
  obtain ⟨d, e1, e2, e3, _⟩ := C07_stream ce ce hacc hn v hv hr [] (by simpa using hsz)
  rw [List.append_nil] at e3
  obtain ⟨d', h1, h2⟩ := (C02_size_exact ce hacc v hv).1
  rw [e1] at h1; cases h1
  exact ⟨d, e1, e3, h2⟩

/-- C10: whenever Decode succeeds, DecodeSize on the same input returns the same count, which is at
most the length of the input. -/
theorem C10_decode_count (c : Cfg) {fs : Fields} (hacc : fs.accepted = true) (hn : fs.noDirectDyn = true)
    (d : Buf) (hd : d.length < 2 ^ 62) (hw : fs.NoWrap d) (v : fs.Val) (n : Nat)
    (h : fs.decode c d = .ok (v, n)) : fs.decodeSize d = some (n : Int) ∧ n ≤ d.length := by
  have h2 := (C07_trailing_data c hacc hn d [] (by simpa using hd) hw v n h).2
  rw [List.append_nil] at h2
  obtain ⟨ws, hr, ha, hl⟩ := (Fields.decode_iff c hacc hn hd hw v n).mp h
  have := ha.length_le
  exact ⟨h2, by omega⟩

/-- C11: a negative answer `-k` of DecodeSize is sound: every longer input that Decode accepts has at
least `k` bytes, and either `k` exceeds the number of bytes given, or no longer input is accepted. -/
theorem C11_missing_bytes (c : Cfg) {fs : Fields} (hacc : fs.accepted = true) (hn : fs.noDirectDyn = true)
    (d : Buf) (hd : d.length < 2 ^ 62) (hw : fs.NoWrap d) (k : Nat) (hk : 0 < k)
    (h : fs.decodeSize d = some (-(k : Int))) :
    (∀ e v n, (d ++ e).length < 2 ^ 62 → fs.NoWrap (d ++ e) → fs.decode c (d ++ e) = .ok (v, n) →
      k ≤ (d ++ e).length) ∧
    (d.length < k ∨ ∀ e v n, (d ++ e).length < 2 ^ 62 → fs.NoWrap (d ++ e) → fs.decode c (d ++ e) ≠ .ok (v, n)) := by
  obtain ⟨h1, h2, h3, h4⟩ := Fields.accepted_facts hacc
  have hrel := Fields.decodeSize_rel (d := d) h1 h3 h4 hd
  cases hs : fs.iSize d with
  | ok o =>
    rw [hs] at hrel
    simp only [RelSize] at hrel
    rw [hrel] at h
    have := Option.some.inj h
    omega
  | ret r =>
    rw [hs] at hrel
    have hx := hrel (hw r hs)
    rw [hx] at h
    have hrk := Option.some.inj h
    obtain ⟨q1, q2⟩ := Fields.iSize_ret hs
    have key : ∀ e v n, (d ++ e).length < 2 ^ 62 → fs.NoWrap (d ++ e) → fs.decode c (d ++ e) = .ok (v, n) →
        ∃ o, fs.iSize (d ++ e) = .ok o ∧ (d ++ e).length ≤ maxInt := by
      intro e v n he hwe hdec
      obtain ⟨ws, hr, ha, _⟩ := (Fields.decode_iff c hacc hn he hwe v n).mp hdec
      obtain ⟨o, ho, _⟩ := Fields.iSize_of_repr c hacc hn hr ha
      exact ⟨o, ho, by simp only [maxInt]; omega⟩
    constructor
    · intro e v n he hwe hdec
      obtain ⟨o, ho, hm⟩ := key e v n he hwe hdec
      have := q1 e o hm ho
      omega
    · rcases q2 with q2 | q2
      · left; omega
      · right
        intro e v n he hwe hdec
        obtain ⟨o, ho, hm⟩ := key e v n he hwe hdec
        exact q2 e o hm ho

/-! ### C09 -/

/-- C09: on every input Decode either returns -1 or succeeds with a count within the input; it never
reads out of bounds, and neither does DecodeSize.  `NoWrap`: the size request fits 64 bits. -/
theorem C09_decode_total (c : Cfg) {fs : Fields} (hacc : fs.accepted = true) (hn : fs.noDirectDyn = true)
    (d : Buf) (hd : d.length < 2 ^ 62) (hw : fs.NoWrap d) :
    (fs.decode c d = .fail ∨ ∃ v n, fs.decode c d = .ok (v, n) ∧ n ≤ d.length) ∧
    ∃ r : Int, fs.decodeSize d = some r ∧ r ≤ d.length := by
  constructor
  · rcases Fields.decode_cases c hacc hn hd hw with h | ⟨v, n, ws, e, hr, ha, hl⟩
    · exact Or.inl h
    · have := ha.length_le
      exact Or.inr ⟨v, n, e, by omega⟩
  · obtain ⟨h1, h2, h3, h4⟩ := Fields.accepted_facts hacc
    have hrel := Fields.decodeSize_rel (d := d) h1 h3 h4 hd
    cases hs : fs.iSize d with
    | ok o =>
      rw [hs] at hrel
      simp only [RelSize] at hrel
      have := Fields.iSize_bound hs
      exact ⟨o, hrel, by omega⟩
    | ret r =>
      rw [hs] at hrel
      have := Fields.iSize_neg hs
      exact ⟨r, hrel (hw r hs), by omega⟩

/-- C09 without side condition on the input: messages without an array of variable-length structs. -/
theorem C09_decode_total_noDynArr (c : Cfg) {fs : Fields} (hacc : fs.accepted = true) (hn : fs.noDirectDyn = true)
    (ha : fs.noDynArr = true) (d : Buf) (hd : d.length < 2 ^ 62) :
    (fs.decode c d = .fail ∨ ∃ v n, fs.decode c d = .ok (v, n) ∧ n ≤ d.length) ∧
    ∃ r : Int, fs.decodeSize d = some r ∧ r ≤ d.length :=
  C09_decode_total c hacc hn d hd (Fields.noWrap_of_noDynArr hacc ha hd)

end Bubbler
