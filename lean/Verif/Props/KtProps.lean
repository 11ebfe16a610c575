import Verif.Codec.KtSafe
import Verif.Props.CodecNeg

/-
C49: the Kotlin target against the Go target.
-/
set_option linter.unusedSimpArgs false
namespace Bubbler
open Sample

mutual
  /-- Kotlin values that fit their declaration: numbers in the range of their bit width, a Boolean 0 or 1,
  enum attributes set to a member whose number fits, strings that are UTF-8 without NUL. -/
  def Ty.KtFits (c : KtCfg) : (t : Ty) → (ctx : List Fields) → Nat → t.KtVal → Prop
    | .sc (.prim p), _, n, (x : BitVec p.width) => (Sc.prim p).InRange n x ∧ (p = .bool → x.toNat ≤ 1)
    | .sc (.enum _), ctx, n, (x : Option (BitVec 64)) => ∃ u, x = some u ∧ u.toNat < 2 ^ n ∧ c.member ctx u = true
    | .str, _, _, (s : List Byte) => 0#8 ∉ s ∧ c.decStr s = s
    | .bytes, _, _, (s : List Byte) => s.length < 2 ^ 31
    | .struct fs, ctx, _, v => fs.KtFits c ctx v
  def Fields.KtFits (c : KtCfg) : (fs : Fields) → (ctx : List Fields) → fs.KtVal → Prop
    | .nil, _, _ => True
    | .void _ r, ctx, v => r.KtFits c ctx v
    | .const _ _ _ _ r, ctx, v => r.KtFits c ctx v
    | .one t bits big r, ctx, (v : t.KtVal × r.KtVal) =>
      t.KtFits c (.one t bits big r :: ctx) (bits.getD 0) v.1 ∧ r.KtFits c ctx v.2
    | .arr t len bits big r, ctx, (v : List t.KtVal × r.KtVal) =>
      v.1.length = len ∧ (∀ x ∈ v.1, t.KtFits c (.arr t len bits big r :: ctx) (bits.getD 0 / len) x) ∧ r.KtFits c ctx v.2
end

/-- An enum number that fits `n` bits survives the narrowing to the width of the enum's type. -/
theorem ktEnum_facts {u : BitVec 64} {n w : Nat} (hn : n ≤ w) (h : u.toNat < 2 ^ n) :
    (u.setWidth w).toNat < 2 ^ n ∧ (u.setWidth w).setWidth 64 = u := by
  have hp : 2 ^ n ≤ 2 ^ w := Nat.pow_le_pow_right (by omega) hn
  have e1 : (u.setWidth w).toNat = u.toNat := by
    rw [BitVec.toNat_setWidth, Nat.mod_eq_of_lt (by omega)]
  refine ⟨by omega, BitVec.eq_of_toNat_eq ?_⟩
  rw [BitVec.toNat_setWidth, e1, Nat.mod_eq_of_lt u.isLt]

mutual
  theorem Ty.KtFits.facts {c : KtCfg} : ∀ (t : Ty) (ctx : List Fields) (arr : Bool) (start n : Nat) (v : t.KtVal),
      t.wf = true → t.elemOk arr start n → t.KtFits c ctx n v →
      t.KtLegal v ∧ t.InRange n (t.ofKt v) ∧ t.toKt c ctx (t.ofKt v) = v
    | .sc (.prim p), ctx, arr, start, n, (v : BitVec p.width) => by
      intro _ hok h
      simp only [Ty.KtFits] at h
      refine ⟨h.2, h.1, ?_⟩
      simp only [Ty.ofKt, Ty.toKt]
      by_cases hb : p = .bool
      · have := h.2 hb
        subst hb
        simp only [if_true]
        have h2 : v = 0#8 ∨ v = 1#8 := by
          have hw : v.toNat = 0 ∨ v.toNat = 1 := by omega
          rcases hw with e | e
          · left; exact BitVec.eq_of_toNat_eq e
          · right; exact BitVec.eq_of_toNat_eq e
        rcases h2 with e | e
        · exact (if_pos e).trans e.symm
        · exact (if_neg (show ¬ v = 0#8 from by subst e; show ¬ (1#8 = 0#8); decide)).trans e.symm
      · rw [if_neg hb]
    | .sc (.enum b), ctx, arr, start, n, (v : Option (BitVec 64)) => by
      intro _ hok h
      simp only [Ty.elemOk] at hok
      have hf := Sc.wf_facts hok.1
      obtain ⟨u, hu, h1, h2⟩ := (h : ∃ u : BitVec 64, v = some u ∧ u.toNat < 2 ^ n ∧ c.member ctx u = true)
      have l := ktEnum_facts (w := (Sc.enum b).width) hf.2.1 h1
      subst hu
      have hm : c.member ctx ((u.setWidth (Sc.enum b).width).setWidth 64) = true := l.2.symm ▸ h2
      exact ⟨by simp [Ty.KtLegal], l.1, (if_pos hm).trans (congrArg some l.2)⟩
    | .str, ctx, arr, start, n, (v : List Byte) => by
      intro _ _ h
      exact ⟨trivial, h.1, h.2⟩
    | .bytes, ctx, arr, start, n, (v : List Byte) => by
      intro _ _ h
      exact ⟨h, trivial, rfl⟩
    | .struct fs, ctx, arr, start, n, v => by
      intro hw _ h
      simp only [Ty.wf, Bool.and_eq_true] at hw
      exact Fields.KtFits.facts fs ctx 0 v hw.1 h
  theorem Fields.KtFits.facts {c : KtCfg} : ∀ (fs : Fields) (ctx : List Fields) (start : Nat) (v : fs.KtVal),
      fs.wf start = true → fs.KtFits c ctx v →
      fs.KtLegal v ∧ fs.InRange (fs.ofKt v) ∧ fs.toKt c ctx (fs.ofKt v) = v
    | .nil, ctx, start, v => by intro _ _; exact ⟨trivial, trivial, rfl⟩
    | .void n r, ctx, start, v => by
      intro hw h
      simp only [Fields.wf] at hw
      exact Fields.KtFits.facts r ctx _ v hw h
    | .const p n big val r, ctx, start, v => by
      intro hw h
      simp only [Fields.wf, Bool.and_eq_true] at hw
      exact Fields.KtFits.facts r ctx _ v hw.2 h
    | .one t bits big r, ctx, start, (v : t.KtVal × r.KtVal) => by
      intro hw h
      obtain ⟨h1, h2, h3, _⟩ := wf_one hw
      obtain ⟨a1, a2, a3⟩ := Ty.KtFits.facts t (.one t bits big r :: ctx) false start (bits.getD 0) v.1 h1 h3 h.1
      obtain ⟨b1, b2, b3⟩ := Fields.KtFits.facts r ctx _ v.2 h2 h.2
      refine ⟨⟨a1, b1⟩, ⟨a2, b2⟩, ?_⟩
      simp only [Fields.ofKt, Fields.toKt, a3, b3]; rfl
    | .arr t len bits big r, ctx, start, (v : List t.KtVal × r.KtVal) => by
      intro hw h
      obtain ⟨h0, h1, h2, h3, _⟩ := wf_arr hw
      have a := fun x hx => Ty.KtFits.facts t (.arr t len bits big r :: ctx) true start (bits.getD 0 / len) x h1
        (by simpa using h3 0) (h.2.1 x hx)
      obtain ⟨b1, b2, b3⟩ := Fields.KtFits.facts r ctx _ v.2 h2 h.2.2
      refine ⟨⟨h.1, fun x hx => (a x hx).1, b1⟩, ⟨?_, b2⟩, ?_⟩
      · intro x hx
        simp only [Fields.ofKt] at hx
        obtain ⟨y, hy, rfl⟩ := List.mem_map.mp hx
        exact (a y hy).2.1
      · simp only [Fields.ofKt, Fields.toKt, b3, List.map_map]
        have : (v.1.map ((fun x => t.toKt c (.arr t len bits big r :: ctx) x) ∘ fun x => t.ofKt x)) = v.1 := by
          conv => rhs; rw [← List.map_id v.1]
          exact List.map_congr_left (fun x hx => (a x hx).2.2)
        rw [this]
end

theorem Fields.size8 {fs : Fields} (hacc : fs.accepted = true) (cg : Cfg) {v : fs.Val} (hv : fs.Valid cg false v) :
    8 * fs.encodeSize v = (fs.wire v).length :=
  (Fields.encodeTo_spec cg hacc hv (d := List.replicate (fs.encodeSize v) 0#8) (by simp)).1

/-- C49, encoding: with whatever options either was generated, `encodeSize()` in Kotlin is Go's EncodeSize,
`encode(data, start)` returns it and leaves in `data` (if large enough) from `start` on what Go's EncodeTo
leaves there, the rest untouched, and `encode()` returns the bytes Go's Encode returns.
`ktSafe`: no scalar, constant, or struct of fixed size comes after a directly nested dynamic struct without
another dynamic field in between that Kotlin counts as one (`C49_encode_counterexample`). -/
theorem C49_encode_agrees (cg : Cfg) {fs : Fields} (hacc : fs.accepted = true) (hs : fs.ktSafe false false = true)
    (v : fs.KtVal) (hv : fs.KtLegal v) :
    fs.ktEncodeSize v = fs.encodeSize (fs.ofKt v) ∧
    (∀ (d : Buf) (base : Nat), base + fs.ktEncodeSize v ≤ d.length →
      fs.ktEncodeTo v d base = (fs.encodeTo cg (fs.ofKt v) (d.drop base)).map (fun r => (d.take base ++ r.1, r.2))) ∧
    (fs.ktEncodeSize v < 2 ^ 31 → fs.ktEncode v = fs.encode cg (fs.ofKt v)) := by
  have hsz := Fields.ktEncodeSize_eq fs v
  have key : ∀ (d : Buf) (base : Nat), base + fs.ktEncodeSize v ≤ d.length →
      fs.ktEncodeTo v d base = (fs.encodeTo cg (fs.ofKt v) (d.drop base)).map (fun r => (d.take base ++ r.1, r.2)) := by
    intro d base hb
    obtain ⟨d1, e1, o1⟩ := Fields.ktEncodeTo_spec hacc hs hv hb
    obtain ⟨_, d2, e2, o2⟩ := Fields.encodeTo_spec cg hacc (Fields.KtLegal.valid cg false fs v hv) (d := d.drop base)
      (by rw [List.length_drop]; omega)
    have o3 := o2.sub (show base ≤ d.length by omega)
    rw [Nat.add_zero] at o3
    rw [e1, e2, Option.map_some, o1.unique o3, hsz]
  refine ⟨hsz, key, ?_⟩
  intro hlt
  unfold Fields.ktEncode Fields.encode
  rw [if_neg (by omega), key _ 0 (by simp)]
  rw [List.drop_zero, List.take_zero, ← hsz]
  cases fs.encodeTo cg (fs.ofKt v) (List.replicate (fs.ktEncodeSize v) 0#8) <;> rfl

/-- A definition without directly nested dynamic structs is one Kotlin's encoder handles. -/
theorem C49_safe {fs : Fields} (hacc : fs.accepted = true) (hn : fs.noDirectDyn = true) : fs.ktSafe false false = true :=
  Fields.ktSafe_of_noDirectDyn fs 0 false false (Fields.accepted_facts hacc).1 hn (by simp)

/-- C49, decoding: on the same data, the two decoders never accept different messages.  If both accept,
Kotlin returns the value Go returns (`toKt`: a bool as its truth value, an enum number without member as
null, a string decoded as UTF-8) and the same count. -/
theorem C49_decode_agrees (cg : Cfg) (c : KtCfg) {fs : Fields} (hacc : fs.accepted = true) (hn : fs.noDirectDyn = true)
    (hr : (Ty.struct fs).ktReach < 2 ^ 30) (d : Buf) (hd : d.length < 2 ^ 30) (base : Nat) (hb : base ≤ d.length)
    (hw : fs.NoWrap (d.drop base)) {v : fs.Val} {n : Nat} {kv : fs.KtVal} {n' : Nat}
    (hg : fs.decode cg (d.drop base) = .ok (v, n)) (hk : fs.ktDecode c d base = .ok (kv, n')) :
    kv = fs.toKt c [] v ∧ n' = n := by
  have hdl : (d.drop base).length < 2 ^ 62 := by rw [List.length_drop]; omega
  obtain ⟨ws, r1, r2, r3⟩ := (Fields.decode_iff cg hacc hn hdl hw v n).mp hg
  rw [Agrees.drop hb, Nat.add_zero] at r2
  obtain ⟨v', ws', s1, s2, s3, s4⟩ := Fields.ktDecode_to_repr cg c hacc hn (Ty.ktSmall_of_reach _ hr) hd hb hk
  obtain ⟨t1, t2⟩ := Fields.repr_cross cg hd fs v v' ws ws' _ r1 s1 r2 s2
  obtain ⟨m, e, _, hm⟩ := Fields.ktDecode_of_repr cg c hacc hn hd t1 r2
  rw [hk] at e
  cases e
  exact ⟨rfl, by omega⟩

/-- C49, decoding what an encoder can have written: if Go's Decode accepts the data and its length prefixes
are as short as an encoder writes them (the count is EncodeSize of the value), Kotlin's `decode` accepts it
with the same value and count; `decodeSize` gives the count. -/
theorem C49_decode_canonical (cg : Cfg) (c : KtCfg) {fs : Fields} (hacc : fs.accepted = true) (hn : fs.noDirectDyn = true)
    (d : Buf) (hd : d.length < 2 ^ 30) (base : Nat) (hb : base ≤ d.length)
    (hw : fs.NoWrap (d.drop base)) {v : fs.Val} {n : Nat}
    (hg : fs.decode cg (d.drop base) = .ok (v, n)) (hcan : n = fs.encodeSize v) :
    fs.ktDecode c d base = .ok (fs.toKt c [] v, n) ∧ fs.ktDecodeSize d base = some (n : Int) := by
  have hdl : (d.drop base).length < 2 ^ 62 := by rw [List.length_drop]; omega
  obtain ⟨ws, r1, r2, r3⟩ := (Fields.decode_iff cg hacc hn hdl hw v n).mp hg
  rw [Agrees.drop hb, Nat.add_zero] at r2
  have hl := r2.length_le
  have hv := (Fields.Repr_ok cg fs 0 v ws (Fields.accepted_facts hacc).1 r1).1
  have h8 := Fields.size8 hacc cg hv
  obtain ⟨_, h2⟩ := Fields.repr_short cg fs v ws (by omega) r1
  obtain ⟨m, e1, e2, e3⟩ := Fields.ktDecode_of_repr cg c hacc hn hd (h2 (by omega)) r2
  have : m = n := by omega
  subst this
  exact ⟨e1, e2⟩

/-- C49, what Kotlin accepts: the message of some Go value, which takes at most as many bytes as were
consumed; if it takes as many (the length prefixes are as short as an encoder writes them) then Go's Decode
accepts the data too and returns this value. -/
theorem C49_decode_sound (cg : Cfg) (c : KtCfg) {fs : Fields} (hacc : fs.accepted = true) (hn : fs.noDirectDyn = true)
    (hr : (Ty.struct fs).ktReach < 2 ^ 30) (d : Buf) (hd : d.length < 2 ^ 28) (base : Nat) (hb : base ≤ d.length)
    {kv : fs.KtVal} {n : Nat} (hk : fs.ktDecode c d base = .ok (kv, n)) :
    ∃ v : fs.Val, kv = fs.toKt c [] v ∧ base + n ≤ d.length ∧ fs.encodeSize v ≤ n ∧
      (n = fs.encodeSize v → fs.decode cg (d.drop base) = .ok (v, n)) := by
  obtain ⟨v, ws, s1, s2, s3, s4⟩ := Fields.ktDecode_to_repr cg c hacc hn (Ty.ktSmall_of_reach _ hr) (by omega) hb hk
  have hl := s2.length_le
  obtain ⟨ws', t1, t2, t3, t4⟩ := Fields.ktRepr_canon cg fs v ws (by omega) s1
  have hv := (Fields.Repr_ok cg fs 0 v ws' (Fields.accepted_facts hacc).1 t1).1
  have h8 := Fields.size8 hacc cg hv
  refine ⟨v, s3, by omega, by omega, ?_⟩
  intro e
  have hws : ws' = ws := t4 (by omega)
  subst hws
  rw [← Nat.add_zero (8 * base), ← Agrees.drop hb] at s2
  obtain ⟨m, e1, _, e3⟩ := Fields.decode_of_repr cg hacc hn (by rw [List.length_drop]; omega) t1 s2
  rw [e1]
  have : m = n := by omega
  rw [this]

/-- C49, definitions without bytes fields: Kotlin's `decode` does on every input what Go's Decode does. -/
theorem C49_decode_exact (cg : Cfg) (c : KtCfg) {fs : Fields} (hacc : fs.accepted = true) (hn : fs.noDirectDyn = true)
    (hnb : fs.noBytes = true) (hr : (Ty.struct fs).ktReach < 2 ^ 30) (d : Buf) (hd : d.length < 2 ^ 30) (base : Nat)
    (hb : base ≤ d.length) (hw : fs.NoWrap (d.drop base)) :
    (∀ v n, fs.decode cg (d.drop base) = .ok (v, n) → fs.ktDecode c d base = .ok (fs.toKt c [] v, n)) ∧
    (fs.decode cg (d.drop base) = .fail → fs.ktDecode c d base = .fail) := by
  have hdl : (d.drop base).length < 2 ^ 62 := by rw [List.length_drop]; omega
  constructor
  · intro v n hg
    obtain ⟨ws, r1, r2, r3⟩ := (Fields.decode_iff cg hacc hn hdl hw v n).mp hg
    rw [Agrees.drop hb, Nat.add_zero] at r2
    obtain ⟨m, e1, _, e3⟩ := Fields.ktDecode_of_repr cg c hacc hn hd ((Fields.ktRepr_noBytes cg fs v ws hnb).mpr r1) r2
    have : m = n := by omega
    rw [e1, this]
  · intro hg
    cases e : fs.ktDecode c d base with
    | fail => rfl
    | panic => exact absurd e (Fields.ktDecode_np c hacc hn hnb hr hd hb)
    | ok kn =>
      obtain ⟨kv, n⟩ := kn
      obtain ⟨v, ws, s1, s2, s3, s4⟩ := Fields.ktDecode_to_repr cg c hacc hn (Ty.ktSmall_of_reach _ hr) hd hb e
      rw [← Nat.add_zero (8 * base), ← Agrees.drop hb] at s2
      obtain ⟨m, e1, _⟩ := Fields.decode_of_repr cg hacc hn hdl ((Fields.ktRepr_noBytes cg fs v ws hnb).mp s1) s2
      rw [hg] at e1
      cases e1

/-- C49, round trip and exchange: a Kotlin value that fits its declaration is encoded and read back unchanged
by Kotlin, wherever in an array it stands, and Go reads the same value from the same bytes. -/
theorem C49_roundtrip (cg : Cfg) (c : KtCfg) {fs : Fields} (hacc : fs.accepted = true) (hn : fs.noDirectDyn = true)
    (v : fs.KtVal) (hv : fs.KtFits c [] v) (pre rest : Buf) (hsz : pre.length + fs.ktEncodeSize v + rest.length < 2 ^ 30) :
    ∃ d, fs.ktEncode v = some d ∧ fs.ktDecode c (pre ++ d ++ rest) pre.length = .ok (v, d.length) ∧
      fs.ktDecodeSize (pre ++ d ++ rest) pre.length = some (d.length : Int) ∧ fs.decode cg (d ++ rest) = .ok (fs.ofKt v, d.length) := by
  obtain ⟨f1, f2, f3⟩ := Fields.KtFits.facts fs [] 0 v (Fields.accepted_facts hacc).1 hv
  obtain ⟨e1, _, e3⟩ := C49_encode_agrees cg hacc (C49_safe hacc hn) v f1
  have hval := Fields.KtLegal.valid cg false fs v f1
  obtain ⟨d, g1, g2, g3, _, g5⟩ := Fields.encode_spec cg hacc hval
  have hrep := Fields.wire_repr cg fs 0 (fs.ofKt v) (Fields.accepted_facts hacc).1 hval f2
  have ha : Agrees (pre ++ d ++ rest) (8 * pre.length) (fs.wire (fs.ofKt v)) := by
    rw [← Nat.add_zero (8 * pre.length), ← Agrees.drop (by simp), List.append_assoc, List.drop_left]
    exact g5.append_right
  have hk := (Fields.repr_short cg fs (fs.ofKt v) _ (by omega) hrep).2 rfl
  obtain ⟨n, h1, h2, h3⟩ := Fields.ktDecode_of_repr cg c hacc hn (by simp only [List.length_append]; omega) hk ha
  have : n = d.length := by omega
  subst this
  rw [f3] at h1
  obtain ⟨m, h4, _, h5⟩ := Fields.decode_of_repr cg hacc hn (d := d ++ rest) (by simp only [List.length_append]; omega) hrep g5.append_right
  have : m = d.length := by omega
  subst this
  exact ⟨d, by rw [e3 (by omega), g1], h1, h2, h4⟩

/-- C49, from Go to Kotlin: Kotlin reads every value Go encodes. -/
theorem C49_from_go (cg : Cfg) (c : KtCfg) {fs : Fields} (hacc : fs.accepted = true) (hn : fs.noDirectDyn = true)
    (v : fs.Val) (hv : fs.Legal v) (hr : fs.InRange v) (pre rest : Buf) (hsz : pre.length + fs.encodeSize v + rest.length < 2 ^ 30) :
    ∃ d, fs.encode cg v = some d ∧ fs.ktDecode c (pre ++ d ++ rest) pre.length = .ok (fs.toKt c [] v, d.length) ∧
      fs.ktDecodeSize (pre ++ d ++ rest) pre.length = some (d.length : Int) := by
  have hval := Fields.Legal.valid cg false fs v hv
  obtain ⟨d, g1, g2, g3, _, g5⟩ := Fields.encode_spec cg hacc hval
  have hrep := Fields.wire_repr cg fs 0 v (Fields.accepted_facts hacc).1 hval hr
  have ha : Agrees (pre ++ d ++ rest) (8 * pre.length) (fs.wire v) := by
    rw [← Nat.add_zero (8 * pre.length), ← Agrees.drop (by simp), List.append_assoc, List.drop_left]
    exact g5.append_right
  have hk := (Fields.repr_short cg fs v _ (by omega) hrep).2 rfl
  obtain ⟨n, h1, h2, h3⟩ := Fields.ktDecode_of_repr cg c hacc hn (by simp only [List.length_append]; omega) hk ha
  have : n = d.length := by omega
  subst this
  exact ⟨d, g1, h1, h2⟩

/-! ### The hypotheses are met, and cannot be dropped -/

/-- Strings of ASCII bytes are kept (others become U+FFFD); the members of the enum are 0 … 19. -/
def ktCfg : KtCfg := ⟨.shift, fun s => s.map (fun b => if b.toNat < 128 then b else 0x3F#8), fun _ u => decide (u.toNat < 20)⟩

def ktPoint : point.KtVal := ((5#8 : BitVec 8), ((-1234 : Int) : BitVec 16), ())
def ktEntry (a b : List Byte) : entry.KtVal := (a, b, ())
def ktMsg : msg.KtVal :=
  ((1#8 : BitVec 8), (some 17#64 : Option (BitVec 64)), ktPoint, [(0xABC#16 : BitVec 16), 1#16, 0xFFF#16],
    ([1#8, 0#8, 3#8] : List Byte), ([0x68#8, 0x69#8] : List Byte),
    [ktEntry [0x61#8] [9#8], ktEntry [] []], ((-70000 : Int) : BitVec 32), ())

theorem ktMsg_ofKt : msg.ofKt ktMsg = msgVal := rfl

theorem ktMsg_fits : msg.KtFits ktCfg [] ktMsg := by
  obtain ⟨h1, _, h3, h4, _, h6, h7, h8, _⟩ := msg_inRange
  refine ⟨⟨h1, fun _ => by show (1#8).toNat ≤ 1; decide⟩, ⟨17#64, rfl, by decide, by decide +kernel⟩,
    ⟨⟨h3.1, nofun⟩, ⟨h3.2.1, nofun⟩, trivial⟩, ⟨rfl, fun x hx => ⟨h4 x hx, nofun⟩,
    (by show 3 < 2 ^ 31; decide), ⟨h6, rfl⟩, ⟨rfl, ?_, ⟨⟨h8, nofun⟩, trivial⟩⟩⟩⟩
  intro x hx
  rcases List.mem_cons.mp hx with rfl | hx
  · exact ⟨⟨by show ¬ (0#8 ∈ [0x61#8]); decide, rfl⟩, by show 1 < 2 ^ 31; decide, trivial⟩
  · rcases List.mem_cons.mp hx with rfl | hx
    · exact ⟨⟨by show ¬ (0#8 ∈ ([] : List Byte)); decide, rfl⟩, by show 0 < 2 ^ 31; decide, trivial⟩
    · cases hx

theorem ktMsg_size : msg.ktEncodeSize ktMsg = 25 := by
  rw [Fields.ktEncodeSize_eq]; exact msg_size_eq

example : ∃ d, msg.ktEncode ktMsg = some d ∧ msg.ktDecode ktCfg ([1#8] ++ d ++ [2#8, 3#8]) 1 = .ok (ktMsg, d.length) ∧
    msg.ktDecodeSize ([1#8] ++ d ++ [2#8, 3#8]) 1 = some (d.length : Int) ∧ msg.decode cfg' (d ++ [2#8, 3#8]) = .ok (msgVal, d.length) :=
  C49_roundtrip cfg' ktCfg msg_accepted msg_noDirectDyn ktMsg ktMsg_fits [1#8] [2#8, 3#8]
    (by rw [ktMsg_size]; decide)

theorem msg_ktReach : (Ty.struct msg).ktReach < 2 ^ 30 := by decide +kernel

/-- `struct Inner { string s; } struct S { Inner x; uint8 y; }` -/
def ktBad : Fields := .one (.struct (.one .str none false .nil)) (some 0) false <| .one (.sc (.prim .u8)) (some 8) false .nil
def ktBadVal : ktBad.KtVal := ((([0x61#8] : List Byte), ()), (7#8 : BitVec 8), ())

/-- C49 does not hold for every accepted definition: after a directly nested dynamic struct Kotlin forgets
`offset`.  Here `y` overwrites the first byte of the string: Go writes 61 00 07, Kotlin 07 00 00. -/
theorem C49_encode_counterexample :
    ktBad.accepted = true ∧ ktBad.KtLegal ktBadVal ∧ ktBad.ktSafe false false = false ∧
    ktBad.encode cfg (ktBad.ofKt ktBadVal) = some [0x61#8, 0#8, 7#8] ∧
    ktBad.ktEncode ktBadVal = some [7#8, 0#8, 0#8] := by
  refine ⟨by decide +kernel, ⟨⟨trivial, trivial⟩, nofun, trivial⟩, by decide +kernel, by decide +kernel, by decide +kernel⟩

/-- `struct S { bytes b; }` -/
def ktBytes : Fields := .one .bytes none false .nil
instance : DecidableEq ktBytes.Val := inferInstanceAs (DecidableEq (List Byte × Unit))
instance : DecidableEq ktBytes.KtVal := inferInstanceAs (DecidableEq (List Byte × Unit))

/-- A length prefix of five bytes is counted modulo 2^32 by Kotlin: it accepts 83 80 80 80 10 as the length 3,
where Go reads the length 2^32 + 3 and asks for more data.  (`C49_decode_sound`: the value takes 4 bytes.) -/
theorem C49_prefix_counterexample :
    ktBytes.accepted = true ∧ ktBytes.noDirectDyn = true ∧
    ktBytes.ktDecode ktCfg [0x83#8, 0x80#8, 0x80#8, 0x80#8, 0x10#8, 1#8, 2#8, 3#8] 0 = .ok ((([1#8, 2#8, 3#8] : List Byte), ()), 8) ∧
    ktBytes.decode cfg [0x83#8, 0x80#8, 0x80#8, 0x80#8, 0x10#8, 1#8, 2#8, 3#8] = .fail := by
  refine ⟨by decide +kernel, by decide +kernel, by decide +kernel, ?_⟩
  rw [← Res.isFail_iff]; decide +kernel

/-- A length prefix that counts as negative makes Kotlin throw instead of returning -1. -/
theorem C49_exception_counterexample :
    ktBytes.ktDecode ktCfg [0xFF#8, 0xFF#8, 0xFF#8, 0xFF#8, 0x0F#8] 0 = .panic ∧
    ktBytes.decode cfg [0xFF#8, 0xFF#8, 0xFF#8, 0xFF#8, 0x0F#8] = .fail := by
  refine ⟨?_, ?_⟩
  · rw [← Res.isPanic_iff]; decide +kernel
  · rw [← Res.isFail_iff]; decide +kernel

/-- Kotlin refuses length prefixes of more than five bytes, which Go reads.  (`C49_decode_canonical`: the
prefix is longer than an encoder writes it.) -/
theorem C49_long_prefix_counterexample :
    ktBytes.decode cfg [0x81#8, 0x80#8, 0x80#8, 0x80#8, 0x80#8, 0#8, 7#8] = .ok ((([7#8] : List Byte), ()), 7) ∧
    ktBytes.ktDecode ktCfg [0x81#8, 0x80#8, 0x80#8, 0x80#8, 0x80#8, 0#8, 7#8] 0 = .fail := by
  refine ⟨by decide +kernel, ?_⟩
  rw [← Res.isFail_iff]; decide +kernel

/-- The hypotheses of `C49_decode_agrees` and `C49_decode_canonical`, on a bytes field behind other data. -/
example : ktBytes.decode cfg ([9#8, 2#8, 5#8, 6#8, 7#8].drop 1) = .ok ((([5#8, 6#8] : List Byte), ()), 3) ∧
    ktBytes.ktDecode ktCfg [9#8, 2#8, 5#8, 6#8, 7#8] 1 = .ok ((([5#8, 6#8] : List Byte), ()), 3) := by
  have hg : ktBytes.decode cfg ([9#8, 2#8, 5#8, 6#8, 7#8].drop 1) = .ok ((([5#8, 6#8] : List Byte), ()), 3) := by decide +kernel
  have hw : ktBytes.NoWrap ([9#8, 2#8, 5#8, 6#8, 7#8].drop 1) :=
    Fields.noWrap_of_noDynArr (by decide +kernel) (by decide +kernel) (by decide)
  refine ⟨hg, (C49_decode_canonical cfg ktCfg (by decide +kernel) (by decide +kernel) _ (by decide) 1 (by decide) hw hg (by decide +kernel)).1⟩

example {kv : ktBytes.KtVal} {n : Nat} (hk : ktBytes.ktDecode ktCfg [9#8, 2#8, 5#8, 6#8, 7#8] 1 = .ok (kv, n)) :
    kv = (([5#8, 6#8] : List Byte), ()) ∧ n = 3 := by
  have hg : ktBytes.decode cfg ([9#8, 2#8, 5#8, 6#8, 7#8].drop 1) = .ok ((([5#8, 6#8] : List Byte), ()), 3) := by decide +kernel
  have hw : ktBytes.NoWrap ([9#8, 2#8, 5#8, 6#8, 7#8].drop 1) :=
    Fields.noWrap_of_noDynArr (by decide +kernel) (by decide +kernel) (by decide)
  exact C49_decode_agrees cfg ktCfg (by decide +kernel) (by decide +kernel) (by decide +kernel) _ (by decide) 1 (by decide) hw hg hk

/-- `C49_decode_sound` on the bytes of the first counterexample: the value `kv` takes fewer bytes than `n`. -/
example : ∃ v : ktBytes.Val, ktBytes.encodeSize v ≤ 8 ∧ ktBytes.toKt ktCfg [] v = (([1#8, 2#8, 3#8] : List Byte), ()) := by
  obtain ⟨v, h1, _, h3, _⟩ := C49_decode_sound cfg ktCfg (by decide +kernel) (by decide +kernel) (by decide +kernel) _ (by decide) 0
    (by decide) C49_prefix_counterexample.2.2.1
  exact ⟨v, h3, h1.symm⟩

/-- `struct K { uint16 k[#12] = 0xABC; uint8 x[#4]; string s; int32 z[#24] big; }`: decoded alike on every input. -/
def ktText : Fields :=
  .const .u16 12 false 0xABC <| .one (.sc (.prim .u8)) (some 4) false <| .one .str none false <|
  .one (.sc (.prim .i32)) (some 24) true .nil
instance : DecidableEq ktText.Val := inferInstanceAs (DecidableEq (BitVec 8 × List Byte × BitVec 32 × Unit))

example (d : Buf) (hd : d.length < 2 ^ 30) (v : ktText.Val) (n : Nat) (h : ktText.decode cfg d = .ok (v, n)) :
    ktText.ktDecode ktCfg d 0 = .ok (ktText.toKt ktCfg [] v, n) := by
  refine (C49_decode_exact cfg ktCfg (fs := ktText) (by decide +kernel) (by decide +kernel) (by decide +kernel) (by decide +kernel) d hd 0
    (by omega) (Fields.noWrap_of_noDynArr (by decide +kernel) (by decide +kernel) (by rw [List.length_drop]; omega))).1 v n ?_
  exact h

example : ktText.decode cfg [0xBC#8, 0x7A#8, 0x61#8, 0#8, 0xFF#8, 0xFF#8, 0xFE#8] =
    .ok (((7#8 : BitVec 8), ([0x61#8] : List Byte), ((-2 : Int) : BitVec 32), ()), 7) := by decide +kernel

/-- `C49_from_go` on the sample message. -/
example : ∃ d, msg.encode cfg msgVal = some d ∧ msg.ktDecode ktCfg ([1#8] ++ d ++ [2#8]) 1 = .ok (msg.toKt ktCfg [] msgVal, d.length) ∧
    msg.ktDecodeSize ([1#8] ++ d ++ [2#8]) 1 = some (d.length : Int) :=
  C49_from_go cfg ktCfg msg_accepted msg_noDirectDyn msgVal msg_legal msg_inRange [1#8] [2#8] (by rw [msg_size_eq]; decide)

end Bubbler
