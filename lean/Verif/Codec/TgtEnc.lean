import Verif.Codec.TgtMsg
import Verif.Codec.CEncMain
import Verif.Codec.KtEnc

/-
Encoders of the targets modelled in TgtMsg.lean: if the leaf statements of a target write what they should on
a zeroed tail (`TgtSpec.EncOk`), its `encode` writes what Go's does.
-/
set_option linter.unusedSimpArgs false
namespace Bubbler

/-- How the values of a target relate to Go values, and the restrictions under which they do. -/
structure TgtSpec (T : Tgt) where
  /-- bound on the size of the data -/
  maxLen : Nat
  /-- bound on the length of a byte sequence -/
  maxBytes : Nat
  /-- the Go value for a value of the target -/
  ofSc : List Fields → (s : Sc) → T.SVal s → BitVec s.width
  ofStr : T.Str → List Byte
  /-- values the encoder is meant for -/
  legalSc : List Fields → (s : Sc) → T.SVal s → Prop
  legalStr : T.Str → Prop
  /-- bit positions (in the struct) at which the statements for scalars (looped or not) and constants are right -/
  encOk : (s : Sc) → (lp : Bool) → (start n : Nat) → Bool
  constOk : (p : Prim) → (n : Nat) → (big : Bool) → (val start : Nat) → Bool
  /-- loops over elements of fixed width respect `start` -/
  loopAny : Bool

mutual
  /-- The Go value with the same meaning. -/
  def Ty.ofT {T : Tgt} (S : TgtSpec T) : (t : Ty) → List Fields → t.TVal T → t.Val
    | .sc s, ctx, (x : T.SVal s) => S.ofSc ctx s x
    | .str, _, (x : T.Str) => S.ofStr x
    | .bytes, _, (x : List Byte) => x
    | .struct fs, ctx, v => fs.ofT S ctx v
  def Fields.ofT {T : Tgt} (S : TgtSpec T) : (fs : Fields) → List Fields → fs.TVal T → fs.Val
    | .nil, _, _ => ()
    | .void _ r, ctx, v => r.ofT S ctx v
    | .const _ _ _ _ r, ctx, v => r.ofT S ctx v
    | .one t bits big r, ctx, (v : t.TVal T × r.TVal T) => (t.ofT S (.one t bits big r :: ctx) v.1, r.ofT S ctx v.2)
    | .arr t len bits big r, ctx, (v : List (t.TVal T) × r.TVal T) =>
      (v.1.map (fun x => t.ofT S (.arr t len bits big r :: ctx) x), r.ofT S ctx v.2)
end

mutual
  /-- Values the encoder is meant for: arrays have the declared length, and the leaves are legal. -/
  def Ty.TLegal {T : Tgt} (S : TgtSpec T) : (t : Ty) → List Fields → t.TVal T → Prop
    | .sc s, ctx, (x : T.SVal s) => S.legalSc ctx s x
    | .str, _, (x : T.Str) => S.legalStr x
    | .bytes, _, (x : List Byte) => x.length < S.maxBytes
    | .struct fs, ctx, v => fs.TLegal S ctx v
  def Fields.TLegal {T : Tgt} (S : TgtSpec T) : (fs : Fields) → List Fields → fs.TVal T → Prop
    | .nil, _, _ => True
    | .void _ r, ctx, v => r.TLegal S ctx v
    | .const _ _ _ _ r, ctx, v => r.TLegal S ctx v
    | .one t bits big r, ctx, (v : t.TVal T × r.TVal T) =>
      t.TLegal S (.one t bits big r :: ctx) v.1 ∧ r.TLegal S ctx v.2
    | .arr t len bits big r, ctx, (v : List (t.TVal T) × r.TVal T) =>
      v.1.length = len ∧ (∀ x ∈ v.1, t.TLegal S (.arr t len bits big r :: ctx) x) ∧ r.TLegal S ctx v.2
end

mutual
  def Ty.tOk {T : Tgt} (S : TgtSpec T) : Ty → Bool
    | .struct fs => fs.tOk S false 0
    | _ => true
  /-- Every scalar, constant and array, at any depth, is at a position the target handles correctly.
  `top`: the fields of the message itself, not of a nested struct. -/
  def Fields.tOk {T : Tgt} (S : TgtSpec T) : Fields → (top : Bool) → (start : Nat) → Bool
    | .nil, _, _ => true
    | .void n r, top, start => r.tOk S top (start + n)
    | .const p n big val r, top, start => S.constOk p n big val start && r.tOk S top (start + n)
    | .one t bits _ r, top, start =>
      t.tOk S && r.tOk S top (start + bits.getD 0) &&
        match t with
        | .sc s => S.encOk s false start (bits.getD 0)
        | _ => true
    | .arr t len bits _ r, top, start =>
      t.tOk S && r.tOk S top (start + bits.getD 0) &&
        (S.loopAny || top || !T.loop len || t.dynamic) &&
        match t with
        | .sc s => (List.range len).all (fun i => S.encOk s (T.loop len) (start + i * (bits.getD 0 / len)) (bits.getD 0 / len))
        | _ => true
end

/-- The leaf statements of the target write what Go's do, on data that is zero from there on. -/
structure TgtSpec.EncOk {T : Tgt} (S : TgtSpec T) : Prop where
  loopBase : S.loopAny = true → ∀ b, T.loopBase b = b
  loopBase0 : T.loopBase 0 = 0
  maxBytes : S.maxBytes ≤ 2 ^ 62
  sub : ∀ n base rel : Nat, base + rel ≤ n → n < S.maxLen → T.sub n base rel = true
  bool : ∀ ctx s x, Sc.isBool s = true → S.legalSc ctx s x → (S.ofSc ctx s x).toNat ≤ 1
  strSize : ∀ s, S.legalStr s → T.strSize s = (S.ofStr s).length
  lenSize : ∀ n, n < S.maxBytes → T.lenSize n = 1 + lenExtra n
  sc : ∀ ctx s big arr x start n base d, s.wf n = true → (arr = true → s.wfArr = true) → S.encOk s false start n = true →
    S.legalSc ctx s x → d.length < S.maxLen → 8 * base + start + n ≤ 8 * d.length → ZeroFrom d (8 * base + start) →
    ∃ d', T.encSc ctx s big arr x start n base d = some d' ∧ Overlay d d' (8 * base + start) (scWire n big (S.ofSc ctx s x))
  scLoop : ∀ ctx s big x start n base d, s.wf n = true → s.wfArr = true → S.encOk s true start n = true →
    S.legalSc ctx s x → d.length < S.maxLen → 8 * base + start + n ≤ 8 * d.length → ZeroFrom d (8 * base + start) →
    ∃ d', T.encScLoop ctx s big x (8 * base + start) n d = some d' ∧
      Overlay d d' (8 * base + start) (scWire n big (S.ofSc ctx s x))
  const : ∀ p n big val start base d, n ≤ p.width → (big = true → n = p.width) → S.constOk p n big val start = true →
    d.length < S.maxLen → 8 * base + start + n ≤ 8 * d.length → ZeroFrom d (8 * base + start) →
    ∃ d', T.encConst p n big val start base d = some d' ∧
      Overlay d d' (8 * base + start) (scWire n big (BitVec.ofNat 64 val))
  str : ∀ s pos d, S.legalStr s → d.length < S.maxLen → pos + ((S.ofStr s).length + 1) ≤ d.length →
    ∃ d', T.encStr s pos d = some (d', (S.ofStr s).length + 1) ∧ Overlay d d' (8 * pos) (byteWire (S.ofStr s ++ [0#8]))
  bytes : ∀ s pos d, s.length < S.maxBytes → d.length < S.maxLen → pos + ((varint s.length).length + s.length) ≤ d.length →
    ∃ d', T.encBytes s pos d = some (d', (varint s.length).length + s.length) ∧
      Overlay d d' (8 * pos) (byteWire (varint s.length ++ s))

variable {T : Tgt} {S : TgtSpec T}

mutual
  theorem Ty.TLegal.valid (E : S.EncOk) (c : Cfg) (b : Bool) : ∀ (t : Ty) (ctx : List Fields) (lp : Bool) (v : t.TVal T),
      t.TLegal S ctx v → t.Valid c b lp (t.ofT S ctx v)
    | .sc s, ctx, lp, (v : T.SVal s) => by
      intro h hb _
      exact E.bool ctx s v hb h
    | .str, _, _, v => fun _ => trivial
    | .bytes, _, _, (v : List Byte) => fun h => by
      have h : v.length < S.maxBytes := h
      have := E.maxBytes
      show v.length ≤ maxInt
      have : maxInt = 2 ^ 63 - 1 := rfl
      omega
    | .struct fs, ctx, _, v => fun h => Fields.TLegal.valid E c b fs ctx v h
  theorem Fields.TLegal.valid (E : S.EncOk) (c : Cfg) (b : Bool) : ∀ (fs : Fields) (ctx : List Fields) (v : fs.TVal T),
      fs.TLegal S ctx v → fs.Valid c b (fs.ofT S ctx v)
    | .nil, _, _ => fun _ => trivial
    | .void _ r, ctx, v => fun h => Fields.TLegal.valid E c b r ctx v h
    | .const _ _ _ _ r, ctx, v => fun h => Fields.TLegal.valid E c b r ctx v h
    | .one t _ _ r, ctx, (v : t.TVal T × r.TVal T) => fun h =>
      ⟨Ty.TLegal.valid E c b t _ false v.1 h.1, Fields.TLegal.valid E c b r ctx v.2 h.2⟩
    | .arr t len bits big r, ctx, (v : List (t.TVal T) × r.TVal T) => fun h => by
      refine ⟨by simp only [Fields.ofT, List.length_map]; exact h.1, ?_, Fields.TLegal.valid E c b r ctx v.2 h.2.2⟩
      intro x hx
      obtain ⟨y, hy, rfl⟩ := List.mem_map.mp hx
      exact Ty.TLegal.valid E c b t _ _ y (h.2.1 y hy)
end

/-! ### encode_size -/

mutual
  theorem Ty.tSizeOf_eq (E : S.EncOk) : ∀ (t : Ty) (ctx : List Fields) (v : t.TVal T), t.TLegal S ctx v →
      t.tSizeOf T v = t.sizeExtra (t.ofT S ctx v)
    | .sc s, ctx, v => fun _ => by simp only [Ty.tSizeOf, Ty.sizeExtra]
    | .str, ctx, (v : T.Str) => fun h => by
      simp only [Ty.tSizeOf, Ty.sizeExtra, Ty.ofT, E.strSize v h]
    | .bytes, ctx, (v : List Byte) => fun h => by
      simp only [Ty.tSizeOf, Ty.sizeExtra, Ty.ofT, E.lenSize _ h]; omega
    | .struct fs, ctx, v => fun h => by
      simp only [Ty.tSizeOf, Ty.sizeExtra, Ty.ofT, Fields.tSizeFields_eq E fs ctx v h]
      try rfl
  theorem Fields.tSizeFields_eq (E : S.EncOk) : ∀ (fs : Fields) (ctx : List Fields) (v : fs.TVal T), fs.TLegal S ctx v →
      fs.tSizeFields T v = fs.sizeExtra (fs.ofT S ctx v)
    | .nil, _, _ => fun _ => rfl
    | .void _ r, ctx, v => fun h => by
      simp only [Fields.tSizeFields, Fields.sizeExtra, Fields.ofT]; exact Fields.tSizeFields_eq E r ctx v h
    | .const _ _ _ _ r, ctx, v => fun h => by
      simp only [Fields.tSizeFields, Fields.sizeExtra, Fields.ofT]; exact Fields.tSizeFields_eq E r ctx v h
    | .one t bits big r, ctx, (v : t.TVal T × r.TVal T) => fun h => by
      simp only [Fields.tSizeFields, Fields.sizeExtra, Fields.ofT]
      rw [Ty.tSizeOf_eq E t _ v.1 h.1, Fields.tSizeFields_eq E r ctx v.2 h.2]
    | .arr t len bits big r, ctx, (v : List (t.TVal T) × r.TVal T) => fun h => by
      simp only [Fields.tSizeFields, Fields.sizeExtra, Fields.ofT]
      rw [Fields.tSizeFields_eq E r ctx v.2 h.2.2, List.map_map]
      congr 2
      apply List.map_congr_left
      intro x hx
      exact Ty.tSizeOf_eq E t _ x (h.2.1 x hx)
end

/-- `encode_size` is Go's. -/
theorem Fields.tEncodeSize_eq (E : S.EncOk) (fs : Fields) (ctx : List Fields) (v : fs.TVal T) (h : fs.TLegal S ctx v) :
    fs.tEncodeSize T v = fs.encodeSize (fs.ofT S ctx v) := by
  unfold Fields.tEncodeSize Fields.encodeSize
  rw [Fields.tSizeFields_eq E fs ctx v h]

/-! ### encode -/

/-- The position of an element of type `t` is one the target handles. -/
def Ty.tElemOk (S : TgtSpec T) : Ty → (lp : Bool) → Nat → Nat → Prop
  | .sc s, lp, start, n => S.encOk s lp start n = true
  | _, _, _, _ => True

/-- What writing one value achieves. -/
def TElemEnc (S : TgtSpec T) (t : Ty) (ctx : List Fields) (n : Nat) (big : Bool) (x : t.TVal T) (base pos : Nat) (d : Buf)
    (off : Nat) (res : Option (Buf × Nat)) : Prop :=
  ∃ d' off', res = some (d', off') ∧ Overlay d d' (8 * (base + off) + pos) (t.wire n big (t.ofT S ctx x)) ∧
    8 * off' + t.fixed n = 8 * off + (t.wire n big (t.ofT S ctx x)).length ∧ (t.dynamic = false → off' = off)

theorem tEncIdx_spec (t : Ty) (ctx : List Fields) (f : Nat → t.TVal T → Buf → Nat → Option (Buf × Nat))
    (eb base start L : Nat) (big : Bool) (hfix : t.fixed eb = eb) (xs : List (t.TVal T)) : ∀ (i : Nat) (d : Buf) (off : Nat),
    (∀ x ∈ xs, ∀ (k : Nat) (d : Buf) (off : Nat), k < i + xs.length → d.length = L →
      ZeroFrom d (8 * (base + off) + (start + k * eb)) →
      8 * (base + off) + (start + k * eb) + (t.wire eb big (t.ofT S ctx x)).length ≤ 8 * d.length →
      TElemEnc S t ctx eb big x base (start + k * eb) d off (f k x d off)) →
    d.length = L →
    ZeroFrom d (8 * (base + off) + (start + i * eb)) →
    8 * (base + off) + (start + i * eb) + (((xs.map (fun x => t.ofT S ctx x)).map (fun x => t.wire eb big x)).flatten).length ≤
      8 * d.length →
    ∃ d' off', encIdx f i xs d off = some (d', off') ∧
      Overlay d d' (8 * (base + off) + (start + i * eb)) (((xs.map (fun x => t.ofT S ctx x)).map (fun x => t.wire eb big x)).flatten) ∧
      8 * off' + xs.length * eb =
        8 * off + (((xs.map (fun x => t.ofT S ctx x)).map (fun x => t.wire eb big x)).flatten).length ∧
      (t.dynamic = false → off' = off) := by
  induction xs with
  | nil =>
    intro i d off _ _ _ _
    exact ⟨d, off, rfl, by simpa using Overlay.nil _ _, by simp, fun _ => rfl⟩
  | cons x xs ih =>
    intro i d off hf hL hz hd
    simp only [List.map_cons, List.flatten_cons, List.length_append] at hd
    obtain ⟨d1, off1, e1, o1, l1, q1⟩ := hf x (by simp) i d off (by simp) hL hz (by omega)
    rw [hfix] at l1
    have hpos : 8 * (base + off1) + (start + (i + 1) * eb) =
        8 * (base + off) + (start + i * eb) + (t.wire eb big (t.ofT S ctx x)).length := by
      rw [Nat.add_mul, Nat.one_mul]; omega
    obtain ⟨d2, off2, e2, o2, l2, q2⟩ := ih (i + 1) d1 off1
      (fun y hy k d off hk => hf y (by simp [hy]) k d off (by simp only [List.length_cons]; omega))
      (by rw [o1.1]; exact hL) (hz.overlay o1 (by omega)) (by rw [hpos, o1.1]; omega)
    refine ⟨d2, off2, ?_, ?_, ?_, fun h => (q2 h).trans (q1 h)⟩
    · simp only [encIdx, e1, e2]
    · simp only [List.map_cons, List.flatten_cons]
      rw [hpos] at o2
      exact o1.append o2
    · simp only [List.map_cons, List.flatten_cons, List.length_append, List.length_cons, Nat.add_mul, Nat.one_mul]
      omega

/-- One element of an array. -/
theorem tArrElemEnc_spec (E : S.EncOk) (t : Ty) (ctx : List Fields)
    (rec : t.TVal T → Nat → Nat → Nat → Buf → Nat → Option (Buf × Nat))
    (len eb start base : Nat) (big : Bool) (x : t.TVal T) (hx : t.TLegal S ctx x)
    (hok : ∀ i, t.elemOk true (start + i * eb) eb)
    (i : Nat) (htok : t.tElemOk S (T.loop len) (start + i * eb) eb)
    (hlb : T.loop len = true → t.dynamic = false → T.loopBase base = base)
    (hst : ∀ fs, t = .struct fs → start % 8 = 0 ∧ eb % 8 = 0) (hfix : t.fixed eb = eb)
    (d : Buf) (hL : d.length < S.maxLen)
    (hrec : ∀ st d' off, d'.length = d.length → t.elemOk true st eb → t.tElemOk S false st eb → ZeroFrom d' (8 * (base + off) + st) →
      8 * (base + off) + st + (t.wire eb big (t.ofT S ctx x)).length ≤ 8 * d'.length →
      TElemEnc S t ctx eb big x base st d' off (rec x st eb base d' off))
    (off : Nat) (hz : ZeroFrom d (8 * (base + off) + (start + i * eb)))
    (hd : 8 * (base + off) + (start + i * eb) + (t.wire eb big (t.ofT S ctx x)).length ≤ 8 * d.length) :
    TElemEnc S t ctx eb big x base (start + i * eb) d off (tArrElemEnc T t ctx rec len eb start base big i x d off) := by
  unfold tArrElemEnc
  cases hl : T.loop len with
  | false =>
    simp only [Bool.false_eq_true, if_false]
    rw [hl] at htok
    exact hrec _ _ _ rfl (hok i) htok hz hd
  | true =>
    simp only [if_true]
    rw [hl] at htok
    cases t with
    | sc s =>
      simp only
      have h0 := hok i
      simp only [Ty.elemOk] at h0
      have hlen : ((Ty.sc s).wire eb big ((Ty.sc s).ofT S ctx x)).length = eb := scWire_length (w := s.width) eb big _
      rw [hlen] at hd
      obtain ⟨d', e, o⟩ := E.scLoop ctx s big x (start + i * eb) eb (base + off) d h0.1 (h0.2 trivial) htok hx hL hd hz
      rw [hlb hl rfl, e]
      exact ⟨d', off, rfl, o, by rw [hlen]; rfl, fun _ => rfl⟩
    | str =>
      have e : start + i * eb = start := by simp only [Ty.fixed] at hfix; rw [← hfix]; simp
      have := hok i
      rw [e] at hd this hz ⊢
      exact hrec _ _ _ rfl this trivial hz hd
    | bytes =>
      have e : start + i * eb = start := by simp only [Ty.fixed] at hfix; rw [← hfix]; simp
      have := hok i
      rw [e] at hd this hz ⊢
      exact hrec _ _ _ rfl this trivial hz hd
    | struct fs =>
      simp only
      have h0 := hok i
      by_cases hdyn : fs.dynamic = true
      · rw [if_pos hdyn]
        have e : start + i * eb = start := by simp only [Ty.fixed, hdyn, if_true] at hfix; rw [← hfix]; simp
        rw [e] at hd h0 hz ⊢
        exact hrec _ _ _ rfl h0 trivial hz hd
      · rw [if_neg hdyn]
        obtain ⟨h1, h2⟩ := hst fs rfl
        have e : 8 * (start / 8 + i * (eb / 8)) = start + i * eb := by
          have : i * eb = 8 * (i * (eb / 8)) := by
            have h3 : eb = 8 * (eb / 8) := by omega
            calc i * eb = i * (8 * (eb / 8)) := by rw [← h3]
              _ = 8 * (i * (eb / 8)) := by rw [Nat.mul_left_comm]
          omega
        rw [e, hlb hl (by simpa [Ty.dynamic] using hdyn)]
        exact hrec _ _ _ rfl h0 trivial hz hd

mutual
  theorem Ty.tEnc_spec (E : S.EncOk) : ∀ (t : Ty) (ctx : List Fields) (big arr : Bool) (v : t.TVal T) (start n base : Nat) (d : Buf)
      (off : Nat), t.wf = true → t.elemOk arr start n → t.tOk S = true → t.tElemOk S false start n → t.TLegal S ctx v →
      d.length < S.maxLen → ZeroFrom d (8 * (base + off) + start) →
      8 * (base + off) + start + (t.wire n big (t.ofT S ctx v)).length ≤ 8 * d.length →
      TElemEnc S t ctx n big v base start d off (t.tEnc T ctx big arr v start n base d off)
    | .sc s, ctx, big, arr, (v : T.SVal s), start, n, base, d, off => by
      intro _ hok _ htok hv hL hz hd
      simp only [Ty.elemOk] at hok
      have hlen : ((Ty.sc s).wire n big ((Ty.sc s).ofT S ctx v)).length = n := scWire_length (w := s.width) n big _
      rw [hlen] at hd
      obtain ⟨d', e, o⟩ := E.sc ctx s big arr v start n (base + off) d hok.1 hok.2 htok hv hL hd hz
      refine ⟨d', off, by simp only [Ty.tEnc, e], o, by rw [hlen]; simp only [Ty.fixed], fun _ => rfl⟩
    | .str, ctx, big, arr, (v : T.Str), start, n, base, d, off => by
      intro _ hok _ _ hv hL _ hd
      simp only [Ty.elemOk] at hok
      simp only [Ty.wire, Ty.ofT, byteWire_length, List.length_append, List.length_cons, List.length_nil] at hd
      obtain ⟨d', e, o⟩ := E.str v (base + off + start / 8) d hv hL (by omega)
      refine ⟨d', _, by simp only [Ty.tEnc, e]; rfl, ?_, ?_, by simp [Ty.dynamic]⟩
      · simp only [Ty.wire, Ty.ofT]
        have : 8 * (base + off + start / 8) = 8 * (base + off) + start := by omega
        rwa [this] at o
      · simp only [Ty.fixed, Ty.wire, Ty.ofT, byteWire_length, List.length_append, List.length_cons, List.length_nil]
        omega
    | .bytes, ctx, big, arr, (v : List Byte), start, n, base, d, off => by
      intro _ hok _ _ hv hL _ hd
      simp only [Ty.elemOk] at hok
      simp only [Ty.wire, Ty.ofT, byteWire_length, List.length_append] at hd
      obtain ⟨d', e, o⟩ := E.bytes v (base + off + start / 8) d hv hL (by omega)
      refine ⟨d', _, by simp only [Ty.tEnc, e]; rfl, ?_, ?_, by simp [Ty.dynamic]⟩
      · simp only [Ty.wire, Ty.ofT]
        have : 8 * (base + off + start / 8) = 8 * (base + off) + start := by omega
        rwa [this] at o
      · simp only [Ty.fixed, Ty.wire, Ty.ofT, byteWire_length, List.length_append]
        omega
    | .struct fs, ctx, big, arr, v, start, n, base, d, off => by
      intro hwf hok htk _ hv hL hz hd
      have hwl := Ty.wire_length flatCfg false (.struct fs) arr start n big false ((Ty.struct fs).ofT S ctx v) hwf hok
        (Ty.TLegal.valid E flatCfg false (.struct fs) ctx false v hv)
      simp only [Ty.elemOk] at hok
      simp only [Ty.wf, Bool.and_eq_true, decide_eq_true_eq] at hwf
      simp only [Ty.wire, Ty.ofT] at hd hwl
      simp only [Ty.tOk] at htk
      have hb : 8 * (base + off + start / 8) = 8 * (base + off) + start := by omega
      obtain ⟨d', o, e, ov, l, q⟩ := Fields.tEncFields_spec E fs ctx v 0 (base + off + start / 8) false d 0
        hwf.1 htk (by simp) hv hL (by
          have : 8 * (base + off + start / 8 + 0) + 0 = 8 * (base + off) + start := by omega
          rw [this]; exact hz) (by omega)
      rw [show ∀ a, 8 * (a + 0) + 0 = 8 * a from fun a => by omega, hb] at ov
      refine ⟨d', (if fs.dynamic then off + (o + fs.sum / 8) else off), ?_, ?_, ?_, ?_⟩
      · simp only [Ty.tEnc, E.sub _ _ (off + start / 8) (show base + (off + start / 8) ≤ d.length by omega) hL, if_true, e]
      · simpa only [Ty.wire, Ty.ofT] using ov
      · simp only [Ty.fixed, Ty.wire, Ty.ofT] at hwl ⊢
        by_cases hdyn : fs.dynamic = true
        · simp only [hdyn, if_true] at hwl ⊢
          omega
        · simp only [hdyn, if_false] at hwl ⊢
          have := q (by simpa using hdyn)
          simp only [Bool.false_eq_true, if_false] at hwl ⊢
          omega
      · intro h
        simp only [Ty.dynamic] at h
        simp [h]
  theorem Fields.tEncFields_spec (E : S.EncOk) : ∀ (fs : Fields) (ctx : List Fields) (v : fs.TVal T) (start base : Nat) (top : Bool)
      (d : Buf) (off : Nat),
      fs.wf start = true → fs.tOk S top start = true → (top = true → base = 0) → fs.TLegal S ctx v →
      d.length < S.maxLen → ZeroFrom d (8 * (base + off) + start) →
      8 * (base + off) + start + (fs.wire (fs.ofT S ctx v)).length ≤ 8 * d.length →
      ∃ d' off', fs.tEncFields T ctx v start base d off = some (d', off') ∧
        Overlay d d' (8 * (base + off) + start) (fs.wire (fs.ofT S ctx v)) ∧
        8 * off' + fs.sum = 8 * off + (fs.wire (fs.ofT S ctx v)).length ∧ (fs.dynamic = false → off' = off)
    | .nil, ctx, v, start, base, top, d, off => by
      intro _ _ _ _ _ _ _
      exact ⟨d, off, rfl, by simpa [Fields.wire] using Overlay.nil _ _, by simp [Fields.wire, Fields.sum], fun _ => rfl⟩
    | .void n r, ctx, v, start, base, top, d, off => by
      intro h hk ht hv hL hz hd
      simp only [Fields.wire, Fields.ofT, List.length_append, List.length_replicate] at hd
      simp only [Fields.tOk] at hk
      obtain ⟨d', off', e, o, l, q⟩ := Fields.tEncFields_spec E r ctx v (start + n) base top d off (by simpa [Fields.wf] using h)
        hk ht hv hL (hz.mono (by omega)) (by omega)
      refine ⟨d', off', by simp only [Fields.tEncFields, e], ?_, ?_, q⟩
      · simp only [Fields.wire, Fields.ofT]
        apply (Overlay.none d _ n).append
        rw [List.length_replicate, Nat.add_assoc]; exact o
      · simp only [Fields.wire, Fields.ofT, Fields.sum, List.length_append, List.length_replicate]; omega
    | .const p n big val r, ctx, v, start, base, top, d, off => by
      intro h hk ht hv hL hz hd
      simp only [Fields.wf, Bool.and_eq_true, decide_eq_true_eq] at h
      obtain ⟨⟨⟨⟨⟨⟨h1, h2⟩, h3⟩, h4⟩, h5⟩, h6⟩, h7⟩ := h
      have hb : big = true → n = p.width := by
        intro hb; rw [hb] at h6; simpa using h6
      simp only [Fields.tOk, Bool.and_eq_true] at hk
      simp only [Fields.wire, Fields.ofT, List.length_append, scWire_length] at hd
      obtain ⟨d1, e1, o1⟩ := E.const p n big val start (base + off) d h3 hb hk.1 hL (by omega) hz
      obtain ⟨d', off', e, o, l, q⟩ := Fields.tEncFields_spec E r ctx v (start + n) base top d1 off h7 hk.2 ht hv
        (by rw [o1.1]; exact hL) (hz.overlay o1 (by rw [scWire_length]; omega)) (by rw [o1.1]; omega)
      refine ⟨d', off', by simp only [Fields.tEncFields, e1, e], ?_, ?_, q⟩
      · simp only [Fields.wire, Fields.ofT]
        apply o1.append
        rw [scWire_length, Nat.add_assoc]; exact o
      · simp only [Fields.wire, Fields.ofT, Fields.sum, List.length_append, scWire_length]; omega
    | .one t bits big r, ctx, v, start, base, top, d, off => by
      intro h hk ht hv hL hz hd
      obtain ⟨h1, h2, h3, h4, h5⟩ := wf_one h
      obtain ⟨v1, v2⟩ := v
      obtain ⟨hv1, hv2⟩ := hv
      simp only at hv1 hv2
      simp only [Fields.tOk, Bool.and_eq_true] at hk
      obtain ⟨⟨k1, k2⟩, k3⟩ := hk
      simp only [Fields.wire, Fields.ofT, List.length_append] at hd
      have hcok : t.tElemOk S false start (bits.getD 0) := by
        cases t <;> first | exact k3 | trivial
      obtain ⟨d1, off1, e1, o1, l1, q1⟩ := Ty.tEnc_spec E t (.one t bits big r :: ctx) big false v1 start (bits.getD 0) base d off h1
        h3 k1 hcok hv1 hL hz (by omega)
      have hgap : (if t.dynamic = true then List.replicate (bits.getD 0) none else ([] : List (Option Bool))).length =
          (if t.dynamic = true then bits.getD 0 else 0) := by split <;> simp
      have hpos : 8 * (base + off1) + (start + bits.getD 0) =
          8 * (base + off) + start + ((t.wire (bits.getD 0) big (t.ofT S (.one t bits big r :: ctx) v1)).length +
            (if t.dynamic = true then bits.getD 0 else 0)) := by
        omega
      obtain ⟨d', off', e, o, l, q⟩ := Fields.tEncFields_spec E r ctx v2 (start + bits.getD 0) base top d1 off1
        h2 k2 ht hv2 (by rw [o1.1]; exact hL) (hz.overlay o1 (by omega)) (by rw [hpos, o1.1]; omega)
      refine ⟨d', off', by simp only [Fields.tEncFields, e1, e], ?_, ?_, ?_⟩
      · simp only [Fields.wire, Fields.ofT]
        refine Overlay.append (d1 := d1) (o1.append ?_) ?_
        · split
          · exact Overlay.none _ _ _
          · exact Overlay.nil _ _
        · rw [List.length_append, hgap]
          rw [hpos] at o; exact o
      · simp only [Fields.wire, Fields.ofT, Fields.sum, List.length_append, hgap]; omega
      · intro hdyn
        simp only [Fields.dynamic, Bool.or_eq_false_iff] at hdyn
        rw [q hdyn.2, q1 hdyn.1]
    | .arr t len bits big r, ctx, v, start, base, top, d, off => by
      intro h hk ht hv hL hz hd
      obtain ⟨h0, h1, h2, h3, h4, h5, h7, h6⟩ := wf_arr h
      obtain ⟨v1, v2⟩ := v
      obtain ⟨hl, hv1, hv2⟩ := hv
      simp only at hl hv1 hv2
      simp only [Fields.tOk, Bool.and_eq_true] at hk
      obtain ⟨⟨⟨k1, k2⟩, k4⟩, k3⟩ := hk
      simp only [Fields.wire, Fields.ofT, List.length_append] at hd
      have hcok : ∀ i, i < len → t.tElemOk S (T.loop len) (start + i * (bits.getD 0 / len)) (bits.getD 0 / len) := by
        intro i hi
        cases t <;> first
          | (simp only [List.all_eq_true, List.mem_range] at k3; exact k3 i hi)
          | trivial
      have hlb : T.loop len = true → t.dynamic = false → T.loopBase base = base := by
        intro a b
        simp only [a, b, Bool.not_true, Bool.or_false, Bool.or_eq_true] at k4
        rcases k4 with k | k
        · exact E.loopBase k base
        · rw [ht k]; exact E.loopBase0
      obtain ⟨d1, off1, e1, o1, l1, q1⟩ := tEncIdx_spec t (.arr t len bits big r :: ctx) _ _ base start d.length big h4 v1 0 d off
        (fun x hx k d' off' hkk hdl hz' hd' =>
          tArrElemEnc_spec E t (.arr t len bits big r :: ctx)
            (fun x start n base d off => t.tEnc T (.arr t len bits big r :: ctx) big true x start n base d off)
            len (bits.getD 0 / len) start base big x (hv1 x hx) h3 k (hcok k (by omega)) hlb h6 h4 d' (by rw [hdl]; exact hL)
            (fun st d'' off'' hdl2 a b c e => Ty.tEnc_spec E t (.arr t len bits big r :: ctx) big true x st (bits.getD 0 / len) base d'' off''
              h1 a k1 b (hv1 x hx) (by rw [hdl2, hdl]; exact hL) c e) off' hz' hd')
        rfl (by simp only [Nat.zero_mul, Nat.add_zero]; exact hz) (by simp only [Nat.zero_mul, Nat.add_zero]; omega)
      simp only [Nat.zero_mul, Nat.add_zero] at o1
      rw [hl, h5] at l1
      have hpos : 8 * (base + off1) + (start + bits.getD 0) = 8 * (base + off) + start +
          (((v1.map (fun x => t.ofT S (.arr t len bits big r :: ctx) x)).map (fun x => t.wire (bits.getD 0 / len) big x)).flatten).length := by
        omega
      obtain ⟨d', off', e, o, l, q⟩ := Fields.tEncFields_spec E r ctx v2 (start + bits.getD 0) base top d1 off1
        h2 k2 ht hv2 (by rw [o1.1]; exact hL) (hz.overlay o1 (by omega)) (by rw [hpos, o1.1]; omega)
      refine ⟨d', off', by simp only [Fields.tEncFields, e1, e], ?_, ?_, ?_⟩
      · simp only [Fields.wire, Fields.ofT]
        apply o1.append
        rw [hpos] at o; exact o
      · simp only [Fields.wire, Fields.ofT, Fields.sum, List.length_append]; omega
      · intro hdyn
        simp only [Fields.dynamic, Bool.or_eq_false_iff] at hdyn
        rw [q hdyn.2, q1 hdyn.1]
end

/-- `encode(data, start)` on data that is zero from there on and large enough. -/
theorem Fields.tEncodeTo_spec (E : S.EncOk) {fs : Fields} (h : fs.accepted = true) {top : Bool} (hk : fs.tOk S top 0 = true)
    {v : fs.TVal T} (hv : fs.TLegal S [] v) {d : Buf} {base : Nat} (ht : top = true → base = 0) (hL : d.length < S.maxLen)
    (hz : ZeroFrom d (8 * base)) (hd : base + fs.tEncodeSize T v ≤ d.length) :
    ∃ d', fs.tEncodeTo T v d base = some (d', fs.tEncodeSize T v) ∧ Overlay d d' (8 * base) (fs.wire (fs.ofT S [] v)) := by
  rw [Fields.tEncodeSize_eq E fs [] v hv] at hd ⊢
  obtain ⟨h1, h2, _, _⟩ := Fields.accepted_facts h
  obtain ⟨hl, -⟩ := Fields.encodeTo_spec flatCfg h (Fields.TLegal.valid E flatCfg false fs [] v hv)
    (d := List.replicate (fs.encodeSize (fs.ofT S [] v)) 0#8) (by simp)
  obtain ⟨d2, off2, e2, o2, l2, _⟩ := Fields.tEncFields_spec E fs [] v 0 base top d 0 h1 hk ht hv hL (by simpa using hz) (by omega)
  refine ⟨d2, ?_, by simpa using o2⟩
  simp only [Fields.tEncodeTo, e2]
  have : off2 + fs.sum / 8 = fs.encodeSize (fs.ofT S [] v) := by omega
  rw [this]

end Bubbler
