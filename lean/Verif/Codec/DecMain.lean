import Verif.Codec.ReprProofs

/-
Decode: reading back what is on the wire, and memory safety on arbitrary input.
-/
set_option linter.unusedSimpArgs false
namespace Bubbler

/-! ### Static elements -/

theorem Ty.iElem_static {t : Ty} (h : t.dynamic = false) (k : Nat) (d : Buf) (off : Nat) :
    t.iElem k d off = .ok off := by
  cases t with
  | sc s => rfl
  | str => simp [Ty.dynamic] at h
  | bytes => simp [Ty.dynamic] at h
  | struct fs => simp only [Ty.dynamic] at h; simp [Ty.iElem, h]

theorem iIter_static {f : Nat → IScan} (h : ∀ off, f off = .ok off) (n off : Nat) : iIter f n off = .ok off := by
  induction n with
  | zero => rfl
  | succ n ih => simp only [iIter, h]; exact ih

theorem noDirectDyn_one {t : Ty} {bits : Option Nat} {big : Bool} {r : Fields} {start : Nat} {n : Nat}
    (hb : bits = some n) (hw : (Fields.one t bits big r).wf start = true)
    (h : (Fields.one t bits big r).noDirectDyn = true) : t.dynamic = false := by
  subst hb
  simp only [Fields.noDirectDyn, Bool.and_eq_true] at h
  cases t with
  | sc s => rfl
  | str => simp [Fields.wf] at hw
  | bytes => simp [Fields.wf] at hw
  | struct fs => simpa [Ty.dynamic] using h.2

/-! ### DecodeSize on the wire form of a value -/

theorem iIter_agrees {α : Type} {R : α → List (Option Bool) → Prop} (f : Nat → IScan) (d : Buf) (eb start : Nat)
    {xs : List α} {wss : List (List (Option Bool))} (h : All2 R xs wss) :
    (∀ x w, R x w → ∀ i off, Agrees d (8 * off + (start + i * eb)) w →
      ∃ o, f off = .ok o ∧ 8 * o + eb = 8 * off + w.length) →
    ∀ (i off : Nat), Agrees d (8 * off + (start + i * eb)) wss.flatten →
    ∃ o, iIter f xs.length off = .ok o ∧ 8 * o + xs.length * eb = 8 * off + wss.flatten.length := by
  intro hf
  induction h with
  | nil => intro i off _; exact ⟨off, rfl, by simp⟩
  | @cons x w xs wss hx _ ih =>
    intro i off h
    simp only [List.flatten_cons] at h
    obtain ⟨h1, h2⟩ := Agrees.append.mp h
    obtain ⟨o1, e1, l1⟩ := hf x w hx i off h1
    have hpos : 8 * o1 + (start + (i + 1) * eb) = 8 * off + (start + i * eb) + w.length := by
      rw [Nat.add_mul, Nat.one_mul]; omega
    rw [← hpos] at h2
    obtain ⟨o, e2, l2⟩ := ih (i + 1) o1 h2
    refine ⟨o, by simp only [List.length_cons, iIter, e1]; exact e2, ?_⟩
    simp only [List.flatten_cons, List.length_append, List.length_cons, Nat.add_mul, Nat.one_mul]
    omega

mutual
  theorem Ty.iElem_agrees (c : Cfg) : ∀ (t : Ty) (big arr lp : Bool) (v : t.Val) (ws : List (Option Bool))
      (start n : Nat) (d : Buf) (off : Nat),
      t.wf = true → t.elemOk arr start n → t.noDirectDyn = true → t.Repr c lp n big v ws →
      Agrees d (8 * off + start) ws →
      ∃ o, t.iElem (start / 8) d off = .ok o ∧ 8 * o + t.fixed n = 8 * off + ws.length
    | .sc s, big, arr, lp, v, ws, start, n, d, off => by
      intro hw hok _ h _
      have := Ty.Repr_length c (.sc s) arr lp big start n v ws hw hok rfl h
      exact ⟨off, rfl, by rw [this]⟩
    | .str, big, arr, lp, (v : List Byte), ws, start, n, d, off => by
      intro _ hok _ hr h
      simp only [Ty.elemOk] at hok
      obtain ⟨hz, hws⟩ := hr
      have e : 8 * off + start = 8 * (off + start / 8) := by omega
      rw [e, hws] at h
      obtain ⟨a, b⟩ := dsStringAt_agrees h hz
      have hb := stringLeaf.bound _ _ _ a
      refine ⟨off + (v.length + 1), ?_, ?_⟩
      · simp only [Ty.iElem, iLeaf]
        rw [if_neg (by omega), a]
      · simp only [Ty.fixed, hws, byteWire_length, List.length_append, List.length_cons, List.length_nil]
        omega
    | .bytes, big, arr, lp, (v : List Byte), ws, start, n, d, off => by
      intro _ hok _ hr h
      simp only [Ty.elemOk] at hok
      obtain ⟨bs, h1, h2, hws⟩ := hr
      have e : 8 * off + start = 8 * (off + start / 8) := by omega
      rw [e, hws] at h
      obtain ⟨a1, a2, a3, a4⟩ := bytes_repr_of h1 h2 h
      have hne := leb_ne_nil h1
      have hn := toNat_ofNat_maxInt a4
      have a := dsBytesAt_of a1 (by rw [hn]; exact a4) (by rw [hn]; omega)
      rw [hn] at a
      refine ⟨off + (bs.length + v.length), ?_, ?_⟩
      · simp only [Ty.iElem, iLeaf]
        rw [if_neg (by omega), a]
        simp only
        have e4 : off + (off + start / 8 + bs.length - 1 + 1 + v.length - (off + start / 8)) = off + (bs.length + v.length) := by omega
        rw [e4]
      · simp only [Ty.fixed, hws, byteWire_length, List.length_append]
        omega
    | .struct fs, big, arr, lp, v, ws, start, n, d, off => by
      intro hwf hok hnd hr h
      have hw0 := hwf
      have hok0 := hok
      simp only [Ty.elemOk] at hok
      simp only [Ty.wf, Bool.and_eq_true, decide_eq_true_eq] at hwf
      have hk := h.1
      by_cases hdyn : fs.dynamic = true
      · simp only [Ty.iElem, hdyn, if_true, iSub]
        have e : 8 * off + start = 8 * (off + start / 8) + 0 := by omega
        rw [e, ← Agrees.drop (by omega)] at h
        obtain ⟨o, e1, l1⟩ := Fields.iFields_agrees c fs v ws 0 (d.drop (off + start / 8)) 0 hwf.1
          (by simpa [Ty.noDirectDyn] using hnd) hr h
        have hl := h.1
        simp only [e1, iFinish]
        rw [if_neg (by omega)]
        refine ⟨_, rfl, ?_⟩
        simp only [Ty.fixed, hdyn, if_true]
        omega
      · have := Ty.Repr_length c (.struct fs) arr lp big start n v ws hw0 hok0 (by simpa [Ty.dynamic] using hdyn) hr
        refine ⟨off, by simp only [Ty.iElem, hdyn, Bool.false_eq_true, if_false], ?_⟩
        rw [this]
  theorem Fields.iFields_agrees (c : Cfg) : ∀ (fs : Fields) (v : fs.Val) (ws : List (Option Bool)) (start : Nat)
      (d : Buf) (off : Nat),
      fs.wf start = true → fs.noDirectDyn = true → fs.Repr c v ws →
      Agrees d (8 * off + start) ws →
      ∃ o, fs.iFields start d off = .ok o ∧ 8 * o + fs.sum = 8 * off + ws.length
    | .nil, v, ws, start, d, off => by
      intro _ _ hr _
      simp only [Fields.Repr] at hr
      exact ⟨off, rfl, by simp [hr, Fields.sum]⟩
    | .void n r, v, ws, start, d, off => by
      intro hw hn hr h
      obtain ⟨ws', hr, hws⟩ := hr
      rw [hws] at h
      obtain ⟨h1, h2⟩ := Agrees.append.mp h
      rw [List.length_replicate, Nat.add_assoc] at h2
      obtain ⟨o, e, l⟩ := Fields.iFields_agrees c r v ws' (start + n) d off (by simpa [Fields.wf] using hw)
        (by simpa [Fields.noDirectDyn] using hn) hr h2
      refine ⟨o, by simp only [Fields.iFields, e], ?_⟩
      simp only [hws, Fields.sum, List.length_append, List.length_replicate]; omega
    | .const p n big val r, v, ws, start, d, off => by
      intro hw hn hr h
      obtain ⟨ws', hr, hws⟩ := hr
      rw [hws] at h
      obtain ⟨h1, h2⟩ := Agrees.append.mp h
      rw [scWire_length, Nat.add_assoc] at h2
      simp only [Fields.wf, Bool.and_eq_true] at hw
      obtain ⟨o, e, l⟩ := Fields.iFields_agrees c r v ws' (start + n) d off hw.2
        (by simpa [Fields.noDirectDyn] using hn) hr h2
      refine ⟨o, by simp only [Fields.iFields, e], ?_⟩
      simp only [hws, Fields.sum, List.length_append, scWire_length]; omega
    | .one t (some n) big r, v, ws, start, d, off => by
      intro hw hn hr h
      have hdyn := noDirectDyn_one rfl hw hn
      obtain ⟨h1, h2, h3, h4, _⟩ := wf_one hw
      obtain ⟨v1, v2⟩ := v
      obtain ⟨w1, w2, hr1, hr2, hws⟩ := hr
      simp only [hdyn, Bool.false_eq_true, if_false, Option.getD_some, List.append_nil] at hr1 hr2 hws h2 h3 h4
      have hwl := Ty.Repr_length c t false false big start n v1 w1 h1 h3 hdyn hr1
      rw [hws] at h
      obtain ⟨a1, a2⟩ := Agrees.append.mp h
      have e1 : 8 * off + start + w1.length = 8 * off + (start + n) := by omega
      rw [e1] at a2
      simp only [Fields.noDirectDyn, Bool.and_eq_true] at hn
      obtain ⟨o, e, l⟩ := Fields.iFields_agrees c r v2 w2 (start + n) d off h2 hn.1.2 hr2 a2
      refine ⟨o, by simp only [Fields.iFields, e], ?_⟩
      simp only [hws, Fields.sum, List.length_append, Option.getD_some]
      omega
    | .one t none big r, v, ws, start, d, off => by
      intro hw hn hr h
      obtain ⟨h1, h2, h3, h4, _⟩ := wf_one hw
      obtain ⟨v1, v2⟩ := v
      obtain ⟨w1, w2, hr1, hr2, hws⟩ := hr
      simp only [Option.getD_none, List.replicate_zero, ite_self, List.append_nil] at hr1 hr2 hws h2 h3 h4
      simp only [Fields.noDirectDyn, Bool.and_eq_true] at hn
      rw [hws] at h
      obtain ⟨a1, a2⟩ := Agrees.append.mp h
      obtain ⟨o1, e1, l1⟩ := Ty.iElem_agrees c t big false false v1 w1 start 0 d off h1 h3 hn.1.1 hr1 a1
      have hz : t.fixed 0 = 0 := by omega
      have e2 : 8 * off + start + w1.length = 8 * o1 + start := by omega
      rw [e2] at a2
      obtain ⟨o, e, l⟩ := Fields.iFields_agrees c r v2 w2 start d o1 h2 hn.1.2 hr2 a2
      refine ⟨o, by simp only [Fields.iFields, e1, e], ?_⟩
      simp only [hws, Fields.sum, List.length_append, Option.getD_none]
      omega
    | .arr t len bits big r, v, ws, start, d, off => by
      intro hw hn hr h
      obtain ⟨h0, h1, h2, h3, h4, h5, h7, h6⟩ := wf_arr hw
      obtain ⟨v1, v2⟩ := v
      obtain ⟨wss, w2, hl, hr1, hr2, hws⟩ := hr
      simp only at hl hr1 hr2
      rw [hws] at h
      obtain ⟨a1, a2⟩ := Agrees.append.mp h
      simp only [Fields.noDirectDyn, Bool.and_eq_true] at hn
      have hk : ∀ i off, t.iElem ((start + i * (bits.getD 0 / len)) / 8) d off = t.iElem (start / 8) d off := by
        intro i off
        by_cases hdyn : t.dynamic = true
        · rw [h7.mpr hdyn]; simp
        · rw [Ty.iElem_static (by simpa using hdyn), Ty.iElem_static (by simpa using hdyn)]
      obtain ⟨o1, e1, l1⟩ := iIter_agrees (fun off => t.iElem (start / 8) d off) d (bits.getD 0 / len) start hr1
        (fun x w hx i off hag => by
          obtain ⟨o, e, l⟩ := Ty.iElem_agrees c t big true _ x w (start + i * (bits.getD 0 / len)) (bits.getD 0 / len) d off h1 (h3 i)
            hn.1 hx hag
          rw [hk] at e
          rw [h4] at l
          exact ⟨o, e, l⟩)
        0 off (by simpa using a1)
      rw [hl] at e1 l1
      rw [h5] at l1
      have e2 : 8 * off + start + wss.flatten.length = 8 * o1 + (start + bits.getD 0) := by omega
      rw [e2] at a2
      obtain ⟨o, e, l⟩ := Fields.iFields_agrees c r v2 w2 (start + bits.getD 0) d o1 h2 hn.2 hr2 a2
      refine ⟨o, ?_, ?_⟩
      · cases bits with
        | none =>
          simp only [Fields.iFields, e1]
          simpa using e
        | some n =>
          have hdyn : t.dynamic = false := by
            cases hd : t.dynamic with
            | false => rfl
            | true => exact absurd (h7.mpr hd) (by simp)
          have := iIter_static (f := fun off => t.iElem (start / 8) d off) (fun off => Ty.iElem_static hdyn _ _ _) len off
          rw [this] at e1; cases e1
          simp only [Fields.iFields]
          simpa using e
      · simp only [hws, Fields.sum, List.length_append]; omega
end

/-! ### Scalars and constants -/

theorem sc_dec_agrees (m : SignExt) {s : Sc} {n : Nat} {arr big : Bool} (h : s.wf n = true)
    (ha : arr = true → s.wfArr = true) (start off : Nat) (d : Buf) (x0 : BitVec (s.tempWidth arr n))
    (x : BitVec s.width) (hr : s.InRange n x) (hag : Agrees d (8 * off + start) (scWire n big x)) :
    ∃ y, decField big start n off d x0 = some y ∧ (signExtUnrolled m s.signed n y).setWidth s.width = x := by
  obtain ⟨y, e, r, hraw, hc⟩ := sc_dec_unrolled (big := big) m h ha start off d x0 (by simpa using hag.1)
  refine ⟨y, e, ?_⟩
  rw [hc, hraw.unique (RawAt.agrees hag), Sc.conv_setWidth h x hr]

theorem Sc.bool_signed {s : Sc} (h : s.isBool = true) : s.signed = false := by
  cases s with
  | enum b => rfl
  | prim p => cases p <;> simp [Sc.isBool] at h <;> rfl

theorem sc_loop_agrees (m : SignExt) {s : Sc} {n : Nat} {big : Bool} (h : s.wf n = true) (pos : Nat) (d : Buf)
    (x : BitVec s.width) (ws : List (Option Bool))
    (hr : if s.isBool = true then ∃ y : BitVec n, ws = scWire n big y ∧ x = (if y = 0#n then 0#_ else 1#_)
      else s.InRange n x ∧ ws = scWire n big x)
    (hag : Agrees d pos ws) :
    ∃ v, bbReadFieldBits d pos n big = some v ∧ s.ofU64 m n v = x := by
  by_cases hbb : s.isBool = true
  · rw [if_pos hbb] at hr
    obtain ⟨y0, hws, hx⟩ := hr
    rw [hws] at hag
    obtain ⟨v, e, r, hraw, hc⟩ := sc_dec_loop (big := big) m h pos d (by simpa using hag.1)
    refine ⟨v, e, ?_⟩
    have hr' := hraw.unique (RawAt.agrees hag)
    rw [hc, hr', hbb]
    simp only [if_true, BitVec.setWidth_eq]
    exact hx.symm
  · rw [if_neg hbb] at hr
    obtain ⟨hr, hws⟩ := hr
    rw [hws] at hag
    obtain ⟨v, e, r, hraw, hc⟩ := sc_dec_loop (big := big) m h pos d (by simpa using hag.1)
    refine ⟨v, e, ?_⟩
    have hr' := hraw.unique (RawAt.agrees hag)
    rw [hc, hr']
    simp only [hbb, if_false]
    exact Sc.conv_setWidth h x hr

theorem const_dec {p : Prim} {big : Bool} {val n : Nat} (hn0 : 0 < n) (hn : n ≤ p.width) (hval : val < 2 ^ n)
    (start off : Nat) (d : Buf) (hd : 8 * off + start + n ≤ 8 * d.length) :
    ∃ y, decField big start n off d (0#p.width) = some y ∧
      (y.toNat = val ↔ Agrees d (8 * off + start) (scWire n big (BitVec.ofNat 64 val))) := by
  obtain ⟨y, e, hr⟩ := decField_spec big start n off d (0#p.width) hn hn0 hd
  have hw := p.width_facts
  have hn64 : n ≤ 64 := by omega
  refine ⟨y, e, ?_, ?_⟩
  · intro hy
    refine ⟨by rw [scWire_length]; exact hd, fun j b hj => ?_⟩
    rw [scWire_getElem?] at hj
    split at hj
    · rename_i hjn
      have hb : (BitVec.ofNat 64 val).getLsbD (valueBit big n j) = b := by simpa using hj
      rw [← hr.1 j hjn, ← hb, ← hy, BitVec.getLsbD_ofNat]
      have := valueBit_lt (big := big) hjn
      have h64 : valueBit big n j < 64 := by omega
      simp [h64, BitVec.getLsbD]
    · cases hj
  · intro hag
    have h1 := hr.raw.unique (RawAt.agrees hag)
    have h2 := setWidth_setWidth_of_zero (v := 64) y hr.2
    have h3 : (y.setWidth 64).toNat = y.toNat := by
      rw [BitVec.toNat_setWidth, Nat.mod_eq_of_lt]
      exact Nat.lt_of_lt_of_le y.isLt (Nat.pow_le_pow_right (by omega) (by omega))
    rw [h1] at h2
    rw [← h3, ← h2, BitVec.toNat_setWidth, BitVec.toNat_setWidth, BitVec.toNat_ofNat]
    have h4 : (2:Nat) ^ n ≤ 2 ^ 64 := Nat.pow_le_pow_right (by omega) (by omega)
    rw [Nat.mod_eq_of_lt (a := val) (by omega), Nat.mod_eq_of_lt hval, Nat.mod_eq_of_lt (by omega)]

/-! ### Round trip -/

theorem arrElemDec_agrees (c : Cfg) (t : Ty) (rec : Nat → Nat → Nat → Res (t.Val × Nat))
    (len eb start : Nat) (big : Bool) (x : t.Val) (w : List (Option Bool)) (d : Buf)
    (hw : t.wf = true)
    (hok : ∀ i, t.elemOk true (start + i * eb) eb) (hfix : t.fixed eb = eb)
    (hst : ∀ fs, t = .struct fs → start % 8 = 0 ∧ eb % 8 = 0)
    (hr : t.Repr c (c.useLoop len) eb big x w)
    (hrec : t.Repr c false eb big x w → ∀ st off, t.elemOk true st eb → Agrees d (8 * off + st) w →
      ∃ o, rec st eb off = .ok (x, o) ∧ 8 * o + t.fixed eb = 8 * off + w.length)
    (i off : Nat) (hag : Agrees d (8 * off + (start + i * eb)) w) :
    ∃ o, arrElemDec c t rec len eb start big d i off = .ok (x, o) ∧ 8 * o + eb = 8 * off + w.length := by
  unfold arrElemDec
  rw [hfix] at hrec
  cases hl : c.useLoop len with
  | false =>
    rw [hl] at hr
    simp only [Bool.false_eq_true, if_false]; exact hrec hr _ _ (hok i) hag
  | true =>
    rw [hl] at hr
    simp only [if_true]
    cases t with
    | sc s =>
      simp only
      have h0 := hok i
      have hlen := Ty.Repr_length c (.sc s) true true big _ eb x w hw h0 rfl hr
      simp only [Ty.fixed] at hlen
      simp only [Ty.elemOk] at h0
      simp only [Ty.Repr, Bool.and_true] at hr
      obtain ⟨v, e, ee⟩ := sc_loop_agrees (big := big) c.signExt h0.1 (8 * off + (start + i * eb)) d x w hr hag
      exact ⟨off, by rw [e]; simp only; rw [ee], by rw [hlen]⟩
    | str =>
      have e : start + i * eb = start := by simp only [Ty.fixed] at hfix; rw [← hfix]; simp
      have := hok i
      rw [e] at hag this
      exact hrec hr _ _ this hag
    | bytes =>
      have e : start + i * eb = start := by simp only [Ty.fixed] at hfix; rw [← hfix]; simp
      have := hok i
      rw [e] at hag this
      exact hrec hr _ _ this hag
    | struct fs =>
      simp only
      have h0 := hok i
      by_cases hdyn : fs.dynamic = true
      · rw [if_pos hdyn]
        have e : start + i * eb = start := by simp only [Ty.fixed, hdyn, if_true] at hfix; rw [← hfix]; simp
        rw [e] at hag h0
        exact hrec hr _ _ h0 hag
      · rw [if_neg hdyn]
        obtain ⟨h1, h2⟩ := hst fs rfl
        have e : 8 * (start / 8 + i * (eb / 8)) = start + i * eb := by
          have : i * eb = 8 * (i * (eb / 8)) := by
            have h3 : eb = 8 * (eb / 8) := by omega
            calc i * eb = i * (8 * (eb / 8)) := by rw [← h3]
              _ = 8 * (i * (eb / 8)) := by rw [Nat.mul_left_comm]
          omega
        rw [e]
        exact hrec hr _ _ h0 hag

theorem decIdx_agrees {α : Type} {R : α → List (Option Bool) → Prop} (f : Nat → Nat → Res (α × Nat)) (d : Buf)
    (eb start : Nat) {xs : List α} {wss : List (List (Option Bool))} (h : All2 R xs wss) :
    (∀ x w, R x w → ∀ i off, Agrees d (8 * off + (start + i * eb)) w →
      ∃ o, f i off = .ok (x, o) ∧ 8 * o + eb = 8 * off + w.length) →
    ∀ (i off : Nat), Agrees d (8 * off + (start + i * eb)) wss.flatten →
    ∃ o, decIdx f xs.length i off = .ok (xs, o) ∧ 8 * o + xs.length * eb = 8 * off + wss.flatten.length := by
  intro hf
  induction h with
  | nil => intro i off _; exact ⟨off, rfl, by simp⟩
  | @cons x w xs wss hx _ ih =>
    intro i off h
    simp only [List.flatten_cons] at h
    obtain ⟨h1, h2⟩ := Agrees.append.mp h
    obtain ⟨o1, e1, l1⟩ := hf x w hx i off h1
    have hpos : 8 * o1 + (start + (i + 1) * eb) = 8 * off + (start + i * eb) + w.length := by
      rw [Nat.add_mul, Nat.one_mul]; omega
    rw [← hpos] at h2
    obtain ⟨o, e2, l2⟩ := ih (i + 1) o1 h2
    refine ⟨o, by simp only [List.length_cons, decIdx, e1, e2], ?_⟩
    simp only [List.flatten_cons, List.length_append, List.length_cons, Nat.add_mul, Nat.one_mul]
    omega

theorem Sc.Repr_false {c : Cfg} {s : Sc} {n : Nat} {big : Bool} {v : BitVec s.width} {ws : List (Option Bool)}
    (h : (Ty.sc s).Repr c false n big v ws) : s.InRange n v ∧ ws = scWire n big v := by
  simpa [Ty.Repr] using h

mutual
  theorem Ty.decElem_agrees (c : Cfg) : ∀ (t : Ty) (big arr : Bool) (v : t.Val) (ws : List (Option Bool))
      (start n : Nat) (d : Buf) (off : Nat),
      t.wf = true → t.elemOk arr start n → t.noDirectDyn = true → t.sizesOk = true → d.length < 2 ^ 62 →
      t.Repr c false n big v ws →
      Agrees d (8 * off + start) ws →
      ∃ o, t.decElem c big arr d start n off = .ok (v, o) ∧ 8 * o + t.fixed n = 8 * off + ws.length
    | .sc s, big, arr, (v : BitVec s.width), ws, start, n, d, off => by
      intro _ hok _ _ _ hr h
      simp only [Ty.elemOk] at hok
      obtain ⟨hr, hws⟩ := Sc.Repr_false hr
      rw [hws] at h
      obtain ⟨y, e, ee⟩ := sc_dec_agrees (big := big) c.signExt hok.1 hok.2 start off d
        (c.prev (s.tempWidth arr n)) v hr h
      exact ⟨off, by simp only [Ty.decElem, e, ee], by simp only [Ty.fixed, hws, scWire_length]⟩
    | .str, big, arr, (v : List Byte), ws, start, n, d, off => by
      intro _ hok _ _ _ hr h
      simp only [Ty.elemOk] at hok
      obtain ⟨hz, hws⟩ := hr
      have e : 8 * off + start = 8 * (off + start / 8) := by omega
      rw [e, hws] at h
      refine ⟨_, by simp only [Ty.decElem]; exact decString_agrees h hz, ?_⟩
      simp only [Ty.fixed, hws, byteWire_length, List.length_append, List.length_cons, List.length_nil]
      omega
    | .bytes, big, arr, (v : List Byte), ws, start, n, d, off => by
      intro _ hok _ _ _ hr h
      simp only [Ty.elemOk] at hok
      obtain ⟨bs, h1, h2, hws⟩ := hr
      have e : 8 * off + start = 8 * (off + start / 8) := by omega
      rw [e, hws] at h
      obtain ⟨a1, a2, a3, a4⟩ := bytes_repr_of h1 h2 h
      have hne := leb_ne_nil h1
      have hn := toNat_ofNat_maxInt a4
      have a := decBytes_of_ds a1 (by rw [hn]; exact a4) (by rw [hn]; omega)
      rw [hn] at a
      refine ⟨off + (bs.length + v.length), ?_, ?_⟩
      · simp only [Ty.decElem]
        rw [a]
        have e4 : off + (off + start / 8 + bs.length - 1 + 1 + v.length - (off + start / 8)) = off + (bs.length + v.length) := by omega
        have e5 : off + start / 8 + bs.length - 1 + 1 = off + start / 8 + bs.length := by omega
        rw [e4, e5, a2]; rfl
      · simp only [Ty.fixed, hws, byteWire_length, List.length_append]
        omega
    | .struct fs, big, arr, v, ws, start, n, d, off => by
      intro hwf hok hnd hsz hd62 hr h
      have hw0 := hwf
      have hok0 := hok
      simp only [Ty.elemOk] at hok
      simp only [Ty.wf, Bool.and_eq_true, decide_eq_true_eq] at hwf
      simp only [Ty.sizesOk, Bool.and_eq_true, decide_eq_true_eq] at hsz
      have hk := h.1
      have hk' : off + start / 8 ≤ d.length := by omega
      have e : 8 * off + start = 8 * (off + start / 8) + 0 := by omega
      rw [e, ← Agrees.drop (by omega)] at h
      have hnd' : fs.noDirectDyn = true := by simpa [Ty.noDirectDyn] using hnd
      obtain ⟨o1, e1, l1⟩ := Fields.iFields_agrees c fs v ws 0 (d.drop (off + start / 8)) 0 hwf.1 hnd' hr h
      have hdl : (d.drop (off + start / 8)).length < 2 ^ 62 := by rw [List.length_drop]; omega
      obtain ⟨o2, e2, l2⟩ := Fields.decFields_agrees c fs v ws 0 (d.drop (off + start / 8)) 0 hwf.1 hnd' hsz.1 hdl hr h
      have hl := h.1
      have hsize : fs.iSize (d.drop (off + start / 8)) = .ok (o1 + fs.sum / 8) := by
        simp only [Fields.iSize, e1, iFinish]
        rw [if_neg (by omega)]
      have hrel := Fields.decodeSize_rel hwf.1 hsz.1 hsz.2 hdl
      rw [hsize] at hrel
      simp only [RelSize] at hrel
      refine ⟨(if fs.dynamic then off + (o2 + fs.sum / 8) else off), ?_, ?_⟩
      · simp only [Ty.decElem, Buf.from?, hk', if_true, hrel]
        rw [if_neg (by omega), e2]
      · by_cases hdyn : fs.dynamic = true
        · simp only [Ty.fixed, hdyn, if_true]; omega
        · have := Ty.Repr_length c (.struct fs) arr false big start n v ws hw0 hok0 (by simpa [Ty.dynamic] using hdyn) hr
          rw [this]; simp only [hdyn, Bool.false_eq_true, if_false]
  theorem Fields.decFields_agrees (c : Cfg) : ∀ (fs : Fields) (v : fs.Val) (ws : List (Option Bool)) (start : Nat)
      (d : Buf) (off : Nat),
      fs.wf start = true → fs.noDirectDyn = true → fs.sizesOk = true → d.length < 2 ^ 62 →
      fs.Repr c v ws →
      Agrees d (8 * off + start) ws →
      ∃ o, fs.decFields c d start off = .ok (v, o) ∧ 8 * o + fs.sum = 8 * off + ws.length
    | .nil, v, ws, start, d, off => by
      intro _ _ _ _ hr _
      simp only [Fields.Repr] at hr
      exact ⟨off, rfl, by simp [hr, Fields.sum]⟩
    | .void n r, v, ws, start, d, off => by
      intro hw hn hs hd hr h
      obtain ⟨ws', hr, hws⟩ := hr
      rw [hws] at h
      obtain ⟨h1, h2⟩ := Agrees.append.mp h
      rw [List.length_replicate, Nat.add_assoc] at h2
      obtain ⟨o, e, l⟩ := Fields.decFields_agrees c r v ws' (start + n) d off (by simpa [Fields.wf] using hw)
        (by simpa [Fields.noDirectDyn] using hn) (by simpa [Fields.sizesOk] using hs) hd hr h2
      refine ⟨o, by simp only [Fields.decFields, e]; rfl, ?_⟩
      simp only [hws, Fields.sum, List.length_append, List.length_replicate]; omega
    | .const p n big val r, v, ws, start, d, off => by
      intro hw hn hs hd hr h
      obtain ⟨ws', hr, hws⟩ := hr
      rw [hws] at h
      obtain ⟨h1, h2⟩ := Agrees.append.mp h
      rw [scWire_length, Nat.add_assoc] at h2
      simp only [Fields.wf, Bool.and_eq_true, decide_eq_true_eq] at hw
      obtain ⟨⟨⟨⟨⟨⟨w1, w2⟩, w3⟩, w4⟩, w5⟩, w6⟩, w7⟩ := hw
      obtain ⟨y, ey, hy⟩ := const_dec (big := big) w2 w3 w5 start off d (by simpa using h1.1)
      obtain ⟨o, e, l⟩ := Fields.decFields_agrees c r v ws' (start + n) d off w7
        (by simpa [Fields.noDirectDyn] using hn) (by simpa [Fields.sizesOk] using hs) hd hr h2
      refine ⟨o, by simp only [Fields.decFields, ey, hy.mpr h1, if_true, e]; rfl, ?_⟩
      simp only [hws, Fields.sum, List.length_append, scWire_length]; omega
    | .one t bits big r, v, ws, start, d, off => by
      intro hw hn hs hd hr h
      obtain ⟨h1, h2, h3, h4, _⟩ := wf_one hw
      have hnd : bits.getD 0 = t.fixed (bits.getD 0) ∧
          (if t.dynamic = true then List.replicate (bits.getD 0) none else ([] : List (Option Bool))) = [] := by
        cases bits with
        | none =>
          simp only [Option.getD_none, List.replicate_zero, ite_self, and_true]
          simp only [Option.getD_none] at h4; omega
        | some n =>
          have := noDirectDyn_one rfl hw hn
          simp only [this, Bool.false_eq_true, if_false, and_true, Nat.add_zero] at h4 ⊢
          exact h4
      obtain ⟨v1, v2⟩ := v
      obtain ⟨w1, w2, hr1, hr2, hws⟩ := hr
      simp only [hnd.2, List.append_nil] at hr1 hr2 hws
      simp only [Fields.noDirectDyn, Bool.and_eq_true] at hn
      simp only [Fields.sizesOk, Bool.and_eq_true] at hs
      rw [hws] at h
      obtain ⟨a1, a2⟩ := Agrees.append.mp h
      obtain ⟨o1, e1, l1⟩ := Ty.decElem_agrees c t big false v1 w1 start (bits.getD 0) d off h1 h3 hn.1.1 hs.1 hd
        hr1 a1
      rw [← hnd.1] at l1
      have e2 : 8 * off + start + w1.length = 8 * o1 + (start + bits.getD 0) := by omega
      rw [e2] at a2
      obtain ⟨o, e, l⟩ := Fields.decFields_agrees c r v2 w2 (start + bits.getD 0) d o1 h2 hn.1.2 hs.2 hd hr2 a2
      refine ⟨o, by simp only [Fields.decFields, e1, e], ?_⟩
      simp only [hws, Fields.sum, List.length_append]
      omega
    | .arr t len bits big r, v, ws, start, d, off => by
      intro hw hn hs hd hr h
      obtain ⟨h0, h1, h2, h3, h4, h5, h7, h6⟩ := wf_arr hw
      obtain ⟨v1, v2⟩ := v
      obtain ⟨wss, w2, hl, hr1, hr2, hws⟩ := hr
      simp only at hl hr1 hr2
      rw [hws] at h
      obtain ⟨a1, a2⟩ := Agrees.append.mp h
      simp only [Fields.noDirectDyn, Bool.and_eq_true] at hn
      simp only [Fields.sizesOk, Bool.and_eq_true] at hs
      obtain ⟨o1, e1, l1⟩ := decIdx_agrees (arrElemDec c t (fun from_ n off => t.decElem c big true d from_ n off)
          len (bits.getD 0 / len) start big d) d (bits.getD 0 / len) start hr1
        (fun x w hx i off hag =>
          arrElemDec_agrees c t _ len _ start big x w d h1 h3 h4 h6 hx
            (fun hx st off hok hag => Ty.decElem_agrees c t big true x w st _ d off h1 hok hn.1 hs.1 hd hx hag)
            i off hag)
        0 off (by simpa using a1)
      rw [hl] at e1 l1
      rw [h5] at l1
      have e2 : 8 * off + start + wss.flatten.length = 8 * o1 + (start + bits.getD 0) := by omega
      rw [e2] at a2
      obtain ⟨o, e, l⟩ := Fields.decFields_agrees c r v2 w2 (start + bits.getD 0) d o1 h2 hn.2 hs.2 hd hr2 a2
      refine ⟨o, by simp only [Fields.decFields, e1, e], ?_⟩
      simp only [hws, Fields.sum, List.length_append]; omega
end

end Bubbler
