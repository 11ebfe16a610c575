import Verif.Codec.EncProofs

set_option linter.unusedSimpArgs false
namespace Bubbler

theorem Prim.width_mod8 (p : Prim) : p.width % 8 = 0 := by cases p <;> rfl

theorem constData_bits {p : Prim} {big : Bool} {val n : Nat} (hn : n ≤ p.width) (hb : big = true → n = p.width)
    (j : Nat) (hj : j < n) :
    srcBit (constData p big val) j = (BitVec.ofNat 64 val).getLsbD (valueBit big n j) := by
  have hw := p.width_facts
  have h8 := p.width_mod8
  have h64 : j % 8 < 64 := by omega
  have h8' : j % 8 < 8 := by omega
  cases big
  · simp only [srcBit, constData, Bool.false_eq_true, if_false, BitVec.getLsbD_setWidth,
      BitVec.getLsbD_ushiftRight, BitVec.getLsbD_ofNat, valueBit_le, h64, h8', decide_true, Bool.true_and]
    have e : 8 * (j / 8) + j % 8 = j := by omega
    have h1 : j < p.width := by omega
    have h2 : j < 64 := by omega
    simp [e, h1, h2]
  · have hnw := hb rfl
    simp only [srcBit, constData, if_true, BitVec.getLsbD_setWidth,
      BitVec.getLsbD_ushiftRight, BitVec.getLsbD_ofNat, valueBit_be, h64, h8', decide_true, Bool.true_and]
    rw [if_neg (by omega), hnw]
    have h1 : p.width - 8 * (j / 8 + 1) + j % 8 < p.width := by omega
    have h2 : p.width - 8 * (j / 8 + 1) + j % 8 < 64 := by omega
    simp [h1, h2]

theorem const_enc {p : Prim} {big : Bool} {val n : Nat} (hn : n ≤ p.width) (hb : big = true → n = p.width)
    (start off : Nat) (d : Buf) (hd : 8 * off + start + n ≤ 8 * d.length) :
    ∃ d', execEnc (constData p big val) off (encStmts start n) d = some d' ∧
      Overlay d d' (8 * off + start) (scWire n big (BitVec.ofNat 64 val)) := by
  obtain ⟨d', e, w⟩ := execEnc_spec (constData p big val) (by omega) off start n d hd
  exact ⟨d', e, Overlay.ofWrites (w.congr (fun j hj => constData_bits hn hb j hj))⟩

/-- What encoding one element at fixed start `start` achieves. -/
def ElemEnc (t : Ty) (n : Nat) (big : Bool) (x : t.Val) (start : Nat) (d : Buf) (off : Nat)
    (res : Option (Buf × Nat)) : Prop :=
  ∃ d' off', res = some (d', off') ∧ Overlay d d' (8 * off + start) (t.wire n big x) ∧
    8 * off' + t.fixed n = 8 * off + (t.wire n big x).length

theorem arrElemEnc_spec (c : Cfg) (t : Ty) (rec : t.Val → Nat → Nat → Buf → Nat → Option (Buf × Nat))
    (len eb start : Nat) (big : Bool) (x : t.Val)
    (hok : ∀ i, t.elemOk true (start + i * eb) eb) (hfix : t.fixed eb = eb)
    (hst : ∀ fs, t = .struct fs → start % 8 = 0 ∧ eb % 8 = 0)
    (hval : t.Valid c false (c.useLoop len) x)
    (hrec : ∀ st d off, t.elemOk true st eb → 8 * off + st + (t.wire eb big x).length ≤ 8 * d.length →
      ElemEnc t eb big x st d off (rec x st eb d off))
    (i : Nat) (d : Buf) (off : Nat)
    (hd : 8 * off + (start + i * eb) + (t.wire eb big x).length ≤ 8 * d.length) :
    ElemEnc t eb big x (start + i * eb) d off (arrElemEnc c t rec len eb start big i x d off) := by
  unfold arrElemEnc
  cases hl : c.useLoop len with
  | false => simp only [Bool.false_eq_true, if_false]; exact hrec _ _ _ (hok i) hd
  | true =>
    simp only [if_true]
    cases t with
    | sc s =>
      simp only
      have h0 := hok i
      simp only [Ty.elemOk] at h0
      have hb : s.isBool = true → BitVec.toNat (w := s.width) x ≤ 1 := by
        intro h; exact hval h (by simp [hl])
      have hlen : ((Ty.sc s).wire eb big x).length = eb := scWire_length (w := s.width) eb big x
      have hdd : 8 * off + (start + i * eb) + eb ≤ 8 * d.length := by rw [hlen] at hd; exact hd
      obtain ⟨d', e, o⟩ := sc_enc_loop (big := big) h0.1 x hb (8 * off + (start + i * eb)) d hdd
      refine ⟨d', off, by rw [e], ?_, ?_⟩
      · simpa [Ty.wire] using o
      · rw [hlen]; simp only [Ty.fixed]
    | str =>
      have e : start + i * eb = start := by simp only [Ty.fixed] at hfix; rw [← hfix]; simp
      have := hok i
      rw [e] at hd this ⊢
      exact hrec _ _ _ this hd
    | bytes =>
      have e : start + i * eb = start := by simp only [Ty.fixed] at hfix; rw [← hfix]; simp
      have := hok i
      rw [e] at hd this ⊢
      exact hrec _ _ _ this hd
    | struct fs =>
      simp only
      have h0 := hok i
      by_cases hdyn : fs.dynamic = true
      · rw [if_pos hdyn]
        have e : start + i * eb = start := by simp only [Ty.fixed, hdyn, if_true] at hfix; rw [← hfix]; simp
        rw [e] at hd h0 ⊢
        exact hrec _ _ _ h0 hd
      · rw [if_neg hdyn]
        obtain ⟨h1, h2⟩ := hst fs rfl
        have e : 8 * (start / 8 + i * (eb / 8)) = start + i * eb := by
          have : i * eb = 8 * (i * (eb / 8)) := by
            have h3 : eb = 8 * (eb / 8) := by omega
            calc i * eb = i * (8 * (eb / 8)) := by rw [← h3]
              _ = 8 * (i * (eb / 8)) := by rw [Nat.mul_left_comm]
          omega
        rw [e]
        exact hrec _ _ _ h0 hd

theorem encIdx_spec (t : Ty) (f : Nat → t.Val → Buf → Nat → Option (Buf × Nat)) (eb start : Nat) (big : Bool)
    (hfix : t.fixed eb = eb) (xs : List t.Val) : ∀ (i : Nat) (d : Buf) (off : Nat),
    (∀ x ∈ xs, ∀ i d off, 8 * off + (start + i * eb) + (t.wire eb big x).length ≤ 8 * d.length →
      ElemEnc t eb big x (start + i * eb) d off (f i x d off)) →
    8 * off + (start + i * eb) + ((xs.map (fun x => t.wire eb big x)).flatten).length ≤ 8 * d.length →
    ∃ d' off', encIdx f i xs d off = some (d', off') ∧
      Overlay d d' (8 * off + (start + i * eb)) ((xs.map (fun x => t.wire eb big x)).flatten) ∧
      8 * off' + xs.length * eb = 8 * off + ((xs.map (fun x => t.wire eb big x)).flatten).length := by
  induction xs with
  | nil =>
    intro i d off _ _
    exact ⟨d, off, rfl, by simpa using Overlay.nil _ _, by simp⟩
  | cons x xs ih =>
    intro i d off hf hd
    simp only [List.map_cons, List.flatten_cons, List.length_append] at hd
    obtain ⟨d1, off1, e1, o1, l1⟩ := hf x (by simp) i d off (by omega)
    rw [hfix] at l1
    have hpos : 8 * off1 + (start + (i + 1) * eb) = 8 * off + (start + i * eb) + (t.wire eb big x).length := by
      rw [Nat.add_mul, Nat.one_mul]; omega
    obtain ⟨d2, off2, e2, o2, l2⟩ := ih (i + 1) d1 off1 (fun y hy => hf y (by simp [hy]))
      (by rw [hpos, o1.1]; omega)
    refine ⟨d2, off2, ?_, ?_, ?_⟩
    · simp only [encIdx, e1, e2]
    · simp only [List.map_cons, List.flatten_cons]
      rw [hpos] at o2
      exact o1.append o2
    · simp only [List.map_cons, List.flatten_cons, List.length_append, List.length_cons, Nat.add_mul, Nat.one_mul]
      omega

mutual
  theorem Ty.encElem_spec (c : Cfg) : ∀ (t : Ty) (big arr lp : Bool) (v : t.Val) (start n : Nat) (d : Buf) (off : Nat),
      t.wf = true → t.elemOk arr start n → t.Valid c false lp v →
      8 * off + start + (t.wire n big v).length ≤ 8 * d.length →
      ElemEnc t n big v start d off (t.encElem c big arr v start n d off)
    | .sc s, big, arr, lp, (v : BitVec s.width), start, n, d, off => by
      intro _ hok _ hd
      simp only [Ty.elemOk] at hok
      obtain ⟨d', e, o⟩ := sc_enc_unrolled (big := big) hok.1 hok.2 v start off d (by
        simp only [Ty.wire, scWire_length] at hd; exact hd)
      exact ⟨d', off, by simp only [Ty.encElem, e], o, by simp only [Ty.fixed, Ty.wire, scWire_length]⟩
    | .str, big, arr, lp, (v : List Byte), start, n, d, off => by
      intro _ hok _ hd
      simp only [Ty.elemOk] at hok
      simp only [Ty.wire, byteWire_length, List.length_append, List.length_cons, List.length_nil] at hd
      obtain ⟨d', e, o⟩ := encString_spec v (start / 8) d off (by omega)
      refine ⟨d', _, by simp only [Ty.encElem, e]; rfl, ?_, ?_⟩
      · simp only [Ty.wire]
        have : 8 * (off + start / 8) = 8 * off + start := by omega
        rwa [this] at o
      · simp only [Ty.fixed, Ty.wire, byteWire_length, List.length_append, List.length_cons, List.length_nil]
        omega
    | .bytes, big, arr, lp, (v : List Byte), start, n, d, off => by
      intro _ hok _ hd
      simp only [Ty.elemOk] at hok
      simp only [Ty.wire, byteWire_length, List.length_append] at hd
      obtain ⟨d', e, o⟩ := encBytes_spec v (start / 8) d off (by omega)
      refine ⟨d', _, by simp only [Ty.encElem, e]; rfl, ?_, ?_⟩
      · simp only [Ty.wire]
        have : 8 * (off + start / 8) = 8 * off + start := by omega
        rwa [this] at o
      · simp only [Ty.fixed, Ty.wire, byteWire_length, List.length_append]
        omega
    | .struct fs, big, arr, lp, v, start, n, d, off => by
      intro hwf hok hv hd
      simp only [Ty.elemOk] at hok
      have hwl := Ty.wire_length c false (.struct fs) arr start n big lp v hwf hok hv
      simp only [Ty.wf, Bool.and_eq_true, decide_eq_true_eq] at hwf
      simp only [Ty.wire] at hd hwl
      have hk : off + start / 8 ≤ d.length := by omega
      obtain ⟨sub', o, e, ov, l⟩ := Fields.encFields_spec c fs v 0 (d.drop (off + start / 8)) 0 hwf.1 hv
        (by rw [List.length_drop]; omega)
      simp only [Nat.mul_zero, Nat.zero_add, Nat.add_zero] at ov l
      have hpos : 8 * (off + start / 8) + 0 = 8 * off + start := by omega
      refine ⟨d.take (off + start / 8) ++ sub', (if fs.dynamic then off + (o + fs.sum / 8) else off), ?_, ?_, ?_⟩
      · simp only [Ty.encElem, Buf.from?, hk, if_true, e]
      · simp only [Ty.wire]
        have := Overlay.sub hk ov
        rwa [hpos] at this
      · simp only [Ty.fixed, Ty.wire] at hwl ⊢
        by_cases hdyn : fs.dynamic = true
        · simp only [hdyn, if_true] at hwl ⊢; omega
        · simp only [hdyn, if_false] at hwl ⊢
          have := Ty.sizeExtra_static (.struct fs) v (by simpa [Ty.dynamic] using hdyn)
          simp only [Bool.false_eq_true, if_false] at hwl ⊢
          omega
  theorem Fields.encFields_spec (c : Cfg) : ∀ (fs : Fields) (v : fs.Val) (start : Nat) (d : Buf) (off : Nat),
      fs.wf start = true → fs.Valid c false v →
      8 * off + start + (fs.wire v).length ≤ 8 * d.length →
      ∃ d' off', fs.encFields c v start d off = some (d', off') ∧
        Overlay d d' (8 * off + start) (fs.wire v) ∧
        8 * off' + fs.sum = 8 * off + (fs.wire v).length
    | .nil, v, start, d, off => by
      intro _ _ _
      exact ⟨d, off, rfl, by simpa [Fields.wire] using Overlay.nil _ _, by simp [Fields.wire, Fields.sum]⟩
    | .void n r, v, start, d, off => by
      intro h hv hd
      simp only [Fields.wire, List.length_append, List.length_replicate] at hd
      obtain ⟨d', off', e, o, l⟩ := Fields.encFields_spec c r v (start + n) d off (by simpa [Fields.wf] using h) hv
        (by omega)
      refine ⟨d', off', by simp only [Fields.encFields, e], ?_, ?_⟩
      · simp only [Fields.wire]
        apply (Overlay.none d _ n).append
        rw [List.length_replicate, Nat.add_assoc]; exact o
      · simp only [Fields.wire, Fields.sum, List.length_append, List.length_replicate]; omega
    | .const p n big val r, v, start, d, off => by
      intro h hv hd
      simp only [Fields.wf, Bool.and_eq_true, decide_eq_true_eq] at h
      obtain ⟨⟨⟨⟨⟨⟨h1, h2⟩, h3⟩, h4⟩, h5⟩, h6⟩, h7⟩ := h
      have hb : big = true → n = p.width := by
        intro hb; rw [hb] at h6; simpa using h6
      simp only [Fields.wire, List.length_append, scWire_length] at hd
      obtain ⟨d1, e1, o1⟩ := const_enc (val := val) h3 hb start off d (by omega)
      obtain ⟨d', off', e, o, l⟩ := Fields.encFields_spec c r v (start + n) d1 off h7 hv (by rw [o1.1]; omega)
      refine ⟨d', off', by simp only [Fields.encFields, e1, e], ?_, ?_⟩
      · simp only [Fields.wire]
        apply o1.append
        rw [scWire_length, Nat.add_assoc]; exact o
      · simp only [Fields.wire, Fields.sum, List.length_append, scWire_length]; omega
    | .one t bits big r, v, start, d, off => by
      intro h hv hd
      obtain ⟨h1, h2, h3, h4, _⟩ := wf_one h
      obtain ⟨v1, v2⟩ := v
      obtain ⟨hv1, hv2⟩ := hv
      simp only at hv1 hv2
      simp only [Fields.wire, List.length_append] at hd
      obtain ⟨d1, off1, e1, o1, l1⟩ := Ty.encElem_spec c t big false false v1 start (bits.getD 0) d off h1 h3 hv1
        (by omega)
      have hgap : (if t.dynamic = true then List.replicate (bits.getD 0) none else ([] : List (Option Bool))).length =
          (if t.dynamic = true then bits.getD 0 else 0) := by split <;> simp
      have hpos : 8 * off1 + (start + bits.getD 0) =
          8 * off + start + ((t.wire (bits.getD 0) big v1).length + (if t.dynamic = true then bits.getD 0 else 0)) := by
        omega
      obtain ⟨d', off', e, o, l⟩ := Fields.encFields_spec c r v2 (start + bits.getD 0) d1 off1 h2 hv2
        (by rw [hpos, o1.1]; omega)
      refine ⟨d', off', by simp only [Fields.encFields, e1, e], ?_, ?_⟩
      · simp only [Fields.wire]
        refine Overlay.append (d1 := d1) (o1.append ?_) ?_
        · split
          · exact Overlay.none _ _ _
          · exact Overlay.nil _ _
        · rw [List.length_append, hgap]
          rw [hpos] at o; exact o
      · simp only [Fields.wire, Fields.sum, List.length_append, hgap]; omega
    | .arr t len bits big r, v, start, d, off => by
      intro h hv hd
      obtain ⟨h0, h1, h2, h3, h4, h5, _, h6⟩ := wf_arr h
      obtain ⟨v1, v2⟩ := v
      obtain ⟨hl, hv1, hv2⟩ := hv
      simp only at hl hv1 hv2
      simp only [Fields.wire, List.length_append] at hd
      have hel : ∀ x ∈ v1, ∀ i d off, 8 * off + (start + i * (bits.getD 0 / len)) +
            (t.wire (bits.getD 0 / len) big x).length ≤ 8 * d.length →
          ElemEnc t (bits.getD 0 / len) big x (start + i * (bits.getD 0 / len)) d off
            (arrElemEnc c t (fun x from_ n d off => t.encElem c big true x from_ n d off)
              len (bits.getD 0 / len) start big i x d off) := by
        intro x hx i d off hd
        exact arrElemEnc_spec c t _ len _ start big x h3 h4 h6 (hv1 x hx)
          (fun st d off hok hd => Ty.encElem_spec c t big true _ x st _ d off h1 hok (hv1 x hx) hd) i d off hd
      obtain ⟨d1, off1, e1, o1, l1⟩ := encIdx_spec t _ _ start big h4 v1 0 d off hel
        (by simp only [Nat.zero_mul, Nat.add_zero]; omega)
      simp only [Nat.zero_mul, Nat.add_zero] at o1
      rw [hl, h5] at l1
      have hpos : 8 * off1 + (start + bits.getD 0) = 8 * off + start +
          ((v1.map (fun x => t.wire (bits.getD 0 / len) big x)).flatten).length := by omega
      obtain ⟨d', off', e, o, l⟩ := Fields.encFields_spec c r v2 (start + bits.getD 0) d1 off1 h2 hv2
        (by rw [hpos, o1.1]; omega)
      refine ⟨d', off', by simp only [Fields.encFields, e1, e], ?_, ?_⟩
      · simp only [Fields.wire]
        apply o1.append
        rw [hpos] at o; exact o
      · simp only [Fields.wire, Fields.sum, List.length_append]; omega
end

end Bubbler
