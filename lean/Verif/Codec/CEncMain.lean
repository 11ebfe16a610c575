import Verif.Codec.CProofs

set_option linter.unusedSimpArgs false
namespace Bubbler

theorem ZeroFrom.mono {d : Buf} {p q : Nat} (h : ZeroFrom d p) (hpq : p ≤ q) : ZeroFrom d q :=
  fun i hi => h i (by omega)

theorem ZeroFrom.overlay {d d' : Buf} {p : Nat} {ws : List (Option Bool)} (h : ZeroFrom d p)
    (o : Overlay d d' p ws) {q : Nat} (hq : p + ws.length ≤ q) : ZeroFrom d' q := by
  intro i hi
  rw [o.2, if_pos (by omega), h i (by omega)]
  rw [List.getD_eq_getElem?_getD, List.getElem?_eq_none (by omega)]
  rfl

theorem ZeroFrom.drop {d : Buf} {k p : Nat} (h : ZeroFrom d (8 * k + p)) : ZeroFrom (d.drop k) p := by
  intro i hi
  have := h (8 * k + i) (by omega)
  rw [← this]
  unfold bitAt
  have e1 : (8 * k + i) / 8 = k + i / 8 := by omega
  have e2 : (8 * k + i) % 8 = i % 8 := by omega
  rw [e1, e2]
  simp [List.getD_eq_getElem?_getD, List.getElem?_drop]

theorem cOk_shift (k start n : Nat) : cOk (8 * k + start) n = cOk start n := by
  have h1 : (8 * k + start) % 8 = start % 8 := by omega
  have h2 : (8 * k + start + n) % 8 = (start + n) % 8 := by omega
  simp only [cOk, h1, h2]

/-- The emitted C statements do on a zero tail exactly what the Go statements do. -/
theorem cExecEnc_eq {w : Nat} (fd : Nat → BitVec w) (hw8 : 8 ≤ w) (hw64 : w ≤ 64) (base start n : Nat) (d : Buf)
    (hd : 8 * base + start + n ≤ 8 * d.length) (hz : ZeroFrom d (8 * base + start)) (hok : cOk start n = true) :
    cExecEnc fd base (cEncStmts start n) d = execEnc fd base (encStmts start n) d := by
  obtain ⟨d1, e1, w1⟩ := cExecEnc_spec fd hw64 assignEmitted_ok base start n d hd hz
  obtain ⟨d2, e2, w2⟩ := execEnc_spec fd hw8 base start n d hd
  rw [cEncStmts, e1, e2]
  congr 1
  exact (w1.congr (fun j hj => cFieldBit_ok fd hok j hj)).unique w2

theorem cEncField_eq {w : Nat} (big : Bool) (start n : Nat) (x : BitVec w) (hw8 : 8 ≤ w) (hw64 : w ≤ 64)
    (base : Nat) (d : Buf)
    (hd : 8 * base + start + n ≤ 8 * d.length) (hz : ZeroFrom d (8 * base + start)) (hok : cOk start n = true) :
    cEncField big start n x base d = encField big start n x base d :=
  cExecEnc_eq _ hw8 hw64 base start n d hd hz hok

theorem and_ff_getLsbD {x : BitVec 64} {k : Nat} (hk : k < 8) : (x &&& 0xFF#64).getLsbD k = x.getLsbD k := by
  rw [BitVec.getLsbD_and]
  have h : ∀ k, k < 8 → (0xFF#64 : BitVec 64).getLsbD k = true := by decide
  simp [h k hk]

/-- The C run-time helper does on a zero tail exactly what the Go helper does. -/
theorem cWriteFieldBits_eq (big : Bool) (pos n : Nat) (v : BitVec 64) (d : Buf)
    (hd : pos + n ≤ 8 * d.length) (hz : ZeroFrom d pos) (hok : cOk pos n = true) :
    cWriteFieldBits d pos n v big = bbWriteFieldBits d pos n v big := by
  unfold cWriteFieldBits
  simp only
  obtain ⟨d1, e1, w1⟩ := cExecEnc_spec
    (fun i => fieldData big n (if n < 64 then v &&& ((1#64 <<< n) - 1#64) else v) i &&& 0xFF#64)
    (Nat.le_refl _) assignHelper_ok 0 pos n d (by omega) (hz.mono (by omega))
  obtain ⟨d2, e2, w2⟩ := bbWriteFieldBits_spec d pos n v big hd
  rw [e1, e2]
  congr 1
  have e0 : 8 * 0 + pos = pos := by omega
  rw [e0] at w1
  refine (w1.congr (fun j hj => ?_)).unique w2
  rw [cFieldBit_ok _ hok j hj]
  have : srcBit (fun i => fieldData big n (if n < 64 then v &&& ((1#64 <<< n) - 1#64) else v) i &&& 0xFF#64) j
      = srcBit (fieldData big n (if n < 64 then v &&& ((1#64 <<< n) - 1#64) else v)) j := by
    simp only [srcBit]
    exact and_ff_getLsbD (by omega)
  rw [this, srcBit_fieldData]
  split
  · exact getLsbD_mask64 (by assumption) (valueBit_lt hj) v
  · rfl

theorem Sc.width_le {s : Sc} {n : Nat} (h : s.wf n = true) (arr : Bool) : s.tempWidth arr n ≤ 64 := by
  have hf := Sc.wf_facts h
  simp only [Sc.wf, Bool.and_eq_true, decide_eq_true_eq] at h
  obtain ⟨⟨h1, h2⟩, h3⟩ := h
  cases s with
  | prim p => simp only [Sc.width, Sc.tempWidth] at *; omega
  | enum b =>
    simp only [decide_eq_true_eq, Sc.bits] at h2 h3
    have := goUintWidth_facts n (by omega) (by omega)
    cases arr
    · simp only [Sc.tempWidth, Bool.false_eq_true, if_false]; omega
    · simp only [Sc.tempWidth, if_true, Sc.width] at *; omega

/-- The position of an element of type `t` is one the C statements handle. -/
def Ty.cElemOk : Ty → Nat → Nat → Prop
  | .sc _, start, n => cOk start n = true
  | _, _, _ => True

theorem cArrElemEnc_eq (c : Cfg) (t : Ty) (rec rec' : t.Val → Nat → Nat → Buf → Nat → Option (Buf × Nat))
    (len eb start : Nat) (big : Bool) (x : t.Val)
    (hok : ∀ i, t.elemOk true (start + i * eb) eb)
    (i : Nat) (hcok : t.cElemOk (start + i * eb) eb)
    (hst : ∀ fs, t = .struct fs → start % 8 = 0 ∧ eb % 8 = 0) (hfix : t.fixed eb = eb)
    (hrec : ∀ st d off, t.elemOk true st eb → t.cElemOk st eb → ZeroFrom d (8 * off + st) →
      8 * off + st + (t.wire eb big x).length ≤ 8 * d.length → rec' x st eb d off = rec x st eb d off)
    (d : Buf) (off : Nat) (hz : ZeroFrom d (8 * off + (start + i * eb)))
    (hd : 8 * off + (start + i * eb) + (t.wire eb big x).length ≤ 8 * d.length) :
    cArrElemEnc c t rec' len eb start big i x d off = arrElemEnc c t rec len eb start big i x d off := by
  unfold cArrElemEnc arrElemEnc
  cases hl : c.useLoop len with
  | false => simp only [Bool.false_eq_true, if_false]; exact hrec _ _ _ (hok i) hcok hz hd
  | true =>
    simp only [if_true]
    cases t with
    | sc s =>
      simp only
      have h0 := hok i
      simp only [Ty.elemOk] at h0
      have hlen : ((Ty.sc s).wire eb big x).length = eb := scWire_length (w := s.width) eb big x
      have hdd : 8 * off + (start + i * eb) + eb ≤ 8 * d.length := by rw [hlen] at hd; exact hd
      rw [cWriteFieldBits_eq big _ eb _ d hdd hz (by rw [cOk_shift]; exact hcok)]
      rfl
    | str =>
      have e : start + i * eb = start := by simp only [Ty.fixed] at hfix; rw [← hfix]; simp
      have := hok i
      rw [e] at hd this hcok hz
      exact hrec _ _ _ this hcok hz hd
    | bytes =>
      have e : start + i * eb = start := by simp only [Ty.fixed] at hfix; rw [← hfix]; simp
      have := hok i
      rw [e] at hd this hcok hz
      exact hrec _ _ _ this hcok hz hd
    | struct fs =>
      simp only
      have h0 := hok i
      by_cases hdyn : fs.dynamic = true
      · rw [if_pos hdyn, if_pos hdyn]
        have e : start + i * eb = start := by simp only [Ty.fixed, hdyn, if_true] at hfix; rw [← hfix]; simp
        rw [e] at hd h0 hcok hz
        exact hrec _ _ _ h0 hcok hz hd
      · rw [if_neg hdyn, if_neg hdyn]
        obtain ⟨h1, h2⟩ := hst fs rfl
        have e : 8 * (start / 8 + i * (eb / 8)) = start + i * eb := by
          have : i * eb = 8 * (i * (eb / 8)) := by
            have h3 : eb = 8 * (eb / 8) := by omega
            calc i * eb = i * (8 * (eb / 8)) := by rw [← h3]
              _ = 8 * (i * (eb / 8)) := by rw [Nat.mul_left_comm]
          omega
        rw [e]
        exact hrec _ _ _ h0 hcok hz hd

theorem encIdx_eq (t : Ty) (f g : Nat → t.Val → Buf → Nat → Option (Buf × Nat)) (eb start : Nat) (big : Bool)
    (hfix : t.fixed eb = eb) (xs : List t.Val) : ∀ (i : Nat) (d : Buf) (off : Nat),
    (∀ x ∈ xs, ∀ i d off, 8 * off + (start + i * eb) + (t.wire eb big x).length ≤ 8 * d.length →
      ElemEnc t eb big x (start + i * eb) d off (f i x d off)) →
    (∀ x ∈ xs, ∀ k d off, k < i + xs.length → ZeroFrom d (8 * off + (start + k * eb)) →
      8 * off + (start + k * eb) + (t.wire eb big x).length ≤ 8 * d.length → g k x d off = f k x d off) →
    ZeroFrom d (8 * off + (start + i * eb)) →
    8 * off + (start + i * eb) + ((xs.map (fun x => t.wire eb big x)).flatten).length ≤ 8 * d.length →
    encIdx g i xs d off = encIdx f i xs d off := by
  induction xs with
  | nil => intro i d off _ _ _ _; rfl
  | cons x xs ih =>
    intro i d off hf hg hz hd
    simp only [List.map_cons, List.flatten_cons, List.length_append] at hd
    obtain ⟨d1, off1, e1, o1, l1⟩ := hf x (by simp) i d off (by omega)
    have hgx := hg x (by simp) i d off (by simp) hz (by omega)
    rw [hfix] at l1
    have hpos : 8 * off1 + (start + (i + 1) * eb) = 8 * off + (start + i * eb) + (t.wire eb big x).length := by
      rw [Nat.add_mul, Nat.one_mul]; omega
    simp only [encIdx, hgx, e1]
    exact ih (i + 1) d1 off1 (fun y hy => hf y (by simp [hy]))
      (fun y hy k d off hk => hg y (by simp [hy]) k d off (by simp only [List.length_cons]; omega))
      (hz.overlay o1 (by omega)) (by rw [hpos, o1.1]; omega)

mutual
  theorem Ty.cEncElem_eq (c : Cfg) : ∀ (t : Ty) (big arr lp : Bool) (v : t.Val) (start n : Nat) (d : Buf) (off : Nat),
      t.wf = true → t.elemOk arr start n → t.Valid c false lp v → t.cAligned = true → t.cElemOk start n →
      ZeroFrom d (8 * off + start) →
      8 * off + start + (t.wire n big v).length ≤ 8 * d.length →
      t.cEncElem c big arr v start n d off = t.encElem c big arr v start n d off
    | .sc s, big, arr, lp, (v : BitVec s.width), start, n, d, off => by
      intro _ hok _ _ hcok hz hd
      simp only [Ty.elemOk] at hok
      simp only [Ty.wire, scWire_length] at hd
      simp only [Ty.cEncElem, Ty.encElem]
      rw [cEncField_eq big start n _ (Sc.temp_facts hok.1 hok.2).2 (Sc.width_le hok.1 arr) off d hd hz hcok]
      rfl
    | .str, big, arr, lp, (v : List Byte), start, n, d, off => by
      intros; simp only [Ty.cEncElem, Ty.encElem]
    | .bytes, big, arr, lp, (v : List Byte), start, n, d, off => by
      intros; simp only [Ty.cEncElem, Ty.encElem]
    | .struct fs, big, arr, lp, v, start, n, d, off => by
      intro hwf hok hv hal _ hz hd
      simp only [Ty.elemOk] at hok
      simp only [Ty.wf, Bool.and_eq_true, decide_eq_true_eq] at hwf
      simp only [Ty.wire] at hd
      simp only [Ty.cAligned] at hal
      have hpos : 8 * (off + start / 8) + 0 = 8 * off + start := by omega
      have hk : off + start / 8 ≤ d.length := by omega
      have hzz : ZeroFrom (d.drop (off + start / 8)) 0 := ZeroFrom.drop (by rw [hpos]; exact hz)
      have e := Fields.cEncFields_eq c fs v 0 (d.drop (off + start / 8)) 0 hwf.1 hv hal
        (by simpa using hzz) (by rw [List.length_drop]; omega)
      simp only [Ty.cEncElem, Ty.encElem, Buf.from?, hk, if_true, e]
      rfl
  theorem Fields.cEncFields_eq (c : Cfg) : ∀ (fs : Fields) (v : fs.Val) (start : Nat) (d : Buf) (off : Nat),
      fs.wf start = true → fs.Valid c false v → fs.cAligned start = true → ZeroFrom d (8 * off + start) →
      8 * off + start + (fs.wire v).length ≤ 8 * d.length →
      fs.cEncFields c v start d off = fs.encFields c v start d off
    | .nil, v, start, d, off => by
      intros; simp only [Fields.cEncFields, Fields.encFields]
    | .void n r, v, start, d, off => by
      intro h hv hal hz hd
      simp only [Fields.wire, List.length_append, List.length_replicate] at hd
      simp only [Fields.cAligned] at hal
      have e := Fields.cEncFields_eq c r v (start + n) d off (by simpa [Fields.wf] using h) hv hal
        (hz.mono (by omega)) (by omega)
      simp only [Fields.cEncFields, Fields.encFields, e]
    | .const p n big val r, v, start, d, off => by
      intro h hv hal hz hd
      simp only [Fields.wf, Bool.and_eq_true, decide_eq_true_eq] at h
      obtain ⟨⟨⟨⟨⟨⟨h1, h2⟩, h3⟩, h4⟩, h5⟩, h6⟩, h7⟩ := h
      have hb : big = true → n = p.width := by
        intro hb; rw [hb] at h6; simpa using h6
      simp only [Fields.wire, List.length_append, scWire_length] at hd
      simp only [Fields.cAligned, Bool.and_eq_true] at hal
      obtain ⟨d1, e1, o1⟩ := const_enc (val := val) h3 hb start off d (by omega)
      have ec := cExecEnc_eq (constData p big val) (by omega) (by omega) off start n d (by omega) hz hal.1
      have e := Fields.cEncFields_eq c r v (start + n) d1 off h7 hv hal.2
        (hz.overlay o1 (by rw [scWire_length]; omega)) (by rw [o1.1]; omega)
      simp only [Fields.cEncFields, Fields.encFields, ec, e1, e]
    | .one t bits big r, v, start, d, off => by
      intro h hv hal hz hd
      obtain ⟨h1, h2, h3, h4, _⟩ := wf_one h
      obtain ⟨v1, v2⟩ := v
      obtain ⟨hv1, hv2⟩ := hv
      simp only at hv1 hv2
      simp only [Fields.wire, List.length_append] at hd
      simp only [Fields.cAligned, Bool.and_eq_true] at hal
      obtain ⟨⟨ha1, ha2⟩, ha3⟩ := hal
      have hcok : t.cElemOk start (bits.getD 0) := by
        cases t <;> first | exact ha3 | trivial
      have ec := Ty.cEncElem_eq c t big false false v1 start (bits.getD 0) d off h1 h3 hv1 ha1 hcok hz (by omega)
      obtain ⟨d1, off1, e1, o1, l1⟩ := Ty.encElem_spec c t big false false v1 start (bits.getD 0) d off h1 h3 hv1
        (by omega)
      have hgap : (if t.dynamic = true then List.replicate (bits.getD 0) none else ([] : List (Option Bool))).length =
          (if t.dynamic = true then bits.getD 0 else 0) := by split <;> simp
      have hpos : 8 * off1 + (start + bits.getD 0) =
          8 * off + start + ((t.wire (bits.getD 0) big v1).length + (if t.dynamic = true then bits.getD 0 else 0)) := by
        omega
      have e := Fields.cEncFields_eq c r v2 (start + bits.getD 0) d1 off1 h2 hv2 ha2
        (hz.overlay o1 (by omega)) (by rw [hpos, o1.1]; omega)
      simp only [Fields.cEncFields, Fields.encFields, ec, e1, e]
    | .arr t len bits big r, v, start, d, off => by
      intro h hv hal hz hd
      obtain ⟨h0, h1, h2, h3, h4, h5, _, h6⟩ := wf_arr h
      obtain ⟨v1, v2⟩ := v
      obtain ⟨hl, hv1, hv2⟩ := hv
      simp only at hl hv1 hv2
      simp only [Fields.wire, List.length_append] at hd
      simp only [Fields.cAligned, Bool.and_eq_true] at hal
      obtain ⟨⟨ha1, ha2⟩, ha3⟩ := hal
      have hcok : ∀ i, i < len → t.cElemOk (start + i * (bits.getD 0 / len)) (bits.getD 0 / len) := by
        intro i hi
        cases t <;> first
          | (simp only [List.all_eq_true, List.mem_range] at ha3; exact ha3 i hi)
          | trivial
      have hel : ∀ x ∈ v1, ∀ i d off, 8 * off + (start + i * (bits.getD 0 / len)) +
            (t.wire (bits.getD 0 / len) big x).length ≤ 8 * d.length →
          ElemEnc t (bits.getD 0 / len) big x (start + i * (bits.getD 0 / len)) d off
            (arrElemEnc c t (fun x from_ n d off => t.encElem c big true x from_ n d off)
              len (bits.getD 0 / len) start big i x d off) := by
        intro x hx i d off hd
        exact arrElemEnc_spec c t _ len _ start big x h3 h4 h6 (hv1 x hx)
          (fun st d off hok hd => Ty.encElem_spec c t big true _ x st _ d off h1 hok (hv1 x hx) hd) i d off hd
      have hec : ∀ x ∈ v1, ∀ k d off, k < 0 + v1.length → ZeroFrom d (8 * off + (start + k * (bits.getD 0 / len))) →
          8 * off + (start + k * (bits.getD 0 / len)) + (t.wire (bits.getD 0 / len) big x).length ≤ 8 * d.length →
          cArrElemEnc c t (fun x from_ n d off => t.cEncElem c big true x from_ n d off)
              len (bits.getD 0 / len) start big k x d off =
          arrElemEnc c t (fun x from_ n d off => t.encElem c big true x from_ n d off)
              len (bits.getD 0 / len) start big k x d off := by
        intro x hx k d off hk hz hd
        exact cArrElemEnc_eq c t _ _ len _ start big x h3 k (hcok k (by omega)) h6 h4
          (fun st d off hok hcok hz hd =>
            Ty.cEncElem_eq c t big true _ x st _ d off h1 hok (hv1 x hx) ha1 hcok hz hd) d off hz hd
      have ec := encIdx_eq t _ _ _ start big h4 v1 0 d off hel hec
        (by simp only [Nat.zero_mul, Nat.add_zero]; exact hz)
        (by simp only [Nat.zero_mul, Nat.add_zero]; omega)
      obtain ⟨d1, off1, e1, o1, l1⟩ := encIdx_spec t _ _ start big h4 v1 0 d off hel
        (by simp only [Nat.zero_mul, Nat.add_zero]; omega)
      simp only [Nat.zero_mul, Nat.add_zero] at o1
      rw [hl, h5] at l1
      have hpos : 8 * off1 + (start + bits.getD 0) = 8 * off + start +
          ((v1.map (fun x => t.wire (bits.getD 0 / len) big x)).flatten).length := by omega
      have e := Fields.cEncFields_eq c r v2 (start + bits.getD 0) d1 off1 h2 hv2 ha2
        (hz.overlay o1 (by omega)) (by rw [hpos, o1.1]; omega)
      simp only [Fields.cEncFields, Fields.encFields, ec, e1, e]
end

end Bubbler
