import Verif.Codec.PyMsg
import Verif.Codec.PyProofs
import Verif.Codec.EncMain
import Verif.Codec.Top

set_option linter.unusedSimpArgs false
namespace Bubbler

/-- A generator configuration without loops (used in proofs only). -/
def flatCfg : Cfg := ⟨-1, .shift, fun w => 0#w⟩

theorem flatCfg_useLoop (len : Nat) : flatCfg.useLoop len = false := by
  simp [Cfg.useLoop, flatCfg]

mutual
  /-- Python values `encode` is meant for: lists have the declared length; byte sequences are shorter
  than 2^63. -/
  def Ty.PyValid : (t : Ty) → t.PyVal → Prop
    | .sc _, _ => True
    | .str, _ => True
    | .bytes, (s : List Byte) => s.length ≤ maxInt
    | .struct fs, v => fs.PyValid v
  def Fields.PyValid : (fs : Fields) → fs.PyVal → Prop
    | .nil, _ => True
    | .void _ r, v => r.PyValid v
    | .const _ _ _ _ r, v => r.PyValid v
    | .one t _ _ r, (v : t.PyVal × r.PyVal) => t.PyValid v.1 ∧ r.PyValid v.2
    | .arr t len _ _ r, (v : List t.PyVal × r.PyVal) =>
      v.1.length = len ∧ (∀ x ∈ v.1, t.PyValid x) ∧ r.PyValid v.2
end

mutual
  theorem Ty.PyValid.flat : ∀ (t : Ty) (v : t.PyVal), t.PyValid v → t.Valid flatCfg false false (t.ofPy v)
    | .sc s, (v : Int) => by intro _ _ h; simp at h
    | .str, (v : List Byte) => fun _ => trivial
    | .bytes, (v : List Byte) => fun h => h
    | .struct fs, v => fun h => Fields.PyValid.flat fs v h
  theorem Fields.PyValid.flat : ∀ (fs : Fields) (v : fs.PyVal), fs.PyValid v → fs.Valid flatCfg false (fs.ofPy v)
    | .nil, _ => fun _ => trivial
    | .void _ r, v => fun h => Fields.PyValid.flat r v h
    | .const _ _ _ _ r, v => fun h => Fields.PyValid.flat r v h
    | .one t _ _ r, (v : t.PyVal × r.PyVal) => fun h => ⟨Ty.PyValid.flat t v.1 h.1, Fields.PyValid.flat r v.2 h.2⟩
    | .arr t len _ _ r, (v : List t.PyVal × r.PyVal) => fun h => by
      refine ⟨by simp only [Fields.ofPy, List.length_map]; exact h.1, ?_, Fields.PyValid.flat r v.2 h.2.2⟩
      intro x hx
      obtain ⟨y, hy, rfl⟩ := List.mem_map.mp hx
      rw [flatCfg_useLoop]
      exact Ty.PyValid.flat t y (h.2.1 y hy)
end

/-! ### Strings and byte sequences -/

theorem pyStore_wr {d : Buf} {i v : Nat} (h : v < 256) : pyStore d i v = d.wr i (BitVec.ofNat 8 v) := if_pos h

theorem pySetSlice_copy {d : Buf} {a : Nat} {s : List Byte} (h : a + s.length ≤ d.length) :
    pySetSlice d a s = d.copyAt a s := by
  unfold pySetSlice Buf.copyAt
  rw [if_pos (Or.inl h), if_pos (by omega), List.take_of_length_le (l := s) (by omega)]

theorem copyAt_length {d d' : Buf} {a : Nat} {s : List Byte} (h : d.copyAt a s = some d') : d'.length = d.length := by
  unfold Buf.copyAt at h
  split at h
  · cases h
    simp only [List.length_append, List.length_take, List.length_drop]
    omega
  · cases h

theorem pyEncString_eq (s : List Byte) (k : Nat) (d : Buf) (off : Nat)
    (h : off + k + (s.length + 1) ≤ d.length) : pyEncString s k d off = encString s k d off := by
  unfold pyEncString encString
  rw [pySetSlice_copy (by omega)]
  cases e : d.copyAt (off + k) s with
  | none => rfl
  | some d1 =>
    simp only [Option.bind_eq_bind, Option.bind_some]
    rw [pyStore_wr (by omega)]
    cases e2 : d1.wr (off + k + s.length) 0#8 with
    | none => simp [e2]
    | some d2 => simp [e2]

theorem or80_lt (n : Nat) : n &&& 0x7F ||| 0x80 < 256 := by
  rw [and7F, or80 _ (by omega)]; omega

theorem pyEncLenLoop_eq (k n : Nat) : ∀ (d : Buf) (off : Nat), pyEncLenLoop k n d off = encLenLoop k n d off := by
  induction n using varint.induct with
  | case1 n hn =>
    intro d off
    have e2 : n >>> 7 = 0 := by rw [Nat.shiftRight_eq_div_pow]; omega
    rw [pyEncLenLoop, encLenLoop, pyStore_wr (or80_lt n)]
    cases d.wr (off + k) (BitVec.ofNat 8 (n &&& 0x7F ||| 0x80)) with
    | none => rfl
    | some d => simp [e2]
  | case2 n hn ih =>
    intro d off
    have e2 : n >>> 7 = n / 128 := by rw [Nat.shiftRight_eq_div_pow]
    have e3 : ¬ n / 128 = 0 := by omega
    rw [pyEncLenLoop, encLenLoop, pyStore_wr (or80_lt n)]
    cases d.wr (off + k) (BitVec.ofNat 8 (n &&& 0x7F ||| 0x80)) with
    | none => rfl
    | some d => simp [e2, e3, ih]

theorem pyClear80 (b : Byte) : pyAnd (pyNot 0x80) b.toNat = (b &&& ~~~(0x80#8)).toNat := by
  apply Nat.eq_of_testBit_eq
  intro k
  rw [pyAnd_testBit, intBit_pyNot, byte_testBit, byte_testBit, BitVec.getLsbD_and, BitVec.getLsbD_not]
  by_cases hk : k < 8
  · have : (0x80 : Nat).testBit k = (0x80#8).getLsbD k := rfl
    rw [this]
    simp [hk, Bool.and_comm]
  · have : b.getLsbD k = false := BitVec.getLsbD_of_ge _ _ (by omega)
    simp [this]

theorem pyEncBytes_eq (s : List Byte) (k : Nat) (d : Buf) (off : Nat)
    (h : off + k + ((varint s.length).length + s.length) ≤ d.length) :
    pyEncBytes s k d off = encBytes s k d off := by
  obtain ⟨d1, b, d2, h1, h2, h3, o2⟩ := encLen_spec k s.length d off (by omega)
  unfold pyEncBytes encBytes
  rw [pyEncLenLoop_eq, h1]
  simp only [Option.bind_eq_bind, Option.bind_some, h2, h3]
  rw [pyClear80, pyStore_wr (BitVec.isLt _), BitVec.ofNat_toNat, BitVec.setWidth_eq, h3]
  simp only
  rw [pySetSlice_copy (by rw [o2.1]; omega)]
  cases d2.copyAt (off + (varint s.length).length + k) s <;> rfl

/-! ### encode -/

theorem pyWrite_overlay {s : Sc} {n : Nat} (h : s.wf n = true) (big : Bool) (x : Int) (pos : Nat) (d : Buf)
    (hd : pos + n ≤ 8 * d.length) :
    ∃ d', pyWriteFieldBits d pos n x big = some d' ∧ Overlay d d' pos (scWire n big (BitVec.ofInt s.width x)) := by
  obtain ⟨d', e, w⟩ := pyWriteFieldBits_spec d pos n x big hd
  have hf := Sc.wf_facts h
  refine ⟨d', e, Overlay.ofWrites (w.congr (fun j hj => ?_))⟩
  have := valueBit_lt (big := big) hj
  rw [intBit_ofInt _ _ _ (by omega)]

theorem pyEnc_overlay {s : Sc} {n : Nat} (h : s.wf n = true) (big : Bool) (x : Int) (start off : Nat) (d : Buf)
    (hd : 8 * off + start + n ≤ 8 * d.length) :
    ∃ d', pyEncField big start n x off d = some d' ∧
      Overlay d d' (8 * off + start) (scWire n big (BitVec.ofInt s.width x)) := by
  obtain ⟨d', e, w⟩ := pyEncField_spec big start n x off d hd
  have hf := Sc.wf_facts h
  refine ⟨d', e, Overlay.ofWrites (w.congr (fun j hj => ?_))⟩
  have := valueBit_lt (big := big) hj
  rw [intBit_ofInt _ _ _ (by omega)]

theorem goFd_const (p : Prim) (big : Bool) (val : Nat) : goFd (pyConstData p big val) = constData p big val := by
  funext i
  simp only [goFd, pyConstData]
  rw [BitVec.ofInt_natCast, BitVec.ofNat_toNat, BitVec.setWidth_eq]

theorem pyArrElemEnc_spec (c : PyCfg) (t : Ty) (rec : t.PyVal → Nat → Nat → Buf → Nat → Option (Buf × Nat))
    (len eb start : Nat) (big : Bool) (x : t.PyVal)
    (hok : ∀ i, t.elemOk true (start + i * eb) eb) (hfix : t.fixed eb = eb)
    (hst : ∀ fs, t = .struct fs → start % 8 = 0 ∧ eb % 8 = 0)
    (hrec : ∀ st d off, t.elemOk true st eb → 8 * off + st + (t.wire eb big (t.ofPy x)).length ≤ 8 * d.length →
      ElemEnc t eb big (t.ofPy x) st d off (rec x st eb d off))
    (i : Nat) (d : Buf) (off : Nat)
    (hd : 8 * off + (start + i * eb) + (t.wire eb big (t.ofPy x)).length ≤ 8 * d.length) :
    ElemEnc t eb big (t.ofPy x) (start + i * eb) d off (pyArrElemEnc c t rec len eb start big i x d off) := by
  unfold pyArrElemEnc
  cases hl : c.useLoop len with
  | false => simp only [Bool.false_eq_true, if_false]; exact hrec _ _ _ (hok i) hd
  | true =>
    simp only [if_true]
    cases t with
    | sc s =>
      simp only
      have h0 := hok i
      simp only [Ty.elemOk] at h0
      have hlen : ((Ty.sc s).wire eb big ((Ty.sc s).ofPy x)).length = eb := scWire_length (w := s.width) eb big _
      have hdd : 8 * off + (start + i * eb) + eb ≤ 8 * d.length := by rw [hlen] at hd; exact hd
      obtain ⟨d', e, o⟩ := pyWrite_overlay h0.1 big x (8 * off + (start + i * eb)) d hdd
      refine ⟨d', off, by rw [e], ?_, ?_⟩
      · simpa [Ty.wire, Ty.ofPy] using o
      · rw [hlen]; simp only [Ty.fixed]
    | str =>
      have e : start + i * eb = start := by simp only [Ty.fixed] at hfix; rw [← hfix]; simp
      have := hok i
      rw [e] at hd this ⊢
      exact hrec _ _ _ this hd
    | bytes =>
      have e : start + i * eb = start := by simp only [Ty.fixed] at hfix; rw [← hfix]; simp
      have := hok i
      rw [e] at hd this ⊢
      exact hrec _ _ _ this hd
    | struct fs =>
      simp only
      have h0 := hok i
      by_cases hdyn : fs.dynamic = true
      · rw [if_pos hdyn]
        have e : start + i * eb = start := by simp only [Ty.fixed, hdyn, if_true] at hfix; rw [← hfix]; simp
        rw [e] at hd h0 ⊢
        exact hrec _ _ _ h0 hd
      · rw [if_neg hdyn]
        have e : 8 * ((start + i * eb) / 8) = start + i * eb := by
          simp only [Ty.elemOk] at h0; omega
        rw [e]
        exact hrec _ _ _ h0 hd

theorem encIdx_map {α β : Type} (h : α → β) (f : Nat → β → Buf → Nat → Option (Buf × Nat))
    (g : Nat → α → Buf → Nat → Option (Buf × Nat)) (hfg : ∀ i x d off, g i x d off = f i (h x) d off) :
    ∀ (xs : List α) (i : Nat) (d : Buf) (off : Nat), encIdx g i xs d off = encIdx f i (xs.map h) d off
  | [], _, _, _ => rfl
  | x :: xs, i, d, off => by
    simp only [encIdx, List.map_cons, hfg]
    cases f i (h x) d off with
    | none => rfl
    | some p => exact encIdx_map h f g hfg xs _ _ _

/-- `encIdx_spec` for Python values. -/
theorem pyEncIdx_spec (t : Ty) (f : Nat → t.PyVal → Buf → Nat → Option (Buf × Nat)) (eb start : Nat) (big : Bool)
    (hfix : t.fixed eb = eb) (xs : List t.PyVal) : ∀ (i : Nat) (d : Buf) (off : Nat),
    (∀ x ∈ xs, ∀ i d off, 8 * off + (start + i * eb) + (t.wire eb big (t.ofPy x)).length ≤ 8 * d.length →
      ElemEnc t eb big (t.ofPy x) (start + i * eb) d off (f i x d off)) →
    8 * off + (start + i * eb) + (((xs.map (fun x => t.ofPy x)).map (fun x => t.wire eb big x)).flatten).length ≤
      8 * d.length →
    ∃ d' off', encIdx f i xs d off = some (d', off') ∧
      Overlay d d' (8 * off + (start + i * eb)) (((xs.map (fun x => t.ofPy x)).map (fun x => t.wire eb big x)).flatten) ∧
      8 * off' + xs.length * eb =
        8 * off + (((xs.map (fun x => t.ofPy x)).map (fun x => t.wire eb big x)).flatten).length := by
  induction xs with
  | nil =>
    intro i d off _ _
    exact ⟨d, off, rfl, by simpa using Overlay.nil _ _, by simp⟩
  | cons x xs ih =>
    intro i d off hf hd
    simp only [List.map_cons, List.flatten_cons, List.length_append] at hd
    obtain ⟨d1, off1, e1, o1, l1⟩ := hf x (by simp) i d off (by omega)
    rw [hfix] at l1
    have hpos : 8 * off1 + (start + (i + 1) * eb) =
        8 * off + (start + i * eb) + (t.wire eb big (t.ofPy x)).length := by
      rw [Nat.add_mul, Nat.one_mul]; omega
    obtain ⟨d2, off2, e2, o2, l2⟩ := ih (i + 1) d1 off1 (fun y hy => hf y (by simp [hy]))
      (by rw [hpos, o1.1]; omega)
    refine ⟨d2, off2, ?_, ?_, ?_⟩
    · simp only [encIdx, e1, e2]
    · simp only [List.map_cons, List.flatten_cons]
      rw [hpos] at o2
      exact o1.append o2
    · simp only [List.map_cons, List.flatten_cons, List.length_append, List.length_cons, Nat.add_mul, Nat.one_mul]
      omega

mutual
  theorem Ty.pyEncElem_spec (c : PyCfg) : ∀ (t : Ty) (big arr : Bool) (v : t.PyVal) (start n : Nat) (d : Buf) (off : Nat),
      t.wf = true → t.elemOk arr start n → t.PyValid v →
      8 * off + start + (t.wire n big (t.ofPy v)).length ≤ 8 * d.length →
      ElemEnc t n big (t.ofPy v) start d off (t.pyEncElem c big v start n d off)
    | .sc s, big, arr, (v : Int), start, n, d, off => by
      intro _ hok _ hd
      simp only [Ty.elemOk] at hok
      obtain ⟨d', e, o⟩ := pyEnc_overlay hok.1 big v start off d (by
        simp only [Ty.wire, Ty.ofPy, scWire_length] at hd; exact hd)
      exact ⟨d', off, by simp only [Ty.pyEncElem, e], by simpa [Ty.wire, Ty.ofPy] using o,
        by simp only [Ty.fixed, Ty.wire, Ty.ofPy, scWire_length]⟩
    | .str, big, arr, (v : List Byte), start, n, d, off => by
      intro _ hok _ hd
      simp only [Ty.elemOk] at hok
      simp only [Ty.wire, Ty.ofPy, byteWire_length, List.length_append, List.length_cons, List.length_nil] at hd
      obtain ⟨d', e, o⟩ := encString_spec v (start / 8) d off (by omega)
      rw [← pyEncString_eq v (start / 8) d off (by omega)] at e
      refine ⟨d', _, by simp only [Ty.pyEncElem, e]; rfl, ?_, ?_⟩
      · simp only [Ty.wire, Ty.ofPy]
        have : 8 * (off + start / 8) = 8 * off + start := by omega
        rwa [this] at o
      · simp only [Ty.fixed, Ty.wire, Ty.ofPy, byteWire_length, List.length_append, List.length_cons, List.length_nil]
        omega
    | .bytes, big, arr, (v : List Byte), start, n, d, off => by
      intro _ hok _ hd
      simp only [Ty.elemOk] at hok
      simp only [Ty.wire, Ty.ofPy, byteWire_length, List.length_append] at hd
      obtain ⟨d', e, o⟩ := encBytes_spec v (start / 8) d off (by omega)
      rw [← pyEncBytes_eq v (start / 8) d off (by omega)] at e
      refine ⟨d', _, by simp only [Ty.pyEncElem, e]; rfl, ?_, ?_⟩
      · simp only [Ty.wire, Ty.ofPy]
        have : 8 * (off + start / 8) = 8 * off + start := by omega
        rwa [this] at o
      · simp only [Ty.fixed, Ty.wire, Ty.ofPy, byteWire_length, List.length_append]
        omega
    | .struct fs, big, arr, v, start, n, d, off => by
      intro hwf hok hv hd
      simp only [Ty.elemOk] at hok
      have hwl := Ty.wire_length flatCfg false (.struct fs) arr start n big false ((Ty.struct fs).ofPy v) hwf hok
        (Ty.PyValid.flat (.struct fs) v hv)
      simp only [Ty.wf, Bool.and_eq_true, decide_eq_true_eq] at hwf
      simp only [Ty.wire, Ty.ofPy] at hd hwl
      have hk : off + start / 8 ≤ d.length := by omega
      obtain ⟨sub', o, e, ov, l⟩ := Fields.pyEncFields_spec c fs v 0 (d.drop (off + start / 8)) 0 hwf.1 hv
        (by rw [List.length_drop]; omega)
      simp only [Nat.mul_zero, Nat.zero_add, Nat.add_zero] at ov l
      have hpos : 8 * (off + start / 8) + 0 = 8 * off + start := by omega
      refine ⟨d.take (off + start / 8) ++ sub', (if fs.dynamic then off + (o + fs.sum / 8) else off), ?_, ?_, ?_⟩
      · simp only [Ty.pyEncElem, e]
      · simp only [Ty.wire, Ty.ofPy]
        have := Overlay.sub hk ov
        rwa [hpos] at this
      · simp only [Ty.fixed, Ty.wire, Ty.ofPy] at hwl ⊢
        by_cases hdyn : fs.dynamic = true
        · simp only [hdyn, if_true] at hwl ⊢; omega
        · simp only [hdyn, if_false] at hwl ⊢
          have := Ty.sizeExtra_static (.struct fs) (fs.ofPy v) (by simpa [Ty.dynamic] using hdyn)
          simp only [Bool.false_eq_true, if_false] at hwl ⊢
          omega
  theorem Fields.pyEncFields_spec (c : PyCfg) : ∀ (fs : Fields) (v : fs.PyVal) (start : Nat) (d : Buf) (off : Nat),
      fs.wf start = true → fs.PyValid v →
      8 * off + start + (fs.wire (fs.ofPy v)).length ≤ 8 * d.length →
      ∃ d' off', fs.pyEncFields c v start d off = some (d', off') ∧
        Overlay d d' (8 * off + start) (fs.wire (fs.ofPy v)) ∧
        8 * off' + fs.sum = 8 * off + (fs.wire (fs.ofPy v)).length
    | .nil, v, start, d, off => by
      intro _ _ _
      exact ⟨d, off, rfl, by simpa [Fields.wire] using Overlay.nil _ _, by simp [Fields.wire, Fields.sum]⟩
    | .void n r, v, start, d, off => by
      intro h hv hd
      simp only [Fields.wire, Fields.ofPy, List.length_append, List.length_replicate] at hd
      obtain ⟨d', off', e, o, l⟩ := Fields.pyEncFields_spec c r v (start + n) d off (by simpa [Fields.wf] using h) hv
        (by omega)
      refine ⟨d', off', by simp only [Fields.pyEncFields, e], ?_, ?_⟩
      · simp only [Fields.wire, Fields.ofPy]
        apply (Overlay.none d _ n).append
        rw [List.length_replicate, Nat.add_assoc]; exact o
      · simp only [Fields.wire, Fields.ofPy, Fields.sum, List.length_append, List.length_replicate]; omega
    | .const p n big val r, v, start, d, off => by
      intro h hv hd
      simp only [Fields.wf, Bool.and_eq_true, decide_eq_true_eq] at h
      obtain ⟨⟨⟨⟨⟨⟨h1, h2⟩, h3⟩, h4⟩, h5⟩, h6⟩, h7⟩ := h
      have hb : big = true → n = p.width := by
        intro hb; rw [hb] at h6; simpa using h6
      simp only [Fields.wire, Fields.ofPy, List.length_append, scWire_length] at hd
      obtain ⟨d1, e1, o1⟩ := const_enc (val := val) h3 hb start off d (by omega)
      rw [← goFd_const, ← pyExecEnc_eq _ _ _ _ _ (by omega)] at e1
      obtain ⟨d', off', e, o, l⟩ := Fields.pyEncFields_spec c r v (start + n) d1 off h7 hv (by rw [o1.1]; omega)
      refine ⟨d', off', by simp only [Fields.pyEncFields, e1, e], ?_, ?_⟩
      · simp only [Fields.wire, Fields.ofPy]
        apply o1.append
        rw [scWire_length, Nat.add_assoc]; exact o
      · simp only [Fields.wire, Fields.ofPy, Fields.sum, List.length_append, scWire_length]; omega
    | .one t bits big r, v, start, d, off => by
      intro h hv hd
      obtain ⟨h1, h2, h3, h4, _⟩ := wf_one h
      obtain ⟨v1, v2⟩ := v
      obtain ⟨hv1, hv2⟩ := hv
      simp only at hv1 hv2
      simp only [Fields.wire, Fields.ofPy, List.length_append] at hd
      obtain ⟨d1, off1, e1, o1, l1⟩ := Ty.pyEncElem_spec c t big false v1 start (bits.getD 0) d off h1 h3 hv1
        (by omega)
      have hgap : (if t.dynamic = true then List.replicate (bits.getD 0) none else ([] : List (Option Bool))).length =
          (if t.dynamic = true then bits.getD 0 else 0) := by split <;> simp
      have hpos : 8 * off1 + (start + bits.getD 0) =
          8 * off + start + ((t.wire (bits.getD 0) big (t.ofPy v1)).length + (if t.dynamic = true then bits.getD 0 else 0)) := by
        omega
      obtain ⟨d', off', e, o, l⟩ := Fields.pyEncFields_spec c r v2 (start + bits.getD 0) d1 off1 h2 hv2
        (by rw [hpos, o1.1]; omega)
      refine ⟨d', off', by simp only [Fields.pyEncFields, e1, e], ?_, ?_⟩
      · simp only [Fields.wire, Fields.ofPy]
        refine Overlay.append (d1 := d1) (o1.append ?_) ?_
        · split
          · exact Overlay.none _ _ _
          · exact Overlay.nil _ _
        · rw [List.length_append, hgap]
          rw [hpos] at o; exact o
      · simp only [Fields.wire, Fields.ofPy, Fields.sum, List.length_append, hgap]; omega
    | .arr t len bits big r, v, start, d, off => by
      intro h hv hd
      obtain ⟨h0, h1, h2, h3, h4, h5, _, h6⟩ := wf_arr h
      obtain ⟨v1, v2⟩ := v
      obtain ⟨hl, hv1, hv2⟩ := hv
      simp only at hl hv1 hv2
      simp only [Fields.wire, Fields.ofPy, List.length_append] at hd
      have hel : ∀ x ∈ v1, ∀ i d off, 8 * off + (start + i * (bits.getD 0 / len)) +
            (t.wire (bits.getD 0 / len) big (t.ofPy x)).length ≤ 8 * d.length →
          ElemEnc t (bits.getD 0 / len) big (t.ofPy x) (start + i * (bits.getD 0 / len)) d off
            (pyArrElemEnc c t (fun x from_ n d off => t.pyEncElem c big x from_ n d off)
              len (bits.getD 0 / len) start big i x d off) := by
        intro x hx i d off hd
        exact pyArrElemEnc_spec c t _ len _ start big x h3 h4 h6
          (fun st d off hok hd => Ty.pyEncElem_spec c t big true x st _ d off h1 hok (hv1 x hx) hd) i d off hd
      obtain ⟨d1, off1, e1, o1, l1⟩ := pyEncIdx_spec t _ _ start big h4 v1 0 d off hel
        (by simp only [Nat.zero_mul, Nat.add_zero]; omega)
      simp only [Nat.zero_mul, Nat.add_zero] at o1
      rw [hl, h5] at l1
      have hpos : 8 * off1 + (start + bits.getD 0) = 8 * off + start +
          (((v1.map (fun x => t.ofPy x)).map (fun x => t.wire (bits.getD 0 / len) big x)).flatten).length := by omega
      obtain ⟨d', off', e, o, l⟩ := Fields.pyEncFields_spec c r v2 (start + bits.getD 0) d1 off1 h2 hv2
        (by rw [hpos, o1.1]; omega)
      refine ⟨d', off', by simp only [Fields.pyEncFields, e1, e], ?_, ?_⟩
      · simp only [Fields.wire, Fields.ofPy]
        apply o1.append
        rw [hpos] at o; exact o
      · simp only [Fields.wire, Fields.ofPy, Fields.sum, List.length_append]; omega
end

/-! ### encode_size -/

theorem pyLenBytes_eq {n : Nat} (h : n ≤ maxInt) : pyLenBytes n = 1 + lenExtra n := by
  have hm : maxInt = 2 ^ 63 - 1 := rfl
  have key : ∀ (j m : Nat), m < 2 ^ (7 * (j + 1)) → j ≤ 9 →
      ((List.range j).map (fun i => if m >>> ((i + 1) * 7) = 0 then 0 else 1)).sum = lenExtra m := by
    intro j
    induction j with
    | zero =>
      intro m hm _
      have : m >>> 7 = 0 := by rw [Nat.shiftRight_eq_div_pow]; exact Nat.div_eq_of_lt (by simpa using hm)
      rw [lenExtra, dif_pos this]; rfl
    | succ j ih =>
      intro m hm hj
      rw [List.range_succ_eq_map, List.map_cons, List.map_map, List.sum_cons]
      have hc : ((List.range j).map ((fun i => if m >>> ((i + 1) * 7) = 0 then 0 else 1) ∘ Nat.succ)) =
          (List.range j).map (fun i => if (m >>> 7) >>> ((i + 1) * 7) = 0 then 0 else 1) := by
        apply List.map_congr_left
        intro i _
        simp only [Function.comp]
        rw [← Nat.shiftRight_add]
        have : 7 + (i + 1) * 7 = (i.succ + 1) * 7 := by simp only [Nat.succ_eq_add_one]; omega
        rw [this]
      have hm' : m >>> 7 < 2 ^ (7 * (j + 1)) := by
        rw [Nat.shiftRight_eq_div_pow]
        apply Nat.div_lt_of_lt_mul
        have : 7 * (j + 1 + 1) = 7 + 7 * (j + 1) := by omega
        rw [this, Nat.pow_add] at hm
        exact hm
      rw [hc, ih _ hm' (by omega)]
      simp only [Nat.zero_add, Nat.one_mul]
      by_cases h0 : m >>> 7 = 0
      · rw [h0]; rw [lenExtra.eq_def m, dif_pos h0]
        rw [lenExtra, dif_pos (by decide)]; simp
      · rw [if_neg h0, lenExtra.eq_def m, dif_neg h0]
  unfold pyLenBytes
  rw [key 9 n (by have : (2:Nat) ^ 63 ≤ 2 ^ (7 * (9 + 1)) := Nat.pow_le_pow_right (by omega) (by omega); omega) (by omega)]

mutual
  theorem Ty.pySizeExtra_eq : ∀ (t : Ty) (v : t.PyVal), t.PyValid v → t.pySizeExtra v = t.sizeExtra (t.ofPy v)
    | .sc s, (v : Int) => fun _ => by simp only [Ty.pySizeExtra, Ty.sizeExtra]
    | .str, (v : List Byte) => fun _ => by simp only [Ty.pySizeExtra, Ty.sizeExtra, Ty.ofPy]
    | .bytes, (v : List Byte) => fun h => by
      simp only [Ty.pySizeExtra, Ty.sizeExtra, Ty.ofPy]
      rw [pyLenBytes_eq h]; omega
    | .struct fs, v => fun h => by
      simp only [Ty.pySizeExtra, Ty.sizeExtra, Ty.ofPy, Fields.pySizeExtra_eq fs v h]
  theorem Fields.pySizeExtra_eq : ∀ (fs : Fields) (v : fs.PyVal), fs.PyValid v →
      fs.pySizeExtra v = fs.sizeExtra (fs.ofPy v)
    | .nil, _ => fun _ => rfl
    | .void _ r, v => fun h => by
      simp only [Fields.pySizeExtra, Fields.sizeExtra, Fields.ofPy]; exact Fields.pySizeExtra_eq r v h
    | .const _ _ _ _ r, v => fun h => by
      simp only [Fields.pySizeExtra, Fields.sizeExtra, Fields.ofPy]; exact Fields.pySizeExtra_eq r v h
    | .one t _ _ r, (v : t.PyVal × r.PyVal) => fun h => by
      simp only [Fields.pySizeExtra, Fields.sizeExtra, Fields.ofPy]
      rw [Ty.pySizeExtra_eq t v.1 h.1, Fields.pySizeExtra_eq r v.2 h.2]
    | .arr t len _ _ r, (v : List t.PyVal × r.PyVal) => fun h => by
      simp only [Fields.pySizeExtra, Fields.sizeExtra, Fields.ofPy]
      rw [Fields.pySizeExtra_eq r v.2 h.2.2, List.map_map]
      congr 2
      apply List.map_congr_left
      intro x hx
      exact Ty.pySizeExtra_eq t x (h.2.1 x hx)
end

theorem Fields.pyEncodeSize_eq (fs : Fields) (v : fs.PyVal) (h : fs.PyValid v) :
    fs.pyEncodeSize v = fs.encodeSize (fs.ofPy v) := by
  unfold Fields.pyEncodeSize Fields.encodeSize
  rw [Fields.pySizeExtra_eq fs v h]

/-- `encode(buffer)` on a buffer that is large enough. -/
theorem Fields.pyEncodeTo_spec (c : PyCfg) {fs : Fields} (h : fs.accepted = true) {v : fs.PyVal}
    (hv : fs.PyValid v) {d : Buf} (hd : fs.pyEncodeSize v ≤ d.length) :
    ∃ d', fs.pyEncodeTo c v d = some (d', fs.pyEncodeSize v) ∧ Overlay d d' 0 (fs.wire (fs.ofPy v)) := by
  rw [Fields.pyEncodeSize_eq fs v hv] at hd ⊢
  obtain ⟨h1, h2, _, _⟩ := Fields.accepted_facts h
  obtain ⟨hl, d', e, o⟩ := Fields.encodeTo_spec flatCfg h (Fields.PyValid.flat fs v hv) hd
  obtain ⟨d2, off2, e2, o2, l2⟩ := Fields.pyEncFields_spec c fs v 0 d 0 h1 hv (by omega)
  refine ⟨d2, ?_, by simpa using o2⟩
  simp only [Fields.pyEncodeTo, e2]
  have : off2 + fs.sum / 8 = fs.encodeSize (fs.ofPy v) := by omega
  rw [this]

end Bubbler
