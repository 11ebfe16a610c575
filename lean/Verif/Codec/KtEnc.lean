import Verif.Codec.KtProofs
import Verif.Codec.PyEnc

set_option linter.unusedSimpArgs false
namespace Bubbler

/-! ### Legal Kotlin values are legal Go values -/

mutual
  theorem Ty.KtLegal.valid (c : Cfg) (b : Bool) : ∀ (t : Ty) (lp : Bool) (v : t.KtVal), t.KtLegal v → t.Valid c b lp (t.ofKt v)
    | .sc (.prim p), lp, (v : BitVec p.width) => by
      intro h hb _
      have : p = .bool := by
        cases p <;> simp_all [Sc.isBool]
      exact h this
    | .sc (.enum b), lp, (v : Option (BitVec 64)) => by intro _ h; simp [Sc.isBool] at h
    | .str, _, (v : List Byte) => fun _ => trivial
    | .bytes, _, (v : List Byte) => fun h => by
      have h : v.length < 2 ^ 31 := h
      show v.length ≤ maxInt
      have : maxInt = 2 ^ 63 - 1 := rfl
      omega
    | .struct fs, _, v => fun h => Fields.KtLegal.valid c b fs v h
  theorem Fields.KtLegal.valid (c : Cfg) (b : Bool) : ∀ (fs : Fields) (v : fs.KtVal), fs.KtLegal v → fs.Valid c b (fs.ofKt v)
    | .nil, _ => fun _ => trivial
    | .void _ r, v => fun h => Fields.KtLegal.valid c b r v h
    | .const _ _ _ _ r, v => fun h => Fields.KtLegal.valid c b r v h
    | .one t _ _ r, (v : t.KtVal × r.KtVal) => fun h =>
      ⟨Ty.KtLegal.valid c b t false v.1 h.1, Fields.KtLegal.valid c b r v.2 h.2⟩
    | .arr t len _ _ r, (v : List t.KtVal × r.KtVal) => fun h => by
      refine ⟨by simp only [Fields.ofKt, List.length_map]; exact h.1, ?_, Fields.KtLegal.valid c b r v.2 h.2.2⟩
      intro x hx
      obtain ⟨y, hy, rfl⟩ := List.mem_map.mp hx
      exact Ty.KtLegal.valid c b t _ y (h.2.1 y hy)
end

/-! ### encodeSize -/

theorem ktVarUIntSize_eq (n : Nat) : ktVarUIntSize n = 1 + lenExtra n := by
  induction n using varint.induct with
  | case1 n h =>
    rw [ktVarUIntSize, dif_neg (by omega), lenExtra, dif_pos (by rw [Nat.shiftRight_eq_div_pow]; omega)]
  | case2 n h ih =>
    have e : n >>> 7 = n / 128 := by rw [Nat.shiftRight_eq_div_pow]
    rw [ktVarUIntSize, dif_pos (by omega), lenExtra, dif_neg (by omega), e, ih]

mutual
  theorem Ty.ktSizeOf_eq : ∀ (t : Ty) (v : t.KtVal), t.ktSizeOf v = t.sizeExtra (t.ofKt v)
    | .sc (.prim p), v => by simp only [Ty.ktSizeOf, Ty.sizeExtra]
    | .sc (.enum b), v => by simp only [Ty.ktSizeOf, Ty.sizeExtra]
    | .str, (v : List Byte) => by simp only [Ty.ktSizeOf, Ty.sizeExtra, Ty.ofKt]
    | .bytes, (v : List Byte) => by
      simp only [Ty.ktSizeOf, Ty.sizeExtra, Ty.ofKt, ktVarUIntSize_eq]; omega
    | .struct fs, v => by
      simp only [Ty.ktSizeOf, Ty.sizeExtra, Ty.ofKt, Fields.ktSizeFields_eq fs v]
      try rfl
  theorem Fields.ktSizeFields_eq : ∀ (fs : Fields) (v : fs.KtVal), fs.ktSizeFields v = fs.sizeExtra (fs.ofKt v)
    | .nil, _ => rfl
    | .void _ r, v => by
      simp only [Fields.ktSizeFields, Fields.sizeExtra, Fields.ofKt]; exact Fields.ktSizeFields_eq r v
    | .const _ _ _ _ r, v => by
      simp only [Fields.ktSizeFields, Fields.sizeExtra, Fields.ofKt]; exact Fields.ktSizeFields_eq r v
    | .one t _ _ r, (v : t.KtVal × r.KtVal) => by
      simp only [Fields.ktSizeFields, Fields.sizeExtra, Fields.ofKt]
      rw [Ty.ktSizeOf_eq t v.1, Fields.ktSizeFields_eq r v.2]
    | .arr t len _ _ r, (v : List t.KtVal × r.KtVal) => by
      simp only [Fields.ktSizeFields, Fields.sizeExtra, Fields.ofKt]
      rw [Fields.ktSizeFields_eq r v.2, List.map_map]
      congr 2
      apply List.map_congr_left
      intro x _
      exact Ty.ktSizeOf_eq t x
end

/-- Kotlin's `encodeSize` is Go's. -/
theorem Fields.ktEncodeSize_eq (fs : Fields) (v : fs.KtVal) : fs.ktEncodeSize v = fs.encodeSize (fs.ofKt v) := by
  unfold Fields.ktEncodeSize Fields.encodeSize
  rw [Fields.ktSizeFields_eq]

/-! ### Strings and byte sequences -/

theorem ktCopyInto_eq {s : List Byte} {d : Buf} {pos : Nat} (h : pos + s.length ≤ d.length) :
    ktCopyInto s d pos = d.copyAt pos s := by
  unfold ktCopyInto Buf.copyAt
  rw [if_pos h, if_pos (by omega), List.take_of_length_le (l := s) (by omega)]

theorem ktEncString_spec (s : List Byte) (base k : Nat) (d : Buf) (off : Nat)
    (h : base + off + k + (s.length + 1) ≤ d.length) :
    ∃ d', ktEncString s base k d off = some (d', off + (s.length + 1)) ∧
      Overlay d d' (8 * (base + off + k)) (byteWire (s ++ [0#8])) := by
  obtain ⟨d1, h1, o1⟩ := Overlay.copyAt (d := d) (k := base + off + k) (s := s) (by omega)
  obtain ⟨d2, h2, o2⟩ := Overlay.wr (d := d1) (k := base + off + k + s.length) (b := 0#8) (by rw [o1.1]; omega)
  refine ⟨d2, ?_, ?_⟩
  · simp only [ktEncString, ktCopyInto_eq (show base + off + k + s.length ≤ d.length by omega), h1, h2]
  · rw [byteWire_append]
    apply o1.append
    rw [byteWire_length]
    have : 8 * (base + off + k) + 8 * s.length = 8 * (base + off + k + s.length) := by omega
    rwa [this]

theorem ktEncLen_spec (base k n : Nat) : ∀ (d : Buf) (off : Nat), base + off + k + (varint n).length ≤ d.length →
    ∃ d', ktEncLen base k n d off = some (d', off + (varint n).length) ∧
      Overlay d d' (8 * (base + off + k)) (byteWire (varint n)) := by
  induction n using varint.induct with
  | case1 n hn =>
    intro d off h
    have e : varint n = [BitVec.ofNat 8 n] := by rw [varint, if_pos hn]
    rw [e] at h ⊢
    have e2 : n >>> 7 = 0 := by rw [Nat.shiftRight_eq_div_pow]; omega
    have hm : n &&& 0x7F = n := by rw [and7F]; omega
    obtain ⟨d', h1, h2⟩ := Overlay.wr (d := d) (k := base + off + k) (b := BitVec.ofNat 8 n) (by simp at h; omega)
    refine ⟨d', ?_, h2⟩
    rw [ktEncLen]
    simp only [e2, ne_eq, not_true_eq_false, if_false, hm, h1, dif_neg, not_false_eq_true, List.length_singleton]
  | case2 n hn ih =>
    intro d off h
    have e : varint n = BitVec.ofNat 8 (n % 128 + 128) :: varint (n / 128) := by rw [varint, if_neg hn]
    rw [e] at h ⊢
    simp only [List.length_cons] at h ⊢
    have hm : n &&& 0x7F ||| 0x80 = n % 128 + 128 := by rw [and7F, or80 _ (by omega)]
    have e2 : n >>> 7 = n / 128 := by rw [Nat.shiftRight_eq_div_pow]
    have e3 : n / 128 ≠ 0 := by omega
    obtain ⟨d0, h0, o0⟩ := Overlay.wr (d := d) (k := base + off + k) (b := BitVec.ofNat 8 (n % 128 + 128)) (by omega)
    obtain ⟨d1, h1, o1⟩ := ih d0 (off + 1) (by rw [o0.1]; omega)
    refine ⟨d1, ?_, ?_⟩
    · rw [ktEncLen]
      simp only [e2, if_pos e3, dif_pos e3, hm, h0, h1]
      congr 2; omega
    · have := o0.append (d2 := d1) (b := byteWire (varint (n / 128))) (by
        have e5 : 8 * (base + off + k) + (byteWire [BitVec.ofNat 8 (n % 128 + 128)]).length = 8 * (base + (off + 1) + k) := by
          simp; omega
        rw [e5]; exact o1)
      rw [← byteWire_append] at this
      simpa using this

theorem ktEncBytes_spec (s : List Byte) (base k : Nat) (d : Buf) (off : Nat)
    (h : base + off + k + ((varint s.length).length + s.length) ≤ d.length) :
    ∃ d', ktEncBytes s base k d off = some (d', off + ((varint s.length).length + s.length)) ∧
      Overlay d d' (8 * (base + off + k)) (byteWire (varint s.length ++ s)) := by
  obtain ⟨d2, h1, o2⟩ := ktEncLen_spec base k s.length d off (by omega)
  obtain ⟨d3, h4, o3⟩ := Overlay.copyAt (d := d2) (k := base + (off + (varint s.length).length) + k) (s := s)
    (by rw [o2.1]; omega)
  refine ⟨d3, ?_, ?_⟩
  · simp only [ktEncBytes, h1]
    rw [ktCopyInto_eq (by rw [o2.1]; omega), h4]
    simp only [Option.some.injEq, Prod.mk.injEq, true_and]; omega
  · rw [byteWire_append]
    apply o2.append
    rw [byteWire_length]
    have : 8 * (base + off + k) + 8 * (varint s.length).length = 8 * (base + (off + (varint s.length).length) + k) := by
      omega
    rwa [this]

/-! ### Scalars -/

theorem getLsbD_ext_lt {w : Nat} (x : BitVec w) (sgn : Bool) {k : Nat} (hk : k < w) (hw : w ≤ 64) :
    (if sgn then x.signExtend 64 else x.setWidth 64 : BitVec 64).getLsbD k = x.getLsbD k := by
  have h64 : k < 64 := by omega
  cases sgn
  · simp [h64]
  · rw [if_pos rfl, BitVec.getLsbD_signExtend]
    simp only [h64, decide_true, Bool.true_and, hk, if_true]

theorem Sc.ktULong_bits {s : Sc} {n : Nat} (h : s.wf n = true) (x : s.KtVal) (hx : (Ty.sc s).KtLegal x) :
    ∃ u, s.ktULong x = some u ∧
      ∀ k, k < n → u.getLsbD k = ((Ty.sc s).ofKt x : BitVec s.width).getLsbD k := by
  have hf := Sc.wf_facts h
  cases s with
  | prim p =>
    have hw : n ≤ p.width := hf.2.1
    have hw64 : p.width ≤ 64 := by cases p <;> decide
    simp only [Sc.ktULong]
    by_cases hb : p = .bool
    · subst hb
      rw [if_pos rfl]
      refine ⟨_, rfl, ?_⟩
      intro k hk
      have hx : (x : BitVec 8).toNat ≤ 1 := hx rfl
      have : x = 0#8 ∨ x = 1#8 := by
        have h01 : (x : BitVec 8).toNat = 0 ∨ (x : BitVec 8).toNat = 1 := by omega
        rcases h01 with h | h
        · left; exact BitVec.eq_of_toNat_eq h
        · right; exact BitVec.eq_of_toNat_eq h
      have hk8 : k < 8 := by simp only [Prim.width] at hw; omega
      simp only [Ty.ofKt]
      rcases this with h | h <;> subst h
      · show BitVec.getLsbD (if (0#8 : BitVec 8) = 0#8 then 0#64 else 1#64) k = BitVec.getLsbD 0#8 k
        simp
      · show BitVec.getLsbD (if (1#8 : BitVec 8) = 0#8 then 0#64 else 1#64) k = BitVec.getLsbD 1#8 k
        rw [if_neg (by decide)]
        simp [BitVec.getLsbD_one]
    · rw [if_neg hb]
      refine ⟨_, rfl, fun k hk => ?_⟩
      exact getLsbD_ext_lt _ _ (by omega) hw64
  | enum b =>
    have hx : (x : Option (BitVec 64)) ≠ none := hx
    cases e : (x : Option (BitVec 64)) with
    | none => exact absurd e hx
    | some y =>
      refine ⟨y, rfl, fun k hk => ?_⟩
      have hkw : k < (Sc.enum b).width := Nat.lt_of_lt_of_le hk hf.2.1
      simp only [Ty.ofKt, Option.getD_some, BitVec.getLsbD_setWidth, hkw, decide_true, Bool.true_and]

theorem ktWrite_overlay {s : Sc} {n : Nat} (h : s.wf n = true) (big : Bool) (x : s.KtVal) (hx : (Ty.sc s).KtLegal x)
    (pos : Nat) (d : Buf) (hd : pos + n ≤ 8 * d.length) :
    ∃ u d', s.ktULong x = some u ∧ ktWriteFieldBits d pos n u big = some d' ∧
      Overlay d d' pos (scWire n big ((Ty.sc s).ofKt x : BitVec s.width)) := by
  have hf := Sc.wf_facts h
  obtain ⟨u, e, hu⟩ := Sc.ktULong_bits h x hx
  obtain ⟨d', e', w⟩ := ktWriteFieldBits_spec d pos n u big (by omega) hd
  exact ⟨u, d', e, e', Overlay.ofWrites (w.congr (fun j hj => hu _ (valueBit_lt hj)))⟩

theorem ktConst_bits {p : Prim} {n val k : Nat} (hn : n ≤ p.width) (hk : k < n) :
    (ktConst p val).getLsbD k = (BitVec.ofNat 64 val).getLsbD k := by
  have hw64 : p.width ≤ 64 := by cases p <;> decide
  unfold ktConst
  rw [getLsbD_ext_lt _ _ (by omega) hw64]
  simp only [BitVec.getLsbD_ofNat]
  have : k < p.width := by omega
  have : k < 64 := by omega
  simp [*]

/-! ### encode -/

mutual
  /-- When Kotlin's omission of `offset` is harmless.  `mv`: a field of dynamic type came before (so `offset`
  may be non-zero); `dyn`: the flag of `ForEachField`.  Positions of scalars, constants and structs use
  `offset` only if `dyn`; strings, bytes and arrays of dynamic type always do. -/
  def Ty.ktSafe : Ty → Bool
    | .struct fs => fs.ktSafe false false
    | _ => true
  def Fields.ktSafe : Fields → (mv dyn : Bool) → Bool
    | .nil, _, _ => true
    | .void _ r, mv, dyn => r.ktSafe mv dyn
    | .const _ _ _ _ r, mv, dyn => (!mv || dyn) && r.ktSafe mv dyn
    | .one t bits _ r, mv, dyn => t.ktSafe && (bits.isNone || !mv || dyn) && r.ktSafe (mv || t.dynamic) (dyn || bits.isNone)
    | .arr t _ bits _ r, mv, dyn => t.ktSafe && (bits.isNone || !mv || dyn) && r.ktSafe (mv || t.dynamic) (dyn || bits.isNone)
end

/-- What writing one value achieves. -/
def KtElemEnc (t : Ty) (n : Nat) (big : Bool) (x : t.KtVal) (base pos : Nat) (d : Buf) (off : Nat)
    (res : Option (Buf × Nat)) : Prop :=
  ∃ d' off', res = some (d', off') ∧ Overlay d d' (8 * (base + off) + pos) (t.wire n big (t.ofKt x)) ∧
    8 * off' + t.fixed n = 8 * off + (t.wire n big (t.ofKt x)).length ∧ (t.dynamic = false → off' = off)

theorem ktEncIdx_spec (t : Ty) (f : Nat → t.KtVal → Buf → Nat → Option (Buf × Nat)) (eb base start : Nat) (big dyn : Bool)
    (hfix : t.fixed eb = eb) (xs : List t.KtVal) : ∀ (i : Nat) (d : Buf) (off : Nat),
    (∀ x ∈ xs, ∀ i d off, ktOff (dyn || t.dynamic) off = off →
      8 * (base + off) + (start + i * eb) + (t.wire eb big (t.ofKt x)).length ≤ 8 * d.length →
      KtElemEnc t eb big x base (start + i * eb) d off (f i x d off)) →
    ktOff (dyn || t.dynamic) off = off →
    8 * (base + off) + (start + i * eb) + (((xs.map (fun x => t.ofKt x)).map (fun x => t.wire eb big x)).flatten).length ≤
      8 * d.length →
    ∃ d' off', encIdx f i xs d off = some (d', off') ∧
      Overlay d d' (8 * (base + off) + (start + i * eb)) (((xs.map (fun x => t.ofKt x)).map (fun x => t.wire eb big x)).flatten) ∧
      8 * off' + xs.length * eb =
        8 * off + (((xs.map (fun x => t.ofKt x)).map (fun x => t.wire eb big x)).flatten).length ∧
      (t.dynamic = false → off' = off) := by
  induction xs with
  | nil =>
    intro i d off _ _ _
    exact ⟨d, off, rfl, by simpa using Overlay.nil _ _, by simp, fun _ => rfl⟩
  | cons x xs ih =>
    intro i d off hf ho hd
    simp only [List.map_cons, List.flatten_cons, List.length_append] at hd
    obtain ⟨d1, off1, e1, o1, l1, q1⟩ := hf x (by simp) i d off ho (by omega)
    rw [hfix] at l1
    have hpos : 8 * (base + off1) + (start + (i + 1) * eb) =
        8 * (base + off) + (start + i * eb) + (t.wire eb big (t.ofKt x)).length := by
      rw [Nat.add_mul, Nat.one_mul]; omega
    have ho1 : ktOff (dyn || t.dynamic) off1 = off1 := by
      cases ht : t.dynamic
      · rw [q1 ht, ← ht]; exact ho
      · simp [ktOff]
    obtain ⟨d2, off2, e2, o2, l2, q2⟩ := ih (i + 1) d1 off1 (fun y hy => hf y (by simp [hy])) ho1
      (by rw [hpos, o1.1]; omega)
    refine ⟨d2, off2, ?_, ?_, ?_, fun h => (q2 h).trans (q1 h)⟩
    · simp only [encIdx, e1, e2]
    · simp only [List.map_cons, List.flatten_cons]
      rw [hpos] at o2
      exact o1.append o2
    · simp only [List.map_cons, List.flatten_cons, List.length_append, List.length_cons, Nat.add_mul, Nat.one_mul]
      omega

theorem ktOff_of {mv dyn : Bool} {off : Nat} (h : (!mv || dyn) = true) (h0 : mv = false → off = 0) : ktOff dyn off = off := by
  cases mv
  · rw [h0 rfl]; simp [ktOff]
  · simp at h; rw [h]; rfl

mutual
  theorem Ty.ktEnc_spec : ∀ (t : Ty) (big arr : Bool) (v : t.KtVal) (base start n : Nat) (dyn : Bool) (i : Nat) (d : Buf) (off : Nat),
      t.wf = true → t.elemOk arr (start + i * n) n → (i ≠ 0 → t.elemOk arr start n) → t.ktSafe = true → t.KtLegal v →
      (t = .str ∨ t = .bytes ∨ ktOff dyn off = off) → (t.fixed n ≠ n → i = 0) →
      8 * (base + off) + (start + i * n) + (t.wire n big (t.ofKt v)).length ≤ 8 * d.length →
      KtElemEnc t n big v base (start + i * n) d off (t.ktEnc big v base start n dyn i d off)
    | .sc s, big, arr, (v : s.KtVal), base, start, n, dyn, i, d, off => by
      intro _ hok _ _ hv ho _ hd
      have ho : ktOff dyn off = off := by simpa using ho
      simp only [Ty.elemOk] at hok
      have hlen : ((Ty.sc s).wire n big ((Ty.sc s).ofKt v)).length = n := scWire_length (w := s.width) n big _
      rw [hlen] at hd
      have hpos : ktBitBase base dyn off start + i * n = 8 * (base + off) + (start + i * n) := by
        unfold ktBitBase; rw [ho]; omega
      obtain ⟨u, d', e, e', o⟩ := ktWrite_overlay hok.1 big v hv (ktBitBase base dyn off start + i * n) d
        (by rw [hpos]; omega)
      refine ⟨d', off, by simp only [Ty.ktEnc, e, e'], ?_, ?_, fun _ => rfl⟩
      · rw [hpos] at o; exact o
      · rw [hlen]; simp only [Ty.fixed]
    | .str, big, arr, (v : List Byte), base, start, n, dyn, i, d, off => by
      intro _ hok _ _ _ _ hi hd
      have hz : i * n = 0 := by
        by_cases hn : n = 0
        · simp [hn]
        · rw [hi (by simp only [Ty.fixed]; omega)]; simp
      simp only [Ty.elemOk] at hok
      rw [hz] at hd hok ⊢
      simp only [Ty.wire, Ty.ofKt, byteWire_length, List.length_append, List.length_cons, List.length_nil] at hd
      obtain ⟨d', e, o⟩ := ktEncString_spec v base (start / 8) d off (by omega)
      refine ⟨d', _, by simp only [Ty.ktEnc, e]; rfl, ?_, ?_, by simp [Ty.dynamic]⟩
      · simp only [Ty.wire, Ty.ofKt]
        have : 8 * (base + off + start / 8) = 8 * (base + off) + (start + 0) := by omega
        rwa [this] at o
      · simp only [Ty.fixed, Ty.wire, Ty.ofKt, byteWire_length, List.length_append, List.length_cons, List.length_nil]
        omega
    | .bytes, big, arr, (v : List Byte), base, start, n, dyn, i, d, off => by
      intro _ hok _ _ _ _ hi hd
      have hz : i * n = 0 := by
        by_cases hn : n = 0
        · simp [hn]
        · rw [hi (by simp only [Ty.fixed]; omega)]; simp
      simp only [Ty.elemOk] at hok
      rw [hz] at hd hok ⊢
      simp only [Ty.wire, Ty.ofKt, byteWire_length, List.length_append] at hd
      obtain ⟨d', e, o⟩ := ktEncBytes_spec v base (start / 8) d off (by omega)
      refine ⟨d', _, by simp only [Ty.ktEnc, e]; rfl, ?_, ?_, by simp [Ty.dynamic]⟩
      · simp only [Ty.wire, Ty.ofKt]
        have : 8 * (base + off + start / 8) = 8 * (base + off) + (start + 0) := by omega
        rwa [this] at o
      · simp only [Ty.fixed, Ty.wire, Ty.ofKt, byteWire_length, List.length_append]
        omega
    | .struct fs, big, arr, v, base, start, n, dyn, i, d, off => by
      intro hwf hok hok0 hs hv ho hi hd
      have ho : ktOff dyn off = off := by simpa using ho
      have hwl := Ty.wire_length flatCfg false (.struct fs) arr (start + i * n) n big false ((Ty.struct fs).ofKt v) hwf hok
        (Ty.KtLegal.valid flatCfg false (.struct fs) false v hv)
      simp only [Ty.elemOk] at hok hok0
      have hes : fs.ktEncodeSize v = fs.sum / 8 + fs.sizeExtra (fs.ofKt v) ∨ fs.dynamic = false := by
        unfold Fields.ktEncodeSize
        cases hdyn : fs.dynamic
        · exact Or.inr rfl
        · left; rw [if_pos rfl]
          exact congrArg (fun x => fs.sum / 8 + x) (Fields.ktSizeFields_eq fs v)
      simp only [Ty.wf, Bool.and_eq_true, decide_eq_true_eq] at hwf
      simp only [Ty.wire, Ty.ofKt] at hd hwl
      have hb : 8 * (base + ktOff dyn off + start / 8 + i * (n / 8)) = 8 * (base + off) + (start + i * n) := by
        rw [ho]
        by_cases hi0 : i = 0
        · subst hi0; simp only [Nat.zero_mul, Nat.add_zero] at hok ⊢; omega
        · have h8 := hok0 hi0
          have hn8 : n % 8 = 0 := by
            by_cases hf : (Ty.struct fs).fixed n = n
            · simp only [Ty.fixed] at hf
              split at hf <;> omega
            · exact absurd (hi hf) hi0
          have : n = 8 * (n / 8) := by omega
          have e2 : i * n = 8 * (i * (n / 8)) := by
            conv => lhs; rw [this]
            rw [Nat.mul_left_comm]
          omega
      obtain ⟨d', o, e, ov, l⟩ := Fields.ktEncFields_spec fs v (base + ktOff dyn off + start / 8 + i * (n / 8)) 0 false false d 0
        hwf.1 (by simpa [Ty.ktSafe] using hs) hv (fun _ => rfl) (by omega)
      rw [show ∀ a, 8 * (a + 0) + 0 = 8 * a from fun a => by omega, hb] at ov
      refine ⟨d', (if fs.dynamic then off + fs.ktEncodeSize v else off), ?_, ?_, ?_, ?_⟩
      · simp only [Ty.ktEnc, e]
      · simpa only [Ty.wire, Ty.ofKt] using ov
      · simp only [Ty.fixed, Ty.wire, Ty.ofKt] at hwl ⊢
        have hse := Ty.sizeExtra_static (.struct fs) (fs.ofKt v)
        simp only [Ty.dynamic] at hse
        simp only [Ty.sizeExtra] at hwl hse
        by_cases hdyn : fs.dynamic = true
        · simp only [hdyn, if_true] at hwl ⊢
          rcases hes with hes | hes
          · omega
          · rw [hdyn] at hes; cases hes
        · simp only [hdyn, if_false] at hwl hse ⊢
          simp only [Bool.false_eq_true, if_false] at hwl hse ⊢
          omega
      · intro h
        simp only [Ty.dynamic] at h
        simp [h]
  theorem Fields.ktEncFields_spec : ∀ (fs : Fields) (v : fs.KtVal) (base start : Nat) (mv dyn : Bool) (d : Buf) (off : Nat),
      fs.wf start = true → fs.ktSafe mv dyn = true → fs.KtLegal v → (mv = false → off = 0) →
      8 * (base + off) + start + (fs.wire (fs.ofKt v)).length ≤ 8 * d.length →
      ∃ d' off', fs.ktEncFields v base start dyn d off = some (d', off') ∧
        Overlay d d' (8 * (base + off) + start) (fs.wire (fs.ofKt v)) ∧
        8 * off' + fs.sum = 8 * off + (fs.wire (fs.ofKt v)).length
    | .nil, v, base, start, mv, dyn, d, off => by
      intro _ _ _ _ _
      exact ⟨d, off, rfl, by simpa [Fields.wire] using Overlay.nil _ _, by simp [Fields.wire, Fields.sum]⟩
    | .void n r, v, base, start, mv, dyn, d, off => by
      intro h hs hv hm hd
      simp only [Fields.wire, Fields.ofKt, List.length_append, List.length_replicate] at hd
      obtain ⟨d', off', e, o, l⟩ := Fields.ktEncFields_spec r v base (start + n) mv dyn d off (by simpa [Fields.wf] using h)
        (by simpa [Fields.ktSafe] using hs) hv hm (by omega)
      refine ⟨d', off', by simp only [Fields.ktEncFields, e], ?_, ?_⟩
      · simp only [Fields.wire, Fields.ofKt]
        apply (Overlay.none d _ n).append
        rw [List.length_replicate, Nat.add_assoc]; exact o
      · simp only [Fields.wire, Fields.ofKt, Fields.sum, List.length_append, List.length_replicate]; omega
    | .const p n big val r, v, base, start, mv, dyn, d, off => by
      intro h hs hv hm hd
      simp only [Fields.wf, Bool.and_eq_true, decide_eq_true_eq] at h
      obtain ⟨⟨⟨⟨⟨⟨h1, h2⟩, h3⟩, h4⟩, h5⟩, h6⟩, h7⟩ := h
      simp only [Fields.ktSafe, Bool.and_eq_true] at hs
      have ho := ktOff_of hs.1 hm
      have hw64 : p.width ≤ 64 := by cases p <;> decide
      simp only [Fields.wire, Fields.ofKt, List.length_append, scWire_length] at hd
      have hpos : ktBitBase base dyn off start = 8 * (base + off) + start := by
        unfold ktBitBase; rw [ho]; omega
      obtain ⟨d1, e1, w1⟩ := ktWriteFieldBits_spec d (ktBitBase base dyn off start) n (ktConst p val) big (by omega)
        (by rw [hpos]; omega)
      rw [hpos] at w1
      have o1 : Overlay d d1 (8 * (base + off) + start) (scWire n big (BitVec.ofNat 64 val)) :=
        Overlay.ofWrites (w1.congr (fun j hj => ktConst_bits h3 (valueBit_lt hj)))
      obtain ⟨d', off', e, o, l⟩ := Fields.ktEncFields_spec r v base (start + n) mv dyn d1 off h7 hs.2 hv hm
        (by rw [o1.1]; omega)
      refine ⟨d', off', by simp only [Fields.ktEncFields, e1, e], ?_, ?_⟩
      · simp only [Fields.wire, Fields.ofKt]
        apply o1.append
        rw [scWire_length, Nat.add_assoc]; exact o
      · simp only [Fields.wire, Fields.ofKt, Fields.sum, List.length_append, scWire_length]; omega
    | .one t bits big r, v, base, start, mv, dyn, d, off => by
      intro h hs hv hm hd
      obtain ⟨h1, h2, h3, h4, h5⟩ := wf_one h
      have hkind : t = .str ∨ t = .bytes ∨ bits.isNone = false := by
        cases t with
        | str => exact Or.inl rfl
        | bytes => exact Or.inr (Or.inl rfl)
        | sc s => cases bits with
          | none => simp [Fields.wf] at h
          | some n => simp
        | struct s => cases bits with
          | none => simp [Fields.wf] at h
          | some n => simp
      obtain ⟨v1, v2⟩ := v
      obtain ⟨hv1, hv2⟩ := hv
      simp only at hv1 hv2
      simp only [Fields.ktSafe, Bool.and_eq_true] at hs
      obtain ⟨⟨hs1, hs2⟩, hs3⟩ := hs
      simp only [Fields.wire, Fields.ofKt, List.length_append] at hd
      have ho : t = .str ∨ t = .bytes ∨ ktOff dyn off = off := by
        rcases hkind with k | k | k
        · exact Or.inl k
        · exact Or.inr (Or.inl k)
        · rw [k] at hs2
          exact Or.inr (Or.inr (ktOff_of (by simpa using hs2) hm))
      obtain ⟨d1, off1, e1, o1, l1, q1⟩ := Ty.ktEnc_spec t big false v1 base start (bits.getD 0) dyn 0 d off h1
        (by simpa using h3) (fun h => absurd rfl h) hs1 hv1 ho (fun _ => rfl) (by simp only [Nat.zero_mul, Nat.add_zero]; omega)
      simp only [Nat.zero_mul, Nat.add_zero] at o1
      have hgap : (if t.dynamic = true then List.replicate (bits.getD 0) none else ([] : List (Option Bool))).length =
          (if t.dynamic = true then bits.getD 0 else 0) := by split <;> simp
      have hpos : 8 * (base + off1) + (start + bits.getD 0) =
          8 * (base + off) + start + ((t.wire (bits.getD 0) big (t.ofKt v1)).length + (if t.dynamic = true then bits.getD 0 else 0)) := by
        omega
      obtain ⟨d', off', e, o, l⟩ := Fields.ktEncFields_spec r v2 base (start + bits.getD 0) (mv || t.dynamic) (dyn || bits.isNone) d1 off1
        h2 hs3 hv2 (by
          intro hmv
          simp only [Bool.or_eq_false_iff] at hmv
          rw [q1 hmv.2]; exact hm hmv.1)
        (by rw [hpos, o1.1]; omega)
      refine ⟨d', off', by simp only [Fields.ktEncFields, e1, e], ?_, ?_⟩
      · simp only [Fields.wire, Fields.ofKt]
        refine Overlay.append (d1 := d1) (o1.append ?_) ?_
        · split
          · exact Overlay.none _ _ _
          · exact Overlay.nil _ _
        · rw [List.length_append, hgap]
          rw [hpos] at o; exact o
      · simp only [Fields.wire, Fields.ofKt, Fields.sum, List.length_append, hgap]; omega
    | .arr t len bits big r, v, base, start, mv, dyn, d, off => by
      intro h hs hv hm hd
      obtain ⟨h0, h1, h2, h3, h4, h5, h7, h6⟩ := wf_arr h
      obtain ⟨v1, v2⟩ := v
      obtain ⟨hl, hv1, hv2⟩ := hv
      simp only at hl hv1 hv2
      simp only [Fields.ktSafe, Bool.and_eq_true] at hs
      obtain ⟨⟨hs1, hs2⟩, hs3⟩ := hs
      simp only [Fields.wire, Fields.ofKt, List.length_append] at hd
      have ho : ktOff (dyn || t.dynamic) off = off := by
        cases hb : bits.isNone
        · have ht : t.dynamic = false := by
            cases ht : t.dynamic
            · rfl
            · rw [h7.mpr ht] at hb; cases hb
          rw [hb] at hs2
          rw [ht, Bool.or_false]
          exact ktOff_of (by simpa using hs2) hm
        · have : t.dynamic = true := h7.mp (by simpa using hb)
          simp [this, ktOff]
      have hel : ∀ x ∈ v1, ∀ i d off, ktOff (dyn || t.dynamic) off = off →
          8 * (base + off) + (start + i * (bits.getD 0 / len)) +
            (t.wire (bits.getD 0 / len) big (t.ofKt x)).length ≤ 8 * d.length →
          KtElemEnc t (bits.getD 0 / len) big x base (start + i * (bits.getD 0 / len)) d off
            (t.ktEnc big x base start (bits.getD 0 / len) (dyn || t.dynamic) (if t.dynamic then 0 else i) d off) := by
        intro x hx i d off ho hd
        have h30 := h3 0
        simp only [Nat.zero_mul, Nat.add_zero] at h30
        cases ht : t.dynamic
        · rw [ht] at ho
          exact Ty.ktEnc_spec t big true x base start _ _ i d off h1 (h3 i) (fun _ => h30) hs1 (hv1 x hx) (Or.inr (Or.inr ho))
            (fun h => absurd h4 h) hd
        · rw [ht] at ho
          have hz : bits.getD 0 / len = 0 := by rw [h7.mpr ht]; simp
          rw [hz] at hd h30 ⊢
          rw [Nat.mul_zero] at hd ⊢
          simp only [if_true]
          have := Ty.ktEnc_spec t big true x base start 0 (dyn || true) 0 d off h1 (by simpa using h30)
            (fun h => absurd rfl h) hs1 (hv1 x hx) (Or.inr (Or.inr ho)) (fun _ => rfl) (by simpa using hd)
          simpa using this
      obtain ⟨d1, off1, e1, o1, l1, q1⟩ := ktEncIdx_spec t _ _ base start big dyn h4 v1 0 d off hel ho
        (by simp only [Nat.zero_mul, Nat.add_zero]; omega)
      simp only [Nat.zero_mul, Nat.add_zero] at o1
      rw [hl, h5] at l1
      have hpos : 8 * (base + off1) + (start + bits.getD 0) = 8 * (base + off) + start +
          (((v1.map (fun x => t.ofKt x)).map (fun x => t.wire (bits.getD 0 / len) big x)).flatten).length := by omega
      obtain ⟨d', off', e, o, l⟩ := Fields.ktEncFields_spec r v2 base (start + bits.getD 0) (mv || t.dynamic) (dyn || bits.isNone) d1 off1
        h2 hs3 hv2 (by
          intro hmv
          simp only [Bool.or_eq_false_iff] at hmv
          rw [q1 hmv.2]; exact hm hmv.1)
        (by rw [hpos, o1.1]; omega)
      refine ⟨d', off', by simp only [Fields.ktEncFields, e1, e], ?_, ?_⟩
      · simp only [Fields.wire, Fields.ofKt]
        apply o1.append
        rw [hpos] at o; exact o
      · simp only [Fields.wire, Fields.ofKt, Fields.sum, List.length_append]; omega
end

mutual
  theorem Ty.ktSafe_of_noDirectDyn : ∀ (t : Ty), t.wf = true → t.noDirectDyn = true → t.ktSafe = true
    | .sc _, _, _ => rfl
    | .str, _, _ => rfl
    | .bytes, _, _ => rfl
    | .struct fs, h, hn => by
      simp only [Ty.wf, Bool.and_eq_true] at h
      exact Fields.ktSafe_of_noDirectDyn fs 0 false false h.1 hn (by simp)
  theorem Fields.ktSafe_of_noDirectDyn : ∀ (fs : Fields) (start : Nat) (mv dyn : Bool), fs.wf start = true →
      fs.noDirectDyn = true → (mv = true → dyn = true) → fs.ktSafe mv dyn = true
    | .nil, _, _, _, _, _, _ => rfl
    | .void n r, start, mv, dyn, h, hn, hm =>
      Fields.ktSafe_of_noDirectDyn r (start + n) mv dyn (by simpa [Fields.wf] using h) (by simpa [Fields.noDirectDyn] using hn) hm
    | .const p n _ _ r, start, mv, dyn, h, hn, hm => by
      simp only [Fields.wf, Bool.and_eq_true] at h
      simp only [Fields.noDirectDyn] at hn
      simp only [Fields.ktSafe, Bool.and_eq_true]
      refine ⟨?_, Fields.ktSafe_of_noDirectDyn r (start + n) mv dyn h.2 hn hm⟩
      cases mv
      · rfl
      · simp [hm rfl]
    | .one t bits big r, start, mv, dyn, h, hn, hm => by
      have hw := wf_one h
      simp only [Fields.noDirectDyn, Bool.and_eq_true] at hn
      obtain ⟨⟨n1, n2⟩, n3⟩ := hn
      have hb : t.dynamic = true → bits.isNone = true := by
        cases t with
        | sc s => intro h; cases h
        | str => cases bits with
          | none => simp
          | some n => simp [Fields.wf] at h
        | bytes => cases bits with
          | none => simp
          | some n => simp [Fields.wf] at h
        | struct s =>
          intro hd
          simp only [Ty.dynamic] at hd
          simp [hd] at n3
      simp only [Fields.ktSafe, Bool.and_eq_true]
      refine ⟨⟨Ty.ktSafe_of_noDirectDyn t hw.1 n1, ?_⟩, Fields.ktSafe_of_noDirectDyn r _ _ _ hw.2.1 n2 ?_⟩
      · cases mv
        · simp
        · simp [hm rfl]
      · intro hmv
        simp only [Bool.or_eq_true] at hmv ⊢
        rcases hmv with k | k
        · exact Or.inl (hm k)
        · exact Or.inr (hb k)
    | .arr t len bits big r, start, mv, dyn, h, hn, hm => by
      have hw := wf_arr h
      simp only [Fields.noDirectDyn, Bool.and_eq_true] at hn
      simp only [Fields.ktSafe, Bool.and_eq_true]
      refine ⟨⟨Ty.ktSafe_of_noDirectDyn t hw.2.1 hn.1, ?_⟩, Fields.ktSafe_of_noDirectDyn r _ _ _ hw.2.2.1 hn.2 ?_⟩
      · cases mv
        · simp
        · simp [hm rfl]
      · intro hmv
        simp only [Bool.or_eq_true] at hmv ⊢
        rcases hmv with k | k
        · exact Or.inl (hm k)
        · exact Or.inr (by simpa using hw.2.2.2.2.2.2.1.mpr k)
end

/-- Kotlin's `encode(data, start)` on an array that is large enough. -/
theorem Fields.ktEncodeTo_spec {fs : Fields} (h : fs.accepted = true) (hs : fs.ktSafe false false = true) {v : fs.KtVal}
    (hv : fs.KtLegal v) {d : Buf} {base : Nat} (hd : base + fs.ktEncodeSize v ≤ d.length) :
    ∃ d', fs.ktEncodeTo v d base = some (d', fs.ktEncodeSize v) ∧ Overlay d d' (8 * base) (fs.wire (fs.ofKt v)) := by
  rw [Fields.ktEncodeSize_eq] at hd ⊢
  obtain ⟨h1, h2, _, _⟩ := Fields.accepted_facts h
  obtain ⟨hl, -⟩ := Fields.encodeTo_spec flatCfg h (Fields.KtLegal.valid flatCfg false fs v hv)
    (d := List.replicate (fs.encodeSize (fs.ofKt v)) 0#8) (by simp)
  obtain ⟨d2, off2, e2, o2, l2⟩ := Fields.ktEncFields_spec fs v base 0 false false d 0 h1 hs hv (fun _ => rfl) (by omega)
  refine ⟨d2, ?_, by simpa using o2⟩
  simp only [Fields.ktEncodeTo, e2]
  have : off2 + fs.sum / 8 = fs.encodeSize (fs.ofKt v) := by omega
  rw [this]

end Bubbler
