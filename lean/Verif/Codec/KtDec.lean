import Verif.Codec.KtLeaf

set_option linter.unusedSimpArgs false
namespace Bubbler

mutual
  /-- Which bit strings the Kotlin decoder takes for `v`: as `Repr`, except that a length prefix has at most
  five bytes and counts modulo 2^32. -/
  def Ty.KtRepr (c : Cfg) : (t : Ty) → (looped : Bool) → (n : Nat) → (big : Bool) → t.Val →
      List (Option Bool) → Prop
    | .sc s, looped, n, big, (x : BitVec s.width), ws =>
      if s.isBool && looped then ∃ y : BitVec n, ws = scWire n big y ∧ x = (if y = 0#n then 0#_ else 1#_)
      else s.InRange n x ∧ ws = scWire n big x
    | .str, _, _, _, (s : List Byte), ws => 0#8 ∉ s ∧ ws = byteWire (s ++ [0#8])
    | .bytes, _, _, _, (s : List Byte), ws =>
      ∃ bs m, leb bs = some m ∧ m % 2 ^ 32 = s.length ∧ bs.length ≤ 5 ∧ ws = byteWire (bs ++ s)
    | .struct fs, _, _, _, v, ws => fs.KtRepr c v ws
  def Fields.KtRepr (c : Cfg) : (fs : Fields) → fs.Val → List (Option Bool) → Prop
    | .nil, _, ws => ws = []
    | .void n r, v, ws => ∃ ws', r.KtRepr c v ws' ∧ ws = List.replicate n none ++ ws'
    | .const _ n big val r, v, ws => ∃ ws', r.KtRepr c v ws' ∧ ws = scWire n big (BitVec.ofNat 64 val) ++ ws'
    | .one t bits big r, (v : t.Val × r.Val), ws =>
      ∃ w1 w2, t.KtRepr c false (bits.getD 0) big v.1 w1 ∧ r.KtRepr c v.2 w2 ∧
        ws = w1 ++ (if t.dynamic then List.replicate (bits.getD 0) none else []) ++ w2
    | .arr t len bits big r, (v : List t.Val × r.Val), ws =>
      ∃ wss w2, v.1.length = len ∧
        All2 (fun x w => t.KtRepr c (c.useLoop len) (bits.getD 0 / len) big x w) v.1 wss ∧
        r.KtRepr c v.2 w2 ∧ ws = wss.flatten ++ w2
end

mutual
  theorem Ty.KtRepr_length (c : Cfg) : ∀ (t : Ty) (arr lp big : Bool) (start n : Nat) (v : t.Val) (ws : List (Option Bool)),
      t.wf = true → t.elemOk arr start n → t.dynamic = false → t.KtRepr c lp n big v ws → ws.length = t.fixed n
    | .sc s, arr, lp, big, start, n, (v : BitVec s.width), ws => by
      intro _ _ _ h
      simp only [Ty.KtRepr] at h
      simp only [Ty.fixed]
      split at h
      · obtain ⟨y, e, _⟩ := h; rw [e, scWire_length]
      · rw [h.2, scWire_length]
    | .str, arr, lp, big, start, n, v, ws => by intro _ _ h; simp [Ty.dynamic] at h
    | .bytes, arr, lp, big, start, n, v, ws => by intro _ _ h; simp [Ty.dynamic] at h
    | .struct fs, arr, lp, big, start, n, v, ws => by
      intro hwf _ hd h
      simp only [Ty.wf, Bool.and_eq_true] at hwf
      simp only [Ty.dynamic] at hd
      simp only [Ty.fixed, hd, Bool.false_eq_true, if_false]
      exact Fields.KtRepr_length c fs 0 v ws hwf.1 hd h
  theorem Fields.KtRepr_length (c : Cfg) : ∀ (fs : Fields) (start : Nat) (v : fs.Val) (ws : List (Option Bool)),
      fs.wf start = true → fs.dynamic = false → fs.KtRepr c v ws → ws.length = fs.sum
    | .nil, start, v, ws => by
      intro _ _ h
      simp only [Fields.KtRepr] at h
      subst h; rfl
    | .void n r, start, v, ws => by
      intro hw hd h
      obtain ⟨ws', h1, h2⟩ := h
      simp only [Fields.wf, Fields.dynamic] at hw hd
      have := Fields.KtRepr_length c r (start + n) v ws' hw hd h1
      rw [h2]; simp [Fields.sum, this]
    | .const p n big val r, start, v, ws => by
      intro hw hd h
      obtain ⟨ws', h1, h2⟩ := h
      simp only [Fields.wf, Fields.dynamic, Bool.and_eq_true] at hw hd
      have := Fields.KtRepr_length c r (start + n) v ws' hw.2 hd h1
      rw [h2]; simp [Fields.sum, this]
    | .one t bits big r, start, v, ws => by
      intro hw hd h
      obtain ⟨h1, h2, h3, h4, _⟩ := wf_one hw
      simp only [Fields.dynamic, Bool.or_eq_false_iff] at hd
      obtain ⟨v1, v2⟩ := v
      obtain ⟨w1, w2, a1, a2, a3⟩ := h
      have b1 := Ty.KtRepr_length c t false false big start _ v1 w1 h1 h3 hd.1 a1
      have b2 := Fields.KtRepr_length c r _ v2 w2 h2 hd.2 a2
      simp only [hd.1, Bool.false_eq_true, if_false, List.append_nil] at a3 h4
      rw [a3, List.length_append]; simp only [Fields.sum]; omega
    | .arr t len bits big r, start, v, ws => by
      intro hw hd h
      obtain ⟨h0, h1, h2, h3, h4, h5, _⟩ := wf_arr hw
      simp only [Fields.dynamic, Bool.or_eq_false_iff] at hd
      obtain ⟨v1, v2⟩ := v
      obtain ⟨wss, w2, hl, a1, a2, a3⟩ := h
      simp only at hl a1 a2
      have b2 := Fields.KtRepr_length c r _ v2 w2 h2 hd.2 a2
      have hrec := fun x w => Ty.KtRepr_length c t true (c.useLoop len) big (start + 0 * (bits.getD 0 / len)) (bits.getD 0 / len) x w h1 (h3 0) hd.1
      have : wss.flatten.length = v1.length * (bits.getD 0 / len) := by
        clear hw hl a3
        induction a1 with
        | nil => simp
        | cons hx _ ih =>
          rw [List.flatten_cons, List.length_append, hrec _ _ hx, ih, h4, List.length_cons, Nat.add_mul, Nat.one_mul]
          omega
      rw [a3, List.length_append, this, hl, h5, b2]; rfl
end

/-! ### Decoding a representation -/

theorem noDirectDyn_bits {t : Ty} {bits : Option Nat} {big : Bool} {r : Fields} {start : Nat}
    (hw : (Fields.one t bits big r).wf start = true) (h : (Fields.one t bits big r).noDirectDyn = true) :
    t.noDirectDyn = true ∧ r.noDirectDyn = true ∧ bits.isNone = t.dynamic := by
  cases bits with
  | none =>
    have := (wf_one hw).2.2.2.2 rfl
    simp only [Fields.noDirectDyn, Bool.and_eq_true] at h
    exact ⟨h.1.1, h.1.2, by simp [this]⟩
  | some n =>
    have := noDirectDyn_one rfl hw h
    simp only [Fields.noDirectDyn, Bool.and_eq_true] at h
    exact ⟨h.1.1, h.1.2, by simp [this]⟩

theorem ktOff_next {dyn : Bool} {t : Ty} {bits : Option Nat} {off off' : Nat} (hb : bits.isNone = t.dynamic)
    (ho : ktOff dyn off = off) (hs : t.dynamic = false → off' = off) : ktOff (dyn || bits.isNone) off' = off' := by
  rw [hb]
  cases ht : t.dynamic
  · rw [hs ht, Bool.or_false]; exact ho
  · simp [ktOff]

theorem ktConst_mask {p : Prim} {n val : Nat} (hn : n ≤ p.width) (hv : val < 2 ^ n) :
    ktConst p val &&& ktMask n = BitVec.ofNat 64 val := by
  have hw64 : p.width ≤ 64 := by cases p <;> decide
  apply BitVec.eq_of_getLsbD_eq
  intro k hk
  rw [BitVec.getLsbD_and]
  by_cases hkn : k < n
  · rw [ktConst_bits hn hkn]
    have ha : (BitVec.allOnes 64).getLsbD k = true := by rw [BitVec.getLsbD_allOnes]; exact decide_eq_true hk
    have : (ktMask n).getLsbD k = true := by
      unfold ktMask
      split
      · exact ha
      · rename_i h64
        have := getLsbD_mask64 (n := n) (by omega) hkn (BitVec.allOnes 64)
        rw [BitVec.getLsbD_and, ha, Bool.true_and] at this
        exact this
    rw [this, Bool.and_true]
  · have h1 : (BitVec.ofNat 64 val).getLsbD k = false := by
      rw [BitVec.getLsbD_ofNat]
      have : val.testBit k = false := Nat.testBit_lt_two_pow (Nat.lt_of_lt_of_le hv (Nat.pow_le_pow_right (by omega) (by omega)))
      simp [this]
    have h2 : (ktMask n).getLsbD k = false := by
      unfold ktMask
      rw [if_neg (by omega)]
      have h4 : n < 64 := by omega
      have e : (1#64 <<< n) - 1#64 = BitVec.ofNat 64 (2 ^ n - 1) := by
        apply BitVec.eq_of_toNat_eq
        have hp : 2 ^ n < 2 ^ 64 := Nat.pow_lt_pow_right (by omega) h4
        have hp0 : 0 < 2 ^ n := Nat.two_pow_pos n
        rw [BitVec.toNat_sub, BitVec.toNat_shiftLeft, BitVec.toNat_ofNat, BitVec.toNat_ofNat, Nat.shiftLeft_eq]
        omega
      rw [e, BitVec.getLsbD_ofNat, Nat.testBit_two_pow_sub_one]
      simp [hkn]
    rw [h1, h2, Bool.and_false]

theorem RawAt.eq_iff {d : Buf} {pos n : Nat} {big : Bool} {v : BitVec 64} {val : Nat} (hn : n ≤ 64) (hv : val < 2 ^ n)
    (hd : pos + n ≤ 8 * d.length) (hr : RawAt d pos n big (v.setWidth n)) (hz : ∀ k, n ≤ k → v.getLsbD k = false) :
    v = BitVec.ofNat 64 val ↔ Agrees d pos (scWire n big (BitVec.ofNat 64 val)) := by
  constructor
  · intro e
    apply hr.toAgrees hd
    intro k hk
    rw [e]; simp [hk]
  · intro ha
    have h1 := hr.unique (RawAt.agrees ha)
    have h2 : (BitVec.ofNat 64 val).setWidth n = BitVec.ofNat n val := by
      apply BitVec.eq_of_toNat_eq
      have hp : (2:Nat) ^ n ≤ 2 ^ 64 := Nat.pow_le_pow_right (by omega) hn
      simp only [BitVec.toNat_setWidth, BitVec.toNat_ofNat]
      rw [Nat.mod_eq_of_lt (a := val) (b := 2 ^ 64) (by omega)]
    apply BitVec.eq_of_getLsbD_eq
    intro k hk
    by_cases hkn : k < n
    · have := congrArg (fun x => x.getLsbD k) h1
      simpa [hkn] using this
    · rw [hz k (by omega), BitVec.getLsbD_ofNat]
      have : val.testBit k = false := Nat.testBit_lt_two_pow (Nat.lt_of_lt_of_le hv (Nat.pow_le_pow_right (by omega) (by omega)))
      simp [this]

/-- A constant in Kotlin's `decode`. -/
theorem ktConst_dec {p : Prim} {big : Bool} {val n : Nat} (hn : n ≤ p.width) (hval : val < 2 ^ n) (pos : Nat) (d : Buf)
    (hd : pos + n ≤ 8 * d.length) :
    ∃ v, ktReadFieldBits d pos n big = some v ∧
      (v = ktConst p val &&& ktMask n ↔ Agrees d pos (scWire n big (BitVec.ofNat 64 val))) := by
  have hw64 : p.width ≤ 64 := by cases p <;> decide
  rw [ktReadFieldBits_eq _ _ _ _ (by omega)]
  obtain ⟨v, e, hr⟩ := bbReadFieldBits_spec d pos n big (by omega) hd
  refine ⟨v, e, ?_⟩
  rw [ktConst_mask hn hval]
  exact RawAt.eq_iff (by omega) hval hd hr.raw hr.2

/-- A scalar in Kotlin's `decode`. -/
theorem ktSc_agrees (cg : Cfg) {s : Sc} {n : Nat} {lp big : Bool} (c : KtCfg) (ctx : List Fields) (h : s.wf n = true) (pos : Nat)
    (d : Buf) (x : BitVec s.width) (ws : List (Option Bool)) (hr : (Ty.sc s).KtRepr cg lp n big x ws) (hag : Agrees d pos ws) :
    ∃ v, ktReadFieldBits d pos n big = some v ∧ s.ktOf c ctx n v = (Ty.sc s).toKt c ctx x := by
  simp only [Ty.KtRepr] at hr
  by_cases hb : (s.isBool && lp) = true
  · rw [if_pos hb] at hr
    obtain ⟨y, hws, hx⟩ := hr
    rw [hws] at hag
    obtain ⟨v, r, e, hraw, hc⟩ := ktRead_spec (big := big) c ctx h d pos (by simpa using hag.1)
    refine ⟨v, e, ?_⟩
    have hr' := hraw.unique (RawAt.agrees hag)
    rw [BitVec.setWidth_eq] at hr'
    rw [hc, hr']
    cases s with
    | enum b => simp [Sc.isBool] at hb
    | prim p =>
      have hp : p = .bool := by cases p <;> simp_all [Sc.isBool]
      subst hp
      have hf := Sc.wf_facts h
      have e : (Sc.prim .bool).conv y = y.setWidth 8 := by
        simp [Sc.conv, Sc.signed, Prim.signed, Sc.width, Prim.width]
      have e2 : (Sc.prim .bool).conv y = 0#_ ↔ y = 0#n := by
        rw [e]; exact setWidth_eq_zero (by simpa [Sc.width, Prim.width] using hf.2.1) _
      simp only [Sc.ktConv]
      rw [hx]
      have hk : ∀ z : BitVec 8, (Ty.sc (.prim .bool)).toKt c ctx z = if z = 0#8 then 0#8 else 1#8 := fun z => rfl
      by_cases h0 : y = 0#n
      · rw [e2.mpr h0, if_pos h0]
      · rw [if_neg h0]
        refine (hk _).trans ((if_neg (fun h => h0 (e2.mp h))).trans ?_)
        exact ((hk 1#8).trans (if_neg (by decide))).symm
  · rw [if_neg hb] at hr
    obtain ⟨hr, hws⟩ := hr
    rw [hws] at hag
    obtain ⟨v, r, e, hraw, hc⟩ := ktRead_spec (big := big) c ctx h d pos (by simpa using hag.1)
    refine ⟨v, e, ?_⟩
    have hr' := hraw.unique (RawAt.agrees hag)
    rw [hc, hr', Sc.ktConv, Sc.conv_setWidth h x hr]

/-- A string that stands in the data. -/
theorem NulAt.of_agrees {d : Buf} {p : Nat} {s : List Byte} (h : Agrees d (8 * p) (byteWire (s ++ [0#8])))
    (hz : 0#8 ∉ s) : NulAt d p s.length ∧ (d.drop p).take s.length = s := by
  obtain ⟨a, b⟩ := dsStringAt_agrees h hz
  obtain ⟨h1, h2⟩ := dsStringAt_ok a
  obtain ⟨_, a1, a2, a3⟩ := scanStr_ok h1
  simp only [Nat.add_sub_cancel] at a1 a2 a3
  refine ⟨⟨a2, fun j hj => a3 j (by omega) hj⟩, b⟩

theorem NulAt.to_agrees {d : Buf} {p L : Nat} (h : NulAt d p L) :
    Agrees d (8 * p) (byteWire ((d.drop p).take L ++ [0#8])) ∧ 0#8 ∉ (d.drop p).take L ∧ ((d.drop p).take L).length = L := by
  have hlt := h.lt
  have hl : ((d.drop p).take L).length = L := by rw [List.length_take, List.length_drop]; omega
  refine ⟨?_, ?_, hl⟩
  · rw [agrees_bytes_iff]
    simp only [List.length_append, hl, List.length_cons, List.length_nil]
    refine ⟨?_, by omega⟩
    rw [List.take_add, List.drop_drop]
    congr 1
    have h1 := h.1
    rw [rd_eq_some hlt] at h1
    rw [List.drop_eq_getElem_cons hlt]
    simp only [List.take_succ_cons, List.take_zero, List.cons.injEq, and_true]
    simp only [Option.some.injEq] at h1
    rw [← h1]; simp [List.getD, hlt]
  · intro hm
    obtain ⟨j, hj, e⟩ := List.mem_take_iff_getElem.mp hm
    apply h.2 j (by omega)
    rw [List.getElem_drop] at e
    simp only [Buf.rd]
    rw [← e]
    apply List.getElem?_eq_getElem

theorem LebAt.of_agrees {d : Buf} {p m : Nat} {bs s : List Byte} (h1 : leb bs = some m)
    (h : Agrees d (8 * p) (byteWire (bs ++ s))) :
    LebAt d p bs m ∧ (d.drop (p + bs.length)).take s.length = s ∧ p + bs.length + s.length ≤ d.length := by
  rw [byteWire_append, Agrees.append] at h
  obtain ⟨a, b⟩ := h
  rw [byteWire_length] at b
  have e : 8 * p + 8 * bs.length = 8 * (p + bs.length) := by omega
  rw [e] at b
  obtain ⟨a1, a2⟩ := a.bytes
  obtain ⟨b1, b2⟩ := b.bytes
  exact ⟨⟨h1, a1, a2⟩, b1, b2⟩

theorem LebAt.to_agrees {d : Buf} {p m L : Nat} {bs : List Byte} (h : LebAt d p bs m) (hL : p + bs.length + L ≤ d.length) :
    Agrees d (8 * p) (byteWire (bs ++ (d.drop (p + bs.length)).take L)) := by
  have hl : ((d.drop (p + bs.length)).take L).length = L := by rw [List.length_take, List.length_drop]; omega
  rw [agrees_bytes_iff]
  simp only [List.length_append, hl]
  refine ⟨?_, by omega⟩
  rw [List.take_add, List.drop_drop, h.2.1]

theorem decIdx_agrees2 {α β : Type} {R : α → List (Option Bool) → Prop} (g : α → β) (f : Nat → Nat → Res (β × Nat))
    (sc : Int → ScanX) (dd : Bool) (d : Buf) (base eb start : Nat) (dyn tdyn : Bool) (hdd : tdyn = false → dd = false)
    {xs : List α} {wss : List (List (Option Bool))} (h : All2 R xs wss) :
    (∀ x w, R x w → ∀ i off, ktOff (dyn || tdyn) off = off → Agrees d (8 * (base + off) + (start + i * eb)) w →
      ∃ o : Nat, (dd = true → sc off = .ok (o : Int)) ∧ f i off = .ok (g x, o) ∧ 8 * o + eb = 8 * off + w.length ∧
        (tdyn = false → o = off)) →
    ∀ (i off : Nat), ktOff (dyn || tdyn) off = off → Agrees d (8 * (base + off) + (start + i * eb)) wss.flatten →
    ∃ o : Nat, (dd = true → iterX sc xs.length off = .ok (o : Int)) ∧ decIdx f xs.length i off = .ok (xs.map g, o) ∧
      8 * o + xs.length * eb = 8 * off + wss.flatten.length ∧ (tdyn = false → o = off) := by
  intro hf
  induction h with
  | nil => intro i off _ _; exact ⟨off, fun _ => rfl, rfl, by simp, fun _ => rfl⟩
  | @cons x w xs wss hx _ ih =>
    intro i off ho h
    simp only [List.flatten_cons] at h
    obtain ⟨h1, h2⟩ := Agrees.append.mp h
    obtain ⟨o1, s1, e1, l1, q1⟩ := hf x w hx i off ho h1
    have hpos : 8 * (base + o1) + (start + (i + 1) * eb) = 8 * (base + off) + (start + i * eb) + w.length := by
      rw [Nat.add_mul, Nat.one_mul]; omega
    rw [← hpos] at h2
    have ho1 : ktOff (dyn || tdyn) o1 = o1 := by
      cases tdyn
      · rw [q1 rfl]; exact ho
      · simp [ktOff]
    obtain ⟨o, s2, e2, l2, q2⟩ := ih (i + 1) o1 ho1 h2
    refine ⟨o, ?_, ?_, ?_, fun h => (q2 h).trans (q1 h)⟩
    · intro hd
      simp only [List.length_cons, iterX, s1 hd]; exact s2 hd
    · simp only [List.length_cons, decIdx, e1, e2, List.map_cons]
    · simp only [List.flatten_cons, List.length_append, List.length_cons, Nat.add_mul, Nat.one_mul]
      omega

/-- `decodeSize` of a struct whose fields scan to `o`. -/
theorem Fields.ktDecodeSize_of {fs : Fields} {d : Buf} {base o : Nat} (hd : d.length < 2 ^ 30)
    (hs : fs.dynamic = true → fs.ktDsFields 0 d base 0 = .ok (o : Int)) (ho : fs.dynamic = false → o = 0)
    (hb : base + o + fs.sum / 8 ≤ d.length) :
    fs.ktDecodeSize d base = some ((o + fs.sum / 8 : Nat) : Int) := by
  unfold Fields.ktDecodeSize
  cases hdyn : fs.dynamic
  · rw [ho hdyn] at hb ⊢
    rw [if_neg (by simp), if_neg]
    · simp
    · rw [w32_id (by omega) (by omega)]; omega
  · rw [if_pos rfl, hs hdyn]
    simp only [ktDsFinish]
    have e : (o : Int) + ((fs.sum / 8 : Nat) : Int) = ((o + fs.sum / 8 : Nat) : Int) := by omega
    rw [e, w32_id (x := ((o + fs.sum / 8 : Nat) : Int)) (by omega) (by omega), if_neg]
    rw [w32_id (by omega) (by omega)]; omega

mutual
  theorem Ty.ktDec_agrees (cg : Cfg) (c : KtCfg) : ∀ (t : Ty) (ctx : List Fields) (big arr lp : Bool) (v : t.Val)
      (ws : List (Option Bool)) (base start n : Nat) (dyn : Bool) (i : Nat) (d : Buf) (off : Nat),
      t.wf = true → t.elemOk arr (start + i * n) n → (i ≠ 0 → t.elemOk arr start n) → t.noDirectDyn = true →
      d.length < 2 ^ 30 → t.KtRepr cg lp n big v ws →
      (t = .str ∨ t = .bytes ∨ ktOff dyn off = off) → (t.fixed n ≠ n → i = 0) →
      Agrees d (8 * (base + off) + (start + i * n)) ws →
      ∃ o : Nat, (t.dynamic = true → t.ktDsElem ((start + i * n) / 8) d base off = .ok (o : Int)) ∧
        t.ktDec c ctx big d base start n dyn i off = .ok (t.toKt c ctx v, o) ∧
        8 * o + t.fixed n = 8 * off + ws.length ∧ (t.dynamic = false → o = off)
    | .sc s, ctx, big, arr, lp, v, ws, base, start, n, dyn, i, d, off => by
      intro hw hok _ _ _ hr ho _ hag
      have ho : ktOff dyn off = off := by simpa using ho
      have hl := Ty.KtRepr_length cg (.sc s) arr lp big _ n v ws hw hok rfl hr
      simp only [Ty.elemOk] at hok
      have hpos : ktBitBase base dyn off start + i * n = 8 * (base + off) + (start + i * n) := by
        unfold ktBitBase; rw [ho]; omega
      obtain ⟨u, e, e2⟩ := ktSc_agrees cg c ctx hok.1 _ d v ws hr hag
      refine ⟨off, by simp [Ty.dynamic], ?_, by rw [hl], fun _ => rfl⟩
      simp only [Ty.ktDec, hpos, e, e2]
    | .str, ctx, big, arr, lp, (v : List Byte), ws, base, start, n, dyn, i, d, off => by
      intro _ hok _ _ hd hr _ hi hag
      have hz : i * n = 0 := by
        by_cases hn : n = 0
        · simp [hn]
        · rw [hi (by simp only [Ty.fixed]; omega)]; simp
      simp only [Ty.elemOk] at hok
      rw [hz] at hag hok ⊢
      obtain ⟨hnz, hws⟩ := hr
      have e : 8 * (base + off) + (start + 0) = 8 * (base + off + start / 8) := by omega
      rw [e, hws] at hag
      obtain ⟨a, b⟩ := NulAt.of_agrees hag hnz
      refine ⟨off + (v.length + 1), fun _ => ?_, ?_, ?_, by simp [Ty.dynamic]⟩
      · simp only [Ty.ktDsElem, Nat.add_zero]
        exact ktDsString_of a hd
      · simp only [Ty.ktDec, ktDecString, decStrLen_of a v.length 0 (by omega), b]
        rfl
      · simp only [Ty.fixed, hws, byteWire_length, List.length_append, List.length_cons, List.length_nil]
        omega
    | .bytes, ctx, big, arr, lp, (v : List Byte), ws, base, start, n, dyn, i, d, off => by
      intro _ hok _ _ hd hr _ hi hag
      have hz : i * n = 0 := by
        by_cases hn : n = 0
        · simp [hn]
        · rw [hi (by simp only [Ty.fixed]; omega)]; simp
      simp only [Ty.elemOk] at hok
      rw [hz] at hag hok ⊢
      obtain ⟨bs, m, hlb, hm, h5, hws⟩ := hr
      have e : 8 * (base + off) + (start + 0) = 8 * (base + off + start / 8) := by omega
      rw [e, hws] at hag
      obtain ⟨a, b, hle⟩ := LebAt.of_agrees hlb hag
      have hf : base + off + bs.length + start / 8 + m % 2 ^ 32 ≤ d.length := by omega
      have hs1 := ktDsBytes_short hd a h5 hf
      have hs2 := ktDecBytes_short hd a h5 hf
      refine ⟨off + bs.length + m % 2 ^ 32, fun _ => ?_, ?_, ?_, by simp [Ty.dynamic]⟩
      · simp only [Ty.ktDsElem, Nat.add_zero]
        exact hs1
      · simp only [Ty.ktDec]
        rw [hs2, hm, b]
        rfl
      · simp only [Ty.fixed, hws, byteWire_length, List.length_append]
        omega
    | .struct fs, ctx, big, arr, lp, v, ws, base, start, n, dyn, i, d, off => by
      intro hwf hok hok0 hnd hd hr ho hi hag
      have ho : ktOff dyn off = off := by simpa using ho
      have hlen := Ty.KtRepr_length cg (.struct fs) arr lp big _ n v ws hwf hok
      simp only [Ty.elemOk] at hok hok0
      simp only [Ty.wf, Bool.and_eq_true, decide_eq_true_eq] at hwf
      have hb : 8 * (base + ktOff dyn off + start / 8 + i * (n / 8)) = 8 * (base + off) + (start + i * n) := by
        rw [ho]
        by_cases hi0 : i = 0
        · subst hi0; simp only [Nat.zero_mul, Nat.add_zero] at hok ⊢; omega
        · have h8 := hok0 hi0
          have hn8 : n % 8 = 0 := by
            by_cases hf : (Ty.struct fs).fixed n = n
            · simp only [Ty.fixed] at hf
              split at hf <;> omega
            · exact absurd (hi hf) hi0
          have : n = 8 * (n / 8) := by omega
          have e2 : i * n = 8 * (i * (n / 8)) := by
            conv => lhs; rw [this]
            rw [Nat.mul_left_comm]
          omega
      have hb2 : base + ktOff dyn off + start / 8 + i * (n / 8) = base + off + (start + i * n) / 8 := by omega
      obtain ⟨o, e1, e2, l, q⟩ := Fields.ktDec_agrees cg c fs ctx v ws (base + ktOff dyn off + start / 8 + i * (n / 8)) 0 false d 0
        hwf.1 (by simpa [Ty.noDirectDyn] using hnd) hd hr (by simp [ktOff]) (by
          rw [show ∀ a, 8 * (a + 0) + 0 = 8 * a from fun a => by omega, hb]; exact hag)
      have hle := hag.1
      rw [← hb] at hle
      have hsz := Fields.ktDecodeSize_of (fs := fs) (base := base + ktOff dyn off + start / 8 + i * (n / 8)) (o := o) hd e1 q (by omega)
      have hB1 : off + (o + fs.sum / 8) < 2 ^ 31 := by omega
      have hB2 : base + ktOff dyn off + start / 8 + i * (n / 8) < 2 ^ 31 := by omega
      have hfin : w32 ((off + (o + fs.sum / 8) : Nat) : Int) = ((off + (o + fs.sum / 8) : Nat) : Int) := w32_nat hB1
      have hw : w32 ((base + ktOff dyn off + start / 8 + i * (n / 8) : Nat) : Int) =
          ((base + ktOff dyn off + start / 8 + i * (n / 8) : Nat) : Int) := w32_nat hB2
      refine ⟨if fs.dynamic then off + (o + fs.sum / 8) else off, ?_, ?_, ?_, ?_⟩
      · intro hdyn
        simp only [Ty.dynamic] at hdyn
        simp only [Ty.ktDsElem, hdyn, if_true, ktDsSub]
        have hw3 : w32 ((base : Int) + off + ((start + i * n) / 8 : Nat)) =
            ((base + ktOff dyn off + start / 8 + i * (n / 8) : Nat) : Int) := by
          have e : (base : Int) + off + ((start + i * n) / 8 : Nat) =
              ((base + ktOff dyn off + start / 8 + i * (n / 8) : Nat) : Int) := by rw [hb2]; simp only [Int.natCast_add]
          rw [e, hw]
        rw [hw3]
        have hsz2 := hsz
        rw [Fields.ktDecodeSize, if_pos hdyn] at hsz2
        simp only [hsz2]
        rw [if_neg (Int.not_lt.mpr (Int.natCast_nonneg _))]
        rw [← Int.natCast_add, hfin]
      · simp only [Ty.ktDec, hw, hsz]
        rw [if_neg (Int.not_lt.mpr (Int.natCast_nonneg _)), e2]
        simp only [Int.toNat_natCast, Ty.toKt]
      · simp only [Ty.fixed]
        by_cases hdyn : fs.dynamic = true
        · simp only [hdyn, if_true]; omega
        · simp only [hdyn, if_false]
          have := q (by simpa using hdyn)
          simp only [Bool.false_eq_true, if_false]
          omega
      · intro hdyn
        simp only [Ty.dynamic] at hdyn
        simp [hdyn]
  theorem Fields.ktDec_agrees (cg : Cfg) (c : KtCfg) : ∀ (fs : Fields) (ctx : List Fields) (v : fs.Val) (ws : List (Option Bool))
      (base start : Nat) (dyn : Bool) (d : Buf) (off : Nat),
      fs.wf start = true → fs.noDirectDyn = true → d.length < 2 ^ 30 → fs.KtRepr cg v ws → ktOff dyn off = off →
      Agrees d (8 * (base + off) + start) ws →
      ∃ o : Nat, (fs.dynamic = true → fs.ktDsFields start d base off = .ok (o : Int)) ∧
        fs.ktDecFields c ctx d base start dyn off = .ok (fs.toKt c ctx v, o) ∧
        8 * o + fs.sum = 8 * off + ws.length ∧ (fs.dynamic = false → o = off)
    | fs, ctx, v, ws, base, start, dyn, d, off => by
      intro hwf hnd hd hr ho hag
      obtain ⟨o, e1, e2, l, q⟩ := Fields.ktDec_agrees' cg c fs ctx v ws base start dyn d off hwf hnd hd hr ho hag
      exact ⟨o, fun _ => e1, e2, l, q⟩
  theorem Fields.ktDec_agrees' (cg : Cfg) (c : KtCfg) : ∀ (fs : Fields) (ctx : List Fields) (v : fs.Val) (ws : List (Option Bool))
      (base start : Nat) (dyn : Bool) (d : Buf) (off : Nat),
      fs.wf start = true → fs.noDirectDyn = true → d.length < 2 ^ 30 → fs.KtRepr cg v ws → ktOff dyn off = off →
      Agrees d (8 * (base + off) + start) ws →
      ∃ o : Nat, fs.ktDsFields start d base off = .ok (o : Int) ∧
        fs.ktDecFields c ctx d base start dyn off = .ok (fs.toKt c ctx v, o) ∧
        8 * o + fs.sum = 8 * off + ws.length ∧ (fs.dynamic = false → o = off)
    | .nil, ctx, v, ws, base, start, dyn, d, off => by
      intro _ _ _ hr _ _
      simp only [Fields.KtRepr] at hr
      exact ⟨off, rfl, rfl, by simp [hr, Fields.sum], fun _ => rfl⟩
    | .void n r, ctx, v, ws, base, start, dyn, d, off => by
      intro hw hn hd hr ho h
      obtain ⟨ws', hr, hws⟩ := hr
      rw [hws] at h
      obtain ⟨h1, h2⟩ := Agrees.append.mp h
      rw [List.length_replicate, Nat.add_assoc] at h2
      obtain ⟨o, e1, e2, l, q⟩ := Fields.ktDec_agrees' cg c r ctx v ws' base (start + n) dyn d off (by simpa [Fields.wf] using hw)
        (by simpa [Fields.noDirectDyn] using hn) hd hr ho h2
      refine ⟨o, by simp only [Fields.ktDsFields, e1], by simp only [Fields.ktDecFields]; exact e2, ?_, q⟩
      simp only [hws, Fields.sum, List.length_append, List.length_replicate]; omega
    | .const p n big val r, ctx, v, ws, base, start, dyn, d, off => by
      intro hw hn hd hr ho h
      obtain ⟨ws', hr, hws⟩ := hr
      rw [hws] at h
      obtain ⟨h1, h2⟩ := Agrees.append.mp h
      rw [scWire_length, Nat.add_assoc] at h2
      simp only [Fields.wf, Bool.and_eq_true, decide_eq_true_eq] at hw
      obtain ⟨⟨⟨⟨⟨⟨w1, w2⟩, w3⟩, w4⟩, w5⟩, w6⟩, w7⟩ := hw
      obtain ⟨o, e1, e2, l, q⟩ := Fields.ktDec_agrees' cg c r ctx v ws' base (start + n) dyn d off w7
        (by simpa [Fields.noDirectDyn] using hn) hd hr ho h2
      have hpos : ktBitBase base dyn off start = 8 * (base + off) + start := by
        unfold ktBitBase; rw [ho]; omega
      obtain ⟨u, e3, e4⟩ := ktConst_dec w3 w5 (big := big) (8 * (base + off) + start) d (by simpa using h1.1)
      refine ⟨o, by simp only [Fields.ktDsFields, e1], ?_, ?_, q⟩
      · simp only [Fields.ktDecFields, hpos, e3]
        exact (if_neg (fun hne => hne (e4.mpr h1))).trans e2
      · simp only [hws, Fields.sum, List.length_append, scWire_length]; omega
    | .one t bits big r, ctx, v, ws, base, start, dyn, d, off => by
      intro hw hn hd hr ho h
      obtain ⟨n1, n2, n3⟩ := noDirectDyn_bits hw hn
      obtain ⟨h1, h2, h3, h4, h5⟩ := wf_one hw
      obtain ⟨v1, v2⟩ := v
      obtain ⟨w1, w2, hr1, hr2, hws⟩ := hr
      simp only at hr1 hr2
      have hgap : (if t.dynamic = true then List.replicate (bits.getD 0) none else ([] : List (Option Bool))) = [] := by
        cases ht : t.dynamic
        · simp
        · rw [ht] at n3
          have : bits = none := by simpa using n3
          simp [this]
      have hb0 : t.dynamic = true → bits.getD 0 = 0 := by
        intro ht
        rw [ht] at n3
        have : bits = none := by simpa using n3
        simp [this]
      rw [hgap, List.append_nil] at hws
      rw [hws] at h
      obtain ⟨a1, a2⟩ := Agrees.append.mp h
      obtain ⟨o1, s1, e1, l1, q1⟩ := Ty.ktDec_agrees cg c t (.one t bits big r :: ctx) big false false v1 w1 base start (bits.getD 0) dyn 0 d off
        h1 (by simpa using h3) (fun h => absurd rfl h) n1 hd hr1 (Or.inr (Or.inr ho)) (fun _ => rfl) (by simpa using a1)
      have hpos : 8 * (base + off) + start + w1.length = 8 * (base + o1) + (start + bits.getD 0) := by
        by_cases ht : t.dynamic = true
        · have := hb0 ht
          rw [if_pos ht] at h4
          omega
        · rw [if_neg ht] at h4
          omega
      rw [hpos] at a2
      obtain ⟨o, s2, e2, l2, q2⟩ := Fields.ktDec_agrees' cg c r ctx v2 w2 base (start + bits.getD 0) (dyn || bits.isNone) d o1 h2 n2 hd hr2
        (ktOff_next n3 ho q1) a2
      refine ⟨o, ?_, ?_, ?_, ?_⟩
      · simp only [Fields.ktDsFields]
        by_cases ht : t.dynamic = true
        · rw [if_pos ht]
          have := s1 ht
          simp only [Nat.zero_mul, Nat.add_zero] at this
          simp only [this, s2]
        · rw [if_neg ht]
          have := q1 (by simpa using ht)
          subst this
          exact s2
      · simp only [Fields.ktDecFields, e1, e2, Fields.toKt]
      · simp only [hws, Fields.sum, List.length_append]; omega
      · intro hdyn
        simp only [Fields.dynamic, Bool.or_eq_false_iff] at hdyn
        rw [q2 hdyn.2, q1 hdyn.1]
    | .arr t len bits big r, ctx, v, ws, base, start, dyn, d, off => by
      intro hw hn hd hr ho h
      obtain ⟨h0, h1, h2, h3, h4, h5, h7, h6⟩ := wf_arr hw
      have hbn : bits.isNone = t.dynamic := by
        cases ht : t.dynamic
        · cases hb : bits with
          | none => rw [h7.mp hb] at ht; cases ht
          | some n => rfl
        · rw [h7.mpr ht]; rfl
      obtain ⟨v1, v2⟩ := v
      obtain ⟨wss, w2, hl, hr1, hr2, hws⟩ := hr
      simp only at hl hr1 hr2
      rw [hws] at h
      obtain ⟨a1, a2⟩ := Agrees.append.mp h
      simp only [Fields.noDirectDyn, Bool.and_eq_true] at hn
      have ho' : ktOff (dyn || t.dynamic) off = off := by
        cases t.dynamic
        · rw [Bool.or_false]; exact ho
        · simp [ktOff]
      have h30 := h3 0
      simp only [Nat.zero_mul, Nat.add_zero] at h30
      have hz : t.dynamic = true → bits.getD 0 / len = 0 := by
        intro ht; rw [h7.mpr ht]; simp
      obtain ⟨o1, s1, e1, l1, q1⟩ := decIdx_agrees2 (fun x => t.toKt c (.arr t len bits big r :: ctx) x)
        (fun i off => t.ktDec c (.arr t len bits big r :: ctx) big d base start (bits.getD 0 / len)
          (dyn || t.dynamic) (if t.dynamic then 0 else i) off)
        (fun off => t.ktDsElem (start / 8) d base off) t.dynamic d base (bits.getD 0 / len) start dyn t.dynamic (fun h => h) hr1
        (fun x w hx i off ho hag => by
          cases ht : t.dynamic
          · rw [ht] at ho
            obtain ⟨o, s, e, l, q⟩ := Ty.ktDec_agrees cg c t (.arr t len bits big r :: ctx) big true _ x w base start (bits.getD 0 / len)
              (dyn || false) i d off h1 (h3 i) (fun _ => h30) hn.1 hd hx (Or.inr (Or.inr ho)) (fun h => absurd h4 h) hag
            rw [h4] at l
            refine ⟨o, by simp, ?_, l, fun _ => q ht⟩
            simp only [Bool.false_eq_true, if_false]; exact e
          · rw [ht] at ho
            have hz := hz ht
            rw [hz, Nat.mul_zero] at hag
            rw [hz] at h30 hx h4 ⊢
            obtain ⟨o, s, e, l, q⟩ := Ty.ktDec_agrees cg c t (.arr t len bits big r :: ctx) big true _ x w base start 0
              (dyn || true) 0 d off h1 (by simpa using h30) (fun h => absurd rfl h) hn.1 hd hx (Or.inr (Or.inr ho)) (fun _ => rfl)
              (by simpa using hag)
            rw [h4] at l
            have s := s ht
            simp only [Nat.zero_mul, Nat.add_zero] at s
            refine ⟨o, fun _ => s, ?_, l, by simp⟩
            simp only [if_true]; exact e)
        0 off ho' (by simpa using a1)
      rw [hl] at s1 e1 l1
      rw [h5] at l1
      have hpos : 8 * (base + off) + start + wss.flatten.length = 8 * (base + o1) + (start + bits.getD 0) := by omega
      rw [hpos] at a2
      obtain ⟨o, s2, e2, l2, q2⟩ := Fields.ktDec_agrees' cg c r ctx v2 w2 base (start + bits.getD 0) (dyn || bits.isNone) d o1 h2 hn.2 hd hr2
        (ktOff_next hbn ho q1) a2
      refine ⟨o, ?_, ?_, ?_, ?_⟩
      · simp only [Fields.ktDsFields]
        by_cases ht : t.dynamic = true
        · rw [if_pos ht]
          simp only [s1 ht, s2]
        · rw [if_neg ht]
          have := q1 (by simpa using ht)
          subst this
          exact s2
      · simp only [Fields.ktDecFields, e1, e2, Fields.toKt]
      · simp only [hws, Fields.sum, List.length_append]; omega
      · intro hdyn
        simp only [Fields.dynamic, Bool.or_eq_false_iff] at hdyn
        rw [q2 hdyn.2, q1 hdyn.1]
end

end Bubbler
