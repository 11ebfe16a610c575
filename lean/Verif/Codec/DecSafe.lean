import Verif.Codec.DecMain

/-
Decode on arbitrary input: once the (unwrapped) size scan has succeeded, no access is out of range,
and whatever is produced is in range.
-/
set_option linter.unusedSimpArgs false
namespace Bubbler

/-- The result of decoding one element at `off`/`st` is a refusal, or a value that the bits there
represent, and the scanned offset. -/
def SafeElem (c : Cfg) (t : Ty) (lp : Bool) (n : Nat) (big : Bool) (d : Buf) (st off o : Nat)
    (res : Res (t.Val × Nat)) : Prop :=
  res = .fail ∨ ∃ v ws, res = .ok (v, o) ∧ t.Repr c lp n big v ws ∧ Agrees d (8 * off + st) ws ∧
    8 * o + t.fixed n = 8 * off + ws.length

theorem RawAt.toAgrees {w : Nat} {d : Buf} {pos n : Nat} {big : Bool} {r : BitVec n} {x : BitVec w}
    (h : RawAt d pos n big r) (hd : pos + n ≤ 8 * d.length) (hx : ∀ k, k < n → x.getLsbD k = r.getLsbD k) :
    Agrees d pos (scWire n big x) := by
  refine ⟨by rw [scWire_length]; exact hd, fun j b hj => ?_⟩
  rw [scWire_getElem?] at hj
  split at hj
  · rename_i hjn
    have hb : x.getLsbD (valueBit big n j) = b := by simpa using hj
    rw [← h j hjn, ← hb, hx _ (valueBit_lt hjn)]
  · cases hj

theorem Sc.conv_bits {s : Sc} {n : Nat} (h : s.wf n = true) (r : BitVec n) :
    ∀ k, k < n → (s.conv r).getLsbD k = r.getLsbD k := by
  intro k hk
  have hf := Sc.wf_facts h
  have hkw : k < s.width := by omega
  unfold Sc.conv
  split
  · rw [BitVec.getLsbD_signExtend]; simp only [hkw, hk, decide_true, if_true, Bool.true_and]
  · simp [BitVec.getLsbD_setWidth, hkw]

theorem arrElemDec_safe (c : Cfg) (t : Ty) (rec : Nat → Nat → Nat → Res (t.Val × Nat))
    (len eb start : Nat) (big : Bool) (d : Buf)
    (hok : ∀ i, t.elemOk true (start + i * eb) eb) (hfix : t.fixed eb = eb)
    (hst : ∀ fs, t = .struct fs → start % 8 = 0 ∧ eb % 8 = 0)
    (hrec : ∀ st off o, t.elemOk true st eb → t.iElem (st / 8) d off = .ok o → 8 * o + st + eb ≤ 8 * d.length →
      SafeElem c t false eb big d st off o (rec st eb off))
    (i off o : Nat) (hi : t.iElem ((start + i * eb) / 8) d off = .ok o)
    (hb : 8 * o + (start + i * eb) + eb ≤ 8 * d.length) :
    SafeElem c t (c.useLoop len) eb big d (start + i * eb) off o (arrElemDec c t rec len eb start big d i off) := by
  unfold arrElemDec
  cases hl : c.useLoop len with
  | false => simp only [Bool.false_eq_true, if_false]; exact hrec _ _ _ (hok i) hi hb
  | true =>
    simp only [if_true]
    cases t with
    | sc s =>
      simp only
      have h0 := hok i
      simp only [Ty.elemOk] at h0
      simp only [Ty.iElem] at hi
      cases hi
      obtain ⟨v, e, r, hraw, hc⟩ := sc_dec_loop (big := big) c.signExt h0.1 (8 * off + (start + i * eb)) d hb
      right
      have h1 : (match bbReadFieldBits d (8 * off + (start + i * eb)) eb big with
          | none => Res.panic
          | some v => Res.ok (s.ofU64 c.signExt eb v, off)) = Res.ok (s.ofU64 c.signExt eb v, off) := by rw [e]
      by_cases hbool : s.isBool = true
      · refine ⟨s.ofU64 c.signExt eb v, scWire eb big r, h1, ?_, hraw.toAgrees hb (fun _ _ => rfl), by simp [Ty.fixed]⟩
        simp only [Ty.Repr, hbool, Bool.and_true, if_true]
        refine ⟨r, rfl, ?_⟩
        rw [hc, hbool]; simp
      · refine ⟨s.ofU64 c.signExt eb v, scWire eb big (s.conv r), h1, ?_, hraw.toAgrees hb (Sc.conv_bits h0.1 r), by simp [Ty.fixed]⟩
        simp only [Ty.Repr, hbool, Bool.and_true, if_false]
        rw [hc]
        simp only [hbool, Bool.false_eq_true, if_false]
        exact ⟨Sc.conv_inRange h0.1 r, trivial⟩
    | str =>
      have e : start + i * eb = start := by simp only [Ty.fixed] at hfix; rw [← hfix]; simp
      have := hok i
      rw [e] at hi hb this ⊢
      exact hrec _ _ _ this hi hb
    | bytes =>
      have e : start + i * eb = start := by simp only [Ty.fixed] at hfix; rw [← hfix]; simp
      have := hok i
      rw [e] at hi hb this ⊢
      exact hrec _ _ _ this hi hb
    | struct fs =>
      simp only
      have h0 := hok i
      by_cases hdyn : fs.dynamic = true
      · rw [if_pos hdyn]
        have e : start + i * eb = start := by simp only [Ty.fixed, hdyn, if_true] at hfix; rw [← hfix]; simp
        rw [e] at hi hb h0 ⊢
        exact hrec _ _ _ h0 hi hb
      · rw [if_neg hdyn]
        obtain ⟨h1, h2⟩ := hst fs rfl
        have e : 8 * (start / 8 + i * (eb / 8)) = start + i * eb := by
          have : i * eb = 8 * (i * (eb / 8)) := by
            have h3 : eb = 8 * (eb / 8) := by omega
            calc i * eb = i * (8 * (eb / 8)) := by rw [← h3]
              _ = 8 * (i * (eb / 8)) := by rw [Nat.mul_left_comm]
          omega
        rw [e]
        exact hrec _ _ _ h0 hi hb

theorem decIdx_safe (c : Cfg) (t : Ty) (lp : Bool) (f : Nat → Nat → Res (t.Val × Nat)) (g : Nat → IScan) (d : Buf)
    (eb start : Nat) (big : Bool) (hfix : t.fixed eb = eb)
    (hb : ∀ off o, off ≤ d.length → g off = .ok o → off ≤ o ∧ o ≤ d.length)
    (hf : ∀ i off o, g off = .ok o → 8 * o + (start + i * eb) + eb ≤ 8 * d.length →
      SafeElem c t lp eb big d (start + i * eb) off o (f i off)) :
    ∀ (n i off o : Nat), off ≤ d.length → iIter g n off = .ok o → 8 * o + start + (i + n) * eb ≤ 8 * d.length →
    decIdx f n i off = .fail ∨ ∃ xs wss, decIdx f n i off = .ok (xs, o) ∧ xs.length = n ∧
      All2 (fun x w => t.Repr c lp eb big x w) xs wss ∧ Agrees d (8 * off + (start + i * eb)) wss.flatten ∧
      8 * o + n * eb = 8 * off + wss.flatten.length := by
  intro n
  induction n with
  | zero =>
    intro i off o _ h hlen
    simp only [iIter] at h
    cases h
    refine Or.inr ⟨[], [], rfl, rfl, All2.nil, ⟨?_, by simp⟩, by simp⟩
    simp only [List.flatten_nil, List.length_nil]
    simp only [Nat.add_zero] at hlen ⊢; omega
  | succ n ih =>
    intro i off o hoff h hlen
    simp only [iIter] at h
    split at h
    · rename_i o1 h1
      have hb1 := hb _ _ hoff h1
      have hb2 := iIter_bound hb _ _ _ hb1.2 h
      have hm : (i + (n + 1)) * eb = i * eb + eb + n * eb := by
        rw [← Nat.add_assoc, Nat.add_mul, Nat.add_mul, Nat.one_mul]; omega
      have hm2 : (i + 1 + n) * eb = i * eb + eb + n * eb := by
        rw [Nat.add_mul, Nat.add_mul, Nat.one_mul]
      rcases hf i off o1 h1 (by omega) with hfail | ⟨v, w, e, hr, hag, hl1⟩
      · left; simp only [decIdx, hfail]
      · rw [hfix] at hl1
        rcases ih (i + 1) o1 o hb1.2 h (by omega) with hfail | ⟨xs, wss, e2, hl, hrs, hags, hl2⟩
        · left; simp only [decIdx, e, hfail]
        · right
          have hpos : 8 * o1 + (start + (i + 1) * eb) = 8 * off + (start + i * eb) + w.length := by
            rw [Nat.add_mul, Nat.one_mul]; omega
          rw [hpos] at hags
          refine ⟨v :: xs, w :: wss, by simp only [decIdx, e, e2], by simp [hl], All2.cons hr hrs, ?_, ?_⟩
          · rw [List.flatten_cons]; exact Agrees.append.mpr ⟨hag, hags⟩
          · rw [List.flatten_cons, List.length_append, Nat.add_mul, Nat.one_mul]; omega
    · rename_i hne; exact absurd h (hne _)

theorem iLeaf_ok {leaf} {k : Nat} {d : Buf} {off o : Nat} (h : iLeaf leaf k d off = .ok o) :
    ∃ c, leaf d (off + k) = .ok c ∧ o = off + c := by
  unfold iLeaf at h
  split at h
  · cases h
  · split at h
    · rename_i c hc; cases h; exact ⟨c, hc, rfl⟩
    · cases h
    · cases h

mutual
  theorem Ty.decElem_safe (c : Cfg) : ∀ (t : Ty) (big arr : Bool) (start n : Nat) (d : Buf) (off o : Nat),
      t.wf = true → t.elemOk arr start n → t.noDirectDyn = true → t.sizesOk = true → d.length < 2 ^ 62 →
      t.iElem (start / 8) d off = .ok o → 8 * o + start + t.fixed n ≤ 8 * d.length →
      SafeElem c t false n big d start off o (t.decElem c big arr d start n off)
    | .sc s, big, arr, start, n, d, off, o => by
      intro _ hok _ _ _ hi hb
      simp only [Ty.elemOk] at hok
      simp only [Ty.iElem] at hi
      cases hi
      simp only [Ty.fixed] at hb
      obtain ⟨y, e, r, hraw, hc⟩ := sc_dec_unrolled (big := big) c.signExt hok.1 hok.2 start off d
        (c.prev (s.tempWidth arr n)) hb
      right
      refine ⟨(signExtUnrolled c.signExt s.signed n y).setWidth s.width, scWire n big (s.conv r),
        by simp only [Ty.decElem, e], ?_, hraw.toAgrees hb (Sc.conv_bits hok.1 r), by simp [Ty.fixed]⟩
      simp only [Ty.Repr, Bool.and_false, Bool.false_eq_true, if_false]
      rw [hc]; exact ⟨Sc.conv_inRange hok.1 r, rfl⟩
    | .str, big, arr, start, n, d, off, o => by
      intro _ hok _ _ _ hi hb
      simp only [Ty.elemOk] at hok
      simp only [Ty.iElem] at hi
      obtain ⟨cc, h1, h2⟩ := iLeaf_ok hi
      obtain ⟨a, b⟩ := decString_of_ds h1
      obtain ⟨g1, g2, g3⟩ := string_repr_to h1
      right
      have e : 8 * off + start = 8 * (off + start / 8) := by omega
      refine ⟨_, _, by simp only [Ty.decElem, h2]; exact a, ⟨b, rfl⟩, by rw [e]; exact g1, ?_⟩
      rw [byteWire_length, List.length_append, List.length_take, List.length_drop]
      simp only [Ty.fixed, List.length_cons, List.length_nil]
      omega
    | .bytes, big, arr, start, n, d, off, o => by
      intro _ hok _ _ _ hi hb
      simp only [Ty.elemOk] at hok
      simp only [Ty.iElem] at hi
      obtain ⟨cc, h1, h2⟩ := iLeaf_ok hi
      obtain ⟨lv, last, a1, a2, a3, a4⟩ := dsBytesAt_ok h1
      have := decBytes_of_ds a1 a2 a4
      obtain ⟨bs, g1, g2, g3, g4⟩ := bytes_repr_to a1 a4
      right
      have e : 8 * off + start = 8 * (off + start / 8) := by omega
      refine ⟨_, _, by simp only [Ty.decElem, h2, a3]; exact this, ⟨bs, g1, g2, rfl⟩, by rw [e]; exact g4, ?_⟩
      rw [byteWire_length, List.length_append, List.length_take, List.length_drop]
      simp only [Ty.fixed]
      omega
    | .struct fs, big, arr, start, n, d, off, o => by
      intro hwf hok hnd hsz hd hi hb
      have hw0 := hwf
      have hok0 := hok
      simp only [Ty.elemOk] at hok
      simp only [Ty.wf, Bool.and_eq_true, decide_eq_true_eq] at hwf
      simp only [Ty.sizesOk, Bool.and_eq_true, decide_eq_true_eq] at hsz
      have hnd' : fs.noDirectDyn = true := by simpa [Ty.noDirectDyn] using hnd
      have key : ∃ o', fs.iFields 0 (d.drop (off + start / 8)) 0 = .ok o' ∧
          o' + fs.sum / 8 ≤ (d.drop (off + start / 8)).length ∧ off + start / 8 ≤ d.length ∧
          (if fs.dynamic then off + (o' + fs.sum / 8) else off) = o := by
        by_cases hdyn : fs.dynamic = true
        · simp only [Ty.iElem, hdyn, if_true, iSub] at hi
          split at hi
          · rename_i s hs
            cases hi
            obtain ⟨o', h1, h2, h3⟩ := iFinish_bound hs
            exact ⟨o', h1, by omega, by omega, by simp only [hdyn, if_true]; omega⟩
          · cases hi
        · simp only [Ty.iElem, hdyn, Bool.false_eq_true, if_false] at hi
          cases hi
          simp only [Ty.fixed, hdyn, Bool.false_eq_true, if_false] at hb
          refine ⟨0, Fields.iFields_static fs 0 _ 0 hwf.1 (by simpa using hdyn), ?_, by omega, by simp [hdyn]⟩
          rw [List.length_drop]; omega
      obtain ⟨o', h1, h2, h3, h4⟩ := key
      have hdl : (d.drop (off + start / 8)).length < 2 ^ 62 := by rw [List.length_drop]; omega
      have hsize : fs.iSize (d.drop (off + start / 8)) = .ok (o' + fs.sum / 8) := by
        simp only [Fields.iSize, h1, iFinish]
        rw [if_neg (by omega)]
      have hrel := Fields.decodeSize_rel hwf.1 hsz.1 hsz.2 hdl
      rw [hsize] at hrel
      simp only [RelSize] at hrel
      have hneg : ¬ ((o' + fs.sum / 8 : Nat) : Int) < 0 := by omega
      rcases Fields.decFields_safe c fs 0 (d.drop (off + start / 8)) 0 o' hwf.1 hnd' hsz.1 hdl (by omega) h1 (by omega) with
        hfail | ⟨v, ws, e, hr, hag, hl⟩
      · left
        simp only [Ty.decElem, Buf.from?, h3, if_true, hrel, hfail]
        rw [if_neg hneg]
      · right
        have ee : 8 * off + start = 8 * (off + start / 8) + (8 * 0 + 0) := by omega
        refine ⟨v, ws, ?_, hr, by rw [ee]; exact (Agrees.drop h3).mp hag, ?_⟩
        · simp only [Ty.decElem, Buf.from?, h3, if_true, hrel, e]
          rw [if_neg hneg, h4]
        · by_cases hdyn : fs.dynamic = true
          · simp only [hdyn, if_true] at h4
            simp only [Ty.fixed, hdyn, if_true]; omega
          · have := Ty.Repr_length c (.struct fs) arr false big start n v ws hw0 hok0 (by simpa [Ty.dynamic] using hdyn) hr
            rw [this]
            simp only [hdyn, Bool.false_eq_true, if_false] at h4
            rw [h4]
  theorem Fields.decFields_safe (c : Cfg) : ∀ (fs : Fields) (start : Nat) (d : Buf) (off o : Nat),
      fs.wf start = true → fs.noDirectDyn = true → fs.sizesOk = true → d.length < 2 ^ 62 → off ≤ d.length →
      fs.iFields start d off = .ok o → 8 * o + start + fs.sum ≤ 8 * d.length →
      fs.decFields c d start off = .fail ∨
        ∃ v ws, fs.decFields c d start off = .ok (v, o) ∧ fs.Repr c v ws ∧ Agrees d (8 * off + start) ws ∧
          8 * o + fs.sum = 8 * off + ws.length
    | .nil, start, d, off, o => by
      intro _ _ _ _ _ h hb
      simp only [Fields.iFields] at h
      cases h
      simp only [Fields.sum] at hb
      exact Or.inr ⟨(), [], rfl, rfl, ⟨by simp; omega, by simp⟩, by simp [Fields.sum]⟩
    | .void n r, start, d, off, o => by
      intro hw hn hs hd hoff h hb
      simp only [Fields.wf, Fields.noDirectDyn, Fields.sizesOk, Fields.iFields, Fields.sum] at hw hn hs h hb
      have hbd := Fields.iFields_bound r _ d off o hoff h
      rcases Fields.decFields_safe c r (start + n) d off o hw hn hs hd hoff h (by omega) with hf | ⟨v, ws, e, hr, hag, hl⟩
      · exact Or.inl hf
      · refine Or.inr ⟨v, List.replicate n none ++ ws, e, ⟨ws, hr, rfl⟩, ?_, ?_⟩
        · rw [Agrees.append, List.length_replicate, Nat.add_assoc]
          refine ⟨⟨by simp; omega, fun j b hj => ?_⟩, hag⟩
          rw [List.getElem?_replicate] at hj
          split at hj <;> cases hj
        · simp only [Fields.sum, List.length_append, List.length_replicate]; omega
    | .const p n big val r, start, d, off, o => by
      intro hw hn hs hd hoff h hb
      simp only [Fields.noDirectDyn, Fields.sizesOk, Fields.iFields, Fields.sum] at hn hs h hb
      simp only [Fields.wf, Bool.and_eq_true, decide_eq_true_eq] at hw
      obtain ⟨⟨⟨⟨⟨⟨w1, w2⟩, w3⟩, w4⟩, w5⟩, w6⟩, w7⟩ := hw
      have hbd := Fields.iFields_bound r _ d off o hoff h
      obtain ⟨y, ey, hy⟩ := const_dec (big := big) w2 w3 w5 start off d (by omega)
      by_cases hyv : y.toNat = val
      · have he : (Fields.const p n big val r).decFields c d start off = r.decFields c d (start + n) off := by
          simp only [Fields.decFields, ey]; exact if_pos hyv
        rw [he]
        rcases Fields.decFields_safe c r (start + n) d off o w7 hn hs hd hoff h (by omega) with hf | ⟨v, ws, e, hr, hag, hl⟩
        · exact Or.inl hf
        · refine Or.inr ⟨v, scWire n big (BitVec.ofNat 64 val) ++ ws, e, ⟨ws, hr, rfl⟩, ?_, ?_⟩
          · rw [Agrees.append, scWire_length, Nat.add_assoc]
            exact ⟨by have := hy.mp hyv; rwa [← Nat.add_assoc] at *, hag⟩
          · simp only [Fields.sum, List.length_append, scWire_length]; omega
      · left
        simp only [Fields.decFields, ey]; exact if_neg hyv
    | .one t bits big r, start, d, off, o => by
      intro hw hn hs hd hoff h hb
      obtain ⟨h1, h2, h3, h4, _⟩ := wf_one hw
      have key : ∃ o1, t.iElem (start / 8) d off = .ok o1 ∧ r.iFields (start + bits.getD 0) d o1 = .ok o ∧
          t.fixed (bits.getD 0) = bits.getD 0 ∧
          (if t.dynamic = true then List.replicate (bits.getD 0) none else ([] : List (Option Bool))) = [] := by
        cases bits with
        | none =>
          simp only [Fields.iFields] at h
          split at h
          · rename_i o1 ho1
            refine ⟨o1, ho1, by simpa using h, ?_, by simp⟩
            simp only [Option.getD_none] at h4 ⊢; omega
          · rename_i hne; exact absurd h (hne _)
        | some n =>
          have hdyn := noDirectDyn_one rfl hw hn
          simp only [Fields.iFields] at h
          refine ⟨off, Ty.iElem_static hdyn _ _ _, by simpa using h, ?_, by simp [hdyn]⟩
          simp only [hdyn, Bool.false_eq_true, if_false] at h4; omega
      obtain ⟨o1, k1, k2, k3, k4⟩ := key
      simp only [Fields.noDirectDyn, Bool.and_eq_true] at hn
      simp only [Fields.sizesOk, Bool.and_eq_true] at hs
      simp only [Fields.sum] at hb
      have b1 := Ty.iElem_bound t _ d off o1 hoff k1
      have b2 := Fields.iFields_bound r _ d o1 o b1.2 k2
      rcases Ty.decElem_safe c t big false start (bits.getD 0) d off o1 h1 h3 hn.1.1 hs.1 hd k1 (by rw [k3]; omega)
        with hfail | ⟨v1, w1, e1, hr1, hag1, hl1⟩
      · left; simp only [Fields.decFields, hfail]
      · rw [k3] at hl1
        rcases Fields.decFields_safe c r (start + bits.getD 0) d o1 o h2 hn.1.2 hs.2 hd b1.2 k2 (by omega) with
          hfail | ⟨v2, w2, e2, hr2, hag2, hl2⟩
        · left; simp only [Fields.decFields, e1, hfail]
        · right
          have hpos : 8 * o1 + (start + bits.getD 0) = 8 * off + start + w1.length := by omega
          rw [hpos] at hag2
          refine ⟨(v1, v2), w1 ++ w2, by simp only [Fields.decFields, e1, e2], ⟨w1, w2, hr1, hr2, ?_⟩,
            Agrees.append.mpr ⟨hag1, hag2⟩, ?_⟩
          · rw [k4]; simp
          · simp only [Fields.sum, List.length_append]; omega
    | .arr t len bits big r, start, d, off, o => by
      intro hw hn hs hd hoff h hb
      obtain ⟨h0, h1, h2, h3, h4, h5, h7, h6⟩ := wf_arr hw
      have hk : ∀ i off, t.iElem ((start + i * (bits.getD 0 / len)) / 8) d off = t.iElem (start / 8) d off := by
        intro i off
        by_cases hdyn : t.dynamic = true
        · rw [h7.mpr hdyn]; simp
        · rw [Ty.iElem_static (by simpa using hdyn), Ty.iElem_static (by simpa using hdyn)]
      have key : ∃ o1, iIter (fun off => t.iElem (start / 8) d off) len off = .ok o1 ∧
          r.iFields (start + bits.getD 0) d o1 = .ok o := by
        cases bits with
        | none =>
          simp only [Fields.iFields] at h
          split at h
          · rename_i o1 ho1
            exact ⟨o1, ho1, by simpa using h⟩
          · rename_i hne; exact absurd h (hne _)
        | some n =>
          have hdyn : t.dynamic = false := by
            cases hd : t.dynamic with
            | false => rfl
            | true => exact absurd (h7.mpr hd) (by simp)
          simp only [Fields.iFields] at h
          exact ⟨off, iIter_static (fun off => Ty.iElem_static hdyn _ _ _) len off, by simpa using h⟩
      obtain ⟨o1, k1, k2⟩ := key
      simp only [Fields.noDirectDyn, Bool.and_eq_true] at hn
      simp only [Fields.sizesOk, Bool.and_eq_true] at hs
      simp only [Fields.sum] at hb
      have hbd : ∀ off o, off ≤ d.length → t.iElem (start / 8) d off = .ok o → off ≤ o ∧ o ≤ d.length :=
        fun off o h e => Ty.iElem_bound t _ d off o h e
      have b1 := iIter_bound hbd _ _ _ hoff k1
      have b2 := Fields.iFields_bound r _ d o1 o b1.2 k2
      have hdec : ∀ st off o, t.elemOk true st (bits.getD 0 / len) → t.iElem (st / 8) d off = .ok o →
          8 * o + st + bits.getD 0 / len ≤ 8 * d.length →
          SafeElem c t false (bits.getD 0 / len) big d st off o (t.decElem c big true d st (bits.getD 0 / len) off) :=
        fun st off o hok hi hb =>
          Ty.decElem_safe c t big true st _ d off o h1 hok hn.1 hs.1 hd hi (by rw [h4]; exact hb)
      have hel := fun i off o (hi : t.iElem (start / 8) d off = .ok o) hb =>
        arrElemDec_safe c t (fun from_ n off => t.decElem c big true d from_ n off) len (bits.getD 0 / len) start big d
          h3 h4 h6 hdec i off o (by rw [hk]; exact hi) hb
      rcases decIdx_safe c t (c.useLoop len) _ (fun off => t.iElem (start / 8) d off) d (bits.getD 0 / len) start big h4 hbd hel
          len 0 off o1 hoff k1 (by simp only [Nat.zero_add]; rw [h5]; omega) with hfail | ⟨xs, wss, e1, hl, hrs, hag1, hl1⟩
      · left; simp only [Fields.decFields, hfail]
      · rw [h5] at hl1
        simp only [Nat.zero_mul, Nat.add_zero] at hag1
        rcases Fields.decFields_safe c r (start + bits.getD 0) d o1 o h2 hn.2 hs.2 hd b1.2 k2 (by omega) with
          hfail | ⟨v2, w2, e2, hr2, hag2, hl2⟩
        · left; simp only [Fields.decFields, e1, hfail]
        · right
          have hpos : 8 * o1 + (start + bits.getD 0) = 8 * off + start + wss.flatten.length := by omega
          rw [hpos] at hag2
          refine ⟨(xs, v2), wss.flatten ++ w2, by simp only [Fields.decFields, e1, e2],
            ⟨wss, w2, hl, hrs, hr2, rfl⟩, Agrees.append.mpr ⟨hag1, hag2⟩, ?_⟩
          simp only [Fields.sum, List.length_append]; omega
end

end Bubbler
