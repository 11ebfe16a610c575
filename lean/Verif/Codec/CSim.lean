import Verif.Codec.CDecMain
import Verif.Codec.DecSafe
import Verif.Codec.PySim

/-
`X_decode` of the C target follows the Go target's Decode on every input whose size Go accepts.
-/
set_option linter.unusedSimpArgs false
namespace Bubbler

mutual
  /-- No bytes field, at any depth. -/
  def Ty.noBytes : Ty → Bool
    | .bytes => false
    | .struct fs => fs.noBytes
    | _ => true
  def Fields.noBytes : Fields → Bool
    | .nil => true
    | .void _ r => r.noBytes
    | .const _ _ _ _ r => r.noBytes
    | .one t _ _ r => t.noBytes && r.noBytes
    | .arr t _ _ _ r => t.noBytes && r.noBytes
end

/-- C's result `p` for Go's result `g`: the same, or undefined behaviour, which needs a bytes field. -/
def CSim {α : Type} (nb : Bool) (g p : Res α) : Prop := p = g ∨ (p = .panic ∧ nb = false)

theorem CSim.mono {α : Type} {nb nb' : Bool} {g p : Res α} (h : CSim nb g p) (hb : nb = false → nb' = false) : CSim nb' g p := by
  rcases h with h | ⟨h, e⟩
  · exact Or.inl h
  · exact Or.inr ⟨h, hb e⟩

theorem CSim.mapOff {α : Type} {nb : Bool} {g p : Res (α × Nat)} (k : Nat → Nat) (h : CSim nb g p) :
    CSim nb (Bubbler.mapOff k g) (Bubbler.mapOff k p) := by
  rcases h with rfl | ⟨rfl, e⟩
  · exact Or.inl rfl
  · exact Or.inr ⟨rfl, e⟩

theorem CSim.seq {α γ : Type} {nb : Bool} {g1 p1 : Res (α × Nat)} {g2 p2 : Nat → Res (γ × Nat)}
    (h1 : CSim nb g1 p1) (h2 : ∀ x o, g1 = .ok (x, o) → CSim nb (g2 o) (p2 o)) :
    CSim nb (seqRes g1 g2) (seqRes p1 p2) := by
  rcases h1 with rfl | ⟨rfl, e⟩
  · rcases p1 with ⟨x, o⟩ | _ | _
    · rcases h2 x o rfl with h | ⟨h, e⟩
      · left; simp only [seqRes, h]
      · right; exact ⟨by simp only [seqRes, h], e⟩
    · exact Or.inl rfl
    · exact Or.inl rfl
  · exact Or.inr ⟨rfl, e⟩

theorem cDecLen_eq (k : Nat) (d : Buf) (acc : BitVec 64) (shift off : Nat) :
    cDecLen k d acc shift off = decLen k d acc shift off ∨ cDecLen k d acc shift off = .panic := by
  induction acc, shift, off using decLen.induct (k := k) (d := d) with
  | case1 acc shift off h =>
    left
    rw [cDecLen, decLen]
    split
    · split
      · rfl
      · rename_i h'; rw [h] at h'; cases h'
    · rename_i h'; rw [h] at h'; cases h'
  | case2 acc shift off b h hb =>
    rw [cDecLen, decLen]
    split
    · rename_i h'; rw [h] at h'; cases h'
    · rename_i b' h'
      rw [h] at h'; cases h'
      split
      · exact Or.inr rfl
      · rename_i hs
        left
        have e : BitVec.ofNat 64 ((b &&& 0x7F#8).toNat * 2 ^ shift) = (b &&& 0x7F#8).setWidth 64 <<< shift := by
          apply BitVec.eq_of_toNat_eq
          rw [BitVec.toNat_ofNat, BitVec.toNat_shiftLeft, Nat.shiftLeft_eq, BitVec.toNat_setWidth,
            Nat.mod_eq_of_lt (a := (b &&& 0x7F#8).toNat) (by have := (b &&& 0x7F#8).isLt; omega)]
        split
        · rename_i h'; rw [h] at h'; cases h'
        · rename_i b' h'
          rw [h] at h'; cases h'
          simp only [e, if_pos hb]
  | case3 acc shift off b h hb ih =>
    rw [cDecLen, decLen]
    split
    · rename_i h'; rw [h] at h'; cases h'
    · rename_i b' h'
      rw [h] at h'; cases h'
      split
      · exact Or.inr rfl
      · rename_i hs
        have e : BitVec.ofNat 64 ((b &&& 0x7F#8).toNat * 2 ^ shift) = (b &&& 0x7F#8).setWidth 64 <<< shift := by
          apply BitVec.eq_of_toNat_eq
          rw [BitVec.toNat_ofNat, BitVec.toNat_shiftLeft, Nat.shiftLeft_eq, BitVec.toNat_setWidth,
            Nat.mod_eq_of_lt (a := (b &&& 0x7F#8).toNat) (by have := (b &&& 0x7F#8).isLt; omega)]
        split
        · rename_i h'; rw [h] at h'; cases h'
        · rename_i b' h'
          rw [h] at h'; cases h'
          rw [e]
          simp only [if_neg hb]
          exact ih

theorem cDecBytes_eq {k : Nat} {d : Buf} {off : Nat} {x : List Byte} {o : Nat} (h : decBytes k d off = .ok (x, o)) :
    cDecBytes k d off = .ok (x, o) ∨ cDecBytes k d off = .panic := by
  unfold cDecBytes
  rcases cDecLen_eq k d 0#64 0 off with e | e
  · rw [e]
    unfold decBytes at h
    rcases hl : decLen k d 0#64 0 off with ⟨lv, o1⟩ | _ | _
    · rw [hl] at h
      simp only [Res.bind] at h ⊢
      split at h
      · cases h
      · left; exact h
    · rw [hl] at h; cases h
    · rw [hl] at h; cases h
  · rw [e]; exact Or.inr rfl

theorem cArrElemDec_sim (c : Cfg) (t : Ty) (recC rec : Nat → Nat → Nat → Res (t.Val × Nat)) (len eb start : Nat) (big : Bool)
    (d : Buf) (i off o : Nat) (hok : t.elemOk true (start + i * eb) eb) (hfix : t.fixed eb = eb)
    (hst : ∀ fs, t = .struct fs → start % 8 = 0 ∧ eb % 8 = 0)
    (hi : t.iElem ((start + i * eb) / 8) d off = .ok o)
    (hb : 8 * o + (start + i * eb) + eb ≤ 8 * d.length)
    (hrec : CSim t.noBytes (rec (start + i * eb) eb off) (recC (start + i * eb) eb off)) :
    CSim t.noBytes (arrElemDec c t rec len eb start big d i off) (cArrElemDec c t recC len eb start big d i off) := by
  unfold arrElemDec cArrElemDec
  cases hl : c.useLoop len with
  | false => simp only [Bool.false_eq_true, if_false]; exact hrec
  | true =>
    simp only [if_true]
    cases t with
    | sc s =>
      simp only [Ty.elemOk] at hok
      simp only [Ty.iElem] at hi
      cases hi
      have hf := Sc.wf_facts hok.1
      obtain ⟨v, e, r⟩ := bbReadFieldBits_spec d (8 * off + (start + i * eb)) eb big (by omega) hb
      rw [cReadFieldBits_eq d _ eb big (by omega) (by omega) hb, e]
      left
      simp only
      rw [Sc.cOfU64_eq c.signExt c.signExt hok.1 v r.2]
    | str =>
      have e : start + i * eb = start := by simp only [Ty.fixed] at hfix; rw [← hfix]; simp
      rw [e] at hrec
      exact hrec
    | bytes =>
      have e : start + i * eb = start := by simp only [Ty.fixed] at hfix; rw [← hfix]; simp
      rw [e] at hrec
      exact hrec
    | struct fs =>
      simp only
      by_cases hdyn : fs.dynamic = true
      · rw [if_pos hdyn, if_pos hdyn]
        have e : start + i * eb = start := by simp only [Ty.fixed, hdyn, if_true] at hfix; rw [← hfix]; simp
        rw [e] at hrec
        exact hrec
      · rw [if_neg hdyn, if_neg hdyn]
        obtain ⟨h1, h2⟩ := hst fs rfl
        have e : 8 * (start / 8 + i * (eb / 8)) = start + i * eb := by
          have : i * eb = 8 * (i * (eb / 8)) := by
            have h3 : eb = 8 * (eb / 8) := by omega
            calc i * eb = i * (8 * (eb / 8)) := by rw [← h3]
              _ = 8 * (i * (eb / 8)) := by rw [Nat.mul_left_comm]
          omega
        rw [e]
        exact hrec

theorem decIdx_csim {α : Type} (nb : Bool) (f fp : Nat → Nat → Res (α × Nat)) (g : Nat → IScan) (L eb start : Nat)
    (hb : ∀ off o, off ≤ L → g off = .ok o → off ≤ o ∧ o ≤ L)
    (hf : ∀ i off o, g off = .ok o → 8 * o + (start + i * eb) + eb ≤ 8 * L →
      f i off = .fail ∨ ∃ v, f i off = .ok (v, o)) :
    ∀ (n i off o : Nat), off ≤ L → iIter g n off = .ok o → 8 * o + start + (i + n) * eb ≤ 8 * L →
    (∀ j off o, i ≤ j → j < i + n → g off = .ok o → 8 * o + (start + j * eb) + eb ≤ 8 * L →
      CSim nb (f j off) (fp j off)) →
    CSim nb (decIdx f n i off) (decIdx fp n i off) := by
  intro n
  induction n with
  | zero => intro i off o _ h _ _; exact Or.inl rfl
  | succ n ih =>
    intro i off o hoff h hlen hsim
    simp only [iIter] at h
    split at h
    · rename_i o1 h1
      have hb1 := hb _ _ hoff h1
      have hb2 := iIter_bound hb _ _ _ hb1.2 h
      have hm : (i + (n + 1)) * eb = i * eb + eb + n * eb := by
        rw [← Nat.add_assoc, Nat.add_mul, Nat.add_mul, Nat.one_mul]; omega
      have hm2 : (i + 1 + n) * eb = i * eb + eb + n * eb := by
        rw [Nat.add_mul, Nat.add_mul, Nat.one_mul]
      have hs1 := hsim i off o1 (by omega) (by omega) h1 (by omega)
      have hg1 := hf i off o1 h1 (by omega)
      have hih := ih (i + 1) o1 o hb1.2 h (by omega)
        (fun j off o hj1 hj2 hg hl => hsim j off o (by omega) (by omega) hg hl)
      simp only [decIdx]
      rcases hs1 with hs1 | ⟨hs1, e⟩
      · rw [hs1]
        rcases hg1 with hg1 | ⟨v, hg1⟩
        · rw [hg1]; exact Or.inl rfl
        · rw [hg1]
          simp only
          rcases hih with hih | ⟨hih, e⟩
          · rw [hih]; exact Or.inl rfl
          · rw [hih]; exact Or.inr ⟨rfl, e⟩
      · rw [hs1]; exact Or.inr ⟨rfl, e⟩
    · rename_i hne; exact absurd h (hne _)

mutual
  theorem Ty.cDec_sim (c : Cfg) : ∀ (t : Ty) (big arr : Bool) (start n : Nat) (d : Buf) (off o : Nat),
      t.wf = true → t.elemOk arr start n → t.noDirectDyn = true → t.sizesOk = true → d.length < 2 ^ 62 →
      t.iElem (start / 8) d off = .ok o → 8 * o + start + t.fixed n ≤ 8 * d.length →
      CSim t.noBytes (t.decElem c big arr d start n off) (t.cDecElem c big arr d start n off)
    | .sc s, big, arr, start, n, d, off, o => by
      intro _ hok _ _ _ hi hb
      simp only [Ty.iElem] at hi
      cases hi
      simp only [Ty.fixed] at hb
      left
      simp only [Ty.decElem, Ty.cDecElem]
      rw [cDecField_eq big start n off d _ (by omega)]
      rcases decField big start n off d (c.prev (s.tempWidth arr n)) with _ | y <;> rfl
    | .str, big, arr, start, n, d, off, o => fun _ _ _ _ _ _ _ => Or.inl rfl
    | .bytes, big, arr, start, n, d, off, o => by
      intro _ hok _ _ _ hi hb
      simp only [Ty.iElem] at hi
      obtain ⟨cc, h1, h2⟩ := iLeaf_ok hi
      obtain ⟨lv, last, a1, a2, a3, a4⟩ := dsBytesAt_ok h1
      have e1 := decBytes_of_ds a1 a2 a4
      simp only [Ty.decElem, Ty.cDecElem, Ty.noBytes]
      rw [e1]
      rcases cDecBytes_eq e1 with h | h
      · exact Or.inl h
      · exact Or.inr ⟨h, rfl⟩
    | .struct fs, big, arr, start, n, d, off, o => by
      intro hwf hok hnd hsz hd hi hb
      simp only [Ty.elemOk] at hok
      simp only [Ty.wf, Bool.and_eq_true, decide_eq_true_eq] at hwf
      simp only [Ty.sizesOk, Bool.and_eq_true, decide_eq_true_eq] at hsz
      have hnd' : fs.noDirectDyn = true := by simpa [Ty.noDirectDyn] using hnd
      have key : ∃ o', fs.iFields 0 (d.drop (off + start / 8)) 0 = .ok o' ∧
          o' + fs.sum / 8 ≤ (d.drop (off + start / 8)).length ∧ off + start / 8 ≤ d.length := by
        by_cases hdyn : fs.dynamic = true
        · simp only [Ty.iElem, hdyn, if_true, iSub] at hi
          split at hi
          · rename_i s hs
            cases hi
            obtain ⟨o', h1, h2, h3⟩ := iFinish_bound hs
            exact ⟨o', h1, by omega, by omega⟩
          · cases hi
        · simp only [Ty.iElem, hdyn, Bool.false_eq_true, if_false] at hi
          cases hi
          simp only [Ty.fixed, hdyn, Bool.false_eq_true, if_false] at hb
          refine ⟨0, Fields.iFields_static fs 0 _ 0 hwf.1 (by simpa using hdyn), ?_, by omega⟩
          rw [List.length_drop]; omega
      obtain ⟨o', h1, h2, h3⟩ := key
      have hdl : (d.drop (off + start / 8)).length < 2 ^ 62 := by rw [List.length_drop]; omega
      have hsize : fs.iSize (d.drop (off + start / 8)) = .ok (o' + fs.sum / 8) := by
        simp only [Fields.iSize, h1, iFinish]
        rw [if_neg (by omega)]
      have hrel := Fields.decodeSize_rel hwf.1 hsz.1 hsz.2 hdl
      rw [hsize] at hrel
      simp only [RelSize] at hrel
      have hneg : ¬ ((o' + fs.sum / 8 : Nat) : Int) < 0 := by omega
      have hsim := Fields.cDec_sim c fs 0 (d.drop (off + start / 8)) 0 o' hwf.1 hnd' hsz.1 hdl (by omega) h1 (by omega)
      have hm := hsim.mapOff (fun o => if fs.dynamic then off + (o + fs.sum / 8) else off)
      have eg : (Ty.struct fs).decElem c big arr d start n off =
          mapOff (fun o => if fs.dynamic then off + (o + fs.sum / 8) else off)
            (fs.decFields c (d.drop (off + start / 8)) 0 0) := by
        simp only [Ty.decElem, Buf.from?, h3, if_true, hrel]
        rw [if_neg hneg]
        rcases fs.decFields c (d.drop (off + start / 8)) 0 0 with ⟨v, o⟩ | _ | _ <;> rfl
      have ep : (Ty.struct fs).cDecElem c big arr d start n off =
          mapOff (fun o => if fs.dynamic then off + (o + fs.sum / 8) else off)
            (fs.cDecFields c (d.drop (off + start / 8)) 0 0) := by
        simp only [Ty.cDecElem, Buf.from?, h3, if_true]
        rcases fs.cDecFields c (d.drop (off + start / 8)) 0 0 with ⟨v, o⟩ | _ | _ <;> rfl
      rw [eg, ep]
      simp only [Ty.noBytes]
      exact hm
  theorem Fields.cDec_sim (c : Cfg) : ∀ (fs : Fields) (start : Nat) (d : Buf) (off o : Nat),
      fs.wf start = true → fs.noDirectDyn = true → fs.sizesOk = true → d.length < 2 ^ 62 → off ≤ d.length →
      fs.iFields start d off = .ok o → 8 * o + start + fs.sum ≤ 8 * d.length →
      CSim fs.noBytes (fs.decFields c d start off) (fs.cDecFields c d start off)
    | .nil, start, d, off, o => fun _ _ _ _ _ _ _ => Or.inl rfl
    | .void n r, start, d, off, o => by
      intro hw hn hs hd hoff h hb
      simp only [Fields.wf, Fields.noDirectDyn, Fields.sizesOk, Fields.iFields, Fields.sum] at hw hn hs h hb
      have := Fields.cDec_sim c r (start + n) d off o hw hn hs hd hoff h (by omega)
      simp only [Fields.decFields, Fields.cDecFields, Fields.noBytes]
      exact this
    | .const p n big val r, start, d, off, o => by
      intro hw hn hs hd hoff h hb
      simp only [Fields.noDirectDyn, Fields.sizesOk, Fields.iFields, Fields.sum] at hn hs h hb
      simp only [Fields.wf, Bool.and_eq_true, decide_eq_true_eq] at hw
      obtain ⟨⟨⟨⟨⟨⟨w1, w2⟩, w3⟩, w4⟩, w5⟩, w6⟩, w7⟩ := hw
      have hbd := Fields.iFields_bound r _ d off o hoff h
      have hrec := Fields.cDec_sim c r (start + n) d off o w7 hn hs hd hoff h (by omega)
      simp only [Fields.decFields, Fields.cDecFields, Fields.noBytes]
      rw [cDecField_eq big start n off d _ (by omega)]
      rcases decField big start n off d (0#p.width) with _ | y
      · exact Or.inl rfl
      · by_cases hv : y.toNat = val
        · simp only [hv, if_true]; exact hrec
        · simp only [hv, if_false]; exact Or.inl rfl
    | .one t bits big r, start, d, off, o => by
      intro hw hn hs hd hoff h hb
      obtain ⟨h1, h2, h3, h4, _⟩ := wf_one hw
      have key : ∃ o1, t.iElem (start / 8) d off = .ok o1 ∧ r.iFields (start + bits.getD 0) d o1 = .ok o ∧
          t.fixed (bits.getD 0) = bits.getD 0 := by
        cases bits with
        | none =>
          simp only [Fields.iFields] at h
          split at h
          · rename_i o1 ho1
            refine ⟨o1, ho1, by simpa using h, ?_⟩
            simp only [Option.getD_none] at h4 ⊢; omega
          · rename_i hne; exact absurd h (hne _)
        | some n =>
          have hdyn := noDirectDyn_one rfl hw hn
          simp only [Fields.iFields] at h
          refine ⟨off, Ty.iElem_static hdyn _ _ _, by simpa using h, ?_⟩
          simp only [hdyn, Bool.false_eq_true, if_false] at h4; omega
      obtain ⟨o1, k1, k2, k3⟩ := key
      simp only [Fields.noDirectDyn, Bool.and_eq_true] at hn
      simp only [Fields.sizesOk, Bool.and_eq_true] at hs
      simp only [Fields.sum] at hb
      have b1 := Ty.iElem_bound t _ d off o1 hoff k1
      have b2 := Fields.iFields_bound r _ d o1 o b1.2 k2
      have hsafe := Ty.decElem_safe c t big false start (bits.getD 0) d off o1 h1 h3 hn.1.1 hs.1 hd k1 (by rw [k3]; omega)
      have s1 := Ty.cDec_sim c t big false start (bits.getD 0) d off o1 h1 h3 hn.1.1 hs.1 hd k1 (by rw [k3]; omega)
      have s2 := Fields.cDec_sim c r (start + bits.getD 0) d o1 o h2 hn.1.2 hs.2 hd b1.2 k2 (by omega)
      have hoff1 : ∀ x o', t.decElem c big false d start (bits.getD 0) off = .ok (x, o') → o' = o1 := by
        intro x o' he
        rcases hsafe with hf | ⟨v, ws, hf, _⟩
        · rw [hf] at he; cases he
        · rw [hf] at he; cases he; rfl
      have := CSim.seq (nb := t.noBytes && r.noBytes) (g2 := fun off => r.decFields c d (start + bits.getD 0) off)
        (p2 := fun off => r.cDecFields c d (start + bits.getD 0) off)
        (s1.mono (fun e => by rw [e]; rfl))
        (fun x o' he => by rw [hoff1 x o' he]; exact s2.mono (fun e => by rw [e, Bool.and_false]))
      have eg : (Fields.one t bits big r).decFields c d start off =
          seqRes (t.decElem c big false d start (bits.getD 0) off)
            (fun off => r.decFields c d (start + bits.getD 0) off) := by
        simp only [Fields.decFields, seqRes]
        rcases t.decElem c big false d start (bits.getD 0) off with ⟨v, o⟩ | _ | _
        · simp only
          rcases r.decFields c d (start + bits.getD 0) o with ⟨v, o⟩ | _ | _ <;> rfl
        · rfl
        · rfl
      have ep : (Fields.one t bits big r).cDecFields c d start off =
          seqRes (t.cDecElem c big false d start (bits.getD 0) off)
            (fun off => r.cDecFields c d (start + bits.getD 0) off) := by
        simp only [Fields.cDecFields, seqRes]
        rcases t.cDecElem c big false d start (bits.getD 0) off with ⟨v, o⟩ | _ | _
        · simp only
          rcases r.cDecFields c d (start + bits.getD 0) o with ⟨v, o⟩ | _ | _ <;> rfl
        · rfl
        · rfl
      rw [eg, ep]
      simp only [Fields.noBytes]
      exact this
    | .arr t len bits big r, start, d, off, o => by
      intro hw hn hs hd hoff h hb
      obtain ⟨h0, h1, h2, h3, h4, h5, h7, h6⟩ := wf_arr hw
      have hk : ∀ i off, t.iElem ((start + i * (bits.getD 0 / len)) / 8) d off = t.iElem (start / 8) d off := by
        intro i off
        by_cases hdyn : t.dynamic = true
        · rw [h7.mpr hdyn]; simp
        · rw [Ty.iElem_static (by simpa using hdyn), Ty.iElem_static (by simpa using hdyn)]
      have key : ∃ o1, iIter (fun off => t.iElem (start / 8) d off) len off = .ok o1 ∧
          r.iFields (start + bits.getD 0) d o1 = .ok o := by
        cases bits with
        | none =>
          simp only [Fields.iFields] at h
          split at h
          · rename_i o1 ho1
            exact ⟨o1, ho1, by simpa using h⟩
          · rename_i hne; exact absurd h (hne _)
        | some n =>
          have hdyn : t.dynamic = false := by
            cases hd : t.dynamic with
            | false => rfl
            | true => exact absurd (h7.mpr hd) (by simp)
          simp only [Fields.iFields] at h
          exact ⟨off, iIter_static (fun off => Ty.iElem_static hdyn _ _ _) len off, by simpa using h⟩
      obtain ⟨o1, k1, k2⟩ := key
      simp only [Fields.noDirectDyn, Bool.and_eq_true] at hn
      simp only [Fields.sizesOk, Bool.and_eq_true] at hs
      simp only [Fields.sum] at hb
      have hbd : ∀ off o, off ≤ d.length → t.iElem (start / 8) d off = .ok o → off ≤ o ∧ o ≤ d.length :=
        fun off o h e => Ty.iElem_bound t _ d off o h e
      have b1 := iIter_bound hbd _ _ _ hoff k1
      have b2 := Fields.iFields_bound r _ d o1 o b1.2 k2
      have hdec : ∀ st off o, t.elemOk true st (bits.getD 0 / len) → t.iElem (st / 8) d off = .ok o →
          8 * o + st + bits.getD 0 / len ≤ 8 * d.length →
          SafeElem c t false (bits.getD 0 / len) big d st off o (t.decElem c big true d st (bits.getD 0 / len) off) :=
        fun st off o hok hi hb =>
          Ty.decElem_safe c t big true st _ d off o h1 hok hn.1 hs.1 hd hi (by rw [h4]; exact hb)
      have hel := fun i off o (hi : t.iElem (start / 8) d off = .ok o) hb =>
        arrElemDec_safe c t (fun from_ n off => t.decElem c big true d from_ n off) len (bits.getD 0 / len) start big d
          h3 h4 h6 hdec i off o (by rw [hk]; exact hi) hb
      have hsim : ∀ st off o, t.elemOk true st (bits.getD 0 / len) → t.iElem (st / 8) d off = .ok o →
          8 * o + st + bits.getD 0 / len ≤ 8 * d.length →
          CSim t.noBytes (t.decElem c big true d st (bits.getD 0 / len) off) (t.cDecElem c big true d st (bits.getD 0 / len) off) :=
        fun st off o hok hi hb =>
          Ty.cDec_sim c t big true st _ d off o h1 hok hn.1 hs.1 hd hi (by rw [h4]; exact hb)
      have s1 := decIdx_csim t.noBytes
        (arrElemDec c t (fun from_ n off => t.decElem c big true d from_ n off) len (bits.getD 0 / len) start big d)
        (cArrElemDec c t (fun from_ n off => t.cDecElem c big true d from_ n off) len (bits.getD 0 / len) start big d)
        (fun off => t.iElem (start / 8) d off) d.length (bits.getD 0 / len) start hbd
        (fun i off o hg hl => by
          rcases hel i off o hg hl with hf | ⟨v, ws, hf, _⟩
          · exact Or.inl hf
          · exact Or.inr ⟨v, hf⟩)
        len 0 off o1 hoff k1 (by simp only [Nat.zero_add]; rw [h5]; omega)
        (fun j off o _ hj hg hl =>
          cArrElemDec_sim c t _ _ len (bits.getD 0 / len) start big d j off o (h3 j) h4 h6 (by rw [hk]; exact hg) hl
            (hsim _ off o (h3 j) (by rw [hk]; exact hg) hl))
      have hsafe := decIdx_safe c t (c.useLoop len) _ (fun off => t.iElem (start / 8) d off) d (bits.getD 0 / len) start big h4 hbd hel
          len 0 off o1 hoff k1 (by simp only [Nat.zero_add]; rw [h5]; omega)
      have s2 := Fields.cDec_sim c r (start + bits.getD 0) d o1 o h2 hn.2 hs.2 hd b1.2 k2 (by omega)
      have hoff1 : ∀ x o', decIdx (arrElemDec c t (fun from_ n off => t.decElem c big true d from_ n off) len
          (bits.getD 0 / len) start big d) len 0 off = .ok (x, o') → o' = o1 := by
        intro x o' he
        rcases hsafe with hf | ⟨xs, wss, hf, _⟩
        · rw [hf] at he; cases he
        · rw [hf] at he; cases he; rfl
      have := CSim.seq (nb := t.noBytes && r.noBytes) (g2 := fun off => r.decFields c d (start + bits.getD 0) off)
        (p2 := fun off => r.cDecFields c d (start + bits.getD 0) off)
        (s1.mono (fun e => by rw [e]; rfl))
        (fun x o' he => by rw [hoff1 x o' he]; exact s2.mono (fun e => by rw [e, Bool.and_false]))
      have eg : (Fields.arr t len bits big r).decFields c d start off =
          seqRes (decIdx (arrElemDec c t (fun from_ n off => t.decElem c big true d from_ n off) len
              (bits.getD 0 / len) start big d) len 0 off)
            (fun off => r.decFields c d (start + bits.getD 0) off) := by
        simp only [Fields.decFields, seqRes]
        rcases decIdx (arrElemDec c t (fun from_ n off => t.decElem c big true d from_ n off) len
              (bits.getD 0 / len) start big d) len 0 off with ⟨v, o⟩ | _ | _
        · simp only
          rcases r.decFields c d (start + bits.getD 0) o with ⟨v, o⟩ | _ | _ <;> rfl
        · rfl
        · rfl
      have ep : (Fields.arr t len bits big r).cDecFields c d start off =
          seqRes (decIdx (cArrElemDec c t (fun from_ n off => t.cDecElem c big true d from_ n off) len
              (bits.getD 0 / len) start big d) len 0 off)
            (fun off => r.cDecFields c d (start + bits.getD 0) off) := by
        simp only [Fields.cDecFields, seqRes]
        rcases decIdx (cArrElemDec c t (fun from_ n off => t.cDecElem c big true d from_ n off) len
              (bits.getD 0 / len) start big d) len 0 off with ⟨v, o⟩ | _ | _
        · simp only
          rcases r.cDecFields c d (start + bits.getD 0) o with ⟨v, o⟩ | _ | _ <;> rfl
        · rfl
        · rfl
      rw [eg, ep]
      simp only [Fields.noBytes]
      exact this
end

theorem Fields.cDecode_sim (c : Cfg) {fs : Fields} (h : fs.accepted = true) (hn : fs.noDirectDyn = true) {d : Buf}
    (hd : d.length < 2 ^ 62) {sz : Int} (hsz : fs.decodeSize d = some sz) (hpos : 0 ≤ sz) (hw : fs.NoWrap d) :
    CSim fs.noBytes (fs.decode c d) (fs.cDecode c d) := by
  obtain ⟨h1, h2, h3, h4⟩ := Fields.accepted_facts h
  have hrel := Fields.decodeSize_rel (d := d) h1 h3 h4 hd
  cases hs : fs.iSize d with
  | ret r =>
    rw [hs] at hrel
    have hr := hrel (hw r hs)
    have hneg := Fields.iSize_neg hs
    rw [hsz] at hr
    cases hr
    omega
  | ok o =>
    rw [hs] at hrel
    simp only [RelSize] at hrel
    obtain ⟨off, g1, g2, g3⟩ := iFinish_bound hs
    have hsim := Fields.cDec_sim c fs 0 d 0 off h1 hn h3 hd (by omega) g1 (by omega)
    have hm := hsim.mapOff (fun o => o + fs.sum / 8)
    have hneg : ¬ (o : Int) < 0 := by omega
    have eg : fs.decode c d = mapOff (fun o => o + fs.sum / 8) (fs.decFields c d 0 0) := by
      simp only [Fields.decode, hrel]
      rw [if_neg hneg]
      rcases fs.decFields c d 0 0 with ⟨v, o⟩ | _ | _ <;> rfl
    have ep : fs.cDecode c d = mapOff (fun o => o + fs.sum / 8) (fs.cDecFields c d 0 0) := by
      simp only [Fields.cDecode]
      rcases fs.cDecFields c d 0 0 with ⟨v, o⟩ | _ | _ <;> rfl
    rw [eg, ep]
    exact hm

end Bubbler
