import Verif.Codec.CSize
import Verif.Codec.ScanExt
import Verif.Codec.CSim
import Verif.Codec.PyEnc
import Verif.Codec.KtSafe
import Verif.Codec.Legal

/-
`decode_size` of the C and C++ targets against Go's DecodeSize.
-/
set_option linter.unusedSimpArgs false
namespace Bubbler

theorem u64_id {n : Nat} (h : n < 2 ^ 64) : u64 n = n := Nat.mod_eq_of_lt h

theorem cNegRet_small {n : Nat} (h : n < 2 ^ 63) : cNegRet n = .ret (-(n : Int)) := by
  unfold cNegRet
  rw [u64_id (by omega), w64_id (by omega) (by omega), if_neg (by omega)]

/-- C's outcome is the ideal one, unless the result does not fit. -/
def CRel (x : Scan) (i : IScan) : Prop :=
  match i with
  | .ok o => x = .ok o
  | .ret r => -2 ^ 63 < r → x = .ret r

def CRelSize (x : Option Int) (i : IScan) : Prop :=
  match i with
  | .ok o => x = some (o : Int)
  | .ret r => -2 ^ 63 < r → x = some r

/-! ### Leaves -/

theorem scanStr_idx (d : Buf) (pos length : Nat) (h : pos + length < d.length) :
    scanStr d pos length = match (d.drop (pos + length)).idxOf? 0#8 with
      | some i => .ok (length + i)
      | none => .ret (-((d.length + 1 : Nat) : Int)) := by
  fun_induction scanStr d pos length with
  | case1 length hb => rw [rd_eq_some h] at hb; cases hb
  | case2 length hb =>
    rw [List.drop_eq_getElem_cons h]
    have : d[pos + length] = 0#8 := by
      have : d[pos + length]? = some 0#8 := hb
      rw [List.getElem?_eq_getElem h] at this
      exact Option.some.inj this
    rw [this, List.idxOf?_cons]
    simp
  | case3 length b hb hne hlt =>
    have hl : d.length = pos + length + 1 := by omega
    have hb' : d[pos + length] = b := by
      have : d[pos + length]? = some b := hb
      rw [List.getElem?_eq_getElem h] at this
      exact Option.some.inj this
    rw [List.drop_eq_getElem_cons h, hb', List.drop_eq_nil_of_le (by omega)]
    have : (b == 0#8) = false := by simpa using hne
    simp only [List.idxOf?_cons, List.idxOf?_nil, this]
    simp
    omega
  | case4 length b hb hne hlt ih =>
    have hb' : d[pos + length] = b := by
      have : d[pos + length]? = some b := hb
      rw [List.getElem?_eq_getElem h] at this
      exact Option.some.inj this
    rw [ih (by omega), List.drop_eq_getElem_cons h, hb', List.idxOf?_cons]
    have : (b == 0#8) = false := by simpa using hne
    rw [this]
    have e : pos + length + 1 = pos + (length + 1) := by omega
    rw [e]
    cases (d.drop (pos + (length + 1))).idxOf? 0#8 with
    | none => simp
    | some i => simp; omega

theorem cStringAt_eq {d : Buf} {p : Nat} (h : p < d.length) (hd : d.length < 2 ^ 62) : cStringAt d p = dsStringAt d p := by
  unfold cStringAt dsStringAt
  rw [scanStr_idx d p 0 (by omega), Nat.add_zero]
  cases (d.drop p).idxOf? 0#8 with
  | none => simp only; rw [cNegRet_small (by omega)]
  | some i => simp

theorem cScanLen_eq {d : Buf} (hd : d.length < 2 ^ 62) (acc : BitVec 64) (shift pos : Nat) (h : scanLen d acc shift pos ≠ .ret (-1)) :
    cScanLen d acc shift pos = scanLen d acc shift pos := by
  fun_induction scanLen d acc shift pos with
  | case1 acc shift pos hb => rw [cScanLen, hb]
  | case2 => exact absurd rfl h
  | case3 acc shift pos b hb h1 h2 =>
    rw [cScanLen, hb]
    simp only [h1, if_true]
    rw [if_neg (by omega)]
  | case4 => exact absurd rfl h
  | case5 acc shift pos b hb h1 h2 h3 =>
    have := rd_some_lt hb
    rw [cScanLen, hb]
    simp only [h1, h3, if_true, if_false]
    rw [if_neg (by omega), cNegRet_small (by omega)]
  | case6 acc shift pos b hb h1 h2 h3 ih =>
    rw [cScanLen, hb]
    simp only [h1, h3, if_true, if_false]
    rw [if_neg (by omega)]
    exact ih h

/-- On data that can be continued to an accepted byte sequence, C scans it as Go does. -/
theorem cBytesAt_eq {d e : Buf} {p c : Nat} (hp : p < d.length) (hd : (d ++ e).length < 2 ^ 62) (h : dsBytesAt (d ++ e) p = .ok c) :
    cBytesAt d p = dsBytesAt d p := by
  obtain ⟨lv, last, h1, h2, h3, h4⟩ := dsBytesAt_ok h
  have hl : d.length < 2 ^ 62 := by rw [List.length_append] at hd; omega
  have hne : scanLen d 0#64 0 p ≠ .ret (-1) := by
    intro he
    rcases scanLen_ret he with ⟨_, a⟩ | ⟨a, _⟩
    · rw [a] at h1; cases h1
    · omega
  unfold cBytesAt dsBytesAt
  rw [cScanLen_eq hl _ _ _ hne]
  cases hs : scanLen d 0#64 0 p with
  | panic => rfl
  | ret r => rfl
  | ok lv' last' =>
    have := scanLen_ext e hs
    rw [h1] at this
    cases this
    have hb := scanLen_ok hs
    have hm : maxInt = 2 ^ 63 - 1 := rfl
    simp only
    rw [u64_id (by omega), if_neg (show ¬ maxInt < lv.toNat by omega)]
    by_cases c : d.length < last + 1 + lv.toNat
    · rw [if_pos c, if_pos (by omega), if_neg (by omega), cNegRet_small (by omega)]
    · rw [if_neg c, if_neg (by omega)]
      congr 1
      omega

theorem cLeaf_rel {leaf leafG} (hl : LeafSpec leafG) {k : Nat} {d : Buf} {off : Nat} (hoff : off ≤ d.length)
    (hd : d.length < 2 ^ 62) (hk : k < 2 ^ 60) (he : off + k < d.length → leaf d (off + k) = leafG d (off + k)) :
    CRel (cLeaf leaf k d off) (iLeaf leafG k d off) := by
  unfold cLeaf iLeaf
  rw [u64_id (by omega)]
  by_cases c : d.length ≤ off + k
  · rw [if_pos c, if_pos c]
    intro _
    rw [cNegRet_small (by omega)]
  · rw [if_neg c, if_neg c, he (by omega)]
    cases hc : leafG d (off + k) with
    | ok cc =>
      have := hl.bound _ _ _ hc
      simp only [CRel]
      rw [u64_id (by omega)]
    | ret r => intro _; rfl
    | panic => exact absurd hc (hl.noPanic _ _ (by omega))

theorem cSub_rel {sizeC : Buf → Option Int} {size : Buf → IScan} {k : Nat} {d : Buf} {off : Nat}
    (hs : CRelSize (sizeC (d.drop (off + k))) (size (d.drop (off + k))))
    (hb : ∀ d' o, size d' = .ok o → o ≤ d'.length)
    (hneg : ∀ d' r, size d' = .ret r → r < 0)
    (hoff : off ≤ d.length) (hd : d.length < 2 ^ 62) (hk : k < 2 ^ 60) : CRel (cSub sizeC k d off) (iSub size k d off) := by
  unfold cSub iSub
  rw [u64_id (by omega), w64_id (x := ((off + k : Nat) : Int)) (by omega) (by omega)]
  cases hc : size (d.drop (off + k)) with
  | ok s =>
    rw [hc] at hs
    simp only [CRelSize] at hs
    have := hb _ _ hc
    rw [List.length_drop] at this
    simp only [hs, CRel]
    rw [if_neg (by omega), Int.toNat_natCast, u64_id (by omega)]
  | ret r =>
    rw [hc] at hs
    simp only [CRelSize] at hs
    simp only [CRel]
    intro hlow
    have h0 := hneg _ _ hc
    rw [hs (by omega)]
    simp only
    have e1 : -((off + k : Nat) : Int) + r = r - (off + k : Nat) := by omega
    rw [if_pos h0, e1, w64_id (by omega) (by omega), if_neg (by omega)]

theorem cIter_rel {fC : Nat → Scan} {f : Nat → IScan} (P : Nat → Prop) (hf : ∀ off : Nat, P off → CRel (fC off) (f off))
    : ∀ (n off : Nat), (∀ m o, m < n → iIter f m off = .ok o → P o) → CRel (cIter fC n off) (iIter f n off) := by
  intro n
  induction n with
  | zero => intro off _; simp [cIter, iIter, CRel]
  | succ n ih =>
    intro off h
    have h1 := hf off (h 0 off (by omega) rfl)
    simp only [cIter, iIter]
    cases hc : f off with
    | ok o =>
      rw [hc] at h1; simp only [CRel] at h1
      simp only [h1]
      refine ih o (fun m o' hm e => h (m + 1) o' (by omega) ?_)
      simp only [iIter, hc]; exact e
    | ret r =>
      rw [hc] at h1; simp only [CRel] at h1 ⊢
      intro hl; rw [h1 hl]

theorem cFinish_rel {x : Scan} {i : IScan} {d : Buf} {b : Nat} (h : CRel x i)
    (hb : ∀ o, i = .ok o → o ≤ d.length) (hd : d.length < 2 ^ 62) (hk : b < 2 ^ 60) :
    CRelSize (cFinish d b x) (iFinish d b i) := by
  cases i with
  | ret r =>
    simp only [CRel, iFinish, CRelSize] at h ⊢
    intro hl; rw [h hl]; rfl
  | ok o =>
    simp only [CRel] at h
    have ho := hb o rfl
    simp only [h, cFinish, iFinish]
    rw [u64_id (by omega)]
    by_cases c : d.length < o + b
    · rw [if_pos c, if_pos c]
      intro _
      rw [cNegRet_small (by omega)]
    · rw [if_neg c, if_neg c]
      simp only [CRelSize]
      rw [w64_id (by omega) (by omega)]

/-! ### Messages -/

/-- The value is free of byte sequences, or the data can be continued to one `decode_size` accepts. -/
def Ty.ContOk (t : Ty) (k : Nat) (d : Buf) (off : Nat) : Prop :=
  t.noBytes = true ∨ ∃ e o, (d ++ e).length < 2 ^ 62 ∧ t.iElem k (d ++ e) off = .ok o

def Fields.ContOk (fs : Fields) (start : Nat) (d : Buf) (off : Nat) : Prop :=
  fs.noBytes = true ∨ ∃ e o, (d ++ e).length < 2 ^ 62 ∧ fs.iFields start (d ++ e) off = .ok o

theorem iIter_split {f : Nat → IScan} : ∀ (m n off o : Nat), m < n → iIter f n off = .ok o →
    ∀ o1, iIter f m off = .ok o1 → ∃ o2, f o1 = .ok o2 := by
  intro m
  induction m with
  | zero =>
    intro n off o hm h o1 h1
    cases h1
    obtain ⟨n, rfl⟩ : ∃ k, n = k + 1 := ⟨n - 1, by omega⟩
    simp only [iIter] at h
    cases hf : f off with
    | ok o2 => exact ⟨o2, rfl⟩
    | ret r => rw [hf] at h; cases h
  | succ m ih =>
    intro n off o hm h o1 h1
    obtain ⟨n, rfl⟩ : ∃ k, n = k + 1 := ⟨n - 1, by omega⟩
    simp only [iIter] at h h1
    cases hf : f off with
    | ok o2 =>
      rw [hf] at h h1
      exact ih n o2 o (by omega) h o1 h1
    | ret r => rw [hf] at h; cases h

mutual
  theorem Ty.cDsElem_rel : ∀ (t : Ty) (k : Nat) (d : Buf) (off : Nat), t.sizesOk = true → off ≤ d.length →
      d.length < 2 ^ 62 → k < 2 ^ 60 → t.ContOk k d off → CRel (t.cDsElem k d off) (t.iElem k d off)
    | .sc _, k, d, off => by intro _ _ _ _ _; simp [Ty.cDsElem, Ty.iElem, CRel]
    | .str, k, d, off => by
      intro _ h1 h2 h3 _
      simp only [Ty.cDsElem, Ty.iElem]
      exact cLeaf_rel stringLeaf h1 h2 h3 (fun h => cStringAt_eq h h2)
    | .bytes, k, d, off => by
      intro _ h1 h2 h3 hx
      simp only [Ty.cDsElem, Ty.iElem]
      refine cLeaf_rel bytesLeaf h1 h2 h3 (fun h => ?_)
      rcases hx with hx | ⟨e, o, he, ho⟩
      · cases hx
      · simp only [Ty.iElem, iLeaf] at ho
        split at ho
        · cases ho
        · split at ho
          · rename_i c hc; exact cBytesAt_eq h he hc
          · cases ho
          · cases ho
    | .struct fs, k, d, off => by
      intro h h1 h2 h3 hx
      simp only [Ty.sizesOk, Bool.and_eq_true, decide_eq_true_eq] at h
      simp only [Ty.cDsElem, Ty.iElem]
      split
      · rename_i hdyn
        have hl : (d.drop (off + k)).length < 2 ^ 62 := by rw [List.length_drop]; omega
        refine cSub_rel (cFinish_rel (Fields.cDsFields_rel fs 0 _ 0 h.1 (by omega) (by omega) hl ?_)
            (fun o ho => (Fields.iFields_bound fs 0 _ 0 o (by omega) ho).2) hl (by omega))
          (fun d o h => ?_) (fun d r h => ?_) h1 h2 h3
        · rcases hx with hx | ⟨e, o, he, ho⟩
          · exact Or.inl hx
          · refine Or.inr ⟨e.drop (off + k - d.length), ?_⟩
            simp only [Ty.iElem, hdyn, if_true, iSub] at ho
            rw [drop_append'] at ho
            rw [List.length_append] at he
            split at ho
            · rename_i s hs
              obtain ⟨o1, ho1, _⟩ := iFinish_bound hs
              exact ⟨o1, by rw [List.length_append, List.length_drop, List.length_drop]; omega, ho1⟩
            · cases ho
        · obtain ⟨_, _, _, h⟩ := iFinish_bound h; exact h
        · exact iFinish_neg (fun r h => Fields.iFields_neg fs _ _ _ r h) h
      · simp [CRel]
  theorem Fields.cDsFields_rel : ∀ (fs : Fields) (start : Nat) (d : Buf) (off : Nat), fs.sizesOk = true →
      start + fs.sum < 2 ^ 63 → off ≤ d.length → d.length < 2 ^ 62 → fs.ContOk start d off →
      CRel (fs.cDsFields start d off) (fs.iFields start d off)
    | .nil, start, d, off => by intro _ _ _ _ _; simp [Fields.cDsFields, Fields.iFields, CRel]
    | .void n r, start, d, off => by
      intro h hs h1 h2 hx
      simp only [Fields.sizesOk, Fields.sum] at h hs
      simp only [Fields.cDsFields, Fields.iFields]
      exact Fields.cDsFields_rel r _ d off h (by omega) h1 h2 hx
    | .const _ n _ _ r, start, d, off => by
      intro h hs h1 h2 hx
      simp only [Fields.sizesOk, Fields.sum] at h hs
      simp only [Fields.cDsFields, Fields.iFields]
      exact Fields.cDsFields_rel r _ d off h (by omega) h1 h2 hx
    | .one t (some n) big r, start, d, off => by
      intro h hs h1 h2 hx
      simp only [Fields.sizesOk, Fields.sum, Bool.and_eq_true, Option.getD_some] at h hs
      simp only [Fields.cDsFields, Fields.iFields, Option.isNone_some, Bool.false_eq_true, if_false, Option.getD_some]
      refine Fields.cDsFields_rel r _ d off h.2 (by omega) h1 h2 ?_
      rcases hx with hx | ⟨e, o, he, ho⟩
      · simp only [Fields.noBytes, Bool.and_eq_true] at hx; exact Or.inl hx.2
      · exact Or.inr ⟨e, o, he, ho⟩
    | .one t none big r, start, d, off => by
      intro h hs h1 h2 hx
      simp only [Fields.sizesOk, Fields.sum, Bool.and_eq_true, Option.getD_none] at h hs
      simp only [Fields.cDsFields, Fields.iFields, Option.isNone_none, if_true]
      have ht : t.ContOk (start / 8) d off := by
        rcases hx with hx | ⟨e, o, he, ho⟩
        · simp only [Fields.noBytes, Bool.and_eq_true] at hx; exact Or.inl hx.1
        · simp only [Fields.iFields] at ho
          split at ho
          · rename_i o1 h1; exact Or.inr ⟨e, o1, he, h1⟩
          · rename_i hne; exact absurd ho (hne _)
      have hrel := Ty.cDsElem_rel t (start / 8) d off h.1 h1 h2 (by omega) ht
      cases hc : t.iElem (start / 8) d off with
      | ret r' =>
        rw [hc] at hrel
        simp only [CRel] at hrel ⊢
        intro hl; rw [hrel hl]
      | ok o1 =>
        rw [hc] at hrel
        simp only [CRel] at hrel
        rw [hrel]
        simp only
        refine Fields.cDsFields_rel r _ d o1 h.2 (by omega) (Ty.iElem_bound t _ d off o1 h1 hc).2 h2 ?_
        rcases hx with hx | ⟨e, o, he, ho⟩
        · simp only [Fields.noBytes, Bool.and_eq_true] at hx; exact Or.inl hx.2
        · simp only [Fields.iFields, Ty.iElem_ext t _ d e off o1 hc] at ho
          exact Or.inr ⟨e, o, he, ho⟩
    | .arr t len (some n) big r, start, d, off => by
      intro h hs h1 h2 hx
      simp only [Fields.sizesOk, Fields.sum, Bool.and_eq_true, Option.getD_some] at h hs
      simp only [Fields.cDsFields, Fields.iFields, Option.isNone_some, Bool.false_eq_true, if_false, Option.getD_some]
      refine Fields.cDsFields_rel r _ d off h.2 (by omega) h1 h2 ?_
      rcases hx with hx | ⟨e, o, he, ho⟩
      · simp only [Fields.noBytes, Bool.and_eq_true] at hx; exact Or.inl hx.2
      · exact Or.inr ⟨e, o, he, ho⟩
    | .arr t len none big r, start, d, off => by
      intro h hs h1 h2 hx
      simp only [Fields.sizesOk, Fields.sum, Bool.and_eq_true, Option.getD_none] at h hs
      simp only [Fields.cDsFields, Fields.iFields, Option.isNone_none, if_true]
      have hb : ∀ off o, off ≤ d.length → t.iElem (start / 8) d off = .ok o → off ≤ o ∧ o ≤ d.length :=
        fun off o h e => Ty.iElem_bound t _ d off o h e
      have hrel := cIter_rel (fC := fun off => t.cDsElem (start / 8) d off) (f := fun off => t.iElem (start / 8) d off)
        (fun off => off ≤ d.length ∧ t.ContOk (start / 8) d off)
        (fun off ho => Ty.cDsElem_rel t (start / 8) d off h.1 ho.1 h2 (by omega) ho.2) len off
        (fun m o1 hm e1 => by
          refine ⟨(iIter_bound hb m off o1 h1 e1).2, ?_⟩
          rcases hx with hx | ⟨e, o, he, ho⟩
          · simp only [Fields.noBytes, Bool.and_eq_true] at hx; exact Or.inl hx.1
          · simp only [Fields.iFields] at ho
            split at ho
            · rename_i o3 h3
              obtain ⟨o2, e2⟩ := iIter_split m len off o3 hm h3 o1
                (iIter_ext (fun off o h => Ty.iElem_ext t _ d e off o h) m off o1 e1)
              exact Or.inr ⟨e, o2, he, e2⟩
            · rename_i hne; exact absurd ho (hne _))
      cases hc : iIter (fun off => t.iElem (start / 8) d off) len off with
      | ret r' =>
        rw [hc] at hrel
        simp only [CRel] at hrel ⊢
        intro hl; rw [hrel hl]
      | ok o1 =>
        rw [hc] at hrel
        simp only [CRel] at hrel
        rw [hrel]
        simp only
        refine Fields.cDsFields_rel r _ d o1 h.2 (by omega) (iIter_bound hb len off o1 h1 hc).2 h2 ?_
        rcases hx with hx | ⟨e, o, he, ho⟩
        · simp only [Fields.noBytes, Bool.and_eq_true] at hx; exact Or.inl hx.2
        · simp only [Fields.iFields, iIter_ext (fun off o h => Ty.iElem_ext t _ d e off o h) len off o1 hc] at ho
          exact Or.inr ⟨e, o, he, ho⟩
end

/-- `decode_size` is the ideal scan, for definitions without bytes or on data that can be continued to an
accepted message. -/
theorem Fields.cDecodeSize_rel {fs : Fields} {d : Buf} (hwf : fs.wf 0 = true) (hs : fs.sizesOk = true)
    (hsum : fs.sum < 2 ^ 63) (hd : d.length < 2 ^ 62) (hx : fs.ContOk 0 d 0) : CRelSize (fs.cDecodeSize d) (fs.iSize d) := by
  unfold Fields.cDecodeSize Fields.iSize
  by_cases c : fs.dynamic = true
  · rw [if_pos c]
    exact cFinish_rel (Fields.cDsFields_rel fs 0 d 0 hs (by omega) (by omega) hd hx)
      (fun o ho => (Fields.iFields_bound fs 0 d 0 o (by omega) ho).2) hd (by omega)
  · rw [if_neg c, Fields.iFields_static fs 0 d 0 hwf (by simpa using c)]
    simp only [iFinish, Nat.zero_add]
    split
    · simp [CRelSize]
    · simp [CRelSize]

/-! ### Without bytes, hints are bounded -/

mutual
  theorem Ty.iElem_reach : ∀ (t : Ty) (k : Nat) (d : Buf) (off : Nat) (r : Int), t.noBytes = true → off ≤ d.length →
      t.iElem k d off = .ret r → -r ≤ (d.length + k + t.ktReach + 1 : Nat)
    | .sc _, k, d, off, r => by intro _ _ e; simp only [Ty.iElem] at e; cases e
    | .str, k, d, off, r => by
      intro _ h e
      simp only [Ty.iElem, iLeaf] at e
      split at e
      · cases e; omega
      · split at e
        · cases e
        · rename_i r' hc
          cases e
          obtain ⟨h1, _, _⟩ := scanStr_ret (dsStringAt_ret hc)
          omega
        · cases e; omega
    | .bytes, k, d, off, r => by intro h; cases h
    | .struct fs, k, d, off, r => by
      intro hn h e
      simp only [Ty.iElem] at e
      split at e
      · unfold iSub at e
        split at e
        · cases e
        · rename_i r' hc
          cases e
          have hc : iFinish (d.drop (off + k)) (fs.sum / 8) (fs.iFields 0 (d.drop (off + k)) 0) = .ret r' := hc
          simp only [Ty.ktReach]
          have hl := List.length_drop (i := off + k) (l := d)
          cases hf : fs.iFields 0 (d.drop (off + k)) 0 with
          | ret r1 =>
            rw [hf] at hc
            cases hc
            have := Fields.iFields_reach fs 0 _ 0 r' hn (Nat.zero_le _) hf
            omega
          | ok o =>
            have hb := (Fields.iFields_bound fs 0 _ 0 o (Nat.zero_le _) hf).2
            rw [hf] at hc
            simp only [iFinish] at hc
            split at hc
            · cases hc; omega
            · cases hc
      · cases e
  theorem Fields.iFields_reach : ∀ (fs : Fields) (start : Nat) (d : Buf) (off : Nat) (r : Int), fs.noBytes = true →
      off ≤ d.length → fs.iFields start d off = .ret r → -r ≤ (d.length + (start + fs.sum) / 8 + fs.ktReach + 1 : Nat)
    | .nil, start, d, off, r => by intro _ _ e; simp only [Fields.iFields] at e; cases e
    | .void n r', start, d, off, r => by
      intro hn h e
      simp only [Fields.iFields] at e
      simp only [Fields.sum, Fields.ktReach]
      have := Fields.iFields_reach r' (start + n) d off r hn h e
      omega
    | .const _ n _ _ r', start, d, off, r => by
      intro hn h e
      simp only [Fields.iFields] at e
      simp only [Fields.sum, Fields.ktReach]
      have := Fields.iFields_reach r' (start + n) d off r hn h e
      omega
    | .one t (some n) _ r', start, d, off, r => by
      intro hn h e
      simp only [Fields.noBytes, Bool.and_eq_true] at hn
      simp only [Fields.iFields] at e
      simp only [Fields.sum, Fields.ktReach, Option.getD_some]
      have := Fields.iFields_reach r' (start + n) d off r hn.2 h e
      omega
    | .one t none _ r', start, d, off, r => by
      intro hn h e
      simp only [Fields.noBytes, Bool.and_eq_true] at hn
      simp only [Fields.iFields] at e
      simp only [Fields.sum, Fields.ktReach, Option.getD_none]
      split at e
      · rename_i o1 h1
        have := Fields.iFields_reach r' start d o1 r hn.2 (Ty.iElem_bound t _ d off o1 h h1).2 e
        omega
      · have := Ty.iElem_reach t _ d off r hn.1 h e
        omega
    | .arr t len (some n) _ r', start, d, off, r => by
      intro hn h e
      simp only [Fields.noBytes, Bool.and_eq_true] at hn
      simp only [Fields.iFields] at e
      simp only [Fields.sum, Fields.ktReach, Option.getD_some]
      have := Fields.iFields_reach r' (start + n) d off r hn.2 h e
      omega
    | .arr t len none _ r', start, d, off, r => by
      intro hn h e
      simp only [Fields.noBytes, Bool.and_eq_true] at hn
      simp only [Fields.iFields] at e
      simp only [Fields.sum, Fields.ktReach, Option.getD_none]
      have hb : ∀ off o, off ≤ d.length → t.iElem (start / 8) d off = .ok o → off ≤ o ∧ o ≤ d.length :=
        fun off o h e => Ty.iElem_bound t _ d off o h e
      split at e
      · rename_i o1 h1
        have := Fields.iFields_reach r' start d o1 r hn.2 (iIter_bound hb len off o1 h h1).2 e
        omega
      · have key : ∀ (n off : Nat), off ≤ d.length → iIter (fun off => t.iElem (start / 8) d off) n off = .ret r →
            -r ≤ (d.length + start / 8 + t.ktReach + 1 : Nat) := by
          intro n
          induction n with
          | zero => intro off _ e; cases e
          | succ n ih =>
            intro off h e
            simp only [iIter] at e
            split at e
            · rename_i o1 h1
              exact ih o1 (hb _ _ h h1).2 e
            · exact Ty.iElem_reach t _ d off r hn.1 h e
        have := key len off h e
        omega
end

theorem Fields.iSize_reach {fs : Fields} {d : Buf} {r : Int} (hn : fs.noBytes = true) (h : fs.iSize d = .ret r) :
    -r ≤ (d.length + (Ty.struct fs).ktReach + 1 : Nat) := by
  unfold Fields.iSize at h
  simp only [Ty.ktReach]
  cases hf : fs.iFields 0 d 0 with
  | ret r1 =>
    rw [hf] at h
    cases h
    have := Fields.iFields_reach fs 0 _ 0 r hn (Nat.zero_le _) hf
    omega
  | ok o =>
    have hb := (Fields.iFields_bound fs 0 _ 0 o (Nat.zero_le _) hf).2
    rw [hf] at h
    simp only [iFinish] at h
    split at h
    · cases h; omega
    · cases h

/-! ### encode_size -/

theorem cLenSize_eq {n : Nat} (h : n ≤ maxInt) : cLenSize n = 1 + lenExtra n := by
  rw [← pyLenBytes_eq h]
  simp [cLenSize, pyLenBytes, List.range', List.range, List.range.loop, Nat.add_assoc]

mutual
  theorem Ty.cSizeOf_eq : ∀ (t : Ty) (v : t.Val), t.Legal v → t.cSizeOf v = t.sizeExtra v
    | .sc _, _ => fun _ => rfl
    | .str, _ => fun _ => rfl
    | .bytes, (v : List Byte) => by
      intro h
      simp only [Ty.Legal] at h
      simp only [Ty.cSizeOf, Ty.sizeExtra, cLenSize_eq h]; omega
    | .struct fs, v => by
      intro h
      simp only [Ty.cSizeOf, Ty.sizeExtra, Fields.cSizeFields_eq fs v h]
  theorem Fields.cSizeFields_eq : ∀ (fs : Fields) (v : fs.Val), fs.Legal v → fs.cSizeFields v = fs.sizeExtra v
    | .nil, _ => fun _ => rfl
    | .void _ r, v => fun h => Fields.cSizeFields_eq r v h
    | .const _ _ _ _ r, v => fun h => Fields.cSizeFields_eq r v h
    | .one t _ _ r, (v : t.Val × r.Val) => by
      intro h
      simp only [Fields.Legal] at h
      simp only [Fields.cSizeFields, Fields.sizeExtra, Ty.cSizeOf_eq t v.1 h.1, Fields.cSizeFields_eq r v.2 h.2]
    | .arr t _ _ _ r, (v : List t.Val × r.Val) => by
      intro h
      simp only [Fields.Legal] at h
      simp only [Fields.cSizeFields, Fields.sizeExtra, Fields.cSizeFields_eq r v.2 h.2.2]
      rw [List.map_congr_left (fun x hx => Ty.cSizeOf_eq t x (h.2.1 x hx))]
end

theorem Fields.cEncodeSize_eq {fs : Fields} {v : fs.Val} (h : fs.Legal v) : fs.cEncodeSize v = fs.encodeSize v := by
  simp only [Fields.cEncodeSize, Fields.encodeSize, Fields.cSizeFields_eq fs v h]

end Bubbler
