import Verif.Codec.KtMsg
import Verif.Codec.Top

set_option linter.unusedSimpArgs false
namespace Bubbler

/-! ### Bit helpers of the Kotlin target -/

theorem ktPos_eq (big : Bool) (n j : Nat) : ktPos big n j = valueBit big n j := by
  unfold ktPos valueBit
  cases big
  · simp
  · simp only [if_true]
    split <;> omega

theorem shr_and_one {w : Nat} (v : BitVec w) (k : Nat) (hw : 0 < w) : (v >>> k &&& 1#w ≠ 0#w) ↔ v.getLsbD k = true := by
  have e : (v >>> k &&& 1#w) = if v.getLsbD k then 1#w else 0#w := by
    apply BitVec.eq_of_getLsbD_eq
    intro i hi
    rw [BitVec.getLsbD_and, BitVec.getLsbD_ushiftRight, BitVec.getLsbD_one]
    by_cases h0 : i = 0
    · subst h0; simp [hw]
      cases hv : v.getLsbD k <;> simp [hw]
    · have : ¬ 0 = i := fun e => h0 e.symm
      cases hv : v.getLsbD k <;> simp [h0, this]
  rw [e]
  cases v.getLsbD k
  · simp
  · simp only [if_true, iff_true]
    intro h
    have := congrArg (fun x => x.getLsbD 0) h
    simp [hw] at this

theorem ktWriteStep_spec (bitFrom n : Nat) (value : BitVec 64) (big : Bool) (d : Buf) (j : Nat)
    (h : bitFrom + j < 8 * d.length) (hv : valueBit big n j < 64) :
    ∃ d', ktWriteStep bitFrom n value big d j = some d' ∧
      WritesBits d d' (bitFrom + j) 1 (fun _ => value.getLsbD (valueBit big n j)) := by
  have hlt : (bitFrom + j) / 8 < d.length := by omega
  unfold ktWriteStep
  rw [ktPos_eq, Nat.mod_eq_of_lt hv]
  simp only [rd_eq_some hlt, Buf.wr, hlt, if_true, shr_and_one value _ (by decide : 0 < 64)]
  have hm : ∀ i, i < 8 → (1#8 <<< ((bitFrom + j) % 8)).getLsbD i = decide (i = (bitFrom + j) % 8) :=
    fun i _ => getLsbD_one_shl (by omega)
  have hj : ∀ (x : Byte), (∀ i, i < 8 → x.getLsbD i =
        if i = (bitFrom + j) % 8 then value.getLsbD (valueBit big n j) else (d.getD ((bitFrom + j) / 8) 0#8).getLsbD i) →
      WritesBits d (d.set ((bitFrom + j) / 8) x) (bitFrom + j) 1 (fun _ => value.getLsbD (valueBit big n j)) := by
    intro x hx
    refine ⟨by simp, fun i => ?_⟩
    rw [bitAt_set hlt]
    by_cases e : i = bitFrom + j
    · subst e
      rw [if_pos rfl, if_pos (by omega), hx _ (by omega), if_pos rfl]
    · rw [if_neg (by omega : ¬ (bitFrom + j ≤ i ∧ i < bitFrom + j + 1))]
      split
      · have : ¬ i % 8 = (bitFrom + j) % 8 := by omega
        have e3 : 8 * ((bitFrom + j) / 8) + i % 8 = i := by omega
        rw [hx _ (by omega), if_neg this, getLsbD_getD _ _ _ (by omega), e3]
      · rfl
  cases hv : value.getLsbD (valueBit big n j)
  · simp only [Bool.false_eq_true, if_false, Option.some.injEq, exists_eq_left']
    rw [hv] at hj
    apply hj
    intro i hi
    rw [BitVec.getLsbD_and, BitVec.getLsbD_not, hm i hi]
    by_cases e : i = (bitFrom + j) % 8
    · simp [e]
    · simp [e, hi]
  · simp only [if_true, Option.some.injEq, exists_eq_left']
    rw [hv] at hj
    apply hj
    intro i hi
    rw [BitVec.getLsbD_or, hm i hi]
    by_cases e : i = (bitFrom + j) % 8
    · simp [e]
    · simp [e]

theorem ktWriteLoop_spec (bitFrom n : Nat) (value : BitVec 64) (big : Bool) (hn : n ≤ 64) (d : Buf) (m : Nat) (hm : m ≤ n)
    (h : bitFrom + m ≤ 8 * d.length) :
    ∃ d', (List.range m).foldlM (ktWriteStep bitFrom n value big) d = some d' ∧
      WritesBits d d' bitFrom m (fun j => value.getLsbD (valueBit big n j)) := by
  induction m with
  | zero => exact ⟨d, rfl, WritesBits.refl _ _ _⟩
  | succ m ih =>
    obtain ⟨d1, h1, w1⟩ := ih (by omega) (by omega)
    have hv : valueBit big n m < 64 := Nat.lt_of_lt_of_le (valueBit_lt (by omega)) hn
    obtain ⟨d2, h2, w2⟩ := ktWriteStep_spec bitFrom n value big d1 m (by rw [w1.1]; omega) hv
    refine ⟨d2, ?_, ?_⟩
    · rw [foldlM_range_succ, h1, Option.bind_some, h2]
    · exact w1.trans (w2.congr (fun j hj => by
        have : j = 0 := by omega
        subst this; rfl))

theorem ktWriteFieldBits_spec (d : Buf) (bitFrom n : Nat) (v : BitVec 64) (big : Bool) (hn : n ≤ 64)
    (h : bitFrom + n ≤ 8 * d.length) :
    ∃ d', ktWriteFieldBits d bitFrom n v big = some d' ∧
      WritesBits d d' bitFrom n (fun j => v.getLsbD (valueBit big n j)) := by
  unfold ktWriteFieldBits
  obtain ⟨d', h1, w1⟩ := ktWriteLoop_spec bitFrom n
    (if n < 64 then v &&& ((1#64 <<< n) - 1#64) else v) big hn d n (Nat.le_refl _) h
  refine ⟨d', h1, w1.congr (fun j hj => ?_)⟩
  split
  · exact getLsbD_mask64 (by assumption) (valueBit_lt hj) v
  · rfl

theorem ktReadStep_eq (d : Buf) (bitFrom n : Nat) (big : Bool) (out : BitVec 64) (j : Nat)
    (hv : valueBit big n j < 64) : ktReadStep d bitFrom n big out j = bbReadStep d bitFrom n big out j := by
  unfold ktReadStep bbReadStep
  rw [ktPos_eq, Nat.mod_eq_of_lt hv]
  simp only [Option.bind_eq_bind]
  cases hr : d.rd ((bitFrom + j) / 8) with
  | none => rfl
  | some b =>
    simp only [Option.bind_some, shr_and_one _ _ (by decide : 0 < 32), testBit_and_shift_one]
    have : (b.signExtend 32).getLsbD ((bitFrom + j) % 8) = b.getLsbD ((bitFrom + j) % 8) := by
      rw [BitVec.getLsbD_signExtend]
      have h1 : (bitFrom + j) % 8 < 8 := by omega
      have h2 : (bitFrom + j) % 8 < 32 := by omega
      simp [h1, h2]
    rw [this]

theorem foldlM_congr {σ : Type} {f g : σ → Nat → Option σ} : ∀ (l : List Nat) (s : σ),
    (∀ j ∈ l, ∀ s, f s j = g s j) → l.foldlM f s = l.foldlM g s
  | [], _, _ => rfl
  | j :: l, s, h => by
    simp only [List.foldlM_cons]
    rw [h j (by simp)]
    congr 1
    funext s'
    exact foldlM_congr l s' (fun j hj s => h j (by simp [hj]) s)

/-- Kotlin's read helper is Go's. -/
theorem ktReadFieldBits_eq (d : Buf) (bitFrom n : Nat) (big : Bool) (hn : n ≤ 64) :
    ktReadFieldBits d bitFrom n big = bbReadFieldBits d bitFrom n big := by
  unfold ktReadFieldBits bbReadFieldBits
  apply foldlM_congr
  intro j hj s
  exact ktReadStep_eq d bitFrom n big s j
    (Nat.lt_of_lt_of_le (valueBit_lt (List.mem_range.mp hj)) hn)

/-- Reading past the end throws. -/
theorem bbRead_bound {d : Buf} {bitFrom n : Nat} {big : Bool} {v : BitVec 64}
    (h : bbReadFieldBits d bitFrom n big = some v) : n = 0 ∨ bitFrom + n ≤ 8 * d.length := by
  cases n with
  | zero => exact Or.inl rfl
  | succ n =>
    right
    unfold bbReadFieldBits at h
    rw [foldlM_range_succ] at h
    cases h1 : (List.range n).foldlM (bbReadStep d bitFrom (n + 1) big) 0#64 with
    | none => rw [h1] at h; cases h
    | some o =>
      rw [h1, Option.bind_some] at h
      unfold bbReadStep at h
      simp only [Option.bind_eq_bind] at h
      cases hr : d.rd ((bitFrom + n) / 8) with
      | none => rw [hr] at h; cases h
      | some b =>
        simp only [Buf.rd] at hr
        have := (List.getElem?_eq_some_iff.mp hr).1
        omega

theorem ktSignExt_eq {m : SignExt} {n : Nat} (h0 : 0 < n) (hn : n ≤ 64) (v : BitVec 64)
    (hz : ∀ k, n ≤ k → v.getLsbD k = false) : ktSignExt m n v = (v.setWidth n).signExtend 64 := by
  unfold ktSignExt
  split
  · exact signExtArith_eq h0 hn v hz
  · split
    · have : n = 64 := by omega
      subst this; simp
    · exact signExtShift_eq h0 hn v

/-- What Kotlin makes of the field bits `r`. -/
def Sc.ktConv (c : KtCfg) (ctx : List Fields) (s : Sc) {n : Nat} (r : BitVec n) : s.KtVal :=
  (Ty.sc s).toKt c ctx (s.conv r : BitVec s.width)

theorem setWidth_eq_zero {n w : Nat} (hn : n ≤ w) (r : BitVec n) : r.setWidth w = 0#w ↔ r = 0#n := by
  constructor
  · intro h
    have := congrArg (fun x => x.setWidth n) h
    simp only [BitVec.setWidth_setWidth_of_le _ hn] at this
    simpa using this
  · intro h; rw [h]; simp

theorem Sc.ktOf_eq {s : Sc} {n : Nat} (c : KtCfg) (ctx : List Fields) (h : s.wf n = true) {v : BitVec 64}
    (hz : ∀ k, n ≤ k → v.getLsbD k = false) : s.ktOf c ctx n v = s.ktConv c ctx (v.setWidth n) := by
  have hf := Sc.wf_facts h
  have hv : (v.setWidth n).setWidth 64 = v := by
    rw [setWidth_setWidth_of_zero v hz]; simp
  cases s with
  | enum b =>
    have e : ((Sc.enum b).conv (v.setWidth n)).setWidth 64 = v := by
      have : (Sc.enum b).conv (v.setWidth n) = (v.setWidth n).setWidth (Sc.enum b).width := by
        simp [Sc.conv, Sc.signed]
      rw [this, setWidth_setWidth_of_zero v hz]
      apply BitVec.eq_of_getLsbD_eq
      intro k hk
      simp only [BitVec.getLsbD_setWidth, hk, decide_true, Bool.true_and]
      by_cases ck : k < (Sc.enum b).width
      · simp [ck]
      · simp [ck, hz k (by omega)]
    simp only [Sc.ktOf, Sc.ktConv, Ty.toKt]
    rw [e]
  | prim p =>
    simp only [Sc.ktOf, Sc.ktConv, Ty.toKt]
    by_cases hb : p = .bool
    · subst hb
      simp only [if_true]
      have e : (Sc.prim .bool).conv (v.setWidth n) = (v.setWidth n).setWidth 8 := by
        simp [Sc.conv, Sc.signed, Prim.signed, Sc.width, Prim.width]
      have e2 : (Sc.prim .bool).conv (v.setWidth n) = 0#_ ↔ v = 0#64 := by
        rw [e]
        refine (setWidth_eq_zero (by simpa [Sc.width, Prim.width] using hf.2.1) _).trans ?_
        constructor
        · intro h0; rw [← hv, h0]; simp
        · intro h0; rw [h0]; simp
      by_cases h0 : v = 0#64
      · rw [if_neg (by simpa using h0)]
        exact (if_pos (e2.mpr h0)).symm
      · rw [if_pos h0]
        exact (if_neg (fun h => h0 (e2.mp h))).symm
    · simp only [hb, if_false]
      by_cases hs : p.signed = true
      · rw [if_pos hs, ktSignExt_eq hf.1 (by omega) v hz]
        have : (Sc.prim p).conv (v.setWidth n) = (v.setWidth n).signExtend (Sc.prim p).width := by
          simp [Sc.conv, Sc.signed, hs]
        rw [this]
        exact setWidth_signExtend _ hf.2.1 hf.2.2.2.1
      · rw [if_neg hs]
        have : (Sc.prim p).conv (v.setWidth n) = (v.setWidth n).setWidth (Sc.prim p).width := by
          simp [Sc.conv, Sc.signed, hs]
        rw [this, setWidth_setWidth_of_zero v hz]; rfl

/-- Reading a scalar. -/
theorem ktRead_spec {s : Sc} {n : Nat} (c : KtCfg) (ctx : List Fields) (h : s.wf n = true) (d : Buf) (pos : Nat) (big : Bool)
    (hd : pos + n ≤ 8 * d.length) :
    ∃ v r, ktReadFieldBits d pos n big = some v ∧ RawAt d pos n big r ∧ s.ktOf c ctx n v = s.ktConv c ctx r := by
  have hf := Sc.wf_facts h
  rw [ktReadFieldBits_eq _ _ _ _ (by omega)]
  obtain ⟨v, e, hr⟩ := bbReadFieldBits_spec d pos n big (by omega) hd
  exact ⟨v, v.setWidth n, e, hr.raw, Sc.ktOf_eq c ctx h hr.2⟩

end Bubbler
