import Verif.Codec.SpecProofs
import Verif.Codec.SignExt
import Verif.Codec.Encode
import Verif.Codec.Decode

set_option linter.unusedSimpArgs false
namespace Bubbler

theorem goUintWidth_facts : ∀ b, b < 65 → 0 < b → b ≤ goUintWidth b ∧ 8 ≤ goUintWidth b ∧ goUintWidth b ≤ 64 := by
  decide +kernel

theorem Prim.width_facts (p : Prim) : 8 ≤ p.width ∧ p.width ≤ 64 := by
  cases p <;> decide

theorem Sc.wf_facts {s : Sc} {n : Nat} (h : s.wf n = true) :
    0 < n ∧ n ≤ s.width ∧ 8 ≤ s.width ∧ s.width ≤ 64 ∧ n ≤ s.tempWidth false n ∧ 8 ≤ s.tempWidth false n := by
  simp only [Sc.wf, Bool.and_eq_true, decide_eq_true_eq] at h
  obtain ⟨⟨h1, h2⟩, h3⟩ := h
  cases s with
  | prim p =>
    have := p.width_facts
    simp only [Sc.bits] at h2
    simp only [Sc.width, Sc.tempWidth]; omega
  | enum b =>
    simp only [Sc.bits] at h2
    simp only [decide_eq_true_eq] at h3
    have := goUintWidth_facts b (by omega) (by omega)
    have := goUintWidth_facts n (by omega) (by omega)
    simp only [Sc.width, Sc.tempWidth, Bool.false_eq_true, if_false]; omega

theorem Sc.wf_arr {s : Sc} {n : Nat} (h : s.wf n = true) (_ha : s.wfArr = true) :
    n ≤ s.tempWidth true n ∧ 8 ≤ s.tempWidth true n := by
  have h0 := Sc.wf_facts h
  simp only [Sc.wf, Bool.and_eq_true, decide_eq_true_eq] at h
  obtain ⟨⟨h1, h2⟩, h3⟩ := h
  cases s with
  | prim p => simp only [Sc.width, Sc.tempWidth] at *; omega
  | enum b => simp only [Sc.bits] at h2; simp only [Sc.tempWidth, if_true]; omega

theorem Sc.temp_facts {s : Sc} {n : Nat} {arr : Bool} (h : s.wf n = true) (ha : arr = true → s.wfArr = true) :
    n ≤ s.tempWidth arr n ∧ 8 ≤ s.tempWidth arr n := by
  cases arr
  · have := Sc.wf_facts h; omega
  · exact Sc.wf_arr h (ha rfl)

/-! ### Encoding -/

theorem sc_enc_unrolled {s : Sc} {n : Nat} {arr big : Bool} (h : s.wf n = true) (ha : arr = true → s.wfArr = true)
    (x : BitVec s.width) (start off : Nat) (d : Buf) (hd : 8 * off + start + n ≤ 8 * d.length) :
    ∃ d', encField big start n (x.setWidth (s.tempWidth arr n)) off d = some d' ∧
      Overlay d d' (8 * off + start) (scWire n big x) := by
  obtain ⟨h1, h2⟩ := Sc.temp_facts h ha
  obtain ⟨d', e, w⟩ := encField_spec big start n (x.setWidth (s.tempWidth arr n)) h2 off d hd
  refine ⟨d', e, ?_⟩
  have := Overlay.ofWrites w
  rwa [scWire_congr (y := x)] at this
  intro k hk
  rw [BitVec.getLsbD_setWidth]
  have : k < s.tempWidth arr n := by omega
  simp [this]

theorem Sc.toU64_bits {s : Sc} {n : Nat} (h : s.wf n = true) (x : BitVec s.width)
    (hb : s.isBool = true → x.toNat ≤ 1) : ∀ k, k < n → (s.toU64 x).getLsbD k = x.getLsbD k := by
  intro k hk
  have hf := Sc.wf_facts h
  unfold Sc.toU64
  split
  · rename_i hbool
    have := hb hbool
    split
    · rename_i e; rw [e]; simp
    · rename_i e
      have hx : x = 1#_ := by
        apply BitVec.eq_of_toNat_eq
        have : x.toNat ≠ 0 := fun e' => e (BitVec.eq_of_toNat_eq (by simpa using e'))
        rw [BitVec.toNat_ofNat, Nat.mod_eq_of_lt]
        · omega
        · have : 2 ^ 1 ≤ 2 ^ s.width := Nat.pow_le_pow_right (by omega) (by omega)
          omega
      rw [hx]
      simp only [BitVec.getLsbD_one]
      have : 0 < s.width := by omega
      simp [this]
  · split
    · rw [BitVec.getLsbD_signExtend]
      have : k < 64 := by omega
      have h2 : k < s.width := by omega
      simp [this, h2]
    · rw [BitVec.getLsbD_setWidth]
      have : k < 64 := by omega
      simp [this]

theorem sc_enc_loop {s : Sc} {n : Nat} {big : Bool} (h : s.wf n = true)
    (x : BitVec s.width) (hb : s.isBool = true → x.toNat ≤ 1) (pos : Nat) (d : Buf)
    (hd : pos + n ≤ 8 * d.length) :
    ∃ d', bbWriteFieldBits d pos n (s.toU64 x) big = some d' ∧ Overlay d d' pos (scWire n big x) := by
  obtain ⟨d', e, w⟩ := bbWriteFieldBits_spec d pos n (s.toU64 x) big hd
  refine ⟨d', e, ?_⟩
  have := Overlay.ofWrites w
  rwa [scWire_congr (y := x)] at this
  exact Sc.toU64_bits h x hb

/-! ### Decoding -/

/-- The value of the scalar type whose low `n` bits are `r`. -/
def Sc.conv (s : Sc) {n : Nat} (r : BitVec n) : BitVec s.width :=
  if s.signed then r.signExtend s.width else r.setWidth s.width

/-- `r` is what the field bits at `pos` spell. -/
def RawAt (d : Buf) (pos n : Nat) (big : Bool) (r : BitVec n) : Prop :=
  ∀ j, j < n → r.getLsbD (valueBit big n j) = bitAt d (pos + j)

theorem RawAt.unique {d : Buf} {pos n : Nat} {big : Bool} {r r' : BitVec n}
    (h : RawAt d pos n big r) (h' : RawAt d pos n big r') : r = r' := by
  apply BitVec.eq_of_getLsbD_eq
  intro k hk
  obtain ⟨j, hj, e⟩ := valueBit_surj (big := big) hk
  rw [← e, h j hj, h' j hj]

theorem RawAt.agrees {w : Nat} {d : Buf} {pos n : Nat} {big : Bool} {x : BitVec w}
    (h : Agrees d pos (scWire n big x)) : RawAt d pos n big (x.setWidth n) := by
  intro j hj
  rw [h.sc_bits j hj, BitVec.getLsbD_setWidth]
  have := valueBit_lt (big := big) hj
  simp [this]

theorem ReadsBits.raw {w : Nat} {d : Buf} {pos n : Nat} {big : Bool} {y : BitVec w}
    (h : ReadsBits d pos n big y) : RawAt d pos n big (y.setWidth n) := by
  intro j hj
  rw [BitVec.getLsbD_setWidth, ← h.1 j hj]
  have := valueBit_lt (big := big) hj
  simp [this]

theorem setWidth_setWidth_of_zero {w n v : Nat} (y : BitVec w) (hz : ∀ k, n ≤ k → y.getLsbD k = false) :
    (y.setWidth n).setWidth v = y.setWidth v := by
  apply BitVec.eq_of_getLsbD_eq
  intro k hk
  simp only [BitVec.getLsbD_setWidth, hk, decide_true, Bool.true_and]
  by_cases c : k < n
  · simp [c]
  · simp [c, hz k (by omega)]

theorem signExtend_self {w : Nat} (n : Nat) (hn : n = w) (y : BitVec w) :
    (y.setWidth n).signExtend w = y := by
  subst hn; simp

theorem Sc.tempWidth_signed {s : Sc} (hs : s.signed = true) (arr : Bool) (n : Nat) :
    s.tempWidth arr n = s.width := by
  cases s with
  | prim p => rfl
  | enum b => simp [Sc.signed] at hs

theorem sc_dec_unrolled (m : SignExt) {s : Sc} {n : Nat} {arr big : Bool} (h : s.wf n = true)
    (ha : arr = true → s.wfArr = true) (start off : Nat) (d : Buf) (x0 : BitVec (s.tempWidth arr n))
    (hd : 8 * off + start + n ≤ 8 * d.length) :
    ∃ y, decField big start n off d x0 = some y ∧
      ∃ r : BitVec n, RawAt d (8 * off + start) n big r ∧
        (signExtUnrolled m s.signed n y).setWidth s.width = s.conv r := by
  obtain ⟨h1, h2⟩ := Sc.temp_facts h ha
  have hf := Sc.wf_facts h
  obtain ⟨y, e, hr⟩ := decField_spec big start n off d x0 h1 hf.1 hd
  refine ⟨y, e, y.setWidth n, hr.raw, ?_⟩
  unfold Sc.conv signExtUnrolled
  cases hs : s.signed with
  | false =>
    simp only [Bool.false_and, Bool.false_eq_true, if_false]
    rw [setWidth_setWidth_of_zero y hr.2]
  | true =>
    have htw := Sc.tempWidth_signed hs arr n
    simp only [Bool.true_and, if_true, decide_eq_true_eq]
    have hsz : ∀ (w v : Nat) (y : BitVec w) (_ : w = v) (_ : n ≤ w) (_ : 0 < n)
        (_ : ∀ k, n ≤ k → y.getLsbD k = false),
        (if n < w then (match m with
          | .default | .shift => signExtShift n y
          | .arith => signExtArith n y) else y).setWidth v = (y.setWidth n).signExtend v := by
      intro w v y hwv hnw hn0 hz
      subst hwv
      split
      · cases m <;> simp only
        · rw [signExtShift_eq hn0 hnw]; simp
        · rw [signExtShift_eq hn0 hnw]; simp
        · rw [signExtArith_eq hn0 hnw y hz]; simp
      · rw [signExtend_self n (by omega)]; simp
    exact hsz _ _ y htw h1 hf.1 hr.2

theorem setWidth_signExtend {n w v : Nat} (r : BitVec n) (hn : n ≤ w) (hw : w ≤ v) :
    (r.signExtend v).setWidth w = r.signExtend w := by
  apply BitVec.eq_of_getLsbD_eq
  intro k hk
  simp only [BitVec.getLsbD_setWidth, BitVec.getLsbD_signExtend, hk, decide_true, Bool.true_and]
  have : k < v := by omega
  simp [this]

theorem sc_dec_loop (m : SignExt) {s : Sc} {n : Nat} {big : Bool} (h : s.wf n = true) (pos : Nat) (d : Buf)
    (hd : pos + n ≤ 8 * d.length) :
    ∃ v, bbReadFieldBits d pos n big = some v ∧
      ∃ r : BitVec n, RawAt d pos n big r ∧
        s.ofU64 m n v = if s.isBool then (if r = 0#n then 0#_ else 1#_) else s.conv r := by
  have hf := Sc.wf_facts h
  obtain ⟨v, e, hr⟩ := bbReadFieldBits_spec d pos n big (by omega) hd
  refine ⟨v, e, v.setWidth n, hr.raw, ?_⟩
  unfold Sc.ofU64
  cases hb : s.isBool with
  | true =>
    simp only [if_true]
    have : v = 0#64 ↔ v.setWidth n = 0#n := by
      constructor
      · intro e; rw [e]; simp
      · intro e
        have := setWidth_setWidth_of_zero (v := 64) v hr.2
        rw [e] at this
        simpa using this.symm
    by_cases c : v = 0#64
    · rw [if_pos c, if_pos (this.mp c)]
    · rw [if_neg c, if_neg (fun e => c (this.mpr e))]
  | false =>
    simp only [Bool.false_eq_true, if_false]
    unfold Sc.conv
    cases hs : s.signed with
    | false =>
      simp only [Bool.false_eq_true, if_false]
      rw [setWidth_setWidth_of_zero v hr.2]
    | true =>
      simp only [if_true]
      unfold loopInt
      by_cases c : 64 ≤ n
      · rw [if_pos c]
        have hn : n = 64 := by omega
        have hw : s.width = 64 := by omega
        subst hn
        rw [hw]; simp
      · rw [if_neg c]
        cases m <;> simp only
        · rw [signExtArith_eq hf.1 (by omega) v hr.2, setWidth_signExtend _ hf.2.1 hf.2.2.2.1]
        · rw [signExtShift_eq hf.1 (by omega), setWidth_signExtend _ hf.2.1 hf.2.2.2.1]
        · rw [signExtArith_eq hf.1 (by omega) v hr.2, setWidth_signExtend _ hf.2.1 hf.2.2.2.1]

/-! ### Ranges -/

theorem two_pow_cast {n : Nat} (h : 0 < n) : ((2 ^ n : Nat) : Int) = 2 * 2 ^ (n - 1) := by
  obtain ⟨m, rfl⟩ : ∃ m, n = m + 1 := ⟨n - 1, by omega⟩
  rw [Nat.pow_succ, Nat.add_sub_cancel]; push_cast; omega


theorem Sc.conv_inRange {s : Sc} {n : Nat} (h : s.wf n = true) (r : BitVec n) : s.InRange n (s.conv r) := by
  have hf := Sc.wf_facts h
  unfold Sc.InRange Sc.conv
  cases hs : s.signed with
  | true =>
    simp only [if_true]
    rw [BitVec.toInt_signExtend_of_le hf.2.1]
    exact ⟨BitVec.le_toInt r, BitVec.toInt_lt⟩
  | false =>
    simp only [Bool.false_eq_true, if_false]
    rw [BitVec.toNat_setWidth]
    exact Nat.lt_of_le_of_lt (Nat.mod_le _ _) r.isLt

theorem Sc.conv_setWidth {s : Sc} {n : Nat} (h : s.wf n = true) (x : BitVec s.width) (hx : s.InRange n x) :
    s.conv (x.setWidth n) = x := by
  have hf := Sc.wf_facts h
  unfold Sc.InRange at hx
  unfold Sc.conv
  cases hs : s.signed with
  | true =>
    rw [hs] at hx
    simp only [if_true] at hx ⊢
    apply BitVec.eq_of_toInt_eq
    rw [BitVec.toInt_signExtend_of_le hf.2.1, BitVec.toInt_setWidth]
    have hb : ((x.toNat : Int)).bmod (2 ^ n) = x.toInt.bmod (2 ^ n) := by
      rw [BitVec.toInt_eq_toNat_bmod, Int.bmod_bmod_of_dvd (Nat.pow_dvd_pow 2 hf.2.1)]
    rw [hb]
    apply Int.bmod_eq_of_le
    · have e := two_pow_cast hf.1
      omega
    · have e := two_pow_cast hf.1
      omega
  | false =>
    rw [hs] at hx
    simp only [Bool.false_eq_true, if_false] at hx ⊢
    apply BitVec.eq_of_toNat_eq
    rw [BitVec.toNat_setWidth, BitVec.toNat_setWidth, Nat.mod_eq_of_lt hx, Nat.mod_eq_of_lt x.isLt]

theorem InRange_bool01 {s : Sc} {n : Nat} (h : s.wf n = true) (hb : s.isBool = true) (b : Prop) [Decidable b] :
    s.InRange n (if b then 0#_ else 1#_) := by
  have hf := Sc.wf_facts h
  cases s with
  | enum b => simp [Sc.isBool] at hb
  | prim p =>
    cases p <;> simp [Sc.isBool] at hb
    unfold Sc.InRange
    simp only [Sc.signed, Prim.signed, Bool.false_eq_true, if_false]
    have : 2 ^ 1 ≤ 2 ^ n := Nat.pow_le_pow_right (by omega) (by omega)
    split <;> simp [Sc.width, Prim.width] <;> omega

end Bubbler
