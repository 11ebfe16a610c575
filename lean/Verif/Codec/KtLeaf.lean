import Verif.Codec.KtEnc
import Verif.Codec.DecSafe

set_option linter.unusedSimpArgs false
namespace Bubbler

/-! ### Strings and length prefixes in the Kotlin decoder -/

theorem w32_id {x : Int} (h : -2 ^ 31 ≤ x) (h' : x < 2 ^ 31) : w32 x = x := by
  unfold w32; omega

theorem w32_nat {x : Nat} (h : x < 2 ^ 31) : w32 (x : Int) = x := w32_id (by omega) (by omega)

/-- The first NUL at or after `pos` is at `pos + L`. -/
def NulAt (d : Buf) (pos L : Nat) : Prop :=
  d.rd (pos + L) = some 0#8 ∧ ∀ j, j < L → d.rd (pos + j) ≠ some 0#8

theorem NulAt.lt {d : Buf} {pos L : Nat} (h : NulAt d pos L) : pos + L < d.length := rd_some_lt h.1

theorem decStrLen_of {d : Buf} {pos L : Nat} (h : NulAt d pos L) : ∀ (m length : Nat), length + m = L →
    decStrLen d pos length = .ok L
  | 0, length, e => by
    have : length = L := by omega
    subst this
    rw [decStrLen]
    split
    · rename_i e; rw [h.1] at e; cases e
    · rename_i b e; rw [h.1] at e; cases e; rfl
  | m + 1, length, e => by
    have hlt := h.lt
    rw [decStrLen]
    split
    · rename_i e2
      rw [rd_eq_some (by omega)] at e2
      cases e2
    · rename_i b e2
      rw [if_neg]
      · exact decStrLen_of h m (length + 1) (by omega)
      · intro hb; subst hb; exact h.2 length (by omega) e2

theorem decStrLen_ok {d : Buf} {pos length L : Nat} (h : decStrLen d pos length = .ok L)
    (hb : ∀ j, j < length → d.rd (pos + j) ≠ some 0#8) : NulAt d pos L := by
  fun_induction decStrLen d pos length with
  | case1 => cases h
  | case2 length hn => cases h; exact ⟨hn, hb⟩
  | case3 length b hr hne ih =>
    apply ih h
    intro j hj
    by_cases e : j = length
    · subst e; rw [hr]; intro e; cases e; exact hne rfl
    · exact hb j (by omega)

theorem ktScanStr_of {d : Buf} {base : Int} {pos L : Nat} (h : NulAt d pos L) : ∀ (m q : Nat), q + m = pos + L → pos ≤ q →
    ktScanStr d base q = some (.inr (pos + L))
  | 0, q, e, _ => by
    have : q = pos + L := by omega
    subst this
    rw [ktScanStr, h.1]
    simp
  | m + 1, q, e, hq => by
    have hlt := h.lt
    rw [ktScanStr, rd_eq_some (by omega : q < d.length)]
    simp only
    rw [if_neg, if_neg (by omega)]
    · exact ktScanStr_of h m (q + 1) (by omega) (by omega)
    · intro hb
      have := h.2 (q - pos) (by omega)
      rw [show pos + (q - pos) = q by omega, rd_eq_some (by omega), hb] at this
      exact this rfl

theorem ktDsString_of {d : Buf} {base off k L : Nat} (h : NulAt d (base + off + k) L) (hd : d.length < 2 ^ 30) :
    ktDsString k d base off = .ok ((off + (L + 1) : Nat) : Int) := by
  have hlt := h.lt
  have hw : w32 ((base : Int) + off + k) = ((base + off + k : Nat) : Int) := by
    rw [w32_id (by omega) (by omega)]; omega
  unfold ktDsString
  simp only [hw]
  rw [if_neg (by omega), if_neg (by omega), Int.toNat_natCast, ktScanStr_of h L _ rfl (Nat.le_refl _)]
  simp only
  have e : (off : Int) + (((base + off + k + L : Nat) : Int) - ((base + off + k : Nat) : Int) + 1) = ((off + (L + 1) : Nat) : Int) := by
    omega
  rw [e, w32_id (by omega) (by omega)]

/-- `bs`, an LEB128 form of `m`, stands at `pos`. -/
def LebAt (d : Buf) (pos : Nat) (bs : List Byte) (m : Nat) : Prop :=
  leb bs = some m ∧ (d.drop pos).take bs.length = bs ∧ pos + bs.length ≤ d.length

theorem acc_step32 {a m s : Nat} (ha : a < 2 ^ s) (hm : m < 128) (hs : s < 32) :
    (BitVec.ofNat 32 a ||| ((BitVec.ofNat 8 m).setWidth 32 <<< (s % 32))) = BitVec.ofNat 32 (a + m * 2 ^ s) := by
  rw [Nat.mod_eq_of_lt hs]
  apply BitVec.eq_of_toNat_eq
  simp only [BitVec.toNat_or, BitVec.toNat_ofNat, BitVec.toNat_shiftLeft, BitVec.toNat_setWidth, Nat.shiftLeft_eq]
  rw [Nat.mod_eq_of_lt (show m < 2 ^ 8 by omega), Nat.mod_eq_of_lt (show m < 2 ^ 32 by omega)]
  have := Nat.two_pow_add_eq_or_of_lt ha m
  rw [show a + m * 2 ^ s = m * 2 ^ s ||| a by rw [Nat.mul_comm m, ← this, Nat.add_comm]]
  rw [Nat.or_mod_two_pow, Nat.or_comm]

theorem LebAt.tail {d : Buf} {pos : Nat} {b : Byte} {bs : List Byte}
    (hv : (d.drop pos).take (b :: bs).length = b :: bs) : (d.drop (pos + 1)).take bs.length = bs := by
  have h1 : ((d.drop pos).take (bs.length + 1)).drop 1 = (b :: bs).drop 1 := by
    rw [List.length_cons] at hv; rw [hv]
  rw [List.drop_take, List.drop_drop] at h1
  simpa using h1

/-- The prefix loop of Kotlin's `decode` on an LEB128 prefix. -/
theorem ktDecLen_of (d : Buf) (base k : Nat) : ∀ (bs : List Byte) (m : Nat) (x : BitVec 32) (shift off : Nat),
    LebAt d (base + off + k) bs m →
    ∃ y, ktDecLen base k d x shift off = .ok (y, off + bs.length) ∧
      ∀ a, x = BitVec.ofNat 32 a → a < 2 ^ shift → shift + 7 * bs.length ≤ 35 → y = BitVec.ofNat 32 (a + m * 2 ^ shift)
  | [], m, x, shift, off => by rintro ⟨h, _⟩; simp [leb] at h
  | b :: bs, m, x, shift, off => by
    rintro ⟨h, hv, hl⟩
    simp only [leb] at h
    simp only [List.length_cons] at hl ⊢
    have hr := rd_of_bytes hv
    by_cases hb : b.toNat < 128
    · rw [if_pos hb] at h
      split at h
      · rename_i hnil
        cases h
        obtain ⟨v, hx, e1, e2⟩ := ofNat_toNat8 b hb
        obtain ⟨t1, t2, t3, t4⟩ := testHi v hx
        subst hnil
        refine ⟨x ||| (b &&& 0x7F#8).setWidth 32 <<< (shift % 32), ?_, ?_⟩
        · rw [ktDecLen]
          split
          · rename_i e; rw [hr] at e; cases e
          · rename_i b' e; rw [hr] at e; cases e
            rw [if_pos (by rw [e1]; exact t1)]; rfl
        · intro a hxa ha hs
          simp only [List.length_nil] at hs
          rw [hxa, e2, e1, t3, acc_step32 ha hx (by omega)]
      · cases h
    · rw [if_neg hb] at h
      cases hm : leb bs with
      | none => rw [hm] at h; cases h
      | some m' =>
        rw [hm] at h
        simp only [Option.map_some, Option.some.injEq] at h
        obtain ⟨v, hx, e1, e2⟩ := ofNat_toNat8' b hb
        obtain ⟨t1, t2, t3, t4⟩ := testHi v hx
        have hne := leb_ne_nil hm
        obtain ⟨y, hy, hy2⟩ := ktDecLen_of d base k bs m' (x ||| (b &&& 0x7F#8).setWidth 32 <<< (shift % 32)) (shift + 7) (off + 1)
          ⟨hm, by
            have := LebAt.tail hv
            rw [show base + (off + 1) + k = base + off + k + 1 by omega]; exact this, by omega⟩
        refine ⟨y, ?_, ?_⟩
        · rw [ktDecLen]
          split
          · rename_i e; rw [hr] at e; cases e
          · rename_i b' e; rw [hr] at e; cases e
            rw [if_neg (by rw [e1]; exact t2), hy, show off + 1 + bs.length = off + (bs.length + 1) by omega]
        · intro a hxa ha hs
          rw [hy2 (a + v * 2 ^ shift) (by rw [hxa, e1, t4, acc_step32 ha hx (by omega)]) (acc_lt ha hx) (by omega),
            acc_combine, ← h, e2]

theorem ktDecLen_ok (d : Buf) (base k : Nat) {x : BitVec 32} {shift off : Nat} {y : BitVec 32} {o : Nat}
    (h : ktDecLen base k d x shift off = .ok (y, o)) :
    ∃ bs m, LebAt d (base + off + k) bs m ∧ o = off + bs.length := by
  fun_induction ktDecLen base k d x shift off with
  | case1 => cases h
  | case2 x shift off b hr hb =>
    cases h
    have hlt := rd_some_lt hr
    refine ⟨[b], b.toNat, ⟨?_, ?_, by simp; omega⟩, rfl⟩
    · have : b.toNat < 128 := by
        have key : ∀ b : Byte, b &&& 0x80#8 = 0#8 → b.toNat < 128 := by decide +kernel
        exact key b hb
      simp [leb, this]
    · rw [rd_eq_some hlt] at hr
      simp only [List.length_singleton]
      rw [List.drop_eq_getElem_cons hlt]
      simp only [List.take_succ_cons, List.take_zero, List.cons.injEq, and_true]
      simp only [Option.some.injEq] at hr
      rw [← hr]
      simp [List.getD, hlt]
  | case3 x shift off b hr hb ih =>
    obtain ⟨bs, m, ⟨h1, h2, h3⟩, h4⟩ := ih h
    have hlt := rd_some_lt hr
    have h128 : ¬ b.toNat < 128 := by
      have key : ∀ b : Byte, ¬ (b &&& 0x80#8 = 0#8) → ¬ b.toNat < 128 := by decide +kernel
      exact key b hb
    refine ⟨b :: bs, (b.toNat - 128) + 128 * m, ⟨?_, ?_, by simp only [List.length_cons]; omega⟩, by
      simp only [List.length_cons]; omega⟩
    · simp only [leb, if_neg h128, h1, Option.map_some]
    · rw [rd_eq_some hlt] at hr
      simp only [Option.some.injEq] at hr
      rw [List.drop_eq_getElem_cons hlt]
      simp only [List.length_cons, List.take_succ_cons, List.cons.injEq]
      refine ⟨by rw [← hr]; simp [List.getD, hlt], ?_⟩
      rw [show base + off + k + 1 = base + (off + 1) + k by omega]; exact h2

/-- The prefix loop of Kotlin's `decodeSize`. -/
theorem ktScanLen_of (d : Buf) (base k : Nat) (hd : d.length < 2 ^ 30) : ∀ (bs : List Byte) (m a shift off : Nat),
    LebAt d (base + off + k) bs m → a < 2 ^ shift → shift ≤ 28 → shift % 7 = 0 →
    ktScanLen k d base (BitVec.ofNat 32 a) shift off =
      if shift + 7 * bs.length ≤ 35 then some (.inr (BitVec.ofNat 32 (a + m * 2 ^ shift), ((off + bs.length : Nat) : Int)))
      else some (.inl (-1))
  | [], m, a, shift, off => by rintro ⟨h, _⟩; simp [leb] at h
  | b :: bs, m, a, shift, off => by
    rintro ⟨h, hv, hl⟩ ha hs h7
    simp only [leb] at h
    simp only [List.length_cons] at hl ⊢
    have hr := rd_of_bytes hv
    have hw : w32 ((base : Int) + off + k) = ((base + off + k : Nat) : Int) := by
      rw [w32_id (by omega) (by omega)]; omega
    have hw2 : w32 ((off : Int) + 1) = ((off + 1 : Nat) : Int) := by
      rw [w32_id (by omega) (by omega)]; omega
    have hrd : ktRd d ((base + off + k : Nat) : Int) = some b := by
      unfold ktRd; rw [if_neg (Int.not_lt.mpr (Int.natCast_nonneg _)), Int.toNat_natCast, hr]
    rw [ktScanLen]
    simp only [hw, hw2]
    rw [if_neg (by omega), hrd]
    simp only
    by_cases hb : b.toNat < 128
    · rw [if_pos hb] at h
      split at h
      · rename_i hnil
        cases h
        obtain ⟨v, hx, e1, e2⟩ := ofNat_toNat8 b hb
        obtain ⟨t1, t2, t3, t4⟩ := testHi v hx
        subst hnil
        rw [if_pos (by rw [e1]; exact t1)]
        rw [if_pos (by simp only [List.length_nil]; omega), e2, e1, t3, acc_step32 ha hx (by omega), List.length_nil,
          Nat.zero_add]
      · cases h
    · rw [if_neg hb] at h
      cases hm : leb bs with
      | none => rw [hm] at h; cases h
      | some m' =>
        rw [hm] at h
        simp only [Option.map_some, Option.some.injEq] at h
        obtain ⟨v, hx, e1, e2⟩ := ofNat_toNat8' b hb
        obtain ⟨t1, t2, t3, t4⟩ := testHi v hx
        have hne := leb_ne_nil hm
        rw [if_neg (by rw [e1]; exact t2)]
        by_cases h28 : 28 < shift + 7
        · rw [dif_pos h28, if_neg (by omega)]
        · rw [dif_neg h28, e1, t4, acc_step32 ha hx (by omega),
            ktScanLen_of d base k hd bs m' _ (shift + 7) (off + 1)
              ⟨hm, by rw [show base + (off + 1) + k = base + off + k + 1 by omega]; exact LebAt.tail hv, by omega⟩
              (acc_lt ha hx) (by omega) (by omega),
            acc_combine, ← h, e2]
          have e3 : off + 1 + bs.length = off + (bs.length + 1) := by omega
          have e4 : shift + 7 + 7 * bs.length = shift + 7 * (bs.length + 1) := by omega
          rw [e3, e4]

theorem ktDsBytes_short {d : Buf} {base off k m : Nat} {bs : List Byte} (hd : d.length < 2 ^ 30)
    (h : LebAt d (base + off + k) bs m) (hs : bs.length ≤ 5) (hf : base + off + bs.length + k + m % 2 ^ 32 ≤ d.length) :
    ktDsBytes k d base off = .ok ((off + bs.length + m % 2 ^ 32 : Nat) : Int) := by
  have hne := leb_ne_nil h.1
  have hle := h.2.2
  have hw : w32 ((base : Int) + off + k) = ((base + off + k : Nat) : Int) := by
    rw [w32_id (by omega) (by omega)]; omega
  have hl := ktScanLen_of d base k hd bs m 0 0 off h (by simp) (by omega) (by omega)
  rw [if_pos (by omega)] at hl
  simp only [Nat.zero_add, Nat.pow_zero, Nat.mul_one] at hl
  have hi : (BitVec.ofNat 32 m).toInt = ((m % 2 ^ 32 : Nat) : Int) := by
    rw [BitVec.toInt_eq_toNat_of_lt (by rw [BitVec.toNat_ofNat]; omega), BitVec.toNat_ofNat]
  unfold ktDsBytes
  simp only [hw]
  rw [if_neg (by omega), hl]
  simp only [hi]
  rw [if_neg (by rw [w32_id (by omega) (by omega), w32_id (by omega) (by omega)]; omega), w32_id (by omega) (by omega)]
  rw [Int.natCast_add (off + bs.length)]

theorem ktDsBytes_long {d : Buf} {base off k m : Nat} {bs : List Byte} (hd : d.length < 2 ^ 30)
    (h : LebAt d (base + off + k) bs m) (hs : 5 < bs.length) : ktDsBytes k d base off = .ret (-1) := by
  have hle := h.2.2
  have hw : w32 ((base : Int) + off + k) = ((base + off + k : Nat) : Int) := by
    rw [w32_id (by omega) (by omega)]; omega
  have hl := ktScanLen_of d base k hd bs m 0 0 off h (by simp) (by omega) (by omega)
  rw [if_neg (by omega)] at hl
  unfold ktDsBytes
  simp only [hw]
  rw [if_neg (by omega), hl]

theorem ktDecBytes_short {d : Buf} {base off k m : Nat} {bs : List Byte} (hd : d.length < 2 ^ 30)
    (h : LebAt d (base + off + k) bs m) (hs : bs.length ≤ 5) (hf : base + off + bs.length + k + m % 2 ^ 32 ≤ d.length) :
    ktDecBytes base k d off =
      .ok ((d.drop (base + off + k + bs.length)).take (m % 2 ^ 32), off + bs.length + m % 2 ^ 32) := by
  obtain ⟨y, hy, hy2⟩ := ktDecLen_of d base k bs m 0#32 0 off h
  have := hy2 0 rfl (by simp) (by omega)
  simp only [Nat.zero_add, Nat.pow_zero, Nat.mul_one] at this
  subst this
  have hi : (BitVec.ofNat 32 m).toInt = ((m % 2 ^ 32 : Nat) : Int) := by
    rw [BitVec.toInt_eq_toNat_of_lt (by rw [BitVec.toNat_ofNat]; omega), BitVec.toNat_ofNat]
  unfold ktDecBytes
  rw [hy]
  simp only [hi, BitVec.toNat_ofNat]
  rw [if_pos (by omega), show base + (off + bs.length) + k = base + off + k + bs.length by omega]

/-- Success of the Kotlin decoder on bytes with a prefix of at most five bytes. -/
theorem ktDecBytes_ok {d : Buf} {base off k : Nat} {s : List Byte} {o : Nat}
    (h : ktDecBytes base k d off = .ok (s, o)) :
    ∃ bs m, LebAt d (base + off + k) bs m ∧ base + o + k ≤ d.length ∧ off + bs.length ≤ o ∧
      (bs.length ≤ 5 → base + off + bs.length + k + m % 2 ^ 32 ≤ d.length ∧ s.length = m % 2 ^ 32 ∧
        s = (d.drop (base + off + k + bs.length)).take (m % 2 ^ 32) ∧ o = off + bs.length + m % 2 ^ 32) := by
  unfold ktDecBytes at h
  split at h
  · cases h
  · cases h
  · rename_i y o1 e
    obtain ⟨bs, m, hl, ho⟩ := ktDecLen_ok d base k e
    obtain ⟨y', hy, hy2⟩ := ktDecLen_of d base k bs m 0#32 0 off hl
    rw [e] at hy
    cases hy
    split at h
    · rename_i hc
      cases h
      refine ⟨bs, m, hl, by omega, by omega, ?_⟩
      intro h5
      have := hy2 0 rfl (by simp) (by omega)
      simp only [Nat.zero_add, Nat.pow_zero, Nat.mul_one] at this
      subst this
      rw [BitVec.toNat_ofNat] at hc ⊢
      have e3 : base + (off + bs.length) + k = base + off + k + bs.length := by omega
      rw [e3]
      refine ⟨by omega, ?_, rfl, rfl⟩
      rw [List.length_take, List.length_drop]; omega
    · cases h

end Bubbler
