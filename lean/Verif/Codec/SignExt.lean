import Verif.Codec.ChunkEnc

set_option linter.unusedSimpArgs false

namespace Bubbler

/-- `signExtShift` computes the two's-complement value of the low `n` bits. -/
theorem signExtShift_eq {w n : Nat} (hn0 : 0 < n) (hn : n ≤ w) (x : BitVec w) :
    signExtShift n x = (x.setWidth n).signExtend w := by
  apply BitVec.eq_of_getLsbD_eq
  intro i hi
  unfold signExtShift
  rw [BitVec.getLsbD_sshiftRight, BitVec.getLsbD_signExtend, BitVec.msb_eq_getLsbD_last,
    BitVec.msb_eq_getLsbD_last]
  simp only [BitVec.getLsbD_shiftLeft, BitVec.getLsbD_setWidth]
  have h1 : ¬ w ≤ i := by omega
  by_cases a : w - n + i < w
  · have b : i < n := by omega
    have c : ¬ w - n + i < w - n := by omega
    have e : w - n + i - (w - n) = i := by omega
    simp [a, b, c, e, hi, h1]
  · have b : ¬ i < n := by omega
    have c : ¬ w - 1 < w - n := by omega
    have e : w - 1 - (w - n) = n - 1 := by omega
    have f : w - 1 < w := by omega
    have g : n - 1 < n := by omega
    simp [a, b, c, e, hi, h1, f, g]

theorem xor_eq_add_of_clear {w : Nat} (x m : BitVec w) (h : x &&& m = 0#w) : x ^^^ m = x + m := by
  rw [BitVec.add_eq_or_of_and_eq_zero x m h]
  apply BitVec.eq_of_getLsbD_eq
  intro i hi
  have := congrArg (fun z => z.getLsbD i) h
  simp only [BitVec.getLsbD_and, BitVec.getLsbD_zero] at this
  simp only [BitVec.getLsbD_xor, BitVec.getLsbD_or]
  revert this
  cases x.getLsbD i <;> cases m.getLsbD i <;> simp

theorem getLsbD_one_shl {w k i : Nat} (hk : k < w) :
    (1#w <<< k).getLsbD i = decide (i = k) := by
  simp only [BitVec.getLsbD_shiftLeft, BitVec.getLsbD_one]
  by_cases e : i = k
  · subst e; simp [hk]; omega
  · by_cases a : i < k
    · simp [a, e]
    · have : ¬ i - k = 0 := by omega
      simp [this, e]

/-- `signExtArith` computes the same, provided the bits from `n` up are clear (they are: the
decode statements clear them). -/
theorem signExtArith_eq {w n : Nat} (hn0 : 0 < n) (hn : n ≤ w) (x : BitVec w)
    (hx : ∀ k, n ≤ k → x.getLsbD k = false) :
    signExtArith n x = (x.setWidth n).signExtend w := by
  unfold signExtArith
  have hm := fun i => getLsbD_one_shl (w := w) (k := n - 1) (i := i) (by omega)
  cases hb : x.getLsbD (n - 1)
  · have h0 : x &&& (1#w <<< (n - 1)) = 0#w := by
      apply BitVec.eq_of_getLsbD_eq
      intro i hi
      rw [BitVec.getLsbD_and, hm]
      by_cases e : i = n - 1
      · subst e; simp [hb]
      · simp [e]
    rw [xor_eq_add_of_clear _ _ h0, BitVec.add_sub_cancel]
    apply BitVec.eq_of_getLsbD_eq
    intro i hi
    rw [BitVec.getLsbD_signExtend, BitVec.msb_eq_getLsbD_last]
    simp only [BitVec.getLsbD_setWidth, hb]
    by_cases a : i < n
    · simp [a, hi]
    · simp [a, hx i (by omega)]
  · -- y := x ^^^ m has bit n-1 clear and x = y + m
    have h0 : (x ^^^ (1#w <<< (n - 1))) &&& (1#w <<< (n - 1)) = 0#w := by
      apply BitVec.eq_of_getLsbD_eq
      intro i hi
      rw [BitVec.getLsbD_and, BitVec.getLsbD_xor, hm]
      by_cases e : i = n - 1
      · subst e; simp [hb]
      · simp [e]
    have hxy : x = (x ^^^ (1#w <<< (n - 1))) + (1#w <<< (n - 1)) := by
      rw [← xor_eq_add_of_clear _ _ h0, BitVec.xor_assoc, BitVec.xor_self, BitVec.xor_zero]
    apply BitVec.eq_of_toNat_eq
    rw [BitVec.toNat_signExtend]
    have hmsb : (x.setWidth n).msb = true := by
      rw [BitVec.msb_eq_getLsbD_last, BitVec.getLsbD_setWidth, hb]; simp; omega
    have hsw : ((x.setWidth n).setWidth w) = x := by
      apply BitVec.eq_of_getLsbD_eq
      intro i hi
      simp only [BitVec.getLsbD_setWidth]
      by_cases a : i < n
      · simp [a, hi]
      · simp [a, hx i (by omega)]
    rw [hsw, hmsb, if_pos rfl]
    generalize hy : x ^^^ (1#w <<< (n - 1)) = y at *
    have hmn : (1#w <<< (n - 1)).toNat = 2 ^ (n - 1) := by
      have : 2 ^ (n - 1) < 2 ^ w := Nat.pow_lt_pow_right (by omega) (by omega)
      have h1 : 1 < 2 ^ w := by
        have : 2 ^ 1 ≤ 2 ^ w := Nat.pow_le_pow_right (by omega) (by omega)
        omega
      simp [BitVec.toNat_shiftLeft, Nat.shiftLeft_eq, Nat.mod_eq_of_lt h1, Nat.mod_eq_of_lt this]
    have hylt : y.toNat < 2 ^ (n - 1) := by
      apply Nat.lt_pow_two_of_testBit
      intro k hk
      rw [BitVec.testBit_toNat]
      have := congrArg (fun z => z.getLsbD k) hy
      simp only [BitVec.getLsbD_xor, hm] at this
      rw [← this]
      by_cases e : k = n - 1
      · subst e; simp [hb]
      · simp [e, hx k (by omega)]
    have e2 : 2 ^ n = 2 * 2 ^ (n - 1) := by
      have : n = (n - 1) + 1 := by omega
      rw [this, Nat.pow_succ]; simp; omega
    have hle : 2 ^ n ≤ 2 ^ w := Nat.pow_le_pow_right (by omega) hn
    have hxn : x.toNat = y.toNat + 2 ^ (n - 1) := by
      rw [hxy, BitVec.toNat_add, hmn, Nat.mod_eq_of_lt (by omega)]
    rw [BitVec.toNat_sub, hmn, hxn]
    have : 2 ^ w - 2 ^ (n - 1) + y.toNat < 2 ^ w := by omega
    rw [Nat.mod_eq_of_lt this]
    omega

end Bubbler
