import Verif.Codec.Chunk

set_option linter.unusedSimpArgs false

namespace Bubbler

/-! ### The wire-bit / value-bit permutation -/

theorem valueBit_le (n j : Nat) : valueBit false n j = j := by simp [valueBit]

theorem valueBit_be (n j : Nat) :
    valueBit true n j = if n < 8 * (j / 8 + 1) then j % 8 else n - 8 * (j / 8 + 1) + j % 8 := by
  simp only [valueBit, if_true]
  by_cases h : n < 8 * (j / 8 + 1)
  · rw [if_pos h, if_pos (by omega)]
  · rw [if_neg h, if_neg (by omega)]; omega

theorem valueBit_lt {big : Bool} {n j : Nat} (h : j < n) : valueBit big n j < n := by
  cases big
  · simpa [valueBit_le]
  · rw [valueBit_be]; split <;> omega

theorem valueBit_inj {big : Bool} {n j k : Nat} (hj : j < n) (hk : k < n)
    (h : valueBit big n j = valueBit big n k) : j = k := by
  cases big
  · simpa [valueBit_le] using h
  · rw [valueBit_be, valueBit_be] at h
    split at h <;> split at h <;> omega

/-- Inverse of `valueBit`. -/
def wireBit (big : Bool) (n k : Nat) : Nat :=
  if big then
    if k < n % 8 then 8 * (n / 8) + k
    else 8 * (n / 8 - 1 - (k - n % 8) / 8) + (k - n % 8) % 8
  else k

theorem wireBit_lt {big : Bool} {n k : Nat} (h : k < n) : wireBit big n k < n := by
  cases big
  · simpa [wireBit]
  · simp only [wireBit, if_true]; split <;> omega

theorem valueBit_wireBit {big : Bool} {n k : Nat} (h : k < n) :
    valueBit big n (wireBit big n k) = k := by
  cases big
  · simp [wireBit, valueBit]
  · rw [valueBit_be]; simp only [wireBit, if_true]
    split <;> split <;> omega

theorem valueBit_surj {big : Bool} {n k : Nat} (h : k < n) : ∃ j, j < n ∧ valueBit big n j = k :=
  ⟨wireBit big n k, wireBit_lt h, valueBit_wireBit h⟩

/-! ### The write helper -/

theorem testBit_and_shift_one {w : Nat} (v : BitVec w) (k : Nat) :
    (v &&& (1#w <<< k) != 0#w) = v.getLsbD k := by
  by_cases hk : k < w
  · cases h : v.getLsbD k
    · have : v &&& (1#w <<< k) = 0#w := by
        apply BitVec.eq_of_getLsbD_eq
        intro i hi
        simp only [BitVec.getLsbD_and, BitVec.getLsbD_shiftLeft, BitVec.getLsbD_one,
          BitVec.getLsbD_zero]
        by_cases e : i = k
        · subst e; simp [h]
        · have : ¬ (i - k = 0 ∧ ¬ i < k) := by omega
          by_cases a : i < k
          · simp [a]
          · have : ¬ i - k = 0 := by omega
            simp [this]
      rw [this]; simp
    · have : (v &&& (1#w <<< k)) ≠ 0#w := by
        intro e
        have := congrArg (fun z => z.getLsbD k) e
        simp only [BitVec.getLsbD_and, h, BitVec.getLsbD_shiftLeft, BitVec.getLsbD_one,
          BitVec.getLsbD_zero] at this
        have h0 : 0 < w := by omega
        simp [hk, h0] at this
      simpa using this
  · have h1 : v.getLsbD k = false := BitVec.getLsbD_of_ge _ _ (by omega)
    have h2 : 1#w <<< k = 0#w := by
      apply BitVec.eq_of_getLsbD_eq
      intro i hi
      simp [BitVec.getLsbD_shiftLeft]
      omega
    rw [h1, h2]; simp

theorem rd_eq_some {d : Buf} {k : Nat} (h : k < d.length) : d.rd k = some (d.getD k 0#8) := by
  simp [Buf.rd, List.getD_eq_getElem?_getD, h]

theorem getLsbD_getD (d : Buf) (k j : Nat) (hj : j < 8) :
    (d.getD k 0#8).getLsbD j = bitAt d (8 * k + j) := by
  unfold bitAt
  have h1 : (8 * k + j) / 8 = k := by omega
  have h2 : (8 * k + j) % 8 = j := by omega
  rw [h1, h2]

/-- writing one bit -/
theorem bbWriteStep_spec (bitFrom n : Nat) (value : BitVec 64) (big : Bool) (d : Buf) (j : Nat)
    (h : bitFrom + j < 8 * d.length) :
    ∃ d', bbWriteStep bitFrom n value big d j = some d' ∧
      WritesBits d d' (bitFrom + j) 1 (fun _ => value.getLsbD (valueBit big n j)) := by
  have hlt : (bitFrom + j) / 8 < d.length := by omega
  unfold bbWriteStep
  simp only [rd_eq_some hlt, Buf.wr, hlt, if_true, Option.bind_eq_bind, Option.bind_some,
    testBit_and_shift_one]
  have hm : ∀ i, i < 8 → (1#8 <<< ((bitFrom + j) % 8)).getLsbD i = decide (i = (bitFrom + j) % 8) := by
    intro i hi
    simp only [BitVec.getLsbD_shiftLeft, BitVec.getLsbD_one]
    by_cases e : i = (bitFrom + j) % 8
    · subst e; simp; omega
    · by_cases a : i < (bitFrom + j) % 8
      · simp [a, e]
      · have : ¬ i - (bitFrom + j) % 8 = 0 := by omega
        simp [this, e]
  cases hv : value.getLsbD (valueBit big n j)
  · refine ⟨_, rfl, by simp, fun i => ?_⟩
    rw [bitAt_set hlt]
    by_cases e : i = bitFrom + j
    · subst e
      simp [hm _ (Nat.mod_lt _ (by omega : 0 < 8))]
    · rw [if_neg (by omega : ¬ (bitFrom + j ≤ i ∧ i < bitFrom + j + 1))]
      split
      · rename_i e8
        have hi : i % 8 < 8 := by omega
        have : ¬ i % 8 = (bitFrom + j) % 8 := by omega
        have e3 : 8 * ((bitFrom + j) / 8) + i % 8 = i := by omega
        rw [BitVec.getLsbD_and, BitVec.getLsbD_not, hm _ hi, getLsbD_getD _ _ _ hi, e3]
        simp [this, hi]
      · rfl
  · simp only [if_true, Option.some.injEq]
    have hlt2 : (bitFrom + j) / 8 < (d.set ((bitFrom + j) / 8) (d.getD ((bitFrom + j) / 8) 0#8 &&& ~~~(1#8 <<< ((bitFrom + j) % 8)))).length := by
      simpa using hlt
    rw [rd_eq_some hlt2]
    simp only [Option.bind_some, hlt2, if_true]
    refine ⟨_, rfl, by simp, fun i => ?_⟩
    rw [bitAt_set hlt2]
    by_cases e : i = bitFrom + j
    · subst e
      simp [hm _ (Nat.mod_lt _ (by omega : 0 < 8))]
    · rw [if_neg (by omega : ¬ (bitFrom + j ≤ i ∧ i < bitFrom + j + 1))]
      split
      · rename_i e8
        have hi : i % 8 < 8 := by omega
        have : ¬ i % 8 = (bitFrom + j) % 8 := by omega
        have e3 : 8 * ((bitFrom + j) / 8) + i % 8 = i := by omega
        simp only [BitVec.getLsbD_or, getLsbD_getD _ _ _ hi, bitAt_set hlt, hm _ hi, this, decide_false, Bool.or_false]
        have e4 : i / 8 = (8 * ((bitFrom + j) / 8) + i % 8) / 8 := by omega
        rw [if_pos (by omega), e3]
        rw [BitVec.getLsbD_and, BitVec.getLsbD_not, hm _ hi, getLsbD_getD _ _ _ hi, e3]
        simp [this, hi]
      · rw [bitAt_set hlt, if_neg (by assumption)]

theorem foldlM_range_succ {σ : Type} (f : σ → Nat → Option σ) (n : Nat) (s : σ) :
    (List.range (n + 1)).foldlM f s = ((List.range n).foldlM f s).bind (fun s' => f s' n) := by
  rw [List.range_succ, List.foldlM_append]
  simp

theorem bbWriteLoop_spec (bitFrom n : Nat) (value : BitVec 64) (big : Bool) (d : Buf) (m : Nat)
    (h : bitFrom + m ≤ 8 * d.length) :
    ∃ d', (List.range m).foldlM (bbWriteStep bitFrom n value big) d = some d' ∧
      WritesBits d d' bitFrom m (fun j => value.getLsbD (valueBit big n j)) := by
  induction m with
  | zero => exact ⟨d, rfl, WritesBits.refl _ _ _⟩
  | succ m ih =>
    obtain ⟨d1, h1, w1⟩ := ih (by omega)
    obtain ⟨d2, h2, w2⟩ := bbWriteStep_spec bitFrom n value big d1 m (by rw [w1.1]; omega)
    refine ⟨d2, ?_, ?_⟩
    · rw [foldlM_range_succ, h1, Option.bind_some, h2]
    · exact w1.trans (w2.congr (fun j hj => by
        have : j = 0 := by omega
        subst this; rfl))

theorem getLsbD_mask64 {n k : Nat} (hn : n < 64) (hk : k < n) (v : BitVec 64) :
    (v &&& ((1#64 <<< n) - 1#64)).getLsbD k = v.getLsbD k := by
  have : ((1#64 <<< n) - 1#64) = BitVec.ofNat 64 (2 ^ n - 1) := by
    apply BitVec.eq_of_toNat_eq
    have h2 : 2 ^ n < 2 ^ 64 := Nat.pow_lt_pow_right (by omega) hn
    have h3 : 1 ≤ 2 ^ n := Nat.one_le_two_pow
    simp [BitVec.toNat_sub, BitVec.toNat_shiftLeft, Nat.shiftLeft_eq]
    omega
  rw [BitVec.getLsbD_and, this, BitVec.getLsbD_ofNat, Nat.testBit_two_pow_sub_one]
  have : k < 64 := by omega
  simp [hk, this]

/-- What the array-loop helper does: it writes exactly the field's bits. -/
theorem bbWriteFieldBits_spec (d : Buf) (bitFrom n : Nat) (v : BitVec 64) (big : Bool)
    (h : bitFrom + n ≤ 8 * d.length) :
    ∃ d', bbWriteFieldBits d bitFrom n v big = some d' ∧
      WritesBits d d' bitFrom n (fun j => v.getLsbD (valueBit big n j)) := by
  unfold bbWriteFieldBits
  obtain ⟨d', h1, w1⟩ := bbWriteLoop_spec bitFrom n
    (if n < 64 then v &&& ((1#64 <<< n) - 1#64) else v) big d n h
  refine ⟨d', h1, w1.congr (fun j hj => ?_)⟩
  split
  · exact getLsbD_mask64 (by assumption) (valueBit_lt hj) v
  · rfl

/-! ### The read helper -/

theorem bbReadStep_spec (d : Buf) (bitFrom n : Nat) (big : Bool) (out : BitVec 64) (j : Nat)
    (h : bitFrom + j < 8 * d.length) (h64 : valueBit big n j < 64) :
    ∃ o, bbReadStep d bitFrom n big out j = some o ∧
      ∀ k, o.getLsbD k = (out.getLsbD k || (decide (k = valueBit big n j) && bitAt d (bitFrom + j))) := by
  have hlt : (bitFrom + j) / 8 < d.length := by omega
  unfold bbReadStep
  simp only [rd_eq_some hlt, Option.bind_eq_bind, Option.bind_some, testBit_and_shift_one]
  have hb : (d.getD ((bitFrom + j) / 8) 0#8).getLsbD ((bitFrom + j) % 8) = bitAt d (bitFrom + j) := rfl
  rw [hb]
  cases hbit : bitAt d (bitFrom + j)
  · exact ⟨out, rfl, fun k => by simp⟩
  · refine ⟨_, rfl, fun k => ?_⟩
    simp only [BitVec.getLsbD_or, BitVec.getLsbD_shiftLeft, BitVec.getLsbD_one, Bool.and_true]
    congr 1
    by_cases e : k = valueBit big n j
    · subst e; simp [h64]
    · by_cases a : k < valueBit big n j
      · simp [a, e]
      · have : ¬ k - valueBit big n j = 0 := by omega
        simp [this, e]

theorem bbReadLoop_spec (d : Buf) (bitFrom n : Nat) (big : Bool) (hn : n ≤ 64) (m : Nat) (hm : m ≤ n)
    (h : bitFrom + n ≤ 8 * d.length) :
    ∃ o, (List.range m).foldlM (bbReadStep d bitFrom n big) 0#64 = some o ∧
      (∀ j, j < m → o.getLsbD (valueBit big n j) = bitAt d (bitFrom + j)) ∧
      (∀ k, (∀ j, j < m → valueBit big n j ≠ k) → o.getLsbD k = false) := by
  induction m with
  | zero => exact ⟨0#64, rfl, fun j hj => by omega, fun k _ => by simp⟩
  | succ m ih =>
    obtain ⟨o1, h1, a1, b1⟩ := ih (by omega)
    have hv : valueBit big n m < 64 := Nat.lt_of_lt_of_le (valueBit_lt (by omega)) hn
    obtain ⟨o2, h2, a2⟩ := bbReadStep_spec d bitFrom n big o1 m (by omega) hv
    refine ⟨o2, ?_, ?_, ?_⟩
    · rw [foldlM_range_succ, h1, Option.bind_some, h2]
    · intro j hj
      rw [a2]
      by_cases e : j = m
      · subst e
        rw [b1 _ (fun i hi he => by have := valueBit_inj (by omega) (by omega) he; omega)]
        simp
      · rw [a1 j (by omega)]
        have : ¬ valueBit big n j = valueBit big n m := fun he => by
          have := valueBit_inj (by omega) (by omega) he; omega
        simp [this]
    · intro k hk
      rw [a2, b1 k (fun j hj => hk j (by omega))]
      have : ¬ k = valueBit big n m := fun he => hk m (by omega) he.symm
      simp [this]

/-- Specification of "the bits of `x` are the `n` wire bits starting at `start`". -/
def ReadsBits {w : Nat} (d : Buf) (start n : Nat) (big : Bool) (x : BitVec w) : Prop :=
  (∀ j, j < n → x.getLsbD (valueBit big n j) = bitAt d (start + j)) ∧
  (∀ k, n ≤ k → x.getLsbD k = false)

theorem bbReadFieldBits_spec (d : Buf) (bitFrom n : Nat) (big : Bool) (hn : n ≤ 64)
    (h : bitFrom + n ≤ 8 * d.length) :
    ∃ o, bbReadFieldBits d bitFrom n big = some o ∧ ReadsBits d bitFrom n big o := by
  obtain ⟨o, h1, a, b⟩ := bbReadLoop_spec d bitFrom n big hn n (Nat.le_refl _) h
  refine ⟨o, h1, a, fun k hk => b k (fun j hj he => ?_)⟩
  have := valueBit_lt (big := big) hj
  omega

theorem ReadsBits.unique {w : Nat} {d : Buf} {s n : Nat} {big : Bool} {x y : BitVec w}
    (hx : ReadsBits d s n big x) (hy : ReadsBits d s n big y) : x = y := by
  apply BitVec.eq_of_getLsbD_eq
  intro k hk
  by_cases h : k < n
  · obtain ⟨j, hj, e⟩ := valueBit_surj (big := big) h
    rw [← e, hx.1 j hj, hy.1 j hj]
  · rw [hx.2 k (by omega), hy.2 k (by omega)]

end Bubbler
