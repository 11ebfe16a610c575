import Verif.Util.Num
import Verif.Codec.Schema

set_option linter.unusedSimpArgs false
namespace Bubbler.Num

theorem digitVal_digitChar : ∀ d, d < 16 → digitVal (digitChar d) = some d := by decide
theorem digitChar_ne_hash : ∀ d, d < 16 → digitChar d ≠ '#' ∧ digitChar d ≠ '-' ∧ digitChar d ≠ '+' := by decide

theorem digits_lt {b n : Nat} (h : n < b) : digits b n = [digitChar n] := by rw [digits, dif_pos (Or.inl h)]
theorem digits_ge {b n : Nat} (hb : 2 ≤ b) (h : b ≤ n) : digits b n = digits b (n / b) ++ [digitChar (n % b)] := by
  rw [digits, dif_neg (by omega)]

theorem readFrom_append {b : Nat} : ∀ (s t : Str) (acc : Nat),
    readFrom b acc (s ++ t) = (readFrom b acc s).bind fun a => readFrom b a t
  | [], t, acc => rfl
  | c :: cs, t, acc => by
    simp only [List.cons_append, readFrom]
    cases digitVal c with
    | none => rfl
    | some d =>
      simp only
      split
      · exact readFrom_append cs t _
      · rfl

theorem read_digits {b : Nat} (hb : 2 ≤ b) (hb16 : b ≤ 16) (n : Nat) : readFrom b 0 (digits b n) = some n := by
  induction n using Nat.strongRecOn with
  | _ n ih =>
    by_cases h : n < b
    · rw [digits_lt h]
      simp only [readFrom, digitVal_digitChar n (by omega), h, if_true, Nat.zero_mul, Nat.zero_add]
    · rw [digits_ge hb (by omega), readFrom_append, ih (n / b) (Nat.div_lt_self (by omega) (by omega))]
      have hm : n % b < b := Nat.mod_lt _ (by omega)
      simp only [Option.bind_some, readFrom, digitVal_digitChar (n % b) (by omega), hm, if_true, Option.some.injEq]
      rw [Nat.mul_comm]; exact Nat.div_add_mod n b

theorem digits_ne_nil {b n : Nat} : digits b n ≠ [] := by
  unfold digits; split <;> simp

theorem digits_chars {b : Nat} (hb : 2 ≤ b) (hb16 : b ≤ 16) (n : Nat) : ∀ c ∈ digits b n, ∃ d, d < b ∧ c = digitChar d := by
  induction n using Nat.strongRecOn with
  | _ n ih =>
    by_cases h : n < b
    · rw [digits_lt h]; intro c hc; exact ⟨n, h, by simpa using hc⟩
    · rw [digits_ge hb (by omega)]
      intro c hc
      rcases List.mem_append.mp hc with hc | hc
      · exact ih _ (Nat.div_lt_self (by omega) (by omega)) c hc
      · exact ⟨n % b, Nat.mod_lt _ (by omega), by simpa using hc⟩

theorem digits_no_hash {b : Nat} (hb : 2 ≤ b) (hb16 : b ≤ 16) (n : Nat) : ∀ c ∈ digits b n, c ≠ '#' ∧ c ≠ '-' ∧ c ≠ '+' := by
  intro c hc
  obtain ⟨d, hd, e⟩ := digits_chars hb hb16 n c hc
  subst e
  exact digitChar_ne_hash d (by omega)

theorem readNat_digits {b : Nat} (hb : 2 ≤ b) (hb16 : b ≤ 16) (n : Nat) : readNat b (digits b n) = some n := by
  have := @digits_ne_nil b n
  cases h : digits b n with
  | nil => exact absurd h this
  | cons c cs => show readFrom b 0 (c :: cs) = _; rw [← h]; exact read_digits hb hb16 n

/-- The first digit of a positive number is not 0. -/
theorem digits_head {b : Nat} (hb : 2 ≤ b) (n : Nat) (hn : 0 < n) :
    ∃ d cs, digits b n = digitChar d :: cs ∧ 0 < d ∧ d < b := by
  induction n using Nat.strongRecOn with
  | _ n ih =>
    by_cases h : n < b
    · exact ⟨n, [], digits_lt h, hn, h⟩
    · rw [digits_ge hb (by omega)]
      obtain ⟨d, cs, e, h1, h2⟩ := ih (n / b) (Nat.div_lt_self (by omega) (by omega)) (Nat.div_pos (by omega) (by omega))
      exact ⟨d, cs ++ [digitChar (n % b)], by rw [e]; rfl, h1, h2⟩

theorem digitChar_ne_zero : ∀ d, d < 16 → 0 < d → digitChar d ≠ '0' := by decide

theorem parseNat_digits10 (n : Nat) : parseNat (digits 10 n) = some n := by
  by_cases hn : n = 0
  · subst hn; rw [digits_lt (by omega)]; decide
  · obtain ⟨d, cs, e, h1, h2⟩ := digits_head (b := 10) (by omega) n (by omega)
    have hr := read_digits (b := 10) (by omega) (by omega) n
    rw [e] at hr ⊢
    have h0 := digitChar_ne_zero d (by omega) h1
    rw [parseNat.eq_def]
    split
    · rename_i heq; simp only [List.cons.injEq] at heq; exact absurd heq.1 h0
    · rename_i heq; simp only [List.cons.injEq] at heq; exact absurd heq.1 h0
    · rename_i heq; cases heq
    · exact hr

theorem parseNat_hex (n : Nat) : parseNat ('0' :: 'x' :: digits 16 n) = some n := by
  have hr := read_digits (b := 16) (by omega) (by omega) n
  cases h : digits 16 n with
  | nil => exact absurd h digits_ne_nil
  | cons c cs => rw [h] at hr; simp only [parseNat, true_or, if_true]; exact hr

theorem parseNat_bin (n : Nat) : parseNat ('0' :: 'b' :: digits 2 n) = some n := by
  have hr := read_digits (b := 2) (by omega) (by omega) n
  cases h : digits 2 n with
  | nil => exact absurd h digits_ne_nil
  | cons c cs =>
    rw [h] at hr
    simp only [parseNat]
    rw [if_neg (by decide), if_pos (by decide)]
    exact hr

theorem parseInt_of_nat {s : Str} {n : Nat} (h : parseNat s = some n) (hn : n < 2 ^ 63) (hs : s.head? ≠ some '-' ∧ s.head? ≠ some '+') :
    parseInt s = some (n : Int) := by
  unfold parseInt
  split
  · simp at hs
  · simp at hs
  · rw [h]; simp only [Option.bind_some, hn, if_true]

theorem parseInt_neg {s : Str} {n : Nat} (h : parseNat s = some n) (hn : n ≤ 2 ^ 63) :
    parseInt ('-' :: s) = some (-n : Int) := by
  simp only [parseInt, h, Option.bind_some, hn, if_true]

theorem head_digits {b : Nat} (hb : 2 ≤ b) (hb16 : b ≤ 16) (n : Nat) :
    (digits b n).head? ≠ some '-' ∧ (digits b n).head? ≠ some '+' := by
  cases h : digits b n with
  | nil => simp
  | cons c cs =>
    have := digits_no_hash hb hb16 n c (by rw [h]; simp)
    simp only [List.head?_cons, ne_eq, Option.some.injEq]
    exact ⟨this.2.1, this.2.2⟩

/-! ### Rounding to a power of two -/

/-- One smearing step on natural numbers. -/
theorem smear_bit (v : Nat) (k : Nat) (w : Nat) (hw : ∀ i, w.testBit i = true ↔ ∃ j, j < k ∧ v.testBit (i + j) = true) :
    ∀ i, (w ||| (w >>> k)).testBit i = true ↔ ∃ j, j < 2 * k ∧ v.testBit (i + j) = true := by
  intro i
  rw [Nat.testBit_or, Nat.testBit_shiftRight, Bool.or_eq_true, hw, hw]
  constructor
  · rintro (⟨j, hj, h⟩ | ⟨j, hj, h⟩)
    · exact ⟨j, by omega, h⟩
    · exact ⟨k + j, by omega, by rw [show i + (k + j) = k + i + j by omega]; exact h⟩
  · rintro ⟨j, hj, h⟩
    by_cases hjk : j < k
    · exact .inl ⟨j, hjk, h⟩
    · exact .inr ⟨j - k, by omega, by rw [show k + i + (j - k) = i + j by omega]; exact h⟩

theorem or_shift_toNat (v : BitVec 64) (k : Nat) (h : v.toNat < 2 ^ 63) :
    (v ||| v.sshiftRight k).toNat = v.toNat ||| (v.toNat >>> k) ∧ (v ||| v.sshiftRight k).toNat < 2 ^ 63 := by
  have hm : v.msb = false := by
    rw [BitVec.msb_eq_decide]; simp; omega
  have e : (v ||| v.sshiftRight k).toNat = v.toNat ||| (v.toNat >>> k) := by
    rw [BitVec.toNat_or, BitVec.sshiftRight_eq_of_msb_false hm, BitVec.toNat_ushiftRight]
  refine ⟨e, ?_⟩
  rw [e]
  apply Nat.or_lt_two_pow h
  rw [Nat.shiftRight_eq_div_pow]
  exact Nat.lt_of_le_of_lt (Nat.div_le_self _ _) h

/-- `HighBit` of a positive number up to 2^62 is the least power of two not below it. -/
theorem highBit_spec (n : Nat) (h1 : 1 ≤ n) (h2 : n ≤ 2 ^ 62) :
    ∃ k, (highBit (BitVec.ofNat 64 n)).toNat = 2 ^ k ∧ n ≤ 2 ^ k ∧ ∀ j, n ≤ 2 ^ j → k ≤ j := by
  have hv : (BitVec.ofNat 64 n - 1#64).toNat = n - 1 := by
    rw [BitVec.toNat_sub, BitVec.toNat_ofNat, BitVec.toNat_ofNat]
    have : n % 2 ^ 64 = n := Nat.mod_eq_of_lt (by omega)
    omega
  have b0 : ∀ i, (n - 1).testBit i = true ↔ ∃ j, j < 1 ∧ (n - 1).testBit (i + j) = true := by
    intro i
    constructor
    · intro h; exact ⟨0, by omega, h⟩
    · rintro ⟨j, hj, h⟩; have : j = 0 := by omega
      subst this; exact h
  have l0 : (BitVec.ofNat 64 n - 1#64).toNat < 2 ^ 63 := by rw [hv]; omega
  have s1 := or_shift_toNat _ 1 l0
  have b1 := smear_bit (n - 1) 1 _ b0
  rw [← hv, ← s1.1] at b1
  have s2 := or_shift_toNat _ 2 s1.2
  have b2 := smear_bit _ 2 _ b1
  rw [← s2.1] at b2
  have s3 := or_shift_toNat _ 4 s2.2
  have b3 := smear_bit _ 4 _ b2
  rw [← s3.1] at b3
  have s4 := or_shift_toNat _ 8 s3.2
  have b4 := smear_bit _ 8 _ b3
  rw [← s4.1] at b4
  have s5 := or_shift_toNat _ 16 s4.2
  have b5 := smear_bit _ 16 _ b4
  rw [← s5.1] at b5
  have s6 := or_shift_toNat _ 32 s5.2
  have b6 := smear_bit _ 32 _ b5
  rw [← s6.1, hv] at b6
  -- the smeared value is 2^k - 1
  obtain ⟨k, hk1, hk2⟩ : ∃ k, n - 1 < 2 ^ k ∧ (∀ j, n ≤ 2 ^ j → k ≤ j) := by
    by_cases hn : n = 1
    · exact ⟨0, by omega, fun j _ => Nat.zero_le j⟩
    · refine ⟨Nat.log2 (n - 1) + 1, Nat.lt_log2_self, ?_⟩
      intro j hj
      have := (Nat.log2_lt (n := n - 1) (k := j) (by omega)).mpr (by omega)
      omega
  have hk62 : k ≤ 62 := hk2 62 h2
  refine ⟨k, ?_, by omega, hk2⟩
  unfold highBit
  simp only
  have hwv : ∀ w : BitVec 64, (∀ i, w.toNat.testBit i = true ↔ ∃ j, j < 2 * 32 ∧ (n - 1).testBit (i + j) = true) →
      w.toNat = 2 ^ k - 1 := by
    intro w hw
    apply Nat.eq_of_testBit_eq
    intro i
    rw [Nat.testBit_two_pow_sub_one, Bool.eq_iff_iff, hw, decide_eq_true_eq]
    constructor
    · rintro ⟨j, hj, h⟩
      apply Classical.byContradiction
      intro hik
      have : n - 1 < 2 ^ (i + j) := Nat.lt_of_lt_of_le hk1 (Nat.pow_le_pow_right (by omega) (by omega))
      rw [Nat.testBit_lt_two_pow this] at h
      cases h
    · intro hik
      have hge : n - 1 ≥ 2 ^ i := by
        apply Classical.byContradiction
        intro hlt
        have := hk2 i (by omega)
        omega
      obtain ⟨j, hj, h⟩ := Nat.exists_ge_and_testBit_of_ge_two_pow hge
      have hj63 : j < 64 := by
        apply Classical.byContradiction
        intro hjj
        have : n - 1 < 2 ^ j := Nat.lt_of_lt_of_le hk1 (Nat.pow_le_pow_right (by omega) (by omega))
        rw [Nat.testBit_lt_two_pow this] at h
        cases h
      exact ⟨j - i, by omega, by rw [show i + (j - i) = j by omega]; exact h⟩
  rw [BitVec.toNat_add, hwv _ b6]
  have hp : 0 < 2 ^ k := Nat.two_pow_pos k
  have hp2 : 2 ^ k ≤ 2 ^ 62 := Nat.pow_le_pow_right (by omega) hk62
  show (2 ^ k - 1 + 1) % 2 ^ 64 = 2 ^ k
  rw [Nat.sub_add_cancel hp]
  exact Nat.mod_eq_of_lt (by omega)

end Bubbler.Num
