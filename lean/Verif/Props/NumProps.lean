import Verif.Util.NumProofs

set_option linter.unusedSimpArgs false
/-
C18 (size annotations), C42 (integer literals), C44 (rounding to a power of two).
-/
namespace Bubbler
open Num

/-! ### C18 -/

/-- **C18.** A size annotation with `n` bytes and `m` bits means `8n+m` bits, as long as this is below 2^63;
it is refused exactly when it is zero. -/
theorem C18_size_annotation (n m : Nat) (h : 8 * n + m < 2 ^ 63) :
    visitSize (some (BitVec.ofNat 64 n)) (some (BitVec.ofNat 64 m)) =
      if 8 * n + m = 0 then none else some (BitVec.ofNat 64 (8 * n + m)) := by
  unfold visitSize
  simp only [Option.getD_some]
  have e : BitVec.ofNat 64 n * 8#64 + BitVec.ofNat 64 m = BitVec.ofNat 64 (8 * n + m) := by
    apply BitVec.eq_of_toNat_eq
    simp [BitVec.toNat_add, BitVec.toNat_mul]
    rw [Nat.mul_comm]
  rw [e]
  by_cases h0 : 8 * n + m = 0
  · rw [if_pos h0, h0]; rfl
  · rw [if_neg h0, if_neg]
    intro hc
    have := congrArg BitVec.toNat hc
    rw [BitVec.toNat_ofNat, Nat.mod_eq_of_lt (by omega)] at this
    exact h0 this

/-- **C18.** `[n]` is `[n#0]` and `[#m]` is `[0#m]`. -/
theorem C18_absent_parts (n m : BitVec 64) :
    visitSize (some n) none = visitSize (some n) (some 0#64) ∧
    visitSize none (some m) = visitSize (some 0#64) (some m) := ⟨rfl, rfl⟩

/-- A size as the grammar writes it: `n`, `#m` or `n#m` (bubbler.g4 `size`). -/
def readSize (s : Str) : Option Nat :=
  let a := s.takeWhile (· != '#')
  match s.dropWhile (· != '#') with
  | [] => (readNat 10 a).map (8 * ·)
  | _ :: b =>
    match (if a = [] then some 0 else readNat 10 a), readNat 10 b with
    | some n, some m => some (8 * n + m)
    | _, _ => none

theorem takeWhile_digits (b n : Nat) (hb : 2 ≤ b) (hb16 : b ≤ 16) (t : Str) :
    (digits b n ++ '#' :: t).takeWhile (· != '#') = digits b n ∧ (digits b n ++ '#' :: t).dropWhile (· != '#') = '#' :: t := by
  have h : ∀ c ∈ digits b n, (c != '#') = true := fun c hc => by simp [(digits_no_hash hb hb16 n c hc).1]
  rw [List.takeWhile_append_of_pos h, List.dropWhile_append_of_pos h]
  simp

theorem takeWhile_digits' (b n : Nat) (hb : 2 ≤ b) (hb16 : b ≤ 16) :
    (digits b n).takeWhile (· != '#') = digits b n ∧ (digits b n).dropWhile (· != '#') = [] := by
  have h : ∀ c ∈ digits b n, (c != '#') = true := fun c hc => by simp [(digits_no_hash hb hb16 n c hc).1]
  have := List.takeWhile_append_of_pos (l₂ := []) h
  have h2 := List.dropWhile_append_of_pos (l₂ := []) h
  simp only [List.append_nil, List.takeWhile_nil, List.dropWhile_nil] at this h2
  exact ⟨this, h2⟩

/-- **C18.** The text of a size in diagnostics, read as a size annotation, is the same number of bits. -/
theorem C18_size_text (n : Nat) : readSize (toSizeString n) = some n := by
  unfold toSizeString
  rw [if_neg (by omega)]
  have e1 : (n : Int).tdiv 8 = ((n / 8 : Nat) : Int) := Int.ofNat_tdiv n 8 |>.symm
  have e2 : (n : Int).tmod 8 = ((n % 8 : Nat) : Int) := Int.ofNat_tmod n 8 |>.symm
  have hd : ∀ k : Nat, intDigits 10 (k : Int) = digits 10 k := by
    intro k; unfold intDigits; rw [if_neg (by omega), Int.natAbs_natCast]
  simp only [e1, e2, hd]
  by_cases h1 : n / 8 = 0
  · by_cases h2 : n % 8 = 0
    · have : n = 0 := by omega
      subst this
      decide +kernel
    · rw [if_neg (by omega), if_pos (by omega)]
      unfold readSize
      simp [readNat_digits]
      omega
  · rw [if_neg (by omega), if_neg (by omega)]
    by_cases h2 : n % 8 = 0
    · rw [if_pos (by omega)]
      unfold readSize
      have := takeWhile_digits' 10 (n / 8) (by omega) (by omega)
      simp only [this.1, this.2, readNat_digits (b := 10) (by omega) (by omega), Option.map_some, Option.some.injEq]
      omega
    · rw [if_neg (by omega)]
      unfold readSize
      have := takeWhile_digits 10 (n / 8) (by omega) (by omega) (digits 10 (n % 8))
      simp only [this.1, this.2, digits_ne_nil, if_false, readNat_digits (b := 10) (by omega) (by omega), Option.some.injEq]
      omega

/-- **C18.** Different sizes have different texts, and no fixed size is printed as "dynamic". -/
theorem C18_size_text_injective (a b : Int) (ha : -1 ≤ a) (hb : -1 ≤ b) (h : toSizeString a = toSizeString b) : a = b := by
  have hdyn : readSize (toSizeString (-1)) = none := by decide +kernel
  by_cases h1 : a = -1 <;> by_cases h2 : b = -1
  · omega
  · subst h1
    have := C18_size_text b.toNat
    rw [Int.toNat_of_nonneg (by omega), ← h, hdyn] at this
    cases this
  · subst h2
    have := C18_size_text a.toNat
    rw [Int.toNat_of_nonneg (by omega), h, hdyn] at this
    cases this
  · have e1 := C18_size_text a.toNat
    have e2 := C18_size_text b.toNat
    rw [Int.toNat_of_nonneg (by omega)] at e1 e2
    rw [h, e2] at e1
    have := Option.some.inj e1
    omega

/-- **C18.** The position shown in the struct listing is the sum, marked `dynamic+` after a field of dynamic size, and
`+dynamic` for a field of dynamic size (`none`), whose size the program keeps as -1. -/
theorem C18_position_text (start : Nat) (dyn : Bool) (size : Option Nat) :
    ∃ t, toSizeStringDynamic start dyn (size.elim (-1) (fun n => (n : Int))) =
        (if dyn then "dynamic+".toList else []) ++ (t ++ (if size = none then "+dynamic".toList else [])) ∧
      readSize t = some (start + size.getD 0) := by
  cases size with
  | none =>
    refine ⟨toSizeString start, ?_, C18_size_text start⟩
    unfold toSizeStringDynamic
    cases dyn <;> rfl
  | some n =>
    refine ⟨toSizeString (n + start : Nat), ?_, by rw [C18_size_text, Nat.add_comm]; rfl⟩
    unfold toSizeStringDynamic
    show (if dyn then _ ++ (if (n : Int) = -1 then _ else _) else (if (n : Int) = -1 then _ else _)) = _
    rw [if_neg (show ¬ (n : Int) = -1 by omega), if_neg (show ¬ some n = none from nofun), List.append_nil, show ((n + start : Nat) : Int) = (n : Int) + start by omega]
    cases dyn <;> rfl

example : toSizeString 21 = "2#5".toList ∧ readSize "2#5".toList = some 21 := by
  constructor <;> decide +kernel
example : visitSize (some 2#64) (some 5#64) = some 21#64 := by decide +kernel

/-- Beyond 2^63 the sum wraps: `[2305843009213693952]` (2^61 bytes) is refused as "0", and
`[2305843009213693951#7]` is taken as -1, the internal mark for "dynamic size". -/
theorem C18_overflow_counterexample :
    visitSize (some (BitVec.ofNat 64 (2 ^ 61))) none = none ∧
    visitSize (some (BitVec.ofNat 64 (2 ^ 61 - 1))) (some 7#64) = some (BitVec.ofInt 64 (-1)) := by
  constructor <;> decide +kernel

/-! ### C42 -/

/-- **C42.** A literal that is not negative, formatted in its base, reads back as the same number. -/
theorem C42_format_parse (l : IntLit) (decnum : Bool) (h : 0 ≤ l.int) :
    parseNat (formatInt l decnum) = some l.int.toNat := by
  unfold formatInt IntLit.int at *
  cases hu : l.unsigned
  · rw [hu] at h
    simp only [Bool.false_eq_true, if_false] at h ⊢
    have hd : ∀ b, intDigits b l.value.toInt = digits b l.value.toInt.toNat := by
      intro b; unfold intDigits; rw [if_neg (by omega)]; congr 1; omega
    simp only [hd]
    generalize (if l.base = .auto ∨ decnum = true then Base.dec else l.base) = base
    cases base
    · exact parseNat_digits10 _
    · exact parseNat_digits10 _
    · exact parseNat_hex _
    · exact parseNat_bin _
  · simp only [if_true, Int.toNat_natCast]
    generalize (if l.base = .auto ∨ decnum = true then Base.dec else l.base) = base
    cases base
    · exact parseNat_digits10 _
    · exact parseNat_digits10 _
    · exact parseNat_hex _
    · exact parseNat_bin _

/-- **C42.** A signed literal printed in decimal (no base recorded, decimal source, or -decnum) reads back
as the same number, negative or not; so the literal can also be read by the bubbler compiler itself. -/
theorem C42_format_parse_decimal (l : IntLit) (decnum : Bool) (hs : l.unsigned = false)
    (hb : l.base = .auto ∨ l.base = .dec ∨ decnum = true) : parseInt (formatInt l decnum) = some l.value.toInt := by
  have hbase : (if l.base = .auto ∨ decnum = true then Base.dec else l.base) = .dec := by
    split
    · rfl
    · rename_i h; rcases hb with h1 | h1 | h1
      · exact absurd (.inl h1) h
      · exact h1
      · exact absurd (.inr h1) h
  unfold formatInt
  simp only [hbase, hs, Bool.false_eq_true, if_false]
  have hlt : l.value.toInt < 2 ^ 63 := BitVec.toInt_lt (x := l.value)
  have hge : -2 ^ 63 ≤ l.value.toInt := BitVec.le_toInt (x := l.value)
  unfold intDigits
  split
  · rename_i hn
    rw [parseInt_neg (parseNat_digits10 _) (by omega)]
    congr 1; omega
  · rename_i hn
    rw [parseInt_of_nat (parseNat_digits10 _) (by omega) (head_digits (by omega) (by omega) _)]
    congr 1; omega

/-- **C42.** The type chosen for a literal can represent it. -/
theorem C42_minimal_type_sound (v : BitVec 64) : (minimalType v.toInt).holds v.toInt := by
  have hlt : v.toInt < 2 ^ 63 := BitVec.toInt_lt (x := v)
  have hge : -2 ^ 63 ≤ v.toInt := BitVec.le_toInt (x := v)
  unfold minimalType
  repeat' split
  all_goals simp only [IntTy.holds]
  all_goals omega

/-- **C42.** For a literal that is not negative it is the narrowest type that can. -/
theorem C42_minimal_type_minimal (v : Int) (h : 0 ≤ v) (t : IntTy) (ht : t.holds v) : (minimalType v).width ≤ t.width := by
  unfold minimalType
  rw [if_pos h]
  split
  · cases t <;> simp [IntTy.width]
  · split
    · cases t <;> simp only [IntTy.width, IntTy.holds] at * <;> omega
    · split
      · cases t <;> simp only [IntTy.width, IntTy.holds] at * <;> omega
      · cases t <;> simp only [IntTy.width, IntTy.holds] at * <;> omega

/-- **C42.** Source literal to generated literal: what the user wrote (if in range) is what the target
language reads, in any base. -/
theorem C42_source_to_target (s : Str) (n : Nat) (b : Base) (decnum : Bool) (h : parseInt s = some (n : Int)) :
    parseNat (formatInt ⟨BitVec.ofInt 64 n, false, b⟩ decnum) = some n := by
  have hn : (n : Int) < 2 ^ 63 := by
    unfold parseInt at h
    split at h
    · rename_i t
      cases hp : parseNat t with
      | none => rw [hp] at h; cases h
      | some m =>
        rw [hp] at h
        simp only [Option.bind_some] at h
        split at h
        · simp only [Option.some.injEq] at h; omega
        · cases h
    · rename_i t
      cases hp : parseNat t with
      | none => rw [hp] at h; cases h
      | some m =>
        rw [hp] at h
        simp only [Option.bind_some] at h
        split at h
        · simp only [Option.some.injEq] at h; omega
        · cases h
    · cases hp : parseNat s with
      | none => rw [hp] at h; cases h
      | some m =>
        rw [hp] at h
        simp only [Option.bind_some] at h
        split at h
        · simp only [Option.some.injEq] at h; omega
        · cases h
  have hv : (BitVec.ofInt 64 (n : Int)).toInt = n := by
    rw [BitVec.toInt_ofInt]
    exact Int.bmod_eq_of_le (by omega) (by omega)
  have := C42_format_parse ⟨BitVec.ofInt 64 n, false, b⟩ decnum (by simp only [IntLit.int, Bool.false_eq_true, if_false, hv]; omega)
  rw [this]
  simp only [IntLit.int, Bool.false_eq_true, if_false, hv, Int.toNat_natCast]

example : formatInt ⟨0xAA#64, false, .hex⟩ false = "0xAA".toList := by decide +kernel
example : parseInt "0xAA".toList = some 170 := by decide +kernel
example : formatInt ⟨BitVec.ofInt 64 (-1), true, .hex⟩ false = "0xFFFFFFFFFFFFFFFF".toList := by decide +kernel

/-- A negative literal written in hexadecimal is emitted as "0x-5", which is no number. -/
theorem C42_negative_hex_counterexample :
    formatInt ⟨BitVec.ofInt 64 (-5), false, .hex⟩ false = "0x-5".toList ∧ parseInt "0x-5".toList = none := by
  constructor <;> decide +kernel

/-- For negative literals the type chosen is not the narrowest: -5 fits int8, int64 is chosen. -/
theorem C42_not_minimal_counterexample : minimalType (-5) = .i64 ∧ IntTy.i8.holds (-5) := by
  refine ⟨by decide, ?_⟩; simp only [IntTy.holds]; omega

/-! ### C44 -/

/-- **C44.** For 1 ≤ n ≤ 2^62, rounding gives a power of two, at least n, and the least such. -/
theorem C44_highBit (n : Nat) (h1 : 1 ≤ n) (h2 : n ≤ 2 ^ 62) :
    ∃ k, (highBit (BitVec.ofNat 64 n)).toNat = 2 ^ k ∧ n ≤ 2 ^ k ∧ ∀ j, n ≤ 2 ^ j → k ≤ j :=
  highBit_spec n h1 h2

/-- **C44.** Used for machine types: an enum or constant of 1 to 64 bits gets 8, 16, 32 or 64 bits, the
least of these that is wide enough. -/
theorem C44_machine_type (bits : Nat) (h1 : 1 ≤ bits) (h2 : bits ≤ 64) :
    (goUintWidth bits = 8 ∨ goUintWidth bits = 16 ∨ goUintWidth bits = 32 ∨ goUintWidth bits = 64) ∧
    bits ≤ goUintWidth bits ∧
    ∀ w, (w = 8 ∨ w = 16 ∨ w = 32 ∨ w = 64) → bits ≤ w → goUintWidth bits ≤ w := by
  have hb : 1 ≤ (bits + 7) / 8 ∧ (bits + 7) / 8 ≤ 8 := by omega
  obtain ⟨k, e, hk1, hk2⟩ := highBit_spec ((bits + 7) / 8) hb.1 (by omega)
  unfold goUintWidth
  rw [e]
  have hk : k ≤ 3 := hk2 3 (by omega)
  have hcases : k = 0 ∨ k = 1 ∨ k = 2 ∨ k = 3 := by omega
  have f0 := hk2 0
  have f1 := hk2 1
  have f2 := hk2 2
  rcases hcases with rfl | rfl | rfl | rfl <;> refine ⟨by omega, by omega, ?_⟩ <;> intro w hw hbw <;> omega

example : goUintWidth 17 = 32 ∧ goUintWidth 40 = 64 := by decide

/-- Zero is outside the range: HighBit(0) = 0 (no type). -/
theorem C44_zero : highBit 0#64 = 0#64 := by decide

end Bubbler
