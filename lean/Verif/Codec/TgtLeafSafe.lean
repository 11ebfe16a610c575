import Verif.Codec.TgtSafe
import Verif.Codec.MgSound

/-
The decoding statements of JavaScript, Java and C# throw no exception on what passed the size check (`TgtDecSpec.SafeOk`).
-/
set_option linter.unusedSimpArgs false
namespace Bubbler

theorem cDecField_some {w : Nat} {big : Bool} {start n base : Nat} {d : Buf} (hn0 : 0 < n) (hn : n ≤ w)
    (hd : 8 * base + start + n ≤ 8 * d.length) : ∃ y, cDecField big start n base d (0#w) = some y := by
  obtain ⟨y, e, _⟩ := decField_spec big start n base d (0#w) hn hn0 hd
  exact ⟨y, by rw [cDecField_eq big start n base d (0#w) hd, e]⟩

theorem cReadFieldBits_some {big : Bool} {pos n : Nat} {d : Buf} (hn0 : 0 < n) (hn : n ≤ 64) (hd : pos + n ≤ 8 * d.length) :
    ∃ y, cReadFieldBits d pos n big = some y := by
  obtain ⟨v, e, _⟩ := bbReadFieldBits_spec d pos n big hn hd
  exact ⟨v, by rw [cReadFieldBits_eq d pos n big hn0 hn hd, e]⟩

/-! ### JavaScript -/

/-- No single int64 fields of 32 bits (`>>>` on a BigInt throws). -/
def jsNoThrow : NoThrow where
  str := true
  bytes := true
  sub := true
  sc := fun s lp n => lp || !(s == .prim .i64 && n == 32)

theorem jsDecPrim_some {p : Prim} {big : Bool} {d : Buf} {start n base : Nat} (hn0 : 0 < n) (hn : n ≤ p.width)
    (hd : 8 * base + start + n ≤ 8 * d.length) (h : p = .i64 → n ≠ 32) : ∃ x, jsDecPrim p big d start n base = some x := by
  have hw := p.width_facts
  unfold jsDecPrim
  by_cases hp : 32 < p.width
  · rw [if_pos hp]
    obtain ⟨y, e⟩ := cDecField_some (w := 64) (big := big) hn0 (by omega) hd
    unfold jsDec64
    rw [e]
    simp only
    unfold jsFix64
    by_cases hs : p.signed = true
    · have hi : p = .i64 := by revert hs hp; cases p <;> simp [Prim.width, Prim.signed]
      rw [if_pos hs, if_neg (h hi)]
      exact ⟨_, rfl⟩
    · rw [if_neg hs]
      exact ⟨_, rfl⟩
  · rw [if_neg hp]
    exact ⟨_, rfl⟩

theorem and_7F : ∀ b : Byte, (b &&& 0x7F#8).toNat < 128 := by decide +kernel

/-- The loop over a length prefix in `decode_size`: it stays within the data. -/
theorem jsScanLen_cases (d : Buf) (base k : Nat) : ∀ (f length shift off : Nat), shift ≤ 28 → 28 - shift < f → base + off + k < d.length →
    length < 2 ^ (shift + 7) → (∃ q : Nat, jsScanLen k d base length shift off = .inl (-(q : Int)) ∧ 0 < q ∧ (q = 1 ∨ base + q ≤ d.length + 1)) ∨
    ∃ l o : Nat, jsScanLen k d base length shift off = .inr (l, (o : Int)) ∧ off < o ∧ o ≤ off + (29 - shift) ∧ base + o + k ≤ d.length ∧ l < 2 ^ 36
  | 0, length, shift, off => by intro h1 h2; omega
  | f + 1, length, shift, off => by
    intro h1 h2 h3 h4
    have ei : (off : Int) + base + k = ((base + off + k : Nat) : Int) := by push_cast; omega
    have hb := and_7F (d.getD (base + off + k) 0#8)
    rw [jsScanLen, ei, jsGetI_nat, rd_eq_some h3]
    simp only [Option.getD_some]
    generalize d.getD (base + off + k) 0#8 = b at hb ⊢
    have hpow : (b &&& 0x7F#8).toNat * 2 ^ shift ≤ 127 * 2 ^ shift := Nat.mul_le_mul_right _ (by omega)
    have h7 : (2 : Nat) ^ (shift + 7) = 128 * 2 ^ shift := by rw [Nat.pow_add, Nat.mul_comm]
    have h28 : (2 : Nat) ^ shift ≤ 2 ^ 28 := Nat.pow_le_pow_right (by omega) h1
    split
    · exact .inl ⟨1, rfl, by omega, .inl rfl⟩
    · split
      · exact .inr ⟨_, off + 1, by congr 1, by omega, by omega, by omega, by omega⟩
      · split
        · exact .inl ⟨1, rfl, by omega, .inl rfl⟩
        · rename_i hs
          split
          · refine .inl ⟨off + 1 + k + 1, by congr 1, by omega, .inr (by omega)⟩
          · have h14 : (2 : Nat) ^ (shift + 7 + 7) = 128 * 2 ^ (shift + 7) := by rw [Nat.pow_add _ (shift + 7), Nat.mul_comm]
            have := jsScanLen_cases d base k f (length + (b &&& 0x7F#8).toNat * 2 ^ shift) (shift + 7) (off + 1) (by omega) (by omega)
              (by omega) (by omega)
            rcases this with h | ⟨l, o, g1, g2, g3, g4, g5⟩
            · exact .inl h
            · exact .inr ⟨l, o, g1, by omega, by omega, g4, g5⟩

theorem jsDsBytes_good {k : Nat} {d : Buf} {base off N M : Nat} (hN : d.length ≤ N) (hd : d.length + 1 ≤ M)
    (hM : base + off + k + 1 + 2 ^ 37 ≤ M) : (jsDsBytes k d base off).good base (off + 1) N M := by
  unfold jsDsBytes
  split
  · exact ⟨off + k + 1, by push_cast; rfl, by omega, by omega⟩
  · rename_i h
    rcases jsScanLen_cases d base k 29 0 0 off (by omega) (by omega) (by omega) (by omega) with ⟨q, e, g1, g2⟩ | ⟨l, o, e, g1, g2, g3, g4⟩
    · rw [e]
      exact ⟨q, rfl, g1, by omega⟩
    · rw [e]
      simp only
      split
      · exact ⟨o + k + l, by push_cast; rfl, by omega, by omega⟩
      · exact ⟨o + l, by push_cast; rfl, by omega, by omega⟩

theorem jsScanStr_good {d : Buf} {base off k N M : Nat} (hN : d.length ≤ N) (hd : d.length + 1 ≤ M) :
    ∀ (m length : Nat), base + off + k + length + m = d.length → 0 < m → (jsScanStr k d base off length).good base (off + 1) N M
  | 0, length => by intro _ h; omega
  | m + 1, length => by
    intro h1 _
    have ei : (off : Int) + base + k + length = ((base + off + k + length : Nat) : Int) := by push_cast; omega
    rw [jsScanStr, ei, jsGetI_nat]
    split
    · exact ⟨off + (length + 1), by push_cast; rfl, by omega, by omega⟩
    · split
      · exact ⟨off + k + (length + 1) + 1, by push_cast; rfl, by omega, by omega⟩
      · exact jsScanStr_good hN hd m (length + 1) (by omega) (by omega)

theorem jsDsStr_good {k : Nat} {d : Buf} {base off N M : Nat} (hN : d.length ≤ N) (hd : d.length + 1 ≤ M)
    (hM : base + off + k + 1 ≤ M) : (jsDsStr k d base off).good base (off + 1) N M := by
  unfold jsDsStr
  split
  · exact ⟨off + k + 1, by push_cast; rfl, by omega, by omega⟩
  · exact jsScanStr_good hN hd (d.length - (base + off + k)) 0 (by omega) (by omega)

theorem jsDecSpec_safe (c : JsCfg) : (jsDecSpec c).SafeOk jsNoThrow (2 ^ 40) (2 ^ 37) where
  room := by omega
  maxLen := by show 2 ^ 28 ≤ 2 ^ 30; omega
  wrap := fun _ _ _ => rfl
  ret := fun _ _ _ => rfl
  rem := fun _ _ _ _ => rfl
  loopBase := fun _ => Nat.le_refl _
  sub := fun _ _ _ _ => rfl
  sc := by
    intro ctx s big arr d start n base hwf _ hP hd hle
    have hf := Sc.wf_facts hwf
    show jsDecSc c ctx s big arr d start n base ≠ none
    cases s with
    | enum b => simp [jsDecSc]
    | prim p =>
      obtain ⟨x, e⟩ := jsDecPrim_some (p := p) (big := big) (by omega) hf.2.1 hle (by
        rintro rfl rfl
        simp [jsNoThrow] at hP)
      simp only [jsDecSc, e]
      nofun
  scLoop := by
    intro ctx s big d pos n _ _ _ _ _
    show jsDecScLoop c ctx s big d pos n ≠ none
    cases s <;> simp [jsDecScLoop]
  const := by
    intro p n big val start base d hn0 hn hok hd hle
    have hok : jsConstOk p n val = true := hok
    show jsDecConst p n big val d start base ≠ none
    simp only [jsConstOk, Bool.and_eq_true, Bool.or_eq_true, Bool.not_eq_true', decide_eq_true_eq] at hok
    obtain ⟨⟨h1, h2⟩, _⟩ := hok
    obtain ⟨x, e⟩ := jsDecPrim_some (p := p) (big := big) hn0 hn hle (by
      rintro rfl
      rcases h2 with h2 | h2
      · cases h2
      · exact h2.2 rfl)
    unfold jsDecConst
    rw [if_pos h1, e]
    nofun
  dsStr := by
    intro _ k d base off N M hd hN hM1 hM2 hM
    exact jsDsStr_good hN hM1 hM2
  dsBytes := by
    intro _ k d base off N M hd hN hM1 hM2 hM
    exact jsDsBytes_good hN hM1 hM2
  str := by
    intro _ k d base off o hd hl _
    show jsDecStr d (base + off + k) ≠ .panic
    simp only [jsDecStr]
    split <;> nofun
  bytes := by
    intro _ k d base off o hd hl _
    show jsDecBytes d (base + off + k) ≠ .panic
    unfold jsDecBytes
    split
    · nofun
    · split <;> nofun

/-! ### Java and C# -/

/-- No bytes; in C# without `-memcpy` no nested structs of variable size; in C# no single floats in a variable narrower than their type. -/
def mgNoThrow (c : MgCfg) : NoThrow where
  str := true
  bytes := false
  sub := c.lang != .csSpan
  sc := fun s lp n => c.java || lp || !((s == .prim .f32 || s == .prim .f64) && decide (goUintWidth n < s.width))

theorem mgScanStr_cases {d : Buf} {base pos k off : Nat} (hp : pos = base + off + k) (hd : d.length < 2 ^ 30) :
    ∀ (m length : Nat), pos + length + m = d.length → 0 < m → (∀ j, j < length → d.rd (pos + j) ≠ some 0#8) →
    (∃ L, NulAt d pos L ∧ mgScanStr ((d.length : Int) - base) k off (d.drop (pos + length)) length = .ok ((off + (L + 1) : Nat) : Int)) ∨
    mgScanStr ((d.length : Int) - base) k off (d.drop (pos + length)) length = .ret (-((off + k + (d.length - pos) + 1 : Nat) : Int))
  | 0, length => by intro _ h; omega
  | m + 1, length => by
    intro h1 h2 h3
    have hlt : pos + length < d.length := by omega
    have hdr : d.drop (pos + length) = d.getD (pos + length) 0#8 :: d.drop (pos + length + 1) := by
      rw [List.drop_eq_getElem_cons hlt, List.getD_eq_getElem?_getD, List.getElem?_eq_getElem hlt]; rfl
    rw [hdr, mgScanStr]
    by_cases hb : d.getD (pos + length) 0#8 = 0#8
    · left
      refine ⟨length, ⟨by rw [rd_eq_some hlt, hb], h3⟩, ?_⟩
      rw [if_pos hb, w32_id (x := (length : Int) + 1) (by omega) (by omega), w32_id (by omega) (by omega)]
      congr 1
    · rw [if_neg hb, w32_id (x := (off : Int) + k + (length + 1 : Nat)) (by omega) (by omega)]
      by_cases hr : (d.length : Int) - base ≤ (off : Int) + k + (length + 1 : Nat)
      · right
        rw [if_pos hr, w32_id (x := (off : Int) + k + (length + 1 : Nat) + 1) (by omega) (by omega), w32_id (by omega) (by omega)]
        congr 1
        omega
      · rw [if_neg hr]
        refine mgScanStr_cases hp hd m (length + 1) (by omega) (by omega) (fun j hj => ?_)
        by_cases hjl : j = length
        · subst hjl; rw [rd_eq_some hlt]; exact fun h => hb (Option.some.inj h)
        · exact h3 j (by omega)

theorem mgRem_lt (c : MgCfg) {n b : Nat} (hn : n < 2 ^ 30) (hb : b < 2 ^ 31) : mgRem c n b = (n : Int) - b := by
  unfold mgRem
  split
  · rfl
  · exact w32_id (by omega) (by omega)

theorem mgDsStr_cases (c : MgCfg) {d : Buf} {base off k : Nat} (hd : d.length < 2 ^ 30) (hb : base + off + k + 1 < 2 ^ 31) :
    (∃ L, NulAt d (base + off + k) L ∧ mgDsStr c k d base off = .ok ((off + (L + 1) : Nat) : Int)) ∨
    ∃ q : Nat, mgDsStr c k d base off = .ret (-(q : Int)) ∧ 0 < q ∧ (q = off + k + 1 ∨ base + q = d.length + 1) := by
  unfold mgDsStr
  have e1 : w32 ((off : Int) + k) = ((off + k : Nat) : Int) := w32_id (by omega) (by omega)
  rw [e1, mgRem_lt c hd (by omega)]
  split
  · right
    refine ⟨off + k + 1, ?_, by omega, .inl rfl⟩
    rw [w32_id (x := (off : Int) + k + 1) (by omega) (by omega), w32_id (by omega) (by omega)]
    congr 1
  · rename_i h
    have hf : mgFrom c d base ((off + k : Nat) : Int) = some (d.drop (base + off + k)) := by
      rw [mgFrom_of c (by omega), show base + (off + k) = base + off + k by omega]
    rw [hf]
    simp only
    rcases mgScanStr_cases (d := d) (base := base) (pos := base + off + k) (k := k) (off := off) rfl hd (d.length - (base + off + k)) 0
      (by omega) (by omega) (by intro j hj; omega) with ⟨L, g1, g2⟩ | g
    · exact .inl ⟨L, g1, g2⟩
    · exact .inr ⟨_, g, by omega, .inr (by omega)⟩

theorem mgDecSpec_safe (c : MgCfg) : (mgDecSpec c).SafeOk (mgNoThrow c) (2 ^ 31) 0 where
  room := by omega
  maxLen := Nat.le_refl _
  wrap := fun _ h0 h1 => w32_id (by omega) (by omega)
  ret := fun _ h0 h1 => w32_id (by omega) (by omega)
  rem := fun n b hn hb => mgRem_lt c hn hb
  loopBase := fun b => by
    show (if c.java then 0 else b) ≤ b
    split <;> omega
  sub := by
    intro n base rel h
    show (c.lang != .csSpan || (decide ((0 : Int) ≤ (rel : Int)) && decide ((rel : Int) ≤ (n : Int) - base))) = true
    rcases h with h | h
    · rw [show (c.lang != .csSpan) = true from h]; rfl
    · simp only [Bool.or_eq_true, Bool.and_eq_true, decide_eq_true_eq]
      exact .inr ⟨by omega, by omega⟩
  sc := by
    intro ctx s big arr d start n base hwf harr hP hd hle
    have hf := Sc.wf_facts hwf
    show mgDecSc c ctx s big arr d start n base ≠ none
    cases s with
    | enum b =>
      obtain ⟨y, e⟩ := cDecField_some (w := (Sc.enum b).tempWidth arr n) (big := big) (start := start) (base := base) (d := d) (n := n)
        (by omega) (Sc.temp_facts hwf harr).1 hle
      simp only [mgDecSc, e]
      nofun
    | prim p =>
      have hn : n ≤ mgWidth p arr n := by
        unfold mgWidth
        split
        · exact (goUintWidth_facts n (by omega) hf.1).1
        · exact hf.2.1
      obtain ⟨y, e⟩ := cDecField_some (w := mgWidth p arr n) (big := big) (start := start) (base := base) (d := d) (n := n)
        (by omega) hn hle
      simp only [mgDecSc, e]
      unfold mgFinish
      by_cases hb : p = .bool
      · rw [if_pos hb]; nofun
      rw [if_neg hb]
      by_cases hfl : p = .f32 ∨ p = .f64
      · rw [if_pos hfl]
        by_cases hj : c.java = true
        · rw [if_pos hj]; nofun
        rw [if_neg hj, if_neg]
        · nofun
        · intro hlt
          unfold mgWidth at hlt
          split at hlt
          · simp only [mgNoThrow, Bool.or_eq_true, Bool.not_eq_true', Bool.and_eq_false_iff, decide_eq_false_iff_not] at hP
            rcases hP with (hP | hP) | hP | hP
            · exact hj hP
            · cases hP
            · rcases hfl with rfl | rfl <;> simp at hP
            · exact hP hlt
          · omega
      · rw [if_neg hfl]
        split <;> nofun
  scLoop := by
    intro ctx s big d pos n hwf _ _ _ hle
    have hf := Sc.wf_facts hwf
    obtain ⟨y, e⟩ := cReadFieldBits_some (big := big) (pos := pos) (n := n) (d := d) (by omega) (by omega) hle
    show mgDecScLoop c ctx s big d pos n ≠ none
    cases s <;> simp [mgDecScLoop, e]
  const := by
    intro p n big val start base d hn0 hn hok hd hle
    have hok : mgConstOk c p n = true := hok
    simp only [mgConstOk, Bool.and_eq_true] at hok
    obtain ⟨y, e⟩ := cDecField_some (w := p.width) (big := big) hn0 hn hle
    show mgDecConst c p n big val d start base ≠ none
    unfold mgDecConst
    rw [if_pos hok.1.1, e]
    nofun
  dsStr := by
    intro _ k d base off N M hd hN hM1 hM2 hM
    replace hd : d.length < 2 ^ 30 := hd
    rw [show (mgTgt c).dsStr = mgDsStr c from rfl]
    have hx : base + off + k + 1 < 2 ^ 31 := Nat.lt_of_le_of_lt hM2 hM
    have hc := mgDsStr_cases c (d := d) (base := base) (off := off) (k := k) hd hx
    generalize mgDsStr c k d base off = s at hc ⊢
    clear hM
    cases hc with
    | inl h =>
      obtain ⟨L, h1, h2⟩ := h
      rw [h2]
      have := h1.lt
      exact ⟨_, rfl, by omega, by omega⟩
    | inr h =>
      obtain ⟨q, h1, h2, h3⟩ := h
      rw [h1]; exact ⟨q, rfl, h2, by omega⟩
  dsBytes := by intro h; cases h
  str := by
    intro _ k d base off o hd hl h
    replace hd : d.length < 2 ^ 30 := hd
    rw [show (mgTgt c).dsStr = mgDsStr c from rfl] at h
    show mgDecStr c d (base + off + k) ≠ .panic
    rcases mgDsStr_cases c (d := d) (base := base) (off := off) (k := k) hd hl with ⟨L, h1, h2⟩ | ⟨q, h1, h2, h3⟩
    · unfold mgDecStr
      rw [decStrLen_of h1 L 0 (by omega)]
      nofun
    · rw [h1] at h; cases h
  bytes := by intro h; cases h

end Bubbler
