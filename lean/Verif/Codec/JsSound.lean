import Verif.Codec.TgtSound
import Verif.Codec.JsDec

/-
What the JavaScript decoders accept: constants, length prefixes and the data behind them are compared with
what stands in the data.  (Strings: `fromUTF8Array` accepts malformed UTF-8, so nothing is said of them.)
-/
set_option linter.unusedSimpArgs false
namespace Bubbler

/-- Whatever stands at a position, read as `n` bits. -/
theorem raw_exists {n : Nat} (big : Bool) (hn : n ≤ 64) {pos : Nat} {d : Buf} (hd : pos + n ≤ 8 * d.length) :
    ∃ r : BitVec n, Agrees d pos (scWire n big r) := by
  obtain ⟨v, e, hr⟩ := bbReadFieldBits_spec d pos n big hn hd
  exact ⟨v.setWidth n, hr.raw.toAgrees hd (fun _ _ => rfl)⟩

/-- A constant that compares equal stands in the data. -/
theorem jsDecConst_sound {p : Prim} {n : Nat} {big : Bool} {val start base : Nat} {d : Buf} (hn0 : 0 < n) (hn : n ≤ p.width)
    (hval : val < 2 ^ n) (hok : jsConstOk p n val = true)
    (hd : 8 * base + start + n ≤ 8 * d.length) (h : jsDecConst p n big val d start base = some true) :
    Agrees d (8 * base + start) (scWire n big (BitVec.ofNat 64 val)) := by
  have hw := p.width_facts
  simp only [jsConstOk, Bool.and_eq_true, Bool.or_eq_true, Bool.not_eq_true', decide_eq_true_eq] at hok
  obtain ⟨⟨h1, h2⟩, h3⟩ := hok
  obtain ⟨r, ha⟩ := raw_exists big (by omega) hd
  have hlt := r.isLt
  have hb : p ≠ .bool := by rintro rfl; simp [Prim.isInteger] at h1
  suffices hr : r.toNat = val by
    rw [scWire_congr (y := r)]
    · exact ha
    · intro k hk
      rw [BitVec.getLsbD_ofNat, ← hr]
      have : k < 64 := by omega
      simp [this, BitVec.getLsbD]
  unfold jsDecConst at h
  rw [if_pos h1] at h
  have fin : ∀ z : Int, jsDecPrim p big d start n base = some z → z = (val : Int) := by
    intro z hz
    rw [hz] at h
    simp only [Option.some.injEq, Bool.and_eq_true, beq_iff_eq] at h
    exact h.2
  by_cases hu : p = .u32 ∧ ¬ (n < 32 ∨ r.toNat < 2 ^ 31)
  · obtain ⟨rfl, hu⟩ := hu
    have hn : n ≤ 32 := hn
    have hy := jsDec32_spec (base := base) hn0 hn ha
    have hz := fin (jsDec32 big start n base d).toInt (by
      unfold jsDecPrim
      rw [if_neg (by simp [Prim.width])]
      simp [jsFix32, Prim.signed])
    rw [BitVec.toInt_eq_toNat_cond, if_neg (by omega)] at hz
    omega
  · have hdec := jsDecPrim_spec (p := p) (base := base) hn0 hn (fun hp => Classical.byContradiction (fun e => hu ⟨hp, e⟩)) (fun hp => by
      subst hp
      rcases h2 with h2 | h2
      · cases h2
      · exact h2.2 rfl) ha
    have hz := fin _ hdec
    unfold jsNum at hz
    rw [if_neg hb] at hz
    by_cases hs : p.signed = true
    · rw [if_pos hs, BitVec.toInt_eq_toNat_cond] at hz
      split at hz <;> omega
    · rw [if_neg hs] at hz
      exact_mod_cast hz

theorem and_F0' : ∀ b : Byte, b &&& 0xF0#8 = 0#8 → b.toNat < 16 := by decide +kernel
theorem and_80 : ∀ b : Byte, b &&& 0x80#8 = 0#8 → b.toNat < 128 ∧ (b &&& 0x7F#8).toNat = b.toNat := by decide +kernel
theorem and_80' : ∀ b : Byte, b &&& 0x80#8 ≠ 0#8 → 128 ≤ b.toNat ∧ (b &&& 0x7F#8).toNat = b.toNat - 128 := by decide +kernel

theorem LebAt.cons {d : Buf} {pos : Nat} {b : Byte} {bs : List Byte} {m : Nat} (hp : pos < d.length) (hb : d.getD pos 0#8 = b)
    (h128 : 128 ≤ b.toNat) (h : LebAt d (pos + 1) bs m) : LebAt d pos (b :: bs) ((b.toNat - 128) + 128 * m) := by
  obtain ⟨h1, h2, h3⟩ := h
  refine ⟨?_, ?_, by rw [List.length_cons]; omega⟩
  · simp only [leb]
    rw [if_neg (by omega), h1]; rfl
  · rw [List.drop_eq_getElem_cons hp, List.length_cons, List.take_succ_cons, h2]
    rw [List.getD_eq_getElem?_getD, List.getElem?_eq_getElem hp] at hb
    simp only [Option.getD_some] at hb
    rw [hb]

theorem LebAt.one {d : Buf} {pos : Nat} {b : Byte} (hp : pos < d.length) (hb : d.getD pos 0#8 = b) (h128 : b.toNat < 128) :
    LebAt d pos [b] b.toNat := by
  refine ⟨?_, ?_, by simp only [List.length_cons, List.length_nil]; omega⟩
  · simp [leb, h128]
  · rw [List.drop_eq_getElem_cons hp, List.length_cons, List.take_succ_cons]
    rw [List.getD_eq_getElem?_getD, List.getElem?_eq_getElem hp] at hb
    simp only [Option.getD_some] at hb
    rw [hb]; simp

/-- A length prefix that is accepted stands in the data. -/
theorem jsDecLen_inv (d : Buf) : ∀ (f length shift pos len p : Nat), 4 ≤ shift / 7 + f → shift % 7 = 0 → shift ≤ 28 →
    jsDecLen d length shift pos = some (len, p) →
    ∃ bs m, LebAt d pos bs m ∧ p = pos + bs.length ∧ len = length + m * 2 ^ shift ∧ shift + 7 * bs.length ≤ 35 ∧ m < 2 ^ (32 - shift) := by
  intro f
  induction f with
  | zero =>
    intro length shift pos len p hf hs hs2 h
    have e : shift = 28 := by omega
    subst e
    rw [jsDecLen] at h
    split at h
    · cases h
    · split at h
      · cases h
      · rename_i h1 h2
        split at h
        · rename_i h3
          cases h
          obtain ⟨a1, a2⟩ := and_80 _ h3
          rw [a2]
          have := and_F0' (jsGet d pos) (Classical.byContradiction (fun e => h2 ⟨rfl, e⟩))
          exact ⟨[jsGet d pos], _, LebAt.one (by omega) rfl a1, rfl, rfl, by simp, by simpa using this⟩
        · split at h
          · cases h
          · omega
  | succ f ih =>
    intro length shift pos len p hf hs hs2 h
    rw [jsDecLen] at h
    split at h
    · cases h
    · split at h
      · cases h
      · rename_i h1 h2
        split at h
        · rename_i h3
          cases h
          obtain ⟨a1, a2⟩ := and_80 _ h3
          rw [a2]
          refine ⟨[jsGet d pos], _, LebAt.one (by omega) rfl a1, rfl, rfl, by simp; omega, ?_⟩
          by_cases e : shift = 28
          · subst e
            have := and_F0' (jsGet d pos) (Classical.byContradiction (fun e => h2 ⟨rfl, e⟩))
            simpa using this
          · exact Nat.lt_of_lt_of_le a1 (show 2 ^ 7 ≤ 2 ^ (32 - shift) from Nat.pow_le_pow_right (by omega) (by omega))
        · rename_i h3
          split at h
          · cases h
          · rename_i h4
            obtain ⟨a1, a2⟩ := and_80' _ h3
            obtain ⟨bs, m, g1, g2, g3, g4, g5⟩ := ih _ (shift + 7) (pos + 1) len p (by omega) (by omega) (by omega) h
            refine ⟨jsGet d pos :: bs, _, LebAt.cons (by omega) rfl a1 g1, by rw [List.length_cons]; omega, ?_, by
              rw [List.length_cons]; omega, ?_⟩
            · rw [g3, a2, Nat.pow_add, Nat.add_mul, ← Nat.add_assoc]
              congr 1
              rw [Nat.mul_comm (2 ^ shift), ← Nat.mul_assoc, Nat.mul_comm m]
            · have e : (2 : Nat) ^ (32 - shift) = 128 * 2 ^ (32 - (shift + 7)) := by
                rw [show (128 : Nat) = 2 ^ 7 from rfl, ← Nat.pow_add]
                congr 1; omega
              have := (jsGet d pos).isLt
              omega

theorem jsDecBytes_sound {d : Buf} {pos : Nat} {x : List Byte} {m : Nat} (h : jsDecBytes d pos = .ok (x, m)) :
    ∃ bs k, leb bs = some k ∧ (k = x.length ∧ bs.length ≤ 5 ∧ k < 2 ^ 32) ∧ m = bs.length + x.length ∧
      Agrees d (8 * pos) (byteWire (bs ++ x)) := by
  unfold jsDecBytes at h
  cases e : jsDecLen d 0 0 pos with
  | none => rw [e] at h; cases h
  | some q =>
    obtain ⟨length, p⟩ := q
    rw [e] at h
    simp only at h
    split at h
    · cases h
    · rename_i hle
      obtain ⟨bs, k, g1, g2, g3, g4, g5⟩ := jsDecLen_inv d 4 0 0 pos length p (by omega) rfl (by omega) e
      cases h
      have hlen : length = k := by rw [g3]; simp
      subst hlen
      have hb := g1.2.2
      have hx : ((d.drop p).take length).length = length := by
        rw [List.length_take, List.length_drop]; omega
      refine ⟨bs, length, g1.1, ⟨hx.symm, by omega, by simpa using g5⟩, by rw [hx]; omega, ?_⟩
      have := LebAt.to_agrees (L := length) g1 (by omega)
      rw [g2]; exact this

theorem jsDecSpec_sound (c : JsCfg) : (jsDecSpec c).SoundOk false where
  checks := rfl
  wrap := fun _ _ _ => rfl
  ret := fun _ _ _ => rfl
  rem := fun _ _ _ _ => rfl
  maxLen := by show 2 ^ 28 ≤ 2 ^ 30; omega
  const := by
    intro p n big val start base d hn0 hn _ hval hok _ hd h
    exact jsDecConst_sound hn0 hn hval hok hd h
  str := by intro h; cases h
  bytes := by
    intro pos d x m _ h
    exact jsDecBytes_sound h

theorem jsDecSpec_lenGo (c : JsCfg) : (jsDecSpec c).LenGo := by
  rintro bs m len ⟨h1, h2, h3⟩
  exact ⟨h1, by omega⟩

end Bubbler
