import Verif.Codec.TgtTrunc
import Verif.Codec.JsDec
import Verif.Codec.MgDec

/-
Truncated strings and bytes in decodeSize of JavaScript, Java and C# (with arrays): proofs for C59.
-/
set_option linter.unusedSimpArgs false
namespace Bubbler

theorem cut_rd {d : Buf} {p i : Nat} {x : List Byte} (h : d.drop p = x.take (d.length - p)) (hi : p + i < d.length) : d.rd (p + i) = x[i]? := by
  have := congrArg (·[i]?) h
  simp only [List.getElem?_drop] at this
  rw [List.getElem?_take_of_lt (by omega)] at this
  rw [← this]
  rfl

/-- All bytes of a length prefix but the last one have the high bit. -/
theorem leb_high : ∀ (bs : List Byte) (m i : Nat), leb bs = some m → i + 1 < bs.length → ∃ b, bs[i]? = some b ∧ b &&& 0x80#8 ≠ 0#8
  | [], m, i => by intro h; simp [leb] at h
  | b :: bs, m, i => by
    intro h hi
    simp only [leb] at h
    simp only [List.length_cons] at hi
    by_cases hb : b.toNat < 128
    · rw [if_pos hb] at h
      split at h
      · rename_i hnil
        rw [hnil] at hi
        simp at hi
      · cases h
    · rw [if_neg hb] at h
      cases hm : leb bs with
      | none => rw [hm] at h; cases h
      | some m' =>
        cases i with
        | zero =>
          obtain ⟨v, hx, e1, e2⟩ := ofNat_toNat8' b hb
          obtain ⟨t1, t2, t3, t4⟩ := testHi v hx
          exact ⟨b, rfl, by rw [e1]; exact t2⟩
        | succ i =>
          have := leb_high bs m' i hm (by omega)
          simpa using this

/-! ### JavaScript -/

theorem jsScanStr_short {d : Buf} {base off k : Nat} (h : ∀ i, base + off + k + i < d.length → d.rd (base + off + k + i) ≠ some 0#8) :
    ∀ (m length : Nat), base + off + k + length + m + 1 = d.length →
      jsScanStr k d base off length = .ret (-((d.length : Int) - base + 1))
  | 0, length, e => by
    have ei : (off : Int) + base + k + length = ((base + off + k + length : Nat) : Int) := by push_cast; omega
    rw [jsScanStr, ei, jsGetI_nat, if_neg (h length (by omega)), dif_pos (by omega)]
    congr 1
    omega
  | m + 1, length, e => by
    have ei : (off : Int) + base + k + length = ((base + off + k + length : Nat) : Int) := by push_cast; omega
    rw [jsScanStr, ei, jsGetI_nat, if_neg (h length (by omega)), dif_neg (by omega)]
    exact jsScanStr_short h m (length + 1) (by omega)

theorem jsScanLen_short {d : Buf} {base k : Nat} : ∀ (m a shift off : Nat),
    (∀ i, base + off + k + i < d.length → ∃ b, d.rd (base + off + k + i) = some b ∧ b &&& 0x80#8 ≠ 0#8) →
    base + off + k + m + 1 = d.length → shift + 7 * (m + 1) ≤ 28 →
      jsScanLen k d base a shift off = .inl (-((d.length : Int) - base + 1))
  | 0, a, shift, off => by
    intro h e hs
    have ei : (off : Int) + base + k = ((base + off + k : Nat) : Int) := by push_cast; omega
    obtain ⟨b, h1, h2⟩ := h 0 (by omega)
    have hg : (jsGetI d ((off : Int) + base + k)).getD 0#8 = b := by
      rw [ei, jsGetI_nat]; simp only [Nat.add_zero] at h1; rw [h1]; rfl
    rw [jsScanLen]
    simp only [hg]
    rw [if_neg (by omega), if_neg h2, dif_neg (by omega), if_pos (by omega)]
    congr 1
    omega
  | m + 1, a, shift, off => by
    intro h e hs
    have ei : (off : Int) + base + k = ((base + off + k : Nat) : Int) := by push_cast; omega
    obtain ⟨b, h1, h2⟩ := h 0 (by omega)
    have hg : (jsGetI d ((off : Int) + base + k)).getD 0#8 = b := by
      rw [ei, jsGetI_nat]; simp only [Nat.add_zero] at h1; rw [h1]; rfl
    rw [jsScanLen]
    simp only [hg]
    rw [if_neg (by omega), if_neg h2, dif_neg (by omega), if_neg (by omega)]
    exact jsScanLen_short m _ (shift + 7) (off + 1) (fun i hi => by
      have := h (i + 1) (by omega)
      rw [show base + (off + 1) + k + i = base + off + k + (i + 1) by omega]
      exact this) (by omega) (by omega)

theorem jsTruncOk (c : JsCfg) : (jsDecSpec c).TruncOk where
  checks := rfl
  sub := fun _ _ _ => rfl
  rem := fun _ _ _ _ => rfl
  str := by
    intro s base off k d hz hm hc hs
    show ∃ r, jsDsStr k d base off = .ret r ∧ _
    unfold jsDsStr
    by_cases hp : (d.length : Int) - (base : Nat) ≤ (off : Int) + (k : Nat)
    · rw [if_pos hp]
      exact ⟨_, rfl, by unfold Short; omega⟩
    · rw [if_neg hp, jsScanStr_short (fun i hi => ?_) (d.length - (base + off + k) - 1) 0 (by omega)]
      · exact ⟨_, rfl, by unfold Short; omega⟩
      · rw [cut_rd hc hi, List.getElem?_append_left (by omega)]
        intro e
        exact hz (List.mem_of_getElem? e)
  bytes := by
    intro bs m s base off k d hlb hf hm hc hs
    obtain ⟨rfl, h5, h6⟩ := hf
    have hne := leb_ne_nil hlb
    show ∃ r, jsDsBytes k d base off = .ret r ∧ _
    unfold jsDsBytes
    by_cases hp : (d.length : Int) - (base : Nat) ≤ (off : Int) + (k : Nat)
    · rw [if_pos hp]
      exact ⟨_, rfl, by unfold Short; omega⟩
    · rw [if_neg hp]
      rcases Nat.lt_or_ge d.length (base + off + k + bs.length) with hb | hb
      · rw [jsScanLen_short (d.length - (base + off + k) - 1) 0 0 off (fun i hi => ?_) (by omega) (by omega)]
        · exact ⟨_, rfl, by unfold Short; omega⟩
        · obtain ⟨b, e1, e2⟩ := leb_high bs _ i hlb (by omega)
          exact ⟨b, by rw [cut_rd hc hi, List.getElem?_append_left (by omega)]; exact e1, e2⟩
      · have hl : LebAt d (base + off + k) bs s.length := by
          refine ⟨hlb, ?_, by omega⟩
          rw [hc, List.take_take, Nat.min_eq_left (by omega), List.take_left]
        rw [jsScanLen_of d base k bs _ 0 0 off hl (by omega) (by simpa using h6)]
        simp only [Nat.zero_add, Nat.pow_zero, Nat.mul_one]
        rw [if_pos (by push_cast; omega)]
        exact ⟨_, rfl, by unfold Short; push_cast; omega⟩

/-! ### Java and C# -/

theorem mgScanStr_short {rem : Int} {off k : Nat} (hb : rem < 2 ^ 30) : ∀ (bs : List Byte) (length : Nat),
    0#8 ∉ bs → bs ≠ [] → (off : Int) + k + length + bs.length = rem → mgScanStr rem k off bs length = .ret (-(rem + 1))
  | [], length => by intro _ h; exact absurd rfl h
  | b :: bs, length => by
    intro hz _ e
    simp only [List.length_cons] at e
    simp only [List.mem_cons, not_or] at hz
    rw [mgScanStr, if_neg (fun h => hz.1 h.symm), w32_id (x := (off : Int) + k + (length + 1 : Nat)) (by omega) (by omega)]
    by_cases hn : bs = []
    · subst hn
      simp only [List.length_nil] at e
      rw [if_pos (by omega), w32_id (x := (off : Int) + k + (length + 1 : Nat) + 1) (by omega) (by omega), w32_id (by omega) (by omega)]
      congr 1
      omega
    · have := List.length_pos_iff.mpr hn
      rw [if_neg (by omega)]
      exact mgScanStr_short hb bs (length + 1) hz.2 hn (by omega)

theorem mgScanLen_short {rem : Int} {k : Nat} (hb : rem < 2 ^ 30) : ∀ (bs : List Byte) (x : BitVec 32) (shift off : Nat),
    (∀ b ∈ bs, b &&& 0x80#8 ≠ 0#8) → bs ≠ [] → (off : Int) + k + bs.length = rem → mgScanLen rem k bs x shift off = some (.inl (-(rem + 1)))
  | [], x, shift, off => by intro _ h; exact absurd rfl h
  | b :: bs, x, shift, off => by
    intro hz _ e
    simp only [List.length_cons] at e
    rw [mgScanLen, if_neg (hz b (by simp)), w32_id (x := (off : Int) + 1 + k) (by omega) (by omega)]
    by_cases hn : bs = []
    · subst hn
      simp only [List.length_nil] at e
      rw [if_pos (by omega), w32_id (x := (off : Int) + 1 + k + 1) (by omega) (by omega), w32_id (by omega) (by omega)]
      congr 2
      omega
    · have := List.length_pos_iff.mpr hn
      have e0 : w32 ((off : Int) + 1) = ((off + 1 : Nat) : Int) := w32_id (by omega) (by omega)
      rw [if_neg (by omega), e0]
      exact mgScanLen_short hb bs _ _ (off + 1) (fun b hb => hz b (by simp [hb])) hn (by omega)

theorem mgRem_any (c : MgCfg) {n b : Nat} (h : b < 2 ^ 30) (hn : n < 2 ^ 30) : mgRem c n b = (n : Int) - b := by
  unfold mgRem
  split
  · rfl
  · exact w32_id (by omega) (by omega)

theorem mgDsStr_short (c : MgCfg) (s : List Byte) (base off k : Nat) (d : Buf) (hz : 0#8 ∉ s) (hm : base + off + k + (s.length + 1) < 2 ^ 30)
    (hc : d.drop (base + off + k) = (s ++ [0#8]).take (d.length - (base + off + k))) (hs : d.length < base + off + k + (s.length + 1)) :
    ∃ r, mgDsStr c k d base off = .ret r ∧ Short d base (off + k + (s.length + 1)) r := by
  unfold mgDsStr
  have e1 : w32 ((off : Int) + k) = ((off + k : Nat) : Int) := w32_id (by omega) (by omega)
  rw [e1, mgRem_any c (by omega) (by omega), mgFrom_of c (by omega)]
  by_cases hp : (d.length : Int) - (base : Nat) ≤ ((off + k : Nat) : Int)
  · rw [if_pos hp, w32_id (x := (off : Int) + k + 1) (by omega) (by omega), w32_id (by omega) (by omega)]
    exact ⟨_, rfl, by unfold Short; omega⟩
  · rw [if_neg hp]
    simp only
    rw [mgScanStr_short (by omega) _ 0 ?_ ?_ ?_]
    · exact ⟨_, rfl, by unfold Short; omega⟩
    · rw [show base + (off + k) = base + off + k by omega, hc, List.take_append_of_le_length (by omega)]
      exact fun h => hz (List.mem_of_mem_take h)
    · intro e
      have := congrArg List.length e
      rw [List.length_drop] at this
      simp only [List.length_nil] at this
      omega
    · rw [List.length_drop]; omega

theorem mgDsBytes_short (c : MgCfg) (bs : List Byte) (m : Nat) (s : List Byte) (base off k : Nat) (d : Buf) (hlb : leb bs = some m)
    (hf : (mgLen bs 0#32 0).toInt = s.length) (hm : base + off + k + (bs.length + s.length) < 2 ^ 30)
    (hc : d.drop (base + off + k) = (bs ++ s).take (d.length - (base + off + k))) (hs : d.length < base + off + k + (bs.length + s.length)) :
    ∃ r, mgDsBytes c k d base off = .ret r ∧ Short d base (off + k + (bs.length + s.length)) r := by
  have hne : 0 < bs.length := List.length_pos_iff.mpr (by rintro rfl; simp [leb] at hlb)
  unfold mgDsBytes
  have e1 : w32 ((off : Int) + k) = ((off + k : Nat) : Int) := w32_id (by omega) (by omega)
  rw [e1, mgRem_any c (by omega) (by omega), mgFrom_of c (by omega)]
  by_cases hp : (d.length : Int) - (base : Nat) ≤ ((off + k : Nat) : Int)
  · rw [if_pos hp, w32_id (x := (off : Int) + k + 1) (by omega) (by omega), w32_id (by omega) (by omega)]
    exact ⟨_, rfl, by unfold Short; omega⟩
  · rw [if_neg hp]
    simp only
    rw [show base + (off + k) = base + off + k by omega]
    rcases Nat.lt_or_ge d.length (base + off + k + bs.length) with hb | hb
    · rw [hc, List.take_append_of_le_length (by omega), mgScanLen_short (by omega) _ _ _ off ?_ ?_ ?_]
      · exact ⟨_, rfl, by unfold Short; omega⟩
      · intro b hbm
        obtain ⟨i, hi, e⟩ := List.getElem_of_mem hbm
        rw [List.length_take] at hi
        obtain ⟨b', e1, e2⟩ := leb_high bs m i hlb (by omega)
        rw [List.getElem_take] at e
        rw [List.getElem?_eq_getElem (by omega), e] at e1
        cases e1
        exact e2
      · intro e
        have := congrArg List.length e
        rw [List.length_take] at this
        simp only [List.length_nil] at this
        omega
      · rw [List.length_take]; omega
    · have hsplit : d.drop (base + off + k) = bs ++ s.take (d.length - (base + off + k) - bs.length) := by
        rw [hc, List.take_append, List.take_of_length_le (by omega)]
      rw [hsplit, mgScanLen_of _ k _ (by omega) bs m 0#32 0 off hlb (by omega)]
      simp only [hf]
      rw [w32_id (x := ((off + bs.length : Nat) : Int) + k + (s.length : Nat)) (by omega) (by omega), if_pos (by omega), w32_id (by omega) (by omega)]
      exact ⟨_, rfl, by unfold Short; omega⟩

theorem mgTruncOk (c : MgCfg) (hl : c.lang ≠ .csSpan) : (mgDecSpec c).TruncOk where
  checks := rfl
  sub := by
    intro n base rel
    show (c.lang != .csSpan || _) = true
    have : (c.lang != .csSpan) = true := by
      cases h : c.lang <;> first | rfl | exact absurd h hl
    rw [this, Bool.true_or]
  rem := fun n b hn hb => mgRem_any c hb hn
  str := by
    intro s base off k d hz hm hc hs
    have hm : base + off + k + (s.length + 1) < 2 ^ 30 := hm
    have e := mgDsStr_short c s base off k d hz hm hc hs
    rw [show (mgTgt c).dsStr = mgDsStr c from rfl]
    exact e
  bytes := by
    intro bs m s base off k d hlb hf hm hc hs
    have hm : base + off + k + (bs.length + s.length) < 2 ^ 30 := hm
    have hf : (mgLen bs 0#32 0).toInt = (s.length : Int) := hf
    have e := mgDsBytes_short c bs m s base off k d hlb hf hm hc hs
    rw [show (mgTgt c).dsBytes = mgDsBytes c from rfl]
    exact e

end Bubbler
