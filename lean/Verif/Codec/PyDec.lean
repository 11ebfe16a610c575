import Verif.Codec.PyEnc
import Verif.Codec.DecSafe

/-
`decode_size` of the Python target against the Go target's (without the 64-bit wrap-around).
-/
set_option linter.unusedSimpArgs false
namespace Bubbler

/-! ### Length prefixes -/

theorem byte_hi : ∀ b : Byte, (b.toNat &&& 0x80 = 0 ↔ b &&& 0x80#8 = 0#8) ∧
    (b &&& 0x7F#8) = BitVec.ofNat 8 (b.toNat &&& 0x7F) := by
  intro b
  have h : b = BitVec.ofNat 8 b.toNat := by simp
  have hlt := b.isLt
  rw [h]
  generalize b.toNat = a at hlt
  revert a
  decide +kernel

theorem acc_nat {a m s : Nat} (ha : a < 2 ^ s) : a ||| (m <<< s) = a + m * 2 ^ s := by
  have := Nat.two_pow_add_eq_or_of_lt ha m
  rw [Nat.shiftLeft_eq, Nat.mul_comm m, Nat.or_comm, ← this, Nat.add_comm]

/-- Both loops read the same prefix; the Python length is below 2^63 because the tenth byte is refused. -/
theorem pyScanLen_eq (d : Buf) (acc shift pos : Nat) (ha : acc < 2 ^ shift) (hs : shift % 7 = 0) (hs2 : shift ≤ 63) :
    (pyScanLen d acc shift pos = match scanLen d (BitVec.ofNat 64 acc) shift pos with
      | .panic => none
      | .ret r => some (.inl r)
      | .ok lv last => some (.inr (lv.toNat, last))) ∧
    ∀ lv last, scanLen d (BitVec.ofNat 64 acc) shift pos = .ok lv last → lv.toNat ≤ maxInt := by
  have hmx : maxInt = 2 ^ 63 - 1 := rfl
  fun_induction pyScanLen d acc shift pos with
  | case1 acc shift pos hb => rw [scanLen, hb]; simp
  | case2 acc shift pos b hb h1 h2 =>
    rw [scanLen, hb]; simp only [(byte_hi b).1.mp h1, h2, if_true]; simp
  | case3 acc shift pos b hb h1 h2 =>
    have hm : b.toNat &&& 0x7F < 128 := by rw [and7F]; omega
    have hlt := acc_lt ha hm
    have hp : (2 : Nat) ^ (shift + 7) ≤ 2 ^ 63 := Nat.pow_le_pow_right (by omega) (by omega)
    rw [scanLen, hb]; simp only [(byte_hi b).1.mp h1, h2, if_true, if_false]
    have e : BitVec.ofNat 64 acc ||| (b &&& 0x7F#8).setWidth 64 <<< shift = BitVec.ofNat 64 (acc + (b.toNat &&& 0x7F) * 2 ^ shift) := by
      rw [(byte_hi b).2, acc_step ha hm (by omega)]
    have e2 : (BitVec.ofNat 64 (acc + (b.toNat &&& 0x7F) * 2 ^ shift)).toNat = acc + (b.toNat &&& 0x7F) * 2 ^ shift := by
      rw [BitVec.toNat_ofNat, Nat.mod_eq_of_lt]; omega
    rw [e]
    refine ⟨?_, ?_⟩
    · simp only [e2]
      rw [acc_nat ha]
    · intro lv last h
      injection h with h3 h4
      rw [← h3, e2]; omega
  | case4 acc shift pos b hb h1 h2 =>
    have h1' : ¬ b &&& 0x80#8 = 0#8 := fun h => h1 ((byte_hi b).1.mpr h)
    rw [scanLen, hb]; simp only [h1', h2, if_true, if_false]; simp
  | case5 acc shift pos b hb h1 h2 h3 =>
    have h1' : ¬ b &&& 0x80#8 = 0#8 := fun h => h1 ((byte_hi b).1.mpr h)
    rw [scanLen, hb]; simp only [h1', h2, h3, if_true, if_false]; simp
  | case6 acc shift pos b hb h1 h2 h3 ih =>
    have h1' : ¬ b &&& 0x80#8 = 0#8 := fun h => h1 ((byte_hi b).1.mpr h)
    have hm : b.toNat &&& 0x7F < 128 := by rw [and7F]; omega
    have hlt := acc_lt ha hm
    have e : BitVec.ofNat 64 acc ||| (b &&& 0x7F#8).setWidth 64 <<< shift = BitVec.ofNat 64 (acc + (b.toNat &&& 0x7F) * 2 ^ shift) := by
      rw [(byte_hi b).2, acc_step ha hm (by omega)]
    have := ih (by rw [acc_nat ha]; exact hlt) (by omega) (by omega)
    rw [scanLen, hb]; simp only [h1', h2, h3, if_true, if_false]
    rw [e]
    rw [acc_nat ha] at this
    rw [acc_nat ha]
    exact this

theorem pyDecLen_eq (k : Nat) (d : Buf) (lv : BitVec 64) (last : Nat) : ∀ (acc shift pos off : Nat),
    pos = off + k → acc < 2 ^ shift → shift % 7 = 0 → shift ≤ 63 →
    scanLen d (BitVec.ofNat 64 acc) shift pos = .ok lv last →
    pyDecLen k d acc shift off = .ok (lv.toNat, last - pos + off + 1) := by
  intro acc shift pos
  fun_induction pyScanLen d acc shift pos with
  | case1 acc shift pos hb => intro off hp ha hs hs2 h; rw [scanLen, hb] at h; cases h
  | case2 acc shift pos b hb h1 h2 =>
    intro off hp ha hs hs2 h
    rw [scanLen, hb] at h; simp only [(byte_hi b).1.mp h1, h2, if_true] at h; cases h
  | case3 acc shift pos b hb h1 h2 =>
    intro off hp ha hs hs2 h
    have hm : b.toNat &&& 0x7F < 128 := by rw [and7F]; omega
    have hlt := acc_lt ha hm
    have hp2 : (2 : Nat) ^ (shift + 7) ≤ 2 ^ 63 := Nat.pow_le_pow_right (by omega) (by omega)
    rw [scanLen, hb] at h; simp only [(byte_hi b).1.mp h1, h2, if_true, if_false] at h
    have e : BitVec.ofNat 64 acc ||| (b &&& 0x7F#8).setWidth 64 <<< shift = BitVec.ofNat 64 (acc + (b.toNat &&& 0x7F) * 2 ^ shift) := by
      rw [(byte_hi b).2, acc_step ha hm (by omega)]
    have e2 : (BitVec.ofNat 64 (acc + (b.toNat &&& 0x7F) * 2 ^ shift)).toNat = acc + (b.toNat &&& 0x7F) * 2 ^ shift := by
      rw [BitVec.toNat_ofNat, Nat.mod_eq_of_lt]; omega
    rw [e] at h
    injection h with h3 h4
    subst hp
    rw [pyDecLen]; split
    · rename_i e'; rw [e'] at hb; cases hb
    · rename_i b' e'; rw [e'] at hb; cases hb
      rw [if_pos h1, ← h3, e2, acc_nat ha]; congr 2; omega
  | case4 acc shift pos b hb h1 h2 =>
    intro off hp ha hs hs2 h
    have h1' : ¬ b &&& 0x80#8 = 0#8 := fun h => h1 ((byte_hi b).1.mpr h)
    rw [scanLen, hb] at h; simp only [h1', h2, if_true, if_false] at h; cases h
  | case5 acc shift pos b hb h1 h2 h3 =>
    intro off hp ha hs hs2 h
    have h1' : ¬ b &&& 0x80#8 = 0#8 := fun h => h1 ((byte_hi b).1.mpr h)
    rw [scanLen, hb] at h; simp only [h1', h2, h3, if_true, if_false] at h; cases h
  | case6 acc shift pos b hb h1 h2 h3 ih =>
    intro off hp ha hs hs2 h
    have h1' : ¬ b &&& 0x80#8 = 0#8 := fun h => h1 ((byte_hi b).1.mpr h)
    have hm : b.toNat &&& 0x7F < 128 := by rw [and7F]; omega
    have hlt := acc_lt ha hm
    have e : BitVec.ofNat 64 acc ||| (b &&& 0x7F#8).setWidth 64 <<< shift = BitVec.ofNat 64 (acc + (b.toNat &&& 0x7F) * 2 ^ shift) := by
      rw [(byte_hi b).2, acc_step ha hm (by omega)]
    rw [scanLen, hb] at h; simp only [h1', h2, h3, if_true, if_false] at h
    rw [e] at h
    have hok := scanLen_ok h
    have := ih (off + 1) (by omega) (by rw [acc_nat ha]; exact hlt) (by omega) (by omega) (by rw [acc_nat ha]; exact h)
    subst hp
    rw [pyDecLen]; split
    · rename_i e'; rw [e'] at hb; cases hb
    · rename_i b' e'; rw [e'] at hb; cases hb
      rw [if_neg h1, this]; congr 2; omega

/-- Reading a byte sequence once the scan has accepted it. -/
theorem pyDecBytes_of_ds {d : Buf} {off k : Nat} {lv : BitVec 64} {last : Nat}
    (h1 : scanLen d 0#64 0 (off + k) = .ok lv last) :
    pyDecBytes k d off = .ok ((d.drop (last + 1)).take lv.toNat, off + (last + 1 + lv.toNat - (off + k))) := by
  have hl := scanLen_ok h1
  unfold pyDecBytes
  rw [pyDecLen_eq k d lv last 0 0 (off + k) off rfl (by omega) (by omega) (by omega) h1]
  simp only
  have e : last - (off + k) + off + 1 + k = last + 1 := by omega
  rw [e]
  congr 2; omega

/-! ### decode_size -/

/-- The Python outcome `s` for the ideal outcome `i`: the same offset, or some negative result. -/
def PRel (s : Scan) (i : IScan) : Prop :=
  match i with
  | .ok o => s = .ok o
  | .ret _ => ∃ r', r' < 0 ∧ s = .ret r'

def PRelSize (s : Option Int) (i : IScan) : Prop :=
  match i with
  | .ok o => s = some (o : Int)
  | .ret _ => ∃ r', r' < 0 ∧ s = some r'

theorem pyLeaf_str (k : Nat) (d : Buf) (off : Nat) : PRel (pyLeaf dsStringAt k d off) (iLeaf dsStringAt k d off) := by
  unfold pyLeaf iLeaf
  by_cases c : d.length ≤ off + k
  · rw [if_pos c, if_pos c]; exact ⟨_, by omega, rfl⟩
  · rw [if_neg c, if_neg c]
    cases hc : dsStringAt d (off + k) with
    | ok n => rfl
    | ret r => exact ⟨r, (stringLeaf.ret _ _ _ hc).1, rfl⟩
    | panic => exact absurd hc (stringLeaf.noPanic _ _ (by omega))

theorem pyLeaf_bytes (k : Nat) (d : Buf) (off : Nat) : PRel (pyLeaf pyBytesAt k d off) (iLeaf dsBytesAt k d off) := by
  unfold pyLeaf iLeaf
  by_cases c : d.length ≤ off + k
  · rw [if_pos c, if_pos c]; exact ⟨_, by omega, rfl⟩
  · rw [if_neg c, if_neg c]
    obtain ⟨e, hm⟩ := pyScanLen_eq d 0 0 (off + k) (by omega) (by omega) (by omega)
    unfold pyBytesAt dsBytesAt
    rw [e]
    have hr := @scanLen_ret d 0#64 0 (off + k)
    have hp := @scanLen_noPanic d 0#64 0 (off + k) (by omega)
    cases hs : scanLen d (BitVec.ofNat 64 0) 0 (off + k) with
    | panic => exact absurd hs hp
    | ret r =>
      refine ⟨r, ?_, rfl⟩
      rcases hr hs with ⟨h, _⟩ | ⟨h, _⟩ <;> omega
    | ok lv last =>
      have h1 := hm lv last hs
      have h2 := scanLen_ok hs
      clear hm
      generalize maxInt = M at h1
      simp only [if_neg (show ¬ M < lv.toNat by omega)]
      by_cases c2 : d.length < last + 1 + lv.toNat
      · rw [if_pos c2, if_pos (by omega)]
        by_cases c3 : (M : Int) - ((last + 1 : Nat) : Int) < (lv.toNat : Int)
        · rw [if_pos c3]; exact ⟨_, by omega, rfl⟩
        · rw [if_neg c3]; exact ⟨_, by omega, rfl⟩
      · rw [if_neg c2, if_neg (by omega)]; rfl

theorem pySub_rel {sizeP : Buf → Option Int} {size : Buf → IScan} {k : Nat} {d : Buf} {off : Nat}
    (hs : ∀ d', PRelSize (sizeP d') (size d')) : PRel (pySub sizeP k d off) (iSub size k d off) := by
  have h := hs (d.drop (off + k))
  unfold pySub iSub
  cases hc : size (d.drop (off + k)) with
  | ok o =>
    rw [hc] at h; simp only [PRelSize] at h
    simp only [h, PRel]
    rw [if_neg (by omega)]; simp
  | ret r =>
    rw [hc] at h; obtain ⟨r', h1, h2⟩ := h
    simp only [h2]
    rw [if_pos h1]; exact ⟨_, by omega, rfl⟩

theorem pyIter_rel {fP : Nat → Scan} {f : Nat → IScan} (hf : ∀ off, PRel (fP off) (f off)) :
    ∀ (n off : Nat), PRel (pyIter fP n off) (iIter f n off) := by
  intro n
  induction n with
  | zero => intro off; rfl
  | succ n ih =>
    intro off
    have h := hf off
    simp only [pyIter, iIter]
    cases hc : f off with
    | ok o => rw [hc] at h; simp only [PRel] at h; rw [h]; exact ih o
    | ret r => rw [hc] at h; obtain ⟨r', h1, h2⟩ := h; rw [h2]; exact ⟨r', h1, rfl⟩

theorem pyFinish_rel {s : Scan} {i : IScan} (d : Buf) (b : Nat) (h : PRel s i) :
    PRelSize (pyFinish d b s) (iFinish d b i) := by
  cases i with
  | ret r => obtain ⟨r', h1, h2⟩ := h; rw [h2]; exact ⟨r', h1, rfl⟩
  | ok o =>
    simp only [PRel] at h
    rw [h]
    simp only [pyFinish, iFinish]
    by_cases c : d.length < o + b
    · rw [if_pos c, if_pos c]; exact ⟨_, by omega, rfl⟩
    · rw [if_neg c, if_neg c]; rfl

mutual
  theorem Ty.pyDsElem_rel : ∀ (t : Ty) (k : Nat) (d : Buf) (off : Nat), PRel (t.pyDsElem k d off) (t.iElem k d off)
    | .sc _, k, d, off => by simp only [Ty.pyDsElem, Ty.iElem]; rfl
    | .str, k, d, off => by simp only [Ty.pyDsElem, Ty.iElem]; exact pyLeaf_str k d off
    | .bytes, k, d, off => by simp only [Ty.pyDsElem, Ty.iElem]; exact pyLeaf_bytes k d off
    | .struct fs, k, d, off => by
      simp only [Ty.pyDsElem, Ty.iElem]
      split
      · exact pySub_rel (fun d' => pyFinish_rel d' _ (Fields.pyDsFields_rel fs 0 d' 0))
      · rfl
  theorem Fields.pyDsFields_rel : ∀ (fs : Fields) (start : Nat) (d : Buf) (off : Nat),
      PRel (fs.pyDsFields start d off) (fs.iFields start d off)
    | .nil, start, d, off => by simp only [Fields.pyDsFields, Fields.iFields]; rfl
    | .void n r, start, d, off => by
      simp only [Fields.pyDsFields, Fields.iFields]; exact Fields.pyDsFields_rel r _ d off
    | .const _ n _ _ r, start, d, off => by
      simp only [Fields.pyDsFields, Fields.iFields]; exact Fields.pyDsFields_rel r _ d off
    | .one _ (some n) _ r, start, d, off => by
      simp only [Fields.pyDsFields, Fields.iFields]; exact Fields.pyDsFields_rel r _ d off
    | .one t none _ r, start, d, off => by
      have h := Ty.pyDsElem_rel t (start / 8) d off
      simp only [Fields.pyDsFields, Fields.iFields]
      cases hc : t.iElem (start / 8) d off with
      | ok o => rw [hc] at h; simp only [PRel] at h; rw [h]; exact Fields.pyDsFields_rel r _ d o
      | ret r => rw [hc] at h; obtain ⟨r', h1, h2⟩ := h; rw [h2]; exact ⟨r', h1, rfl⟩
    | .arr _ _ (some n) _ r, start, d, off => by
      simp only [Fields.pyDsFields, Fields.iFields]; exact Fields.pyDsFields_rel r _ d off
    | .arr t len none _ r, start, d, off => by
      have h := pyIter_rel (fun off => Ty.pyDsElem_rel t (start / 8) d off) len off
      simp only [Fields.pyDsFields, Fields.iFields]
      cases hc : iIter (fun off => t.iElem (start / 8) d off) len off with
      | ok o => rw [hc] at h; simp only [PRel] at h; rw [h]; exact Fields.pyDsFields_rel r _ d o
      | ret r => rw [hc] at h; obtain ⟨r', h1, h2⟩ := h; rw [h2]; exact ⟨r', h1, rfl⟩
end

theorem Fields.pyDecodeSize_rel {fs : Fields} (hwf : fs.wf 0 = true) (d : Buf) :
    PRelSize (fs.pyDecodeSize d) (fs.iSize d) := by
  unfold Fields.pyDecodeSize Fields.iSize
  by_cases c : fs.dynamic = true
  · rw [if_pos c]; exact pyFinish_rel d _ (Fields.pyDsFields_rel fs 0 d 0)
  · rw [if_neg c, Fields.iFields_static fs 0 d 0 hwf (by simpa using c)]
    simp only [iFinish, Nat.zero_add]
    split
    · exact ⟨_, by omega, rfl⟩
    · rfl

end Bubbler
