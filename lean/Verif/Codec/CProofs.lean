import Verif.Codec.CMsg
import Verif.Codec.EncMain

set_option linter.unusedSimpArgs false
namespace Bubbler

theorem cMask_getLsbD (lo hi : Nat) (hhi : hi ≤ 8) (hlo : lo ≤ 8) (k : Nat) :
    (cMask lo hi).getLsbD k = (decide (lo ≤ k) && decide (k < hi)) := by
  by_cases hk : k < 64
  · have h : ∀ hi, hi < 9 → ∀ lo, lo < 9 → ∀ k, k < 64 →
        (cMask lo hi).getLsbD k = (decide (lo ≤ k) && decide (k < hi)) := by decide +kernel
    exact h hi (by omega) lo (by omega) k hk
  · rw [BitVec.getLsbD_of_ge _ _ (by omega)]
    have : ¬ k < hi := by omega
    simp [this]

/-- Bit `q` of the chunk of field bits `[b, b + L)` as the C statement computes it. -/
def cSrc {w : Nat} (fd : Nat → BitVec w) (b L q : Nat) : Bool :=
  (decide (q < 8 - b % 8) && decide (q < L) && (fd (b / 8)).getLsbD (b % 8 + q)) ||
  (decide (8 - b % 8 < L) && decide (8 - (b + L) % 8 ≤ q) && decide (q - (8 - (b + L) % 8) < (b + L) % 8) &&
    (fd (b / 8 + 1)).getLsbD (q - (8 - (b + L) % 8)))

/-- The right-hand side of the statement for chunk `[i, i+L)`. -/
theorem cEncStmt_value {w : Nat} (fd : Nat → BitVec w) (hw64 : w ≤ 64) (assign) (start stop i : Nat) (hi : start ≤ i)
    (his : i < stop) (hfirst : i = start ∨ i % 8 = 0) (k : Nat) (hk : k < 8) :
    ((cEncStmt assign start stop i).value fd).getLsbD k =
      (decide (i % 8 ≤ k) && decide (k < i % 8 + (min stop (8 * (i / 8 + 1)) - i)) &&
        cSrc fd (i - start) (min stop (8 * (i / 8 + 1)) - i) (k - i % 8)) := by
  generalize hL : min stop (8 * (i / 8 + 1)) - i = L
  have hL8 : i % 8 + L ≤ 8 := by omega
  have hL0 : 0 < L := by omega
  have hnext : min stop (8 * (i / 8 + 1)) = i + L := by omega
  generalize hb : i - start = b
  have hend : i + L - start = b + L := by omega
  have hbf : b = 0 ∨ i % 8 = 0 := by omega
  simp only [cEncStmt, CEnc.value, hnext, hb, hend]
  have hm0 : (i + L - 1) % 8 + 1 = i % 8 + L := by omega
  rw [hm0]
  have hk64 : k < 64 := by omega
  have hz : ∀ (x : BitVec w) (p : Nat), (x.setWidth 64).getLsbD p = x.getLsbD p := by
    intro x p
    rw [BitVec.getLsbD_setWidth]
    by_cases hp : p < 64
    · simp [hp]
    · rw [BitVec.getLsbD_of_ge x p (by omega)]; simp
  by_cases hki : i % 8 ≤ k
  rotate_left
  · have h1 : k < i % 8 := by omega
    simp [BitVec.getLsbD_and, BitVec.getLsbD_shiftLeft, h1, hki]
  have hki' : ¬ k < i % 8 := by omega
  by_cases hkL : k < i % 8 + L
  rotate_left
  · rw [BitVec.getLsbD_and, cMask_getLsbD _ _ (by omega) (by omega)]
    simp [hkL]
  generalize hq : k - i % 8 = q
  have hqL : q < L := by omega
  have hq64 : q < 64 := by omega
  by_cases hsec : 8 - b % 8 < L
  · have hn1 : min (b + L) (8 * (b / 8 + 1)) = 8 * (b / 8 + 1) := by omega
    have hn2 : 8 * (b / 8 + 1) < b + L := by omega
    have hn3 : min (b + L) (8 * (8 * (b / 8 + 1) / 8 + 1)) = b + L := by omega
    have e1 : (8 * (b / 8 + 1) - 1) % 8 + 1 = 8 := by omega
    have e2 : 8 * (b / 8 + 1) / 8 = b / 8 + 1 := by omega
    have e3 : 8 * (b / 8 + 1) % 8 = 0 := by omega
    have e4 : (b + L - 1) % 8 + 1 = (b + L) % 8 := by omega
    simp only [hn1, hn2, hn3, if_true, e1, e2, e3, e4]
    have e5 : min (b + L) (8 * (b / 8 + 1 + 1)) = b + L := by omega
    simp only [e5, e4]
    rw [BitVec.getLsbD_and, cMask_getLsbD _ _ (by omega) (by omega), BitVec.getLsbD_shiftLeft, BitVec.getLsbD_or,
      BitVec.getLsbD_ushiftRight, BitVec.getLsbD_and, BitVec.getLsbD_shiftLeft, BitVec.getLsbD_and, hz, hz, hq,
      cMask_getLsbD _ _ (by omega) (by omega), cMask_getLsbD _ _ (by omega) (by omega)]
    simp only [cSrc, hki, hki', hkL, hk64, hq64, hsec, hqL, decide_true, decide_false, Bool.true_and, Bool.and_true,
      Bool.not_false, Nat.zero_le, Nat.le_add_right]
    congr 1
    · by_cases hh : q < 8 - b % 8
      · have : b % 8 + q < 8 := by omega
        simp [hh, this]
      · have : ¬ b % 8 + q < 8 := by omega
        simp [hh, this]
    · by_cases hh : q < 8 - (b + L) % 8
      · have : ¬ 8 - (b + L) % 8 ≤ q := by omega
        simp [hh, this]
      · have : 8 - (b + L) % 8 ≤ q := by omega
        by_cases hh2 : q - (8 - (b + L) % 8) < (b + L) % 8 <;> simp [hh, this, hh2]
  · have hn1 : min (b + L) (8 * (b / 8 + 1)) = b + L := by omega
    have e4 : (b + L - 1) % 8 + 1 = b % 8 + L := by omega
    simp only [hn1, Nat.lt_irrefl, if_false, e4]
    rw [BitVec.getLsbD_and, cMask_getLsbD _ _ (by omega) (by omega), BitVec.getLsbD_shiftLeft,
      BitVec.getLsbD_ushiftRight, BitVec.getLsbD_and, hz, hq,
      cMask_getLsbD _ _ (by omega) (by omega)]
    have h1 : q < 8 - b % 8 := by omega
    have h2 : b % 8 + q < b % 8 + L := by omega
    simp only [cSrc, hki, hki', hkL, hk64, hq64, hsec, hqL, h1, h2, decide_true, decide_false, Bool.true_and, Bool.and_true,
      Bool.not_false, Nat.le_add_right, Bool.false_and, Bool.or_false]

/-- All bits of `d` from bit `p` on are zero. -/
def ZeroFrom (d : Buf) (p : Nat) : Prop := ∀ i, p ≤ i → bitAt d i = false

/-- The operator `=` is only used for chunks that start a byte. -/
def AssignOk (assign : Nat → BitVec 64 → Bool) : Prop :=
  ∀ start stop i, start ≤ i → i < stop → (cEncStmt assign start stop i).assign = true → i % 8 = 0

theorem assignEmitted_ok : AssignOk assignEmitted := by
  intro start stop i _ _ h
  simpa [cEncStmt, assignEmitted] using h

theorem assignHelper_ok : AssignOk assignHelper := by
  intro start stop i h1 h2 h
  simp only [cEncStmt, assignHelper, decide_eq_true_eq] at h
  have : (cMask (i % 8) ((min stop (8 * (i / 8 + 1)) - 1) % 8 + 1)).getLsbD 0 = (0xFF#64 : BitVec 64).getLsbD 0 := by rw [h]
  rw [cMask_getLsbD _ _ (by omega) (by omega)] at this
  have e : (0xFF#64 : BitVec 64).getLsbD 0 = true := by decide
  rw [e] at this
  simp at this
  omega

/-- One C statement, on a buffer that is zero from its chunk on. -/
theorem cEncStmt_exec {w : Nat} (fd : Nat → BitVec w) (hw64 : w ≤ 64) {assign} (ha : AssignOk assign)
    (base start stop i : Nat) (hi : start ≤ i) (his : i < stop) (hfirst : i = start ∨ i % 8 = 0)
    (d : Buf) (hd : 8 * base + stop ≤ 8 * d.length) (hz : ZeroFrom d (8 * base + i)) :
    ∃ d', CEnc.exec fd base d (cEncStmt assign start stop i) = some d' ∧
      WritesBits d d' (8 * base + i) (min stop (8 * (i / 8 + 1)) - i)
        (cSrc fd (i - start) (min stop (8 * (i / 8 + 1)) - i)) := by
  have hbp : (cEncStmt assign start stop i).bytePos = i / 8 := rfl
  have hlt : base + i / 8 < d.length := by omega
  have hval := cEncStmt_value fd hw64 assign start stop i hi his hfirst
  have hasg := ha start stop i hi his
  generalize hL : min stop (8 * (i / 8 + 1)) - i = L at hval
  have hL8 : i % 8 + L ≤ 8 := by omega
  unfold CEnc.exec
  simp only [hbp, rd_eq_some hlt, Buf.wr, hlt, if_true, Option.bind_eq_bind, Option.bind_some]
  refine ⟨_, rfl, by simp, fun x => ?_⟩
  rw [bitAt_set hlt]
  by_cases h8 : x / 8 = base + i / 8
  · rw [if_pos h8]
    have hk : x % 8 < 8 := by omega
    have e3 : 8 * (base + i / 8) + x % 8 = x := by omega
    have hv : (BitVec.setWidth 8 ((cEncStmt assign start stop i).value fd)).getLsbD (x % 8) =
        (decide (i % 8 ≤ x % 8) && decide (x % 8 < i % 8 + L) && cSrc fd (i - start) L (x % 8 - i % 8)) := by
      rw [BitVec.getLsbD_setWidth, hval _ hk]; simp [hk]
    have hold : (d.getD (base + i / 8) 0#8).getLsbD (x % 8) = bitAt d x := by
      rw [getLsbD_getD _ _ _ hk, e3]
    by_cases a : i % 8 ≤ x % 8
    · have hzx := hz x (by omega)
      have hnew : (if (cEncStmt assign start stop i).assign = true
          then BitVec.setWidth 8 ((cEncStmt assign start stop i).value fd)
          else d.getD (base + i / 8) 0#8 ||| BitVec.setWidth 8 ((cEncStmt assign start stop i).value fd)).getLsbD (x % 8)
          = (decide (x % 8 < i % 8 + L) && cSrc fd (i - start) L (x % 8 - i % 8)) := by
        split
        · rw [hv]; simp [a]
        · rw [BitVec.getLsbD_or, hold, hv, hzx]; simp [a]
      rw [hnew]
      by_cases b : x % 8 < i % 8 + L
      · rw [if_pos (by omega)]
        have e4 : x - (8 * base + i) = x % 8 - i % 8 := by omega
        simp [b, e4]
      · rw [if_neg (by omega), hzx]
        simp [b]
    · have hna : (cEncStmt assign start stop i).assign = false := by
        cases hh : (cEncStmt assign start stop i).assign with
        | false => rfl
        | true => have := hasg hh; omega
      rw [hna, if_neg (by omega : ¬ (8 * base + i ≤ x ∧ x < 8 * base + i + L))]
      simp only [Bool.false_eq_true, if_false]
      rw [BitVec.getLsbD_or, hold, hv]
      simp [a]
  · rw [if_neg h8, if_neg (by omega)]

/-- First field bit of the chunk that holds field bit `j`, and its size. -/
def chunkBegin (start j : Nat) : Nat := max start (8 * ((start + j) / 8)) - start
def chunkLen (start n j : Nat) : Nat :=
  min (start + n) (8 * ((start + j) / 8 + 1)) - (start + chunkBegin start j)

/-- The bit the C statements put at field bit `j`. -/
def cFieldBit {w : Nat} (fd : Nat → BitVec w) (start n j : Nat) : Bool :=
  cSrc fd (chunkBegin start j) (chunkLen start n j) (j - chunkBegin start j)

theorem ZeroFrom.writes {d d' : Buf} {p n : Nat} {f} (hz : ZeroFrom d p) (w : WritesBits d d' p n f) :
    ZeroFrom d' (p + n) := by
  intro i hi
  rw [w.2, if_neg (by omega)]
  exact hz i (by omega)

theorem cExecEnc_from {w : Nat} (fd : Nat → BitVec w) (hw64 : w ≤ 64) {assign} (ha : AssignOk assign)
    (base start n i : Nat) (hi : start ≤ i) (hfirst : i = start ∨ i % 8 = 0) (d : Buf)
    (hd : 8 * base + start + n ≤ 8 * d.length) (hz : ZeroFrom d (8 * base + i)) :
    ∃ d', cExecEnc fd base (cEncStmtsFrom assign start (start + n) i) d = some d' ∧
      WritesBits d d' (8 * base + i) (start + n - i) (fun q => cFieldBit fd start n (i - start + q)) := by
  induction i using cEncStmtsFrom.induct (stop := start + n) generalizing d with
  | case1 i hlt ih =>
    rw [cEncStmtsFrom, if_pos hlt]
    obtain ⟨d1, h1, w1⟩ := cEncStmt_exec fd hw64 ha base start (start + n) i hi hlt hfirst d (by omega) hz
    have hL : ∀ L, L = min (start + n) (8 * (i / 8 + 1)) - i → WritesBits d d1 (8 * base + i) L
        (fun q => cFieldBit fd start n (i - start + q)) := by
      intro L hL
      rw [← hL] at w1
      refine w1.congr (fun q hq => ?_)
      have e1 : chunkBegin start (i - start + q) = i - start := by
        simp only [chunkBegin]; omega
      have e2 : chunkLen start n (i - start + q) = L := by
        simp only [chunkLen, e1]; omega
      simp only [cFieldBit, e1, e2]
      congr 1; omega
    by_cases hlast : start + n ≤ 8 * (i / 8 + 1)
    · rw [cEncStmtsFrom, if_neg (by omega)]
      refine ⟨d1, ?_, hL _ (by omega)⟩
      simp only [cExecEnc, List.foldlM_cons, h1, List.foldlM_nil]; rfl
    · have w2 := hL (8 * (i / 8 + 1) - i) (by omega)
      have z1 := hz.writes w2
      have e : 8 * base + i + (8 * (i / 8 + 1) - i) = 8 * base + 8 * (i / 8 + 1) := by omega
      rw [e] at z1
      obtain ⟨d2, h2, w3⟩ := ih (by omega) (by omega) d1 (by rw [w2.1]; exact hd) z1
      refine ⟨d2, ?_, ?_⟩
      · simp only [cExecEnc, List.foldlM_cons, h1] at h2 ⊢
        exact h2
      · have e2 : start + n - i = (8 * (i / 8 + 1) - i) + (start + n - 8 * (i / 8 + 1)) := by omega
        rw [e2]
        refine w2.trans ?_
        rw [e]
        refine w3.congr (fun q _ => ?_)
        show cFieldBit _ _ _ _ = cFieldBit _ _ _ _
        congr 1; omega
  | case2 i hlt =>
    rw [cEncStmtsFrom, if_neg hlt]
    have : start + n - i = 0 := by omega
    rw [this]
    exact ⟨d, rfl, WritesBits.refl _ _ _⟩

/-- What the C statements of a field write, on a buffer that is zero from the field on. -/
theorem cExecEnc_spec {w : Nat} (fd : Nat → BitVec w) (hw64 : w ≤ 64) {assign} (ha : AssignOk assign)
    (base start n : Nat) (d : Buf) (hd : 8 * base + start + n ≤ 8 * d.length)
    (hz : ZeroFrom d (8 * base + start)) :
    ∃ d', cExecEnc fd base (cEncStmtsFrom assign start (start + n) start) d = some d' ∧
      WritesBits d d' (8 * base + start) n (cFieldBit fd start n) := by
  obtain ⟨d', h, w'⟩ := cExecEnc_from fd hw64 ha base start n start (Nat.le_refl _) (Or.inl rfl) d hd hz
  refine ⟨d', h, ?_⟩
  have e : start + n - start = n := by omega
  rw [e] at w'
  refine w'.congr (fun q _ => ?_)
  show cFieldBit _ _ _ _ = cFieldBit _ _ _ _
  congr 1; omega

theorem cFieldBit_ok {w : Nat} (fd : Nat → BitVec w) {start n : Nat} (h : cOk start n = true) (j : Nat) (hj : j < n) :
    cFieldBit fd start n j = srcBit fd j := by
  simp only [cOk, Bool.or_eq_true, decide_eq_true_eq] at h
  generalize hb : chunkBegin start j = b
  generalize hL : chunkLen start n j = L
  simp only [cFieldBit, hb, hL, cSrc, srcBit]
  have hb' : b = max start (8 * ((start + j) / 8)) - start := by rw [← hb]; rfl
  have hL' : L = min (start + n) (8 * ((start + j) / 8 + 1)) - (start + b) := by rw [← hL, ← hb]; rfl
  have hqL : j - b < L := by omega
  have hbj : b ≤ j := by omega
  by_cases h1 : 8 - b % 8 < L
  · -- a full chunk: eight bits
    have hL8 : L = 8 := by omega
    subst hL8
    have e : (b + 8) % 8 = b % 8 := by omega
    simp only [e]
    by_cases h2 : j - b < 8 - b % 8
    · have h3 : ¬ 8 - b % 8 ≤ j - b := by omega
      have e1 : j / 8 = b / 8 := by omega
      have e2 : j % 8 = b % 8 + (j - b) := by omega
      have h4 : j - b < 8 := by omega
      simp [h2, h3, e1, e2, h4]
    · have h3 : 8 - b % 8 ≤ j - b := by omega
      have h4 : j - b - (8 - b % 8) < b % 8 := by omega
      have e1 : j / 8 = b / 8 + 1 := by omega
      have e2 : j % 8 = j - b - (8 - b % 8) := by omega
      have h1' : 8 - b % 8 < 8 := by omega
      simp only [h2, h3, h4, e1, e2, h1', decide_true, decide_false, Bool.false_and, Bool.false_or, Bool.true_and]
  · have h2 : j - b < 8 - b % 8 := by omega
    have e1 : j / 8 = b / 8 := by omega
    have e2 : j % 8 = b % 8 + (j - b) := by omega
    simp [h1, h2, hqL, e1, e2]

/-- Where the C statements lose a bit: the first bit of the second half of the last chunk is 0. -/
theorem cFieldBit_lost {w : Nat} (fd : Nat → BitVec w) {start n : Nat} (h : cOk start n = false) :
    ∃ j, j < n ∧ cFieldBit fd start n j = false := by
  simp only [cOk, Bool.or_eq_false_iff, decide_eq_false_iff_not] at h
  obtain ⟨⟨h0, h1⟩, h2⟩ := h
  refine ⟨8 * ((start + n) / 8) - start + start % 8, by omega, ?_⟩
  have e0 : (start + (8 * ((start + n) / 8) - start + start % 8)) / 8 = (start + n) / 8 := by omega
  have hb : chunkBegin start (8 * ((start + n) / 8) - start + start % 8) = 8 * ((start + n) / 8) - start := by
    simp only [chunkBegin, e0]; omega
  have hL : chunkLen start n (8 * ((start + n) / 8) - start + start % 8) = (start + n) % 8 := by
    simp only [chunkLen, hb, e0]; omega
  simp only [cFieldBit, hb, hL, cSrc]
  have e1 : 8 * ((start + n) / 8) - start + start % 8 - (8 * ((start + n) / 8) - start) = start % 8 := by omega
  have e2 : (8 * ((start + n) / 8) - start) % 8 = 8 - start % 8 := by omega
  have e3 : 8 - (8 - start % 8) = start % 8 := by omega
  have e4 : (8 * ((start + n) / 8) - start + (start + n) % 8) % 8 = (start + n) % 8 - start % 8 := by omega
  have h5 : ¬ 8 - ((start + n) % 8 - start % 8) ≤ start % 8 := by omega
  simp [e1, e2, e3, e4, h5]

end Bubbler
