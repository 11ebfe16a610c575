import Verif.Codec.ChunkProofs

set_option linter.unusedSimpArgs false

namespace Bubbler

/-- The value bit a statement takes from source position `j` of the field. -/
def srcBit {w : Nat} (fd : Nat → BitVec w) (j : Nat) : Bool := (fd (j / 8)).getLsbD (j % 8)

theorem EncPart.eval_getLsbD {w : Nat} (fd : Nat → BitVec w) (src shr ps shl k : Nat) (hk : k < w) :
    (EncPart.eval fd ⟨src, shr, 2 ^ ps - 1, shl⟩).getLsbD k =
      (decide (shl ≤ k) && decide (k < shl + ps) && (fd src).getLsbD (shr + (k - shl))) := by
  simp only [EncPart.eval, BitVec.getLsbD_shiftLeft, BitVec.getLsbD_and, BitVec.getLsbD_ushiftRight,
    BitVec.getLsbD_ofNat, Nat.testBit_two_pow_sub_one]
  by_cases h1 : k < shl
  · have : ¬ shl ≤ k := by omega
    simp [h1, this]
  · have h2 : shl ≤ k := by omega
    have h3 : k - shl < w := by omega
    by_cases h4 : k - shl < ps
    · have : k < shl + ps := by omega
      simp [hk, h1, h2, h3, h4, this]
    · have : ¬ k < shl + ps := by omega
      simp [hk, h1, h2, h3, h4, this]

theorem evalParts_acc {w : Nat} (fd : Nat → BitVec w) (hw : 8 ≤ w)
    (fieldFrom dataFrom chunk c : Nat) (hchunk : dataFrom % 8 + chunk ≤ 8) (acc : BitVec w) (k : Nat)
    (hk : k < 8) :
    ((encParts fieldFrom dataFrom chunk c).foldl (fun acc p => acc ||| p.eval fd) acc).getLsbD k =
      (acc.getLsbD k || (decide (dataFrom % 8 + c ≤ k) && decide (k < dataFrom % 8 + chunk) &&
        srcBit fd (fieldFrom + (k - dataFrom % 8)))) := by
  induction c using encParts.induct (chunkSize := chunk) (fieldFrom := fieldFrom) generalizing acc with
  | case1 c hc sb ps ih =>
    rw [encParts, if_pos hc]
    simp only [List.foldl_cons]
    rw [ih, BitVec.getLsbD_or, EncPart.eval_getLsbD _ _ _ _ _ _ (by omega), Bool.or_assoc]
    congr 1
    simp only [srcBit]
    have hps : ps = min (chunk - c) (8 - (fieldFrom + c) % 8) := rfl
    rw [← hps]
    by_cases h1 : dataFrom % 8 + c ≤ k
    · by_cases h2 : k < dataFrom % 8 + c + ps
      · have h3 : ¬ dataFrom % 8 + (c + ps) ≤ k := by omega
        have h4 : k < dataFrom % 8 + chunk := by omega
        have e1 : (fieldFrom + (k - dataFrom % 8)) / 8 = (fieldFrom + c) / 8 := by omega
        have e2 : (fieldFrom + (k - dataFrom % 8)) % 8 = (fieldFrom + c) % 8 + (k - (dataFrom % 8 + c)) := by
          omega
        simp only [h1, h2, h3, h4, e1, e2, decide_true, decide_false, Bool.true_and, Bool.false_and,
          Bool.or_false]
      · have h3 : dataFrom % 8 + (c + ps) ≤ k := by omega
        simp [h1, h2, h3]
    · have h3 : ¬ dataFrom % 8 + (c + ps) ≤ k := by omega
      simp [h1, h3]
  | case2 c hc =>
    rw [encParts, if_neg hc]
    have : ¬ (dataFrom % 8 + c ≤ k ∧ k < dataFrom % 8 + chunk) := by omega
    simp only [List.foldl_nil]
    by_cases h1 : dataFrom % 8 + c ≤ k
    · have : ¬ k < dataFrom % 8 + chunk := by omega
      simp [this]
    · simp [h1]

theorem evalParts_spec {w : Nat} (fd : Nat → BitVec w) (hw : 8 ≤ w)
    (fieldFrom dataFrom chunk : Nat) (hchunk : dataFrom % 8 + chunk ≤ 8) (k : Nat) (hk : k < 8) :
    (evalParts fd (encParts fieldFrom dataFrom chunk 0)).getLsbD k =
      (decide (dataFrom % 8 ≤ k) && decide (k < dataFrom % 8 + chunk) &&
        srcBit fd (fieldFrom + (k - dataFrom % 8))) := by
  unfold evalParts
  rw [evalParts_acc fd hw _ _ _ _ hchunk _ _ hk]
  simp

/-- One emitted encode statement writes exactly the bits of its chunk. -/
theorem encStmt_exec {w : Nat} (fd : Nat → BitVec w) (hw : 8 ≤ w) (base fieldFrom dataFrom chunk : Nat)
    (hchunk : dataFrom % 8 + chunk ≤ 8) (d : Buf) (hd : base + dataFrom / 8 < d.length) :
    ∃ d', EncStmt.exec fd base d
        ⟨dataFrom / 8, (2 ^ chunk - 1) <<< (dataFrom % 8), encParts fieldFrom dataFrom chunk 0⟩ = some d' ∧
      WritesBits d d' (8 * base + dataFrom) chunk (fun j => srcBit fd (fieldFrom + j)) := by
  unfold EncStmt.exec
  simp only [rd_eq_some hd, Buf.wr, hd, if_true, Option.bind_eq_bind, Option.bind_some]
  refine ⟨_, rfl, by simp, fun i => ?_⟩
  rw [bitAt_set hd]
  have hm : ∀ k, k < 8 → (BitVec.ofNat 64 ((2 ^ chunk - 1) <<< (dataFrom % 8))).getLsbD k =
      (decide (dataFrom % 8 ≤ k) && decide (k < dataFrom % 8 + chunk)) := by
    intro k hk
    rw [BitVec.getLsbD_ofNat, Nat.testBit_shiftLeft, Nat.testBit_two_pow_sub_one]
    have : k < 64 := by omega
    by_cases a : dataFrom % 8 ≤ k
    · by_cases b : k - dataFrom % 8 < chunk
      · have : k < dataFrom % 8 + chunk := by omega
        simp [*]
      · have : ¬ k < dataFrom % 8 + chunk := by omega
        simp [*]
    · simp [a]
  by_cases h8 : i / 8 = base + dataFrom / 8
  · rw [if_pos h8]
    have hk : i % 8 < 8 := by omega
    have hk64 : i % 8 < 64 := by omega
    have e3 : 8 * (base + dataFrom / 8) + i % 8 = i := by omega
    rw [BitVec.getLsbD_setWidth, BitVec.getLsbD_or, BitVec.getLsbD_and, BitVec.getLsbD_and,
      BitVec.getLsbD_not, BitVec.getLsbD_setWidth, BitVec.getLsbD_setWidth, hm _ hk,
      getLsbD_getD _ _ _ hk, e3, evalParts_spec fd hw _ _ _ hchunk _ hk]
    by_cases a : dataFrom % 8 ≤ i % 8 ∧ i % 8 < dataFrom % 8 + chunk
    · rw [if_pos (by omega)]
      have e4 : i - (8 * base + dataFrom) = i % 8 - dataFrom % 8 := by omega
      simp [a.1, a.2, hk, hk64, e4]
    · rw [if_neg (by omega)]
      by_cases a1 : dataFrom % 8 ≤ i % 8
      · have : ¬ i % 8 < dataFrom % 8 + chunk := fun h => a ⟨a1, h⟩
        simp [this, hk, hk64]
      · simp [a1, hk, hk64]
  · rw [if_neg h8, if_neg (by omega)]

theorem execEnc_from {w : Nat} (fd : Nat → BitVec w) (hw : 8 ≤ w) (base start n fieldFrom : Nat)
    (hf : fieldFrom ≤ n) (d : Buf) (hd : 8 * base + start + n ≤ 8 * d.length) :
    ∃ d', execEnc fd base (encStmtsFrom start n fieldFrom) d = some d' ∧
      WritesBits d d' (8 * base + start + fieldFrom) (n - fieldFrom) (fun j => srcBit fd (fieldFrom + j)) := by
  induction fieldFrom using encStmtsFrom.induct (start := start) (n := n) generalizing d with
  | case1 ff hlt df chunk ih =>
    rw [encStmtsFrom, if_pos hlt]
    have hdf : df = start + ff := rfl
    have hch : chunk = min (n - ff) (8 - df % 8) := rfl
    obtain ⟨d1, h1, w1⟩ := encStmt_exec fd hw base ff df chunk (by omega) d (by omega)
    obtain ⟨d2, h2, w2⟩ := ih (by omega) d1 (by rw [w1.1]; exact hd)
    refine ⟨d2, ?_, ?_⟩
    · unfold execEnc at *
      rw [List.foldlM_cons, h1]
      exact h2
    · have e : n - ff = chunk + (n - (ff + chunk)) := by omega
      rw [e]
      refine WritesBits.trans (d' := d1) (f := fun j => srcBit fd (ff + j)) ?_ ?_
      · have : 8 * base + start + ff = 8 * base + df := by omega
        rw [this]; exact w1
      · have : 8 * base + start + ff + chunk = 8 * base + start + (ff + chunk) := by omega
        rw [this]
        exact w2.congr (fun j _ => by show srcBit fd _ = srcBit fd _; congr 1; omega)
  | case2 ff hlt =>
    rw [encStmtsFrom, if_neg hlt]
    have : n - ff = 0 := by omega
    rw [this]
    exact ⟨d, rfl, WritesBits.refl _ _ _⟩

/-- The statements of one field write exactly bits `[start, start+n)` (relative to `base`). -/
theorem execEnc_spec {w : Nat} (fd : Nat → BitVec w) (hw : 8 ≤ w) (base start n : Nat)
    (d : Buf) (hd : 8 * base + start + n ≤ 8 * d.length) :
    ∃ d', execEnc fd base (encStmts start n) d = some d' ∧
      WritesBits d d' (8 * base + start) n (srcBit fd) := by
  obtain ⟨d', h, w'⟩ := execEnc_from fd hw base start n 0 (Nat.zero_le _) d hd
  refine ⟨d', h, ?_⟩
  exact w'.congr (fun j _ => by show srcBit fd _ = srcBit fd _; congr 1; omega)

theorem srcBit_fieldData {w : Nat} (big : Bool) (n : Nat) (x : BitVec w) (j : Nat) :
    srcBit (fieldData big n x) j = x.getLsbD (valueBit big n j) := by
  cases big
  · simp only [srcBit, fieldData, valueBit_le, Bool.false_eq_true, if_false,
      BitVec.getLsbD_ushiftRight]
    congr 1; omega
  · simp only [srcBit, fieldData, valueBit_be, if_true, BitVec.getLsbD_ushiftRight]
    congr 1
    split <;> omega

theorem encField_spec {w : Nat} (big : Bool) (start n : Nat) (x : BitVec w) (hw : 8 ≤ w) (base : Nat)
    (d : Buf) (hd : 8 * base + start + n ≤ 8 * d.length) :
    ∃ d', encField big start n x base d = some d' ∧
      WritesBits d d' (8 * base + start) n (fun j => x.getLsbD (valueBit big n j)) := by
  obtain ⟨d', h, w'⟩ := execEnc_spec (fieldData big n x) hw base start n d hd
  exact ⟨d', h, w'.congr (fun j _ => srcBit_fieldData big n x j)⟩

/-! ### Decode statements -/

theorem evalDecParts_acc (base start fieldFrom chunk c : Nat) (hchunk : chunk ≤ 8) (d : Buf)
    (hd : 8 * base + start + fieldFrom + chunk ≤ 8 * d.length) (acc : Byte) :
    ∃ e, (decParts start fieldFrom chunk c).foldlM
        (fun acc p => do let v ← DecPart.eval base d p; some (acc ||| v)) acc = some e ∧
      ∀ k, k < 8 → e.getLsbD k = (acc.getLsbD k || (decide (c ≤ k) && decide (k < chunk) &&
        bitAt d (8 * base + start + fieldFrom + k))) := by
  induction c using decParts.induct (chunkSize := chunk) (fieldFrom := fieldFrom) (start := start)
    generalizing acc with
  | case1 c hc db ps ih =>
    have hdb : db = start + fieldFrom + c := rfl
    have hps : ps = min (chunk - c) (8 - db % 8) := rfl
    rw [decParts, if_pos hc]
    have hlt : base + db / 8 < d.length := by omega
    simp only [List.foldlM_cons, DecPart.eval, Option.bind_eq_bind]
    have : d.rd (base + (start + fieldFrom + c) / 8) = some (d.getD (base + db / 8) 0#8) := rd_eq_some hlt
    rw [this]
    simp only [Option.bind_some]
    obtain ⟨e, h1, h2⟩ := ih (acc ||| ((d.getD (base + db / 8) 0#8 >>> (db % 8)) &&&
      BitVec.ofNat 8 (2 ^ ps - 1)) <<< c)
    refine ⟨e, h1, fun k hk => ?_⟩
    rw [h2 k hk, BitVec.getLsbD_or, Bool.or_assoc]
    congr 1
    simp only [BitVec.getLsbD_shiftLeft, BitVec.getLsbD_and, BitVec.getLsbD_ushiftRight,
      BitVec.getLsbD_ofNat, Nat.testBit_two_pow_sub_one]
    by_cases h1 : c ≤ k
    · have h1' : ¬ k < c := by omega
      have h8 : k - c < 8 := by omega
      by_cases h3 : k < c + ps
      · have h4 : ¬ c + ps ≤ k := by omega
        have h5 : k - c < ps := by omega
        have h6 : k < chunk := by omega
        rw [getLsbD_getD _ _ _ (by omega)]
        have e : 8 * (base + db / 8) + (db % 8 + (k - c)) = 8 * base + start + fieldFrom + k := by omega
        simp only [h1, h1', h3, h4, h5, h6, h8, hk, e, decide_true, decide_false, Bool.true_and, Bool.false_and,
          Bool.and_true, Bool.or_false, Bool.not_false]
      · have h4 : c + ps ≤ k := by omega
        have h5 : ¬ k - c < ps := by omega
        simp [h1, h1', h4, h5, h8, hk]
    · have h1' : k < c := by omega
      have : ¬ c + ps ≤ k := by omega
      simp [h1, h1', this]
  | case2 c hc =>
    rw [decParts, if_neg hc]
    refine ⟨acc, rfl, fun k hk => ?_⟩
    by_cases h1 : c ≤ k
    · have : ¬ k < chunk := by omega
      simp [this]
    · simp [h1]

theorem evalDecParts_spec (base start fieldFrom chunk : Nat) (hchunk : chunk ≤ 8) (d : Buf)
    (hd : 8 * base + start + fieldFrom + chunk ≤ 8 * d.length) :
    ∃ e, evalDecParts base d (decParts start fieldFrom chunk 0) = some e ∧
      ∀ k, k < 8 → e.getLsbD k = (decide (k < chunk) && bitAt d (8 * base + start + fieldFrom + k)) := by
  obtain ⟨e, h1, h2⟩ := evalDecParts_acc base start fieldFrom chunk 0 hchunk d hd 0#8
  exact ⟨e, h1, fun k hk => by rw [h2 k hk]; simp⟩

theorem decShift_valueBit (big : Bool) (n j : Nat) : decShift big n (j / 8) + j % 8 = valueBit big n j := by
  cases big
  · simp [decShift, valueBit]; omega
  · rw [valueBit_be]
    simp only [decShift, if_true]
    split <;> omega

/-- State of the target variable after the chunks before `fieldFrom`. -/
def ReadsPrefix {w : Nat} (d : Buf) (pos n m : Nat) (big : Bool) (x : BitVec w) : Prop :=
  (∀ j, j < m → x.getLsbD (valueBit big n j) = bitAt d (pos + j)) ∧
  (∀ k, (∀ j, j < m → valueBit big n j ≠ k) → x.getLsbD k = false)

theorem decStmt_step {w : Nat} (big : Bool) (n base start ff : Nat) (d : Buf) (x : BitVec w)
    (hnw : n ≤ w) (hff : ff < n) (h8 : ff % 8 = 0)
    (hd : 8 * base + start + n ≤ 8 * d.length)
    (hx : ff ≠ 0 → ReadsPrefix d (8 * base + start) n ff big x) :
    ∃ y, DecStmt.exec big n base d x ⟨ff / 8, decParts start ff (min 8 (n - ff)) 0⟩ = some y ∧
      ReadsPrefix d (8 * base + start) n (min n (ff + 8)) big y := by
  obtain ⟨e, h1, h2⟩ := evalDecParts_spec base start ff (min 8 (n - ff)) (by omega) d (by omega)
  unfold DecStmt.exec
  rw [h1]
  simp only [Option.bind_eq_bind, Option.bind_some]
  -- bits of the new term
  have ht : ∀ k, ((e.setWidth w) <<< decShift big n (ff / 8)).getLsbD k =
      (decide (k < w) && decide (decShift big n (ff / 8) ≤ k) && decide (k - decShift big n (ff / 8) < min 8 (n - ff)) &&
        bitAt d (8 * base + start + ff + (k - decShift big n (ff / 8)))) := by
    intro k
    simp only [BitVec.getLsbD_shiftLeft, BitVec.getLsbD_setWidth]
    by_cases a : k < decShift big n (ff / 8)
    · have : ¬ decShift big n (ff / 8) ≤ k := by omega
      simp [a, this]
    · have a' : decShift big n (ff / 8) ≤ k := by omega
      by_cases b : k - decShift big n (ff / 8) < 8
      · rw [h2 _ b]
        by_cases c : k < w
        · have : k - decShift big n (ff / 8) < w := by omega
          simp only [a, a', c, this, decide_true, decide_false, Bool.not_false, Bool.true_and]
        · simp [c]
      · rw [BitVec.getLsbD_of_ge e _ (by omega)]
        have : ¬ k - decShift big n (ff / 8) < min 8 (n - ff) := by omega
        simp [this]
  have hvb : ∀ j, ff ≤ j → j < min n (ff + 8) → valueBit big n j = decShift big n (ff / 8) + (j - ff) := by
    intro j hj1 hj2
    rw [← decShift_valueBit]
    have : j / 8 = ff / 8 := by omega
    rw [this]; omega
  have htnew : ∀ j, ff ≤ j → j < min n (ff + 8) →
      ((e.setWidth w) <<< decShift big n (ff / 8)).getLsbD (valueBit big n j) = bitAt d (8 * base + start + j) := by
    intro j hj1 hj2
    have hl := valueBit_lt (big := big) (n := n) (j := j) (by omega)
    rw [ht]
    rw [hvb j hj1 hj2] at hl ⊢
    have e1 : decShift big n (ff / 8) + (j - ff) - decShift big n (ff / 8) = j - ff := by omega
    have e2 : j - ff < min 8 (n - ff) := by omega
    have e3 : 8 * base + start + ff + (j - ff) = 8 * base + start + j := by omega
    have e4 : decShift big n (ff / 8) + (j - ff) < w := by omega
    rw [e1, e3]
    simp [e2, e4]
  have htold : ∀ k, (∀ j, ff ≤ j → j < min n (ff + 8) → valueBit big n j ≠ k) →
      ((e.setWidth w) <<< decShift big n (ff / 8)).getLsbD k = false := by
    intro k hk
    rw [ht]
    by_cases a : decShift big n (ff / 8) ≤ k ∧ k - decShift big n (ff / 8) < min 8 (n - ff)
    · exfalso
      apply hk (ff + (k - decShift big n (ff / 8))) (by omega) (by omega)
      rw [hvb _ (by omega) (by omega)]; omega
    · by_cases b : decShift big n (ff / 8) ≤ k
      · have : ¬ k - decShift big n (ff / 8) < min 8 (n - ff) := fun h => a ⟨b, h⟩
        simp [this]
      · simp [b]
  by_cases h0 : ff / 8 = 0
  · have hff0 : ff = 0 := by omega
    rw [if_pos h0]
    refine ⟨_, rfl, fun j hj => htnew j (by omega) hj, fun k hk => htold k (fun j _ hj => hk j hj)⟩
  · rw [if_neg h0]
    obtain ⟨p1, p2⟩ := hx (by omega)
    refine ⟨_, rfl, fun j hj => ?_, fun k hk => ?_⟩
    · rw [BitVec.getLsbD_or]
      by_cases a : j < ff
      · rw [p1 j a, htold _ (fun i hi1 hi2 he => by
          have := valueBit_inj (by omega) (by omega) he; omega)]
        simp
      · rw [htnew j (by omega) hj, p2 _ (fun i hi he => by
          have := valueBit_inj (by omega) (by omega) he; omega)]
        simp
    · rw [BitVec.getLsbD_or, p2 k (fun j hj => hk j (by omega)), htold k (fun j _ hj => hk j hj)]
      simp

theorem decStmts_from {w : Nat} (big : Bool) (n base start ff : Nat) (d : Buf) (x : BitVec w)
    (hnw : n ≤ w) (hn0 : 0 < n) (h8 : ff % 8 = 0) (hd : 8 * base + start + n ≤ 8 * d.length)
    (hx : ff ≠ 0 → ReadsPrefix d (8 * base + start) n (min n ff) big x) :
    ∃ y, (decStmtsFrom start n ff).foldlM (DecStmt.exec big n base d) x = some y ∧
      ReadsPrefix d (8 * base + start) n n big y := by
  induction ff using decStmtsFrom.induct (n := n) generalizing x with
  | case1 ff hlt ih =>
    rw [decStmtsFrom, if_pos hlt]
    obtain ⟨y, h1, h2⟩ := decStmt_step big n base start ff d x hnw hlt h8 hd
      (fun h => by have := hx h; rwa [Nat.min_eq_right (by omega)] at this)
    obtain ⟨z, h3, h4⟩ := ih y (by omega) (fun _ => h2)
    refine ⟨z, ?_, h4⟩
    rw [List.foldlM_cons, h1]; exact h3
  | case2 ff hlt =>
    rw [decStmtsFrom, if_neg hlt]
    have := hx (by omega)
    rw [Nat.min_eq_left (by omega)] at this
    exact ⟨x, rfl, this⟩

/-- The decode statements of a field read exactly bits `[start, start+n)` into the variable,
whatever the variable held before. -/
theorem decField_spec {w : Nat} (big : Bool) (start n base : Nat) (d : Buf) (x0 : BitVec w)
    (hnw : n ≤ w) (hn0 : 0 < n) (hd : 8 * base + start + n ≤ 8 * d.length) :
    ∃ y, decField big start n base d x0 = some y ∧ ReadsBits d (8 * base + start) n big y := by
  obtain ⟨y, h1, h2, h3⟩ := decStmts_from big n base start 0 d x0 hnw hn0 rfl hd (fun h => absurd rfl h)
  refine ⟨y, h1, h2, fun k hk => h3 k (fun j hj he => ?_)⟩
  have := valueBit_lt (big := big) hj
  omega

end Bubbler
