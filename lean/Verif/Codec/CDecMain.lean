import Verif.Codec.CEncMain
import Verif.Codec.DecMain

set_option linter.unusedSimpArgs false
namespace Bubbler

/-! ### Fixed-width fields: the C decoder computes what the Go decoder computes -/

theorem cDecStmt_value (base start n ff : Nat) (hff : ff < n) (d : Buf)
    (hd : 8 * base + start + n ≤ 8 * d.length) :
    ∃ e, (cDecStmt start (start + n) (start + ff)).value base d = some e ∧
      ∀ k, e.getLsbD k = (decide (k < min 8 (n - ff)) && bitAt d (8 * base + start + ff + k)) := by
  generalize hi : start + ff = i
  generalize hE : min (start + n) (i + 8) = E
  have hEi : i < E ∧ E ≤ i + 8 ∧ 8 * base + E ≤ 8 * d.length := by omega
  have hmin : min 8 (n - ff) = E - i := by omega
  rw [hmin]
  have e0 : 8 * base + start + ff = 8 * base + i := by omega
  rw [e0]
  have hz : ∀ (x : Byte) (p : Nat), (x.setWidth 64).getLsbD p = x.getLsbD p := by
    intro x p
    rw [BitVec.getLsbD_setWidth]
    by_cases hp : p < 64
    · simp [hp]
    · rw [BitVec.getLsbD_of_ge x p (by omega)]; simp
  have hlt1 : base + i / 8 < d.length := by omega
  simp only [CDec.value, cDecStmt, hE]
  by_cases hsec : 8 * (i / 8 + 1) < E
  · have hs : min E (8 * (i / 8 + 1)) = 8 * (i / 8 + 1) := by omega
    have hlt2 : base + 8 * (i / 8 + 1) / 8 < d.length := by omega
    have e1 : (8 * (i / 8 + 1) - 1) % 8 + 1 = 8 := by omega
    have e2 : 8 * (i / 8 + 1) % 8 = 0 := by omega
    have e3 : (E - 1) % 8 + 1 = E % 8 ∨ ((E - 1) % 8 + 1 = 8 ∧ E % 8 = 0) := by omega
    have e4 : 8 * (i / 8 + 1) / 8 = i / 8 + 1 := by omega
    have e5 : (E - 1) % 8 + 1 = E % 8 := by omega
    simp only [hs, hsec, if_true, rd_eq_some hlt1, rd_eq_some hlt2, Option.bind_eq_bind, Option.bind_some, e1, e2]
    refine ⟨_, rfl, fun k => ?_⟩
    rw [BitVec.getLsbD_or, BitVec.getLsbD_ushiftRight, BitVec.getLsbD_and, BitVec.getLsbD_shiftLeft,
      BitVec.getLsbD_and, hz, hz, cMask_getLsbD _ _ (by omega) (by omega), cMask_getLsbD _ _ (by omega) (by omega), e4, e5]
    have hsh : E - i - E % 8 = 8 - i % 8 := by omega
    rw [hsh]
    by_cases h1 : k < 8 - i % 8
    · have h2 : i % 8 + k < 8 := by omega
      have h3 : k < E - i := by omega
      rw [getLsbD_getD _ _ _ h2]
      have e6 : 8 * (base + i / 8) + (i % 8 + k) = 8 * base + i + k := by omega
      simp [h1, h2, h3, e6]
    · have h2 : ¬ i % 8 + k < 8 := by omega
      by_cases h3 : k < E - i
      · have h4 : k - (8 - i % 8) < E % 8 := by omega
        have h5 : k < 64 := by omega
        rw [getLsbD_getD _ _ (k - (8 - i % 8)) (by omega)]
        have e6 : 8 * (base + (i / 8 + 1)) + (k - (8 - i % 8)) = 8 * base + i + k := by omega
        simp [h1, h2, h3, h4, h5, e6]
      · have h4 : ¬ k - (8 - i % 8) < E % 8 := by omega
        simp [h1, h2, h3, h4]
  · have hs : min E (8 * (i / 8 + 1)) = E := by omega
    have e5 : (E - 1) % 8 + 1 = i % 8 + (E - i) := by omega
    simp only [hs, Nat.lt_irrefl, if_false, rd_eq_some hlt1, Option.bind_eq_bind, Option.bind_some]
    refine ⟨_, rfl, fun k => ?_⟩
    rw [BitVec.getLsbD_ushiftRight, BitVec.getLsbD_and, hz, cMask_getLsbD _ _ (by omega) (by omega), e5]
    by_cases h3 : k < E - i
    · rw [getLsbD_getD _ _ _ (by omega)]
      have e6 : 8 * (base + i / 8) + (i % 8 + k) = 8 * base + i + k := by omega
      have h4 : i % 8 + k < i % 8 + (E - i) := by omega
      simp [h3, h4, e6]
    · have h4 : ¬ i % 8 + k < i % 8 + (E - i) := by omega
      simp [h3, h4]

/-- One C decode statement computes what one Go decode statement computes. -/
theorem cDecStmt_exec {w : Nat} (big : Bool) (base start n ff : Nat) (hff : ff < n) (d : Buf)
    (hd : 8 * base + start + n ≤ 8 * d.length) (x : BitVec w) :
    CDec.exec big n base d x (cDecStmt start (start + n) (start + ff)) =
      DecStmt.exec big n base d x ⟨ff / 8, decParts start ff (min 8 (n - ff)) 0⟩ := by
  obtain ⟨e, h1, h2⟩ := cDecStmt_value base start n ff hff d hd
  obtain ⟨e', h1', h2'⟩ := evalDecParts_spec base start ff (min 8 (n - ff)) (by omega) d (by omega)
  have hidx : (cDecStmt start (start + n) (start + ff)).idx = ff / 8 := by
    simp only [cDecStmt]; congr 1; omega
  have he : e.setWidth w = e'.setWidth w := by
    apply BitVec.eq_of_getLsbD_eq
    intro k hk
    rw [BitVec.getLsbD_setWidth, BitVec.getLsbD_setWidth, h2 k]
    by_cases h8 : k < 8
    · rw [h2' k h8]
    · rw [BitVec.getLsbD_of_ge e' k (by omega)]
      have : ¬ k < min 8 (n - ff) := by omega
      simp [this]
  simp only [CDec.exec, DecStmt.exec, h1, h1', hidx, Option.bind_eq_bind, Option.bind_some, he]

theorem cDecStmts_fold {w : Nat} (big : Bool) (base start n ff : Nat) (d : Buf)
    (hd : 8 * base + start + n ≤ 8 * d.length) (x : BitVec w) :
    (cDecStmtsFrom start (start + n) (start + ff)).foldlM (CDec.exec big n base d) x =
      (decStmtsFrom start n ff).foldlM (DecStmt.exec big n base d) x := by
  induction ff using decStmtsFrom.induct (n := n) generalizing x with
  | case1 ff hlt ih =>
    rw [cDecStmtsFrom, if_pos (by omega), decStmtsFrom, if_pos hlt]
    simp only [List.foldlM_cons, cDecStmt_exec big base start n ff hlt d hd]
    congr 1
    funext y
    rw [Nat.add_assoc]
    exact ih y
  | case2 ff hlt =>
    rw [cDecStmtsFrom, if_neg (by omega), decStmtsFrom, if_neg hlt]
    rfl

/-- The emitted C decode statements compute what the Go statements compute. -/
theorem cDecField_eq {w : Nat} (big : Bool) (start n base : Nat) (d : Buf) (x0 : BitVec w)
    (hd : 8 * base + start + n ≤ 8 * d.length) :
    cDecField big start n base d x0 = decField big start n base d x0 :=
  cDecStmts_fold big base start n 0 d hd x0

theorem cRead_fold (big : Bool) (start n ff : Nat) (d : Buf) (hff : 0 < ff / 8) (x : BitVec 64) :
    (cDecStmtsFrom start (start + n) (start + ff)).foldlM (fun out s => do
      let e ← CDec.value 0 d s
      some (out ||| (e <<< decShift big n s.idx))) x =
    (cDecStmtsFrom start (start + n) (start + ff)).foldlM (CDec.exec big n 0 d) x := by
  induction ff using decStmtsFrom.induct (n := n) generalizing x with
  | case1 ff hlt ih =>
    rw [cDecStmtsFrom, if_pos (by omega)]
    have hidx : (cDecStmt start (start + n) (start + ff)).idx = ff / 8 := by
      simp only [cDecStmt]; congr 1; omega
    have hstep : CDec.exec big n 0 d x (cDecStmt start (start + n) (start + ff)) =
        (do let e ← CDec.value 0 d (cDecStmt start (start + n) (start + ff))
            some (x ||| (e <<< decShift big n (cDecStmt start (start + n) (start + ff)).idx))) := by
      simp only [CDec.exec, hidx, if_neg (show ¬ ff / 8 = 0 by omega), BitVec.setWidth_eq]
    simp only [List.foldlM_cons, hstep]
    congr 1
    funext y
    rw [Nat.add_assoc]
    exact ih (by omega) y
  | case2 ff hlt =>
    rw [cDecStmtsFrom, if_neg (by omega)]
    rfl

theorem cReadFieldBits_field (d : Buf) (pos n : Nat) (big : Bool) :
    cReadFieldBits d pos n big = cDecField big pos n 0 d (0#64) := by
  unfold cReadFieldBits cDecField cDecStmts
  by_cases hn : 0 < n
  · rw [cDecStmtsFrom, if_pos (by omega)]
    have hidx : (cDecStmt pos (pos + n) pos).idx = 0 := by
      simp [cDecStmt]
    simp only [List.foldlM_cons, CDec.exec, hidx, if_true, BitVec.setWidth_eq, BitVec.zero_or]
    congr 1
    funext y
    exact cRead_fold big pos n 8 d (by omega) y
  · rw [cDecStmtsFrom, if_neg (by omega)]
    rfl

/-- The C helper reads what the Go helper reads. -/
theorem cReadFieldBits_eq (d : Buf) (pos n : Nat) (big : Bool) (hn0 : 0 < n) (hn : n ≤ 64)
    (h : pos + n ≤ 8 * d.length) : cReadFieldBits d pos n big = bbReadFieldBits d pos n big := by
  rw [cReadFieldBits_field, cDecField_eq big pos n 0 d _ (by omega)]
  obtain ⟨y, e, r⟩ := decField_spec big pos n 0 d (0#64) hn hn0 (by omega)
  obtain ⟨v, e', r'⟩ := bbReadFieldBits_spec d pos n big hn h
  have e0 : 8 * 0 + pos = pos := by omega
  rw [e0] at r
  rw [e, e', r.unique r']

theorem cLoopInt_eq (m : SignExt) {w n : Nat} (hn0 : 0 < n) (hnw : n ≤ w) (hw : w ≤ 64) (v : BitVec 64)
    (hv : ∀ k, n ≤ k → v.getLsbD k = false) : cLoopInt m w n v = (v.setWidth n).signExtend w := by
  have hz : ∀ k, n ≤ k → (v.setWidth w).getLsbD k = false := by
    intro k hk; rw [BitVec.getLsbD_setWidth, hv k hk]; simp
  have hsw : (v.setWidth w).setWidth n = v.setWidth n := by
    apply BitVec.eq_of_getLsbD_eq
    intro k hk
    simp only [BitVec.getLsbD_setWidth, hk, decide_true, Bool.true_and]
    have : k < w := by omega
    simp [this]
  unfold cLoopInt
  by_cases h : w ≤ n
  · rw [if_pos h]
    have : n = w := by omega
    subst this
    simp
  · rw [if_neg h]
    have hsh : signExtShift n (v.setWidth w) = (v.setWidth n).signExtend w := by
      rw [signExtShift_eq hn0 hnw, hsw]
    have har : (v ^^^ (1#64 <<< (n - 1))).setWidth w - (1#w <<< (n - 1)) = (v.setWidth n).signExtend w := by
      have e : (v ^^^ (1#64 <<< (n - 1))).setWidth w = v.setWidth w ^^^ (1#w <<< (n - 1)) := by
        apply BitVec.eq_of_getLsbD_eq
        intro k hk
        simp only [BitVec.getLsbD_setWidth, BitVec.getLsbD_xor, BitVec.getLsbD_shiftLeft, BitVec.getLsbD_one, hk,
          decide_true, Bool.true_and]
        have : k < 64 := by omega
        have h0 : 0 < w := by omega
        simp [this, h0]
      have := signExtArith_eq hn0 hnw (v.setWidth w) hz
      unfold signExtArith at this
      rw [e, this, hsw]
    cases m <;> simp only <;> assumption

/-- Conversion of a loop value: the same in both languages. -/
theorem Sc.cOfU64_eq (m m' : SignExt) {s : Sc} {n : Nat} (h : s.wf n = true) (v : BitVec 64)
    (hv : ∀ k, n ≤ k → v.getLsbD k = false) : s.cOfU64 m n v = s.ofU64 m' n v := by
  have hf := Sc.wf_facts h
  unfold Sc.cOfU64 Sc.ofU64
  split
  · rfl
  · split
    · rw [cLoopInt_eq m hf.1 hf.2.1 hf.2.2.2.1 v hv]
      unfold loopInt
      by_cases c : 64 ≤ n
      · rw [if_pos c]
        have hn : n = 64 := by omega
        have hw : s.width = 64 := by omega
        subst hn
        rw [hw]; simp
      · rw [if_neg c]
        cases m' <;> simp only
        · rw [signExtArith_eq hf.1 (by omega) v hv, setWidth_signExtend _ hf.2.1 hf.2.2.2.1]
        · rw [signExtShift_eq hf.1 (by omega), setWidth_signExtend _ hf.2.1 hf.2.2.2.1]
        · rw [signExtArith_eq hf.1 (by omega) v hv, setWidth_signExtend _ hf.2.1 hf.2.2.2.1]
    · rfl

/-! ### Byte sequences -/

theorem cDecLen_varint (k : Nat) (d : Buf) (n : Nat) : ∀ (a shift off : Nat), a < 2 ^ shift →
    n * 2 ^ shift < 2 ^ 31 → shift ≤ 28 → shift % 7 = 0 →
    (d.drop (off + k)).take (varint n).length = varint n →
    cDecLen k d (BitVec.ofNat 64 a) shift off =
      .ok (BitVec.ofNat 64 (a + n * 2 ^ shift), off + (varint n).length) := by
  have hmod : ∀ m s, m < 128 → s ≤ 28 → BitVec.ofNat 64 (m * 2 ^ s) = (BitVec.ofNat 8 m).setWidth 64 <<< s := by
    intro m s hm hs
    have hp : (2 : Nat) ^ s ≤ 2 ^ 28 := Nat.pow_le_pow_right (by omega) hs
    have : m * 2 ^ s ≤ 128 * 2 ^ 28 := Nat.mul_le_mul (by omega) hp
    have h64 : (128 : Nat) * 2 ^ 28 < 2 ^ 64 := by decide
    apply BitVec.eq_of_toNat_eq
    simp only [BitVec.toNat_ofNat, BitVec.toNat_shiftLeft, BitVec.toNat_setWidth, Nat.shiftLeft_eq]
    rw [Nat.mod_eq_of_lt (show m < 2 ^ 8 by omega), Nat.mod_eq_of_lt (show m < 2 ^ 64 by omega)]
  induction n using varint.induct with
  | case1 n hn =>
    intro a shift off ha hlt hs h7 hv
    have e : varint n = [BitVec.ofNat 8 n] := by rw [varint, if_pos hn]
    rw [e] at hv ⊢
    obtain ⟨t1, t2, t3, t4⟩ := testHi n hn
    rw [cDecLen]
    split
    · rename_i h; rw [rd_of_bytes hv] at h; cases h
    · rename_i b h
      rw [rd_of_bytes hv] at h
      cases h
      have hnat : (BitVec.ofNat 8 n).toNat = n := by rw [BitVec.toNat_ofNat]; exact Nat.mod_eq_of_lt (by omega)
      rw [t3, hnat, if_neg (by omega), if_pos t1, hmod n shift hn hs, acc_step ha hn (by omega)]
      rfl
  | case2 n hn ih =>
    intro a shift off ha hlt hs h7 hv
    have e : varint n = BitVec.ofNat 8 (n % 128 + 128) :: varint (n / 128) := by
      rw [varint, if_neg hn]
    rw [e] at hv ⊢
    obtain ⟨t1, t2, t3, t4⟩ := testHi (n % 128) (by omega)
    have h0 : 0 < 2 ^ shift := Nat.two_pow_pos shift
    have hsplit : n * 2 ^ shift = n % 128 * 2 ^ shift + n / 128 * 2 ^ (shift + 7) := by
      have h128 : (2 : Nat) ^ (shift + 7) = 128 * 2 ^ shift := by rw [Nat.pow_add, Nat.mul_comm]
      have h3 : n * 2 ^ shift = (128 * (n / 128) + n % 128) * 2 ^ shift := by rw [Nat.div_add_mod]
      rw [h128, h3, Nat.add_mul, ← Nat.mul_assoc, Nat.mul_comm (n / 128) 128]
      omega
    have h1 : 1 ≤ n / 128 := by omega
    have h2 : 2 ^ (shift + 7) ≤ n / 128 * 2 ^ (shift + 7) := Nat.le_mul_of_pos_left _ h1
    have hs2 : shift + 7 ≤ 28 := by
      by_cases c : shift + 7 ≤ 30
      · omega
      · have : (2:Nat) ^ 31 ≤ 2 ^ (shift + 7) := Nat.pow_le_pow_right (by omega) (by omega)
        omega
    rw [cDecLen]
    split
    · rename_i h; rw [rd_of_bytes hv] at h; cases h
    · rename_i b h
      rw [rd_of_bytes hv] at h
      cases h
      have hnat : (BitVec.ofNat 8 (n % 128)).toNat = n % 128 := by
        rw [BitVec.toNat_ofNat]; exact Nat.mod_eq_of_lt (by omega)
      have hv2 : (d.drop (off + 1 + k)).take (varint (n / 128)).length = varint (n / 128) := by
        have h1 : ((d.drop (off + k)).take ((varint (n / 128)).length + 1)).drop 1 =
            (BitVec.ofNat 8 (n % 128 + 128) :: varint (n / 128)).drop 1 := by
          rw [List.length_cons] at hv; rw [hv]
        rw [List.drop_take, List.drop_drop] at h1
        have e1 : off + 1 + k = off + k + 1 := by omega
        rw [e1]
        simpa using h1
      have ha2 : a + n % 128 * 2 ^ shift < 2 ^ (shift + 7) := by
        have h128 : (2 : Nat) ^ (shift + 7) = 128 * 2 ^ shift := by rw [Nat.pow_add, Nat.mul_comm]
        have : (n % 128 + 1) * 2 ^ shift ≤ 128 * 2 ^ shift := Nat.mul_le_mul_right _ (by omega)
        rw [Nat.add_mul, Nat.one_mul] at this
        omega
      rw [t4, hnat, if_neg (by omega), if_neg t2, hmod _ shift (by omega) hs, acc_step ha (by omega) (by omega),
        ih _ (shift + 7) (off + 1) ha2 (by omega) hs2 (by omega) hv2, Nat.add_assoc, ← hsplit]
      simp only [List.length_cons]
      congr 2; omega

theorem cDecBytes_agrees {d : Buf} {off k : Nat} {s : List Byte}
    (h : Agrees d (8 * (off + k)) (byteWire (varint s.length ++ s))) (hm : s.length < 2 ^ 31) :
    cDecBytes k d off = .ok (s, off + ((varint s.length).length + s.length)) := by
  have hmx : maxInt = 2 ^ 63 - 1 := rfl
  obtain ⟨_, b1, b2⟩ := scanLen_agrees h (by omega)
  rw [byteWire_append, Agrees.append] at h
  obtain ⟨a1, a2⟩ := h.1.bytes
  have := cDecLen_varint k d s.length 0 0 off (by simp) (by simpa using hm) (by omega) rfl a1
  have e : (BitVec.ofNat 64 s.length).toNat = s.length := toNat_ofNat_maxInt (by omega)
  simp only [Nat.pow_zero, Nat.mul_one, Nat.zero_add] at this
  unfold cDecBytes
  rw [this]
  simp only [Res.bind, e]
  have e2 : off + (varint s.length).length + k = off + k + (varint s.length).length := by omega
  rw [e2, if_neg (by omega), b1, Nat.add_assoc]

/-! ### Messages -/

theorem cArrElemDec_agrees (c : Cfg) (t : Ty) (rec : Nat → Nat → Nat → Res (t.Val × Nat))
    (len eb start : Nat) (big : Bool) (x : t.Val) (d : Buf)
    (hw : t.wf = true)
    (hok : ∀ i, t.elemOk true (start + i * eb) eb) (hfix : t.fixed eb = eb)
    (hst : ∀ fs, t = .struct fs → start % 8 = 0 ∧ eb % 8 = 0)
    (hval : t.Valid c false (c.useLoop len) x) (hr : t.InRange eb x)
    (hrec : ∀ st off, t.elemOk true st eb → Agrees d (8 * off + st) (t.wire eb big x) →
      ∃ o, rec st eb off = .ok (x, o) ∧ 8 * o + t.fixed eb = 8 * off + (t.wire eb big x).length)
    (i off : Nat) (hag : Agrees d (8 * off + (start + i * eb)) (t.wire eb big x)) :
    ∃ o, cArrElemDec c t rec len eb start big d i off = .ok (x, o) ∧
      8 * o + eb = 8 * off + (t.wire eb big x).length := by
  unfold cArrElemDec
  rw [hfix] at hrec
  cases hl : c.useLoop len with
  | false =>
    simp only [Bool.false_eq_true, if_false]; exact hrec _ _ (hok i) hag
  | true =>
    rw [hl] at hval
    simp only [if_true]
    cases t with
    | sc s =>
      simp only
      have h0 := hok i
      have hrep := Ty.wire_repr c (.sc s) true true big _ eb x hw h0 hval hr
      have hlen : ((Ty.sc s).wire eb big x).length = eb := scWire_length (w := s.width) eb big x
      simp only [Ty.elemOk] at h0
      have hf := Sc.wf_facts h0.1
      simp only [Ty.Repr, Bool.and_true] at hrep
      obtain ⟨v, e, ee⟩ := sc_loop_agrees (big := big) c.signExt h0.1 (8 * off + (start + i * eb)) d x _ hrep hag
      have hb : 8 * off + (start + i * eb) + eb ≤ 8 * d.length := by
        have := hag.1; rw [hlen] at this; exact this
      obtain ⟨v', e', r'⟩ := bbReadFieldBits_spec d (8 * off + (start + i * eb)) eb big (by omega) hb
      rw [e] at e'; cases e'
      refine ⟨off, ?_, by rw [hlen]⟩
      rw [cReadFieldBits_eq d _ eb big hf.1 (by omega) hb, e]
      simp only
      rw [Sc.cOfU64_eq c.signExt c.signExt h0.1 v r'.2, ee]
    | str =>
      have e : start + i * eb = start := by simp only [Ty.fixed] at hfix; rw [← hfix]; simp
      have := hok i
      rw [e] at hag this
      exact hrec _ _ this hag
    | bytes =>
      have e : start + i * eb = start := by simp only [Ty.fixed] at hfix; rw [← hfix]; simp
      have := hok i
      rw [e] at hag this
      exact hrec _ _ this hag
    | struct fs =>
      simp only
      have h0 := hok i
      by_cases hdyn : fs.dynamic = true
      · rw [if_pos hdyn]
        have e : start + i * eb = start := by simp only [Ty.fixed, hdyn, if_true] at hfix; rw [← hfix]; simp
        rw [e] at hag h0
        exact hrec _ _ h0 hag
      · rw [if_neg hdyn]
        obtain ⟨h1, h2⟩ := hst fs rfl
        have e : 8 * (start / 8 + i * (eb / 8)) = start + i * eb := by
          have : i * eb = 8 * (i * (eb / 8)) := by
            have h3 : eb = 8 * (eb / 8) := by omega
            calc i * eb = i * (8 * (eb / 8)) := by rw [← h3]
              _ = 8 * (i * (eb / 8)) := by rw [Nat.mul_left_comm]
          omega
        rw [e]
        exact hrec _ _ h0 hag

theorem All2.map {α β : Type} {R : α → β → Prop} (f : α → β) {xs : List α} (h : ∀ x ∈ xs, R x (f x)) :
    All2 R xs (xs.map f) := by
  induction xs with
  | nil => exact All2.nil
  | cons x xs ih => exact All2.cons (h x (by simp)) (ih (fun y hy => h y (by simp [hy])))

mutual
  theorem Ty.cDecElem_agrees (c : Cfg) : ∀ (t : Ty) (big arr lp : Bool) (v : t.Val)
      (start n : Nat) (d : Buf) (off : Nat),
      t.wf = true → t.elemOk arr start n → d.length < 2 ^ 31 → t.Valid c false lp v → t.InRange n v →
      Agrees d (8 * off + start) (t.wire n big v) →
      ∃ o, t.cDecElem c big arr d start n off = .ok (v, o) ∧
        8 * o + t.fixed n = 8 * off + (t.wire n big v).length
    | .sc s, big, arr, lp, (v : BitVec s.width), start, n, d, off => by
      intro _ hok _ _ hr h
      simp only [Ty.elemOk] at hok
      simp only [Ty.wire] at h
      obtain ⟨y, e, ee⟩ := sc_dec_agrees (big := big) c.signExt hok.1 hok.2 start off d
        (c.prev (s.tempWidth arr n)) v hr h
      have hb := h.1
      rw [scWire_length] at hb
      rw [← cDecField_eq big start n off d _ hb] at e
      exact ⟨off, by simp only [Ty.cDecElem, e, ee], by simp only [Ty.fixed, Ty.wire, scWire_length]⟩
    | .str, big, arr, lp, (v : List Byte), start, n, d, off => by
      intro _ hok _ _ hr h
      simp only [Ty.elemOk] at hok
      simp only [Ty.wire] at h
      have e : 8 * off + start = 8 * (off + start / 8) := by omega
      rw [e] at h
      refine ⟨_, by simp only [Ty.cDecElem]; exact decString_agrees h hr, ?_⟩
      simp only [Ty.fixed, Ty.wire, byteWire_length, List.length_append, List.length_cons, List.length_nil]
      omega
    | .bytes, big, arr, lp, (v : List Byte), start, n, d, off => by
      intro _ hok hd _ _ h
      simp only [Ty.elemOk] at hok
      simp only [Ty.wire] at h
      have e : 8 * off + start = 8 * (off + start / 8) := by omega
      rw [e] at h
      have hb := h.1
      rw [byteWire_length, List.length_append] at hb
      refine ⟨_, by simp only [Ty.cDecElem]; exact cDecBytes_agrees h (by omega), ?_⟩
      simp only [Ty.fixed, Ty.wire, byteWire_length, List.length_append]
      omega
    | .struct fs, big, arr, lp, v, start, n, d, off => by
      intro hwf hok hd hv hr h
      have hw0 := hwf
      have hwl := Ty.wire_length c false (.struct fs) arr start n big lp v hwf hok hv
      simp only [Ty.elemOk] at hok
      simp only [Ty.wf, Bool.and_eq_true, decide_eq_true_eq] at hwf
      simp only [Ty.wire] at h hwl
      have hk := h.1
      have hk' : off + start / 8 ≤ d.length := by omega
      have e : 8 * off + start = 8 * (off + start / 8) + 0 := by omega
      rw [e, ← Agrees.drop (by omega)] at h
      obtain ⟨o2, e2, l2⟩ := Fields.cDecFields_agrees c fs v 0 (d.drop (off + start / 8)) 0 hwf.1
        (by rw [List.length_drop]; omega) hv hr h
      refine ⟨(if fs.dynamic then off + (o2 + fs.sum / 8) else off), ?_, ?_⟩
      · simp only [Ty.cDecElem, Buf.from?, hk', if_true, e2]
      · simp only [Ty.fixed, Ty.wire] at hwl ⊢
        by_cases hdyn : fs.dynamic = true
        · simp only [hdyn, if_true] at hwl ⊢; omega
        · simp only [hdyn, if_false] at hwl ⊢
          have := Ty.sizeExtra_static (.struct fs) v (by simpa [Ty.dynamic] using hdyn)
          simp only [Bool.false_eq_true, if_false] at hwl ⊢
          omega
  theorem Fields.cDecFields_agrees (c : Cfg) : ∀ (fs : Fields) (v : fs.Val) (start : Nat)
      (d : Buf) (off : Nat),
      fs.wf start = true → d.length < 2 ^ 31 → fs.Valid c false v → fs.InRange v →
      Agrees d (8 * off + start) (fs.wire v) →
      ∃ o, fs.cDecFields c d start off = .ok (v, o) ∧ 8 * o + fs.sum = 8 * off + (fs.wire v).length
    | .nil, v, start, d, off => by
      intro _ _ _ _ _
      exact ⟨off, rfl, by simp [Fields.wire, Fields.sum]⟩
    | .void n r, v, start, d, off => by
      intro hw hd hv hr h
      simp only [Fields.wire] at h
      obtain ⟨h1, h2⟩ := Agrees.append.mp h
      rw [List.length_replicate, Nat.add_assoc] at h2
      obtain ⟨o, e, l⟩ := Fields.cDecFields_agrees c r v (start + n) d off (by simpa [Fields.wf] using hw)
        hd hv hr h2
      refine ⟨o, by simp only [Fields.cDecFields, e]; rfl, ?_⟩
      simp only [Fields.wire, Fields.sum, List.length_append, List.length_replicate]; omega
    | .const p n big val r, v, start, d, off => by
      intro hw hd hv hr h
      simp only [Fields.wire] at h
      obtain ⟨h1, h2⟩ := Agrees.append.mp h
      have hb := h1.1
      rw [scWire_length] at hb
      rw [scWire_length, Nat.add_assoc] at h2
      simp only [Fields.wf, Bool.and_eq_true, decide_eq_true_eq] at hw
      obtain ⟨⟨⟨⟨⟨⟨w1, w2⟩, w3⟩, w4⟩, w5⟩, w6⟩, w7⟩ := hw
      obtain ⟨y, ey, hy⟩ := const_dec (big := big) w2 w3 w5 start off d (by simpa using h1.1)
      rw [← cDecField_eq big start n off d _ hb] at ey
      obtain ⟨o, e, l⟩ := Fields.cDecFields_agrees c r v (start + n) d off w7 hd hv hr h2
      refine ⟨o, by simp only [Fields.cDecFields, ey, hy.mpr h1, if_true, e]; rfl, ?_⟩
      simp only [Fields.wire, Fields.sum, List.length_append, scWire_length]; omega
    | .one t bits big r, v, start, d, off => by
      intro hw hd hv hr h
      obtain ⟨h1, h2, h3, h4, _⟩ := wf_one hw
      obtain ⟨v1, v2⟩ := v
      obtain ⟨hv1, hv2⟩ := hv
      obtain ⟨hr1, hr2⟩ := hr
      simp only at hv1 hv2 hr1 hr2
      simp only [Fields.wire] at h
      have hgap : (if t.dynamic = true then List.replicate (bits.getD 0) none else ([] : List (Option Bool))).length =
          (if t.dynamic = true then bits.getD 0 else 0) := by split <;> simp
      obtain ⟨a12, a2⟩ := Agrees.append.mp h
      obtain ⟨a1, _⟩ := Agrees.append.mp a12
      obtain ⟨o1, e1, l1⟩ := Ty.cDecElem_agrees c t big false false v1 start (bits.getD 0) d off h1 h3 hd hv1 hr1 a1
      have e2 : 8 * off + start + (t.wire (bits.getD 0) big v1 ++
          (if t.dynamic = true then List.replicate (bits.getD 0) none else [])).length =
          8 * o1 + (start + bits.getD 0) := by
        rw [List.length_append, hgap]; omega
      rw [e2] at a2
      obtain ⟨o, e, l⟩ := Fields.cDecFields_agrees c r v2 (start + bits.getD 0) d o1 h2 hd hv2 hr2 a2
      refine ⟨o, by simp only [Fields.cDecFields, e1, e], ?_⟩
      simp only [Fields.wire, Fields.sum, List.length_append, hgap]
      omega
    | .arr t len bits big r, v, start, d, off => by
      intro hw hd hv hr h
      obtain ⟨h0, h1, h2, h3, h4, h5, h7, h6⟩ := wf_arr hw
      obtain ⟨v1, v2⟩ := v
      obtain ⟨hl, hv1, hv2⟩ := hv
      obtain ⟨hr1, hr2⟩ := hr
      simp only at hl hv1 hv2 hr1 hr2
      simp only [Fields.wire] at h
      obtain ⟨a1, a2⟩ := Agrees.append.mp h
      have hall : All2 (fun x w => x ∈ v1 ∧ w = t.wire (bits.getD 0 / len) big x) v1
          (v1.map (fun x => t.wire (bits.getD 0 / len) big x)) :=
        All2.map _ (fun x hx => ⟨hx, rfl⟩)
      obtain ⟨o1, e1, l1⟩ := decIdx_agrees (cArrElemDec c t (fun from_ n off => t.cDecElem c big true d from_ n off)
          len (bits.getD 0 / len) start big d) d (bits.getD 0 / len) start hall
        (fun x w hx i off hag => by
          obtain ⟨hx, hxw⟩ := hx
          subst hxw
          exact cArrElemDec_agrees c t _ len _ start big x d h1 h3 h4 h6 (hv1 x hx) (hr1 x hx)
            (fun st off hok hag => Ty.cDecElem_agrees c t big true _ x st _ d off h1 hok hd (hv1 x hx) (hr1 x hx) hag)
            i off hag)
        0 off (by simpa using a1)
      rw [hl] at e1 l1
      rw [h5] at l1
      have e2 : 8 * off + start + (v1.map (fun x => t.wire (bits.getD 0 / len) big x)).flatten.length =
          8 * o1 + (start + bits.getD 0) := by omega
      rw [e2] at a2
      obtain ⟨o, e, l⟩ := Fields.cDecFields_agrees c r v2 (start + bits.getD 0) d o1 h2 hd hv2 hr2 a2
      refine ⟨o, by simp only [Fields.cDecFields, e1, e], ?_⟩
      simp only [Fields.wire, Fields.sum, List.length_append]; omega
end

end Bubbler
