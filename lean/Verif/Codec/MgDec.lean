import Verif.Codec.MgEnc
import Verif.Codec.JsDec

/-
The decoding statements of Java and C# read what stands in the data (`TgtDecSpec.DecOk`).
-/
set_option linter.unusedSimpArgs false
namespace Bubbler

/-! ### What the values mean -/

/-- The attribute for a Go value: an enum attribute is a member or null in Java, its number in C#. -/
def Sc.toMg (c : MgCfg) (ctx : List Fields) : (s : Sc) → BitVec s.width → s.MgVal
  | .prim p, (x : BitVec p.width) => (if p = .bool then (if x = 0#_ then 0#_ else 1#_) else x : BitVec p.width)
  | .enum _, x => (mgEnum c ctx (x.setWidth 32) : Option (BitVec 32))

/-- Values the decoder gets right: enums of at most 32 bits; floats in loops, of a size whose variable is as wide
as the type, and in Java those that do not set the top bit of a narrower variable. -/
def Sc.mgFit (c : MgCfg) (s : Sc) (lp : Bool) (n : Nat) (x : BitVec s.width) : Prop :=
  (∀ b, s = .enum b → n ≤ 32) ∧
  (s = .prim .f32 ∨ s = .prim .f64 → lp = true ∨ goUintWidth n = s.width ∨
    (c.java = true ∧ x.toNat < 2 ^ (goUintWidth n - 1)))

/-- The length a prefix yields, from `x` and a shift on. -/
def mgLen : List Byte → BitVec 32 → Nat → BitVec 32
  | [], x, _ => x
  | b :: bs, x, shift => mgLen bs (x ||| (b &&& 0x7F#8).setWidth 32 <<< (shift % 32)) (shift + 7)

/-- Constants whose check compiles: of an integer type as wide as the variable, whole if signed, in C# unsigned. -/
def mgConstOk (c : MgCfg) (p : Prim) (n : Nat) : Bool :=
  p.isInteger && decide (goUintWidth n = p.width) && (!p.signed || (c.java && decide (n = p.width)))

def mgDecSpec (c : MgCfg) : TgtDecSpec (mgTgt c) where
  maxLen := 2 ^ 30
  toSc := Sc.toMg c
  toStr := c.decStr
  fitSc := fun _ s lp n x => s.mgFit c lp n x
  fitStr := fun _ => True
  fitLen := fun bs _ len => (mgLen bs 0#32 0).toInt = len
  constOk := fun p n _ _ => mgConstOk c p n
  loopAny := !c.java
  sameLoop := false

/-! ### Reading bits -/

theorem mgDecField_spec {w : Nat} {big : Bool} {start n base : Nat} {d : Buf} {r : BitVec n} (hn0 : 0 < n) (hn : n ≤ w)
    (ha : Agrees d (8 * base + start) (scWire n big r)) :
    ∃ y, cDecField big start n base d (0#w) = some y ∧ y.toNat = r.toNat := by
  have hd : 8 * base + start + n ≤ 8 * d.length := by simpa using ha.1
  obtain ⟨y, e, hr⟩ := decField_spec big start n base d (0#w) hn hn0 hd
  rw [← cDecField_eq big start n base d (0#w) hd] at e
  exact ⟨y, e, hr.eq_raw hn ha⟩

theorem mgRead_spec {big : Bool} {pos n : Nat} {d : Buf} {r : BitVec n} (hn0 : 0 < n) (hn : n ≤ 64)
    (ha : Agrees d pos (scWire n big r)) : ∃ y, cReadFieldBits d pos n big = some y ∧ y.toNat = r.toNat := by
  have hd : pos + n ≤ 8 * d.length := by simpa using ha.1
  obtain ⟨v, e, hr⟩ := bbReadFieldBits_spec d pos n big hn hd
  rw [← cReadFieldBits_eq d pos n big hn0 hn hd] at e
  exact ⟨v, e, hr.eq_raw hn ha⟩

/-- Sign extension of raw bits read into `w` bits. -/
theorem mgExt_eq {w n : Nat} (hn0 : 0 < n) (hn : n ≤ w) {y : BitVec w} {r : BitVec n} (h : y.toNat = r.toNat) :
    signExtArith n y = r.signExtend w ∧ signExtShift n y = r.signExtend w := by
  have hs : y.setWidth n = r := by
    apply BitVec.eq_of_toNat_eq
    rw [BitVec.toNat_setWidth, h, Nat.mod_eq_of_lt r.isLt]
  have hz : ∀ k, n ≤ k → y.getLsbD k = false := by
    intro k hk
    have hlt : y.toNat < 2 ^ k := by
      rw [h]
      exact Nat.lt_of_lt_of_le r.isLt (Nat.pow_le_pow_right (by omega) hk)
    rw [← BitVec.testBit_toNat, Nat.testBit_lt_two_pow hlt]
  rw [signExtArith_eq hn0 hn y hz, signExtShift_eq hn0 hn y, hs]
  exact ⟨rfl, rfl⟩

theorem mgZero_iff {w n : Nat} {y : BitVec w} {r : BitVec n} (h : y.toNat = r.toNat) : y = 0#w ↔ r = 0#n := by
  constructor
  · intro e; apply BitVec.eq_of_toNat_eq; rw [← h, e]; simp
  · intro e; apply BitVec.eq_of_toNat_eq; rw [h, e]; simp

theorem goUintWidth_le_width {n : Nat} {p : Prim} (h0 : 0 < n) (h : n ≤ p.width) : goUintWidth n ≤ p.width ∨ p = .bool := by
  have k8 : ∀ m : Fin 9, goUintWidth m.val ≤ 8 ∨ m.val = 0 := by decide +kernel
  have k16 : ∀ m : Fin 17, goUintWidth m.val ≤ 16 := by decide +kernel
  have k32 : ∀ m : Fin 33, goUintWidth m.val ≤ 32 := by decide +kernel
  have k64 : ∀ m : Fin 65, goUintWidth m.val ≤ 64 := by decide +kernel
  have f8 : ∀ m, 0 < m → m ≤ 8 → goUintWidth m ≤ 8 := fun m h0 h => by
    rcases k8 ⟨m, by omega⟩ with h' | h'
    · exact h'
    · simp at h'; omega
  cases p <;> first
    | exact Or.inr rfl
    | exact Or.inl (f8 n h0 h)
    | exact Or.inl (k16 ⟨n, by simp [Prim.width] at h; omega⟩)
    | exact Or.inl (k32 ⟨n, by simp [Prim.width] at h; omega⟩)
    | exact Or.inl (k64 ⟨n, by simp [Prim.width] at h; omega⟩)

/-- A single scalar: from the raw bits in the variable to the attribute. -/
theorem mgFinish_spec {c : MgCfg} {ctx : List Fields} {p : Prim} {arr : Bool} {n : Nat} {r : BitVec n} {x : BitVec p.width}
    {y : BitVec (mgWidth p arr n)} (hn0 : 0 < n) (hn : n ≤ p.width) (hy : y.toNat = r.toNat)
    (h1 : (Sc.prim p).isBool = false → (Sc.prim p).conv r = x) (h2 : (Sc.prim p).isBool = true → (r = 0#n ↔ x = 0#_))
    (hfit : (Sc.prim p).mgFit c false n x) : mgFinish c p n y = some (Sc.toMg c ctx (.prim p) x) := by
  simp only [Sc.toMg, mgFinish]
  by_cases hb : p = .bool
  · subst hb
    rw [if_pos rfl]
    have h := h2 rfl
    congr 1
    by_cases h0 : r = 0#n
    · rw [if_pos ((mgZero_iff hy).mpr h0)]; exact (if_pos (h.mp h0)).symm
    · rw [if_neg (fun e => h0 ((mgZero_iff hy).mp e))]; exact (if_neg (fun e => h0 (h.mpr e))).symm
  have hb' : (Sc.prim p).isBool = false := by cases p <;> simp_all [Sc.isBool]
  have hx := h1 hb'
  rw [if_neg hb]
  have hsame : ∀ (hw : mgWidth p arr n = p.width) (hs : p.signed = false), y.setWidth p.width = x := by
    intro hw hs
    apply BitVec.eq_of_toNat_eq
    rw [BitVec.toNat_setWidth, hy, ← hx]
    have e := conv_toNat (s := .prim p) r hn hs
    rw [Nat.mod_eq_of_lt (Nat.lt_of_lt_of_le r.isLt (Nat.pow_le_pow_right (by omega) hn))]
    exact e.symm
  have hres : (if p = .bool then (if x = 0#_ then 0#_ else 1#_) else x : BitVec p.width) = x := if_neg hb
  by_cases hf : p = .f32 ∨ p = .f64
  · rw [if_pos hf]
    have hs : p.signed = false := by rcases hf with rfl | rfl <;> rfl
    have hfl := hfit.2 (by rcases hf with rfl | rfl <;> simp)
    have hyx : y.toNat = x.toNat := by
      rw [hy, ← hx]; exact (conv_toNat (s := .prim p) r hn hs).symm
    by_cases hw : mgWidth p arr n = p.width
    · have : c.java = true → y.signExtend p.width = x := by
        intro _
        have hz := hsame hw hs
        rw [← hz]
        apply BitVec.eq_of_getLsbD_eq
        intro k hk
        rw [signExtend_low y (by omega) hk, BitVec.getLsbD_setWidth, decide_eq_true hk, Bool.true_and]
      by_cases hj : c.java = true
      · rw [if_pos hj, this hj]; exact congrArg some hres.symm
      · rw [if_neg hj, if_neg (by omega), hsame hw hs]; exact congrArg some hres.symm
    · -- a narrow variable
      have ha : arr = false := by
        cases arr
        · rfl
        · exact absurd (by unfold mgWidth; rw [if_neg (fun h => (nomatch h.2))]) hw
      have hw' : mgWidth p arr n = goUintWidth n := by unfold mgWidth; rw [if_pos ⟨hf, ha⟩]
      rcases hfl with h | h | ⟨hj, hlt⟩
      · cases h
      · exact absurd (hw'.trans h) hw
      · rw [if_pos hj]
        have hlt : x.toNat < 2 ^ (goUintWidth n - 1) := hlt
        have hle : mgWidth p arr n ≤ p.width := by
          rw [hw']
          rcases goUintWidth_le_width hn0 hn with h | h
          · exact h
          · exact absurd h hb
        have hmsb : y.msb = false := by
          rw [BitVec.msb_eq_decide, decide_eq_false]
          rw [hyx, hw']; omega
        have : y.signExtend p.width = x := by
          rw [BitVec.signExtend_eq_setWidth_of_msb_false hmsb]
          apply BitVec.eq_of_toNat_eq
          rw [BitVec.toNat_setWidth_of_le hle, hyx]
        rw [this]; exact congrArg some hres.symm
  · rw [if_neg hf]
    have hw : mgWidth p arr n = p.width := by unfold mgWidth; rw [if_neg (fun h => hf h.1)]
    by_cases hs : p.signed = true
    · rw [if_pos hs]
      have e := mgExt_eq (w := mgWidth p arr n) hn0 (by omega) hy
      have : mgSignExt c n y = r.signExtend (mgWidth p arr n) := by
        unfold mgSignExt
        split
        · exact e.1
        · exact e.2
      rw [this, setWidth_signExtend r hn (by omega), hres, ← hx]
      unfold Sc.conv
      rw [if_pos (show (Sc.prim p).signed = true from hs)]
      rfl
    · rw [if_neg hs, hsame hw (by simpa using hs)]
      exact congrArg some hres.symm

theorem mgLoopVal_spec {c : MgCfg} {ctx : List Fields} {p : Prim} {n : Nat} {r : BitVec n} {x : BitVec p.width} {v : BitVec 64}
    (hn0 : 0 < n) (hn : n ≤ p.width) (hv : v.toNat = r.toNat)
    (h1 : (Sc.prim p).isBool = false → (Sc.prim p).conv r = x) (h2 : (Sc.prim p).isBool = true → (r = 0#n ↔ x = 0#_)) :
    mgLoopVal c p n v = Sc.toMg c ctx (.prim p) x := by
  have hw := p.width_facts
  simp only [Sc.toMg, mgLoopVal]
  by_cases hb : p = .bool
  · subst hb
    rw [if_pos rfl]
    have h := h2 rfl
    by_cases h0 : r = 0#n
    · rw [if_pos ((mgZero_iff hv).mpr h0)]; exact (if_pos (h.mp h0)).symm
    · rw [if_neg (fun e => h0 ((mgZero_iff hv).mp e))]; exact (if_neg (fun e => h0 (h.mpr e))).symm
  have hb' : (Sc.prim p).isBool = false := by cases p <;> simp_all [Sc.isBool]
  have hx := h1 hb'
  have hres : (if p = .bool then (if x = 0#_ then 0#_ else 1#_) else x : BitVec p.width) = x := if_neg hb
  rw [if_neg hb, hres]
  by_cases hs : (p.signed && decide (n < p.width)) = true
  · rw [if_pos hs]
    simp only [Bool.and_eq_true, decide_eq_true_eq] at hs
    have e := mgExt_eq (w := 64) hn0 (by omega) hv
    have : (if (c.signExt == .arith) = true then signExtArith n v else signExtShift n v) = r.signExtend 64 := by
      split
      · exact e.1
      · exact e.2
    rw [this, setWidth_signExtend r hn (by omega), ← hx]
    unfold Sc.conv
    rw [if_pos (show (Sc.prim p).signed = true from hs.1)]
    rfl
  · rw [if_neg hs]
    have hmod : v.setWidth p.width = r.setWidth p.width := by
      apply BitVec.eq_of_toNat_eq
      rw [BitVec.toNat_setWidth, BitVec.toNat_setWidth, hv]
    rw [hmod, ← hx]
    unfold Sc.conv
    by_cases hsg : p.signed = true
    · rw [if_pos (show (Sc.prim p).signed = true from hsg)]
      simp only [hsg, Bool.true_and, decide_eq_true_eq] at hs
      have hnw : n = p.width := by omega
      subst hnw
      show r.setWidth p.width = r.signExtend p.width
      rw [BitVec.setWidth_eq, BitVec.signExtend_eq]
    · rw [if_neg (show ¬ (Sc.prim p).signed = true from hsg)]
      rfl

theorem mgSetWidth_eq {w u : Nat} {y : BitVec w} {x : BitVec u} (h : y.toNat = x.toNat) (v : Nat) : y.setWidth v = x.setWidth v := by
  apply BitVec.eq_of_toNat_eq
  rw [BitVec.toNat_setWidth, BitVec.toNat_setWidth, h]

/-! ### Strings -/

theorem mgScanStr_of {d : Buf} {pos k L : Nat} {rem : Int} {off : Nat} (h : NulAt d pos L) (hr : (off + k + L + 1 : Nat) ≤ rem) (hb : rem < 2 ^ 30) :
    ∀ (m length : Nat), length + m = L → mgScanStr rem k off (d.drop (pos + length)) length = .ok ((off + (L + 1) : Nat) : Int)
  | 0, length, e => by
    have : length = L := by omega
    subst this
    have hlt := h.lt
    have hg := h.1
    rw [rd_eq_some hlt] at hg
    have hd : d.drop (pos + length) = 0#8 :: d.drop (pos + length + 1) := by
      rw [List.drop_eq_getElem_cons hlt]
      rw [List.getD_eq_getElem?_getD, List.getElem?_eq_getElem hlt] at hg
      simp only [Option.getD_some, Option.some.injEq] at hg
      rw [hg]
    rw [hd, mgScanStr, if_pos rfl, w32_id (x := (length : Int) + 1) (by omega) (by omega), w32_id (by omega) (by omega)]
    congr 1
  | m + 1, length, e => by
    have hlt : pos + length < d.length := by have := h.lt; omega
    have hg := h.2 length (by omega)
    rw [rd_eq_some hlt] at hg
    have hd : d.drop (pos + length) = d.getD (pos + length) 0#8 :: d.drop (pos + length + 1) := by
      rw [List.drop_eq_getElem_cons hlt, List.getD_eq_getElem?_getD, List.getElem?_eq_getElem hlt]; rfl
    rw [hd, mgScanStr, if_neg (fun h => hg (by rw [h])),
      w32_id (x := (off : Int) + k + (length + 1 : Nat)) (by omega) (by omega), if_neg (by omega)]
    exact mgScanStr_of h hr hb m (length + 1) (by omega)

theorem mgRem_of (c : MgCfg) {n b : Nat} (h : b ≤ n) (hn : n < 2 ^ 30) : mgRem c n b = (n : Int) - b := by
  unfold mgRem
  split
  · rfl
  · exact w32_id (by omega) (by omega)

theorem mgFrom_of (c : MgCfg) {d : Buf} {base rel : Nat} (h : base + rel < 2 ^ 30) : mgFrom c d base rel = some (d.drop (base + rel)) := by
  unfold mgFrom
  have e : ((base : Int) + rel).toNat = base + rel := by omega
  split
  · rw [if_neg (by omega), e]
  · rw [w32_id (by omega) (by omega), if_neg (by omega), e]

theorem mgDsStr_spec (c : MgCfg) {s : List Byte} {base off k : Nat} {d : Buf} (hz : 0#8 ∉ s) (hd : d.length < 2 ^ 30)
    (ha : Agrees d (8 * (base + off + k)) (byteWire (s ++ [0#8]))) :
    mgDsStr c k d base off = .ok ((off + (s.length + 1) : Nat) : Int) := by
  obtain ⟨h1, h2⟩ := NulAt.of_agrees ha hz
  have hlt := h1.lt
  unfold mgDsStr
  have e1 : w32 ((off : Int) + k) = ((off + k : Nat) : Int) := w32_id (by omega) (by omega)
  rw [e1, mgRem_of c (by omega) hd, mgFrom_of c (by omega)]
  rw [if_neg (by omega)]
  simp only
  have := mgScanStr_of (rem := (d.length : Int) - (base : Nat)) (off := off) (k := k) h1 (by omega) (by omega) s.length 0 (by omega)
  rw [Nat.add_zero, show base + off + k = base + (off + k) by omega] at this
  exact this

/-! ### Bytes -/

theorem mgDecLen_of (d : Buf) : ∀ (bs : List Byte) (m : Nat) (x : BitVec 32) (shift pos off : Nat), LebAt d (pos + off) bs m →
    ktDecLen pos 0 d x shift off = .ok (mgLen bs x shift, off + bs.length)
  | [], m, x, shift, pos, off => by rintro ⟨h, _⟩; simp [leb] at h
  | b :: bs, m, x, shift, pos, off => by
    rintro ⟨h, hv, hl⟩
    simp only [leb] at h
    simp only [List.length_cons] at hl ⊢
    have hr : d.rd (pos + off + 0) = some b := rd_of_bytes hv
    rw [ktDecLen]
    split
    · rename_i e; rw [hr] at e; cases e
    · rename_i b' e; rw [hr] at e; cases e
      by_cases hb : b.toNat < 128
      · rw [if_pos hb] at h
        split at h
        · rename_i hnil
          obtain ⟨v, hx, e1, e2⟩ := ofNat_toNat8 b hb
          obtain ⟨t1, t2, t3, t4⟩ := testHi v hx
          subst hnil
          rw [if_pos (by rw [e1]; exact t1)]; rfl
        · cases h
      · rw [if_neg hb] at h
        cases hm : leb bs with
        | none => rw [hm] at h; cases h
        | some m' =>
          obtain ⟨v, hx, e1, e2⟩ := ofNat_toNat8' b hb
          obtain ⟨t1, t2, t3, t4⟩ := testHi v hx
          have ih := mgDecLen_of d bs m' (x ||| (b &&& 0x7F#8).setWidth 32 <<< (shift % 32)) (shift + 7) pos (off + 1)
            ⟨hm, LebAt.tail hv, by omega⟩
          rw [if_neg (by rw [e1]; exact t2), ih, show off + 1 + bs.length = off + (bs.length + 1) by omega]; rfl

theorem mgScanLen_of (rem : Int) (k : Nat) (rest : List Byte) (hb : rem < 2 ^ 30) : ∀ (bs : List Byte) (m : Nat) (x : BitVec 32) (shift off : Nat),
    leb bs = some m → (off + k + bs.length : Nat) ≤ rem →
    mgScanLen rem k (bs ++ rest) x shift off = some (.inr (mgLen bs x shift, ((off + bs.length : Nat) : Int)))
  | [], m, x, shift, off => by intro h; simp [leb] at h
  | b :: bs, m, x, shift, off => by
    intro h hl
    simp only [leb] at h
    simp only [List.length_cons] at hl ⊢
    rw [List.cons_append, mgScanLen]
    have e0 : w32 ((off : Int) + 1) = ((off + 1 : Nat) : Int) := w32_id (by omega) (by omega)
    by_cases hb : b.toNat < 128
    · rw [if_pos hb] at h
      split at h
      · rename_i hnil
        obtain ⟨v, hx, e1, e2⟩ := ofNat_toNat8 b hb
        obtain ⟨t1, t2, t3, t4⟩ := testHi v hx
        subst hnil
        rw [if_pos (by rw [e1]; exact t1), e0]; rfl
      · cases h
    · rw [if_neg hb] at h
      cases hm : leb bs with
      | none => rw [hm] at h; cases h
      | some m' =>
        obtain ⟨v, hx, e1, e2⟩ := ofNat_toNat8' b hb
        obtain ⟨t1, t2, t3, t4⟩ := testHi v hx
        have hne : 0 < bs.length := List.length_pos_iff.mpr (by rintro rfl; simp [leb] at hm)
        have ih := mgScanLen_of rem k rest (by assumption) bs m' (x ||| (b &&& 0x7F#8).setWidth 32 <<< (shift % 32)) (shift + 7) (off + 1)
          hm (by omega)
        rw [if_neg (by rw [e1]; exact t2), w32_id (x := (off : Int) + 1 + k) (by omega) (by omega), if_neg (by omega), e0, ih,
          show off + 1 + bs.length = off + (bs.length + 1) by omega]
        rfl

theorem mgDecBytes_spec {bs s : List Byte} {m pos : Nat} {d : Buf} (h : leb bs = some m) (hf : (mgLen bs 0#32 0).toInt = s.length)
    (ha : Agrees d (8 * pos) (byteWire (bs ++ s))) : mgDecBytes d pos = .ok (s, bs.length + s.length) := by
  obtain ⟨h1, h2, h3⟩ := LebAt.of_agrees h ha
  have e := mgDecLen_of d bs _ 0#32 0 pos 0 h1
  have hn : (mgLen bs 0#32 0).toNat = s.length := by
    have h0 : 0 ≤ (mgLen bs 0#32 0).toInt := by rw [hf]; exact Int.natCast_nonneg _
    have := BitVec.toInt_eq_toNat_of_msb (x := mgLen bs 0#32 0) (by
      rw [BitVec.toInt_eq_msb_cond] at h0
      cases hm : (mgLen bs 0#32 0).msb with
      | false => rfl
      | true =>
        rw [hm] at h0
        have := (mgLen bs 0#32 0).isLt
        simp only [if_true] at h0
        omega)
    omega
  unfold mgDecBytes ktDecBytes
  rw [e]
  simp only [Nat.zero_add, Nat.add_zero]
  rw [hn, hf, if_pos ⟨Int.natCast_nonneg _, by omega⟩, h2]

theorem mgDsBytes_spec (c : MgCfg) {bs s : List Byte} {m base off k : Nat} {d : Buf} (h : leb bs = some m)
    (hf : (mgLen bs 0#32 0).toInt = s.length) (hd : d.length < 2 ^ 30) (ha : Agrees d (8 * (base + off + k)) (byteWire (bs ++ s))) :
    mgDsBytes c k d base off = .ok ((off + (bs.length + s.length) : Nat) : Int) := by
  obtain ⟨h1, h2, h3⟩ := LebAt.of_agrees h ha
  have hne : 0 < bs.length := List.length_pos_iff.mpr (by rintro rfl; simp [leb] at h)
  unfold mgDsBytes
  have e1 : w32 ((off : Int) + k) = ((off + k : Nat) : Int) := w32_id (by omega) (by omega)
  rw [e1, mgRem_of c (by omega) hd, mgFrom_of c (by omega)]
  rw [if_neg (by omega)]
  simp only
  have hsplit : d.drop (base + (off + k)) = bs ++ d.drop (base + (off + k) + bs.length) := by
    have := List.take_append_drop bs.length (d.drop (base + (off + k)))
    rw [show base + (off + k) = base + off + k by omega, h1.2.1, List.drop_drop] at this
    rw [show base + (off + k) = base + off + k by omega]
    exact this.symm
  rw [hsplit, mgScanLen_of _ k _ (by omega) bs m 0#32 0 off h (by omega)]
  simp only [hf]
  rw [w32_id (x := ((off + bs.length : Nat) : Int) + k + (s.length : Nat)) (by omega) (by omega), if_neg (by omega),
    w32_id (by omega) (by omega)]
  exact congrArg ScanX.ok (by omega)

/-- A prefix, however long, yields the number it stands for if that is less than 2^32. -/
theorem mgLen_eq : ∀ (bs : List Byte) (m a shift : Nat), leb bs = some m → a < 2 ^ shift → a + m * 2 ^ shift < 2 ^ 32 →
    mgLen bs (BitVec.ofNat 32 a) shift = BitVec.ofNat 32 (a + m * 2 ^ shift)
  | [], m, a, shift => by intro h; simp [leb] at h
  | b :: bs, m, a, shift => by
    intro h ha hlt
    simp only [leb] at h
    have hstep : ∀ v, v < 128 → a + v * 2 ^ shift < 2 ^ 32 →
        BitVec.ofNat 32 a ||| (BitVec.ofNat 8 v).setWidth 32 <<< (shift % 32) = BitVec.ofNat 32 (a + v * 2 ^ shift) := by
      intro v hv hl
      by_cases hs : shift < 32
      · exact acc_step32 ha hv hs
      · have hp : (2 : Nat) ^ 32 ≤ 2 ^ shift := Nat.pow_le_pow_right (by omega) (by omega)
        have : v = 0 := by
          apply Nat.eq_zero_of_not_pos
          intro h0
          have : 1 * 2 ^ shift ≤ v * 2 ^ shift := Nat.mul_le_mul_right _ h0
          omega
        subst this
        rw [Nat.zero_mul, Nat.add_zero]
        apply BitVec.eq_of_toNat_eq
        simp
    by_cases hb : b.toNat < 128
    · rw [if_pos hb] at h
      split at h
      · rename_i hnil
        simp only [Option.some.injEq] at h
        obtain ⟨v, hx, e1, e2⟩ := ofNat_toNat8 b hb
        obtain ⟨t1, t2, t3, t4⟩ := testHi v hx
        subst hnil
        have hmv : m = v := by omega
        subst hmv
        rw [mgLen, mgLen, e1, t3, hstep m hx hlt]
      · cases h
    · rw [if_neg hb] at h
      cases hm : leb bs with
      | none => rw [hm] at h; cases h
      | some m' =>
        rw [hm] at h
        simp only [Option.map_some, Option.some.injEq] at h
        obtain ⟨v, hx, e1, e2⟩ := ofNat_toNat8' b hb
        obtain ⟨t1, t2, t3, t4⟩ := testHi v hx
        have hpow : (2 : Nat) ^ (shift + 7) = 128 * 2 ^ shift := by rw [Nat.pow_add, Nat.mul_comm]
        have hmv : m = v + 128 * m' := by omega
        have hsum : a + v * 2 ^ shift + m' * 2 ^ (shift + 7) = a + m * 2 ^ shift := by
          rw [hmv, hpow, Nat.add_mul, ← Nat.mul_assoc, Nat.mul_comm m' 128]; omega
        have ih := mgLen_eq bs m' (a + v * 2 ^ shift) (shift + 7) hm (acc_lt ha hx) (by rw [hsum]; exact hlt)
        have hle : a + v * 2 ^ shift < 2 ^ 32 := by omega
        rw [mgLen, e1, t4, hstep v hx hle, ih, hsum]

theorem mgLen_toInt {bs : List Byte} {m : Nat} (h : leb bs = some m) (hm : m < 2 ^ 31) : (mgLen bs 0#32 0).toInt = m := by
  have e := mgLen_eq bs m 0 0 h (by simp) (by simp; omega)
  simp only [Nat.zero_add, Nat.pow_zero, Nat.mul_one] at e
  have hn : (BitVec.ofNat 32 m).toNat = m := by rw [BitVec.toNat_ofNat]; omega
  rw [show (0#32 : BitVec 32) = BitVec.ofNat 32 0 from rfl, e, BitVec.toInt_eq_toNat_of_lt (by rw [hn]; omega), hn]

/-! ### All together -/

theorem mgDecSpec_ok (c : MgCfg) : (mgDecSpec c).DecOk where
  loopBase := (mgSpec_ok c).loopBase
  loopBase0 := (mgSpec_ok c).loopBase0
  wrap := by
    intro x h0 h1
    rw [show (mgDecSpec c).maxLen = 2 ^ 30 from rfl] at h1
    exact w32_id (by omega) (by omega)
  ret := by
    intro x h0 h1
    rw [show (mgDecSpec c).maxLen = 2 ^ 30 from rfl] at h0 h1
    exact w32_id (by omega) (by omega)
  rem := fun n b h hn => mgRem_of c h hn
  sub := (mgSpec_ok c).sub
  sc := by
    intro ctx s big arr d start n base x gl ws hwf harr hfit _ hg _ ha
    have hf := Sc.wf_facts hwf
    obtain ⟨r, rfl, hr1, hr2⟩ := hg.raw hwf
    have hfit : s.mgFit c false n x := hfit
    cases s with
    | prim p =>
      have hw : n ≤ mgWidth p arr n := by
        have := goUintWidth_facts n (by omega) hf.1
        unfold mgWidth
        split
        · exact this.1
        · exact hf.2.1
      obtain ⟨y, e, hy⟩ := mgDecField_spec (w := mgWidth p arr n) hf.1 hw ha
      show mgDecSc c ctx (.prim p) big arr d start n base = _
      simp only [mgDecSc, e]
      exact mgFinish_spec (ctx := ctx) hf.1 hf.2.1 hy hr1 hr2 hfit
    | enum b =>
      have ht := Sc.temp_facts hwf harr
      obtain ⟨y, e, hy⟩ := mgDecField_spec (w := (Sc.enum b).tempWidth arr n) hf.1 ht.1 ha
      have hx := hr1 rfl
      have hxr : r.toNat = (x : BitVec (goUintWidth b)).toNat := by
        rw [← conv_toNat (s := .enum b) r hf.2.1 rfl, hx]
      show mgDecSc c ctx (.enum b) big arr d start n base = _
      simp only [mgDecSc, e]
      rw [mgSetWidth_eq (x := (x : BitVec (goUintWidth b))) (hy.trans hxr) 32]
      rfl
  scLoop := by
    intro ctx s big d start n base x gl ws hwf _ hfit _ hg _ ha
    have hf := Sc.wf_facts hwf
    obtain ⟨r, rfl, hr1, hr2⟩ := hg.raw hwf
    obtain ⟨v, e, hv⟩ := mgRead_spec hf.1 (by omega) ha
    cases s with
    | prim p =>
      show mgDecScLoop c ctx (.prim p) big d (8 * base + start) n = _
      simp only [mgDecScLoop, e]
      exact congrArg some (mgLoopVal_spec (ctx := ctx) hf.1 hf.2.1 hv hr1 hr2)
    | enum b =>
      have hx := hr1 rfl
      have hxr : r.toNat = (x : BitVec (goUintWidth b)).toNat := by
        rw [← conv_toNat (s := .enum b) r hf.2.1 rfl, hx]
      show mgDecScLoop c ctx (.enum b) big d (8 * base + start) n = _
      simp only [mgDecScLoop, e]
      rw [mgSetWidth_eq (x := (x : BitVec (goUintWidth b))) (hv.trans hxr) 32]
      rfl
  const := by
    intro p n big val start base d hn0 hn hb hval hok _ ha
    have hw := p.width_facts
    have hok : mgConstOk c p n = true := hok
    simp only [mgConstOk, Bool.and_eq_true, Bool.or_eq_true, Bool.not_eq_true', decide_eq_true_eq] at hok
    obtain ⟨⟨h1, _⟩, h2⟩ := hok
    have hag : Agrees d (8 * base + start) (scWire n big (BitVec.ofNat n val)) := by
      rw [scWire_congr (y := BitVec.ofNat 64 val)]
      · exact ha
      · intro k hk
        rw [BitVec.getLsbD_ofNat, BitVec.getLsbD_ofNat]
        have : k < 64 := by omega
        simp [hk, this]
    have hnat : (BitVec.ofNat n val).toNat = val := by rw [BitVec.toNat_ofNat, Nat.mod_eq_of_lt hval]
    obtain ⟨y, e, hy⟩ := mgDecField_spec (w := p.width) hn0 hn hag
    show mgDecConst c p n big val d start base = some true
    unfold mgDecConst
    rw [if_pos h1, e]
    simp only
    have hyv : y = BitVec.ofNat p.width val := by
      apply BitVec.eq_of_toNat_eq
      rw [hy, hnat, BitVec.toNat_ofNat, Nat.mod_eq_of_lt (Nat.lt_of_lt_of_le hval (Nat.pow_le_pow_right (by omega) hn))]
    by_cases hs : p.signed = true
    · rw [if_pos hs]
      have hnw : n = p.width := by
        rcases h2 with h2 | h2
        · rw [hs] at h2; cases h2
        · exact h2.2
      have hx := mgExt_eq hn0 hn hy
      have : mgSignExt c n y = (BitVec.ofNat n val).signExtend p.width := by
        unfold mgSignExt
        split
        · exact hx.1
        · exact hx.2
      rw [this]
      subst hnw
      rw [BitVec.signExtend_eq]
      simp
    · rw [if_neg hs, hyv]
      simp
  str := by
    intro s pos d _ hz _ ha
    obtain ⟨h1, h2⟩ := NulAt.of_agrees ha hz
    show mgDecStr c d pos = .ok (c.decStr s, s.length + 1)
    unfold mgDecStr
    rw [decStrLen_of h1 s.length 0 (by omega)]
    simp only [h2]
  dsStr := by
    intro s base off k d hz hd ha
    have hd : d.length < 2 ^ 30 := hd
    have e := mgDsStr_spec (s := s) (base := base) (off := off) (k := k) (d := d) c hz hd ha
    rw [show (mgTgt c).dsStr = mgDsStr c from rfl]
    exact e
  bytes := fun bs m s pos d h hf _ ha => mgDecBytes_spec h hf ha
  dsBytes := by
    intro bs m s base off k d h hf hd ha
    have hd : d.length < 2 ^ 30 := hd
    have hf : (mgLen bs 0#32 0).toInt = (s.length : Int) := hf
    have e := mgDsBytes_spec (s := s) (base := base) (off := off) (k := k) (d := d) c h hf hd ha
    rw [show (mgTgt c).dsBytes = mgDsBytes c from rfl]
    exact e

theorem mgDecSpec_len (c : MgCfg) : (mgDecSpec c).LenOk := by
  intro bs n h hl hn
  have hn : n < 2 ^ 30 := hn
  exact mgLen_toInt h (by omega)

end Bubbler
