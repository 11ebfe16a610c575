import Verif.Codec.JsEnc
import Verif.Codec.TgtTop
import Verif.Codec.CDecMain

/-
The decoding statements of the JavaScript targets read what stands in the data (`TgtDecSpec.DecOk`).
-/
set_option linter.unusedSimpArgs false
namespace Bubbler

/-! ### What the values mean -/

/-- The attribute for a Go value; an enum attribute is the name of the last member with that number. -/
def Sc.toJs (c : JsCfg) (ctx : List Fields) : (s : Sc) → BitVec s.width → s.JsVal
  | .prim p, (x : BitVec p.width) =>
    (if p = .bool then (if x = 0#_ then 0 else 1) else if p.signed then x.toInt else x.toNat : Int)
  | .enum b, (x : BitVec (goUintWidth b)) =>
    (match ((c.members ctx).reverse.find? (fun m => m.2 == x.toNat)) with
    | none => JsEnum.undef
    | some m => .name m.1 : JsEnum)

/-- Values the decoder gets right. -/
def Sc.jsFit (s : Sc) (lp : Bool) (n : Nat) (x : BitVec s.width) : Prop :=
  (s = .prim .u32 → lp = true ∨ n < 32 ∨ x.toNat < 2 ^ 31) ∧
  (s = .prim .i64 → lp = true ∨ n ≠ 32) ∧
  (∀ b, s = .enum b → if lp then n ≤ 53 else n ≤ 32 ∧ x.toNat < 2 ^ 31)

/-- Constants the decoder gets right. -/
def jsConstOk (p : Prim) (n val : Nat) : Bool :=
  p.isInteger && (!p.signed || (decide (val < 2 ^ (n - 1)) && decide (p.width = 64 → n ≠ 32))) &&
    (if p.width = 64 then decide (2 ^ 31 ≤ val) else decide (val < 2 ^ 31))

def jsDecSpec (c : JsCfg) : TgtDecSpec (jsTgt c) where
  maxLen := 2 ^ 28
  toSc := Sc.toJs c
  toStr := fun bs => utf16 (utf8Dec bs)
  fitSc := fun _ s lp n x => s.jsFit lp n x
  fitStr := fun bs => ∃ cs, bs = utf8 cs
  fitLen := fun bs m len => m = len ∧ bs.length ≤ 5 ∧ m < 2 ^ 32
  constOk := fun p n _ val => jsConstOk p n val
  loopAny := true
  sameLoop := false

/-! ### Reading bits -/

theorem jsGet_of_rd {d : Buf} {i : Nat} {b : Byte} (h : d.rd i = some b) : jsGet d i = b := by
  have hlt := rd_some_lt h
  rw [rd_eq_some hlt] at h
  simp only [Option.some.injEq] at h
  rw [jsGet, h]

theorem jsValue_eq {base : Nat} {d : Buf} {s : CDec} {e : BitVec 64} (h : s.value base d = some e) : s.jsValue base d = e := by
  unfold CDec.value at h
  unfold CDec.jsValue
  cases h1 : d.rd (base + s.byte1) with
  | none => rw [h1] at h; simp at h
  | some b1 =>
    rw [h1] at h
    simp only [Option.bind_eq_bind, Option.bind_some] at h
    rw [jsGet_of_rd h1]
    cases h2 : s.second with
    | none => rw [h2] at h; simpa using h
    | some t =>
      obtain ⟨byte2, mask2, shl2⟩ := t
      rw [h2] at h
      simp only at h ⊢
      cases h3 : d.rd (base + byte2) with
      | none => rw [h3] at h; simp at h
      | some b2 =>
        rw [h3] at h
        rw [jsGet_of_rd h3]
        simpa using h

theorem cDecStmts_idx {start stop : Nat} : ∀ {i : Nat}, start ≤ i → ∀ s ∈ cDecStmtsFrom start stop i, 8 * s.idx + start < stop := by
  intro i
  fun_induction cDecStmtsFrom start stop i with
  | case1 i h ih =>
    intro hi s hs
    rcases List.mem_cons.mp hs with rfl | hs
    · simp only [cDecStmt]; omega
    · exact ih (by omega) s hs
  | case2 i h => intro _ s hs; cases hs

theorem decShift_lt {big : Bool} {n i : Nat} (h : 8 * i < n) : decShift big n i < n := by
  unfold decShift
  split <;> omega

theorem jsDec32_fold (big : Bool) (n base : Nat) (d : Buf) (hn : n ≤ 32) : ∀ (ss : List CDec) (x y : BitVec 32),
    (∀ s ∈ ss, 8 * s.idx < n) → ss.foldlM (CDec.exec big n base d) x = some y →
    ss.foldl (fun (x : BitVec 32) (s : CDec) =>
      let t := ((s.jsValue base d).setWidth 32) <<< (decShift big n s.idx % 32)
      if s.idx = 0 then t else x ||| t) x = y
  | [], x, y, _, h => by
    simp only [List.foldlM_nil] at h
    cases h; rfl
  | s :: ss, x, y, hs, h => by
    simp only [List.foldlM_cons] at h
    cases hv : s.value base d with
    | none => rw [CDec.exec, hv] at h; simp at h
    | some e =>
      have hsh := decShift_lt (big := big) (hs s List.mem_cons_self)
      rw [List.foldl_cons]
      simp only [jsValue_eq hv]
      rw [Nat.mod_eq_of_lt (by omega)]
      rw [CDec.exec, hv] at h
      simp only [Option.bind_eq_bind, Option.bind_some] at h
      by_cases h0 : s.idx = 0
      · rw [if_pos h0] at h ⊢
        exact jsDec32_fold big n base d hn ss _ y (fun t ht => hs t (List.mem_cons_of_mem _ ht)) h
      · rw [if_neg h0] at h ⊢
        exact jsDec32_fold big n base d hn ss _ y (fun t ht => hs t (List.mem_cons_of_mem _ ht)) h

/-- A bit vector holding the number `r` of fewer bits. -/
theorem ReadsBits.eq_raw {w : Nat} {d : Buf} {pos n : Nat} {big : Bool} {y : BitVec w} {r : BitVec n}
    (h : ReadsBits d pos n big y) (hn : n ≤ w) (ha : Agrees d pos (scWire n big r)) : y.toNat = r.toNat := by
  have h1 := h.raw.unique (RawAt.agrees ha)
  rw [BitVec.setWidth_eq] at h1
  have h2 := setWidth_setWidth_of_zero (v := w) y h.2
  rw [h1, BitVec.setWidth_eq] at h2
  rw [← h2, BitVec.toNat_setWidth_of_le hn]

theorem jsDec32_spec {big : Bool} {start n base : Nat} {d : Buf} {r : BitVec n} (hn0 : 0 < n) (hn : n ≤ 32)
    (ha : Agrees d (8 * base + start) (scWire n big r)) : (jsDec32 big start n base d).toNat = r.toNat := by
  have hd : 8 * base + start + n ≤ 8 * d.length := by simpa using ha.1
  obtain ⟨y, e, hr⟩ := decField_spec big start n base d 0#32 hn hn0 hd
  rw [← cDecField_eq big start n base d 0#32 hd] at e
  have : jsDec32 big start n base d = y := by
    unfold jsDec32
    apply jsDec32_fold big n base d hn _ _ _ _ e
    intro s hs
    have := cDecStmts_idx (Nat.le_refl start) s hs
    omega
  rw [this]
  exact hr.eq_raw hn ha

theorem jsDec64_spec {big : Bool} {start n base : Nat} {d : Buf} {r : BitVec n} (hn0 : 0 < n) (hn : n ≤ 64)
    (ha : Agrees d (8 * base + start) (scWire n big r)) : ∃ y, jsDec64 big start n base d = some y ∧ y.toNat = r.toNat := by
  have hd : 8 * base + start + n ≤ 8 * d.length := by simpa using ha.1
  obtain ⟨y, e, hr⟩ := decField_spec big start n base d 0#64 hn hn0 hd
  rw [← cDecField_eq big start n base d 0#64 hd] at e
  exact ⟨y, e, hr.eq_raw hn ha⟩

theorem jsRead_fold (big : Bool) (n : Nat) (d : Buf) : ∀ (ss : List CDec) (x y : BitVec 64),
    ss.foldlM (fun out s => do
      let e ← CDec.value 0 d s
      some (out ||| (e <<< decShift big n s.idx))) x = some y →
    ss.foldl (fun (out : BitVec 64) (s : CDec) => out ||| (s.jsValue 0 d <<< decShift big n s.idx)) x = y
  | [], x, y, h => by
    simp only [List.foldlM_nil] at h
    cases h; rfl
  | s :: ss, x, y, h => by
    simp only [List.foldlM_cons] at h
    cases hv : s.value 0 d with
    | none => rw [hv] at h; simp at h
    | some e =>
      rw [hv] at h
      simp only [Option.bind_eq_bind, Option.bind_some] at h
      rw [List.foldl_cons, jsValue_eq hv]
      exact jsRead_fold big n d ss _ y h

theorem jsReadFieldBits_spec {big : Bool} {pos n : Nat} {d : Buf} {r : BitVec n} (hn0 : 0 < n) (hn : n ≤ 64)
    (ha : Agrees d pos (scWire n big r)) : (jsReadFieldBits d pos n big).toNat = r.toNat := by
  have hd : pos + n ≤ 8 * d.length := by simpa using ha.1
  obtain ⟨v, e, hr⟩ := bbReadFieldBits_spec d pos n big hn hd
  rw [← cReadFieldBits_eq d pos n big hn0 hn hd] at e
  have : jsReadFieldBits d pos n big = v := jsRead_fold big n d _ _ _ e
  rw [this]
  exact hr.eq_raw hn ha

/-! ### Numbers -/

/-- The number for the raw bits of a field. -/
def jsNum (p : Prim) {n : Nat} (r : BitVec n) : Int :=
  if p = .bool then (if r = 0#n then 0 else 1) else if p.signed then r.toInt else r.toNat

theorem xor_pow {k m : Nat} (h : m < 2 ^ (k + 1)) : m ^^^ 2 ^ k = if m < 2 ^ k then m + 2 ^ k else m - 2 ^ k := by
  have key : ∀ r, r < 2 ^ k → r ^^^ 2 ^ k = r + 2 ^ k := by
    intro r hr
    have h1 := @or_add 1 r k hr
    rw [Nat.one_mul] at h1
    rw [Nat.add_comm, ← h1]
    apply Nat.eq_of_testBit_eq
    intro i
    rw [Nat.testBit_xor, Nat.testBit_or, Nat.testBit_two_pow]
    by_cases e : k = i
    · subst e; rw [Nat.testBit_lt_two_pow hr]; simp
    · simp [e]
  split
  · exact key m ‹_›
  · have hp : 2 ^ (k + 1) = 2 * 2 ^ k := by rw [Nat.pow_succ, Nat.mul_comm]
    have h2 := key (m - 2 ^ k) (by omega)
    have h3 : m - 2 ^ k + 2 ^ k = m := by omega
    rw [h3] at h2
    conv => lhs; rw [← h2]
    rw [Nat.xor_assoc, Nat.xor_self, Nat.xor_zero]

theorem xor_sub {n : Nat} (r : BitVec n) (hn : 0 < n) : ((r.toNat ^^^ 2 ^ (n - 1) : Nat) : Int) - 2 ^ (n - 1) = r.toInt := by
  have hlt := r.isLt
  obtain ⟨k, rfl⟩ : ∃ k, n = k + 1 := ⟨n - 1, by omega⟩
  simp only [Nat.add_sub_cancel]
  rw [xor_pow hlt, BitVec.toInt_eq_toNat_cond]
  have hp : 2 ^ (k + 1) = 2 * 2 ^ k := by rw [Nat.pow_succ, Nat.mul_comm]
  have hc : ((2 : Int) ^ k) = ((2 ^ k : Nat) : Int) := by push_cast; rfl
  rw [hc]
  generalize (2:Nat) ^ k = q at *
  rw [hp]
  by_cases h : r.toNat < q
  · rw [if_pos h, if_pos (by omega)]; push_cast; omega
  · rw [if_neg h, if_neg (by omega)]; push_cast; omega

theorem toInt_of_lt {w : Nat} {y : BitVec w} (hw : 0 < w) (h : y.toNat < 2 ^ (w - 1)) : y.toInt = y.toNat := by
  rw [BitVec.toInt_eq_toNat_cond, if_pos]
  obtain ⟨k, rfl⟩ : ∃ k, w = k + 1 := ⟨w - 1, by omega⟩
  simp only [Nat.add_sub_cancel] at h
  rw [Nat.pow_succ]; omega

theorem jsFix32_spec {p : Prim} {n : Nat} {y : BitVec 32} {r : BitVec n} (hn0 : 0 < n) (hn : n ≤ p.width) (hp : p.width ≤ 32)
    (hy : y.toNat = r.toNat) (hfit : p = .u32 → n < 32 ∨ r.toNat < 2 ^ 31) : jsFix32 p n y = jsNum p r := by
  have hlt := r.isLt
  have h32 : n ≤ 32 := by omega
  unfold jsFix32 jsNum
  by_cases hb : p = .bool
  · rw [if_pos hb, if_pos hb]
    have h1 : y = 0#32 ↔ r = 0#n := by
      constructor
      · intro h; apply BitVec.eq_of_toNat_eq; rw [← hy, h]; simp
      · intro h; apply BitVec.eq_of_toNat_eq; rw [hy, h]; simp
    by_cases h : r = 0#n
    · rw [if_pos h, if_pos (h1.mpr h)]
    · rw [if_neg h, if_neg (fun e => h (h1.mp e))]
  · rw [if_neg hb, if_neg hb]
    by_cases hf : p = .f32
    · subst hf
      rw [if_pos rfl, hy]
      rfl
    · rw [if_neg hf]
      by_cases hs : p.signed = true
      · rw [if_pos hs, if_pos hs]
        by_cases h : n = 32
        · subst h
          have e : y = r := BitVec.eq_of_toNat_eq hy
          subst e
          rw [if_pos rfl]
          split
          · rw [BitVec.toInt_eq_toNat_cond (x := ~~~y), BitVec.toInt_eq_toNat_cond (x := y), BitVec.toNat_not]
            split <;> split <;> omega
          · rfl
        · rw [if_neg h]
          have hpow : 2 ^ n ≤ 2 ^ 31 := Nat.pow_le_pow_right (by omega) (by omega)
          have hpow1 : 2 ^ (n - 1) ≤ 2 ^ 31 := Nat.pow_le_pow_right (by omega) (by omega)
          have e : (y ^^^ BitVec.ofNat 32 (2 ^ (n - 1))).toNat = r.toNat ^^^ 2 ^ (n - 1) := by
            rw [BitVec.toNat_xor, BitVec.toNat_ofNat, hy, Nat.mod_eq_of_lt (by omega)]
          have hx : r.toNat ^^^ 2 ^ (n - 1) < 2 ^ n :=
            Nat.xor_lt_two_pow hlt (Nat.pow_lt_pow_right (by omega) (by omega))
          rw [toInt_of_lt (by omega) (by rw [e]; exact Nat.lt_of_lt_of_le hx hpow), e, xor_sub r hn0]
      · rw [if_neg hs, if_neg hs, toInt_of_lt (by omega), hy]
        rw [hy]
        show r.toNat < 2 ^ 31
        by_cases h : n < 32
        · exact Nat.lt_of_lt_of_le hlt (Nat.pow_le_pow_right (by omega) (by omega))
        · have : p = .u32 := by
            revert hb hf hs hn hp
            cases p <;> simp [Prim.width, Prim.signed] <;> omega
          rcases hfit this with h' | h'
          · exact absurd h' h
          · exact h'

theorem jsFix64_spec {p : Prim} {n : Nat} {y : BitVec 64} {r : BitVec n} (hn0 : 0 < n) (hn : n ≤ 64) (hp : 32 < p.width)
    (hy : y.toNat = r.toNat) (hfit : p = .i64 → n ≠ 32) : jsFix64 p n y = some (jsNum p r) := by
  have hlt := r.isLt
  have hb : p ≠ .bool := by intro h; subst h; simp [Prim.width] at hp
  unfold jsFix64 jsNum
  rw [if_neg hb]
  by_cases hs : p.signed = true
  · have hi : p = .i64 := by revert hs hp; cases p <;> simp [Prim.width, Prim.signed]
    rw [if_pos hs, if_pos hs, if_neg (hfit hi)]
    have hpow : 2 ^ (n - 1) < 2 ^ 64 := Nat.pow_lt_pow_right (by omega) (by omega)
    have e : (y ^^^ BitVec.ofNat 64 (2 ^ (n - 1))).toNat = r.toNat ^^^ 2 ^ (n - 1) := by
      rw [BitVec.toNat_xor, BitVec.toNat_ofNat, hy, Nat.mod_eq_of_lt hpow]
    rw [e, xor_sub r hn0]
  · rw [if_neg hs, if_neg hs, hy]

theorem jsDecPrim_spec {p : Prim} {big : Bool} {start n base : Nat} {d : Buf} {r : BitVec n} (hn0 : 0 < n) (hn : n ≤ p.width)
    (hf1 : p = .u32 → n < 32 ∨ r.toNat < 2 ^ 31) (hf2 : p = .i64 → n ≠ 32)
    (ha : Agrees d (8 * base + start) (scWire n big r)) : jsDecPrim p big d start n base = some (jsNum p r) := by
  have hw := p.width_facts
  unfold jsDecPrim
  by_cases h : 32 < p.width
  · rw [if_pos h]
    obtain ⟨y, e, hy⟩ := jsDec64_spec hn0 (by omega) ha
    rw [e]
    exact jsFix64_spec hn0 (by omega) h hy hf2
  · rw [if_neg h, jsFix32_spec hn0 hn (by omega) (jsDec32_spec hn0 (by omega) ha) hf1]

theorem jsLoopVal_spec {p : Prim} {n : Nat} {v : BitVec 64} {r : BitVec n} (hn : n ≤ p.width) (hv : v.toNat = r.toNat) :
    jsLoopVal p n v = jsNum p r := by
  have hlt := r.isLt
  unfold jsLoopVal jsNum
  by_cases hb : p = .bool
  · rw [if_pos hb, if_pos hb]
    have h1 : v = 0#64 ↔ r = 0#n := by
      constructor
      · intro h; apply BitVec.eq_of_toNat_eq; rw [← hv, h]; simp
      · intro h; apply BitVec.eq_of_toNat_eq; rw [hv, h]; simp
    by_cases h : r = 0#n
    · rw [if_pos h, if_pos (h1.mpr h)]
    · rw [if_neg h, if_neg (fun e => h (h1.mp e))]
  · rw [if_neg hb, if_neg hb]
    by_cases hf : p = .f32
    · subst hf
      rw [if_pos rfl]
      have hn32 : n ≤ 32 := hn
      have h2 : v.toNat < 2 ^ 32 := by
        rw [hv]; exact Nat.lt_of_lt_of_le hlt (Nat.pow_le_pow_right (by omega) hn32)
      have : (v &&& 0xFFFFFFFF#64).toNat = v.toNat := by
        rw [BitVec.toNat_and]
        have e : (0xFFFFFFFF#64 : BitVec 64).toNat = 2 ^ 32 - 1 := by decide
        rw [e, Nat.and_two_pow_sub_one_eq_mod, Nat.mod_eq_of_lt h2]
      rw [this, hv]
      rfl
    · rw [if_neg hf]
      by_cases hs : p.signed = true
      · rw [if_pos hs, if_pos hs]
        have : v.setWidth n = r := by
          apply BitVec.eq_of_toNat_eq
          rw [BitVec.toNat_setWidth, hv, Nat.mod_eq_of_lt hlt]
        rw [this]
      · rw [if_neg hs, if_neg hs, hv]

/-- The raw bits of a scalar as it stands in data Go accepts. -/
theorem Sc.GRepr.raw {s : Sc} {gl : Bool} {n : Nat} {big : Bool} {x : BitVec s.width} {ws : List (Option Bool)}
    (hwf : s.wf n = true) (h : s.GRepr gl n big x ws) :
    ∃ r : BitVec n, ws = scWire n big r ∧ (s.isBool = false → s.conv r = x) ∧ (s.isBool = true → (r = 0#n ↔ x = 0#_)) := by
  have hf := Sc.wf_facts hwf
  unfold Sc.GRepr at h
  by_cases hb : (s.isBool && gl) = true
  · rw [if_pos hb] at h
    obtain ⟨y, h1, h2⟩ := h
    simp only [Bool.and_eq_true] at hb
    refine ⟨y, h1, fun e => (by rw [hb.1] at e; cases e), fun _ => ?_⟩
    by_cases hy : y = 0#n
    · rw [if_pos hy] at h2; exact ⟨fun _ => h2, fun _ => hy⟩
    · rw [if_neg hy] at h2
      refine ⟨fun e => absurd e hy, fun e => ?_⟩
      rw [h2] at e
      have := congrArg BitVec.toNat e
      have hp : 1 < 2 ^ s.width := Nat.one_lt_two_pow (by omega)
      simp only [BitVec.toNat_ofNat, Nat.mod_eq_of_lt hp, Nat.zero_mod] at this
      omega
  · rw [if_neg hb] at h
    obtain ⟨h1, h2⟩ := h
    have hc := Sc.conv_setWidth hwf x h1
    refine ⟨x.setWidth n, ?_, fun _ => hc, fun hb' => ?_⟩
    · rw [h2]
      apply scWire_congr
      intro k hk
      rw [BitVec.getLsbD_setWidth]; simp [hk]
    · have hs : s.signed = false := by
        cases s with
        | enum b => rfl
        | prim p => cases p <;> simp_all [Sc.isBool, Sc.signed, Prim.signed]
      unfold Sc.conv at hc
      rw [hs] at hc
      simp only [Bool.false_eq_true, if_false] at hc
      constructor
      · intro e; rw [e] at hc; rw [← hc]; simp
      · intro e; rw [e]; simp

theorem conv_toNat {s : Sc} {n : Nat} (r : BitVec n) (hn : n ≤ s.width) (hs : s.signed = false) : (s.conv r).toNat = r.toNat := by
  unfold Sc.conv
  rw [hs]
  simp only [Bool.false_eq_true, if_false]
  exact BitVec.toNat_setWidth_of_le hn

theorem conv_toInt {s : Sc} {n : Nat} (r : BitVec n) (hn : n ≤ s.width) (hs : s.signed = true) : (s.conv r).toInt = r.toInt := by
  unfold Sc.conv
  rw [hs]
  simp only [if_true]
  exact BitVec.toInt_signExtend_of_le hn

/-- The number for the raw bits is the attribute for the value. -/
theorem jsNum_toJs {c : JsCfg} {ctx : List Fields} {p : Prim} {n : Nat} (hn : n ≤ p.width) {r : BitVec n} {x : BitVec p.width}
    (h1 : (Sc.prim p).isBool = false → (Sc.prim p).conv r = x) (h2 : (Sc.prim p).isBool = true → (r = 0#n ↔ x = 0#_)) :
    Sc.toJs c ctx (.prim p) x = jsNum p r := by
  simp only [Sc.toJs, jsNum]
  by_cases hb : p = .bool
  · subst hb
    rw [if_pos rfl, if_pos rfl]
    have h := h2 rfl
    by_cases h0 : r = 0#n
    · rw [if_pos h0]; exact if_pos (h.mp h0)
    · rw [if_neg h0]; exact if_neg (fun e => h0 (h.mpr e))
  · have hb' : (Sc.prim p).isBool = false := by cases p <;> simp_all [Sc.isBool]
    have h := h1 hb'
    rw [if_neg hb, if_neg hb]
    by_cases hs : p.signed = true
    · rw [if_pos hs, if_pos hs, ← h]
      exact conv_toInt (s := .prim p) r hn hs
    · rw [if_neg hs, if_neg hs, ← h]
      exact congrArg (fun (z : Nat) => (z : Int)) (conv_toNat (s := .prim p) r hn ((Bool.not_eq_true _).mp hs))

theorem jsEnumName_eq (c : JsCfg) (ctx : List Fields) (b : Nat) (x : BitVec (goUintWidth b)) :
    jsEnumName c ctx (x.toNat : Int) = Sc.toJs c ctx (.enum b) x := by
  unfold jsEnumName
  simp only [Sc.toJs]
  have : (fun m : String × Nat => ((m.2 : Int) == (x.toNat : Int))) = (fun m => m.2 == x.toNat) := by
    funext m
    by_cases e : m.2 = x.toNat
    · simp [e]
    · rw [show (m.2 == x.toNat) = false by simpa using e, show (((m.2 : Int)) == (x.toNat : Int)) = false by
        have : (m.2 : Int) ≠ (x.toNat : Int) := by omega
        simpa using this]
  rw [this]
  cases List.find? (fun m => m.2 == x.toNat) (c.members ctx).reverse <;> rfl

/-! ### Strings -/

theorem jsDecStr_spec {cs : List Char} {pos : Nat} {d : Buf} (hz : 0#8 ∉ utf8 cs) (ha : Agrees d (8 * pos) (byteWire (utf8 cs ++ [0#8]))) :
    jsDecStr d pos = .ok (utf16 cs, (utf8 cs).length + 1) := by
  obtain ⟨h1, h2⟩ := NulAt.of_agrees ha hz
  have hlt := h1.lt
  have hg := jsGet_of_rd h1.1
  have hr := jsFromUtf8_eq d cs pos (fun c hc e => hz ((utf8_nul cs).mpr ⟨c, hc, e⟩)) hlt h2 hg
  unfold jsDecStr
  simp only [hr]
  rw [if_neg]
  · rw [show pos + (utf8 cs).length - pos + 1 = (utf8 cs).length + 1 by omega]
  · rintro (h | h)
    · omega
    · exact h hg

theorem jsGetI_nat (d : Buf) (i : Nat) : jsGetI d (i : Int) = d.rd i := by
  unfold jsGetI
  rw [if_neg (by omega), Int.toNat_natCast]
  rfl

theorem jsScanStr_of {d : Buf} {base off k L : Nat} (h : NulAt d (base + off + k) L) : ∀ (m length : Nat), length + m = L →
    jsScanStr k d base off length = .ok ((off + (L + 1) : Nat) : Int)
  | 0, length, e => by
    have : length = L := by omega
    subst this
    have ei : (off : Int) + base + k + length = ((base + off + k + length : Nat) : Int) := by push_cast; omega
    rw [jsScanStr, ei, jsGetI_nat, if_pos h.1]
    congr 1
  | m + 1, length, e => by
    have hlt := h.lt
    have ei : (off : Int) + base + k + length = ((base + off + k + length : Nat) : Int) := by push_cast; omega
    rw [jsScanStr, ei, jsGetI_nat, if_neg (h.2 length (by omega)), dif_neg (by omega)]
    exact jsScanStr_of h m (length + 1) (by omega)

/-! ### Bytes -/

theorem and_F0 : ∀ b : Byte, b.toNat < 16 → b &&& 0xF0#8 = 0#8 := by decide +kernel

theorem jsDecLen_of (d : Buf) : ∀ (bs : List Byte) (m a shift pos : Nat), LebAt d pos bs m → shift + 7 * bs.length ≤ 35 →
    m * 2 ^ shift < 2 ^ 32 → jsDecLen d a shift pos = some (a + m * 2 ^ shift, pos + bs.length)
  | [], m, a, shift, pos => by rintro ⟨h, _⟩; simp [leb] at h
  | b :: bs, m, a, shift, pos => by
    rintro ⟨h, hv, hl⟩ hs hm
    simp only [leb] at h
    simp only [List.length_cons] at hl hs ⊢
    have hg := jsGet_of_rd (rd_of_bytes hv)
    by_cases hb : b.toNat < 128
    · rw [if_pos hb] at h
      split at h
      · rename_i hnil
        cases h
        obtain ⟨v, hx, e1, e2⟩ := ofNat_toNat8 b hb
        obtain ⟨t1, t2, t3, t4⟩ := testHi v hx
        subst hnil
        rw [jsDecLen, if_neg (by omega), hg]
        have hF : ¬ (shift = 28 ∧ b &&& 0xF0#8 ≠ 0#8) := by
          rintro ⟨rfl, h2⟩
          exact h2 (and_F0 b (by omega))
        rw [if_neg hF, if_pos (by rw [e1]; exact t1)]
        have : (b &&& 0x7F#8).toNat = b.toNat := by rw [e1, t3]
        rw [this]
        rfl
      · cases h
    · rw [if_neg hb] at h
      cases hm' : leb bs with
      | none => rw [hm'] at h; cases h
      | some m' =>
        rw [hm'] at h
        simp only [Option.map_some, Option.some.injEq] at h
        obtain ⟨v, hx, e1, e2⟩ := ofNat_toNat8' b hb
        obtain ⟨t1, t2, t3, t4⟩ := testHi v hx
        have hne := leb_ne_nil hm'
        have hpow : (2 : Nat) ^ (shift + 7) = 128 * 2 ^ shift := by rw [Nat.pow_add, Nat.mul_comm]
        have hlow : (b &&& 0x7F#8).toNat = v := by
          rw [e1, t4, BitVec.toNat_ofNat]; omega
        have ih := jsDecLen_of d bs m' (a + v * 2 ^ shift) (shift + 7) (pos + 1)
          ⟨hm', LebAt.tail hv, by omega⟩ (by omega) (by
            have : m' * 2 ^ (shift + 7) = (128 * m') * 2 ^ shift := by rw [hpow, ← Nat.mul_assoc, Nat.mul_comm m' 128]
            rw [this]
            refine Nat.lt_of_le_of_lt (Nat.mul_le_mul_right _ ?_) hm
            omega)
        rw [jsDecLen, if_neg (by omega), hg, if_neg (by omega), if_neg (by rw [e1]; exact t2), dif_neg (by omega), hlow, ih, acc_combine]
        rw [show pos + 1 + bs.length = pos + (bs.length + 1) by omega]
        rw [← h, e2]

theorem jsDecBytes_spec {bs s : List Byte} {m pos : Nat} {d : Buf} (h : leb bs = some m) (hf : m = s.length ∧ bs.length ≤ 5 ∧ m < 2 ^ 32)
    (ha : Agrees d (8 * pos) (byteWire (bs ++ s))) : jsDecBytes d pos = .ok (s, bs.length + s.length) := by
  obtain ⟨h1, h2, h3⟩ := LebAt.of_agrees h ha
  obtain ⟨rfl, h5, h6⟩ := hf
  have e := jsDecLen_of d bs _ 0 0 pos h1 (by omega) (by simpa using h6)
  unfold jsDecBytes
  rw [e]
  simp only [Nat.zero_add, Nat.pow_zero, Nat.mul_one]
  rw [if_neg (by omega), h2]
  rw [show pos + bs.length + s.length - pos = bs.length + s.length by omega]

theorem jsScanLen_of (d : Buf) (base k : Nat) : ∀ (bs : List Byte) (m a shift off : Nat), LebAt d (base + off + k) bs m →
    shift + 7 * bs.length ≤ 35 → m * 2 ^ shift < 2 ^ 32 →
    jsScanLen k d base a shift off = .inr (a + m * 2 ^ shift, ((off + bs.length : Nat) : Int))
  | [], m, a, shift, off => by rintro ⟨h, _⟩; simp [leb] at h
  | b :: bs, m, a, shift, off => by
    rintro ⟨h, hv, hl⟩ hs hm
    simp only [leb] at h
    simp only [List.length_cons] at hl hs ⊢
    have ei : (off : Int) + base + k = ((base + off + k : Nat) : Int) := by push_cast; omega
    have hg : (jsGetI d ((off : Int) + base + k)).getD 0#8 = b := by
      rw [ei, jsGetI_nat, rd_of_bytes hv]; rfl
    by_cases hb : b.toNat < 128
    · rw [if_pos hb] at h
      split at h
      · rename_i hnil
        cases h
        obtain ⟨v, hx, e1, e2⟩ := ofNat_toNat8 b hb
        obtain ⟨t1, t2, t3, t4⟩ := testHi v hx
        subst hnil
        rw [jsScanLen]
        simp only [hg]
        have hF : ¬ (shift = 28 ∧ b &&& 0xF0#8 ≠ 0#8) := by
          rintro ⟨rfl, h2⟩
          exact h2 (and_F0 b (by omega))
        rw [if_neg hF, if_pos (by rw [e1]; exact t1)]
        have : (b &&& 0x7F#8).toNat = b.toNat := by rw [e1, t3]
        rw [this]
        simp
      · cases h
    · rw [if_neg hb] at h
      cases hm' : leb bs with
      | none => rw [hm'] at h; cases h
      | some m' =>
        rw [hm'] at h
        simp only [Option.map_some, Option.some.injEq] at h
        obtain ⟨v, hx, e1, e2⟩ := ofNat_toNat8' b hb
        obtain ⟨t1, t2, t3, t4⟩ := testHi v hx
        have hne := leb_ne_nil hm'
        have hpow : (2 : Nat) ^ (shift + 7) = 128 * 2 ^ shift := by rw [Nat.pow_add, Nat.mul_comm]
        have hlow : (b &&& 0x7F#8).toNat = v := by
          rw [e1, t4, BitVec.toNat_ofNat]; omega
        have ih := jsScanLen_of d base k bs m' (a + v * 2 ^ shift) (shift + 7) (off + 1)
          ⟨hm', by
            have := LebAt.tail hv
            rw [show base + (off + 1) + k = base + off + k + 1 by omega]; exact this, by omega⟩ (by omega) (by
            have : m' * 2 ^ (shift + 7) = (128 * m') * 2 ^ shift := by rw [hpow, ← Nat.mul_assoc, Nat.mul_comm m' 128]
            rw [this]
            refine Nat.lt_of_le_of_lt (Nat.mul_le_mul_right _ ?_) hm
            omega)
        rw [jsScanLen]
        simp only [hg, hlow]
        rw [if_neg (by omega), if_neg (by rw [e1]; exact t2), dif_neg (by omega), if_neg (by omega)]
        rw [show ((off : Int) + 1) = ((off + 1 : Nat) : Int) by push_cast; rfl, ih, acc_combine]
        rw [show off + 1 + bs.length = off + (bs.length + 1) by omega]
        rw [← h, e2]

theorem jsDsBytes_spec {bs s : List Byte} {m base off k : Nat} {d : Buf} (h : leb bs = some m)
    (hf : m = s.length ∧ bs.length ≤ 5 ∧ m < 2 ^ 32) (ha : Agrees d (8 * (base + off + k)) (byteWire (bs ++ s))) :
    jsDsBytes k d base off = .ok ((off + (bs.length + s.length) : Nat) : Int) := by
  obtain ⟨h1, h2, h3⟩ := LebAt.of_agrees h ha
  obtain ⟨rfl, h5, h6⟩ := hf
  have hne := leb_ne_nil h
  have e := jsScanLen_of d base k bs _ 0 0 off h1 (by omega) (by simpa using h6)
  unfold jsDsBytes
  rw [if_neg (by omega), e]
  simp only [Nat.zero_add, Nat.pow_zero, Nat.mul_one]
  rw [if_neg (by push_cast; omega)]
  congr 1
  push_cast
  omega

/-! ### All together -/

theorem jsDecSpec_ok (c : JsCfg) : (jsDecSpec c).DecOk where
  loopBase := fun _ _ => rfl
  loopBase0 := rfl
  wrap := fun _ _ _ => rfl
  ret := fun _ _ _ => rfl
  rem := fun _ _ _ _ => rfl
  sub := fun _ _ _ _ _ => rfl
  sc := by
    intro ctx s big arr d start n base x gl ws hwf _ hfit _ hg _ ha
    have hf := Sc.wf_facts hwf
    obtain ⟨r, rfl, hr1, hr2⟩ := hg.raw hwf
    have hfit : s.jsFit false n x := hfit
    cases s with
    | prim p =>
      show jsDecPrim p big d start n base = some (Sc.toJs c ctx (.prim p) x)
      rw [jsNum_toJs hf.2.1 hr1 hr2]
      refine jsDecPrim_spec hf.1 hf.2.1 (fun hp => ?_) (fun hp => ?_) ha
      · subst hp
        rcases hfit.1 rfl with h | h | h
        · cases h
        · exact Or.inl h
        · have := hr1 rfl
          rw [← this] at h
          exact Or.inr (by rw [← conv_toNat (s := .prim .u32) r hf.2.1 rfl]; exact h)
      · subst hp
        rcases hfit.2.1 rfl with h | h
        · cases h
        · exact h
    | enum b =>
      have h := hfit.2.2 b rfl
      simp only [Bool.false_eq_true, if_false] at h
      have hx := hr1 rfl
      have hy := jsDec32_spec hf.1 h.1 ha
      have hxr : r.toNat = (x : BitVec (goUintWidth b)).toNat := by
        rw [← conv_toNat (s := .enum b) r hf.2.1 rfl, hx]
      show some (jsEnumName c ctx (jsDec32 big start n base d).toInt) = _
      have h2 : (x : BitVec (goUintWidth b)).toNat < 2 ^ 31 := h.2
      rw [toInt_of_lt (by omega) (by rw [hy, hxr]; exact h2), hy, hxr]
      exact congrArg some (jsEnumName_eq c ctx b x)
  scLoop := by
    intro ctx s big d start n base x gl ws hwf _ hfit _ hg _ ha
    have hf := Sc.wf_facts hwf
    obtain ⟨r, rfl, hr1, hr2⟩ := hg.raw hwf
    have hv := jsReadFieldBits_spec hf.1 (by omega) ha
    cases s with
    | prim p =>
      show some (jsLoopVal p n _) = some (Sc.toJs c ctx (.prim p) x)
      rw [jsNum_toJs hf.2.1 hr1 hr2, jsLoopVal_spec hf.2.1 hv]
      rfl
    | enum b =>
      have hx := hr1 rfl
      have hxr : r.toNat = (x : BitVec (goUintWidth b)).toNat := by
        rw [← conv_toNat (s := .enum b) r hf.2.1 rfl, hx]
      show some (jsEnumName c ctx ((jsReadFieldBits d _ n big).toNat : Int)) = _
      rw [hv, hxr]
      exact congrArg some (jsEnumName_eq c ctx b x)
  const := by
    intro p n big val start base d hn0 hn hb hval hok _ ha
    have hw := p.width_facts
    have hok : jsConstOk p n val = true := hok
    simp only [jsConstOk, Bool.and_eq_true, Bool.or_eq_true, Bool.not_eq_true', decide_eq_true_eq] at hok
    obtain ⟨⟨h1, h2⟩, h3⟩ := hok
    have hag : Agrees d (8 * base + start) (scWire n big (BitVec.ofNat n val)) := by
      rw [scWire_congr (y := BitVec.ofNat 64 val)]
      · exact ha
      · intro k hk
        rw [BitVec.getLsbD_ofNat, BitVec.getLsbD_ofNat]
        have : k < 64 := by omega
        simp [hk, this]
    have hnat : (BitVec.ofNat n val).toNat = val := by rw [BitVec.toNat_ofNat, Nat.mod_eq_of_lt hval]
    have hdec := jsDecPrim_spec (p := p) (r := BitVec.ofNat n val) hn0 hn (fun hp => ?_) (fun hp => ?_) hag
    · have hnum : jsNum p (BitVec.ofNat n val) = (val : Int) := by
        unfold jsNum
        have hb : p ≠ .bool := by rintro rfl; simp [Prim.isInteger] at h1
        rw [if_neg hb]
        by_cases hs : p.signed = true
        · rw [if_pos hs]
          rcases h2 with h2 | h2
          · rw [hs] at h2; cases h2
          · rw [toInt_of_lt hn0 (by rw [hnat]; exact h2.1), hnat]
        · rw [if_neg hs, hnat]
      show jsDecConst p n big val d start base = some true
      unfold jsDecConst
      rw [if_pos h1, hdec]
      simp only [hnum]
      have : decide (32 < p.width) = decide (2 ^ 31 ≤ val) := by
        by_cases hw64 : p.width = 64
        · rw [if_pos hw64, decide_eq_true_eq] at h3
          rw [decide_eq_true (by omega), decide_eq_true h3]
        · rw [if_neg hw64, decide_eq_true_eq] at h3
          have : p.width ≤ 32 := by revert hw64; cases p <;> simp [Prim.width]
          rw [decide_eq_false (by omega), decide_eq_false (by omega)]
      rw [this]
      simp
    · subst hp
      have h3 : val < 2 ^ 31 := by simpa [Prim.width] using h3
      exact Or.inr (by rw [hnat]; exact h3)
    · subst hp
      rcases h2 with h2 | h2
      · cases h2
      · exact h2.2 rfl
  str := by
    rintro s pos d ⟨cs, rfl⟩ hz _ ha
    show jsDecStr d pos = .ok (utf16 (utf8Dec (utf8 cs)), _)
    rw [utf8Dec_utf8]
    exact jsDecStr_spec hz ha
  dsStr := by
    intro s base off k d hz _ ha
    obtain ⟨h1, h2⟩ := NulAt.of_agrees ha hz
    have hlt := h1.lt
    show jsDsStr k d base off = _
    unfold jsDsStr
    rw [if_neg (by omega)]
    exact jsScanStr_of h1 s.length 0 (by omega)
  bytes := by
    intro bs m s pos d h hf _ ha
    exact jsDecBytes_spec h hf ha
  dsBytes := by
    intro bs m s base off k d h hf _ ha
    exact jsDsBytes_spec h hf ha

theorem jsDecSpec_len (c : JsCfg) : (jsDecSpec c).LenOk := by
  intro bs n h hl hn
  have hn : n < 2 ^ 28 := hn
  have := varint_length_le (n := n) 5 (by omega) (by omega)
  exact ⟨rfl, by omega, by omega⟩

/-! ### Both -/

/-- Scalars that survive encoding and decoding: numbers in the range of the bits, of the values `jsFit`
admits; enums by a name that stands for its number and back. -/
def Sc.jsGood (c : JsCfg) (ctx : List Fields) : (s : Sc) → (lp : Bool) → (n : Nat) → s.JsVal → Prop
  | .prim .bool, _, _, (x : Int) => x = 0 ∨ x = 1
  | .prim p, lp, n, (x : Int) =>
    (if p.signed then -2 ^ (n - 1) ≤ x ∧ x < 2 ^ (n - 1) else 0 ≤ x ∧ x < 2 ^ n) ∧
    (p = .u32 → lp = true ∨ n < 32 ∨ x < 2 ^ 31) ∧ (p = .i64 → lp = true ∨ n ≠ 32)
  | .enum _, lp, n, (x : JsEnum) =>
    ∃ s v, x = .name s ∧ (c.members ctx).find? (fun m => m.1 == s) = some (s, v) ∧
      (c.members ctx).reverse.find? (fun m => m.2 == v) = some (s, v) ∧ v < 2 ^ n ∧
      (if lp then n ≤ 53 else n ≤ 32 ∧ v < 2 ^ 31)

def jsGood (c : JsCfg) : TgtGood (jsTgt c) where
  sc := fun ctx s lp n x => s.jsGood c ctx lp n x
  str := fun u => ∃ cs : List Char, u = utf16 cs ∧ '\x00' ∉ cs
  maxBytes := 2 ^ 32

theorem ofInt_toNat_of {w n : Nat} {x : Int} (hn : n ≤ w) (h0 : 0 ≤ x) (h1 : x < 2 ^ n) : ((BitVec.ofInt w x).toNat : Int) = x := by
  have hp : (2 : Nat) ^ n ≤ 2 ^ w := Nat.pow_le_pow_right (by omega) hn
  have hp' : ((2 : Int) ^ n) = ((2 ^ n : Nat) : Int) := by push_cast; rfl
  rw [BitVec.toNat_ofInt, Int.emod_eq_of_lt h0 (by omega), Int.toNat_of_nonneg h0]

theorem ofInt_toInt_of {w n : Nat} {x : Int} (hn0 : 0 < n) (hn : n ≤ w) (h0 : -2 ^ (n - 1) ≤ x) (h1 : x < 2 ^ (n - 1)) :
    (BitVec.ofInt w x).toInt = x := by
  have hp : (2 : Nat) ^ (n - 1) ≤ 2 ^ (w - 1) := Nat.pow_le_pow_right (by omega) (by omega)
  have hp' : ((2 : Int) ^ (n - 1)) = ((2 ^ (n - 1) : Nat) : Int) := by push_cast; rfl
  have hp2 : ((2 : Int) ^ (w - 1)) = ((2 ^ (w - 1) : Nat) : Int) := by push_cast; rfl
  exact BitVec.toInt_ofInt_eq_self (by omega) (by omega) (by omega)

theorem jsGood_ok (c : JsCfg) : (jsGood c).Ok (jsSpec c) (jsDecSpec c) where
  maxBytes := Nat.le_refl _
  sc := by
    intro ctx s lp n x hwf h
    have hf := Sc.wf_facts hwf
    have h : s.jsGood c ctx lp n x := h
    show s.jsLegal c ctx x ∧ s.InRange n (s.ofJs c ctx x) ∧ s.jsFit lp n (s.ofJs c ctx x) ∧ s.toJs c ctx (s.ofJs c ctx x) = x
    cases s with
    | enum b =>
      obtain ⟨nm, v, hx, h1, h2, h3, h4⟩ := h
      have hn : n ≤ goUintWidth b := hf.2.1
      have hp : (2 : Nat) ^ n ≤ 2 ^ goUintWidth b := Nat.pow_le_pow_right (by omega) hn
      have hval : JsEnum.val c ctx (.name nm) = (v : Int) := by simp only [JsEnum.val, h1]; rfl
      have hof : (Sc.enum b).ofJs c ctx x = BitVec.ofNat (goUintWidth b) v := by
        have hx : (x : JsEnum) = .name nm := hx
        rw [hx]
        show BitVec.ofInt (goUintWidth b) (JsEnum.val c ctx (.name nm)) = _
        rw [hval, BitVec.ofInt_natCast]
      have hv : (BitVec.ofNat (goUintWidth b) v).toNat = v := by
        rw [BitVec.toNat_ofNat, Nat.mod_eq_of_lt (by omega)]
      rw [hof]
      refine ⟨?_, ?_, ⟨fun e => (nomatch e), fun e => (nomatch e), fun b' _ => ?_⟩, ?_⟩
      · have hx : (x : JsEnum) = .name nm := hx
        rw [hx]
        show ∃ m ∈ c.members ctx, m.1 = nm
        exact ⟨(nm, v), List.mem_of_find?_eq_some h1, rfl⟩
      · show (if (Sc.enum b).signed = true then _ else (BitVec.ofNat (goUintWidth b) v).toNat < 2 ^ n)
        rw [if_neg (by simp [Sc.signed]), hv]
        exact h3
      · show if lp = true then n ≤ 53 else n ≤ 32 ∧ (BitVec.ofNat (goUintWidth b) v).toNat < 2 ^ 31
        rw [hv]
        exact h4
      · have hx : (x : JsEnum) = .name nm := hx
        rw [hx]
        show (match ((c.members ctx).reverse.find? (fun m => m.2 == (BitVec.ofNat (goUintWidth b) v).toNat)) with
          | none => JsEnum.undef
          | some m => .name m.1) = _
        rw [hv, h2]
    | prim p =>
      by_cases hb : p = .bool
      · subst hb
        have key : ∀ y : Int, y = 0 ∨ y = 1 → (Sc.prim .bool).jsLegal c ctx y ∧ (Sc.prim .bool).InRange n ((Sc.prim .bool).ofJs c ctx y) ∧
            (Sc.prim .bool).toJs c ctx ((Sc.prim .bool).ofJs c ctx y) = y := by
          intro y hy
          refine ⟨hy, ?_, ?_⟩
          · show (if (Sc.prim .bool).signed = true then _ else (BitVec.ofInt 8 y).toNat < 2 ^ n)
            rw [if_neg (by simp [Sc.signed, Prim.signed])]
            have h1 : 1 < 2 ^ n := Nat.one_lt_two_pow (by omega)
            have h2 : (BitVec.ofInt 8 y).toNat ≤ 1 := by rcases hy with rfl | rfl <;> decide
            omega
          · rcases hy with rfl | rfl <;> rfl
        obtain ⟨k1, k2, k3⟩ := key x h
        exact ⟨k1, k2, ⟨fun e => (nomatch e), fun e => (nomatch e), fun b e => (nomatch e)⟩, k3⟩
      · have key : ∀ y : Int, (if p.signed then -2 ^ (n - 1) ≤ y ∧ y < 2 ^ (n - 1) else 0 ≤ y ∧ y < 2 ^ n) ∧
            (p = .u32 → lp = true ∨ n < 32 ∨ y < 2 ^ 31) ∧ (p = .i64 → lp = true ∨ n ≠ 32) →
            (Sc.prim p).jsLegal c ctx y ∧ (Sc.prim p).InRange n (BitVec.ofInt p.width y) ∧
            (Sc.prim p).jsFit lp n (BitVec.ofInt p.width y) ∧ (Sc.prim p).toJs c ctx (BitVec.ofInt p.width y) = y := by
          rintro y ⟨h1, h2, h3⟩
          have hn : n ≤ p.width := hf.2.1
          have hpw : ((2 : Int) ^ n) ≤ 2 ^ p.width := by
            have := Nat.pow_le_pow_right (n := 2) (by omega) hn
            have e1 : ((2 : Int) ^ n) = ((2 ^ n : Nat) : Int) := by push_cast; rfl
            have e2 : ((2 : Int) ^ p.width) = ((2 ^ p.width : Nat) : Int) := by push_cast; rfl
            omega
          refine ⟨?_, ?_, ⟨fun e => ?_, fun e => ?_, fun b e => (nomatch e)⟩, ?_⟩
          · revert hb h1 hpw
            cases p <;> simp only [Sc.jsLegal, Prim.signed, Bool.false_eq_true, if_false, Prim.width] <;> intro hb h1 hpw <;>
              first
              | trivial
              | exact absurd rfl hb
              | exact ⟨h1.1, by omega⟩
          · show (if p.signed = true then _ ∧ _ else _)
            by_cases hs : p.signed = true
            · rw [if_pos hs] at h1 ⊢
              have e := ofInt_toInt_of hf.1 hn h1.1 h1.2
              show -2 ^ (n - 1) ≤ (BitVec.ofInt p.width y).toInt ∧ (BitVec.ofInt p.width y).toInt < 2 ^ (n - 1)
              rw [e]; exact h1
            · rw [if_neg hs] at h1 ⊢
              have e := ofInt_toNat_of hn h1.1 h1.2
              show (BitVec.ofInt p.width y).toNat < 2 ^ n
              have e1 : ((2 : Int) ^ n) = ((2 ^ n : Nat) : Int) := by push_cast; rfl
              omega
          · have hp : p = .u32 := by cases e; rfl
            subst hp
            simp only [Prim.signed, Bool.false_eq_true, if_false] at h1
            have e := ofInt_toNat_of hn h1.1 h1.2
            show lp = true ∨ n < 32 ∨ (BitVec.ofInt (Prim.width .u32) y).toNat < 2 ^ 31
            rcases h2 rfl with h | h | h
            · exact Or.inl h
            · exact Or.inr (Or.inl h)
            · exact Or.inr (Or.inr (by omega))
          · have hp : p = .i64 := by cases e; rfl
            exact h3 hp
          · show (if p = .bool then _ else if p.signed = true then (BitVec.ofInt p.width y).toInt else ((BitVec.ofInt p.width y).toNat : Int)) = y
            rw [if_neg hb]
            by_cases hs : p.signed = true
            · rw [if_pos hs] at h1 ⊢
              exact ofInt_toInt_of hf.1 hn h1.1 h1.2
            · rw [if_neg hs] at h1 ⊢
              exact ofInt_toNat_of hn h1.1 h1.2
        refine key x ?_
        cases p <;> first | exact absurd rfl hb | exact h
  str := by
    rintro x ⟨cs, rfl, hz⟩
    have e : (jsSpec c).ofStr (utf16 cs) = utf8 cs := by
      show utf8 (utf16Dec (utf16 cs)) = utf8 cs
      rw [utf16Dec_utf16]
    rw [e]
    refine ⟨⟨cs, rfl⟩, ?_, ⟨cs, rfl⟩, ?_⟩
    · intro h
      obtain ⟨ch, h1, h2⟩ := (utf8_nul cs).mp h
      have : ch = '\x00' := by
        rw [← Char.ofNat_toNat ch, h2]
      exact hz (this ▸ h1)
    · show utf16 (utf8Dec (utf8 cs)) = utf16 cs
      rw [utf8Dec_utf8]

end Bubbler
