import Verif.Codec.MgTgt
import Verif.Codec.TgtEnc

/-
The encoding statements of Java and C# write what Go's write (`TgtSpec.EncOk`).
-/
set_option linter.unusedSimpArgs false
namespace Bubbler

/-! ### What the values mean -/

/-- The Go value for a scalar attribute. -/
def Sc.ofMg : (s : Sc) → s.MgVal → BitVec s.width
  | .prim _, x => x
  | .enum b, (x : Option (BitVec 32)) => (x.getD 0#32).signExtend (goUintWidth b)

/-- Values the encoder is meant for: booleans are 0 or 1, enum attributes are not null. -/
def Sc.mgLegal : (s : Sc) → s.MgVal → Prop
  | .prim .bool, (x : BitVec 8) => x.toNat ≤ 1
  | .prim _, _ => True
  | .enum _, (x : Option (BitVec 32)) => x ≠ none

/-- Bits the statements handle: see `cOk`; Java's enums have at most 32 bits. -/
def Sc.mgEncOk (c : MgCfg) (s : Sc) (start n : Nat) : Bool :=
  cOk start n && match s with
    | .prim _ => true
    | .enum _ => !c.java || decide (n ≤ 32)

def mgSpec (c : MgCfg) : TgtSpec (mgTgt c) where
  maxLen := 2 ^ 30
  maxBytes := 2 ^ 31
  ofSc := fun _ s => s.ofMg
  ofStr := fun s => s
  legalSc := fun _ s => s.mgLegal
  legalStr := fun _ => True
  encOk := fun s _ start n => s.mgEncOk c start n
  constOk := fun _ n _ _ start => cOk start n
  loopAny := !c.java

/-! ### Scalars -/

theorem mgFieldData_bits {sg big : Bool} {n w : Nat} (x : BitVec w) (hw : n ≤ w) (h64 : w ≤ 64) (j : Nat) (hj : j < n) :
    srcBit (mgFieldData sg big n x) j = x.getLsbD (valueBit big n j) := by
  have hv := valueBit_lt (big := big) hj
  have hk : (if big then n - 8 * (j / 8 + 1) else 8 * (j / 8)) + j % 8 = valueBit big n j := by
    cases big
    · simp only [Bool.false_eq_true, if_false, valueBit_le]; omega
    · simp only [if_true, valueBit_be]; split <;> omega
  rw [← hk] at hv ⊢
  simp only [srcBit, mgFieldData]
  generalize (if big = true then n - 8 * (j / 8 + 1) else 8 * (j / 8)) = k at hv ⊢
  have h8 : j % 8 < 8 := Nat.mod_lt _ (by omega)
  generalize j % 8 = e at hv h8 ⊢
  by_cases h32 : w ≤ 32
  · rw [if_pos h32, Nat.mod_eq_of_lt (show k < 32 by omega)]
    cases sg
    · simp only [Bool.false_eq_true, if_false]
      rw [BitVec.getLsbD_setWidth, BitVec.getLsbD_ushiftRight, BitVec.getLsbD_setWidth]
      rw [decide_eq_true (show e < 64 by omega), decide_eq_true (show k + e < 32 by omega), Bool.true_and, Bool.true_and]
    · simp only [if_true]
      rw [BitVec.getLsbD_signExtend, if_pos (show e < 32 by omega), BitVec.getLsbD_sshiftRight,
        if_pos (show k + e < 32 by omega), BitVec.getLsbD_signExtend, if_pos (show k + e < w by omega)]
      rw [decide_eq_true (show e < 64 by omega), decide_eq_true (show k + e < 32 by omega),
        decide_eq_false (show ¬ 32 ≤ e by omega)]
      simp
  · rw [if_neg h32, Nat.mod_eq_of_lt (show k < 64 by omega)]
    cases sg
    · simp only [Bool.false_eq_true, if_false]
      rw [BitVec.getLsbD_ushiftRight, BitVec.getLsbD_setWidth]
      rw [decide_eq_true (show k + e < 64 by omega), Bool.true_and]
    · simp only [if_true]
      rw [BitVec.getLsbD_sshiftRight,
        if_pos (show k + e < 64 by omega), BitVec.getLsbD_signExtend, if_pos (show k + e < w by omega)]
      rw [decide_eq_true (show k + e < 64 by omega), decide_eq_false (show ¬ 64 ≤ e by omega)]
      simp

theorem mgExec_spec (sg big : Bool) {w w' : Nat} (x : BitVec w) (y : BitVec w') (start n base : Nat) (d : Buf) (hw : n ≤ w) (h64 : w ≤ 64)
    (hxy : ∀ k, k < n → x.getLsbD k = y.getLsbD k) (hok : cOk start n = true)
    (hd : 8 * base + start + n ≤ 8 * d.length) (hz : ZeroFrom d (8 * base + start)) :
    ∃ d', cExecEnc (mgFieldData sg big n x) base (cEncStmts start n) d = some d' ∧
      Overlay d d' (8 * base + start) (scWire n big y) := by
  obtain ⟨d1, e1, w1⟩ := cExecEnc_spec (mgFieldData sg big n x) (Nat.le_refl _) assignEmitted_ok base start n d hd hz
  refine ⟨d1, e1, ?_⟩
  rw [← scWire_congr hxy]
  exact Overlay.ofWrites (w1.congr (fun j hj => (cFieldBit_ok _ hok j hj).trans (mgFieldData_bits x hw h64 j hj)))

theorem mgWrite_spec {w : Nat} (v : BitVec 64) (y : BitVec w) (d : Buf) (pos n : Nat) (big : Bool)
    (hxy : ∀ k, k < n → v.getLsbD k = y.getLsbD k)
    (hd : pos + n ≤ 8 * d.length) (hz : ZeroFrom d pos) (hok : cOk pos n = true) :
    ∃ d', cWriteFieldBits d pos n v big = some d' ∧ Overlay d d' pos (scWire n big y) := by
  obtain ⟨d', e, o⟩ := bbWriteFieldBits_spec d pos n v big hd
  refine ⟨d', (cWriteFieldBits_eq big pos n v d hd hz hok).trans e, ?_⟩
  rw [← scWire_congr hxy]
  exact Overlay.ofWrites o

theorem signExtend_low {w v k : Nat} (x : BitVec w) (h : k < w) (hv : k < v) : (x.signExtend v).getLsbD k = x.getLsbD k := by
  rw [BitVec.getLsbD_signExtend, if_pos h, decide_eq_true hv, Bool.true_and]

theorem signExtend_signExtend_low {w u v k : Nat} (x : BitVec w) (hu : k < u) (hv : k < v) :
    (x.signExtend u).getLsbD k = (x.signExtend v).getLsbD k := by
  rw [BitVec.getLsbD_signExtend, BitVec.getLsbD_signExtend, decide_eq_true hu, decide_eq_true hv]

/-! ### Bytes -/

theorem lenExtra_zero (n : Nat) (h : n < 128) : lenExtra n = 0 := by
  rw [lenExtra, dif_pos (by rw [Nat.shiftRight_eq_div_pow]; omega)]

theorem lenExtra_succ (n : Nat) (h : ¬ n < 128) : lenExtra n = 1 + lenExtra (n / 128) := by
  rw [lenExtra, dif_neg (by rw [Nat.shiftRight_eq_div_pow]; omega), Nat.shiftRight_eq_div_pow]

theorem mgLenSize_eq (n : Nat) (h : n < 2 ^ 31) : mgLenSize n = 1 + lenExtra n := by
  simp only [mgLenSize, List.map_cons, List.map_nil, List.foldl_cons, List.foldl_nil, Nat.shiftRight_eq_div_pow]
  by_cases h1 : n < 128
  · rw [lenExtra_zero n h1, if_neg (by omega), if_neg (by omega), if_neg (by omega), if_neg (by omega)]
  rw [lenExtra_succ n h1]
  by_cases h2 : n / 128 < 128
  · rw [lenExtra_zero _ h2, if_pos (by omega), if_neg (by omega), if_neg (by omega), if_neg (by omega)]
  rw [lenExtra_succ _ h2]
  by_cases h3 : n / 128 / 128 < 128
  · rw [lenExtra_zero _ h3, if_pos (by omega), if_pos (by omega), if_neg (by omega), if_neg (by omega)]
  rw [lenExtra_succ _ h3]
  by_cases h4 : n / 128 / 128 / 128 < 128
  · rw [lenExtra_zero _ h4, if_pos (by omega), if_pos (by omega), if_pos (by omega), if_neg (by omega)]
  rw [lenExtra_succ _ h4, lenExtra_zero _ (by omega), if_pos (by omega), if_pos (by omega), if_pos (by omega), if_pos (by omega)]

theorem mgClear80 (n : Nat) (h : n < 128) : BitVec.ofNat 8 (n &&& 0x7F ||| 0x80) &&& ~~~0x80#8 = BitVec.ofNat 8 n := by
  have key : ∀ m : Fin 128, BitVec.ofNat 8 (m.val &&& 0x7F ||| 0x80) &&& ~~~0x80#8 = BitVec.ofNat 8 m.val := by decide
  exact key ⟨n, h⟩

/-- The length prefix: all its bytes but the last, and the last with the continuation bit. -/
theorem mgEncLen_spec (n : Nat) : ∀ (pos : Nat) (d : Buf), pos + (varint n).length ≤ d.length →
    ∃ d1 b d2, mgEncLen n pos d = some (d1, (varint n).length) ∧ d1.rd (pos + (varint n).length - 1) = some b ∧
      d1.wr (pos + (varint n).length - 1) (b &&& ~~~0x80#8) = some d2 ∧ Overlay d d2 (8 * pos) (byteWire (varint n)) := by
  induction n using varint.induct with
  | case1 n hn =>
    intro pos d h
    have e : varint n = [BitVec.ofNat 8 n] := by rw [varint, if_pos hn]
    rw [e] at h ⊢
    simp only [List.length_singleton] at h ⊢
    have e2 : ¬ n >>> 7 > 0 := by rw [Nat.shiftRight_eq_div_pow]; omega
    obtain ⟨d1, h1, o1⟩ := Overlay.wr (d := d) (k := pos) (b := BitVec.ofNat 8 (n &&& 0x7F ||| 0x80)) (by omega)
    have hd1 : d1 = d.set pos (BitVec.ofNat 8 (n &&& 0x7F ||| 0x80)) := by
      simp only [Buf.wr, if_pos (show pos < d.length by omega), Option.some.injEq] at h1
      exact h1.symm
    have hrd : d1.rd pos = some (BitVec.ofNat 8 (n &&& 0x7F ||| 0x80)) := by
      rw [hd1, rd_eq_some (by rw [List.length_set]; omega), List.getD_eq_getElem?_getD, List.getElem?_set_self (by omega)]
      rfl
    have hwr : d1.wr pos (BitVec.ofNat 8 n) = d.wr pos (BitVec.ofNat 8 n) := by
      rw [hd1]
      simp only [Buf.wr, List.length_set, List.set_set]
    obtain ⟨d2, h2, o2⟩ := Overlay.wr (d := d) (k := pos) (b := BitVec.ofNat 8 n) (by omega)
    refine ⟨d1, _, d2, ?_, by rw [Nat.add_sub_cancel]; exact hrd, ?_, o2⟩
    · rw [mgEncLen, h1]
      simp only [dif_neg e2]
    · rw [Nat.add_sub_cancel, mgClear80 n hn, hwr]
      exact h2
  | case2 n hn ih =>
    intro pos d h
    have e : varint n = BitVec.ofNat 8 (n % 128 + 128) :: varint (n / 128) := by rw [varint, if_neg hn]
    rw [e] at h ⊢
    simp only [List.length_cons] at h ⊢
    have e2 : n >>> 7 = n / 128 := by rw [Nat.shiftRight_eq_div_pow]
    have e3 : n &&& 0x7F ||| 0x80 = n % 128 + 128 := by
      rw [and7F, or80 _ (by omega)]
    obtain ⟨d0, h0, o0⟩ := Overlay.wr (d := d) (k := pos) (b := BitVec.ofNat 8 (n % 128 + 128)) (by omega)
    obtain ⟨d1, b, d2, h1, hb, h2, o2⟩ := ih (pos + 1) d0 (by rw [o0.1]; omega)
    have ep : pos + ((varint (n / 128)).length + 1) - 1 = pos + 1 + (varint (n / 128)).length - 1 := by omega
    refine ⟨d1, b, d2, ?_, by rw [ep]; exact hb, by rw [ep]; exact h2, ?_⟩
    · rw [mgEncLen, e3, h0]
      simp only [e2]
      rw [dif_pos (show n / 128 > 0 by omega), h1]
    · rw [show BitVec.ofNat 8 (n % 128 + 128) :: varint (n / 128) = [BitVec.ofNat 8 (n % 128 + 128)] ++ varint (n / 128) from rfl,
        byteWire_append]
      refine o0.append ?_
      rw [byteWire_length]
      exact o2

theorem mgEncBytes_spec (s : List Byte) (pos : Nat) (d : Buf) (hd : pos + ((varint s.length).length + s.length) ≤ d.length) :
    ∃ d', mgEncBytes s pos d = some (d', (varint s.length).length + s.length) ∧
      Overlay d d' (8 * pos) (byteWire (varint s.length ++ s)) := by
  obtain ⟨d1, b, d2, h1, hb, h2, o2⟩ := mgEncLen_spec s.length pos d (by omega)
  obtain ⟨d3, h3, o3⟩ := Overlay.copyAt (d := d2) (k := pos + (varint s.length).length) (s := s) (by rw [o2.1]; omega)
  refine ⟨d3, ?_, ?_⟩
  · simp only [mgEncBytes, h1, hb, h2]
    rw [ktCopyInto_eq (by rw [o2.1]; omega), h3]
  · rw [byteWire_append]
    refine o2.append ?_
    rw [byteWire_length, ← Nat.mul_add]
    exact o3

/-! ### All together -/

theorem mgSpec_ok (c : MgCfg) : (mgSpec c).EncOk where
  loopBase := by
    intro h b
    have h : (!c.java) = true := h
    show (if c.java then 0 else b) = b
    rw [if_neg (by simpa using h)]
  loopBase0 := by show (if c.java then 0 else 0) = 0; split <;> rfl
  maxBytes := by show 2 ^ 31 ≤ 2 ^ 62; decide
  sub := by
    intro n base rel h _
    show (c.lang != .csSpan || (decide (0 ≤ (rel : Int)) && decide ((rel : Int) ≤ n - base))) = true
    rw [decide_eq_true (show (0 : Int) ≤ rel by omega), decide_eq_true (show (rel : Int) ≤ n - base by omega)]
    simp
  bool := by
    intro ctx s x hb h
    cases s with
    | enum b => simp [Sc.isBool] at hb
    | prim p =>
      have hp : p = .bool := by cases p <;> simp_all [Sc.isBool]
      subst hp
      exact h
  strSize := fun _ _ => rfl
  lenSize := fun n h => mgLenSize_eq n h
  sc := by
    intro ctx s big arr x start n base d hwf harr hok hl _ hd hz
    have hf := Sc.wf_facts hwf
    have hok : s.mgEncOk c start n = true := hok
    simp only [Sc.mgEncOk, Bool.and_eq_true] at hok
    cases s with
    | prim p =>
      exact mgExec_spec _ big (x : BitVec p.width) (x : BitVec p.width) start n base d hf.2.1 (Sc.width_le hwf false) (fun _ _ => rfl) hok.1 hd hz
    | enum b =>
      have key : ∀ y : Option (BitVec 32), y ≠ none → ∃ d', mgEncSc c ctx (.enum b) big arr y start n base d = some d' ∧
          Overlay d d' (8 * base + start) (scWire n big ((y.getD 0#32).signExtend (goUintWidth b))) := by
        intro y hy
        cases y with
        | none => exact absurd rfl hy
        | some y =>
          have ht := Sc.temp_facts hwf harr
          have ht2 := Sc.width_le hwf arr
          have h1 : (Sc.enum b).width = goUintWidth b := rfl
          exact mgExec_spec _ big _ _ start n base d (by omega) (by omega)
            (fun k hk => signExtend_signExtend_low y (by omega) (by omega)) hok.1 hd hz
      exact key x hl
  scLoop := by
    intro ctx s big x start n base d hwf _ hok hl _ hd hz
    have hf := Sc.wf_facts hwf
    have hok : s.mgEncOk c start n = true := hok
    simp only [Sc.mgEncOk, Bool.and_eq_true] at hok
    have hok' : cOk (8 * base + start) n = true := by rw [cOk_shift]; exact hok.1
    cases s with
    | prim p =>
      refine mgWrite_spec _ (x : BitVec p.width) d _ n big ?_ (by omega) hz hok'
      have h1 : (Sc.prim p).width = p.width := rfl
      have key : ∀ (y : BitVec p.width) (k : Nat), k < n → (mgU64 c p y).getLsbD k = y.getLsbD k := by
        intro y k hk
        simp only [mgU64]
        split
        · rw [BitVec.getLsbD_setWidth, decide_eq_true (by omega), Bool.true_and]
        · split
          · exact signExtend_low _ (by omega) (by omega)
          · rw [BitVec.getLsbD_setWidth, decide_eq_true (by omega), Bool.true_and]
      exact key x
    | enum b =>
      have key : ∀ y : Option (BitVec 32), y ≠ none → ∃ d', mgEncScLoop c ctx (.enum b) big y (8 * base + start) n d = some d' ∧
          Overlay d d' (8 * base + start) (scWire n big ((y.getD 0#32).signExtend (goUintWidth b))) := by
        intro y hy
        cases y with
        | none => exact absurd rfl hy
        | some y =>
          have h1 : (Sc.enum b).width = goUintWidth b := rfl
          exact mgWrite_spec _ _ d _ n big (fun k hk => signExtend_signExtend_low y (by omega) (by omega)) (by omega) hz hok'
      exact key x hl
  const := by
    intro p n big val start base d hn hb hok _ hd hz
    obtain ⟨d1, e1, w1⟩ := cExecEnc_spec (constData p big val) (by cases p <;> decide) assignEmitted_ok base start n d hd hz
    refine ⟨d1, e1, ?_⟩
    exact Overlay.ofWrites (w1.congr (fun j hj => (cFieldBit_ok _ hok j hj).trans (constData_bits hn hb j hj)))
  str := by
    intro s pos d _ _ hd
    obtain ⟨d', h1, o⟩ := ktEncString_spec s pos 0 d 0 (by have hd : pos + (List.length (α := Byte) s + 1) ≤ d.length := hd; omega)
    refine ⟨d', ?_, ?_⟩
    · show ktEncString s pos 0 d 0 = _
      rw [h1, Nat.zero_add]; rfl
    · exact o
  bytes := fun s pos d _ _ hd => mgEncBytes_spec s pos d hd

end Bubbler
