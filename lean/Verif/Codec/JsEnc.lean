import Verif.Codec.JsText
import Verif.Codec.TgtEnc

/-
The encoding statements of the JavaScript targets write what Go's write (`TgtSpec.EncOk`).
-/
set_option linter.unusedSimpArgs false
namespace Bubbler

/-! ### What the values mean -/

/-- The number of an enum attribute. -/
def JsEnum.val (c : JsCfg) (ctx : List Fields) : JsEnum → Int
  | .num x => x
  | .name s => (((c.members ctx).find? (fun m => m.1 == s)).map (fun m => (m.2 : Int))).getD 0
  | .undef => 0

/-- The Go value for a scalar attribute. -/
def Sc.ofJs (c : JsCfg) (ctx : List Fields) : (s : Sc) → s.JsVal → BitVec s.width
  | .prim p, (x : Int) => BitVec.ofInt p.width x
  | .enum b, (x : JsEnum) => BitVec.ofInt (goUintWidth b) (x.val c ctx)

/-- Values the encoder is meant for: booleans are 0 or 1, floats are bit patterns, names are members. -/
def Sc.jsLegal (c : JsCfg) (ctx : List Fields) : (s : Sc) → s.JsVal → Prop
  | .prim .bool, (x : Int) => x = 0 ∨ x = 1
  | .prim .f32, (x : Int) => 0 ≤ x ∧ x < 2 ^ 32
  | .prim .f64, (x : Int) => 0 ≤ x ∧ x < 2 ^ 64
  | .prim _, (_ : Int) => True
  | .enum _, (.num _) => True
  | .enum _, (.name s) => ∃ m ∈ c.members ctx, m.1 = s
  | .enum _, .undef => False

/-- Bits the statements handle: see `cOk`; enums of more than 32 bits only in loops, of at most 53 bits. -/
def Sc.jsEncOk (s : Sc) (lp : Bool) (start n : Nat) : Bool :=
  cOk start n && match s with
    | .prim _ => true
    | .enum _ => if lp then decide (n ≤ 53) else decide (n ≤ 32)

def jsSpec (c : JsCfg) : TgtSpec (jsTgt c) where
  maxLen := 2 ^ 28
  maxBytes := 2 ^ 32
  ofSc := Sc.ofJs c
  ofStr := fun u => utf8 (utf16Dec u)
  legalSc := Sc.jsLegal c
  legalStr := fun u => ∃ cs, u = utf16 cs
  encOk := fun s lp start n => s.jsEncOk lp start n
  constOk := fun _ n _ _ start => cOk start n
  loopAny := true

/-! ### Scalars -/

theorem jsExec_of_cExec (fd : Nat → BitVec 64) (base : Nat) : ∀ (ss : List CEnc) (d d' : Buf),
    cExecEnc fd base ss d = some d' → jsExecEnc fd base ss d = d'
  | [], d, d', h => by
    simp only [cExecEnc, List.foldlM_nil] at h
    cases h; rfl
  | s :: ss, d, d', h => by
    simp only [cExecEnc, List.foldlM_cons] at h
    cases hr : d.rd (base + s.bytePos) with
    | none =>
      rw [CEnc.exec, hr] at h; simp at h
    | some b =>
      have hlt := rd_some_lt hr
      have e : CEnc.exec fd base d s = some (CEnc.jsExec fd base d s) := by
        rw [CEnc.exec, hr]
        simp only [Option.bind_eq_bind, Option.bind_some]
        rw [jsPut_wr _ hlt]
        rw [CEnc.jsExec]
        have : jsGet d (base + s.bytePos) = b := by
          have hr2 := hr
          rw [rd_eq_some hlt] at hr2
          simp only [Option.some.injEq] at hr2
          rw [jsGet, hr2]
        rw [this]
      rw [e] at h
      simp only [Option.bind_eq_bind, Option.bind_some] at h
      rw [jsExecEnc, List.foldl_cons]
      exact jsExec_of_cExec fd base ss _ d' h

theorem jsExecEnc_spec (fd : Nat → BitVec 64) {assign} (ha : AssignOk assign) (base start n : Nat) (d : Buf)
    (hd : 8 * base + start + n ≤ 8 * d.length) (hz : ZeroFrom d (8 * base + start)) (hok : cOk start n = true) :
    WritesBits d (jsExecEnc fd base (cEncStmtsFrom assign start (start + n) start) d) (8 * base + start) n (srcBit fd) := by
  obtain ⟨d1, e1, w1⟩ := cExecEnc_spec fd (Nat.le_refl _) ha base start n d hd hz
  rw [jsExec_of_cExec fd base _ _ _ e1]
  exact w1.congr (fun j hj => cFieldBit_ok fd hok j hj)

theorem ofInt_bit (w i : Nat) (x : Int) (h : i < w) : (BitVec.ofInt w x).getLsbD i = decide (x / 2 ^ i % 2 = 1) := by
  rw [← BitVec.testBit_toNat, BitVec.toNat_ofInt, Nat.testBit_eq_decide_div_mod_eq]
  have h0 : (0 : Int) < 2 ^ w := Int.pow_pos (by omega)
  have h1 : (0 : Int) < 2 ^ i := Int.pow_pos (by omega)
  congr 1
  have hr := Int.emod_nonneg x (show ((2 ^ w : Nat) : Int) ≠ 0 by have := Nat.two_pow_pos w; omega)
  have hcast : (((x % ((2 ^ w : Nat) : Int)).toNat / 2 ^ i % 2 : Nat) : Int) = x / 2 ^ i % 2 := by
    rw [Int.natCast_emod, Int.natCast_ediv, Int.toNat_of_nonneg hr]
    have hx := Int.mul_ediv_add_emod x ((2 ^ w : Nat) : Int)
    generalize hq : x / ((2 ^ w : Nat) : Int) = q at hx
    generalize hm : x % ((2 ^ w : Nat) : Int) = r at hx hr ⊢
    obtain ⟨e, he⟩ : ∃ e, w = i + 1 + e := ⟨w - (i + 1), by omega⟩
    have hp : ((2 ^ w : Nat) : Int) = 2 ^ i * (2 * 2 ^ e) := by
      rw [he]; push_cast; rw [Int.pow_add, Int.pow_add]; simp only [Int.pow_one, Int.mul_assoc]
    have e2 : x / 2 ^ i = r / 2 ^ i + 2 * (2 ^ e * q) := by
      rw [← hx, hp]
      rw [show (2:Int) ^ i * (2 * 2 ^ e) * q + r = r + 2 ^ i * (2 * (2 ^ e * q)) by
        rw [Int.mul_assoc, Int.mul_assoc]; exact Int.add_comm _ _]
      exact Int.add_mul_ediv_left _ _ (by omega)
    rw [e2]
    push_cast
    omega
  generalize hN : (x % ((2 ^ w : Nat) : Int)).toNat / 2 ^ i % 2 = N at hcast ⊢
  rw [← hcast]
  apply propext
  omega

theorem jsFieldData_bits {wide big : Bool} {n w : Nat} {x : Int} (hw : n ≤ w) (h64 : n ≤ 64) (h : wide = true ∨ n ≤ 32) (j : Nat) (hj : j < n) :
    srcBit (jsFieldData wide big n x) j = (BitVec.ofInt w x).getLsbD (valueBit big n j) := by
  have hv := valueBit_lt (big := big) hj
  have hk : (if big then n - 8 * (j / 8 + 1) else 8 * (j / 8)) + j % 8 = valueBit big n j := by
    cases big
    · simp only [Bool.false_eq_true, if_false, valueBit_le]; omega
    · simp only [if_true, valueBit_be]; split <;> omega
  rw [← hk] at hv ⊢
  simp only [srcBit, jsFieldData]
  generalize (if big = true then n - 8 * (j / 8 + 1) else 8 * (j / 8)) = k at hv ⊢
  rw [ofInt_bit w _ _ (by omega)]
  cases wide
  · have hn : n ≤ 32 := by rcases h with h | h; cases h; exact h
    simp only [Bool.false_eq_true, if_false]
    rw [Nat.mod_eq_of_lt (show k < 32 by omega), BitVec.getLsbD_signExtend]
    rw [if_pos (by omega), BitVec.getLsbD_sshiftRight, if_pos (by omega)]
    rw [ofInt_bit 32 _ _ (by omega)]
    have : j % 8 < 64 := by omega
    have : ¬ 32 ≤ j % 8 := by omega
    simp [*]
  · simp only [if_true]
    rw [ofInt_bit 64 _ _ (by omega), Int.shiftRight_eq_div_pow]
    have hp : ((2 ^ k : Nat) : Int) = 2 ^ k := by push_cast; rfl
    rw [hp, Int.ediv_ediv_of_nonneg (Int.le_of_lt (Int.pow_pos (by omega))), Int.pow_add]

theorem jsEncInt_spec (wide big : Bool) {w : Nat} (x : Int) (start n base : Nat) (d : Buf) (hw : n ≤ w) (h64 : n ≤ 64)
    (h : wide = true ∨ n ≤ 32) (hok : cOk start n = true)
    (hd : 8 * base + start + n ≤ 8 * d.length) (hz : ZeroFrom d (8 * base + start)) :
    Overlay d (jsExecEnc (jsFieldData wide big n x) base (cEncStmts start n) d) (8 * base + start) (scWire n big (BitVec.ofInt w x)) :=
  Overlay.ofWrites ((jsExecEnc_spec _ assignEmitted_ok base start n d hd hz hok).congr (fun j hj => jsFieldData_bits hw h64 h j hj))

theorem jsWriteFieldBits_spec {w : Nat} (d : Buf) (pos n : Nat) (x : Int) (big : Bool) (hw : n ≤ w) (h64 : n ≤ 64)
    (hd : pos + n ≤ 8 * d.length) (hz : ZeroFrom d pos) (hok : cOk pos n = true) :
    Overlay d (jsWriteFieldBits d pos n x big) pos (scWire n big (BitVec.ofInt w x)) := by
  obtain ⟨d', e, o⟩ := bbWriteFieldBits_spec d pos n (BitVec.ofInt 64 x) big hd
  have h := cWriteFieldBits_eq big pos n (BitVec.ofInt 64 x) d hd hz hok
  rw [e] at h
  have hj : jsWriteFieldBits d pos n x big = d' := by
    rw [jsWriteFieldBits]
    exact jsExec_of_cExec _ 0 _ d d' h
  rw [hj]
  have := Overlay.ofWrites o
  rw [scWire_congr (y := BitVec.ofInt w x)] at this
  · exact this
  · intro k hk
    rw [ofInt_bit _ _ _ (by omega), ofInt_bit _ _ _ (by omega)]

theorem jsEnumNum_eq (c : JsCfg) (ctx : List Fields) (b : Nat) (x : JsEnum) (h : Sc.jsLegal c ctx (.enum b) x) :
    jsEnumNum c ctx x = some (x.val c ctx) := by
  cases x with
  | num i => rfl
  | undef => exact absurd h (by simp [Sc.jsLegal])
  | name s =>
    simp only [Sc.jsLegal] at h
    obtain ⟨m, hm, e⟩ := h
    simp only [jsEnumNum, JsEnum.val]
    cases hf : (c.members ctx).find? (fun m => m.1 == s) with
    | none =>
      rw [List.find?_eq_none] at hf
      exact absurd (by simpa using e) (hf m hm)
    | some m' => rfl

/-! ### Bytes -/

theorem jsLenSize_eq (n : Nat) : jsLenSize n = 1 + lenExtra n := by
  induction n using varint.induct with
  | case1 n hn => rw [jsLenSize, dif_neg (by omega), lenExtra, dif_pos (by rw [Nat.shiftRight_eq_div_pow]; omega)]
  | case2 n hn ih =>
    have e : n >>> 7 = n / 128 := by rw [Nat.shiftRight_eq_div_pow]
    rw [jsLenSize, dif_pos (by omega), lenExtra, dif_neg (by omega), e, ih]

theorem jsEncLen_eq (n : Nat) : ∀ (pos : Nat) (d : Buf),
    jsEncLen n pos d = (jsPutAll d pos (varint n), (varint n).length) := by
  induction n using varint.induct with
  | case1 n hn =>
    intro pos d
    have e : varint n = [BitVec.ofNat 8 n] := by rw [varint, if_pos hn]
    rw [e, jsEncLen]
    simp only [dif_neg (show ¬ n / 128 > 0 by omega), if_neg (show ¬ n / 128 > 0 by omega)]
    have : n % 128 ||| 0 = n := by rw [Nat.or_zero]; omega
    rw [this]
    rfl
  | case2 n hn ih =>
    intro pos d
    have e : varint n = BitVec.ofNat 8 (n % 128 + 128) :: varint (n / 128) := by rw [varint, if_neg hn]
    rw [e, jsEncLen]
    simp only [dif_pos (show n / 128 > 0 by omega), if_pos (show n / 128 > 0 by omega)]
    have : n % 128 ||| 0x80 = n % 128 + 128 := by rw [or80 _ (by omega)]
    rw [this, ih]
    simp only [jsPutAll, List.length_cons, Prod.mk.injEq, true_and]
    omega

/-! ### All together -/

theorem jsSpec_ok (c : JsCfg) : (jsSpec c).EncOk where
  loopBase := fun _ _ => rfl
  loopBase0 := rfl
  maxBytes := by show 2 ^ 32 ≤ 2 ^ 62; decide
  sub := fun _ _ _ _ _ => rfl
  bool := by
    intro ctx s x hb h
    cases s with
    | enum b => simp [Sc.isBool] at hb
    | prim p =>
      have hp : p = .bool := by cases p <;> simp_all [Sc.isBool]
      subst hp
      have key : ∀ y : Int, y = 0 ∨ y = 1 → (BitVec.ofInt 8 y).toNat ≤ 1 := by
        rintro y (h | h) <;> (rw [h]; decide)
      exact key x h
  strSize := by
    rintro s ⟨cs, rfl⟩
    show jsUtf8Count (utf16 cs) = (utf8 (utf16Dec (utf16 cs))).length
    rw [utf16Dec_utf16, jsUtf8Count_eq]
  lenSize := fun n _ => jsLenSize_eq n
  sc := by
    intro ctx s big arr x start n base d hwf _ hok hl _ hd hz
    have hf := Sc.wf_facts hwf
    cases s with
    | prim p =>
      have hok : Sc.jsEncOk (.prim p) false start n = true := hok
      simp only [Sc.jsEncOk, Bool.and_true] at hok
      refine ⟨_, rfl, ?_⟩
      refine jsEncInt_spec _ big (x : Int) start n base d hf.2.1 (by omega) ?_ hok hd hz
      have h1 : (Sc.prim p).width = p.width := rfl
      by_cases h32 : 32 < p.width
      · exact Or.inl (by simp [h32])
      · exact Or.inr (by omega)
    | enum b =>
      have hok : Sc.jsEncOk (.enum b) false start n = true := hok
      simp only [Sc.jsEncOk, Bool.and_eq_true, Bool.false_eq_true, if_false, decide_eq_true_eq] at hok
      refine ⟨_, rfl, ?_⟩
      rw [jsEnumNum_eq c ctx b x hl, Option.getD_some]
      exact jsEncInt_spec _ big _ start n base d hf.2.1 (by omega) (Or.inr hok.2) hok.1 hd hz
  scLoop := by
    intro ctx s big x start n base d hwf _ hok hl _ hd hz
    have hf := Sc.wf_facts hwf
    have hok' : cOk (8 * base + start) n = true := by
      rw [cOk_shift]
      have hok : Sc.jsEncOk s true start n = true := hok
      simp only [Sc.jsEncOk, Bool.and_eq_true] at hok
      exact hok.1
    cases s with
    | prim p => exact ⟨_, rfl, jsWriteFieldBits_spec d _ n (x : Int) big hf.2.1 (by omega) (by omega) hz hok'⟩
    | enum b =>
      refine ⟨_, ?_, jsWriteFieldBits_spec d _ n (JsEnum.val c ctx x) big hf.2.1 (by omega) (by omega) hz hok'⟩
      show jsEncScLoop c ctx (.enum b) big x (8 * base + start) n d = _
      simp only [jsEncScLoop, jsEnumNum_eq c ctx b x hl]
  const := by
    intro p n big val start base d hn hb hok _ hd hz
    refine ⟨_, rfl, ?_⟩
    exact Overlay.ofWrites ((jsExecEnc_spec _ assignEmitted_ok base start n d hd hz hok).congr
      (fun j hj => constData_bits hn hb j hj))
  str := by
    rintro s pos d ⟨cs, rfl⟩ _ hd
    have e : (jsSpec c).ofStr (utf16 cs) = utf8 cs := by
      show utf8 (utf16Dec (utf16 cs)) = utf8 cs
      rw [utf16Dec_utf16]
    rw [e] at hd ⊢
    refine ⟨_, by show jsEncStr (utf16 cs) pos d = _; rw [jsEncStr]; simp only [jsUtf8Put_eq]; rfl, ?_⟩
    have h := jsPutAll_overlay (utf8 cs ++ [0#8]) d pos (by simp only [List.length_append, List.length_singleton]; omega)
    rw [jsPutAll_append] at h
    exact h
  bytes := by
    intro s pos d _ _ hd
    refine ⟨_, by show jsEncBytes s pos d = _; rw [jsEncBytes]; simp only [jsEncLen_eq]; rfl, ?_⟩
    have h := jsPutAll_overlay (varint s.length ++ s) d pos (by simp only [List.length_append]; omega)
    rw [jsPutAll_append] at h
    exact h

end Bubbler
