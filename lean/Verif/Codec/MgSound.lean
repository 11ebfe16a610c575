import Verif.Codec.TgtSound
import Verif.Codec.JsSound
import Verif.Codec.MgDec

/-
What the Java and C# decoders accept, and the values that survive encoding and decoding.
-/
set_option linter.unusedSimpArgs false
namespace Bubbler

theorem mgDecSpec_lenAny (c : MgCfg) : (mgDecSpec c).LenAny := by
  intro bs n h _ hn
  have hn : n < 2 ^ 30 := hn
  exact mgLen_toInt h (by omega)

/-! ### What is accepted -/

/-- A constant that compares equal stands in the data. -/
theorem mgDecConst_sound {c : MgCfg} {p : Prim} {n : Nat} {big : Bool} {val start base : Nat} {d : Buf} (hn0 : 0 < n) (hn : n ≤ p.width)
    (hval : val < 2 ^ n) (hok : mgConstOk c p n = true)
    (hd : 8 * base + start + n ≤ 8 * d.length) (h : mgDecConst c p n big val d start base = some true) :
    Agrees d (8 * base + start) (scWire n big (BitVec.ofNat 64 val)) := by
  have hw := p.width_facts
  simp only [mgConstOk, Bool.and_eq_true, Bool.or_eq_true, Bool.not_eq_true', decide_eq_true_eq] at hok
  obtain ⟨⟨h1, _⟩, h2⟩ := hok
  obtain ⟨r, ha⟩ := raw_exists big (by omega) hd
  suffices hr : r.toNat = val by
    rw [scWire_congr (y := r)]
    · exact ha
    · intro k hk
      rw [BitVec.getLsbD_ofNat, ← hr]
      have : k < 64 := by omega
      simp [this, BitVec.getLsbD]
  have hlt := r.isLt
  have hle : (2 : Nat) ^ n ≤ 2 ^ p.width := Nat.pow_le_pow_right (by omega) hn
  obtain ⟨y, e, hy⟩ := mgDecField_spec (w := p.width) hn0 hn ha
  unfold mgDecConst at h
  rw [if_pos h1, e] at h
  simp only [Option.some.injEq, beq_iff_eq] at h
  have hv : (BitVec.ofNat p.width val).toNat = val := by rw [BitVec.toNat_ofNat, Nat.mod_eq_of_lt (by omega)]
  by_cases hs : p.signed = true
  · rw [if_pos hs] at h
    have hnw : n = p.width := by
      rcases h2 with h2 | h2
      · rw [hs] at h2; cases h2
      · exact h2.2
    have hx := mgExt_eq hn0 hn hy
    have : mgSignExt c n y = r.signExtend p.width := by
      unfold mgSignExt
      split
      · exact hx.1
      · exact hx.2
    rw [this] at h
    subst hnw
    rw [BitVec.signExtend_eq] at h
    rw [h, hv]
  · rw [if_neg hs] at h
    rw [← hy, h, hv]

theorem mgDecLen_ok (d : Buf) (base k : Nat) {x : BitVec 32} {shift off : Nat} {y : BitVec 32} {o : Nat}
    (h : ktDecLen base k d x shift off = .ok (y, o)) :
    ∃ bs m, LebAt d (base + off + k) bs m ∧ o = off + bs.length ∧ y = mgLen bs x shift := by
  fun_induction ktDecLen base k d x shift off with
  | case1 => cases h
  | case2 x shift off b hr hb =>
    cases h
    have hlt := rd_some_lt hr
    rw [rd_eq_some hlt] at hr
    exact ⟨[b], _, LebAt.one hlt (Option.some.inj hr) (and_80 b hb).1, rfl, rfl⟩
  | case3 x shift off b hr hb ih =>
    obtain ⟨bs, m, h1, h4, h5⟩ := ih h
    have hlt := rd_some_lt hr
    rw [rd_eq_some hlt] at hr
    rw [show base + (off + 1) + k = base + off + k + 1 by omega] at h1
    exact ⟨b :: bs, _, LebAt.cons hlt (Option.some.inj hr) (and_80' b hb).1 h1, by rw [List.length_cons]; omega, h5⟩

theorem mgDecBytes_sound {d : Buf} {pos : Nat} {x : List Byte} {m : Nat} (h : mgDecBytes d pos = .ok (x, m)) :
    ∃ bs k, leb bs = some k ∧ (mgLen bs 0#32 0).toInt = (x.length : Int) ∧ m = bs.length + x.length ∧
      Agrees d (8 * pos) (byteWire (bs ++ x)) := by
  unfold mgDecBytes ktDecBytes at h
  cases e : ktDecLen pos 0 d 0#32 0 0 with
  | panic => rw [e] at h; cases h
  | fail => rw [e] at h; cases h
  | ok q =>
    obtain ⟨y, o⟩ := q
    rw [e] at h
    simp only at h
    split at h
    rotate_left
    · cases h
    rename_i hle
    obtain ⟨bs, k, g1, g2, g3⟩ := mgDecLen_ok d pos 0 e
    cases h
    subst g3
    simp only [Nat.add_zero, Nat.zero_add] at g1 g2 hle ⊢
    subst g2
    have hnn : (mgLen bs 0#32 0).toInt = (mgLen bs 0#32 0).toNat := by
      have h0 := hle.1
      rw [BitVec.toInt_eq_toNat_cond] at h0 ⊢
      have := (mgLen bs 0#32 0).isLt
      split
      · rfl
      · rw [if_neg (by assumption)] at h0; omega
    have hx : ((d.drop (pos + bs.length)).take (mgLen bs 0#32 0).toNat).length = (mgLen bs 0#32 0).toNat := by
      rw [List.length_take, List.length_drop]; omega
    exact ⟨bs, k, g1.1, by rw [hx]; exact hnn, by rw [hx], LebAt.to_agrees g1 hle.2⟩

theorem mgDecSpec_sound (c : MgCfg) : (mgDecSpec c).SoundOk true where
  checks := rfl
  wrap := fun _ h0 h1 => w32_id (by omega) (by omega)
  ret := fun _ h0 h1 => w32_id (by omega) (by omega)
  rem := fun n b h hn => mgRem_of c h hn
  maxLen := Nat.le_refl _
  const := by
    intro p n big val start base d hn0 hn _ hval hok _ hd h
    exact mgDecConst_sound hn0 hn hval hok hd h
  str := by
    intro _ pos d x m _ h
    have h : mgDecStr c d pos = .ok (x, m) := h
    unfold mgDecStr at h
    cases e : decStrLen d pos 0 with
    | panic => rw [e] at h; cases h
    | fail => rw [e] at h; cases h
    | ok L =>
      rw [e] at h
      cases h
      obtain ⟨a, b, l⟩ := (decStrLen_ok e (by intro j hj; omega)).to_agrees
      exact ⟨_, b, by rw [l], a⟩
  bytes := by
    intro pos d x m _ h
    exact mgDecBytes_sound h

/-! ### Values that survive -/

/-- Values that survive: booleans are 0 or 1; numbers are in the range of their fields; enum attributes are
members; floats as in `Sc.mgFit`. -/
def Sc.mgGood (c : MgCfg) (ctx : List Fields) : (s : Sc) → (lp : Bool) → (n : Nat) → s.MgVal → Prop
  | .prim p, lp, n, (x : BitVec p.width) =>
    (p = .bool → x.toNat ≤ 1) ∧
    (if p.signed then -2 ^ (n - 1) ≤ x.toInt ∧ x.toInt < 2 ^ (n - 1) else x.toNat < 2 ^ n) ∧
    (p = .f32 ∨ p = .f64 → lp = true ∨ goUintWidth n = p.width ∨ (c.java = true ∧ x.toNat < 2 ^ (goUintWidth n - 1)))
  | .enum _, _, n, (x : Option (BitVec 32)) => n ≤ 32 ∧ ∃ y, x = some y ∧ y.toNat < 2 ^ n ∧ y.toNat < 2 ^ 31 ∧ (c.java = true → c.member ctx y = true)

def mgGood (c : MgCfg) : TgtGood (mgTgt c) where
  sc := fun ctx s lp n x => s.mgGood c ctx lp n x
  str := fun (s : List Byte) => c.decStr s = s ∧ 0#8 ∉ s
  maxBytes := 2 ^ 31

theorem mgGood_ok (c : MgCfg) : (mgGood c).Ok (mgSpec c) (mgDecSpec c) where
  maxBytes := Nat.le_refl _
  sc := by
    intro ctx s lp n x hwf h
    have hf := Sc.wf_facts hwf
    have h : s.mgGood c ctx lp n x := h
    show s.mgLegal x ∧ s.InRange n (s.ofMg x) ∧ s.mgFit c lp n (s.ofMg x) ∧ s.toMg c ctx (s.ofMg x) = x
    cases s with
    | enum b =>
      obtain ⟨hn, y, hx, h1, h2, h3⟩ := h
      have hnw : n ≤ goUintWidth b := hf.2.1
      have hy : (y.signExtend (goUintWidth b)).toNat = y.toNat := by
        rw [BitVec.signExtend_eq_setWidth_of_msb_false (by rw [BitVec.msb_eq_decide, decide_eq_false]; omega), BitVec.toNat_setWidth,
          Nat.mod_eq_of_lt (Nat.lt_of_lt_of_le h1 (Nat.pow_le_pow_right (by omega) hnw))]
      have key : ∀ z : Option (BitVec 32), z = some y → (Sc.enum b).mgLegal z ∧ (Sc.enum b).InRange n ((Sc.enum b).ofMg z) ∧
          (Sc.enum b).mgFit c lp n ((Sc.enum b).ofMg z) ∧ (Sc.enum b).toMg c ctx ((Sc.enum b).ofMg z) = z := by
        rintro z rfl
        refine ⟨fun e => (nomatch e), ?_, ⟨fun _ _ => hn, fun e => ?_⟩, ?_⟩
        · show (if (Sc.enum b).signed = true then _ else (y.signExtend (goUintWidth b)).toNat < 2 ^ n)
          rw [if_neg (by simp [Sc.signed]), hy]
          exact h1
        · rcases e with e | e <;> cases e
        · show mgEnum c ctx ((y.signExtend (goUintWidth b)).setWidth 32) = some y
          have : (y.signExtend (goUintWidth b)).setWidth 32 = y := by
            apply BitVec.eq_of_toNat_eq
            rw [BitVec.toNat_setWidth, hy, Nat.mod_eq_of_lt y.isLt]
          rw [this]
          unfold mgEnum
          by_cases hj : c.java = true
          · rw [if_pos hj, if_pos (h3 hj)]
          · rw [if_neg hj]
      exact key x hx
    | prim p =>
      have key : ∀ z : BitVec p.width, (Sc.prim p).mgGood c ctx lp n z → (Sc.prim p).mgLegal z ∧ (Sc.prim p).InRange n z ∧
          (Sc.prim p).mgFit c lp n z ∧ (Sc.prim p).toMg c ctx z = z := by
        rintro z ⟨h1, h2, h3⟩
        refine ⟨?_, ?_, ⟨fun b e => (nomatch e), fun e => ?_⟩, ?_⟩
        · cases p <;> first
            | exact h1 rfl
            | exact trivial
        · exact h2
        · exact h3 (by rcases e with e | e <;> cases e <;> simp)
        · simp only [Sc.toMg]
          by_cases hb : p = .bool
          · subst hb
            rw [if_pos rfl]
            have h1 : z.toNat ≤ 1 := h1 rfl
            split
            · rename_i h0; exact h0.symm
            · rename_i h0
              apply BitVec.eq_of_toNat_eq
              have : z.toNat ≠ 0 := fun e => h0 (BitVec.eq_of_toNat_eq (by simpa using e))
              have e1 : (1#Prim.bool.width).toNat = 1 := rfl
              omega
          · rw [if_neg hb]
      exact key x h
  str := fun x h => ⟨trivial, h.2, trivial, h.1⟩

/-- Integers in range survive. -/
theorem mgGood_of {c : MgCfg} {ctx : List Fields} {p : Prim} {lp : Bool} {n : Nat} {x : BitVec p.width} (h : (Sc.prim p).InRange n x)
    (hb : p ≠ .bool) (h1 : p ≠ .f32) (h2 : p ≠ .f64) : (mgGood c).sc ctx (.prim p) lp n x :=
  ⟨fun e => absurd e hb, h, fun e => (e.elim (absurd · h1) (absurd · h2))⟩

end Bubbler
