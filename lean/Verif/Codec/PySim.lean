import Verif.Codec.PyDec

/-
`decode` of the Python target follows the Go target's Decode (without loops), field by field.
-/
set_option linter.unusedSimpArgs false
namespace Bubbler

/-- `str` accepts everything and every number is a member of every enum. -/
def PyCfg.total (c : PyCfg) : Prop := (∀ s, c.utf8 s = true) ∧ ∀ ctx x, c.member ctx x = true

/-- Python's result `p` for Go's result `g`: the same value if Python can hold it, otherwise an
exception; a refusal if Go refuses, unless an exception came first. -/
def PySim {α β : Type} (tot : Prop) (acc : α → Bool) (f : α → β) (g : Res (α × Nat)) (p : Res (β × Nat)) : Prop :=
  match g with
  | .ok (v, o) => p = if acc v then .ok (f v, o) else .panic
  | .fail => p = .fail ∨ (p = .panic ∧ ¬ tot)
  | .panic => True

mutual
  theorem Ty.pyAcc_total {c : PyCfg} (h : c.total) : ∀ (t : Ty) (ctx : List Fields) (v : t.Val), t.pyAcc c ctx v = true
    | .sc (.enum b), ctx, v => h.2 ctx _
    | .sc (.prim _), _, _ => rfl
    | .str, _, (s : List Byte) => h.1 s
    | .bytes, _, _ => rfl
    | .struct fs, ctx, v => Fields.pyAcc_total h fs ctx v
  theorem Fields.pyAcc_total {c : PyCfg} (h : c.total) : ∀ (fs : Fields) (ctx : List Fields) (v : fs.Val),
      fs.pyAcc c ctx v = true
    | .nil, _, _ => rfl
    | .void _ r, ctx, v => Fields.pyAcc_total h r ctx v
    | .const _ _ _ _ r, ctx, v => Fields.pyAcc_total h r ctx v
    | .one t bits big r, ctx, (v : t.Val × r.Val) => by
      have h1 := Ty.pyAcc_total h t (.one t bits big r :: ctx) v.1
      have h2 := Fields.pyAcc_total h r ctx v.2
      simp only [Fields.pyAcc, h1, h2, Bool.and_true]
    | .arr t len bits big r, ctx, (v : List t.Val × r.Val) => by
      have h1 := fun x => Ty.pyAcc_total h t (.arr t len bits big r :: ctx) x
      have h2 := Fields.pyAcc_total h r ctx v.2
      simp only [Fields.pyAcc, h2, Bool.and_true, List.all_eq_true]
      exact fun x _ => h1 x
end

/-! ### Scalars -/

theorem Sc.conv_toPy {s : Sc} {n : Nat} (h : s.wf n = true) (r : BitVec n) :
    (if s.signed then (s.conv r).toInt else ((s.conv r).toNat : Int)) = if s.signed then r.toInt else (r.toNat : Int) := by
  have hf := Sc.wf_facts h
  unfold Sc.conv
  by_cases hs : s.signed = true
  · simp only [hs, if_true]
    exact BitVec.toInt_signExtend_of_le hf.2.1
  · simp only [hs, if_false, Bool.false_eq_true]
    rw [BitVec.toNat_setWidth, Nat.mod_eq_of_lt]
    have := r.isLt
    have : 2 ^ n ≤ 2 ^ s.width := Nat.pow_le_pow_right (by omega) hf.2.1
    omega

theorem Sc.pyFinish_conv {s : Sc} {n : Nat} (c : PyCfg) (ctx : List Fields) (h : s.wf n = true) (r : BitVec n) :
    s.pyFinish c ctx n r.toNat =
      if (Ty.sc s).pyAcc c ctx (s.conv r : BitVec s.width) then .ok ((Ty.sc s).toPy (s.conv r : BitVec s.width)) else .panic := by
  have hc := Sc.conv_toPy h r
  have hf := Sc.wf_facts h
  cases s with
  | enum b =>
    have e1 : (Ty.sc (.enum b)).toPy ((Sc.enum b).conv r) = (r.toNat : Int) := by
      simp only [Ty.toPy]; exact hc
    have e2 : (((Sc.enum b).conv r).toNat : Int) = (r.toNat : Int) := by
      simpa [Sc.signed] using hc
    simp only [Sc.pyFinish, e1, Ty.pyAcc]
    rw [e2]
  | prim p =>
    have e1 : (Ty.sc (.prim p)).toPy ((Sc.prim p).conv r) = if p.signed then r.toInt else (r.toNat : Int) := by
      simp only [Ty.toPy]; exact hc
    simp only [Sc.pyFinish, e1, Ty.pyAcc, if_true]
    rw [pySignExt_eq hf.1]

/-- Reading a scalar whose Python number `y` is what the field bits spell. -/
theorem sc_sim (cg : Cfg) {s : Sc} {n : Nat} {arr big : Bool} (c : PyCfg) (ctx : List Fields) (tot : Prop) (h : s.wf n = true)
    (ha : arr = true → s.wfArr = true) (start off : Nat) (d : Buf) (hd : 8 * off + start + n ≤ 8 * d.length)
    {r : BitVec n} (hr : RawAt d (8 * off + start) n big r) (p : Res (Int × Nat))
    (hp : p = match s.pyFinish c ctx n r.toNat with
      | .ok x => .ok (x, off)
      | .fail => .fail
      | .panic => .panic) :
    PySim tot (fun v => (Ty.sc s).pyAcc c ctx v) (fun v => (Ty.sc s).toPy v)
      ((Ty.sc s).decElem cg big arr d start n off) p := by
  obtain ⟨y, e, r', hraw, hc⟩ := sc_dec_unrolled (big := big) cg.signExt h ha start off d
    (cg.prev (s.tempWidth arr n)) hd
  have hrr := hraw.unique hr
  subst hrr
  simp only [Ty.decElem, e, PySim]
  rw [hp, Sc.pyFinish_conv c ctx h, hc]
  by_cases ha : (Ty.sc s).pyAcc c ctx (s.conv r' : BitVec s.width) = true
  · rw [if_pos ha, if_pos ha]; rfl
  · rw [if_neg ha, if_neg ha]; rfl

/-- A constant matches in Python exactly when it does in Go. -/
theorem const_sim {p : Prim} {big : Bool} {val n : Nat} (hn0 : 0 < n) (hn : n ≤ p.width)
    (hs : p.signed = true → val < 2 ^ (n - 1))
    (start off : Nat) (d : Buf) (hd : 8 * off + start + n ≤ 8 * d.length) (hok : pyOk big start n = true) :
    ∃ (y : BitVec p.width) (z : Nat), decField big start n off d (0#p.width) = some y ∧
      pyDecField big start n off d = some z ∧
      ((if p.signed then pySignExt n z else (z : Int)) = (val : Int) ↔ y.toNat = val) := by
  obtain ⟨y, e, hr⟩ := decField_spec big start n off d (0#p.width) hn hn0 hd
  obtain ⟨r, e2, hraw⟩ := pyDecField_ok off d hok hd
  refine ⟨y, r.toNat, e, e2, ?_⟩
  have hrr := hr.raw.unique hraw
  have hy : y.toNat = r.toNat := by
    rw [← hrr, BitVec.toNat_setWidth, Nat.mod_eq_of_lt]
    apply Nat.lt_pow_two_of_testBit
    intro k hk
    have h2 := hr.2 k hk
    rw [BitVec.getLsbD] at h2
    exact h2
  rw [hy]
  by_cases hsg : p.signed = true
  · simp only [hsg, if_true]
    rw [pySignExt_eq hn0]
    have hv := hs hsg
    have := r.isLt
    rw [BitVec.toInt_eq_toNat_cond]
    have h2 : 2 ^ n = 2 * 2 ^ (n - 1) := by
      conv => lhs; rw [show n = (n - 1) + 1 by omega, Nat.pow_succ, Nat.mul_comm]
    split <;> omega
  · simp only [hsg, if_false, Bool.false_eq_true]
    omega

/-! ### Composition -/

/-- One piece of decoding after another. -/
def seqRes {α γ : Type} (g1 : Res (α × Nat)) (g2 : Nat → Res (γ × Nat)) : Res ((α × γ) × Nat) :=
  match g1 with
  | .fail => .fail
  | .panic => .panic
  | .ok (x, off) =>
    match g2 off with
    | .fail => .fail
    | .panic => .panic
    | .ok (v, off) => .ok ((x, v), off)

theorem PySim.pair {α β γ δ : Type} {tot : Prop} {acc1 : α → Bool} {f1 : α → β} {acc2 : γ → Bool} {f2 : γ → δ}
    {g1 : Res (α × Nat)} {p1 : Res (β × Nat)} {g2 : Nat → Res (γ × Nat)} {p2 : Nat → Res (δ × Nat)}
    (ht1 : tot → ∀ v, acc1 v = true)
    (h1 : PySim tot acc1 f1 g1 p1) (h2 : ∀ x o, g1 = .ok (x, o) → PySim tot acc2 f2 (g2 o) (p2 o))
    (hp2 : ∀ x o, g1 = .ok (x, o) → g2 o ≠ .panic) :
    PySim (α := α × γ) (β := β × δ) tot (fun v => acc1 v.1 && acc2 v.2) (fun v => (f1 v.1, f2 v.2))
      (seqRes g1 g2) (seqRes p1 p2) := by
  unfold seqRes
  cases hg : g1 with
  | panic => trivial
  | fail =>
    rw [hg] at h1
    rcases h1 with h | ⟨h, hn⟩
    · subst h; exact Or.inl rfl
    · subst h; exact Or.inr ⟨rfl, hn⟩
  | ok w =>
    obtain ⟨x, o⟩ := w
    have h2' := h2 x o hg
    have hnp := hp2 x o hg
    rw [hg] at h1
    simp only [PySim] at h1
    simp only
    by_cases ha : acc1 x = true
    · simp only [ha, if_true] at h1
      subst h1
      simp only
      cases hg2 : g2 o with
      | panic => exact absurd hg2 hnp
      | fail =>
        rw [hg2] at h2'
        rcases h2' with h | ⟨h, hn⟩
        · simp only [h]; exact Or.inl rfl
        · simp only [h]; exact Or.inr ⟨rfl, hn⟩
      | ok w =>
        obtain ⟨y, o2⟩ := w
        rw [hg2] at h2'
        simp only [PySim] at h2'
        simp only [PySim, ha, Bool.true_and]
        rw [h2']
        by_cases hb : acc2 y = true
        · simp only [hb, if_true]
        · simp only [hb, if_false, Bool.false_eq_true]
    · simp only [ha, if_false, Bool.false_eq_true] at h1
      subst h1
      simp only
      have hnt : ¬ tot := fun ht => ha (ht1 ht x)
      cases hg2 : g2 o with
      | panic => exact absurd hg2 hnp
      | fail => exact Or.inr ⟨rfl, hnt⟩
      | ok w =>
        simp only [PySim, ha, Bool.false_and, if_false, Bool.false_eq_true]

theorem decIdx_sim {α β : Type} (tot : Prop) (acc : α → Bool) (fv : α → β) (ht : tot → ∀ v, acc v = true)
    (f : Nat → Nat → Res (α × Nat)) (fp : Nat → Nat → Res (β × Nat)) (g : Nat → IScan) (L eb start : Nat)
    (hb : ∀ off o, off ≤ L → g off = .ok o → off ≤ o ∧ o ≤ L)
    (hf : ∀ i off o, g off = .ok o → 8 * o + (start + i * eb) + eb ≤ 8 * L →
      f i off = .fail ∨ ∃ v, f i off = .ok (v, o)) :
    ∀ (n i off o : Nat), off ≤ L → iIter g n off = .ok o → 8 * o + start + (i + n) * eb ≤ 8 * L →
    (∀ j off o, i ≤ j → j < i + n → g off = .ok o → 8 * o + (start + j * eb) + eb ≤ 8 * L →
      PySim tot acc fv (f j off) (fp j off)) →
    decIdx f n i off ≠ .panic ∧
      PySim tot (fun xs => xs.all acc) (fun xs => xs.map fv) (decIdx f n i off) (decIdx fp n i off) := by
  intro n
  induction n with
  | zero => intro i off o _ h _ _; simp only [decIdx, PySim]; simp
  | succ n ih =>
    intro i off o hoff h hlen hsim
    simp only [iIter] at h
    split at h
    · rename_i o1 h1
      have hb1 := hb _ _ hoff h1
      have hb2 := iIter_bound hb _ _ _ hb1.2 h
      have hm : (i + (n + 1)) * eb = i * eb + eb + n * eb := by
        rw [← Nat.add_assoc, Nat.add_mul, Nat.add_mul, Nat.one_mul]; omega
      have hm2 : (i + 1 + n) * eb = i * eb + eb + n * eb := by
        rw [Nat.add_mul, Nat.add_mul, Nat.one_mul]
      have hs1 := hsim i off o1 (by omega) (by omega) h1 (by omega)
      have hg1 := hf i off o1 h1 (by omega)
      have hih := ih (i + 1) o1 o hb1.2 h (by omega)
        (fun j off o hj1 hj2 hg hl => hsim j off o (by omega) (by omega) hg hl)
      simp only [decIdx]
      rcases hg1 with hg1 | ⟨v, hg1⟩
      · rw [hg1] at hs1 ⊢
        refine ⟨by simp, ?_⟩
        rcases hs1 with hs | ⟨hs, hn⟩ <;> rw [hs]
        · exact Or.inl rfl
        · exact Or.inr ⟨rfl, hn⟩
      · rw [hg1] at hs1 ⊢
        simp only [PySim] at hs1
        simp only
        obtain ⟨hnp, hs2⟩ := hih
        by_cases ha : acc v = true
        · simp only [ha, if_true] at hs1
          rw [hs1]
          simp only
          cases hr : decIdx f n (i + 1) o1 with
          | panic => exact absurd hr hnp
          | fail =>
            rw [hr] at hs2
            refine ⟨by simp, ?_⟩
            rcases hs2 with hs | ⟨hs, hn⟩ <;> rw [hs]
            · exact Or.inl rfl
            · exact Or.inr ⟨rfl, hn⟩
          | ok w =>
            obtain ⟨xs, o2⟩ := w
            rw [hr] at hs2
            simp only [PySim] at hs2 ⊢
            refine ⟨by simp, ?_⟩
            rw [hs2]
            by_cases hb : xs.all acc = true
            · simp only [hb, if_true, List.all_cons, ha, Bool.and_true, List.map_cons]
            · simp only [hb, if_false, List.all_cons, ha, Bool.true_and, Bool.false_eq_true]
        · simp only [ha, if_false, Bool.false_eq_true] at hs1
          have hnt : ¬ tot := fun ht' => ha (ht ht' v)
          rw [hs1]
          cases hr : decIdx f n (i + 1) o1 with
          | panic => exact absurd hr hnp
          | fail => exact ⟨by simp, Or.inr ⟨rfl, hnt⟩⟩
          | ok w => exact ⟨by simp, by simp [PySim, ha]⟩
    · rename_i hne; exact absurd h (hne _)

theorem pyArrElemDec_sim (cg : Cfg) (hcg : ∀ len, cg.useLoop len = false) (c : PyCfg) (ctx : List Fields) (t : Ty) (recP : Nat → Nat → Nat → Res (t.PyVal × Nat))
    (rec : Nat → Nat → Nat → Res (t.Val × Nat)) (len eb start : Nat) (big : Bool) (d : Buf) (i off o : Nat)
    (hrec0 : ∀ s, t = .sc s → ∀ st off, rec st eb off = t.decElem cg big true d st eb off)
    (hok : t.elemOk true (start + i * eb) eb) (hfix : t.fixed eb = eb)
    (hst : ∀ fs, t = .struct fs → start % 8 = 0 ∧ eb % 8 = 0)
    (hal : c.useLoop len = false → t.pyElemOk big (start + i * eb) eb = true)
    (hi : t.iElem ((start + i * eb) / 8) d off = .ok o)
    (hb : 8 * o + (start + i * eb) + eb ≤ 8 * d.length)
    (hrec : t.pyElemOk big (start + i * eb) eb = true →
      PySim c.total (fun v => t.pyAcc c ctx v) (fun v => t.toPy v) (rec (start + i * eb) eb off) (recP (start + i * eb) eb off)) :
    PySim c.total (fun v => t.pyAcc c ctx v) (fun v => t.toPy v)
      (arrElemDec cg t rec len eb start big d i off) (pyArrElemDec c ctx t recP len eb start big d i off) := by
  have hg : arrElemDec cg t rec len eb start big d i off = rec (start + i * eb) eb off := by
    unfold arrElemDec
    rw [hcg, if_neg (by simp)]
  rw [hg]
  unfold pyArrElemDec
  cases hl : c.useLoop len with
  | false => simp only [Bool.false_eq_true, if_false]; exact hrec (hal hl)
  | true =>
    simp only [if_true]
    cases t with
    | sc s =>
      simp only [Ty.elemOk] at hok
      simp only [Ty.iElem] at hi
      cases hi
      obtain ⟨r, e, hraw⟩ := pyReadFieldBits_spec d (8 * off + (start + i * eb)) eb big hb
      rw [hrec0 s rfl]
      refine sc_sim cg (arr := true) c ctx c.total hok.1 (fun _ => hok.2 trivial) (start + i * eb) off d (by omega) hraw _ ?_
      simp only [e]
      rfl
    | str =>
      have e : start + i * eb = start := by simp only [Ty.fixed] at hfix; rw [← hfix]; simp
      rw [e] at hrec ⊢
      exact hrec rfl
    | bytes =>
      have e : start + i * eb = start := by simp only [Ty.fixed] at hfix; rw [← hfix]; simp
      rw [e] at hrec ⊢
      exact hrec rfl
    | struct fs =>
      simp only
      by_cases hdyn : fs.dynamic = true
      · rw [if_pos hdyn]
        have e : start + i * eb = start := by simp only [Ty.fixed, hdyn, if_true] at hfix; rw [← hfix]; simp
        rw [e] at hrec ⊢
        exact hrec rfl
      · rw [if_neg hdyn]
        obtain ⟨h1, h2⟩ := hst fs rfl
        have e : 8 * ((start + i * eb) / 8) = start + i * eb := by
          have : i * eb = 8 * (i * (eb / 8)) := by
            have h3 : eb = 8 * (eb / 8) := by omega
            calc i * eb = i * (8 * (eb / 8)) := by rw [← h3]
              _ = 8 * (i * (eb / 8)) := by rw [Nat.mul_left_comm]
          omega
        rw [e]
        exact hrec rfl

/-- Same value, other offset. -/
def mapOff {α : Type} (k : Nat → Nat) : Res (α × Nat) → Res (α × Nat)
  | .fail => .fail
  | .panic => .panic
  | .ok (v, o) => .ok (v, k o)

theorem PySim.mapOff {α β : Type} {tot : Prop} {acc : α → Bool} {f : α → β} {g : Res (α × Nat)} {p : Res (β × Nat)}
    (k : Nat → Nat) (h : PySim tot acc f g p) : PySim tot acc f (Bubbler.mapOff k g) (Bubbler.mapOff k p) := by
  cases g with
  | panic => trivial
  | fail => rcases h with h | ⟨h, hn⟩ <;> rw [h]; exact Or.inl rfl; exact Or.inr ⟨rfl, hn⟩
  | ok w =>
    obtain ⟨v, o⟩ := w
    simp only [PySim, Bubbler.mapOff] at h ⊢
    rw [h]
    by_cases ha : acc v = true
    · simp only [ha, if_true, Bubbler.mapOff]
    · simp only [ha, if_false, Bool.false_eq_true, Bubbler.mapOff]

mutual
  theorem Ty.pyDec_sim (cg : Cfg) (hcg : ∀ len, cg.useLoop len = false) (c : PyCfg) : ∀ (t : Ty) (ctx : List Fields) (big arr : Bool) (start n : Nat) (d : Buf) (off o : Nat),
      t.wf = true → t.elemOk arr start n → t.noDirectDyn = true → t.sizesOk = true → d.length < 2 ^ 62 →
      t.iElem (start / 8) d off = .ok o → 8 * o + start + t.fixed n ≤ 8 * d.length →
      t.pyAligned c = true → t.pyElemOk big start n = true →
      PySim c.total (fun v => t.pyAcc c ctx v) (fun v => t.toPy v) (t.decElem cg big arr d start n off)
        (t.pyDecElem c ctx big d start n off)
    | .sc s, ctx, big, arr, start, n, d, off, o => by
      intro _ hok _ _ _ hi hb _ hal
      simp only [Ty.elemOk] at hok
      simp only [Ty.iElem] at hi
      cases hi
      simp only [Ty.fixed] at hb
      simp only [Ty.pyElemOk] at hal
      obtain ⟨r, e, hraw⟩ := pyDecField_ok off d hal (by omega)
      refine sc_sim cg c ctx c.total hok.1 hok.2 start off d (by omega) hraw _ ?_
      simp only [Ty.pyDecElem, e]
      rfl
    | .str, ctx, big, arr, start, n, d, off, o => by
      intro _ hok _ _ _ hi hb _ _
      simp only [Ty.iElem] at hi
      obtain ⟨cc, h1, h2⟩ := iLeaf_ok hi
      obtain ⟨a, b⟩ := decString_of_ds h1
      simp only [Ty.decElem, Ty.pyDecElem, pyDecString, a, PySim, Ty.pyAcc, Ty.toPy]
      rfl
    | .bytes, ctx, big, arr, start, n, d, off, o => by
      intro _ hok _ _ _ hi hb _ _
      simp only [Ty.iElem] at hi
      obtain ⟨cc, h1, h2⟩ := iLeaf_ok hi
      obtain ⟨lv, last, a1, a2, a3, a4⟩ := dsBytesAt_ok h1
      have e1 := decBytes_of_ds a1 a2 a4
      have e2 := pyDecBytes_of_ds a1
      simp only [Ty.decElem, Ty.pyDecElem, e1, e2, PySim, Ty.pyAcc, Ty.toPy, if_true]
      rfl
    | .struct fs, ctx, big, arr, start, n, d, off, o => by
      intro hwf hok hnd hsz hd hi hb hal _
      simp only [Ty.elemOk] at hok
      simp only [Ty.wf, Bool.and_eq_true, decide_eq_true_eq] at hwf
      simp only [Ty.sizesOk, Bool.and_eq_true, decide_eq_true_eq] at hsz
      have hnd' : fs.noDirectDyn = true := by simpa [Ty.noDirectDyn] using hnd
      have hal' : fs.pyAligned c 0 = true := by simpa [Ty.pyAligned] using hal
      have key : ∃ o', fs.iFields 0 (d.drop (off + start / 8)) 0 = .ok o' ∧
          o' + fs.sum / 8 ≤ (d.drop (off + start / 8)).length ∧ off + start / 8 ≤ d.length := by
        by_cases hdyn : fs.dynamic = true
        · simp only [Ty.iElem, hdyn, if_true, iSub] at hi
          split at hi
          · rename_i s hs
            cases hi
            obtain ⟨o', h1, h2, h3⟩ := iFinish_bound hs
            exact ⟨o', h1, by omega, by omega⟩
          · cases hi
        · simp only [Ty.iElem, hdyn, Bool.false_eq_true, if_false] at hi
          cases hi
          simp only [Ty.fixed, hdyn, Bool.false_eq_true, if_false] at hb
          refine ⟨0, Fields.iFields_static fs 0 _ 0 hwf.1 (by simpa using hdyn), ?_, by omega⟩
          rw [List.length_drop]; omega
      obtain ⟨o', h1, h2, h3⟩ := key
      have hdl : (d.drop (off + start / 8)).length < 2 ^ 62 := by rw [List.length_drop]; omega
      have hsize : fs.iSize (d.drop (off + start / 8)) = .ok (o' + fs.sum / 8) := by
        simp only [Fields.iSize, h1, iFinish]
        rw [if_neg (by omega)]
      have hrel := Fields.decodeSize_rel hwf.1 hsz.1 hsz.2 hdl
      rw [hsize] at hrel
      simp only [RelSize] at hrel
      have hrelP := Fields.pyDecodeSize_rel hwf.1 (d.drop (off + start / 8))
      rw [hsize] at hrelP
      simp only [PRelSize] at hrelP
      have hneg : ¬ ((o' + fs.sum / 8 : Nat) : Int) < 0 := by omega
      have hsim := Fields.pyDec_sim cg hcg c fs ctx 0 (d.drop (off + start / 8)) 0 o' hwf.1 hnd' hsz.1 hdl (by omega) h1 (by omega) hal'
      have hm := hsim.mapOff (fun o => if fs.dynamic then off + (o + fs.sum / 8) else off)
      have eg : (Ty.struct fs).decElem cg big arr d start n off =
          mapOff (fun o => if fs.dynamic then off + (o + fs.sum / 8) else off)
            (fs.decFields cg (d.drop (off + start / 8)) 0 0) := by
        simp only [Ty.decElem, Buf.from?, h3, if_true, hrel]
        rw [if_neg hneg]
        rcases fs.decFields cg (d.drop (off + start / 8)) 0 0 with ⟨v, o⟩ | _ | _ <;> rfl
      have ep : (Ty.struct fs).pyDecElem c ctx big d start n off =
          mapOff (fun o => if fs.dynamic then off + (o + fs.sum / 8) else off)
            (fs.pyDecFields c ctx (d.drop (off + start / 8)) 0 0) := by
        simp only [Ty.pyDecElem, hrelP]
        rw [if_neg hneg]
        rcases fs.pyDecFields c ctx (d.drop (off + start / 8)) 0 0 with ⟨v, o⟩ | _ | _ <;> rfl
      rw [eg, ep]
      simp only [Ty.pyAcc, Ty.toPy]
      exact hm
  theorem Fields.pyDec_sim (cg : Cfg) (hcg : ∀ len, cg.useLoop len = false) (c : PyCfg) : ∀ (fs : Fields) (ctx : List Fields) (start : Nat) (d : Buf) (off o : Nat),
      fs.wf start = true → fs.noDirectDyn = true → fs.sizesOk = true → d.length < 2 ^ 62 → off ≤ d.length →
      fs.iFields start d off = .ok o → 8 * o + start + fs.sum ≤ 8 * d.length → fs.pyAligned c start = true →
      PySim c.total (fun v => fs.pyAcc c ctx v) (fun v => fs.toPy v) (fs.decFields cg d start off)
        (fs.pyDecFields c ctx d start off)
    | .nil, ctx, start, d, off, o => by
      intro _ _ _ _ _ h hb _
      simp only [Fields.decFields, Fields.pyDecFields, PySim, Fields.pyAcc, Fields.toPy, if_true]
    | .void n r, ctx, start, d, off, o => by
      intro hw hn hs hd hoff h hb hal
      simp only [Fields.wf, Fields.noDirectDyn, Fields.sizesOk, Fields.iFields, Fields.sum, Fields.pyAligned] at hw hn hs h hb hal
      have := Fields.pyDec_sim cg hcg c r ctx (start + n) d off o hw hn hs hd hoff h (by omega) hal
      simp only [Fields.decFields, Fields.pyDecFields, Fields.pyAcc, Fields.toPy]
      exact this
    | .const p n big val r, ctx, start, d, off, o => by
      intro hw hn hs hd hoff h hb hal
      simp only [Fields.noDirectDyn, Fields.sizesOk, Fields.iFields, Fields.sum] at hn hs h hb
      simp only [Fields.pyAligned, Bool.and_eq_true] at hal
      simp only [Fields.wf, Bool.and_eq_true, decide_eq_true_eq] at hw
      obtain ⟨⟨⟨⟨⟨⟨w1, w2⟩, w3⟩, w4⟩, w5⟩, w6⟩, w7⟩ := hw
      obtain ⟨⟨a1, a2⟩, a3⟩ := hal
      have hbd := Fields.iFields_bound r _ d off o hoff h
      obtain ⟨y, z, e1, e2, hyz⟩ := const_sim (p := p) (val := val) w2 w3 (fun hs => by simpa [hs] using a2)
        start off d (by omega) a1
      have hrec := Fields.pyDec_sim cg hcg c r ctx (start + n) d off o w7 hn hs hd hoff h (by omega) a3
      by_cases hyv : y.toNat = val
      · have eg : (Fields.const p n big val r).decFields cg d start off = r.decFields cg d (start + n) off := by
          simp only [Fields.decFields, e1]; exact if_pos hyv
        have ep : (Fields.const p n big val r).pyDecFields c ctx d start off = r.pyDecFields c ctx d (start + n) off := by
          simp only [Fields.pyDecFields, e2]; exact if_pos (hyz.mpr hyv)
        rw [eg, ep]
        simp only [Fields.pyAcc, Fields.toPy]
        exact hrec
      · have eg : (Fields.const p n big val r).decFields cg d start off = .fail := by
          simp only [Fields.decFields, e1]; exact if_neg hyv
        have ep : (Fields.const p n big val r).pyDecFields c ctx d start off = .fail := by
          simp only [Fields.pyDecFields, e2]; exact if_neg (fun h => hyv (hyz.mp h))
        rw [eg, ep]
        exact Or.inl rfl
    | .one t bits big r, ctx, start, d, off, o => by
      intro hw hn hs hd hoff h hb hal
      obtain ⟨h1, h2, h3, h4, _⟩ := wf_one hw
      have key : ∃ o1, t.iElem (start / 8) d off = .ok o1 ∧ r.iFields (start + bits.getD 0) d o1 = .ok o ∧
          t.fixed (bits.getD 0) = bits.getD 0 := by
        cases bits with
        | none =>
          simp only [Fields.iFields] at h
          split at h
          · rename_i o1 ho1
            refine ⟨o1, ho1, by simpa using h, ?_⟩
            simp only [Option.getD_none] at h4 ⊢; omega
          · rename_i hne; exact absurd h (hne _)
        | some n =>
          have hdyn := noDirectDyn_one rfl hw hn
          simp only [Fields.iFields] at h
          refine ⟨off, Ty.iElem_static hdyn _ _ _, by simpa using h, ?_⟩
          simp only [hdyn, Bool.false_eq_true, if_false] at h4; omega
      obtain ⟨o1, k1, k2, k3⟩ := key
      simp only [Fields.noDirectDyn, Bool.and_eq_true] at hn
      simp only [Fields.sizesOk, Bool.and_eq_true] at hs
      simp only [Fields.sum] at hb
      simp only [Fields.pyAligned, Bool.and_eq_true] at hal
      obtain ⟨⟨a1, a2⟩, a3⟩ := hal
      have b1 := Ty.iElem_bound t _ d off o1 hoff k1
      have b2 := Fields.iFields_bound r _ d o1 o b1.2 k2
      have hsafe := Ty.decElem_safe cg t big false start (bits.getD 0) d off o1 h1 h3 hn.1.1 hs.1 hd k1 (by rw [k3]; omega)
      have hsafe2 := Fields.decFields_safe cg r (start + bits.getD 0) d o1 o h2 hn.1.2 hs.2 hd b1.2 k2 (by omega)
      have s1 := Ty.pyDec_sim cg hcg c t (.one t bits big r :: ctx) big false start (bits.getD 0) d off o1 h1 h3 hn.1.1 hs.1 hd k1
        (by rw [k3]; omega) a1 a3
      have s2 := Fields.pyDec_sim cg hcg c r ctx (start + bits.getD 0) d o1 o h2 hn.1.2 hs.2 hd b1.2 k2 (by omega) a2
      have hoff1 : ∀ x o', t.decElem cg big false d start (bits.getD 0) off = .ok (x, o') → o' = o1 := by
        intro x o' he
        rcases hsafe with hf | ⟨v, ws, hf, _⟩
        · rw [hf] at he; cases he
        · rw [hf] at he; cases he; rfl
      have := PySim.pair (g2 := fun off => r.decFields cg d (start + bits.getD 0) off)
        (p2 := fun off => r.pyDecFields c ctx d (start + bits.getD 0) off)
        (fun ht v => Ty.pyAcc_total ht t (.one t bits big r :: ctx) v) s1
        (fun x o' he => by rw [hoff1 x o' he]; exact s2)
        (fun x o' he => by
          rw [hoff1 x o' he]
          rcases hsafe2 with hf | ⟨v, ws, hf, _⟩ <;> rw [hf] <;> simp)
      have eg : (Fields.one t bits big r).decFields cg d start off =
          seqRes (t.decElem cg big false d start (bits.getD 0) off)
            (fun off => r.decFields cg d (start + bits.getD 0) off) := by
        simp only [Fields.decFields, seqRes]
        rcases t.decElem cg big false d start (bits.getD 0) off with ⟨v, o⟩ | _ | _
        · simp only
          rcases r.decFields cg d (start + bits.getD 0) o with ⟨v, o⟩ | _ | _ <;> rfl
        · rfl
        · rfl
      have ep : (Fields.one t bits big r).pyDecFields c ctx d start off =
          seqRes (t.pyDecElem c (.one t bits big r :: ctx) big d start (bits.getD 0) off)
            (fun off => r.pyDecFields c ctx d (start + bits.getD 0) off) := by
        simp only [Fields.pyDecFields, seqRes]
        rcases t.pyDecElem c (.one t bits big r :: ctx) big d start (bits.getD 0) off with ⟨v, o⟩ | _ | _
        · simp only
          rcases r.pyDecFields c ctx d (start + bits.getD 0) o with ⟨v, o⟩ | _ | _ <;> rfl
        · rfl
        · rfl
      rw [eg, ep]
      simp only [Fields.pyAcc, Fields.toPy]
      exact this
    | .arr t len bits big r, ctx, start, d, off, o => by
      intro hw hn hs hd hoff h hb hal
      obtain ⟨h0, h1, h2, h3, h4, h5, h7, h6⟩ := wf_arr hw
      have hk : ∀ i off, t.iElem ((start + i * (bits.getD 0 / len)) / 8) d off = t.iElem (start / 8) d off := by
        intro i off
        by_cases hdyn : t.dynamic = true
        · rw [h7.mpr hdyn]; simp
        · rw [Ty.iElem_static (by simpa using hdyn), Ty.iElem_static (by simpa using hdyn)]
      have key : ∃ o1, iIter (fun off => t.iElem (start / 8) d off) len off = .ok o1 ∧
          r.iFields (start + bits.getD 0) d o1 = .ok o := by
        cases bits with
        | none =>
          simp only [Fields.iFields] at h
          split at h
          · rename_i o1 ho1
            exact ⟨o1, ho1, by simpa using h⟩
          · rename_i hne; exact absurd h (hne _)
        | some n =>
          have hdyn : t.dynamic = false := by
            cases hd : t.dynamic with
            | false => rfl
            | true => exact absurd (h7.mpr hd) (by simp)
          simp only [Fields.iFields] at h
          exact ⟨off, iIter_static (fun off => Ty.iElem_static hdyn _ _ _) len off, by simpa using h⟩
      obtain ⟨o1, k1, k2⟩ := key
      simp only [Fields.noDirectDyn, Bool.and_eq_true] at hn
      simp only [Fields.sizesOk, Bool.and_eq_true] at hs
      simp only [Fields.sum] at hb
      simp only [Fields.pyAligned, Bool.and_eq_true, Bool.or_eq_true, List.all_eq_true, List.mem_range] at hal
      obtain ⟨⟨a1, a2⟩, a3⟩ := hal
      have hbd : ∀ off o, off ≤ d.length → t.iElem (start / 8) d off = .ok o → off ≤ o ∧ o ≤ d.length :=
        fun off o h e => Ty.iElem_bound t _ d off o h e
      have b1 := iIter_bound hbd _ _ _ hoff k1
      have b2 := Fields.iFields_bound r _ d o1 o b1.2 k2
      have hdec : ∀ st off o, t.elemOk true st (bits.getD 0 / len) → t.iElem (st / 8) d off = .ok o →
          8 * o + st + bits.getD 0 / len ≤ 8 * d.length →
          SafeElem cg t false (bits.getD 0 / len) big d st off o (t.decElem cg big true d st (bits.getD 0 / len) off) :=
        fun st off o hok hi hb =>
          Ty.decElem_safe cg t big true st _ d off o h1 hok hn.1 hs.1 hd hi (by rw [h4]; exact hb)
      have hel := fun i off o (hi : t.iElem (start / 8) d off = .ok o) hb =>
        arrElemDec_safe cg t (fun from_ n off => t.decElem cg big true d from_ n off) len (bits.getD 0 / len) start big d
          h3 h4 h6 hdec i off o (by rw [hk]; exact hi) hb
      have hsim : ∀ st off o, t.elemOk true st (bits.getD 0 / len) → t.iElem (st / 8) d off = .ok o →
          8 * o + st + bits.getD 0 / len ≤ 8 * d.length → t.pyElemOk big st (bits.getD 0 / len) = true →
          PySim c.total (fun v => t.pyAcc c (.arr t len bits big r :: ctx) v) (fun v => t.toPy v)
            (t.decElem cg big true d st (bits.getD 0 / len) off)
            (t.pyDecElem c (.arr t len bits big r :: ctx) big d st (bits.getD 0 / len) off) :=
        fun st off o hok hi hb hal =>
          Ty.pyDec_sim cg hcg c t (.arr t len bits big r :: ctx) big true st _ d off o h1 hok hn.1 hs.1 hd hi (by rw [h4]; exact hb) a1 hal
      obtain ⟨np, s1⟩ := decIdx_sim c.total (fun v => t.pyAcc c (.arr t len bits big r :: ctx) v) (fun v => t.toPy v)
        (fun ht v => Ty.pyAcc_total ht t (.arr t len bits big r :: ctx) v)
        (arrElemDec cg t (fun from_ n off => t.decElem cg big true d from_ n off) len (bits.getD 0 / len) start big d)
        (pyArrElemDec c (.arr t len bits big r :: ctx) t
          (fun from_ n off => t.pyDecElem c (.arr t len bits big r :: ctx) big d from_ n off) len (bits.getD 0 / len) start big d)
        (fun off => t.iElem (start / 8) d off) d.length (bits.getD 0 / len) start hbd
        (fun i off o hg hl => by
          rcases hel i off o hg hl with hf | ⟨v, ws, hf, _⟩
          · exact Or.inl hf
          · exact Or.inr ⟨v, hf⟩)
        len 0 off o1 hoff k1 (by simp only [Nat.zero_add]; rw [h5]; omega)
        (fun j off o _ hj hg hl => by
          refine pyArrElemDec_sim cg hcg c (.arr t len bits big r :: ctx) t _ _ len (bits.getD 0 / len) start big d j off o
            (fun _ _ _ _ => rfl) (h3 j) h4 h6 (fun hu => ?_) (by rw [hk]; exact hg) hl
            (fun ha => hsim _ off o (h3 j) (by rw [hk]; exact hg) hl ha)
          rcases a3 with a3 | a3
          · rw [hu] at a3; cases a3
          · exact a3 j (by omega))
      have hsafe := decIdx_safe cg t (cg.useLoop len) _ (fun off => t.iElem (start / 8) d off) d (bits.getD 0 / len) start big h4 hbd hel
          len 0 off o1 hoff k1 (by simp only [Nat.zero_add]; rw [h5]; omega)
      have hsafe2 := Fields.decFields_safe cg r (start + bits.getD 0) d o1 o h2 hn.2 hs.2 hd b1.2 k2 (by omega)
      have s2 := Fields.pyDec_sim cg hcg c r ctx (start + bits.getD 0) d o1 o h2 hn.2 hs.2 hd b1.2 k2 (by omega) a2
      have hoff1 : ∀ x o', decIdx (arrElemDec cg t (fun from_ n off => t.decElem cg big true d from_ n off) len
          (bits.getD 0 / len) start big d) len 0 off = .ok (x, o') → o' = o1 := by
        intro x o' he
        rcases hsafe with hf | ⟨xs, wss, hf, _⟩
        · rw [hf] at he; cases he
        · rw [hf] at he; cases he; rfl
      have := PySim.pair (g2 := fun off => r.decFields cg d (start + bits.getD 0) off)
        (p2 := fun off => r.pyDecFields c ctx d (start + bits.getD 0) off)
        (fun ht xs => List.all_eq_true.mpr (fun x _ => Ty.pyAcc_total ht t (.arr t len bits big r :: ctx) x)) s1
        (fun x o' he => by rw [hoff1 x o' he]; exact s2)
        (fun x o' he => by
          rw [hoff1 x o' he]
          rcases hsafe2 with hf | ⟨v, ws, hf, _⟩ <;> rw [hf] <;> simp)
      have eg : (Fields.arr t len bits big r).decFields cg d start off =
          seqRes (decIdx (arrElemDec cg t (fun from_ n off => t.decElem cg big true d from_ n off) len
              (bits.getD 0 / len) start big d) len 0 off)
            (fun off => r.decFields cg d (start + bits.getD 0) off) := by
        simp only [Fields.decFields, seqRes]
        rcases decIdx (arrElemDec cg t (fun from_ n off => t.decElem cg big true d from_ n off) len
              (bits.getD 0 / len) start big d) len 0 off with ⟨v, o⟩ | _ | _
        · simp only
          rcases r.decFields cg d (start + bits.getD 0) o with ⟨v, o⟩ | _ | _ <;> rfl
        · rfl
        · rfl
      have ep : (Fields.arr t len bits big r).pyDecFields c ctx d start off =
          seqRes (decIdx (pyArrElemDec c (.arr t len bits big r :: ctx) t
              (fun from_ n off => t.pyDecElem c (.arr t len bits big r :: ctx) big d from_ n off) len
              (bits.getD 0 / len) start big d) len 0 off)
            (fun off => r.pyDecFields c ctx d (start + bits.getD 0) off) := by
        simp only [Fields.pyDecFields, seqRes]
        rcases decIdx (pyArrElemDec c (.arr t len bits big r :: ctx) t
              (fun from_ n off => t.pyDecElem c (.arr t len bits big r :: ctx) big d from_ n off) len
              (bits.getD 0 / len) start big d) len 0 off with ⟨v, o⟩ | _ | _
        · simp only
          rcases r.pyDecFields c ctx d (start + bits.getD 0) o with ⟨v, o⟩ | _ | _ <;> rfl
        · rfl
        · rfl
      rw [eg, ep]
      simp only [Fields.pyAcc, Fields.toPy]
      exact this
end

end Bubbler
