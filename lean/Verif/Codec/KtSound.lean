import Verif.Codec.KtDec

set_option linter.unusedSimpArgs false
namespace Bubbler

/-! ### What the Kotlin decoder accepts -/

/-- The scan of `decodeSize` does not come to its end with a result of zero or more. -/
def ScanX.bad : ScanX → Prop
  | .ok _ => False
  | .ret r => r < 0
  | .panic => True

theorem decIdx_ok_succ {α : Type} {f : Nat → Nat → Res (α × Nat)} {n i off : Nat} {ys : List α} {o : Nat}
    (h : decIdx f (n + 1) i off = .ok (ys, o)) :
    ∃ y o1 ys', f i off = .ok (y, o1) ∧ decIdx f n (i + 1) o1 = .ok (ys', o) ∧ ys = y :: ys' := by
  simp only [decIdx] at h
  split at h
  · cases h
  · cases h
  · rename_i x off1 e1
    split at h
    · cases h
    · cases h
    · rename_i xs off2 e2
      cases h
      exact ⟨x, off1, xs, e1, e2, rfl⟩

theorem Ty.ktDec_static (c : KtCfg) (t : Ty) (h : t.dynamic = false) {ctx : List Fields} {big : Bool} {d : Buf} {base start n : Nat} {dyn : Bool}
    {i off o : Nat} {kv : t.KtVal} (hk : t.ktDec c ctx big d base start n dyn i off = .ok (kv, o)) : o = off := by
  cases t with
  | str => cases h
  | bytes => cases h
  | sc s =>
    simp only [Ty.ktDec] at hk
    split at hk
    · cases hk
    · cases hk; rfl
  | struct fs =>
    simp only [Ty.dynamic] at h
    simp only [Ty.ktDec] at hk
    split at hk
    · cases hk
    · split at hk
      · cases hk
      · split at hk
        · cases hk
        · cases hk
        · cases hk; simp [h]

theorem decIdx_static {α : Type} {f : Nat → Nat → Res (α × Nat)} (hf : ∀ i off y o, f i off = .ok (y, o) → o = off) :
    ∀ (n i off : Nat) (ys : List α) (o : Nat), decIdx f n i off = .ok (ys, o) → o = off
  | 0, i, off, ys, o, h => by simp only [decIdx] at h; cases h; rfl
  | n + 1, i, off, ys, o, h => by
    obtain ⟨y, o1, ys', h1, h2, _⟩ := decIdx_ok_succ h
    rw [decIdx_static hf n _ _ _ _ h2, hf _ _ _ _ h1]

mutual
  theorem Ty.ktDec_dynBound (c : KtCfg) : ∀ (t : Ty) (ctx : List Fields) (big : Bool) (d : Buf) (base start n : Nat) (dyn : Bool)
      (i off : Nat) (kv : t.KtVal) (o : Nat), t.wf = true → t.noDirectDyn = true → t.dynamic = true →
      (t = .str ∨ t = .bytes ∨ ktOff dyn off = off) →
      t.ktDec c ctx big d base start n dyn i off = .ok (kv, o) → base + off ≤ d.length
    | .sc s, ctx, big, d, base, start, n, dyn, i, off, kv, o => by intro _ _ h; cases h
    | .str, ctx, big, d, base, start, n, dyn, i, off, (kv : List Byte), o => by
      intro _ _ _ _ h
      simp only [Ty.ktDec, ktDecString] at h
      split at h
      · cases h
      · cases h
      · rename_i L e
        have := (decStrLen_ok e (by intro j hj; omega)).lt
        omega
    | .bytes, ctx, big, d, base, start, n, dyn, i, off, (kv : List Byte), o => by
      intro _ _ _ _ h
      simp only [Ty.ktDec] at h
      obtain ⟨bs, m, hl, _⟩ := ktDecBytes_ok h
      have := hl.2.2
      omega
    | .struct fs, ctx, big, d, base, start, n, dyn, i, off, kv, o => by
      intro hwf hnd hdyn ho h
      have ho : ktOff dyn off = off := by simpa using ho
      simp only [Ty.wf, Bool.and_eq_true] at hwf
      simp only [Ty.dynamic] at hdyn
      simp only [Ty.ktDec] at h
      split at h
      · cases h
      · split at h
        · cases h
        · split at h
          · cases h
          · cases h
          · rename_i v o1 e1
            have := Fields.ktDec_dynBound c fs ctx d _ 0 false 0 v o1 hwf.1 (by simpa [Ty.noDirectDyn] using hnd) hdyn (by simp [ktOff]) e1
            rw [ho] at this
            omega
  theorem Fields.ktDec_dynBound (c : KtCfg) : ∀ (fs : Fields) (ctx : List Fields) (d : Buf) (base start : Nat) (dyn : Bool)
      (off : Nat) (kv : fs.KtVal) (o : Nat), fs.wf start = true → fs.noDirectDyn = true → fs.dynamic = true → ktOff dyn off = off →
      fs.ktDecFields c ctx d base start dyn off = .ok (kv, o) → base + off ≤ d.length
    | .nil, ctx, d, base, start, dyn, off, kv, o => by intro _ _ h; cases h
    | .void n r, ctx, d, base, start, dyn, off, kv, o => by
      intro hw hn hdyn ho h
      simp only [Fields.wf, Fields.noDirectDyn, Fields.dynamic] at hw hn hdyn
      simp only [Fields.ktDecFields] at h
      exact Fields.ktDec_dynBound c r ctx d base (start + n) dyn off kv o hw hn hdyn ho h
    | .const p n big val r, ctx, d, base, start, dyn, off, kv, o => by
      intro hw hn hdyn ho h
      simp only [Fields.wf, Fields.noDirectDyn, Fields.dynamic, Bool.and_eq_true] at hw hn hdyn
      simp only [Fields.ktDecFields] at h
      split at h
      · cases h
      · rename_i u e
        by_cases hne : u = ktConst p val &&& ktMask n
        · exact Fields.ktDec_dynBound c r ctx d base (start + n) dyn off kv o hw.2 hn hdyn ho
            ((if_neg (not_not_intro hne)).symm.trans h)
        · have h' := (if_pos hne).symm.trans h
          cases h'
    | .one t bits big r, ctx, d, base, start, dyn, off, kv, o => by
      intro hw hn hdyn ho h
      obtain ⟨n1, n2, n3⟩ := noDirectDyn_bits hw hn
      obtain ⟨h1, h2, h3, h4, h5⟩ := wf_one hw
      simp only [Fields.dynamic] at hdyn
      simp only [Fields.ktDecFields] at h
      split at h
      · cases h
      · cases h
      · rename_i x o1 e1
        cases ht : t.dynamic
        · have hs := Ty.ktDec_static c t ht e1
          subst hs
          rw [ht, Bool.false_or] at hdyn
          split at h
          · cases h
          · cases h
          · rename_i v o2 e2
            exact Fields.ktDec_dynBound c r ctx d base _ _ _ v o2 h2 n2 hdyn (ktOff_next n3 ho (fun _ => rfl)) e2
        · exact Ty.ktDec_dynBound c t _ big d base start _ dyn 0 off x o1 h1 n1 ht (Or.inr (Or.inr ho)) e1
    | .arr t len bits big r, ctx, d, base, start, dyn, off, kv, o => by
      intro hw hn hdyn ho h
      obtain ⟨h0, h1, h2, h3, h4, h5, h7, h6⟩ := wf_arr hw
      have hbn : bits.isNone = t.dynamic := by
        cases ht : t.dynamic
        · cases hb : bits with
          | none => rw [h7.mp hb] at ht; cases ht
          | some n => rfl
        · rw [h7.mpr ht]; rfl
      simp only [Fields.noDirectDyn, Bool.and_eq_true] at hn
      simp only [Fields.dynamic] at hdyn
      simp only [Fields.ktDecFields] at h
      split at h
      · cases h
      · cases h
      · rename_i xs o1 e1
        cases ht : t.dynamic
        · have hs := decIdx_static (fun i off y o hy => Ty.ktDec_static c t ht hy) _ _ _ _ _ e1
          subst hs
          rw [ht, Bool.false_or] at hdyn
          split at h
          · cases h
          · cases h
          · rename_i v o2 e2
            exact Fields.ktDec_dynBound c r ctx d base _ _ _ v o2 h2 hn.2 hdyn (ktOff_next hbn ho (fun _ => rfl)) e2
        · obtain ⟨len', hl'⟩ : ∃ m, len = m + 1 := ⟨len - 1, by omega⟩
          rw [hl'] at e1
          obtain ⟨y, o2, _, e2, _⟩ := decIdx_ok_succ e1
          exact Ty.ktDec_dynBound c t _ big d base start _ _ _ off y o2 h1 hn.1 ht (Or.inr (Or.inr (by simp [ht, ktOff]))) e2
end

theorem iterX_succ_ok {f : Int → ScanX} {n : Nat} {off o : Int} (h : f off = .ok o) : iterX f (n + 1) off = iterX f n o := by
  simp only [iterX, h]

theorem iterX_bad {f : Int → ScanX} {n : Nat} {off : Int} (h : (f off).bad) : (iterX f (n + 1) off).bad := by
  simp only [iterX]
  cases e : f off with
  | ok o => rw [e] at h; exact h.elim
  | ret r => rw [e] at h; exact h
  | panic => trivial

theorem decIdx_sound {α β : Type} {R : α → List (Option Bool) → Prop} (g : α → β) (f : Nat → Nat → Res (β × Nat))
    (sc : Int → ScanX) (d : Buf) (base eb start len : Nat) (dyn tdyn : Bool)
    (hf : ∀ i off y o, i < len → ktOff (dyn || tdyn) off = off → base + off ≤ d.length → f i off = .ok (y, o) →
      off ≤ o ∧ base + o ≤ d.length ∧ (tdyn = false → o = off) ∧ (tdyn = true → sc off = .ok (o : Int) ∨ (sc off).bad) ∧
      (8 * (base + o) + (start + i * eb) + eb ≤ 8 * d.length → (tdyn = true → sc off = .ok (o : Int)) →
        ∃ x w, R x w ∧ Agrees d (8 * (base + off) + (start + i * eb)) w ∧ y = g x ∧ 8 * o + eb = 8 * off + w.length)) :
    ∀ (n i off : Nat) (ys : List β) (o : Nat), i + n ≤ len → ktOff (dyn || tdyn) off = off → base + off ≤ d.length →
      decIdx f n i off = .ok (ys, o) →
      off ≤ o ∧ base + o ≤ d.length ∧ (tdyn = false → o = off) ∧
      (tdyn = true → iterX sc n off = .ok (o : Int) ∨ (iterX sc n off).bad) ∧
      (8 * (base + o) + (start + (i + n) * eb) ≤ 8 * d.length → (tdyn = true → iterX sc n off = .ok (o : Int)) →
        ∃ xs wss, xs.length = n ∧ All2 R xs wss ∧
        (wss = [] ∨ Agrees d (8 * (base + off) + (start + i * eb)) wss.flatten) ∧ ys = xs.map g ∧
        8 * o + n * eb = 8 * off + wss.flatten.length)
  | 0, i, off, ys, o => by
    intro _ _ hb h
    simp only [decIdx] at h
    cases h
    exact ⟨Nat.le_refl _, hb, fun _ => rfl, fun _ => Or.inl rfl, fun _ _ => ⟨[], [], rfl, All2.nil, Or.inl rfl, rfl, by simp⟩⟩
  | n + 1, i, off, ys, o => by
    intro hi ho hb h
    obtain ⟨y, o1, ys', h1, h2, h3⟩ := decIdx_ok_succ h
    obtain ⟨a1, a2, a3, a4, a5⟩ := hf i off y o1 (by omega) ho hb h1
    have ho1 : ktOff (dyn || tdyn) o1 = o1 := by
      cases tdyn
      · rw [a3 rfl]; exact ho
      · simp [ktOff]
    obtain ⟨b1, b2, b3, b4, b5⟩ := decIdx_sound g f sc d base eb start len dyn tdyn hf n (i + 1) o1 ys' o (by omega) ho1 a2 h2
    refine ⟨by omega, b2, fun h => (b3 h).trans (a3 h), ?_, ?_⟩
    · intro ht
      rcases a4 ht with e | e
      · rw [iterX_succ_ok e]; exact b4 ht
      · exact Or.inr (iterX_bad e)
    · intro hle hs
      have hle1 : (i + 1) * eb ≤ (i + (n + 1)) * eb := Nat.mul_le_mul_right _ (by omega)
      have hs1 : tdyn = true → sc off = .ok (o1 : Int) := by
        intro ht
        rcases a4 ht with e | e
        · exact e
        · have := iterX_bad (n := n) e
          rw [hs ht] at this
          exact this.elim
      obtain ⟨x, w, r1, r2, r3, r4⟩ := a5 (by
        rw [Nat.add_mul, Nat.one_mul] at hle1; omega) hs1
      obtain ⟨xs, wss, s1, s2, s3, s4, s5⟩ := b5 (by
        rw [show i + 1 + n = i + (n + 1) by omega]; exact hle) (fun ht => by
        have := hs ht
        rw [iterX_succ_ok (hs1 ht)] at this
        exact this)
      refine ⟨x :: xs, w :: wss, by simp [s1], All2.cons r1 s2, Or.inr ?_, by simp [h3, r3, s4], ?_⟩
      · rw [List.flatten_cons]
        apply Agrees.append.mpr
        refine ⟨r2, ?_⟩
        have hpos : 8 * (base + off) + (start + i * eb) + w.length = 8 * (base + o1) + (start + (i + 1) * eb) := by
          rw [Nat.add_mul, Nat.one_mul]; omega
        rw [hpos]
        rcases s3 with e | e
        · subst e
          refine ⟨?_, by intro j b hj; simp at hj⟩
          have := r2.1
          simp only [List.flatten_nil, List.length_nil]
          omega
        · exact e
      · rw [List.flatten_cons, List.length_append, Nat.add_mul, Nat.one_mul]
        omega

/-- A scalar the Kotlin decoder has read. -/
theorem ktSc_sound (cg : Cfg) {s : Sc} {n : Nat} (lp : Bool) {big : Bool} (c : KtCfg) (ctx : List Fields) (h : s.wf n = true) {pos : Nat}
    {d : Buf} {u : BitVec 64} (hr : ktReadFieldBits d pos n big = some u) :
    ∃ (x : BitVec s.width) (ws : List (Option Bool)), (Ty.sc s).KtRepr cg lp n big x ws ∧ Agrees d pos ws ∧
      s.ktOf c ctx n u = (Ty.sc s).toKt c ctx x ∧ ws.length = n := by
  have hf := Sc.wf_facts h
  have hd : pos + n ≤ 8 * d.length := by
    rw [ktReadFieldBits_eq _ _ _ _ (by omega)] at hr
    rcases bbRead_bound hr with e | e
    · omega
    · exact e
  obtain ⟨v, r, e, hraw, hc⟩ := ktRead_spec (big := big) c ctx h d pos hd
  rw [hr] at e
  cases e
  by_cases hb : (s.isBool && lp) = true
  · have hag : Agrees d pos (scWire n big r) := hraw.toAgrees hd (fun _ _ => rfl)
    have hrep : (Ty.sc s).KtRepr cg lp n big (if r = 0#n then 0#s.width else 1#s.width : BitVec s.width) (scWire n big r) := by
      simp only [Ty.KtRepr]
      rw [if_pos hb]
      exact ⟨r, rfl, rfl⟩
    obtain ⟨u', e', e2⟩ := ktSc_agrees cg c ctx h pos d _ _ hrep hag
    rw [hr] at e'
    cases e'
    exact ⟨_, _, hrep, hag, e2, scWire_length _ _ _⟩
  · refine ⟨s.conv r, scWire n big (s.conv r), ?_, hraw.toAgrees hd (Sc.conv_bits h r), hc, scWire_length _ _ _⟩
    simp only [Ty.KtRepr]
    rw [if_neg hb]
    exact ⟨Sc.conv_inRange h r, trivial⟩

/-- What a non-negative `decodeSize` says. -/
theorem Fields.ktDecodeSize_inv {fs : Fields} {d : Buf} {base o : Nat} {sz : Int} (hd : d.length < 2 ^ 30) (hb : base < 2 ^ 31)
    (hsm : fs.sum / 8 < 2 ^ 30) (ho : base + o ≤ d.length) (ho0 : fs.dynamic = false → o = 0)
    (hs : fs.dynamic = true → fs.ktDsFields 0 d base 0 = .ok (o : Int) ∨ (fs.ktDsFields 0 d base 0).bad)
    (h : fs.ktDecodeSize d base = some sz) (hz : ¬ sz < 0) :
    sz = ((o + fs.sum / 8 : Nat) : Int) ∧ base + o + fs.sum / 8 ≤ d.length ∧
      (fs.dynamic = true → fs.ktDsFields 0 d base 0 = .ok (o : Int)) := by
  unfold Fields.ktDecodeSize at h
  cases hdyn : fs.dynamic
  · rw [hdyn] at h
    rw [ho0 hdyn]
    rw [if_neg (by simp), w32_id (by omega) (by omega)] at h
    split at h
    · cases h; omega
    · cases h
      rename_i hc
      exact ⟨by simp, by omega, fun h => by cases h⟩
  · rw [hdyn, if_pos rfl] at h
    rcases hs hdyn with e | e
    · rw [e] at h
      simp only [ktDsFinish] at h
      have e1 : (o : Int) + ((fs.sum / 8 : Nat) : Int) = ((o + fs.sum / 8 : Nat) : Int) := by omega
      rw [e1, w32_nat (by omega), w32_id (x := (d.length : Int) - base) (by omega) (by omega)] at h
      split at h
      · rename_i hc
        cases h
        exfalso
        apply hz
        rw [w32_id (by omega) (by omega)]; omega
      · rename_i hc
        cases h
        exact ⟨rfl, by omega, fun _ => e⟩
    · exfalso
      cases e2 : fs.ktDsFields 0 d base 0 with
      | ok o => rw [e2] at e; exact e
      | panic => rw [e2] at h; cases h
      | ret r =>
        rw [e2] at h e
        simp only [ktDsFinish, Option.some.injEq] at h
        subst h
        exact hz e

mutual
  theorem Ty.ktDec_sound (cg : Cfg) (c : KtCfg) : ∀ (t : Ty) (ctx : List Fields) (big arr lp : Bool)
      (base start n : Nat) (dyn : Bool) (i : Nat) (d : Buf) (off : Nat) (kv : t.KtVal) (o : Nat),
      t.wf = true → t.elemOk arr (start + i * n) n → (i ≠ 0 → t.elemOk arr start n) → t.noDirectDyn = true → t.ktSmall = true →
      d.length < 2 ^ 30 → (t = .str ∨ t = .bytes ∨ ktOff dyn off = off) → (t.fixed n ≠ n → i = 0) →
      base + off ≤ d.length → (start + i * n) / 8 < 2 ^ 30 →
      t.ktDec c ctx big d base start n dyn i off = .ok (kv, o) →
      off ≤ o ∧ base + o ≤ d.length ∧ (t.dynamic = false → o = off) ∧
      (t.dynamic = true → t.ktDsElem ((start + i * n) / 8) d base off = .ok (o : Int) ∨
        (t.ktDsElem ((start + i * n) / 8) d base off).bad) ∧
      (8 * (base + o) + (start + i * n) + t.fixed n ≤ 8 * d.length →
        (t.dynamic = true → t.ktDsElem ((start + i * n) / 8) d base off = .ok (o : Int)) →
        ∃ v ws, t.KtRepr cg lp n big v ws ∧ Agrees d (8 * (base + off) + (start + i * n)) ws ∧ kv = t.toKt c ctx v ∧
          8 * o + t.fixed n = 8 * off + ws.length)
    | .sc s, ctx, big, arr, lp, base, start, n, dyn, i, d, off, kv, o => by
      intro hw hok _ _ _ _ ho _ hb _ h
      have ho : ktOff dyn off = off := by simpa using ho
      simp only [Ty.elemOk] at hok
      have hpos : ktBitBase base dyn off start + i * n = 8 * (base + off) + (start + i * n) := by
        unfold ktBitBase; rw [ho]; omega
      simp only [Ty.ktDec, hpos] at h
      split at h
      · cases h
      · rename_i u e
        cases h
        refine ⟨Nat.le_refl _, hb, fun _ => rfl, by simp [Ty.dynamic], fun _ _ => ?_⟩
        obtain ⟨x, ws, a1, a2, a3, a4⟩ := ktSc_sound cg lp c ctx hok.1 e
        exact ⟨x, ws, a1, a2, a3, by simp only [Ty.fixed]; omega⟩
    | .str, ctx, big, arr, lp, base, start, n, dyn, i, d, off, (kv : List Byte), o => by
      intro _ hok _ _ _ hd _ hi hb _ h
      have hz : i * n = 0 := by
        by_cases hn : n = 0
        · simp [hn]
        · rw [hi (by simp only [Ty.fixed]; omega)]; simp
      simp only [Ty.elemOk] at hok
      rw [hz] at hok ⊢
      simp only [Ty.ktDec, ktDecString] at h
      split at h
      · cases h
      · cases h
      · rename_i L e
        cases h
        have hn := decStrLen_ok e (by intro j hj; omega)
        have hlt := hn.lt
        obtain ⟨a1, a2, a3⟩ := hn.to_agrees
        refine ⟨by omega, by omega, by simp [Ty.dynamic], fun _ => Or.inl ?_, fun _ _ => ?_⟩
        · simp only [Ty.ktDsElem, Nat.add_zero]
          exact ktDsString_of hn hd
        · refine ⟨(d.drop (base + off + start / 8)).take L, _, ⟨a2, rfl⟩, ?_, rfl, ?_⟩
          · have e : 8 * (base + off) + (start + 0) = 8 * (base + off + start / 8) := by omega
            rw [e]; exact a1
          · simp only [Ty.fixed, byteWire_length, List.length_append, a3, List.length_cons, List.length_nil]
            omega
    | .bytes, ctx, big, arr, lp, base, start, n, dyn, i, d, off, (kv : List Byte), o => by
      intro _ hok _ _ _ hd _ hi hb _ h
      have hz : i * n = 0 := by
        by_cases hn : n = 0
        · simp [hn]
        · rw [hi (by simp only [Ty.fixed]; omega)]; simp
      simp only [Ty.elemOk] at hok
      rw [hz] at hok ⊢
      simp only [Ty.ktDec] at h
      obtain ⟨bs, m, hl, h1, h2, h3⟩ := ktDecBytes_ok h
      refine ⟨by omega, by omega, by simp [Ty.dynamic], fun _ => ?_, fun _ hs => ?_⟩
      · simp only [Ty.ktDsElem, Nat.add_zero]
        by_cases h5 : bs.length ≤ 5
        · left
          obtain ⟨g1, g2, g3, g4⟩ := h3 h5
          rw [g4]
          exact ktDsBytes_short hd hl h5 g1
        · right
          rw [ktDsBytes_long hd hl (by omega)]
          show (-1 : Int) < 0
          decide
      · have h5 : bs.length ≤ 5 := by
          by_cases h5 : bs.length ≤ 5
          · exact h5
          · have := hs rfl
            simp only [Ty.ktDsElem, Nat.add_zero] at this
            rw [ktDsBytes_long hd hl (by omega)] at this
            cases this
        obtain ⟨g1, g2, g3, g4⟩ := h3 h5
        refine ⟨kv, byteWire (bs ++ kv), ⟨bs, m, hl.1, g2.symm, h5, rfl⟩, ?_, rfl, ?_⟩
        · have e : 8 * (base + off) + (start + 0) = 8 * (base + off + start / 8) := by omega
          rw [e, g3]
          exact hl.to_agrees (by omega)
        · simp only [Ty.fixed, byteWire_length, List.length_append]
          omega
    | .struct fs, ctx, big, arr, lp, base, start, n, dyn, i, d, off, kv, o => by
      intro hwf hok hok0 hnd hsm hd ho hi hb hst h
      have ho : ktOff dyn off = off := by simpa using ho
      simp only [Ty.elemOk] at hok hok0
      simp only [Ty.wf, Bool.and_eq_true, decide_eq_true_eq] at hwf
      simp only [Ty.ktSmall, Bool.and_eq_true, decide_eq_true_eq] at hsm
      have hb1 : 8 * (base + ktOff dyn off + start / 8 + i * (n / 8)) = 8 * (base + off) + (start + i * n) := by
        rw [ho]
        by_cases hi0 : i = 0
        · subst hi0; simp only [Nat.zero_mul, Nat.add_zero] at hok ⊢; omega
        · have h8 := hok0 hi0
          have hn8 : n % 8 = 0 := by
            by_cases hf : (Ty.struct fs).fixed n = n
            · simp only [Ty.fixed] at hf
              split at hf <;> omega
            · exact absurd (hi hf) hi0
          have : n = 8 * (n / 8) := by omega
          have e2 : i * n = 8 * (i * (n / 8)) := by
            conv => lhs; rw [this]
            rw [Nat.mul_left_comm]
          omega
      generalize hbb : base + ktOff dyn off + start / 8 + i * (n / 8) = b at hb1
      have hb2 : b = base + off + (start + i * n) / 8 := by omega
      have hb31 : b < 2 ^ 31 := by omega
      simp only [Ty.ktDec, hbb, w32_nat hb31] at h
      split at h
      · cases h
      · rename_i sz hsz
        split at h
        · cases h
        · rename_i hneg
          split at h
          · cases h
          · cases h
          · rename_i v o1 e1
            have hnd' : fs.noDirectDyn = true := by simpa [Ty.noDirectDyn] using hnd
            have hbl' : fs.dynamic = true → b ≤ d.length := fun hdyn =>
              Fields.ktDec_dynBound c fs ctx d b 0 false 0 v o1 hwf.1 hnd' hdyn (by simp [ktOff]) e1
            by_cases hbl : b ≤ d.length
            rotate_left
            · -- an empty struct of fixed size behind the end: nothing is read
              have hdyn : fs.dynamic = false := by
                cases hdyn : fs.dynamic
                · rfl
                · exact absurd (hbl' hdyn) hbl
              have hoo := congrArg Prod.snd (Res.ok.inj h)
              simp only [hdyn, Bool.false_eq_true, if_false] at hoo
              subst hoo
              refine ⟨Nat.le_refl _, hb, fun _ => rfl, by simp [Ty.dynamic, hdyn], fun hle _ => ?_⟩
              omega
            obtain ⟨c1, c2, c3, c4, c5⟩ := Fields.ktDec_sound cg c fs ctx b 0 false d 0 v o1 hwf.1 hnd' hsm.1 hd (by simp [ktOff])
              hbl (by omega) e1
            obtain ⟨g1, g2, g3⟩ := Fields.ktDecodeSize_inv (o := o1) hd hb31 hsm.2 c2 c3 (fun _ => c4) hsz hneg
            have hfin : off + (o1 + fs.sum / 8) < 2 ^ 31 := by omega
            have hscan : fs.dynamic = true →
                (Ty.struct fs).ktDsElem ((start + i * n) / 8) d base off = .ok ((off + (o1 + fs.sum / 8) : Nat) : Int) := by
              intro hdyn
              simp only [Ty.ktDsElem, hdyn, if_true, ktDsSub]
              have hw3 : (base : Int) + off + ((start + i * n) / 8 : Nat) = (b : Int) := by rw [hb2]; simp only [Int.natCast_add]
              rw [hw3, w32_nat hb31]
              have hsz2 := hsz
              rw [Fields.ktDecodeSize, if_pos hdyn] at hsz2
              simp only [hsz2]
              rw [if_neg hneg, g1, ← Int.natCast_add, w32_nat hfin]
            have hrep : ∃ v' ws, fs.KtRepr cg v' ws ∧ Agrees d (8 * b) ws ∧ v = fs.toKt c ctx v' ∧ 8 * o1 + fs.sum = ws.length := by
              have hscan0 : fs.ktDsFields 0 d b 0 = .ok (o1 : Int) := by
                cases hdyn : fs.dynamic
                · have := Fields.ktDsFields_static fs hdyn 0 d b 0
                  rw [c3 hdyn]; exact this
                · exact g3 hdyn
              obtain ⟨v', ws, r1, r2, r3, r4⟩ := c5 (by omega) hscan0
              exact ⟨v', ws, r1, by simpa using r2, r3, by omega⟩
            obtain ⟨v', ws, r1, r2, r3, r4⟩ := hrep
            have hoo := congrArg Prod.snd (Res.ok.inj h)
            have hv := congrArg Prod.fst (Res.ok.inj h)
            simp only at hoo hv
            have hsn : sz.toNat = o1 + fs.sum / 8 := by rw [g1, Int.toNat_natCast]
            rw [hsn] at hoo
            refine ⟨?_, ?_, ?_, ?_, ?_⟩
            · rw [← hoo]; split <;> omega
            · rw [← hoo]; split <;> omega
            · intro hdyn
              simp only [Ty.dynamic] at hdyn
              rw [← hoo]; simp [hdyn]
            · intro hdyn
              simp only [Ty.dynamic] at hdyn
              left
              rw [hscan hdyn, ← hoo, if_pos hdyn]
            · intro _ _
              refine ⟨v', ws, r1, by rw [← hb1]; exact r2, hv.symm.trans r3, ?_⟩
              simp only [Ty.fixed]
              rw [← hoo]
              cases hdyn : fs.dynamic
              · have := c3 hdyn
                simp only [Bool.false_eq_true, if_false]
                omega
              · simp only [if_true]; omega
  theorem Fields.ktDec_sound (cg : Cfg) (c : KtCfg) : ∀ (fs : Fields) (ctx : List Fields)
      (base start : Nat) (dyn : Bool) (d : Buf) (off : Nat) (kv : fs.KtVal) (o : Nat),
      fs.wf start = true → fs.noDirectDyn = true → fs.ktSmall = true → d.length < 2 ^ 30 → ktOff dyn off = off →
      base + off ≤ d.length → (start + fs.sum) / 8 < 2 ^ 30 →
      fs.ktDecFields c ctx d base start dyn off = .ok (kv, o) →
      off ≤ o ∧ base + o ≤ d.length ∧ (fs.dynamic = false → o = off) ∧
      (fs.ktDsFields start d base off = .ok (o : Int) ∨ (fs.ktDsFields start d base off).bad) ∧
      (8 * (base + o) + start + fs.sum ≤ 8 * d.length → fs.ktDsFields start d base off = .ok (o : Int) →
        ∃ v ws, fs.KtRepr cg v ws ∧ Agrees d (8 * (base + off) + start) ws ∧ kv = fs.toKt c ctx v ∧
          8 * o + fs.sum = 8 * off + ws.length)
    | .nil, ctx, base, start, dyn, d, off, kv, o => by
      intro _ _ _ _ _ hb _ h
      simp only [Fields.ktDecFields] at h
      cases h
      refine ⟨Nat.le_refl _, hb, fun _ => rfl, Or.inl rfl, fun hle _ => ⟨(), [], rfl, ⟨?_, by intro j b hj; simp at hj⟩, rfl, by simp [Fields.sum]⟩⟩
      simp only [Fields.sum] at hle
      simp only [List.length_nil]; omega
    | .void n r, ctx, base, start, dyn, d, off, kv, o => by
      intro hw hn hsm hd ho hb hst h
      simp only [Fields.wf, Fields.noDirectDyn, Fields.ktSmall, Fields.sum] at hw hn hsm hst
      simp only [Fields.ktDecFields] at h
      obtain ⟨c1, c2, c3, c4, c5⟩ := Fields.ktDec_sound cg c r ctx base (start + n) dyn d off kv o hw hn hsm hd ho hb (by omega) h
      refine ⟨c1, c2, c3, by simpa only [Fields.ktDsFields] using c4, ?_⟩
      intro hle hs
      simp only [Fields.sum] at hle
      simp only [Fields.ktDsFields] at hs
      obtain ⟨v, ws, r1, r2, r3, r4⟩ := c5 (by omega) hs
      refine ⟨v, List.replicate n none ++ ws, ⟨ws, r1, rfl⟩, ?_, r3, by
        simp only [Fields.sum, List.length_append, List.length_replicate]; omega⟩
      apply Agrees.append.mpr
      rw [List.length_replicate, Nat.add_assoc]
      refine ⟨⟨?_, ?_⟩, r2⟩
      · have := r2.1
        rw [List.length_replicate]; omega
      · intro j b hj
        rw [List.getElem?_replicate] at hj
        split at hj <;> simp at hj
    | .const p n big val r, ctx, base, start, dyn, d, off, kv, o => by
      intro hw hn hsm hd ho hb hst h
      simp only [Fields.wf, Fields.noDirectDyn, Fields.ktSmall, Fields.sum, Bool.and_eq_true, decide_eq_true_eq] at hw hn hsm hst
      obtain ⟨⟨⟨⟨⟨⟨w1, w2⟩, w3⟩, w4⟩, w5⟩, w6⟩, w7⟩ := hw
      have hw64 : p.width ≤ 64 := by cases p <;> decide
      have hpos : ktBitBase base dyn off start = 8 * (base + off) + start := by
        unfold ktBitBase; rw [ho]; omega
      simp only [Fields.ktDecFields, hpos] at h
      split at h
      · cases h
      · rename_i u e
        by_cases hne : u = ktConst p val &&& ktMask n
        rotate_left
        · have h' := (if_pos hne).symm.trans h
          cases h'
        · have h : r.ktDecFields c ctx d base (start + n) dyn off = .ok (kv, o) := (if_neg (not_not_intro hne)).symm.trans h
          have hbnd : 8 * (base + off) + start + n ≤ 8 * d.length := by
            have e' := e
            rw [ktReadFieldBits_eq _ _ _ _ (by omega)] at e'
            rcases bbRead_bound e' with e2 | e2
            · omega
            · exact e2
          obtain ⟨u', e', hag⟩ := ktConst_dec (big := big) w3 w5 (8 * (base + off) + start) d hbnd
          rw [e] at e'
          cases e'
          have hag := hag.mp hne
          obtain ⟨c1, c2, c3, c4, c5⟩ := Fields.ktDec_sound cg c r ctx base (start + n) dyn d off kv o w7 hn hsm hd ho hb (by omega) h
          refine ⟨c1, c2, c3, by simpa only [Fields.ktDsFields] using c4, ?_⟩
          intro hle hs
          simp only [Fields.sum] at hle
          simp only [Fields.ktDsFields] at hs
          obtain ⟨v, ws, r1, r2, r3, r4⟩ := c5 (by omega) hs
          refine ⟨v, scWire n big (BitVec.ofNat 64 val) ++ ws, ⟨ws, r1, rfl⟩, ?_, r3, by
            simp only [Fields.sum, List.length_append, scWire_length]; omega⟩
          apply Agrees.append.mpr
          rw [scWire_length, Nat.add_assoc]
          exact ⟨hag, r2⟩
    | .one t bits big r, ctx, base, start, dyn, d, off, kv, o => by
      intro hw hn hsm hd ho hb hst h
      obtain ⟨n1, n2, n3⟩ := noDirectDyn_bits hw hn
      obtain ⟨h1, h2, h3, h4, h5⟩ := wf_one hw
      simp only [Fields.ktSmall, Fields.sum, Bool.and_eq_true] at hsm hst
      have hb0 : t.dynamic = true → bits.getD 0 = 0 := by
        intro ht
        rw [ht] at n3
        have : bits = none := by simpa using n3
        simp [this]
      have hgap : (if t.dynamic = true then List.replicate (bits.getD 0) none else ([] : List (Option Bool))) = [] := by
        split
        · rename_i ht; rw [hb0 ht]; rfl
        · rfl
      have hfx : t.fixed (bits.getD 0) = bits.getD 0 := by
        cases ht : t.dynamic
        · rw [ht] at h4; simpa using h4.symm
        · have := hb0 ht
          rw [this, ht] at h4
          rw [this]
          simp only [if_true] at h4
          omega
      simp only [Fields.ktDecFields] at h
      split at h
      · cases h
      · cases h
      · rename_i x o1 e1
        split at h
        · cases h
        · cases h
        · rename_i v2 o2 e2
          cases h
          obtain ⟨a1, a2, a3, a4, a5⟩ := Ty.ktDec_sound cg c t _ big false false base start (bits.getD 0) dyn 0 d off x o1 h1
            (by simpa using h3) (fun h => absurd rfl h) n1 hsm.1 hd (Or.inr (Or.inr ho)) (fun _ => rfl) hb (by omega) e1
          simp only [Nat.zero_mul, Nat.add_zero] at a4 a5
          obtain ⟨c1, c2, c3, c4, c5⟩ := Fields.ktDec_sound cg c r ctx base (start + bits.getD 0) (dyn || bits.isNone) d o1 v2 o h2 n2 hsm.2 hd
            (ktOff_next n3 ho a3) a2 (by omega) e2
          refine ⟨by omega, c2, ?_, ?_, ?_⟩
          · intro hdyn
            simp only [Fields.dynamic, Bool.or_eq_false_iff] at hdyn
            rw [c3 hdyn.2, a3 hdyn.1]
          · simp only [Fields.ktDsFields]
            cases ht : t.dynamic
            · rw [if_neg (by simp)]
              rw [← a3 ht]; exact c4
            · rw [if_pos rfl]
              rcases a4 ht with e | e
              · rw [e]; exact c4
              · right
                cases e3 : t.ktDsElem (start / 8) d base off with
                | ok q => rw [e3] at e; exact e.elim
                | ret q => rw [e3] at e; exact e
                | panic => trivial
          · intro hle hs
            simp only [Fields.sum] at hle
            have hs1 : t.dynamic = true → t.ktDsElem (start / 8) d base off = .ok (o1 : Int) := by
              intro ht
              rcases a4 ht with e | e
              · exact e
              · simp only [Fields.ktDsFields, if_pos ht] at hs
                cases e3 : t.ktDsElem (start / 8) d base off with
                | ok q => rw [e3] at e; exact e.elim
                | ret q => rw [e3] at hs; cases hs
                | panic => rw [e3] at hs; cases hs
            have hs2 : r.ktDsFields (start + bits.getD 0) d base o1 = .ok (o : Int) := by
              simp only [Fields.ktDsFields] at hs
              cases ht : t.dynamic
              · rw [if_neg (by simp [ht])] at hs
                rw [a3 ht]; exact hs
              · rw [if_pos ht, hs1 ht] at hs
                exact hs
            obtain ⟨v, w1, r1, r2, r3, r4⟩ := a5 (by rw [hfx]; omega) hs1
            obtain ⟨v', w2, s1, s2, s3, s4⟩ := c5 (by omega) hs2
            rw [hfx] at r4
            refine ⟨(v, v'), w1 ++ w2, ⟨w1, w2, r1, s1, by rw [hgap, List.append_nil]⟩, ?_, by rw [r3, s3]; rfl, by
              simp only [Fields.sum, List.length_append]; omega⟩
            apply Agrees.append.mpr
            refine ⟨r2, ?_⟩
            have hpos : 8 * (base + off) + start + w1.length = 8 * (base + o1) + (start + bits.getD 0) := by omega
            rw [hpos]; exact s2
    | .arr t len bits big r, ctx, base, start, dyn, d, off, kv, o => by
      intro hw hn hsm hd ho hb hst h
      obtain ⟨h0, h1, h2, h3, h4, h5, h7, h6⟩ := wf_arr hw
      have hbn : bits.isNone = t.dynamic := by
        cases ht : t.dynamic
        · cases hb : bits with
          | none => rw [h7.mp hb] at ht; cases ht
          | some n => rfl
        · rw [h7.mpr ht]; rfl
      simp only [Fields.noDirectDyn, Bool.and_eq_true] at hn
      simp only [Fields.ktSmall, Fields.sum, Bool.and_eq_true] at hsm hst
      have h30 := h3 0
      simp only [Nat.zero_mul, Nat.add_zero] at h30
      have hz : t.dynamic = true → bits.getD 0 / len = 0 := by
        intro ht; rw [h7.mpr ht]; simp
      have ho' : ktOff (dyn || t.dynamic) off = off := by
        cases t.dynamic
        · rw [Bool.or_false]; exact ho
        · simp [ktOff]
      simp only [Fields.ktDecFields] at h
      split at h
      · cases h
      · cases h
      · rename_i xs o1 e1
        split at h
        · cases h
        · cases h
        · rename_i v2 o2 e2
          cases h
          obtain ⟨a1, a2, a3, a4, a5⟩ := decIdx_sound
            (R := fun x w => t.KtRepr cg (cg.useLoop len) (bits.getD 0 / len) big x w)
            (fun x => t.toKt c (.arr t len bits big r :: ctx) x)
            (fun i off => t.ktDec c (.arr t len bits big r :: ctx) big d base start (bits.getD 0 / len)
              (dyn || t.dynamic) (if t.dynamic then 0 else i) off)
            (fun off => t.ktDsElem (start / 8) d base off) d base (bits.getD 0 / len) start len dyn t.dynamic
            (fun i off y o hi ho hb hy => by
              have hib : i * (bits.getD 0 / len) ≤ bits.getD 0 := by
                have := Nat.mul_le_mul_right (bits.getD 0 / len) (show i ≤ len by omega)
                rw [h5] at this; exact this
              cases ht : t.dynamic
              · rw [ht] at ho hy
                simp only [Bool.false_eq_true, if_false] at hy
                obtain ⟨b1, b2, b3, b4, b5⟩ := Ty.ktDec_sound cg c t (.arr t len bits big r :: ctx) big true (cg.useLoop len) base start
                  (bits.getD 0 / len) (dyn || false) i d off y o h1 (h3 i) (fun _ => h30) hn.1 hsm.1 hd (Or.inr (Or.inr ho))
                  (fun h => absurd h4 h) hb (by omega) hy
                refine ⟨b1, b2, fun _ => b3 ht, by simp, fun hle _ => ?_⟩
                obtain ⟨v, ws, r1, r2, r3, r4⟩ := b5 (by rw [h4]; exact hle) (fun h => by rw [ht] at h; cases h)
                exact ⟨v, ws, r1, r2, r3, by rw [h4] at r4; exact r4⟩
              · rw [ht] at ho hy
                simp only [if_true] at hy
                have hz := hz ht
                rw [hz] at hy h30 h4 ⊢
                obtain ⟨b1, b2, b3, b4, b5⟩ := Ty.ktDec_sound cg c t (.arr t len bits big r :: ctx) big true (cg.useLoop len) base start
                  0 (dyn || true) 0 d off y o h1 (by simpa using h30) (fun h => absurd rfl h) hn.1 hsm.1 hd (Or.inr (Or.inr ho))
                  (fun _ => rfl) hb (by omega) hy
                simp only [Nat.zero_mul, Nat.add_zero] at b4 b5
                refine ⟨b1, b2, by simp, fun _ => b4 ht, fun hle hs => ?_⟩
                obtain ⟨v, ws, r1, r2, r3, r4⟩ := b5 (by rw [h4]; simpa using hle) (fun _ => hs rfl)
                exact ⟨v, ws, r1, by simpa using r2, r3, by rw [h4] at r4; exact r4⟩)
            len 0 off xs o1 (by omega) ho' hb e1
          obtain ⟨c1, c2, c3, c4, c5⟩ := Fields.ktDec_sound cg c r ctx base (start + bits.getD 0) (dyn || bits.isNone) d o1 v2 o h2 hn.2 hsm.2 hd
            (ktOff_next hbn ho a3) a2 (by omega) e2
          refine ⟨by omega, c2, ?_, ?_, ?_⟩
          · intro hdyn
            simp only [Fields.dynamic, Bool.or_eq_false_iff] at hdyn
            rw [c3 hdyn.2, a3 hdyn.1]
          · simp only [Fields.ktDsFields]
            cases ht : t.dynamic
            · rw [if_neg (by simp)]
              rw [← a3 ht]; exact c4
            · rw [if_pos rfl]
              rcases a4 ht with e | e
              · rw [e]; exact c4
              · right
                cases e3 : iterX (fun off => t.ktDsElem (start / 8) d base off) len off with
                | ok q => rw [e3] at e; exact e.elim
                | ret q => rw [e3] at e; exact e
                | panic => trivial
          · intro hle hs
            simp only [Fields.sum] at hle
            have hs1 : t.dynamic = true → iterX (fun off => t.ktDsElem (start / 8) d base off) len off = .ok (o1 : Int) := by
              intro ht
              rcases a4 ht with e | e
              · exact e
              · simp only [Fields.ktDsFields, if_pos ht] at hs
                cases e3 : iterX (fun off => t.ktDsElem (start / 8) d base off) len off with
                | ok q => rw [e3] at e; exact e.elim
                | ret q => rw [e3] at hs; cases hs
                | panic => rw [e3] at hs; cases hs
            have hs2 : r.ktDsFields (start + bits.getD 0) d base o1 = .ok (o : Int) := by
              simp only [Fields.ktDsFields] at hs
              cases ht : t.dynamic
              · rw [if_neg (by simp [ht])] at hs
                rw [a3 ht]; exact hs
              · rw [if_pos ht, hs1 ht] at hs
                exact hs
            obtain ⟨vs, wss, r0, r1, r2, r3, r4⟩ := a5 (by rw [Nat.zero_add, h5]; omega) hs1
            obtain ⟨v', w2, s1, s2, s3, s4⟩ := c5 (by omega) hs2
            rw [h5] at r4
            refine ⟨(vs, v'), wss.flatten ++ w2, ⟨wss, w2, r0, r1, s1, rfl⟩, ?_, by rw [r3, s3]; rfl, by
              simp only [Fields.sum, List.length_append]; omega⟩
            have hpos : 8 * (base + off) + start + wss.flatten.length = 8 * (base + o1) + (start + bits.getD 0) := by omega
            apply Agrees.append.mpr
            rw [hpos]
            refine ⟨?_, s2⟩
            rcases r2 with e | e
            · exfalso
              subst e
              cases r1
              simp at r0
              omega
            · simpa using e
  theorem Fields.ktDsFields_static : ∀ (fs : Fields), fs.dynamic = false → ∀ (start : Nat) (d : Buf) (base off : Int),
      fs.ktDsFields start d base off = .ok off
    | .nil, _, _, _, _, _ => rfl
    | .void n r, h, start, d, base, off => by
      simp only [Fields.ktDsFields]; exact Fields.ktDsFields_static r h _ _ _ _
    | .const p n big val r, h, start, d, base, off => by
      simp only [Fields.ktDsFields]; exact Fields.ktDsFields_static r h _ _ _ _
    | .one t bits big r, h, start, d, base, off => by
      simp only [Fields.dynamic, Bool.or_eq_false_iff] at h
      simp only [Fields.ktDsFields, h.1, Bool.false_eq_true, if_false]; exact Fields.ktDsFields_static r h.2 _ _ _ _
    | .arr t len bits big r, h, start, d, base, off => by
      simp only [Fields.dynamic, Bool.or_eq_false_iff] at h
      simp only [Fields.ktDsFields, h.1, Bool.false_eq_true, if_false]; exact Fields.ktDsFields_static r h.2 _ _ _ _
end

end Bubbler
