import Verif.Codec.TgtSound

/-
`decode` of the targets of TgtMsg.lean throws no exception, whatever the data: the size check in front covers every read.
-/
set_option linter.unusedSimpArgs false
namespace Bubbler

/-- What may occur in a message so that the decoder of a target throws no exception: strings, bytes, arrays of structs of variable
size, and scalars (in a loop or not, bits). -/
structure NoThrow where
  str : Bool
  bytes : Bool
  sub : Bool
  sc : (s : Sc) → (lp : Bool) → (n : Nat) → Bool

mutual
  def Ty.tSafe (T : Tgt) (P : NoThrow) : Ty → (lp : Bool) → (n : Nat) → Bool
    | .sc s, lp, n => P.sc s lp n
    | .str, _, _ => P.str
    | .bytes, _, _ => P.bytes
    | .struct fs, _, _ => (P.sub || !fs.dynamic) && fs.tSafe T P
  /-- The definition has nothing for which the decoder may throw, at any depth. -/
  def Fields.tSafe (T : Tgt) (P : NoThrow) : Fields → Bool
    | .nil => true
    | .void _ r => r.tSafe T P
    | .const _ _ _ _ r => r.tSafe T P
    | .one t bits _ r => t.tSafe T P false (bits.getD 0) && r.tSafe T P
    | .arr t len bits _ r => t.tSafe T P (T.loop len) (bits.getD 0 / len) && r.tSafe T P
end

variable {T : Tgt}

/-- What the leaf statements of the decoder do with any data.  `lim` bounds positions, `slack` the length of bytes. -/
structure TgtDecSpec.SafeOk (S : TgtDecSpec T) (P : NoThrow) (lim slack : Nat) : Prop where
  room : 2 ^ 30 + 2 ^ 30 + slack ≤ lim
  maxLen : S.maxLen ≤ 2 ^ 30
  wrap : ∀ x : Int, 0 ≤ x → x < (lim : Int) → T.wrap x = x
  ret : ∀ x : Int, -(lim : Int) < x → x < (lim : Int) → T.ret x = x
  rem : ∀ n b : Nat, n < S.maxLen → b < lim → T.rem n b = (n : Int) - b
  loopBase : ∀ b, T.loopBase b ≤ b
  sub : ∀ n base rel : Nat, P.sub = true ∨ base + rel ≤ n → T.sub n base rel = true
  sc : ∀ ctx s big arr d start n base, s.wf n = true → (arr = true → s.wfArr = true) → P.sc s false n = true → d.length < S.maxLen →
    8 * base + start + n ≤ 8 * d.length → T.decSc ctx s big arr d start n base ≠ none
  scLoop : ∀ ctx s big d pos n, s.wf n = true → s.wfArr = true → P.sc s true n = true → d.length < S.maxLen → pos + n ≤ 8 * d.length →
    T.decScLoop ctx s big d pos n ≠ none
  const : ∀ p n big val start base d, 0 < n → n ≤ p.width → S.constOk p n big val = true → d.length < S.maxLen →
    8 * base + start + n ≤ 8 * d.length → T.decConst p n big val d start base ≠ none
  dsStr : P.str = true → ∀ (k : Nat) (d : Buf) (base off N M : Nat), d.length < S.maxLen → d.length ≤ N → d.length + 1 ≤ M →
    base + off + k + 1 ≤ M → M < lim → (T.dsStr k d base off).good base (off + 1) N M
  dsBytes : P.bytes = true → ∀ (k : Nat) (d : Buf) (base off N M : Nat), d.length < S.maxLen → d.length ≤ N → d.length + 1 ≤ M →
    base + off + k + 1 + slack ≤ M → M < lim → (T.dsBytes k d base off).good base (off + 1) N M
  str : P.str = true → ∀ (k : Nat) (d : Buf) (base off o : Nat), d.length < S.maxLen → base + off + k + 1 < lim →
    T.dsStr k d base off = .ok (o : Int) → T.decStr d (base + off + k) ≠ .panic
  bytes : P.bytes = true → ∀ (k : Nat) (d : Buf) (base off o : Nat), d.length < S.maxLen → base + off + k + 1 < lim →
    T.dsBytes k d base off = .ok (o : Int) → T.decBytes d (base + off + k) ≠ .panic

variable {S : TgtDecSpec T} {P : NoThrow} {lim slack : Nat}

/-- The end of `decode_size` after a good scan -/
theorem tDsFinish_good (K : S.SafeOk P lim slack) {d : Buf} {base N M fixed : Nat} {s : ScanX} (hM : M < lim) (hd : d.length < S.maxLen)
    (hN : N + fixed + 1 ≤ M) (hb : base ≤ N) (h : s.good base 1 N M) :
    (∃ o : Nat, s = .ok (o : Int) ∧ tDsFinish T d base fixed s = some ((o + fixed : Nat) : Int) ∧ base + o + fixed ≤ d.length) ∨
    ∃ q : Nat, tDsFinish T d base fixed s = some (-(q : Int)) ∧ 0 < q ∧ base + q ≤ M := by
  cases s with
  | panic => exact h.elim
  | ret r =>
    obtain ⟨q, e, h1, h2⟩ := h
    right
    exact ⟨q, by simp only [tDsFinish, e], h1, h2⟩
  | ok o =>
    obtain ⟨k, e, h1, h2⟩ := h
    subst e
    simp only [tDsFinish]
    have e1 : (k : Int) + (fixed : Int) = ((k + fixed : Nat) : Int) := by omega
    rw [e1, K.wrap _ (by omega) (by omega), K.rem _ _ hd (by omega)]
    by_cases hc : (d.length : Int) - base < ((k + fixed : Nat) : Int)
    · right
      rw [if_pos hc]
      exact ⟨k + fixed, by rw [K.ret _ (by omega) (by omega)], by omega, by omega⟩
    · left
      rw [if_neg hc, K.ret _ (by omega) (by omega)]
      exact ⟨k, rfl, rfl, by omega⟩

mutual
  theorem Ty.tDsElem_good (K : S.SafeOk P lim slack) : ∀ (t : Ty) (lp : Bool) (n k : Nat) (d : Buf) (base off N M : Nat), t.wf = true →
      t.noDirectDyn = true → t.tSafe T P lp n = true → M < lim → d.length < S.maxLen → d.length ≤ N → base + off ≤ N → N + k + t.ktReach + 1 + slack ≤ M →
      (t.tDsElem T k d base off).good base (ktLow t.dynamic off) N M
    | .sc s, lp, n, k, d, base, off, N, M => by
      intro _ _ _ _ _ _ h _
      simp only [Ty.tDsElem, Ty.dynamic, ktLow]
      exact ⟨off, rfl, Nat.le_refl _, h⟩
    | .bytes, lp, n, k, d, base, off, N, M => by
      intro _ _ hs hM hd hN hb hk
      simp only [Ty.tSafe] at hs
      simp only [Ty.tDsElem, Ty.dynamic, ktLow, if_true]
      simp only [Ty.ktReach] at hk
      exact K.dsBytes hs k d base off N M hd hN (by omega) (by omega) hM
    | .str, lp, n, k, d, base, off, N, M => by
      intro _ _ hs hM hd hN hb hk
      simp only [Ty.tSafe] at hs
      simp only [Ty.tDsElem, Ty.dynamic, ktLow, if_true]
      simp only [Ty.ktReach] at hk
      exact K.dsStr hs k d base off N M hd hN (by omega) (by omega) hM
    | .struct fs, lp, n, k, d, base, off, N, M => by
      intro hwf hnd hs hM hd hN hb hk
      simp only [Ty.wf, Bool.and_eq_true] at hwf
      simp only [Ty.tSafe, Bool.and_eq_true] at hs
      simp only [Ty.noDirectDyn] at hnd
      simp only [Ty.ktReach] at hk
      simp only [Ty.tDsElem, Ty.dynamic]
      by_cases hdyn : fs.dynamic = true
      · have hsub : P.sub = true := by simpa [hdyn] using hs.1
        have hg := Fields.tDsFields_good K fs 0 d (base + off + k) 0 (N + k) M hwf.1 hnd hs.2 hM hd (by omega) (by omega) (by omega)
        rw [if_pos hdyn, hdyn]
        rw [hdyn] at hg
        have h0 : ((0 : Nat) : Int) = 0 := rfl
        rw [h0] at hg
        simp only [ktLow, if_true, Nat.zero_add] at hg ⊢
        have e1 : T.wrap ((off : Int) + (k : Int)) = ((off + k : Nat) : Int) := by rw [K.wrap _ (by omega) (by omega)]; omega
        have e2 : T.wrap ((off : Int) + (base : Int) + (k : Int)) = ((base + off + k : Nat) : Int) := by
          rw [K.wrap _ (by omega) (by omega)]; omega
        simp only [tDsSub, e1, e2]
        rw [if_pos (K.sub _ _ _ (.inl hsub))]
        rcases tDsFinish_good K (d := d) (fixed := fs.sum / 8) hM hd (by omega) (by omega) hg with ⟨o, h1, h2, h3⟩ | ⟨q, h1, h2, h3⟩
        · simp only [h2]
          rw [h1] at hg
          obtain ⟨o', e, g1, _⟩ := hg
          have e : o = o' := by omega
          subst e
          rw [if_neg (Int.not_lt.mpr (Int.natCast_nonneg _)), ← Int.natCast_add, K.wrap _ (by omega) (by omega)]
          exact ⟨_, rfl, by omega, by omega⟩
        · simp only [h1]
          rw [if_pos (by omega)]
          refine ⟨off + k + q, ?_, by omega, by omega⟩
          rw [K.ret (-((off + k : Nat) : Int)) (by omega) (by omega), K.ret _ (by omega) (by omega)]
          omega
      · rw [if_neg hdyn]
        simp only [ktLow, hdyn]
        exact ⟨off, rfl, Nat.le_refl _, hb⟩
  theorem Fields.tDsFields_good (K : S.SafeOk P lim slack) : ∀ (fs : Fields) (start : Nat) (d : Buf) (base off N M : Nat), fs.wf start = true →
      fs.noDirectDyn = true → fs.tSafe T P = true → M < lim → d.length < S.maxLen → d.length ≤ N → base + off ≤ N →
      N + (start + fs.sum) / 8 + fs.ktReach + 1 + slack ≤ M → (fs.tDsFields T start d base off).good base (ktLow fs.dynamic off) N M
    | .nil, start, d, base, off, N, M => by
      intro _ _ _ _ _ _ h _
      simp only [Fields.tDsFields, Fields.dynamic, ktLow]
      exact ⟨off, rfl, Nat.le_refl _, h⟩
    | .void n r, start, d, base, off, N, M => by
      intro hwf hnd hs hM hd hN hb hk
      simp only [Fields.wf, Fields.noDirectDyn, Fields.tSafe, Fields.ktReach, Fields.sum] at hwf hnd hs hk
      simp only [Fields.tDsFields, Fields.dynamic]
      exact Fields.tDsFields_good K r _ d base off N M hwf hnd hs hM hd hN hb (by omega)
    | .const _ n _ _ r, start, d, base, off, N, M => by
      intro hwf hnd hs hM hd hN hb hk
      simp only [Fields.wf, Fields.noDirectDyn, Fields.tSafe, Fields.ktReach, Fields.sum, Bool.and_eq_true] at hwf hnd hs hk
      simp only [Fields.tDsFields, Fields.dynamic]
      exact Fields.tDsFields_good K r _ d base off N M hwf.2 hnd hs hM hd hN hb (by omega)
    | .one t bits big r, start, d, base, off, N, M => by
      intro hwf hnd hs hM hd hN hb hk
      obtain ⟨n1, n2, n3⟩ := noDirectDyn_bits hwf hnd
      obtain ⟨h1, h2, h3, h4, h5⟩ := wf_one hwf
      simp only [Fields.tSafe, Fields.ktReach, Fields.sum, Bool.and_eq_true] at hs hk
      simp only [Fields.tDsFields, Fields.dynamic]
      have hr := fun off h => Fields.tDsFields_good K r (start + bits.getD 0) d base off N M h2 n2 hs.2 hM hd hN h (by omega)
      by_cases ht : t.dynamic = true
      · have hbn : bits = none := by rw [ht] at n3; exact Option.isNone_iff_eq_none.1 n3
        have hz : bits.getD 0 = 0 := by rw [hbn]; rfl
        rw [n3, if_pos ht, ht]
        have h1 := Ty.tDsElem_good K t _ _ (start / 8) d base off N M h1 n1 hs.1 hM hd hN hb (by omega)
        rw [ht] at h1
        cases e : t.tDsElem T (start / 8) d base off with
        | panic => rw [e] at h1; exact h1.elim
        | ret q => rw [e] at h1; exact h1
        | ok o =>
          rw [e] at h1
          obtain ⟨k, rfl, a1, a2⟩ := h1
          have hr := hr k a2
          rw [hz, Nat.add_zero] at hr
          refine hr.mono ?_
          simp only [ktLow, Bool.true_or, if_true] at a1 ⊢
          split <;> omega
      · rw [n3, if_neg ht, show t.dynamic = false by simpa using ht, Bool.false_or]; exact hr off hb
    | .arr t len bits big r, start, d, base, off, N, M => by
      intro hwf hnd hs hM hd hN hb hk
      obtain ⟨h0, h1, h2, h3, h4, h5, h7, h6⟩ := wf_arr hwf
      have hbn : bits.isNone = t.dynamic := by
        cases ht : t.dynamic
        · cases hb : bits with
          | none => rw [h7.mp hb] at ht; cases ht
          | some n => rfl
        · rw [h7.mpr ht]; rfl
      simp only [Fields.noDirectDyn, Bool.and_eq_true] at hnd
      simp only [Fields.tSafe, Fields.ktReach, Fields.sum, Bool.and_eq_true] at hs hk
      simp only [Fields.tDsFields, Fields.dynamic]
      have hr := fun off h => Fields.tDsFields_good K r (start + bits.getD 0) d base off N M h2 hnd.2 hs.2 hM hd hN h (by omega)
      by_cases ht : t.dynamic = true
      · have hz : bits.getD 0 = 0 := by rw [h7.mpr ht]; rfl
        rw [hbn, if_pos ht, ht]
        have h1 := iterX_good (f := fun off => t.tDsElem T (start / 8) d base off) (base := base) (N := N) (M := M)
          (fun off h => by
            have := Ty.tDsElem_good K t _ _ (start / 8) d base off N M h1 hnd.1 hs.1 hM hd hN h (by omega)
            rw [ht] at this; exact this) len off hb
        cases e : iterX (fun off => t.tDsElem T (start / 8) d base off) len off with
        | panic => rw [e] at h1; exact h1.elim
        | ret q => rw [e] at h1; exact h1
        | ok o =>
          rw [e] at h1
          obtain ⟨k, rfl, a1, a2⟩ := h1
          have hr := hr k a2
          rw [hz, Nat.add_zero] at hr
          refine hr.mono ?_
          simp only [ktLow, Bool.true_or, if_true] at a1 ⊢
          split <;> omega
      · rw [hbn, if_neg ht, show t.dynamic = false by simpa using ht, Bool.false_or]; exact hr off hb
end

theorem Fields.tDsFields_static : ∀ (fs : Fields) (start : Nat), fs.wf start = true → fs.dynamic = false → ∀ (d : Buf) (base off : Int),
    fs.tDsFields T start d base off = .ok off
  | .nil, _, _, _, _, _, _ => rfl
  | .void _ r, start, hw, h, d, base, off => by
    simp only [Fields.wf] at hw
    simp only [Fields.tDsFields]; exact Fields.tDsFields_static r _ hw h _ _ _
  | .const _ _ _ _ r, start, hw, h, d, base, off => by
    simp only [Fields.wf, Bool.and_eq_true] at hw
    simp only [Fields.tDsFields]; exact Fields.tDsFields_static r _ hw.2 h _ _ _
  | .one t bits _ r, start, hw, h, d, base, off => by
    simp only [Fields.dynamic, Bool.or_eq_false_iff] at h
    obtain ⟨h1, h2, h3, h4, h5⟩ := wf_one hw
    have hb : bits.isNone = false := by
      cases bits with
      | none => rw [h.1] at h5; cases h5 rfl
      | some n => rfl
    simp only [Fields.tDsFields, hb, Bool.false_eq_true, if_false]; exact Fields.tDsFields_static r _ h2 h.2 _ _ _
  | .arr t len bits _ r, start, hw, h, d, base, off => by
    simp only [Fields.dynamic, Bool.or_eq_false_iff] at h
    obtain ⟨h0, h1, h2, h3, h4, h5, h7, h6⟩ := wf_arr hw
    have hb : bits.isNone = false := by
      cases bits with
      | none => rw [h7.mp rfl] at h; cases h.1
      | some n => rfl
    simp only [Fields.tDsFields, hb, Bool.false_eq_true, if_false]; exact Fields.tDsFields_static r _ h2 h.2 _ _ _

/-- `decode_size` throws no exception, and what it gives the size of has all its fixed parts in the data. -/
theorem Fields.tDecodeSize_np (K : S.SafeOk P lim slack) {fs : Fields} (hw : fs.wf 0 = true) (hnd : fs.noDirectDyn = true)
    (hs : fs.tSafe T P = true) {d : Buf} (hd : d.length < S.maxLen) {base k : Nat} (hb : base ≤ d.length + k)
    (hr : k + fs.sum / 8 + fs.ktReach < 2 ^ 30) (hbs : fs.dynamic = false → base ≤ d.length) :
    ∃ sz, fs.tDecodeSize T d base = some sz ∧ (¬ sz < 0 →
      ∃ o : Nat, fs.tDsFields T 0 d base 0 = .ok (o : Int) ∧ (fs.dynamic = false → o = 0) ∧ base + o + fs.sum / 8 ≤ d.length ∧
        sz = ((o + fs.sum / 8 : Nat) : Int)) := by
  have hM := K.maxLen
  have hroom := K.room
  unfold Fields.tDecodeSize
  by_cases hdyn : fs.dynamic = true
  · have hg := Fields.tDsFields_good K fs 0 d base 0 (d.length + k) (d.length + k + fs.sum / 8 + fs.ktReach + 1 + slack) hw hnd hs
      (by omega) hd (by omega) (by omega) (by omega)
    rw [hdyn] at hg
    simp only [ktLow, if_true, Nat.zero_add] at hg
    have h0 : ((0 : Nat) : Int) = 0 := rfl
    rw [h0] at hg
    rw [if_pos hdyn]
    rcases tDsFinish_good K (d := d) (fixed := fs.sum / 8) (by omega) hd (by omega) hb hg with ⟨o1, h1, h2, h3⟩ | ⟨q, h1, h2, h3⟩
    · exact ⟨_, h2, fun _ => ⟨o1, h1, fun h => absurd (h.symm.trans hdyn) (by decide), h3, rfl⟩⟩
    · exact ⟨_, h1, fun h => absurd (by omega) h⟩
  · have hstat : fs.dynamic = false := by simpa using hdyn
    have hbs := hbs hstat
    rw [if_neg hdyn, K.rem _ _ hd (by omega)]
    by_cases hc : (d.length : Int) - base < ((fs.sum / 8 : Nat) : Int)
    · rw [if_pos hc]
      exact ⟨_, rfl, fun h => absurd (by omega) h⟩
    · rw [if_neg hc]
      exact ⟨_, rfl, fun _ => ⟨0, Fields.tDsFields_static fs 0 hw hstat d base 0, fun _ => rfl, by omega, by simp⟩⟩

/-- The size check throws no exception, and what passes it has all its fixed parts in the data. -/
theorem Fields.tCheck_np (K : S.SafeOk P lim slack) {fs : Fields} (hw : fs.wf 0 = true) (hnd : fs.noDirectDyn = true)
    (hs : fs.tSafe T P = true) {d : Buf} (hd : d.length < S.maxLen) {base k : Nat} (hb : base ≤ d.length + k)
    (hr : k + fs.sum / 8 + fs.ktReach < 2 ^ 30) (hbs : fs.dynamic = false → base ≤ d.length) :
    fs.tCheck T d base ≠ .panic ∧ (T.checks = true → fs.tCheck T d base = .ok () →
      ∃ o : Nat, fs.tDsFields T 0 d base 0 = .ok (o : Int) ∧ (fs.dynamic = false → o = 0) ∧ base + o + fs.sum / 8 ≤ d.length) := by
  obtain ⟨sz, h1, h2⟩ := Fields.tDecodeSize_np K hw hnd hs hd hb hr hbs
  unfold Fields.tCheck
  rw [h1]
  refine ⟨?_, fun hc h => ?_⟩
  · split
    · simp only
      split <;> simp
    · simp
  · rw [if_pos hc] at h
    simp only at h
    split at h
    · cases h
    · obtain ⟨o, g1, g2, g3, _⟩ := h2 (by assumption)
      exact ⟨o, g1, g2, g3⟩

theorem Ty.tSafe_any {t : Ty} (h : ∀ s, t ≠ .sc s) {lp lp' : Bool} {n n' : Nat} (hs : t.tSafe T P lp n = true) :
    t.tSafe T P lp' n' = true := by
  cases t with
  | sc s => exact absurd rfl (h s)
  | _ => exact hs

mutual
  theorem Ty.tDec_np {strs : Bool} (E : S.DecOk) (F : S.SoundOk strs) (K : S.SafeOk P lim slack) : ∀ (t : Ty) (ctx : List Fields)
      (big arr : Bool) (d : Buf) (start n base off o : Nat), t.wf = true → t.elemOk arr start n → t.noDirectDyn = true →
      t.tDecOk S = true → (strs || t.noStr) = true → t.tSafe T P false n = true → d.length < S.maxLen → start / 8 + t.ktReach < 2 ^ 30 →
      off ≤ o → base + off ≤ d.length → (t.dynamic = true → t.tDsElem T (start / 8) d base off = .ok (o : Int)) →
      8 * (base + o) + start + t.fixed n ≤ 8 * d.length → t.tDec T ctx big arr d start n base off ≠ .panic
    | .sc s, ctx, big, arr, d, start, n, base, off, o => by
      intro _ hok _ _ _ hs hd _ hoo _ _ hle
      simp only [Ty.elemOk] at hok
      simp only [Ty.tSafe] at hs
      simp only [Ty.fixed] at hle
      simp only [Ty.tDec]
      split
      · rename_i e
        exact absurd e (K.sc ctx s big arr d start n (base + off) hok.1 hok.2 hs hd (by omega))
      · nofun
    | .str, ctx, big, arr, d, start, n, base, off, o => by
      intro _ _ _ _ _ hs hd hr _ hb hsc _
      have hM := K.maxLen
      have hroom := K.room
      simp only [Ty.tSafe] at hs
      simp only [Ty.ktReach] at hr
      have hsc := hsc rfl
      simp only [Ty.tDsElem] at hsc
      have := K.str hs (start / 8) d base off o hd (by omega) hsc
      simp only [Ty.tDec]
      split
      · nofun
      · rename_i e; exact absurd e this
      · nofun
    | .bytes, ctx, big, arr, d, start, n, base, off, o => by
      intro _ _ _ _ _ hs hd hr _ hb hsc _
      have hM := K.maxLen
      have hroom := K.room
      simp only [Ty.tSafe] at hs
      simp only [Ty.ktReach] at hr
      have hsc := hsc rfl
      simp only [Ty.tDsElem] at hsc
      have := K.bytes hs (start / 8) d base off o hd (by omega) hsc
      simp only [Ty.tDec]
      split
      · nofun
      · rename_i e; exact absurd e this
      · nofun
    | .struct fs, ctx, big, arr, d, start, n, base, off, o => by
      intro hw hok hn hk hst hs hd hr hoo hb hsc hle
      simp only [Ty.elemOk] at hok
      simp only [Ty.wf, Bool.and_eq_true, decide_eq_true_eq] at hw
      simp only [Ty.noDirectDyn, Ty.tDecOk, Ty.noStr] at hn hk hst
      simp only [Ty.tSafe, Bool.and_eq_true] at hs
      simp only [Ty.ktReach] at hr
      simp only [Ty.fixed] at hle
      obtain ⟨c1, c2⟩ := Fields.tCheck_np K hw.1 hn hs.2 hd (base := base + off + start / 8) (k := start / 8) (by omega) (by omega)
        (fun h => by rw [if_neg (by simp [h])] at hle; omega)
      have hsub : T.sub d.length base ((off + start / 8 : Nat) : Int) = true := by
        refine K.sub _ _ _ ?_
        by_cases hdyn : fs.dynamic = true
        · exact .inl (by simpa [hdyn] using hs.1)
        · rw [if_neg hdyn] at hle
          exact .inr (by omega)
      simp only [Ty.tDec]
      rw [if_pos hsub]
      split
      · nofun
      · rename_i e; exact absurd e c1
      · rename_i e
        obtain ⟨o1, g1, g2, g3⟩ := c2 F.checks e
        have := Fields.tDec_np E F K fs ctx d 0 (base + off + start / 8) false 0 o1 hw.1 hn hk nofun hst hs.2 hd (by omega) (by omega) g1
          (by have := hw.2; omega)
        split
        · nofun
        · rename_i e; exact absurd e this
        · nofun
  theorem Fields.tDec_np {strs : Bool} (E : S.DecOk) (F : S.SoundOk strs) (K : S.SafeOk P lim slack) : ∀ (fs : Fields) (ctx : List Fields)
      (d : Buf) (start base : Nat) (top : Bool) (off o : Nat), fs.wf start = true → fs.noDirectDyn = true → fs.tDecOk S top = true →
      (top = true → base = 0) → (strs || fs.noStr) = true → fs.tSafe T P = true → d.length < S.maxLen → base + off ≤ d.length →
      (start + fs.sum) / 8 + fs.ktReach < 2 ^ 30 → fs.tDsFields T start d base off = .ok (o : Int) →
      8 * (base + o) + start + fs.sum ≤ 8 * d.length → fs.tDecFields T ctx d start base off ≠ .panic
    | .nil, ctx, d, start, base, top, off, o => by
      intros
      simp only [Fields.tDecFields]
      nofun
    | .void n r, ctx, d, start, base, top, off, o => by
      intro hw hn hk htop hst hs hd hb hr hsc hle
      simp only [Fields.wf, Fields.noDirectDyn, Fields.tDecOk, Fields.noStr, Fields.tSafe, Fields.sum, Fields.ktReach] at hw hn hk hst hs hr hle
      simp only [Fields.tDsFields] at hsc
      simp only [Fields.tDecFields]
      exact Fields.tDec_np E F K r ctx d (start + n) base top off o hw hn hk htop hst hs hd hb (by omega) hsc (by omega)
    | .const p n big val r, ctx, d, start, base, top, off, o => by
      intro hw hn hk htop hst hs hd hb hr hsc hle
      have hM := K.maxLen
      have hroom := K.room
      simp only [Fields.wf, Fields.noDirectDyn, Fields.tDecOk, Fields.noStr, Fields.tSafe, Fields.sum, Fields.ktReach, Bool.and_eq_true,
        decide_eq_true_eq] at hw hn hk hst hs hr hle
      obtain ⟨⟨⟨⟨⟨⟨w1, w2⟩, w3⟩, w4⟩, w5⟩, w6⟩, w7⟩ := hw
      simp only [Fields.tDsFields] at hsc
      have hoo : off ≤ o := by
        have hg := Fields.tDsFields_good K r (start + n) d base off d.length
          (d.length + (start + n + r.sum) / 8 + r.ktReach + 1 + slack) w7 hn hs (by omega) hd (Nat.le_refl _) hb (by omega)
        rw [hsc] at hg
        obtain ⟨k, e, g1, _⟩ := hg
        unfold ktLow at g1
        split at g1 <;> omega
      have hc := K.const p n big val start (base + off) d (by omega) (by omega) hk.1 hd (by omega)
      have := Fields.tDec_np E F K r ctx d (start + n) base top off o w7 hn hk.2 htop hst hs hd hb (by omega) hsc (by omega)
      simp only [Fields.tDecFields]
      split
      · rename_i e; exact absurd e hc
      · nofun
      · exact this
    | .one t bits big r, ctx, d, start, base, top, off, o => by
      intro hw hnd hk htop hst hs hd hb hr hsc hle
      have hM := K.maxLen
      have hroom := K.room
      obtain ⟨n1, n2, n3⟩ := noDirectDyn_bits hw hnd
      obtain ⟨h1, h2, h3, h4, h5⟩ := wf_one hw
      simp only [Fields.tDecOk, Fields.tSafe, Fields.sum, Fields.ktReach, Fields.noStr, Bool.and_eq_true] at hk hs hr hle hst
      obtain ⟨hst1, hst2⟩ := strs_and hst
      have hb0 : t.dynamic = true → bits.getD 0 = 0 := by
        intro ht
        rw [ht] at n3
        rw [Option.isNone_iff_eq_none.1 n3]; rfl
      have hfx : t.fixed (bits.getD 0) = bits.getD 0 := by
        cases ht : t.dynamic
        · rw [ht] at h4; simpa using h4.symm
        · have := hb0 ht
          rw [this, ht] at h4
          rw [this]
          simp only [if_true] at h4
          omega
      have hstep : ∃ o1 : Nat, (t.dynamic = true → t.tDsElem T (start / 8) d base off = .ok (o1 : Int)) ∧ (t.dynamic = false → o1 = off) ∧
          r.tDsFields T (start + bits.getD 0) d base o1 = .ok (o : Int) ∧ off ≤ o1 ∧ base + o1 ≤ d.length := by
        simp only [Fields.tDsFields] at hsc
        cases ht : t.dynamic
        · rw [n3, if_neg (by simp [ht])] at hsc
          exact ⟨off, by simp, fun _ => rfl, hsc, Nat.le_refl _, hb⟩
        · rw [n3, if_pos ht] at hsc
          rw [hb0 ht, Nat.add_zero]
          have hg := Ty.tDsElem_good K t _ _ (start / 8) d base off d.length (d.length + start / 8 + t.ktReach + 1 + slack) h1 n1 hs.1
            (by omega) hd (Nat.le_refl _) hb (by omega)
          rw [ht] at hg
          cases e : t.tDsElem T (start / 8) d base off with
          | panic => rw [e] at hsc; cases hsc
          | ret r => rw [e] at hsc; cases hsc
          | ok q =>
            rw [e] at hsc hg
            simp only at hsc
            obtain ⟨k, hk, g1, g2⟩ := hg
            subst hk
            simp only [ktLow, if_true] at g1
            exact ⟨k, fun _ => rfl, by simp, hsc, by omega, g2⟩
      obtain ⟨o1, s1, s2, s3, s4, s5⟩ := hstep
      have hg := Fields.tDsFields_good K r (start + bits.getD 0) d base o1 d.length
        (d.length + (start + bits.getD 0 + r.sum) / 8 + r.ktReach + 1 + slack) h2 n2 hs.2 (by omega) hd (Nat.le_refl _) s5 (by omega)
      rw [s3] at hg
      obtain ⟨k, e, g1, _⟩ := hg
      have hoo : o1 ≤ o := by
        unfold ktLow at g1
        split at g1 <;> omega
      have hel := Ty.tDec_np E F K t (.one t bits big r :: ctx) big false d start (bits.getD 0) base off o1 h1 h3 n1 hk.1 hst1 hs.1 hd
        (by omega) s4 hb s1 (by rw [hfx]; omega)
      simp only [Fields.tDecFields]
      cases e1 : t.tDec T (.one t bits big r :: ctx) big false d start (bits.getD 0) base off with
      | panic => exact absurd e1 hel
      | fail => nofun
      | ok xo =>
        obtain ⟨x, o2⟩ := xo
        obtain ⟨a1, a2, a3, a4, a5⟩ := Ty.tDec_sound E F flatCfg t (.one t bits big r :: ctx) big false false false start (bits.getD 0) base d
          off x o2 h1 h3 n1 hk.1 hst1 (Ty.ktSmall_of_reach t (by omega)) hd hb (by omega) e1
        have ho2 : o2 = o1 := by
          cases ht : t.dynamic
          · rw [a3 ht, s2 ht]
          · have h := a4 ht
            rw [s1 ht] at h
            simp only [ScanX.ok.injEq] at h
            omega
        subst ho2
        have hrest := Fields.tDec_np E F K r ctx d (start + bits.getD 0) base top o2 o h2 n2 hk.2 htop hst2 hs.2 hd s5 (by omega) s3 (by omega)
        simp only
        cases e2 : r.tDecFields T ctx d (start + bits.getD 0) base o2 with
        | panic => exact absurd e2 hrest
        | fail => nofun
        | ok vo => nofun
    | .arr t len bits big r, ctx, d, start, base, top, off, o => by
      intro hw hn hk htop hst hs hd hb hr hsc hle
      have hM := K.maxLen
      have hroom := K.room
      obtain ⟨h0, h1, h2, h3, h4, h5, h7, h6⟩ := wf_arr hw
      have hbn : bits.isNone = t.dynamic := by
        cases ht : t.dynamic
        · cases hb : bits with
          | none => rw [h7.mp hb] at ht; cases ht
          | some n => rfl
        · rw [h7.mpr ht]; rfl
      simp only [Fields.noDirectDyn, Bool.and_eq_true] at hn
      simp only [Fields.tDecOk, Fields.tSafe, Fields.sum, Fields.ktReach, Fields.noStr, Bool.and_eq_true] at hk hs hr hle hst
      obtain ⟨hst1, hst2⟩ := strs_and hst
      obtain ⟨⟨k1, k2⟩, k3⟩ := hk
      have h30 := h3 0
      simp only [Nat.zero_mul, Nat.add_zero] at h30
      have hz : t.dynamic = true → bits.getD 0 = 0 := by
        intro ht; rw [h7.mpr ht]; rfl
      have hgood : t.dynamic = true → ∀ off : Nat, base + off ≤ d.length →
          ((fun off => t.tDsElem T (start / 8) d base off) off).good base (off + 1) d.length (d.length + start / 8 + t.ktReach + 1 + slack) := by
        intro ht off hb
        have := Ty.tDsElem_good K t _ _ (start / 8) d base off d.length (d.length + start / 8 + t.ktReach + 1 + slack) h1 hn.1 hs.1
          (by omega) hd (Nat.le_refl _) hb (by omega)
        rw [ht] at this
        exact this
      have hstep : ∃ o1 : Nat, (t.dynamic = true → iterX (fun off => t.tDsElem T (start / 8) d base off) len off = .ok (o1 : Int)) ∧
          (t.dynamic = false → o1 = off) ∧
          r.tDsFields T (start + bits.getD 0) d base o1 = .ok (o : Int) ∧ off ≤ o1 ∧ base + o1 ≤ d.length := by
        simp only [Fields.tDsFields] at hsc
        cases ht : t.dynamic
        · rw [hbn, if_neg (by simp [ht])] at hsc
          exact ⟨off, by simp, fun _ => rfl, hsc, Nat.le_refl _, hb⟩
        · rw [hbn, if_pos ht] at hsc
          rw [hz ht, Nat.add_zero]
          have hg := iterX_good (hgood ht) len off hb
          cases e : iterX (fun off => t.tDsElem T (start / 8) d base off) len off with
          | panic => rw [e] at hsc; cases hsc
          | ret r => rw [e] at hsc; cases hsc
          | ok q =>
            rw [e] at hsc hg
            simp only at hsc
            obtain ⟨k, hk, g1, g2⟩ := hg
            subst hk
            exact ⟨k, fun _ => rfl, by simp, hsc, by omega, g2⟩
      obtain ⟨o1, s1, s2, s3, s4, s5⟩ := hstep
      have hg := Fields.tDsFields_good K r (start + bits.getD 0) d base o1 d.length
        (d.length + (start + bits.getD 0 + r.sum) / 8 + r.ktReach + 1 + slack) h2 hn.2 hs.2 (by omega) hd (Nat.le_refl _) s5 (by omega)
      rw [s3] at hg
      obtain ⟨k, e, g1, _⟩ := hg
      have hoo : o1 ≤ o := by
        unfold ktLow at g1
        split at g1 <;> omega
      obtain ⟨hel, hel2⟩ := decIdx_np (d := d) (start := start) (eb := bits.getD 0 / len) (len := len) (dyn := true)
        (f := tArrElemDec T t (.arr t len bits big r :: ctx)
          (fun start n base off => t.tDec T (.arr t len bits big r :: ctx) big true d start n base off)
          len (bits.getD 0 / len) start base big d) hgood
        (fun i off o hi ho hsx h0' hoo hle => by
          have hb' : base + off ≤ d.length := by omega
          have hib : i * (bits.getD 0 / len) ≤ bits.getD 0 := by
            have := Nat.mul_le_mul_right (bits.getD 0 / len) (show i ≤ len by omega)
            rw [h5] at this; exact this
          cases ht : t.dynamic
          · have h0' := h0' ht
            subst h0'
            refine ⟨?_, fun y o2 hy => tArrElemDec_static t ht hy⟩
            unfold tArrElemDec
            cases hlp : T.loop len with
            | false =>
              simp only [Bool.false_eq_true, if_false]
              rw [hlp] at hs
              exact Ty.tDec_np E F K t (.arr t len bits big r :: ctx) big true d (start + i * (bits.getD 0 / len)) (bits.getD 0 / len) base o o
                h1 (h3 i) hn.1 k1 hst1 hs.1 hd (by omega) (Nat.le_refl _) hb' (fun h => by rw [ht] at h; cases h) (by rw [h4]; exact hle)
            | true =>
              rw [hlp] at hs
              simp only [if_true]
              cases t with
              | str => cases ht
              | bytes => cases ht
              | sc s =>
                have h3 := h3 i
                simp only [Ty.elemOk] at h3
                have hs := hs.1
                simp only [Ty.tSafe] at hs
                simp only
                split
                · rename_i e
                  refine absurd e (K.scLoop _ s big d _ _ h3.1 (h3.2 trivial) hs hd ?_)
                  have := K.loopBase base
                  omega
                · nofun
              | struct fs =>
                simp only [Ty.dynamic] at ht
                simp only [ht, Bool.false_eq_true, if_false]
                obtain ⟨g1, g2⟩ := h6 fs rfl
                have e8 : 8 * (start / 8 + i * (bits.getD 0 / len / 8)) = start + i * (bits.getD 0 / len) := by
                  have : i * (bits.getD 0 / len) = 8 * (i * (bits.getD 0 / len / 8)) := by
                    have h3 : bits.getD 0 / len = 8 * (bits.getD 0 / len / 8) := by omega
                    calc i * (bits.getD 0 / len) = i * (8 * (bits.getD 0 / len / 8)) := by rw [← h3]
                      _ = 8 * (i * (bits.getD 0 / len / 8)) := by rw [Nat.mul_left_comm]
                  omega
                rw [e8]
                have := K.loopBase base
                exact Ty.tDec_np E F K (.struct fs) (.arr (.struct fs) len bits big r :: ctx) big true d (start + i * (bits.getD 0 / len))
                  (bits.getD 0 / len) (T.loopBase base) o o h1 (h3 i) hn.1 k1 hst1 (Ty.tSafe_any (t := .struct fs) (by intro s e; cases e) hs.1) hd (by omega) (Nat.le_refl _)
                  (by omega) (fun h => by simp only [Ty.dynamic, ht] at h; cases h) (by rw [h4]; omega)
          · have hzz := hz ht
            rw [hzz, Nat.zero_div] at h30 h4 hle ⊢
            simp only [Nat.mul_zero, Nat.add_zero] at hle
            rw [tArrElemDec_dyn t ht]
            have hsc : ∀ s, t ≠ .sc s := by rintro s rfl; cases ht
            have hsx : t.tDsElem T (start / 8) d base off = .ok (o : Int) := hsx ht
            refine ⟨Ty.tDec_np E F K t (.arr t len bits big r :: ctx) big true d start 0 base off o h1 h30 hn.1 k1 hst1
              (Ty.tSafe_any hsc hs.1) hd (by omega) hoo hb' (fun _ => hsx) (by rw [h4]; omega), fun y o2 hy => ?_⟩
            obtain ⟨b1, b2, b3, b4, b5⟩ := Ty.tDec_sound E F flatCfg t (.arr t len bits big r :: ctx) big true false false start 0 base d
              off y o2 h1 h30 hn.1 k1 hst1 (Ty.ktSmall_of_reach t (by omega)) hd hb' (by omega) hy
            have h := b4 ht
            rw [hsx] at h
            simp only [ScanX.ok.injEq] at h
            omega)
        len 0 off o1 (by omega) (by simp [ktOff]) hb s1 s2 (by rw [Nat.zero_add, h5]; omega)
      simp only [Fields.tDecFields]
      cases e1 : decIdx (tArrElemDec T t (.arr t len bits big r :: ctx)
          (fun start n base off => t.tDec T (.arr t len bits big r :: ctx) big true d start n base off)
          len (bits.getD 0 / len) start base big d) len 0 off with
      | panic => exact absurd e1 hel
      | fail => nofun
      | ok xo =>
        obtain ⟨x, o2⟩ := xo
        have ho2 := hel2 _ _ e1
        subst ho2
        have hrest := Fields.tDec_np E F K r ctx d (start + bits.getD 0) base top o2 o h2 hn.2 k2 htop hst2 hs.2 hd s5 (by omega) s3 (by omega)
        simp only
        cases e2 : r.tDecFields T ctx d (start + bits.getD 0) base o2 with
        | panic => exact absurd e2 hrest
        | fail => nofun
        | ok vo => nofun
end

/-- `decode_size` and `decode` throw no exception, whatever the data. -/
theorem Fields.tDecode_np {strs : Bool} (E : S.DecOk) (F : S.SoundOk strs) (K : S.SafeOk P lim slack) {fs : Fields}
    (h : fs.accepted = true) (hn : fs.noDirectDyn = true) {top : Bool} (hk : fs.tDecOk S top = true) (hst : (strs || fs.noStr) = true)
    (hs : fs.tSafe T P = true) (hr : (Ty.struct fs).ktReach < 2 ^ 30) {d : Buf} (hd : d.length < S.maxLen) {base : Nat}
    (ht : top = true → base = 0) (hb : base ≤ d.length) : fs.tDecode T d base ≠ .panic := by
  obtain ⟨h1, h2, h3, h4⟩ := Fields.accepted_facts h
  simp only [Ty.ktReach] at hr
  obtain ⟨c1, c2⟩ := Fields.tCheck_np K h1 hn hs hd (base := base) (k := 0) (by omega) (by omega) (fun _ => hb)
  unfold Fields.tDecode
  cases e : fs.tCheck T d base with
  | panic => exact absurd e c1
  | fail => nofun
  | ok u =>
    obtain ⟨o1, g1, g2, g3⟩ := c2 F.checks e
    have := Fields.tDec_np E F K fs [] d 0 base top 0 o1 h1 hn hk ht hst hs hd (by omega) (by omega) g1 (by omega)
    simp only
    cases e2 : fs.tDecFields T [] d 0 base 0 with
    | panic => exact absurd e2 this
    | fail => nofun
    | ok vo => nofun

end Bubbler
