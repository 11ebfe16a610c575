import Verif.Codec.KtTop
import Verif.Codec.CSim

/-
Definitions without bytes fields: Kotlin's `decodeSize` and `decode` throw no exception.
-/
set_option linter.unusedSimpArgs false
namespace Bubbler

mutual
  /-- Bytes of the fixed parts of a struct and the structs nested in it, along the longest chain. -/
  def Ty.ktReach : Ty → Nat
    | .struct fs => fs.sum / 8 + fs.ktReach
    | _ => 0
  def Fields.ktReach : Fields → Nat
    | .nil => 0
    | .void _ r => r.ktReach
    | .const _ _ _ _ r => r.ktReach
    | .one t _ _ r => max t.ktReach r.ktReach
    | .arr t _ _ _ r => max t.ktReach r.ktReach
end

mutual
  theorem Ty.ktSmall_of_reach : ∀ (t : Ty), t.ktReach < 2 ^ 30 → t.ktSmall = true
    | .sc _, _ => rfl
    | .str, _ => rfl
    | .bytes, _ => rfl
    | .struct fs, h => by
      simp only [Ty.ktReach] at h
      simp only [Ty.ktSmall, Bool.and_eq_true, decide_eq_true_eq]
      exact ⟨Fields.ktSmall_of_reach fs (by omega), by omega⟩
  theorem Fields.ktSmall_of_reach : ∀ (fs : Fields), fs.ktReach < 2 ^ 30 → fs.ktSmall = true
    | .nil, _ => rfl
    | .void _ r, h => by simp only [Fields.ktReach] at h; simp only [Fields.ktSmall]; exact Fields.ktSmall_of_reach r h
    | .const _ _ _ _ r, h => by simp only [Fields.ktReach] at h; simp only [Fields.ktSmall]; exact Fields.ktSmall_of_reach r h
    | .one t _ _ r, h => by
      simp only [Fields.ktReach] at h
      simp only [Fields.ktSmall, Bool.and_eq_true]
      exact ⟨Ty.ktSmall_of_reach t (by omega), Fields.ktSmall_of_reach r (by omega)⟩
    | .arr t _ _ _ r, h => by
      simp only [Fields.ktReach] at h
      simp only [Fields.ktSmall, Bool.and_eq_true]
      exact ⟨Ty.ktSmall_of_reach t (by omega), Fields.ktSmall_of_reach r (by omega)⟩
end

/-- The result of a scan: an offset from `lo` on and within `N`, or a request reaching at most to `M`. -/
def ScanX.good (base lo N M : Nat) : ScanX → Prop
  | .ok o => ∃ k : Nat, o = (k : Int) ∧ lo ≤ k ∧ base + k ≤ N
  | .ret r => ∃ q : Nat, r = -(q : Int) ∧ 0 < q ∧ base + q ≤ M
  | .panic => False

theorem ktScanStr_cases {d : Buf} {base : Int} {pos q : Nat} (hp : pos ≤ q) (hq : q < d.length)
    (h : ∀ j, j < q - pos → d.rd (pos + j) ≠ some 0#8) :
    ktScanStr d base q = some (.inl (w32 (-(w32 ((d.length + 1 : Nat) - base))))) ∨
    ∃ L, NulAt d pos L ∧ ktScanStr d base q = some (.inr (pos + L)) := by
  rw [ktScanStr, rd_eq_some hq]
  simp only
  by_cases hb : d.getD q 0#8 = 0#8
  · rw [if_pos hb]
    right
    refine ⟨q - pos, ⟨?_, h⟩, ?_⟩
    · rw [show pos + (q - pos) = q by omega, rd_eq_some hq, hb]
    · rw [show pos + (q - pos) = q by omega]
  · rw [if_neg hb]
    by_cases hl : d.length ≤ q + 1
    · rw [if_pos hl]
      left
      rw [show q + 1 + 1 = d.length + 1 by omega]
    · rw [if_neg hl]
      apply ktScanStr_cases (by omega) (by omega)
      intro j hj
      by_cases e : j = q - pos
      · subst e
        rw [show pos + (q - pos) = q by omega, rd_eq_some hq]
        intro hc
        exact hb (by simpa using hc)
      · exact h j (by omega)
termination_by d.length - q

theorem ktDsString_cases {d : Buf} {base off k M : Nat} (hd : d.length + 1 ≤ M) (hp : base + off + k + 1 ≤ M) (hM : M < 2 ^ 31) :
    (∃ L, NulAt d (base + off + k) L ∧ ktDsString k d base off = .ok ((off + (L + 1) : Nat) : Int)) ∨
    ∃ q : Nat, ktDsString k d base off = .ret (-(q : Int)) ∧ 0 < q ∧ base + q ≤ M := by
  have hw : w32 ((base : Int) + off + k) = ((base + off + k : Nat) : Int) := by
    rw [w32_id (by omega) (by omega)]; omega
  by_cases hlt : base + off + k < d.length
  · unfold ktDsString
    simp only [hw]
    rw [if_neg (by omega), if_neg (by omega), Int.toNat_natCast]
    rcases ktScanStr_cases (d := d) (base := base) (pos := base + off + k) (Nat.le_refl _) hlt (by intro j hj; omega) with e | ⟨L, hn, e⟩
    · right
      refine ⟨d.length + 1 - base, ?_, by omega, by omega⟩
      rw [e]
      simp only [ScanX.ret.injEq]
      rw [w32_id (x := ((d.length + 1 : Nat) : Int) - base) (by omega) (by omega), w32_id (by omega) (by omega)]
      omega
    · left
      refine ⟨L, hn, ?_⟩
      have hlt2 := hn.lt
      rw [e]
      simp only [ScanX.ok.injEq]
      have e : (off : Int) + (((base + off + k + L : Nat) : Int) - ((base + off + k : Nat) : Int) + 1) = ((off + (L + 1) : Nat) : Int) := by
        omega
      rw [e, w32_id (by omega) (by omega)]
  · right
    refine ⟨off + k + 1, ?_, by omega, by omega⟩
    unfold ktDsString
    simp only [hw]
    rw [if_pos (by omega)]
    simp only [ScanX.ret.injEq]
    rw [w32_id (x := ((base + off + k : Nat) : Int) + 1 - base) (by omega) (by omega), w32_id (by omega) (by omega)]
    omega

theorem ktDsString_good {d : Buf} {base off k N M : Nat} (hd : d.length + 1 ≤ M) (hp : base + off + k + 1 ≤ M) (hM : M < 2 ^ 31)
    (hN : d.length ≤ N) (s : ScanX) (hs : s = ktDsString k d base off) : s.good base (off + 1) N M := by
  rcases ktDsString_cases hd hp hM with ⟨L, h1, h2⟩ | ⟨q, h1, h2, h3⟩
  · rw [hs, h2]
    have := h1.lt
    exact ⟨_, rfl, by omega, by omega⟩
  · rw [hs, h1]; exact ⟨q, rfl, h2, h3⟩

/-- `decodeSize` after a good scan. -/
theorem ktDsFinish_good {d : Buf} {base N M fixed : Nat} {s : ScanX} (hM : M < 2 ^ 31) (hd : d.length + 1 ≤ M)
    (hN : N + fixed + 1 ≤ M) (hb : base ≤ N) (h : s.good base 1 N M) :
    (∃ o : Nat, s = .ok (o : Int) ∧ ktDsFinish d base fixed s = some ((o + fixed : Nat) : Int) ∧ base + o + fixed ≤ d.length) ∨
    ∃ q : Nat, ktDsFinish d base fixed s = some (-(q : Int)) ∧ 0 < q ∧ base + q ≤ M := by
  cases s with
  | panic => exact h.elim
  | ret r =>
    obtain ⟨q, e, h1, h2⟩ := h
    right
    exact ⟨q, by simp only [ktDsFinish, e], h1, h2⟩
  | ok o =>
    obtain ⟨k, e, h1, h2⟩ := h
    subst e
    simp only [ktDsFinish]
    have e1 : (k : Int) + (fixed : Int) = ((k + fixed : Nat) : Int) := by omega
    rw [e1, w32_nat (by omega), w32_id (x := (d.length : Int) - base) (by omega) (by omega)]
    by_cases hc : (d.length : Int) - base < ((k + fixed : Nat) : Int)
    · right
      rw [if_pos hc]
      refine ⟨k + fixed, ?_, by omega, by omega⟩
      rw [w32_id (by omega) (by omega)]
    · left
      rw [if_neg hc]
      exact ⟨k, rfl, rfl, by omega⟩

theorem ScanX.good.mono {s : ScanX} {base lo lo' N M : Nat} (h : s.good base lo N M) (hl : lo' ≤ lo) : s.good base lo' N M := by
  cases s with
  | panic => exact h
  | ret r => exact h
  | ok o => obtain ⟨k, h1, h2, h3⟩ := h; exact ⟨k, h1, by omega, h3⟩

theorem iterX_good {f : Int → ScanX} {base N M : Nat} (hf : ∀ off : Nat, base + off ≤ N → (f off).good base (off + 1) N M) :
    ∀ (n off : Nat), base + off ≤ N → (iterX f n off).good base (off + n) N M
  | 0, off, h => ⟨off, rfl, Nat.le_refl _, h⟩
  | n + 1, off, h => by
    have := hf off h
    simp only [iterX]
    cases e : f off with
    | panic => rw [e] at this; exact this.elim
    | ret r => rw [e] at this; exact this
    | ok o =>
      rw [e] at this
      obtain ⟨k, rfl, h1, h2⟩ := this
      exact (iterX_good hf n k h2).mono (by omega)

/-- One more if something of variable length is read. -/
def ktLow (dyn : Bool) (off : Nat) : Nat := if dyn then off + 1 else off

mutual
  theorem Ty.ktDsElem_good : ∀ (t : Ty) (k : Nat) (d : Buf) (base off N M : Nat), t.wf = true → t.noBytes = true → M < 2 ^ 31 → d.length ≤ N →
      base + off ≤ N → N + k + t.ktReach + 1 ≤ M → (t.ktDsElem k d base off).good base (ktLow t.dynamic off) N M
    | .sc s, k, d, base, off, N, M => by
      intro _ _ _ _ h _
      simp only [Ty.ktDsElem, Ty.dynamic, ktLow]
      exact ⟨off, rfl, Nat.le_refl _, h⟩
    | .bytes, k, d, base, off, N, M => by intro _ h; cases h
    | .str, k, d, base, off, N, M => by
      intro _ _ hM hd hb hN
      have hs : Ty.str.ktDsElem k d base off = ktDsString k d base off := by simp only [Ty.ktDsElem]
      revert hs
      generalize Ty.str.ktDsElem k d base off = s
      intro hs
      exact ktDsString_good (by omega) (by omega) hM hd s hs
    | .struct fs, k, d, base, off, N, M => by
      intro hwf hnb hM hd hb hN
      simp only [Ty.wf, Bool.and_eq_true] at hwf
      simp only [Ty.noBytes] at hnb
      simp only [Ty.ktReach] at hN
      simp only [Ty.ktDsElem, Ty.dynamic]
      by_cases hdyn : fs.dynamic = true
      · have hg := Fields.ktDsFields_good fs 0 d (base + off + k) 0 (N + k) M hwf.1 hnb hM (by omega) (by omega) (by omega)
        rw [if_pos hdyn, hdyn]
        rw [hdyn] at hg
        have hw3 : (base : Int) + off + (k : Nat) = ((base + off + k : Nat) : Int) := by omega
        simp only [ktDsSub, hw3]
        rw [w32_nat (by omega)]
        have h0 : ((0 : Nat) : Int) = 0 := rfl
        rw [h0] at hg
        simp only [ktLow, if_true, Nat.zero_add] at hg ⊢
        rcases ktDsFinish_good (d := d) (fixed := fs.sum / 8) hM (by omega) (by omega) (by omega) hg with ⟨o, h1, h2, h3⟩ | ⟨q, h1, h2, h3⟩
        · simp only [h2]
          rw [h1] at hg
          obtain ⟨o', e, g1, _⟩ := hg
          have e : o = o' := by omega
          subst e
          rw [if_neg (Int.not_lt.mpr (Int.natCast_nonneg _)), ← Int.natCast_add, w32_nat (by omega)]
          exact ⟨_, rfl, by omega, by omega⟩
        · simp only [h1]
          rw [if_pos (by omega)]
          refine ⟨off + k + q, ?_, by omega, by omega⟩
          have e1 : (off : Int) + (k : Int) = ((off + k : Nat) : Int) := by omega
          rw [e1, w32_nat (by omega), w32_id (x := -((off + k : Nat) : Int)) (by omega) (by omega), w32_id (by omega) (by omega)]
          omega
      · rw [if_neg hdyn]
        simp only [ktLow, hdyn]
        exact ⟨off, rfl, Nat.le_refl _, hb⟩
  theorem Fields.ktDsFields_good : ∀ (fs : Fields) (start : Nat) (d : Buf) (base off N M : Nat), fs.wf start = true → fs.noBytes = true → M < 2 ^ 31 → d.length ≤ N →
      base + off ≤ N → N + (start + fs.sum) / 8 + fs.ktReach + 1 ≤ M → (fs.ktDsFields start d base off).good base (ktLow fs.dynamic off) N M
    | .nil, start, d, base, off, N, M => by
      intro _ _ _ _ h _
      simp only [Fields.ktDsFields, Fields.dynamic, ktLow]
      exact ⟨off, rfl, Nat.le_refl _, h⟩
    | .void n r, start, d, base, off, N, M => by
      intro hwf hnb hM hd hb hN
      simp only [Fields.wf, Fields.noBytes, Fields.ktReach, Fields.sum] at hwf hnb hN
      simp only [Fields.ktDsFields, Fields.dynamic]
      exact Fields.ktDsFields_good r _ d base off N M hwf hnb hM hd hb (by rw [Nat.add_assoc start]; exact hN)
    | .const _ n _ _ r, start, d, base, off, N, M => by
      intro hwf hnb hM hd hb hN
      simp only [Fields.wf, Fields.noBytes, Fields.ktReach, Fields.sum, Bool.and_eq_true] at hwf hnb hN
      simp only [Fields.ktDsFields, Fields.dynamic]
      exact Fields.ktDsFields_good r _ d base off N M hwf.2 hnb hM hd hb (by rw [Nat.add_assoc start]; exact hN)
    | .one t bits big r, start, d, base, off, N, M => by
      intro hwf hnb hM hd hb hN
      obtain ⟨h1, h2, h3, h4, h5⟩ := wf_one hwf
      simp only [Fields.noBytes, Fields.ktReach, Fields.sum, Bool.and_eq_true] at hnb hN
      simp only [Fields.ktDsFields, Fields.dynamic]
      have hr := fun off h => Fields.ktDsFields_good r (start + bits.getD 0) d base off N M h2 hnb.2 hM hd h (by omega)
      by_cases ht : t.dynamic = true
      · rw [if_pos ht, ht]
        have h1 := Ty.ktDsElem_good t (start / 8) d base off N M h1 hnb.1 hM hd hb (by omega)
        rw [ht] at h1
        cases e : t.ktDsElem (start / 8) d base off with
        | panic => rw [e] at h1; exact h1.elim
        | ret q => rw [e] at h1; exact h1
        | ok o =>
          rw [e] at h1
          obtain ⟨k, rfl, a1, a2⟩ := h1
          refine (hr k a2).mono ?_
          simp only [ktLow, Bool.true_or, if_true] at a1 ⊢
          split <;> omega
      · rw [if_neg ht, show t.dynamic = false by simpa using ht, Bool.false_or]; exact hr off hb
    | .arr t len bits big r, start, d, base, off, N, M => by
      intro hwf hnb hM hd hb hN
      obtain ⟨h0, h1, h2, _⟩ := wf_arr hwf
      simp only [Fields.noBytes, Fields.ktReach, Fields.sum, Bool.and_eq_true] at hnb hN
      simp only [Fields.ktDsFields, Fields.dynamic]
      have hr := fun off h => Fields.ktDsFields_good r (start + bits.getD 0) d base off N M h2 hnb.2 hM hd h (by omega)
      by_cases ht : t.dynamic = true
      · rw [if_pos ht, ht]
        have h1 := iterX_good (f := fun off => t.ktDsElem (start / 8) d base off) (base := base) (N := N) (M := M)
          (fun off h => by
            have := Ty.ktDsElem_good t (start / 8) d base off N M h1 hnb.1 hM hd h (by omega)
            rw [ht] at this; exact this) len off hb
        cases e : iterX (fun off => t.ktDsElem (start / 8) d base off) len off with
        | panic => rw [e] at h1; exact h1.elim
        | ret q => rw [e] at h1; exact h1
        | ok o =>
          rw [e] at h1
          obtain ⟨k, rfl, a1, a2⟩ := h1
          refine (hr k a2).mono ?_
          simp only [ktLow, Bool.true_or, if_true] at a1 ⊢
          split <;> omega
      · rw [if_neg ht, show t.dynamic = false by simpa using ht, Bool.false_or]; exact hr off hb
end

theorem decIdx_np {α : Type} {f : Nat → Nat → Res (α × Nat)} {sc : Int → ScanX} {d : Buf} {base eb start len N M : Nat} {dyn tdyn : Bool}
    (hg : tdyn = true → ∀ off : Nat, base + off ≤ N → (sc off).good base (off + 1) N M)
    (hf : ∀ i off o : Nat, i < len → ktOff (dyn || tdyn) off = off → (tdyn = true → sc off = .ok (o : Int)) → (tdyn = false → o = off) →
      off ≤ o → 8 * (base + o) + (start + i * eb) + eb ≤ 8 * d.length →
      f i off ≠ .panic ∧ ∀ y o2, f i off = .ok (y, o2) → o2 = o) :
    ∀ (n i off o : Nat), i + n ≤ len → ktOff (dyn || tdyn) off = off → base + off ≤ N →
      (tdyn = true → iterX sc n off = .ok (o : Int)) → (tdyn = false → o = off) →
      8 * (base + o) + (start + (i + n) * eb) ≤ 8 * d.length →
      decIdx f n i off ≠ .panic ∧ ∀ ys o2, decIdx f n i off = .ok (ys, o2) → o2 = o
  | 0, i, off, o => by
    intro _ _ _ hs h0 _
    have : o = off := by
      cases ht : tdyn
      · exact h0 ht
      · have := hs ht
        simp only [iterX, ScanX.ok.injEq] at this
        omega
    refine ⟨by simp [decIdx], ?_⟩
    intro ys o2 h
    simp only [decIdx] at h
    cases h; exact this.symm
  | n + 1, i, off, o => by
    intro hi ho hN hs h0 hle
    have hle1 : (i + 1) * eb ≤ (i + (n + 1)) * eb := Nat.mul_le_mul_right _ (by omega)
    have hstep : ∃ o1 : Nat, (tdyn = true → sc off = .ok (o1 : Int)) ∧ (tdyn = false → o1 = off) ∧ off ≤ o1 ∧ o1 ≤ o ∧ base + o1 ≤ N ∧
        (tdyn = true → iterX sc n o1 = .ok (o : Int)) := by
      cases ht : tdyn
      · exact ⟨off, by simp, fun _ => rfl, Nat.le_refl _, by rw [h0 ht]; exact Nat.le_refl _, hN, by simp⟩
      · have h1 := hg ht off hN
        have h2 := hs ht
        simp only [iterX] at h2
        cases e : sc off with
        | panic => rw [e] at h1; exact h1.elim
        | ret r => rw [e] at h2; cases h2
        | ok o1 =>
          rw [e] at h1 h2
          obtain ⟨k, rfl, a1, a2⟩ := h1
          simp only at h2
          have h3 := iterX_good (hg ht) n k a2
          rw [h2] at h3
          obtain ⟨k2, e2, b1, _⟩ := h3
          exact ⟨k, fun _ => rfl, by simp, by omega, by omega, a2, fun _ => h2⟩
    obtain ⟨o1, g1, g2, g3, g4, g5, g6⟩ := hstep
    have hb1 : 8 * (base + o1) + (start + i * eb) + eb ≤ 8 * d.length := by
      rw [Nat.add_mul, Nat.one_mul] at hle1; omega
    obtain ⟨a1, a2⟩ := hf i off o1 (by omega) ho g1 g2 g3 hb1
    have ho1 : ktOff (dyn || tdyn) o1 = o1 := by
      cases ht : tdyn
      · rw [g2 ht, ← ht]; exact ho
      · simp [ktOff]
    obtain ⟨b1, b2⟩ := decIdx_np hg hf n (i + 1) o1 o (by omega) ho1 g5 g6 (fun h => by rw [h0 h, g2 h])
      (by rw [show i + 1 + n = i + (n + 1) by omega]; exact hle)
    simp only [decIdx]
    cases e : f i off with
    | panic => exact absurd e a1
    | fail => exact ⟨by simp, by intro ys o2 h; cases h⟩
    | ok yo =>
      obtain ⟨y, o2⟩ := yo
      have := a2 y o2 e
      subst this
      simp only
      cases e2 : decIdx f n (i + 1) o2 with
      | panic => exact absurd e2 b1
      | fail => exact ⟨by simp, by intro ys o3 h; cases h⟩
      | ok zo =>
        obtain ⟨zs, o3⟩ := zo
        refine ⟨by simp, ?_⟩
        intro ys o4 h
        cases h
        exact b2 _ _ e2

mutual
  theorem Ty.ktDec_np (c : KtCfg) : ∀ (t : Ty) (ctx : List Fields) (big arr : Bool)
      (base start n : Nat) (dyn : Bool) (i : Nat) (d : Buf) (off o : Nat),
      t.wf = true → t.elemOk arr (start + i * n) n → (i ≠ 0 → t.elemOk arr start n) → t.noDirectDyn = true → t.noBytes = true →
      d.length < 2 ^ 30 → (t = .str ∨ ktOff dyn off = off) → (t.fixed n ≠ n → i = 0) →
      (start + i * n) / 8 + t.ktReach < 2 ^ 30 → off ≤ o →
      (t.dynamic = true → t.ktDsElem ((start + i * n) / 8) d base off = .ok (o : Int)) →
      8 * (base + o) + (start + i * n) + t.fixed n ≤ 8 * d.length →
      t.ktDec c ctx big d base start n dyn i off ≠ .panic
    | .sc s, ctx, big, arr, base, start, n, dyn, i, d, off, o => by
      intro hw hok _ _ _ _ ho _ _ hoo _ hle
      have ho : ktOff dyn off = off := by simpa using ho
      simp only [Ty.elemOk] at hok
      have hpos : ktBitBase base dyn off start + i * n = 8 * (base + off) + (start + i * n) := by
        unfold ktBitBase; rw [ho]; omega
      simp only [Ty.fixed] at hle
      obtain ⟨v, r, e, _⟩ := ktRead_spec (big := big) c ctx hok.1 d (8 * (base + off) + (start + i * n)) (by omega)
      simp only [Ty.ktDec, hpos, e]
      intro h; cases h
    | .bytes, ctx, big, arr, base, start, n, dyn, i, d, off, o => by intro _ _ _ _ h; cases h
    | .str, ctx, big, arr, base, start, n, dyn, i, d, off, o => by
      intro _ hok _ _ _ hd _ hi hr hoo hs hle
      have hz : i * n = 0 := by
        by_cases hn : n = 0
        · simp [hn]
        · rw [hi (by simp only [Ty.fixed]; omega)]; simp
      simp only [Ty.fixed] at hle
      rw [hz, Nat.add_zero] at hs hr hle
      have hs := hs rfl
      have hc : ktDsString (start / 8) d base off = .ok (o : Int) := by
        rw [← hs]; simp only [Ty.ktDsElem]
      have hb : base + off + start / 8 + 1 ≤ d.length + start / 8 + 1 := by omega
      rcases ktDsString_cases (d := d) (base := base) (off := off) (k := start / 8) (M := d.length + start / 8 + 1) (by omega) hb
        (by omega) with ⟨L, h1, _⟩ | ⟨q, h1, _⟩
      · have e := decStrLen_of h1 L 0 (by omega)
        simp only [Ty.ktDec, ktDecString, e]
        intro h; cases h
      · rw [hc] at h1; cases h1
    | .struct fs, ctx, big, arr, base, start, n, dyn, i, d, off, o => by
      intro hwf hok hok0 hnd hnb hd ho hi hr hoo hs hle
      have ho : ktOff dyn off = off := by simpa using ho
      simp only [Ty.elemOk] at hok hok0
      simp only [Ty.wf, Bool.and_eq_true, decide_eq_true_eq] at hwf
      simp only [Ty.noBytes] at hnb
      simp only [Ty.ktReach] at hr
      have hnd' : fs.noDirectDyn = true := by simpa [Ty.noDirectDyn] using hnd
      have hb1 : 8 * (base + ktOff dyn off + start / 8 + i * (n / 8)) = 8 * (base + off) + (start + i * n) := by
        rw [ho]
        by_cases hi0 : i = 0
        · subst hi0; simp only [Nat.zero_mul, Nat.add_zero] at hok ⊢; omega
        · have h8 := hok0 hi0
          have hn8 : n % 8 = 0 := by
            by_cases hf : (Ty.struct fs).fixed n = n
            · simp only [Ty.fixed] at hf
              split at hf <;> omega
            · exact absurd (hi hf) hi0
          have : n = 8 * (n / 8) := by omega
          have e2 : i * n = 8 * (i * (n / 8)) := by
            conv => lhs; rw [this]
            rw [Nat.mul_left_comm]
          omega
      generalize hbb : base + ktOff dyn off + start / 8 + i * (n / 8) = b at hb1
      have hb2 : b = base + off + (start + i * n) / 8 := by omega
      have hbN : b ≤ d.length + (start + i * n) / 8 := by omega
      have hb31 : b < 2 ^ 31 := by omega
      have hin : fs.ktDecodeSize d b ≠ none ∧ ∀ sz, fs.ktDecodeSize d b = some sz → ¬ sz < 0 →
          fs.ktDecFields c ctx d b 0 false 0 ≠ .panic := by
        by_cases hdyn : fs.dynamic = true
        · have hg := Fields.ktDsFields_good fs 0 d b 0 (d.length + (start + i * n) / 8)
            (d.length + (start + i * n) / 8 + fs.sum / 8 + fs.ktReach + 1) hwf.1 hnb (by omega) (by omega) (by omega) (by omega)
          rw [hdyn] at hg
          simp only [ktLow, if_true, Nat.zero_add] at hg
          have h0 : ((0 : Nat) : Int) = 0 := rfl
          rw [h0] at hg
          unfold Fields.ktDecodeSize
          rw [if_pos hdyn]
          rcases ktDsFinish_good (d := d) (fixed := fs.sum / 8) (by omega) (by omega) (by omega) hbN hg with ⟨o1, h1, h2, h3⟩ | ⟨q, h1, h2, h3⟩
          · rw [h2]
            refine ⟨by simp, ?_⟩
            intro _ _ _
            exact Fields.ktDec_np c fs ctx b 0 false d 0 o1 hwf.1 hnd' hnb hd (by simp [ktOff]) (by omega) (by omega) h1 (by omega)
          · rw [h1]
            refine ⟨by simp, ?_⟩
            intro sz e hne
            cases e
            exact absurd (by omega) hne
        · have hstat : fs.dynamic = false := by simpa using hdyn
          have hfx : (Ty.struct fs).fixed n = fs.sum := by simp [Ty.fixed, hstat]
          rw [hfx] at hle
          have := Fields.ktDec_np c fs ctx b 0 false d 0 0 hwf.1 hnd' hnb hd (by simp [ktOff]) (by omega) (by omega)
            (Fields.ktDsFields_static fs hstat 0 d b 0) (by omega)
          refine ⟨?_, fun _ _ _ => this⟩
          unfold Fields.ktDecodeSize
          rw [if_neg hdyn]
          split <;> simp
      simp only [Ty.ktDec, hbb, w32_nat hb31]
      cases e : fs.ktDecodeSize d b with
      | none => exact absurd e hin.1
      | some sz =>
        simp only
        split
        · intro h; cases h
        · rename_i hneg
          have h3 := hin.2 sz e hneg
          cases e2 : fs.ktDecFields c ctx d b 0 false 0 with
          | panic => exact absurd e2 h3
          | fail => intro h; cases h
          | ok vo => obtain ⟨v, o3⟩ := vo; intro h; cases h
  theorem Fields.ktDec_np (c : KtCfg) : ∀ (fs : Fields) (ctx : List Fields)
      (base start : Nat) (dyn : Bool) (d : Buf) (off o : Nat),
      fs.wf start = true → fs.noDirectDyn = true → fs.noBytes = true → d.length < 2 ^ 30 → ktOff dyn off = off → base + off ≤ d.length →
      (start + fs.sum) / 8 + fs.ktReach < 2 ^ 30 →
      fs.ktDsFields start d base off = .ok (o : Int) → 8 * (base + o) + start + fs.sum ≤ 8 * d.length →
      fs.ktDecFields c ctx d base start dyn off ≠ .panic
    | .nil, ctx, base, start, dyn, d, off, o => by
      intro _ _ _ _ _ _ _ _ _
      simp only [Fields.ktDecFields]
      intro h; cases h
    | .void n r, ctx, base, start, dyn, d, off, o => by
      intro hw hn hnb hd ho hb hr hs hle
      simp only [Fields.wf, Fields.noDirectDyn, Fields.noBytes, Fields.sum, Fields.ktReach] at hw hn hnb hr hle
      simp only [Fields.ktDsFields] at hs
      simp only [Fields.ktDecFields]
      exact Fields.ktDec_np c r ctx base (start + n) dyn d off o hw hn hnb hd ho hb (by omega) hs (by omega)
    | .const p n big val r, ctx, base, start, dyn, d, off, o => by
      intro hw hn hnb hd ho hb hr hs hle
      simp only [Fields.wf, Fields.noDirectDyn, Fields.noBytes, Fields.sum, Fields.ktReach, Bool.and_eq_true, decide_eq_true_eq] at hw hn hnb hr hle
      obtain ⟨⟨⟨⟨⟨⟨w1, w2⟩, w3⟩, w4⟩, w5⟩, w6⟩, w7⟩ := hw
      simp only [Fields.ktDsFields] at hs
      have hpos : ktBitBase base dyn off start = 8 * (base + off) + start := by
        unfold ktBitBase; rw [ho]; omega
      have hoo : off ≤ o := by
        have hg := Fields.ktDsFields_good r (start + n) d base off d.length (d.length + (start + n + r.sum) / 8 + r.ktReach + 1) w7 hnb
          (by omega) (Nat.le_refl _) hb (by omega)
        rw [hs] at hg
        obtain ⟨k, e, g1, _⟩ := hg
        unfold ktLow at g1
        split at g1 <;> omega
      obtain ⟨u, e, _⟩ := ktConst_dec (big := big) w3 w5 (8 * (base + off) + start) d (by omega)
      have := Fields.ktDec_np c r ctx base (start + n) dyn d off o w7 hn hnb hd ho hb (by omega) hs (by omega)
      simp only [Fields.ktDecFields, hpos, e]
      by_cases hne : u = ktConst p val &&& ktMask n
      · intro h; exact this ((if_neg (not_not_intro hne)).symm.trans h)
      · intro h
        have h' := (if_pos hne).symm.trans h
        cases h'
    | .one t bits big r, ctx, base, start, dyn, d, off, o => by
      intro hw hn hnb hd ho hb hr hs hle
      obtain ⟨n1, n2, n3⟩ := noDirectDyn_bits hw hn
      obtain ⟨h1, h2, h3, h4, h5⟩ := wf_one hw
      simp only [Fields.noBytes, Fields.sum, Fields.ktReach, Bool.and_eq_true] at hnb hr hle
      have hb0 : t.dynamic = true → bits.getD 0 = 0 := by
        intro ht
        rw [ht] at n3
        have : bits = none := by simpa using n3
        simp [this]
      have hfx : t.fixed (bits.getD 0) = bits.getD 0 := by
        cases ht : t.dynamic
        · rw [ht] at h4; simpa using h4.symm
        · have := hb0 ht
          rw [this, ht] at h4
          rw [this]
          simp only [if_true] at h4
          omega
      have hstep : ∃ o1 : Nat, (t.dynamic = true → t.ktDsElem (start / 8) d base off = .ok (o1 : Int)) ∧ (t.dynamic = false → o1 = off) ∧
          r.ktDsFields (start + bits.getD 0) d base o1 = .ok (o : Int) ∧ off ≤ o1 ∧ base + o1 ≤ d.length := by
        simp only [Fields.ktDsFields] at hs
        cases ht : t.dynamic
        · rw [if_neg (by simp [ht])] at hs
          exact ⟨off, by simp, fun _ => rfl, hs, Nat.le_refl _, hb⟩
        · rw [if_pos ht] at hs
          have hg := Ty.ktDsElem_good t (start / 8) d base off d.length (d.length + start / 8 + t.ktReach + 1) h1 hnb.1
            (by omega) (Nat.le_refl _) hb (by omega)
          rw [ht] at hg
          cases e : t.ktDsElem (start / 8) d base off with
          | panic => rw [e] at hs; cases hs
          | ret r => rw [e] at hs; cases hs
          | ok q =>
            rw [e] at hs hg
            simp only at hs
            obtain ⟨k, hk, g1, g2⟩ := hg
            subst hk
            simp only [ktLow, if_true] at g1
            exact ⟨k, fun _ => rfl, by simp, hs, by omega, g2⟩
      obtain ⟨o1, s1, s2, s3, s4, s5⟩ := hstep
      have hg := Fields.ktDsFields_good r (start + bits.getD 0) d base o1 d.length (d.length + (start + bits.getD 0 + r.sum) / 8 + r.ktReach + 1) h2 hnb.2
        (by omega) (Nat.le_refl _) s5 (by omega)
      rw [s3] at hg
      obtain ⟨k, e, g1, _⟩ := hg
      have hoo : o1 ≤ o := by
        unfold ktLow at g1
        split at g1 <;> omega
      have hel := Ty.ktDec_np c t (.one t bits big r :: ctx) big false base start (bits.getD 0) dyn 0 d off o1 h1 (by simpa using h3)
        (fun h => absurd rfl h) n1 hnb.1 hd (Or.inr ho) (fun _ => rfl) (by omega) s4 (by simpa using s1) (by rw [hfx]; omega)
      simp only [Fields.ktDecFields]
      cases e1 : t.ktDec c (.one t bits big r :: ctx) big d base start (bits.getD 0) dyn 0 off with
      | panic => exact absurd e1 hel
      | fail => intro h; cases h
      | ok xo =>
        obtain ⟨x, o2⟩ := xo
        obtain ⟨a1, a2, a3, a4, a5⟩ := Ty.ktDec_sound flatCfg c t _ big false false base start (bits.getD 0) dyn 0 d off x o2 h1
            (by simpa using h3) (fun h => absurd rfl h) n1 (Ty.ktSmall_of_reach t (by omega)) hd (Or.inr (Or.inr ho)) (fun _ => rfl) hb (by omega) e1
        simp only [Nat.zero_mul, Nat.add_zero] at a4
        have ho2 : o2 = o1 := by
          cases ht : t.dynamic
          · rw [a3 ht, s2 ht]
          · rcases a4 ht with h | h
            · rw [s1 ht] at h
              simp only [ScanX.ok.injEq] at h
              omega
            · rw [s1 ht] at h; exact h.elim
        subst ho2
        have hrest := Fields.ktDec_np c r ctx base (start + bits.getD 0) (dyn || bits.isNone) d o2 o h2 n2 hnb.2 hd
          (ktOff_next n3 ho a3) s5 (by omega) s3 (by omega)
        simp only
        cases e2 : r.ktDecFields c ctx d base (start + bits.getD 0) (dyn || bits.isNone) o2 with
        | panic => exact absurd e2 hrest
        | fail => intro h; cases h
        | ok vo => intro h; cases h
    | .arr t len bits big r, ctx, base, start, dyn, d, off, o => by
      intro hw hn hnb hd ho hb hr hs hle
      obtain ⟨h0, h1, h2, h3, h4, h5, h7, h6⟩ := wf_arr hw
      have hbn : bits.isNone = t.dynamic := by
        cases ht : t.dynamic
        · cases hb : bits with
          | none => rw [h7.mp hb] at ht; cases ht
          | some n => rfl
        · rw [h7.mpr ht]; rfl
      simp only [Fields.noDirectDyn, Bool.and_eq_true] at hn
      simp only [Fields.noBytes, Fields.sum, Fields.ktReach, Bool.and_eq_true] at hnb hr hle
      have h30 := h3 0
      simp only [Nat.zero_mul, Nat.add_zero] at h30
      have hz : t.dynamic = true → bits.getD 0 / len = 0 := by
        intro ht; rw [h7.mpr ht]; simp
      have ho' : ktOff (dyn || t.dynamic) off = off := by
        cases t.dynamic
        · rw [Bool.or_false]; exact ho
        · simp [ktOff]
      have hgood : t.dynamic = true → ∀ off : Nat, base + off ≤ d.length →
          ((fun off => t.ktDsElem (start / 8) d base off) off).good base (off + 1) d.length (d.length + start / 8 + t.ktReach + 1) := by
        intro ht off hb
        have := Ty.ktDsElem_good t (start / 8) d base off d.length (d.length + start / 8 + t.ktReach + 1) h1 hnb.1
            (by omega) (Nat.le_refl _) hb (by omega)
        rw [ht] at this
        exact this
      have hstep : ∃ o1 : Nat, (t.dynamic = true → iterX (fun off => t.ktDsElem (start / 8) d base off) len off = .ok (o1 : Int)) ∧
          (t.dynamic = false → o1 = off) ∧
          r.ktDsFields (start + bits.getD 0) d base o1 = .ok (o : Int) ∧ off ≤ o1 ∧ base + o1 ≤ d.length := by
        simp only [Fields.ktDsFields] at hs
        cases ht : t.dynamic
        · rw [if_neg (by simp [ht])] at hs
          exact ⟨off, by simp, fun _ => rfl, hs, Nat.le_refl _, hb⟩
        · rw [if_pos ht] at hs
          have hg := iterX_good (hgood ht) len off hb
          cases e : iterX (fun off => t.ktDsElem (start / 8) d base off) len off with
          | panic => rw [e] at hs; cases hs
          | ret r => rw [e] at hs; cases hs
          | ok q =>
            rw [e] at hs hg
            simp only at hs
            obtain ⟨k, hk, g1, g2⟩ := hg
            subst hk
            exact ⟨k, fun _ => rfl, by simp, hs, by omega, g2⟩
      obtain ⟨o1, s1, s2, s3, s4, s5⟩ := hstep
      have hg := Fields.ktDsFields_good r (start + bits.getD 0) d base o1 d.length (d.length + (start + bits.getD 0 + r.sum) / 8 + r.ktReach + 1) h2 hnb.2
        (by omega) (Nat.le_refl _) s5 (by omega)
      rw [s3] at hg
      obtain ⟨k, e, g1, _⟩ := hg
      have hoo : o1 ≤ o := by
        unfold ktLow at g1
        split at g1 <;> omega
      obtain ⟨hel, hel2⟩ := decIdx_np (d := d) (start := start) (eb := bits.getD 0 / len) (len := len) (dyn := dyn)
        (f := fun i off => t.ktDec c (.arr t len bits big r :: ctx) big d base start (bits.getD 0 / len)
              (dyn || t.dynamic) (if t.dynamic then 0 else i) off) hgood
        (fun i off o hi ho hs h0 hoo hle => by
          have hib : i * (bits.getD 0 / len) ≤ bits.getD 0 := by
            have := Nat.mul_le_mul_right (bits.getD 0 / len) (show i ≤ len by omega)
            rw [h5] at this; exact this
          have hb' : base + off ≤ d.length := by omega
          cases ht : t.dynamic
          · rw [ht] at ho
            simp only [Bool.false_eq_true, if_false]
            refine ⟨Ty.ktDec_np c t (.arr t len bits big r :: ctx) big true base start
              (bits.getD 0 / len) (dyn || false) i d off o h1 (h3 i) (fun _ => h30) hn.1 hnb.1 hd (Or.inr ho)
              (fun h => absurd h4 h) (by omega) hoo (fun h => by rw [ht] at h; cases h) (by rw [h4]; exact hle), ?_⟩
            intro y o2 hy
            rw [Ty.ktDec_static c t ht hy, h0 ht]
          · rw [ht] at ho
            simp only [if_true]
            have hz := hz ht
            rw [hz] at h30 h4 hle ⊢
            simp only [Nat.mul_zero, Nat.add_zero] at hle
            refine ⟨Ty.ktDec_np c t (.arr t len bits big r :: ctx) big true base start
              0 (dyn || true) 0 d off o h1 (by simpa using h30) (fun h => absurd rfl h) hn.1 hnb.1 hd (Or.inr ho)
              (fun _ => rfl) (by omega) hoo (by simpa using hs) (by rw [h4]; omega), ?_⟩
            intro y o2 hy
            obtain ⟨b1, b2, b3, b4, b5⟩ := Ty.ktDec_sound flatCfg c t (.arr t len bits big r :: ctx) big true false base start
                  0 (dyn || true) 0 d off y o2 h1 (by simpa using h30) (fun h => absurd rfl h) hn.1 (Ty.ktSmall_of_reach t (by omega)) hd (Or.inr (Or.inr ho))
                  (fun _ => rfl) hb' (by omega) hy
            simp only [Nat.zero_mul, Nat.add_zero] at b4
            have hs : t.ktDsElem (start / 8) d base off = .ok (o : Int) := hs ht
            rcases b4 ht with h | h
            · rw [hs] at h
              simp only [ScanX.ok.injEq] at h
              omega
            · rw [hs] at h; exact h.elim)
        len 0 off o1 (by omega) ho' hb s1 s2 (by rw [Nat.zero_add, h5]; omega)
      simp only [Fields.ktDecFields]
      cases e1 : decIdx (fun i off => t.ktDec c (.arr t len bits big r :: ctx) big d base start (bits.getD 0 / len)
              (dyn || t.dynamic) (if t.dynamic then 0 else i) off) len 0 off with
      | panic => exact absurd e1 hel
      | fail => intro h; cases h
      | ok xo =>
        obtain ⟨x, o2⟩ := xo
        have ho2 := hel2 _ _ e1
        subst ho2
        have hrest := Fields.ktDec_np c r ctx base (start + bits.getD 0) (dyn || bits.isNone) d o2 o h2 hn.2 hnb.2 hd
          (ktOff_next hbn ho s2) s5 (by omega) s3 (by omega)
        simp only
        cases e2 : r.ktDecFields c ctx d base (start + bits.getD 0) (dyn || bits.isNone) o2 with
        | panic => exact absurd e2 hrest
        | fail => intro h; cases h
        | ok vo => intro h; cases h
end

/-- Without bytes fields `decode` throws no exception, whatever the data. -/
theorem Fields.ktDecode_np (c : KtCfg) {fs : Fields} (h : fs.accepted = true) (hn : fs.noDirectDyn = true) (hnb : fs.noBytes = true)
    (hr : (Ty.struct fs).ktReach < 2 ^ 30) {d : Buf} (hd : d.length < 2 ^ 30) {base : Nat} (hb : base ≤ d.length) :
    fs.ktDecode c d base ≠ .panic := by
  obtain ⟨h1, h2, _, _⟩ := Fields.accepted_facts h
  simp only [Ty.ktReach] at hr
  have hin : fs.ktDecodeSize d base ≠ none ∧ ∀ sz, fs.ktDecodeSize d base = some sz → ¬ sz < 0 →
      fs.ktDecFields c [] d base 0 false 0 ≠ .panic := by
    by_cases hdyn : fs.dynamic = true
    · have hg := Fields.ktDsFields_good fs 0 d base 0 d.length
        (d.length + fs.sum / 8 + fs.ktReach + 1) h1 hnb (by omega) (by omega) (by omega) (by omega)
      rw [hdyn] at hg
      simp only [ktLow, if_true, Nat.zero_add] at hg
      have h0 : ((0 : Nat) : Int) = 0 := rfl
      rw [h0] at hg
      unfold Fields.ktDecodeSize
      rw [if_pos hdyn]
      rcases ktDsFinish_good (d := d) (fixed := fs.sum / 8) (by omega) (by omega) (by omega) hb hg with ⟨o1, h1', h2', h3⟩ | ⟨q, h1', h2', h3⟩
      · rw [h2']
        refine ⟨by simp, ?_⟩
        intro _ _ _
        exact Fields.ktDec_np c fs [] base 0 false d 0 o1 h1 hn hnb hd (by simp [ktOff]) (by omega) (by omega) h1' (by omega)
      · rw [h1']
        refine ⟨by simp, ?_⟩
        intro sz e hne
        cases e
        exact absurd (by omega) hne
    · have hstat : fs.dynamic = false := by simpa using hdyn
      unfold Fields.ktDecodeSize
      rw [if_neg hdyn, w32_id (by omega) (by omega)]
      by_cases hc : (d.length : Int) - base < ((fs.sum / 8 : Nat) : Int)
      · rw [if_pos hc]
        refine ⟨by simp, ?_⟩
        intro sz e hne
        cases e
        exact absurd (by omega) hne
      · rw [if_neg hc]
        refine ⟨by simp, ?_⟩
        intro _ _ _
        exact Fields.ktDec_np c fs [] base 0 false d 0 0 h1 hn hnb hd (by simp [ktOff]) (by omega) (by omega)
            (Fields.ktDsFields_static fs hstat 0 d base 0) (by omega)
  unfold Fields.ktDecode
  cases e : fs.ktDecodeSize d base with
  | none => exact absurd e hin.1
  | some sz =>
    simp only
    split
    · intro h; cases h
    · rename_i hneg
      have h3 := hin.2 sz e hneg
      cases e2 : fs.ktDecFields c [] d base 0 false 0 with
      | panic => exact absurd e2 h3
      | fail => intro h; cases h
      | ok vo => obtain ⟨v, o3⟩ := vo; intro h; cases h

theorem and_congr_l {a b c : Prop} (h : a ↔ b) : a ∧ c ↔ b ∧ c := and_congr h Iff.rfl
theorem and_congr_r {a b c : Prop} (h : a ↔ b) : c ∧ a ↔ c ∧ b := and_congr Iff.rfl h

mutual
  theorem Ty.ktRepr_noBytes (cg : Cfg) : ∀ (t : Ty) (lp big : Bool) (n : Nat) (v : t.Val) (ws : List (Option Bool)), t.noBytes = true →
      (t.KtRepr cg lp n big v ws ↔ t.Repr cg lp n big v ws)
    | .sc s, lp, big, n, (v : BitVec s.width), ws => by intro _; simp only [Ty.KtRepr, Ty.Repr]
    | .str, lp, big, n, v, ws => by intro _; exact Iff.rfl
    | .bytes, lp, big, n, v, ws => by intro h; cases h
    | .struct fs, lp, big, n, v, ws => by
      intro h
      exact Fields.ktRepr_noBytes cg fs v ws h
  theorem Fields.ktRepr_noBytes (cg : Cfg) : ∀ (fs : Fields) (v : fs.Val) (ws : List (Option Bool)), fs.noBytes = true →
      (fs.KtRepr cg v ws ↔ fs.Repr cg v ws)
    | .nil, v, ws => by intro _; exact Iff.rfl
    | .void n r, v, ws => by
      intro h
      simp only [Fields.KtRepr, Fields.Repr]
      exact exists_congr (fun w => and_congr_l (Fields.ktRepr_noBytes cg r v w h))
    | .const pr n big val r, v, ws => by
      intro h
      simp only [Fields.KtRepr, Fields.Repr]
      exact exists_congr (fun w => and_congr_l (Fields.ktRepr_noBytes cg r v w h))
    | .one t bits big r, (v : t.Val × r.Val), ws => by
      intro h
      simp only [Fields.noBytes, Bool.and_eq_true] at h
      simp only [Fields.KtRepr, Fields.Repr]
      exact exists_congr (fun w1 => exists_congr (fun w2 => and_congr (Ty.ktRepr_noBytes cg t false big _ v.1 w1 h.1)
        (and_congr_l (Fields.ktRepr_noBytes cg r v.2 w2 h.2))))
    | .arr t len bits big r, (v : List t.Val × r.Val), ws => by
      intro h
      simp only [Fields.noBytes, Bool.and_eq_true] at h
      have he : (fun x w => t.KtRepr cg (cg.useLoop len) (bits.getD 0 / len) big x w) =
          (fun x w => t.Repr cg (cg.useLoop len) (bits.getD 0 / len) big x w) := by
        funext x w
        exact propext (Ty.ktRepr_noBytes cg t _ big _ x w h.1)
      simp only [Fields.KtRepr, Fields.Repr]
      rw [he]
      exact exists_congr (fun wss => exists_congr (fun w2 => and_congr_r (and_congr_right'
        (and_congr_l (Fields.ktRepr_noBytes cg r v.2 w2 h.2)))))
end

end Bubbler
