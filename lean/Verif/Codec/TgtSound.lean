import Verif.Codec.TgtTop
import Verif.Codec.KtSafe

/-
What the decoders of TgtMsg.lean accept: if the dynamic leaf statements and the comparison of constants accept
only what stands in the data (`TgtDecSpec.SoundOk`), everything `decode` accepts is the message of some Go value.
-/
set_option linter.unusedSimpArgs false
namespace Bubbler

mutual
  /-- No string, at any depth. -/
  def Ty.noStr : Ty → Bool
    | .str => false
    | .struct fs => fs.noStr
    | _ => true
  def Fields.noStr : Fields → Bool
    | .nil => true
    | .void _ r => r.noStr
    | .const _ _ _ _ r => r.noStr
    | .one t _ _ r => t.noStr && r.noStr
    | .arr t _ _ _ r => t.noStr && r.noStr
end

variable {T : Tgt}

/-- The restrictions on prefixes alone. -/
def TgtDecSpec.lax (S : TgtDecSpec T) : TgtDecSpec T :=
  { S with
    fitSc := fun _ _ _ _ _ => True
    fitStr := fun _ => True
    sameLoop := false }

/-- What the leaf statements of a decoder that checks sizes accept.  `strs`: also strings. -/
structure TgtDecSpec.SoundOk (S : TgtDecSpec T) (strs : Bool) : Prop where
  checks : T.checks = true
  wrap : ∀ x : Int, 0 ≤ x → x < 2 ^ 31 → T.wrap x = x
  ret : ∀ x : Int, -(2 ^ 31 : Int) < x → x < 2 ^ 31 → T.ret x = x
  rem : ∀ n b : Nat, b ≤ n → n < S.maxLen → T.rem n b = (n : Int) - b
  maxLen : S.maxLen ≤ 2 ^ 30
  const : ∀ p n big val start base d, 0 < n → n ≤ p.width → (big = true → n = p.width) → val < 2 ^ n →
    S.constOk p n big val = true → d.length < S.maxLen → 8 * base + start + n ≤ 8 * d.length →
    T.decConst p n big val d start base = some true → Agrees d (8 * base + start) (scWire n big (BitVec.ofNat 64 val))
  str : strs = true → ∀ pos d x m, d.length < S.maxLen → T.decStr d pos = .ok (x, m) →
    ∃ s, 0#8 ∉ s ∧ m = s.length + 1 ∧ Agrees d (8 * pos) (byteWire (s ++ [0#8]))
  bytes : ∀ pos d x m, d.length < S.maxLen → T.decBytes d pos = .ok (x, m) →
    ∃ bs k, leb bs = some k ∧ S.fitLen bs k x.length ∧ m = bs.length + x.length ∧ Agrees d (8 * pos) (byteWire (bs ++ x))

variable {S : TgtDecSpec T}

/-- Whatever bits stand somewhere are a scalar. -/
theorem Sc.gRepr_exists {s : Sc} {n : Nat} (gl big : Bool) (h : s.wf n = true) {pos : Nat} {d : Buf} (hd : pos + n ≤ 8 * d.length) :
    ∃ (x : BitVec s.width) (ws : List (Option Bool)), s.GRepr gl n big x ws ∧ Agrees d pos ws ∧ ws.length = n := by
  have hf := Sc.wf_facts h
  obtain ⟨v, e, hr⟩ := bbReadFieldBits_spec d pos n big (by omega) hd
  have hraw := hr.raw
  by_cases hb : (s.isBool && gl) = true
  · have hag : Agrees d pos (scWire n big (v.setWidth n)) := hraw.toAgrees hd (fun _ _ => rfl)
    refine ⟨(if v.setWidth n = 0#n then 0#s.width else 1#s.width : BitVec s.width), scWire n big (v.setWidth n), ?_, hag, scWire_length _ _ _⟩
    unfold Sc.GRepr
    rw [if_pos hb]
    exact ⟨_, rfl, rfl⟩
  · refine ⟨s.conv (v.setWidth n), scWire n big (s.conv (v.setWidth n)), ?_, hraw.toAgrees hd (Sc.conv_bits h _), scWire_length _ _ _⟩
    unfold Sc.GRepr
    rw [if_neg hb]
    exact ⟨Sc.conv_inRange h _, rfl⟩

theorem tDecIdx_sound {α β : Type} {R : α → List (Option Bool) → Prop} (f : Nat → Nat → Res (β × Nat))
    (sc : Int → ScanX) (d : Buf) (base eb start len : Nat) (tdyn : Bool)
    (hf : ∀ i off y o, i < len → base + off ≤ d.length → f i off = .ok (y, o) →
      off ≤ o ∧ base + o ≤ d.length ∧ (tdyn = false → o = off) ∧ (tdyn = true → sc off = .ok (o : Int)) ∧
      (8 * (base + o) + (start + i * eb) + eb ≤ 8 * d.length →
        ∃ x w, R x w ∧ Agrees d (8 * (base + off) + (start + i * eb)) w ∧ 8 * o + eb = 8 * off + w.length)) :
    ∀ (n i off : Nat) (ys : List β) (o : Nat), i + n ≤ len → base + off ≤ d.length →
      decIdx f n i off = .ok (ys, o) →
      off ≤ o ∧ base + o ≤ d.length ∧ (tdyn = false → o = off) ∧ (tdyn = true → iterX sc n off = .ok (o : Int)) ∧
      (8 * (base + o) + (start + (i + n) * eb) ≤ 8 * d.length →
        ∃ xs wss, xs.length = n ∧ All2 R xs wss ∧
        (wss = [] ∨ Agrees d (8 * (base + off) + (start + i * eb)) wss.flatten) ∧
        8 * o + n * eb = 8 * off + wss.flatten.length)
  | 0, i, off, ys, o => by
    intro _ hb h
    simp only [decIdx] at h
    cases h
    exact ⟨Nat.le_refl _, hb, fun _ => rfl, fun _ => rfl, fun _ => ⟨[], [], rfl, All2.nil, Or.inl rfl, by simp⟩⟩
  | n + 1, i, off, ys, o => by
    intro hi hb h
    obtain ⟨y, o1, ys', h1, h2, h3⟩ := decIdx_ok_succ h
    obtain ⟨a1, a2, a3, a4, a5⟩ := hf i off y o1 (by omega) hb h1
    obtain ⟨b1, b2, b3, b4, b5⟩ := tDecIdx_sound f sc d base eb start len tdyn hf n (i + 1) o1 ys' o (by omega) a2 h2
    refine ⟨by omega, b2, fun h => (b3 h).trans (a3 h), fun ht => ?_, ?_⟩
    · rw [iterX_succ_ok (a4 ht)]; exact b4 ht
    · intro hle
      have hle1 : (i + 1) * eb ≤ (i + (n + 1)) * eb := Nat.mul_le_mul_right _ (by omega)
      obtain ⟨x, w, r1, r2, r4⟩ := a5 (by rw [Nat.add_mul, Nat.one_mul] at hle1; omega)
      obtain ⟨xs, wss, s1, s2, s3, s5⟩ := b5 (by rw [show i + 1 + n = i + (n + 1) by omega]; exact hle)
      refine ⟨x :: xs, w :: wss, by simp [s1], All2.cons r1 s2, Or.inr ?_, ?_⟩
      · rw [List.flatten_cons]
        apply Agrees.append.mpr
        refine ⟨r2, ?_⟩
        have hpos : 8 * (base + off) + (start + i * eb) + w.length = 8 * (base + o1) + (start + (i + 1) * eb) := by
          rw [Nat.add_mul, Nat.one_mul]; omega
        rw [hpos]
        rcases s3 with e | e
        · subst e
          refine ⟨?_, by intro j b hj; simp at hj⟩
          have := r2.1
          simp only [List.flatten_nil, List.length_nil]
          omega
        · exact e
      · rw [List.flatten_cons, List.length_append, Nat.add_mul, Nat.one_mul]
        omega

/-- What a successful size check says, when the scan of the fields is known. -/
theorem Fields.tCheck_inv {strs : Bool} (F : S.SoundOk strs) {fs : Fields} {d : Buf} {base o : Nat} (hd : d.length < S.maxLen)
    (hb : base ≤ d.length) (hsm : fs.sum / 8 < 2 ^ 30) (ho : base + o ≤ d.length) (ho0 : fs.dynamic = false → o = 0)
    (hs : fs.dynamic = true → fs.tDsFields T 0 d base 0 = .ok (o : Int))
    (h : fs.tCheck T d base = .ok ()) :
    fs.tDecodeSize T d base = some ((o + fs.sum / 8 : Nat) : Int) ∧ base + o + fs.sum / 8 ≤ d.length := by
  have hM := F.maxLen
  unfold Fields.tCheck at h
  rw [F.checks, if_pos rfl] at h
  unfold Fields.tDecodeSize at h ⊢
  have e2 : T.rem d.length base = (d.length : Int) - base := F.rem _ _ hb hd
  cases hdyn : fs.dynamic
  · rw [hdyn] at h
    rw [ho0 hdyn]
    simp only [Bool.false_eq_true, if_false, e2] at h ⊢
    by_cases hc : (d.length : Int) - base < ((fs.sum / 8 : Nat) : Int)
    · rw [if_pos hc] at h
      simp only at h
      split at h
      · cases h
      · omega
    · rw [if_neg hc]
      exact ⟨by simp, by omega⟩
  · rw [hdyn] at h
    have e1 : T.wrap ((o : Int) + ((fs.sum / 8 : Nat) : Int)) = ((o + fs.sum / 8 : Nat) : Int) := by
      rw [F.wrap _ (by omega) (by omega)]; omega
    have e3 : T.ret (-((o + fs.sum / 8 : Nat) : Int)) = -((o + fs.sum / 8 : Nat) : Int) := F.ret _ (by omega) (by omega)
    have e4 : T.ret ((o + fs.sum / 8 : Nat) : Int) = ((o + fs.sum / 8 : Nat) : Int) := F.ret _ (by omega) (by omega)
    simp only [if_true, hs hdyn, tDsFinish, e1, e2, e3, e4] at h ⊢
    by_cases hc : (d.length : Int) - base < ((o + fs.sum / 8 : Nat) : Int)
    · rw [if_pos hc] at h
      simp only at h
      split at h
      · cases h
      · omega
    · rw [if_neg hc]
      exact ⟨rfl, by omega⟩

theorem Ty.tDec_static (t : Ty) (h : t.dynamic = false) {ctx : List Fields} {big arr : Bool} {d : Buf} {start n base off o : Nat}
    {tv : t.TVal T} (hk : t.tDec T ctx big arr d start n base off = .ok (tv, o)) : o = off := by
  cases t with
  | str => cases h
  | bytes => cases h
  | sc s =>
    simp only [Ty.tDec] at hk
    split at hk
    · cases hk
    · cases hk; rfl
  | struct fs =>
    simp only [Ty.dynamic] at h
    simp only [Ty.tDec] at hk
    split at hk
    rotate_left
    · cases hk
    split at hk
    · cases hk
    · cases hk
    · split at hk
      · cases hk
      · cases hk
      · cases hk; simp [h]

theorem tArrElemDec_static (t : Ty) (h : t.dynamic = false) {ctx : List Fields} {big : Bool} {d : Buf} {len eb start base i off o : Nat}
    {tv : t.TVal T} (hk : tArrElemDec T t ctx (fun start n base off => t.tDec T ctx big true d start n base off) len eb start base big d i off =
      .ok (tv, o)) : o = off := by
  unfold tArrElemDec at hk
  split at hk
  · cases t with
    | str => cases h
    | bytes => cases h
    | sc s =>
      simp only at hk
      split at hk
      · cases hk
      · cases hk; rfl
    | struct fs =>
      simp only at hk
      split at hk <;> exact Ty.tDec_static _ h hk
  · exact Ty.tDec_static _ h hk

/-- The elements of dynamic type are read like single values. -/
theorem tArrElemDec_dyn (t : Ty) (h : t.dynamic = true) (ctx : List Fields) (rec : (start n base off : Nat) → Res (t.TVal T × Nat))
    (len start base : Nat) (big : Bool) (d : Buf) (i off : Nat) :
    tArrElemDec T t ctx rec len 0 start base big d i off = rec start 0 base off := by
  unfold tArrElemDec
  rw [Nat.mul_zero, Nat.add_zero]
  split
  · cases t with
    | str => rfl
    | bytes => rfl
    | sc s => cases h
    | struct fs =>
      simp only [Ty.dynamic] at h
      simp only [h, if_true]
  · rfl

mutual
  theorem Ty.tDec_dynBound {strs : Bool} (F : S.SoundOk strs) : ∀ (t : Ty) (ctx : List Fields) (big arr : Bool) (d : Buf) (start n base off : Nat)
      (tv : t.TVal T) (o : Nat), t.wf = true → t.noDirectDyn = true → t.dynamic = true → (strs || t.noStr) = true → d.length < S.maxLen →
      t.tDec T ctx big arr d start n base off = .ok (tv, o) → base + off + start / 8 ≤ d.length
    | .sc s, ctx, big, arr, d, start, n, base, off, tv, o => by intro _ _ h; cases h
    | .str, ctx, big, arr, d, start, n, base, off, (tv : T.Str), o => by
      intro _ _ _ hst hd h
      simp only [Ty.noStr, Bool.or_false] at hst
      simp only [Ty.tDec] at h
      split at h
      · cases h
      · cases h
      · rename_i e
        obtain ⟨s, _, _, ha⟩ := F.str hst _ _ _ _ hd e
        have := ha.1
        omega
    | .bytes, ctx, big, arr, d, start, n, base, off, (tv : List Byte), o => by
      intro _ _ _ hst hd h
      simp only [Ty.tDec] at h
      split at h
      · cases h
      · cases h
      · rename_i e
        obtain ⟨bs, k, _, _, _, ha⟩ := F.bytes _ _ _ _ hd e
        have := ha.1
        omega
    | .struct fs, ctx, big, arr, d, start, n, base, off, tv, o => by
      intro hw hn hdyn hst hd h
      simp only [Ty.wf, Bool.and_eq_true] at hw
      simp only [Ty.noStr, Ty.noDirectDyn, Ty.dynamic] at hst hn hdyn
      simp only [Ty.tDec] at h
      split at h
      rotate_left
      · cases h
      split at h
      · cases h
      · cases h
      · split at h
        · cases h
        · cases h
        · rename_i e
          have := Fields.tDec_dynBound F fs ctx d 0 _ _ _ _ hw.1 hn hdyn hst hd e
          omega
  theorem Fields.tDec_dynBound {strs : Bool} (F : S.SoundOk strs) : ∀ (fs : Fields) (ctx : List Fields) (d : Buf) (start base off : Nat)
      (tv : fs.TVal T) (o : Nat), fs.wf start = true → fs.noDirectDyn = true → fs.dynamic = true → (strs || fs.noStr) = true →
      d.length < S.maxLen → fs.tDecFields T ctx d start base off = .ok (tv, o) → base + off ≤ d.length
    | .nil, ctx, d, start, base, off, tv, o => by intro _ _ h; cases h
    | .void n r, ctx, d, start, base, off, tv, o => by
      intro hw hn hdyn hst hd h
      exact Fields.tDec_dynBound F r ctx d _ base off tv o hw hn hdyn hst hd h
    | .const p n big val r, ctx, d, start, base, off, tv, o => by
      intro hw hn hdyn hst hd h
      simp only [Fields.wf, Bool.and_eq_true] at hw
      simp only [Fields.tDecFields] at h
      split at h
      · cases h
      · cases h
      · exact Fields.tDec_dynBound F r ctx d _ base off tv o hw.2 hn hdyn hst hd h
    | .one t bits big r, ctx, d, start, base, off, tv, o => by
      intro hw hn hdyn hst hd h
      obtain ⟨n1, n2, _⟩ := noDirectDyn_bits hw hn
      obtain ⟨h1, h2, _⟩ := wf_one hw
      have hst1 : (strs || t.noStr) = true := by
        cases strs
        · simp only [Fields.noStr, Bool.false_or, Bool.and_eq_true] at hst ⊢; exact hst.1
        · rfl
      have hst2 : (strs || r.noStr) = true := by
        cases strs
        · simp only [Fields.noStr, Bool.false_or, Bool.and_eq_true] at hst ⊢; exact hst.2
        · rfl
      simp only [Fields.dynamic] at hdyn
      simp only [Fields.tDecFields] at h
      split at h
      · cases h
      · cases h
      · rename_i x o1 e1
        cases ht : t.dynamic
        · have := Ty.tDec_static t ht e1
          subst this
          rw [ht, Bool.false_or] at hdyn
          split at h
          · cases h
          · cases h
          · rename_i e2
            exact Fields.tDec_dynBound F r ctx d _ base _ _ _ h2 n2 hdyn hst2 hd e2
        · have := Ty.tDec_dynBound F t _ big false d start _ base off x o1 h1 n1 ht hst1 hd e1
          omega
    | .arr t len bits big r, ctx, d, start, base, off, tv, o => by
      intro hw hn hdyn hst hd h
      obtain ⟨h0, h1, h2, h3, h4, h5, h7, h6⟩ := wf_arr hw
      have hst1 : (strs || t.noStr) = true := by
        cases strs
        · simp only [Fields.noStr, Bool.false_or, Bool.and_eq_true] at hst ⊢; exact hst.1
        · rfl
      have hst2 : (strs || r.noStr) = true := by
        cases strs
        · simp only [Fields.noStr, Bool.false_or, Bool.and_eq_true] at hst ⊢; exact hst.2
        · rfl
      simp only [Fields.dynamic] at hdyn
      simp only [Fields.noDirectDyn, Bool.and_eq_true] at hn
      simp only [Fields.tDecFields] at h
      split at h
      · cases h
      · cases h
      · rename_i xs o1 e1
        cases ht : t.dynamic
        · have := decIdx_static (fun i off y o hy => tArrElemDec_static t ht hy) _ _ _ _ _ e1
          subst this
          rw [ht, Bool.false_or] at hdyn
          split at h
          · cases h
          · cases h
          · rename_i e2
            exact Fields.tDec_dynBound F r ctx d _ base _ _ _ h2 hn.2 hdyn hst2 hd e2
        · obtain ⟨len', hl'⟩ : ∃ m, len = m + 1 := ⟨len - 1, by omega⟩
          have hz : bits.getD 0 / len = 0 := by rw [h7.mpr ht]; simp
          rw [hz] at e1
          rw [hl'] at e1
          obtain ⟨y, o2, _, e2, _⟩ := decIdx_ok_succ e1
          rw [tArrElemDec_dyn t ht] at e2
          have := Ty.tDec_dynBound F t _ big true d start _ base off y o2 h1 hn.1 ht hst1 hd e2
          omega
end

theorem strs_and {strs a b : Bool} (h : (strs || (a && b)) = true) : (strs || a) = true ∧ (strs || b) = true := by
  cases strs <;> simp_all

mutual
  theorem Ty.tDec_sound {strs : Bool} (E : S.DecOk) (F : S.SoundOk strs) (c : Cfg) : ∀ (t : Ty) (ctx : List Fields) (big arr tl gl : Bool)
      (start n base : Nat) (d : Buf) (off : Nat) (tv : t.TVal T) (o : Nat),
      t.wf = true → t.elemOk arr start n → t.noDirectDyn = true → t.tDecOk S = true → (strs || t.noStr) = true → t.ktSmall = true →
      d.length < S.maxLen → base + off ≤ d.length → start / 8 < 2 ^ 30 →
      t.tDec T ctx big arr d start n base off = .ok (tv, o) →
      off ≤ o ∧ base + o ≤ d.length ∧ (t.dynamic = false → o = off) ∧
      (t.dynamic = true → t.tDsElem T (start / 8) d base off = .ok (o : Int)) ∧
      (8 * (base + o) + start + t.fixed n ≤ 8 * d.length →
        ∃ v ws, t.GRepr S.lax c ctx tl gl n big v ws ∧ Agrees d (8 * (base + off) + start) ws ∧ 8 * o + t.fixed n = 8 * off + ws.length)
    | .sc s, ctx, big, arr, tl, gl, start, n, base, d, off, (tv : T.SVal s), o => by
      intro hw hok _ _ _ _ hd hb _ h
      simp only [Ty.elemOk] at hok
      have := Ty.tDec_static (.sc s) rfl h
      subst this
      refine ⟨Nat.le_refl _, hb, fun _ => rfl, by simp [Ty.dynamic], fun hle => ?_⟩
      simp only [Ty.fixed] at hle
      obtain ⟨x, ws, a1, a2, a3⟩ := Sc.gRepr_exists gl big hok.1 (pos := 8 * (base + o) + start) (d := d) (by omega)
      exact ⟨x, ws, ⟨⟨trivial, fun e => (nomatch e)⟩, a1⟩, a2, by simp only [Ty.fixed]; omega⟩
    | .str, ctx, big, arr, tl, gl, start, n, base, d, off, (tv : T.Str), o => by
      intro _ hok _ _ hst _ hd hb _ h
      simp only [Ty.elemOk] at hok
      simp only [Ty.noStr, Bool.or_false] at hst
      simp only [Ty.tDec] at h
      have e8 : 8 * (base + off) + start = 8 * (base + off + start / 8) := by omega
      split at h
      · cases h
      · cases h
      · rename_i x m e
        obtain ⟨s, h1, h2, h3⟩ := F.str hst _ _ _ _ hd e
        cases h
        have hl := h3.1
        rw [byteWire_length, List.length_append] at hl
        simp only [List.length_cons, List.length_nil] at hl
        refine ⟨by omega, by omega, by simp [Ty.dynamic], fun _ => ?_, fun _ => ?_⟩
        · simp only [Ty.tDsElem]
          rw [h2]
          exact E.dsStr s base off (start / 8) d h1 hd h3
        · refine ⟨s, byteWire (s ++ [0#8]), ⟨trivial, h1, rfl⟩, by rw [e8]; exact h3, ?_⟩
          simp only [Ty.fixed, byteWire_length, List.length_append, List.length_cons, List.length_nil]; omega
    | .bytes, ctx, big, arr, tl, gl, start, n, base, d, off, (tv : List Byte), o => by
      intro _ hok _ _ _ _ hd hb _ h
      simp only [Ty.elemOk] at hok
      simp only [Ty.tDec] at h
      have e8 : 8 * (base + off) + start = 8 * (base + off + start / 8) := by omega
      split at h
      · cases h
      · cases h
      · rename_i x m e
        obtain ⟨bs, k, h0, h1, h2, h3⟩ := F.bytes _ _ _ _ hd e
        cases h
        have hl := h3.1
        rw [byteWire_length, List.length_append] at hl
        refine ⟨by omega, by omega, by simp [Ty.dynamic], fun _ => ?_, fun _ => ?_⟩
        · simp only [Ty.tDsElem]
          rw [h2]
          exact E.dsBytes bs k tv base off (start / 8) d h0 h1 hd h3
        · refine ⟨tv, byteWire (bs ++ tv), ⟨bs, k, h0, h1, rfl⟩, by rw [e8]; exact h3, ?_⟩
          simp only [Ty.fixed, byteWire_length, List.length_append]; omega
    | .struct fs, ctx, big, arr, tl, gl, start, n, base, d, off, tv, o => by
      intro hw hok hn hk hst hsm hd hb hs8 h
      have hM := F.maxLen
      have hbound := Ty.tDec_dynBound F (.struct fs) ctx big arr d start n base off tv o hw hn
      simp only [Ty.elemOk] at hok
      simp only [Ty.wf, Bool.and_eq_true, decide_eq_true_eq] at hw
      simp only [Ty.ktSmall, Bool.and_eq_true, decide_eq_true_eq] at hsm
      simp only [Ty.noStr, Ty.noDirectDyn, Ty.dynamic, Ty.tDecOk] at hst hn hk hbound ⊢
      have e8 : 8 * (base + off + start / 8) = 8 * (base + off) + start := by omega
      have h' := h
      simp only [Ty.tDec] at h
      split at h
      rotate_left
      · cases h
      rename_i hsub
      split at h
      · cases h
      · cases h
      · rename_i hck
        split at h
        · cases h
        · cases h
        · rename_i v o1 e1
          cases hdyn : fs.dynamic
          · rw [hdyn] at h
            simp only [Bool.false_eq_true, if_false] at h
            cases h
            refine ⟨Nat.le_refl _, hb, fun _ => rfl, by simp, fun hle => ?_⟩
            simp only [Ty.fixed, hdyn, Bool.false_eq_true, if_false] at hle
            obtain ⟨c1, c2, c3, c4, c5⟩ := Fields.tDec_sound E F c fs ctx 0 (base + off + start / 8) false d 0 tv o1 hw.1 hn hk (by simp) hst hsm.1
              hd (by omega) (by omega) e1
            have := c3 hdyn
            subst this
            obtain ⟨v, ws, r1, r2, r4⟩ := c5 (by omega)
            refine ⟨v, ws, r1, ?_, ?_⟩
            · rw [show 8 * (base + off + start / 8 + 0) + 0 = 8 * (base + off + start / 8) from rfl, e8] at r2
              exact r2
            · simp only [Ty.fixed, hdyn, Bool.false_eq_true, if_false]; omega
          · rw [hdyn] at h
            simp only [if_true] at h
            have hpb := hbound hdyn hst hd h'
            obtain ⟨c1, c2, c3, c4, c5⟩ := Fields.tDec_sound E F c fs ctx 0 (base + off + start / 8) false d 0 v o1 hw.1 hn hk (by simp) hst hsm.1
              hd (by omega) (by omega) e1
            obtain ⟨s1, s2⟩ := Fields.tCheck_inv F (base := base + off + start / 8) (o := o1) hd hpb hsm.2 c2 c3 (fun _ => c4) hck
            cases h
            refine ⟨by omega, by omega, by simp, fun _ => ?_, fun hle => ?_⟩
            · simp only [Ty.tDsElem, hdyn, if_true, tDsSub]
              rw [if_pos (by
                rw [show (off : Int) + (start / 8 : Nat) = ((off + start / 8 : Nat) : Int) by omega,
                  E.wrap _ (Int.natCast_nonneg _) (by omega)]
                exact hsub)]
              have hw3 : T.wrap ((off : Int) + base + (start / 8 : Nat)) = ((base + off + start / 8 : Nat) : Int) := by
                rw [E.wrap _ (by omega) (by omega)]; omega
              rw [hw3]
              have hsz2 := s1
              rw [Fields.tDecodeSize, if_pos hdyn] at hsz2
              simp only [hsz2]
              rw [if_neg (Int.not_lt.mpr (Int.natCast_nonneg _)), ← Int.natCast_add, E.wrap _ (by omega) (by omega)]
            · obtain ⟨v, ws, r1, r2, r4⟩ := c5 (by omega)
              refine ⟨v, ws, r1, ?_, ?_⟩
              · rw [show 8 * (base + off + start / 8 + 0) + 0 = 8 * (base + off + start / 8) from rfl, e8] at r2
                exact r2
              · simp only [Ty.fixed, hdyn, if_true]; omega
  theorem Fields.tDec_sound {strs : Bool} (E : S.DecOk) (F : S.SoundOk strs) (c : Cfg) : ∀ (fs : Fields) (ctx : List Fields)
      (start base : Nat) (top : Bool) (d : Buf) (off : Nat) (tv : fs.TVal T) (o : Nat),
      fs.wf start = true → fs.noDirectDyn = true → fs.tDecOk S top = true → (top = true → base = 0) → (strs || fs.noStr) = true →
      fs.ktSmall = true → d.length < S.maxLen → base + off ≤ d.length → (start + fs.sum) / 8 < 2 ^ 30 →
      fs.tDecFields T ctx d start base off = .ok (tv, o) →
      off ≤ o ∧ base + o ≤ d.length ∧ (fs.dynamic = false → o = off) ∧
      fs.tDsFields T start d base off = .ok (o : Int) ∧
      (8 * (base + o) + start + fs.sum ≤ 8 * d.length →
        ∃ v ws, fs.GRepr S.lax c ctx v ws ∧ Agrees d (8 * (base + off) + start) ws ∧ 8 * o + fs.sum = 8 * off + ws.length)
    | .nil, ctx, start, base, top, d, off, tv, o => by
      intro _ _ _ _ _ _ _ hb _ h
      simp only [Fields.tDecFields] at h
      cases h
      refine ⟨Nat.le_refl _, hb, fun _ => rfl, rfl, fun hle => ⟨(), [], rfl, ⟨?_, by intro j b hj; simp at hj⟩, by simp [Fields.sum]⟩⟩
      simp only [Fields.sum] at hle
      simp only [List.length_nil]; omega
    | .void n r, ctx, start, base, top, d, off, tv, o => by
      intro hw hn hk htop hst hsm hd hb hs8 h
      simp only [Fields.wf, Fields.noDirectDyn, Fields.ktSmall, Fields.sum, Fields.tDecOk, Fields.noStr] at hw hn hsm hs8 hk hst
      simp only [Fields.tDecFields] at h
      obtain ⟨c1, c2, c3, c4, c5⟩ := Fields.tDec_sound E F c r ctx (start + n) base top d off tv o hw hn hk htop hst hsm hd hb (by omega) h
      refine ⟨c1, c2, c3, by simpa only [Fields.tDsFields] using c4, ?_⟩
      intro hle
      simp only [Fields.sum] at hle
      obtain ⟨v, ws, r1, r2, r4⟩ := c5 (by omega)
      refine ⟨v, List.replicate n none ++ ws, ⟨ws, r1, rfl⟩, ?_, by
        simp only [Fields.sum, List.length_append, List.length_replicate]; omega⟩
      apply Agrees.append.mpr
      rw [List.length_replicate, Nat.add_assoc]
      refine ⟨⟨?_, ?_⟩, r2⟩
      · have := r2.1
        rw [List.length_replicate]; omega
      · intro j b hj
        rw [List.getElem?_replicate] at hj
        split at hj <;> simp at hj
    | .const p n big val r, ctx, start, base, top, d, off, tv, o => by
      intro hw hn hk htop hst hsm hd hb hs8 h
      simp only [Fields.wf, Fields.noDirectDyn, Fields.ktSmall, Fields.sum, Fields.tDecOk, Fields.noStr, Bool.and_eq_true, decide_eq_true_eq] at hw hn hsm hs8 hk hst
      obtain ⟨⟨⟨⟨⟨⟨w1, w2⟩, w3⟩, w4⟩, w5⟩, w6⟩, w7⟩ := hw
      simp only [Fields.tDecFields] at h
      split at h
      · cases h
      · cases h
      · rename_i e
        obtain ⟨c1, c2, c3, c4, c5⟩ := Fields.tDec_sound E F c r ctx (start + n) base top d off tv o w7 hn hk.2 htop hst hsm hd hb (by omega) h
        refine ⟨c1, c2, c3, by simpa only [Fields.tDsFields] using c4, ?_⟩
        intro hle
        simp only [Fields.sum] at hle
        obtain ⟨v, ws, r1, r2, r4⟩ := c5 (by omega)
        refine ⟨v, scWire n big (BitVec.ofNat 64 val) ++ ws, ⟨ws, r1, rfl⟩, ?_, by
          simp only [Fields.sum, List.length_append, scWire_length]; omega⟩
        apply Agrees.append.mpr
        rw [scWire_length, Nat.add_assoc]
        exact ⟨F.const p n big val start (base + off) d w2 w3 (fun hb => by rw [hb] at w6; simpa using w6) w5 hk.1 hd (by omega) e, r2⟩
    | .one t bits big r, ctx, start, base, top, d, off, tv, o => by
      intro hw hn hk htop hst hsm hd hb hs8 h
      obtain ⟨n1, n2, n3⟩ := noDirectDyn_bits hw hn
      obtain ⟨h1, h2, h3, h4, h5⟩ := wf_one hw
      simp only [Fields.ktSmall, Fields.sum, Fields.tDecOk, Fields.noStr, Bool.and_eq_true] at hsm hs8 hk hst
      obtain ⟨hst1, hst2⟩ := strs_and hst
      have hb0 : t.dynamic = true → bits.getD 0 = 0 := by
        intro ht
        rw [ht] at n3
        have : bits = none := by simpa using n3
        simp [this]
      have hgap : (if t.dynamic = true then List.replicate (bits.getD 0) none else ([] : List (Option Bool))) = [] := by
        split
        · rename_i ht; rw [hb0 ht]; rfl
        · rfl
      have hfx : t.fixed (bits.getD 0) = bits.getD 0 := by
        cases ht : t.dynamic
        · rw [ht] at h4; simpa using h4.symm
        · have := hb0 ht
          rw [this, ht] at h4
          rw [this]
          simp only [if_true] at h4
          omega
      simp only [Fields.tDecFields] at h
      split at h
      · cases h
      · cases h
      · rename_i x o1 e1
        split at h
        · cases h
        · cases h
        · rename_i v2 o2 e2
          cases h
          obtain ⟨a1, a2, a3, a4, a5⟩ := Ty.tDec_sound E F c t _ big false false false start (bits.getD 0) base d off x o1 h1
            h3 n1 hk.1 hst1 hsm.1 hd hb (by omega) e1
          obtain ⟨c1, c2, c3, c4, c5⟩ := Fields.tDec_sound E F c r ctx (start + bits.getD 0) base top d o1 v2 o h2 n2 hk.2 htop hst2 hsm.2 hd
            a2 (by omega) e2
          refine ⟨by omega, c2, ?_, ?_, ?_⟩
          · intro hdyn
            simp only [Fields.dynamic, Bool.or_eq_false_iff] at hdyn
            rw [c3 hdyn.2, a3 hdyn.1]
          · simp only [Fields.tDsFields, n3]
            cases ht : t.dynamic
            · rw [if_neg (by simp)]
              rw [← a3 ht]; exact c4
            · rw [if_pos rfl, a4 ht]
              rw [hb0 ht, Nat.add_zero] at c4
              exact c4
          · intro hle
            simp only [Fields.sum] at hle
            obtain ⟨v, w1, r1, r2, r4⟩ := a5 (by rw [hfx]; omega)
            obtain ⟨v', w2, s1, s2, s4⟩ := c5 (by omega)
            rw [hfx] at r4
            refine ⟨(v, v'), w1 ++ w2, ⟨w1, w2, r1, s1, by rw [hgap, List.append_nil]⟩, ?_, by
              simp only [Fields.sum, List.length_append]; omega⟩
            apply Agrees.append.mpr
            refine ⟨r2, ?_⟩
            have hpos : 8 * (base + off) + start + w1.length = 8 * (base + o1) + (start + bits.getD 0) := by omega
            rw [hpos]; exact s2
    | .arr t len bits big r, ctx, start, base, top, d, off, tv, o => by
      intro hw hn hk htop hst hsm hd hb hs8 h
      obtain ⟨h0, h1, h2, h3, h4, h5, h7, h6⟩ := wf_arr hw
      have hbn : bits.isNone = t.dynamic := by
        cases ht : t.dynamic
        · cases hb : bits with
          | none => rw [h7.mp hb] at ht; cases ht
          | some n => rfl
        · rw [h7.mpr ht]; rfl
      simp only [Fields.noDirectDyn, Bool.and_eq_true] at hn
      simp only [Fields.ktSmall, Fields.sum, Fields.tDecOk, Fields.noStr, Bool.and_eq_true] at hsm hs8 hk hst
      obtain ⟨hst1, hst2⟩ := strs_and hst
      obtain ⟨⟨k1, k2⟩, k4⟩ := hk
      have hlb : T.loop len = true → t.dynamic = false → T.loopBase base = base := by
        intro a b
        simp only [a, b, Bool.not_true, Bool.or_false, Bool.or_eq_true] at k4
        rcases k4 with k | k
        · exact E.loopBase k base
        · rw [htop k]; exact E.loopBase0
      have hz : t.dynamic = true → bits.getD 0 / len = 0 := by
        intro ht; rw [h7.mpr ht]; simp
      have h30 := h3 0
      simp only [Nat.zero_mul, Nat.add_zero] at h30
      simp only [Fields.tDecFields] at h
      split at h
      · cases h
      · cases h
      · rename_i xs o1 e1
        split at h
        · cases h
        · cases h
        · rename_i v2 o2 e2
          cases h
          obtain ⟨a1, a2, a3, a4, a5⟩ := tDecIdx_sound
            (R := fun x w => t.GRepr S.lax c (.arr t len bits big r :: ctx) (T.loop len) (c.useLoop len) (bits.getD 0 / len) big x w)
            (tArrElemDec T t (.arr t len bits big r :: ctx)
              (fun start n base off => t.tDec T (.arr t len bits big r :: ctx) big true d start n base off)
              len (bits.getD 0 / len) start base big d)
            (fun off => t.tDsElem T (start / 8) d base off) d base (bits.getD 0 / len) start len t.dynamic
            (fun i off y o hi hb hy => by
              have hib : i * (bits.getD 0 / len) ≤ bits.getD 0 := by
                have := Nat.mul_le_mul_right (bits.getD 0 / len) (show i ≤ len by omega)
                rw [h5] at this; exact this
              have hrec : t.tDec T (.arr t len bits big r :: ctx) big true d (start + i * (bits.getD 0 / len)) (bits.getD 0 / len) base off = .ok (y, o) →
                  off ≤ o ∧ base + o ≤ d.length ∧ (t.dynamic = false → o = off) ∧
                  (t.dynamic = true → t.tDsElem T (start / 8) d base off = .ok (o : Int)) ∧
                  (8 * (base + o) + (start + i * (bits.getD 0 / len)) + bits.getD 0 / len ≤ 8 * d.length →
                    ∃ x w, t.GRepr S.lax c (.arr t len bits big r :: ctx) (T.loop len) (c.useLoop len) (bits.getD 0 / len) big x w ∧
                      Agrees d (8 * (base + off) + (start + i * (bits.getD 0 / len))) w ∧ 8 * o + bits.getD 0 / len = 8 * off + w.length) := by
                intro hy
                obtain ⟨b1, b2, b3, b4, b5⟩ := Ty.tDec_sound E F c t (.arr t len bits big r :: ctx) big true (T.loop len) (c.useLoop len)
                  (start + i * (bits.getD 0 / len)) (bits.getD 0 / len) base d off y o h1 (h3 i) hn.1 k1 hst1 hsm.1 hd hb (by omega) hy
                rw [h4] at b5
                refine ⟨b1, b2, b3, fun hdy => ?_, b5⟩
                have := b4 hdy
                rw [hz hdy, Nat.mul_zero, Nat.add_zero] at this
                exact this
              by_cases hdy : t.dynamic = true
              · have hz := hz hdy
                rw [hz, tArrElemDec_dyn t hdy] at hy
                refine hrec ?_
                rw [hz, Nat.mul_zero, Nat.add_zero]
                exact hy
              · have hdy : t.dynamic = false := by simpa using hdy
                unfold tArrElemDec at hy
                cases hlp : T.loop len with
                | false =>
                  rw [hlp] at hrec hy
                  simp only [Bool.false_eq_true, if_false] at hy
                  exact hrec hy
                | true =>
                  rw [hlp] at hrec hy
                  simp only [if_true] at hy
                  cases t with
                  | str => cases hdy
                  | bytes => cases hdy
                  | sc s =>
                    simp only at hy
                    split at hy
                    · cases hy
                    · cases hy
                      have h0 := h3 i
                      simp only [Ty.elemOk] at h0
                      refine ⟨Nat.le_refl _, hb, fun _ => rfl, by simp [Ty.dynamic], fun hle => ?_⟩
                      obtain ⟨x, ws, a1, a2, a3⟩ := Sc.gRepr_exists (c.useLoop len) big h0.1
                        (pos := 8 * (base + off) + (start + i * (bits.getD 0 / len))) (d := d) (by omega)
                      exact ⟨x, ws, ⟨⟨trivial, fun e => (nomatch e)⟩, a1⟩, a2, by omega⟩
                  | struct fs =>
                    simp only [Ty.dynamic] at hdy
                    simp only [hdy, Bool.false_eq_true, if_false] at hy
                    obtain ⟨g1, g2⟩ := h6 fs rfl
                    have e8 : 8 * (start / 8 + i * (bits.getD 0 / len / 8)) = start + i * (bits.getD 0 / len) := by
                      have : i * (bits.getD 0 / len) = 8 * (i * (bits.getD 0 / len / 8)) := by
                        have h3 : bits.getD 0 / len = 8 * (bits.getD 0 / len / 8) := by omega
                        calc i * (bits.getD 0 / len) = i * (8 * (bits.getD 0 / len / 8)) := by rw [← h3]
                          _ = 8 * (i * (bits.getD 0 / len / 8)) := by rw [Nat.mul_left_comm]
                      omega
                    rw [e8, hlb hlp hdy] at hy
                    exact hrec hy)
            len 0 off xs o1 (by omega) hb e1
          obtain ⟨c1, c2, c3, c4, c5⟩ := Fields.tDec_sound E F c r ctx (start + bits.getD 0) base top d o1 v2 o h2 hn.2 k2 htop hst2 hsm.2 hd
            a2 (by omega) e2
          refine ⟨by omega, c2, ?_, ?_, ?_⟩
          · intro hdyn
            simp only [Fields.dynamic, Bool.or_eq_false_iff] at hdyn
            rw [c3 hdyn.2, a3 hdyn.1]
          · simp only [Fields.tDsFields, hbn]
            cases ht : t.dynamic
            · rw [if_neg (by simp)]
              rw [← a3 ht]; exact c4
            · rw [if_pos rfl, a4 ht]
              rw [h7.mpr ht] at c4
              exact c4
          · intro hle
            simp only [Fields.sum] at hle
            obtain ⟨vs, wss, r0, r1, r2, r4⟩ := a5 (by rw [Nat.zero_add, h5]; omega)
            obtain ⟨v', w2, s1, s2, s4⟩ := c5 (by omega)
            rw [h5] at r4
            refine ⟨(vs, v'), wss.flatten ++ w2, ⟨wss, w2, r0, r1, s1, rfl⟩, ?_, by
              simp only [Fields.sum, List.length_append]; omega⟩
            have hpos : 8 * (base + off) + start + wss.flatten.length = 8 * (base + o1) + (start + bits.getD 0) := by omega
            apply Agrees.append.mpr
            rw [hpos]
            refine ⟨?_, s2⟩
            rcases r2 with e | e
            · exfalso
              subst e
              cases r1
              simp at r0
              omega
            · simpa using e
end
/-! ### From representations without restrictions on values back to `GRepr` and to Go's `Repr` -/

theorem All2.imp_mem {α β : Type} {R K : α → β → Prop} {xs : List α} {ys : List β} (h : All2 R xs ys)
    (hf : ∀ x ∈ xs, ∀ y, R x y → K x y) : All2 K xs ys := by
  induction h with
  | nil => exact .nil
  | @cons a b as bs h0 _ ih => exact .cons (hf a (by simp) b h0) (ih (fun x hx y => hf x (by simp [hx]) y))

mutual
  theorem Ty.gRepr_of_lax (c : Cfg) (hL : S.Loops c) : ∀ (t : Ty) (ctx : List Fields) (tl gl big : Bool) (n : Nat) (v : t.Val) (ws : List (Option Bool)),
      (S.sameLoop = true → gl = tl) → t.DFits S ctx tl n v → t.GRepr S.lax c ctx tl gl n big v ws → t.GRepr S c ctx tl gl n big v ws
    | .sc s, ctx, tl, gl, big, n, (v : BitVec s.width), ws => by
      intro hsl hf h; exact ⟨⟨hf, hsl⟩, h.2⟩
    | .str, ctx, tl, gl, big, n, (v : List Byte), ws => by
      intro _ hf h; exact ⟨hf, h.2⟩
    | .bytes, ctx, tl, gl, big, n, (v : List Byte), ws => by
      intro _ hf h; exact h
    | .struct fs, ctx, tl, gl, big, n, v, ws => by
      intro _ hf h; exact Fields.gRepr_of_lax c hL fs ctx v ws hf h
  theorem Fields.gRepr_of_lax (c : Cfg) (hL : S.Loops c) : ∀ (fs : Fields) (ctx : List Fields) (v : fs.Val) (ws : List (Option Bool)),
      fs.DFits S ctx v → fs.GRepr S.lax c ctx v ws → fs.GRepr S c ctx v ws
    | .nil, ctx, v, ws => by intro _ h; exact h
    | .void n r, ctx, v, ws => by
      rintro hf ⟨w, h1, h2⟩; exact ⟨w, Fields.gRepr_of_lax c hL r ctx v w hf h1, h2⟩
    | .const p n big val r, ctx, v, ws => by
      rintro hf ⟨w, h1, h2⟩; exact ⟨w, Fields.gRepr_of_lax c hL r ctx v w hf h1, h2⟩
    | .one t bits big r, ctx, (v : t.Val × r.Val), ws => by
      rintro hf ⟨w1, w2, h1, h2, h3⟩
      exact ⟨w1, w2, Ty.gRepr_of_lax c hL t _ false false big _ v.1 w1 (fun _ => rfl) hf.1 h1, Fields.gRepr_of_lax c hL r ctx v.2 w2 hf.2 h2, h3⟩
    | .arr t len bits big r, ctx, (v : List t.Val × r.Val), ws => by
      rintro hf ⟨wss, w2, h0, h1, h2, h3⟩
      exact ⟨wss, w2, h0, h1.imp_mem (fun x hx w hw => Ty.gRepr_of_lax c hL t _ (T.loop len) (c.useLoop len) big _ x w (fun h => hL h len) (hf.1 x hx) hw),
        Fields.gRepr_of_lax c hL r ctx v.2 w2 hf.2 h2, h3⟩
end

/-- Prefixes the decoder accepts are ones Go accepts. -/
def TgtDecSpec.LenGo (S : TgtDecSpec T) : Prop :=
  ∀ (bs : List Byte) (m len : Nat), S.fitLen bs m len → m = len ∧ bs.length ≤ 9

mutual
  theorem Ty.repr_of_lax (c : Cfg) : ∀ (t : Ty) (ctx : List Fields) (tl gl big : Bool) (n : Nat) (v : t.Val) (ws : List (Option Bool)),
      S.LenGo ∨ t.noBytes = true → t.GRepr S.lax c ctx tl gl n big v ws → t.Repr c gl n big v ws
    | .sc s, ctx, tl, gl, big, n, (v : BitVec s.width), ws => by intro _ h; exact h.2
    | .str, ctx, tl, gl, big, n, (v : List Byte), ws => by intro _ h; exact h.2
    | .bytes, ctx, tl, gl, big, n, (v : List Byte), ws => by
      rintro hG ⟨bs, m, h1, h2, h3⟩
      rcases hG with hG | hG
      · obtain ⟨e1, e2⟩ := hG bs m v.length h2
        exact ⟨bs, by rw [← e1]; exact h1, e2, h3⟩
      · cases hG
    | .struct fs, ctx, tl, gl, big, n, v, ws => by
      intro hG h; exact Fields.repr_of_lax c fs ctx v ws hG h
  theorem Fields.repr_of_lax (c : Cfg) : ∀ (fs : Fields) (ctx : List Fields) (v : fs.Val) (ws : List (Option Bool)),
      S.LenGo ∨ fs.noBytes = true → fs.GRepr S.lax c ctx v ws → fs.Repr c v ws
    | .nil, ctx, v, ws => by intro _ h; exact h
    | .void n r, ctx, v, ws => by
      rintro hG ⟨w, h1, h2⟩; exact ⟨w, Fields.repr_of_lax c r ctx v w hG h1, h2⟩
    | .const p n big val r, ctx, v, ws => by
      rintro hG ⟨w, h1, h2⟩; exact ⟨w, Fields.repr_of_lax c r ctx v w hG h1, h2⟩
    | .one t bits big r, ctx, (v : t.Val × r.Val), ws => by
      rintro hG ⟨w1, w2, h1, h2, h3⟩
      simp only [Fields.noBytes, Bool.and_eq_true] at hG
      exact ⟨w1, w2, Ty.repr_of_lax c t _ false false big _ v.1 w1 (hG.imp id And.left) h1,
        Fields.repr_of_lax c r ctx v.2 w2 (hG.imp id And.right) h2, h3⟩
    | .arr t len bits big r, ctx, (v : List t.Val × r.Val), ws => by
      rintro hG ⟨wss, w2, h0, h1, h2, h3⟩
      simp only [Fields.noBytes, Bool.and_eq_true] at hG
      exact ⟨wss, w2, h0, h1.imp_mem (fun x hx w hw => Ty.repr_of_lax c t _ (T.loop len) (c.useLoop len) big _ x w (hG.imp id And.left) hw),
        Fields.repr_of_lax c r ctx v.2 w2 (hG.imp id And.right) h2, h3⟩
end

/-! ### The whole message -/

/-- What `decode` accepts is a message. -/
theorem Fields.tDecode_to_repr {strs : Bool} (E : S.DecOk) (F : S.SoundOk strs) (c : Cfg) {fs : Fields} (h : fs.accepted = true)
    (hn : fs.noDirectDyn = true) {top : Bool} (hk : fs.tDecOk S top = true) (hst : (strs || fs.noStr) = true)
    (hsm : (Ty.struct fs).ktSmall = true) {d : Buf} (hd : d.length < S.maxLen) {base : Nat} (ht : top = true → base = 0)
    (hb : base ≤ d.length) {tv : fs.TVal T} {n : Nat} (hdec : fs.tDecode T d base = .ok (tv, n)) :
    ∃ v ws, fs.GRepr S.lax c [] v ws ∧ Agrees d (8 * base) ws ∧ 8 * n = ws.length := by
  obtain ⟨h1, h2, h3, h4⟩ := Fields.accepted_facts h
  simp only [Ty.ktSmall, Bool.and_eq_true, decide_eq_true_eq] at hsm
  unfold Fields.tDecode at hdec
  split at hdec
  · cases hdec
  · cases hdec
  · rename_i hck
    split at hdec
    · cases hdec
    · cases hdec
    · rename_i v o e
      cases hdec
      obtain ⟨c1, c2, c3, c4, c5⟩ := Fields.tDec_sound E F c fs [] 0 base top d 0 tv o h1 hn hk ht hst hsm.1 hd
        hb (by omega) e
      obtain ⟨g1, g2⟩ := Fields.tCheck_inv F (o := o) hd hb hsm.2 c2 c3 (fun _ => c4) hck
      obtain ⟨v', ws, r1, r2, r4⟩ := c5 (by omega)
      exact ⟨v', ws, r1, by simpa using r2, by omega⟩

/-- What `decode` accepts lies within the data, and `decodeSize` returns as many bytes. -/
theorem Fields.t_decode_bounds {strs : Bool} (E : S.DecOk) (F : S.SoundOk strs) (c : Cfg) {fs : Fields}
    (h : fs.accepted = true) (hn : fs.noDirectDyn = true) {top : Bool} (hk : fs.tDecOk S top = true)
    (hst : (strs || fs.noStr) = true) (hr : (Ty.struct fs).ktReach < 2 ^ 30) (d : Buf) (hd : d.length < S.maxLen) (base : Nat)
    (ht : top = true → base = 0) (hb : base ≤ d.length) {tv : fs.TVal T} {n : Nat} (hdec : fs.tDecode T d base = .ok (tv, n)) :
    base + n ≤ d.length ∧ fs.tDecodeSize T d base = some (n : Int) := by
  obtain ⟨v, ws, r1, r2, r3⟩ := Fields.tDecode_to_repr E F c h hn hk hst (Ty.ktSmall_of_reach _ hr) hd ht hb hdec
  have hl := r2.length_le
  refine ⟨by omega, ?_⟩
  unfold Fields.tDecode at hdec
  obtain ⟨h1, h2, h3, h4⟩ := Fields.accepted_facts h
  have hsm := Ty.ktSmall_of_reach _ hr
  simp only [Ty.ktSmall, Bool.and_eq_true, decide_eq_true_eq] at hsm
  split at hdec
  · cases hdec
  · cases hdec
  · rename_i hck
    split at hdec
    · cases hdec
    · cases hdec
    · rename_i v o e
      cases hdec
      obtain ⟨c1, c2, c3, c4, c5⟩ := Fields.tDec_sound E F c fs [] 0 base top d 0 tv o h1 hn hk ht hst hsm.1 hd
        hb (by omega) e
      exact (Fields.tCheck_inv F (o := o) hd hb hsm.2 c2 c3 (fun _ => c4) hck).1

/-- What `decode` accepts, Go's Decode accepts, with as many bytes; and the value is the same if it is one the
target reads correctly. -/
theorem Fields.t_decode_sound {strs : Bool} (E : S.DecOk) (F : S.SoundOk strs) (c : Cfg) (hL : S.Loops c) {fs : Fields}
    (hG : S.LenGo ∨ fs.noBytes = true) (h : fs.accepted = true) (hn : fs.noDirectDyn = true) {top : Bool} (hk : fs.tDecOk S top = true)
    (hst : (strs || fs.noStr) = true) (hr : (Ty.struct fs).ktReach < 2 ^ 30) (d : Buf) (hd : d.length < S.maxLen) (base : Nat)
    (ht : top = true → base = 0) (hb : base ≤ d.length) {tv : fs.TVal T} {n : Nat} (hdec : fs.tDecode T d base = .ok (tv, n)) :
    ∃ v : fs.Val, fs.decode c (d.drop base) = .ok (v, n) ∧ base + n ≤ d.length ∧
      fs.tDecodeSize T d base = some (n : Int) ∧ (fs.DFits S [] v → tv = fs.toT S [] v) := by
  obtain ⟨v, ws, r1, r2, r3⟩ := Fields.tDecode_to_repr E F c h hn hk hst (Ty.ktSmall_of_reach _ hr) hd ht hb hdec
  have hM := F.maxLen
  have hl := r2.length_le
  have r2' := r2
  rw [← Nat.add_zero (8 * base), ← Agrees.drop hb] at r2'
  obtain ⟨m, e1, _, e3⟩ := Fields.decode_of_repr c h hn (by rw [List.length_drop]; omega) (Fields.repr_of_lax c fs [] v ws hG r1) r2'
  have : m = n := by omega
  subst this
  refine ⟨v, e1, by omega, (Fields.t_decode_bounds E F c h hn hk hst hr d hd base ht hb hdec).2, ?_⟩
  · intro hf
    obtain ⟨m, g1, _, _⟩ := Fields.tDecode_of_repr E c h hn hk ht hd (Fields.gRepr_of_lax c hL fs [] v ws hf r1) r2
    rw [hdec] at g1
    cases g1
    rfl

end Bubbler
