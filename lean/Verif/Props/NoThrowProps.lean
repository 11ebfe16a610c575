import Verif.Codec.TgtLeafSafe
import Verif.Props.JsProps
import Verif.Props.JavaProps
import Verif.Props.CsProps

/-
C81: what `decode` and `decode_size` of the JavaScript, Java and C# targets do with data nobody encoded: they throw no
exception (`none`/`.panic` of the model), for the definitions stated.
-/
set_option linter.unusedSimpArgs false
namespace Bubbler
open Sample

/-! ### Which definitions -/

mutual
  def Ty.avoids (str bytes sub : Bool) (sc : Sc → (loop : Bool) → Nat → Bool) (loop : Nat → Bool) : Ty → (lp : Bool) → (n : Nat) → Bool
    | .sc s, lp, n => sc s lp n
    | .str, _, _ => str
    | .bytes, _, _ => bytes
    | .struct fs, _, _ => (sub || !fs.dynamic) && fs.avoids str bytes sub sc loop
  /-- A definition in which, at any depth: strings, bytes and nested structs of variable size occur only if allowed, and
  for every scalar (of `n` bits, in an array of a length that is looped or not) the test holds. -/
  def Fields.avoids (str bytes sub : Bool) (sc : Sc → (loop : Bool) → Nat → Bool) (loop : Nat → Bool) : Fields → Bool
    | .nil => true
    | .void _ r => r.avoids str bytes sub sc loop
    | .const _ _ _ _ r => r.avoids str bytes sub sc loop
    | .one t bits _ r => t.avoids str bytes sub sc loop false (bits.getD 0) && r.avoids str bytes sub sc loop
    | .arr t len bits _ r => t.avoids str bytes sub sc loop (loop len) (bits.getD 0 / len) && r.avoids str bytes sub sc loop
end

/-- Whether the generator emits a loop for an array of this length (`-unroll`). -/
def looped (unroll : Int) (len : Nat) : Bool := decide (0 ≤ unroll) && decide (unroll < len)

/-- JavaScript: no int64 field or unrolled element of 32 bits. -/
def Fields.noInt64of32 (unroll : Int) (fs : Fields) : Bool :=
  fs.avoids true true true (fun s lp n => lp || !(s == .prim .i64 && n == 32)) (looped unroll)

/-- Java: no bytes. -/
def Fields.javaCalm (fs : Fields) : Bool := fs.avoids true false true (fun _ _ _ => true) (fun _ => true)

/-- C#: no bytes; without `-memcpy` no nested struct of variable size; no float field or unrolled element read into a
variable narrower than its type. -/
def Fields.csCalm (memcpy : Bool) (unroll : Int) (fs : Fields) : Bool :=
  fs.avoids true false memcpy (fun s lp n => lp || !((s == .prim .f32 || s == .prim .f64) && decide (goUintWidth n < s.width))) (looped unroll)

/-- JavaScript numbers only: no field or unrolled element of a 64-bit type, no constant of one. -/
def jsNarrowSc (s : Sc) (lp : Bool) : Bool := lp || match s with | .prim p => decide (p.width ≤ 32) | .enum _ => true
mutual
  def Ty.jsNarrow (loop : Nat → Bool) : Ty → (lp : Bool) → Bool
    | .sc s, lp => jsNarrowSc s lp
    | .struct fs, _ => fs.jsNarrow loop
    | _, _ => true
  def Fields.jsNarrow (loop : Nat → Bool) : Fields → Bool
    | .nil => true
    | .void _ r => r.jsNarrow loop
    | .const p _ _ _ r => p.isInteger && decide (p.width ≤ 32) && r.jsNarrow loop
    | .one t _ _ r => t.jsNarrow loop false && r.jsNarrow loop
    | .arr t len _ _ r => t.jsNarrow loop (loop len) && r.jsNarrow loop
end

mutual
  theorem Ty.avoids_safe {T : Tgt} {P : NoThrow} {a b c : Bool} {f : Sc → Bool → Nat → Bool} {l : Nat → Bool}
      (ha : a = true → P.str = true) (hb : b = true → P.bytes = true) (hc : c = true → P.sub = true)
      (hf : ∀ s len n, f s (l len) n = true → P.sc s (T.loop len) n = true) (hf0 : ∀ s n, f s false n = true → P.sc s false n = true) :
      ∀ (t : Ty) (n : Nat), (∀ len, t.avoids a b c f l (l len) n = true → t.tSafe T P (T.loop len) n = true) ∧
        (t.avoids a b c f l false n = true → t.tSafe T P false n = true)
    | .sc s, n => ⟨fun len h => hf s len n h, fun h => hf0 s n h⟩
    | .str, n => ⟨fun _ h => ha h, fun h => ha h⟩
    | .bytes, n => ⟨fun _ h => hb h, fun h => hb h⟩
    | .struct fs, n => by
      have key : ((c || !fs.dynamic) && fs.avoids a b c f l) = true → ((P.sub || !fs.dynamic) && fs.tSafe T P) = true := by
        intro h
        simp only [Bool.and_eq_true, Bool.or_eq_true] at h ⊢
        exact ⟨h.1.imp hc id, Fields.avoids_safe ha hb hc hf hf0 fs h.2⟩
      exact ⟨fun _ h => key h, fun h => key h⟩
  theorem Fields.avoids_safe {T : Tgt} {P : NoThrow} {a b c : Bool} {f : Sc → Bool → Nat → Bool} {l : Nat → Bool}
      (ha : a = true → P.str = true) (hb : b = true → P.bytes = true) (hc : c = true → P.sub = true)
      (hf : ∀ s len n, f s (l len) n = true → P.sc s (T.loop len) n = true) (hf0 : ∀ s n, f s false n = true → P.sc s false n = true) :
      ∀ fs : Fields, fs.avoids a b c f l = true → fs.tSafe T P = true
    | .nil, _ => rfl
    | .void _ r, h => Fields.avoids_safe ha hb hc hf hf0 r h
    | .const _ _ _ _ r, h => Fields.avoids_safe ha hb hc hf hf0 r h
    | .one t bits _ r, h => by
      simp only [Fields.avoids, Fields.tSafe, Bool.and_eq_true] at h ⊢
      exact ⟨(Ty.avoids_safe ha hb hc hf hf0 t _).2 h.1, Fields.avoids_safe ha hb hc hf hf0 r h.2⟩
    | .arr t len bits _ r, h => by
      simp only [Fields.avoids, Fields.tSafe, Bool.and_eq_true] at h ⊢
      exact ⟨(Ty.avoids_safe ha hb hc hf hf0 t _).1 len h.1, Fields.avoids_safe ha hb hc hf hf0 r h.2⟩
end

/-! ### The theorems -/

/-- What is said of a decoder on data `d` from `start` on: `decode_size` returns a number, which if it is not negative
stays within the data, and `decode` returns or refuses. -/
def Calm (T : Tgt) (fs : Fields) (d : Buf) (base : Nat) : Prop :=
  (∃ z, fs.tDecodeSize T d base = some z ∧ (0 ≤ z → (base : Int) + z ≤ d.length)) ∧ fs.tDecode T d base ≠ .panic

theorem calm_size {T : Tgt} {S : TgtDecSpec T} {P : NoThrow} {lim slack : Nat} (K : S.SafeOk P lim slack) {fs : Fields}
    (h : fs.accepted = true) (hn : fs.noDirectDyn = true) (hs : fs.tSafe T P = true) (hr : (Ty.struct fs).ktReach < 2 ^ 30) {d : Buf}
    (hd : d.length < S.maxLen) {base : Nat} (hb : base ≤ d.length) :
    ∃ z, fs.tDecodeSize T d base = some z ∧ (0 ≤ z → (base : Int) + z ≤ d.length) := by
  obtain ⟨h1, _, _, _⟩ := Fields.accepted_facts h
  simp only [Ty.ktReach] at hr
  obtain ⟨z, e, g⟩ := Fields.tDecodeSize_np K h1 hn hs hd (base := base) (k := 0) (by omega) (by omega) (fun _ => hb)
  refine ⟨z, e, fun hz => ?_⟩
  obtain ⟨o, _, _, g1, g2⟩ := g (by omega)
  omega

/-- C81, JavaScript, `decode_size`: for every definition (`noDirectDyn`: C06's restriction) and any data, it returns a
number, which if it is not negative stays within the data. -/
theorem C81_js_size (c : JsCfg) {fs : Fields} (hacc : fs.accepted = true) (hn : fs.noDirectDyn = true)
    (hr : (Ty.struct fs).ktReach < 2 ^ 30) (hs : fs.noInt64of32 c.unroll = true) (d : Buf) (hd : d.length < 2 ^ 28)
    (base : Nat) (hb : base ≤ d.length) :
    ∃ z, fs.tDecodeSize (jsTgt c) d base = some z ∧ (0 ≤ z → (base : Int) + z ≤ d.length) :=
  calm_size (jsDecSpec_safe c) hacc hn (Fields.avoids_safe (T := jsTgt c) (P := jsNoThrow) (fun _ => rfl) (fun _ => rfl) (fun _ => rfl)
    (fun _ _ _ h => h) (fun _ _ h => h) fs hs) hr hd hb

/-- C81, JavaScript: without strings (`C81_string_counterexample`) and int64 fields of 32 bits
(`C50_int64_counterexample`), `decode` throws no exception, whatever the data. -/
theorem C81_js (c : JsCfg) {fs : Fields} (hacc : fs.accepted = true) (hn : fs.noDirectDyn = true)
    (hk : fs.tDecOk (jsDecSpec c) false = true) (hstr : fs.noStr = true) (hr : (Ty.struct fs).ktReach < 2 ^ 30)
    (hs : fs.noInt64of32 c.unroll = true) (d : Buf) (hd : d.length < 2 ^ 28) (base : Nat) (hb : base ≤ d.length) :
    Calm (jsTgt c) fs d base :=
  ⟨C81_js_size c hacc hn hr hs d hd base hb,
    Fields.tDecode_np (jsDecSpec_ok c) (jsDecSpec_sound c) (jsDecSpec_safe c) hacc hn hk (by simpa using hstr)
      (Fields.avoids_safe (T := jsTgt c) (P := jsNoThrow) (fun _ => rfl) (fun _ => rfl) (fun _ => rfl)
        (fun _ _ _ h => h) (fun _ _ h => h) fs hs) hr hd nofun hb⟩

/-- C81, Java: without bytes (`C53_prefix_counterexample`), `decode` and `decodeSize` throw no exception. -/
theorem C81_java (c : JavaCfg) {fs : Fields} (hacc : fs.accepted = true) (hn : fs.noDirectDyn = true) {top : Bool}
    (hk : fs.tDecOk (mgDecSpec c.mg) top = true) (hr : (Ty.struct fs).ktReach < 2 ^ 30) (hs : fs.javaCalm = true) (d : Buf)
    (hd : d.length < 2 ^ 30) (base : Nat) (ht : top = true → base = 0) (hb : base ≤ d.length) : Calm c.tgt fs d base := by
  have hsafe : fs.tSafe c.tgt (mgNoThrow c.mg) = true :=
    Fields.avoids_safe (b := false) (fun _ => rfl) (by intro h; cases h) (fun _ => rfl) (fun _ _ _ _ => rfl) (fun _ _ _ => rfl) fs hs
  exact ⟨calm_size (mgDecSpec_safe c.mg) hacc hn hsafe hr hd hb,
    Fields.tDecode_np (mgDecSpec_ok c.mg) (mgDecSpec_sound c.mg) (mgDecSpec_safe c.mg) hacc hn hk rfl hsafe hr hd ht hb⟩

/-- C81, C#: without bytes (`C54_prefix_counterexample`), without `-memcpy` also nested structs of variable size
(`C54_slice_counterexample`), and narrow floats (`C54_float_counterexample`), `Decode` and `DecodeSize` throw no exception. -/
theorem C81_csharp (c : CsCfg) {fs : Fields} (hacc : fs.accepted = true) (hn : fs.noDirectDyn = true)
    (hk : fs.tDecOk (mgDecSpec c.mg) false = true) (hr : (Ty.struct fs).ktReach < 2 ^ 30) (hs : fs.csCalm c.memcpy c.unroll = true)
    (d : Buf) (hd : d.length < 2 ^ 30) (base : Nat) (hb : base ≤ d.length) : Calm c.tgt fs d base := by
  have hsafe : fs.tSafe c.tgt (mgNoThrow c.mg) = true := by
    obtain ⟨m, u, e, ds⟩ := c
    refine Fields.avoids_safe (b := false) (fun _ => rfl) (by intro h; cases h) (fun h => ?_) (fun s len n h => ?_) (fun s n h => ?_) fs hs
    · subst h; rfl
    · have h2 : (mgNoThrow (CsCfg.mg ⟨m, u, e, ds⟩)).sc s (looped u len) n = true := by
        simp only [mgNoThrow, Bool.or_eq_true] at h ⊢
        exact h.imp_left .inr
      exact h2
    · simp only [mgNoThrow, Bool.or_eq_true] at h ⊢
      exact h.imp_left .inr
  exact ⟨calm_size (mgDecSpec_safe c.mg) hacc hn hsafe hr hd hb,
    Fields.tDecode_np (mgDecSpec_ok c.mg) (mgDecSpec_sound c.mg) (mgDecSpec_safe c.mg) hacc hn hk rfl hsafe hr hd nofun hb⟩

/-! ### JavaScript with numbers only -/

theorem jsScanStr_ne (k : Nat) (d : Buf) (base off : Int) (length : Nat) : jsScanStr k d base off length ≠ .panic := by
  fun_induction jsScanStr k d base off length with
  | case1 => nofun
  | case2 => nofun
  | case3 _ _ _ ih => exact ih

theorem iterX_ne {f : Int → ScanX} (hf : ∀ off, f off ≠ .panic) : ∀ (n : Nat) (off : Int), iterX f n off ≠ .panic
  | 0, off => by simp [iterX]
  | n + 1, off => by
    simp only [iterX]
    split
    · exact iterX_ne hf n _
    · exact hf off

mutual
  theorem Ty.jsDs_ne (c : JsCfg) : ∀ (t : Ty) (k : Nat) (d : Buf) (base off : Int), t.tDsElem (jsTgt c) k d base off ≠ .panic
    | .sc s, k, d, base, off => by simp [Ty.tDsElem]
    | .str, k, d, base, off => by
      show jsDsStr k d base off ≠ .panic
      unfold jsDsStr
      split
      · nofun
      · exact jsScanStr_ne _ _ _ _ _
    | .bytes, k, d, base, off => by
      show jsDsBytes k d base off ≠ .panic
      unfold jsDsBytes
      split
      · nofun
      · split
        · nofun
        · split <;> nofun
    | .struct fs, k, d, base, off => by
      simp only [Ty.tDsElem]
      split
      · unfold tDsSub
        split
        · have := Fields.jsDs_ne c fs 0 d ((jsTgt c).wrap (off + base + k)) 0
          split
          · rename_i e
            simp only [tDsFinish] at e
            split at e
            · rename_i e2; exact absurd e2 this
            · cases e
            · split at e <;> cases e
          · split <;> nofun
        · rename_i h; exact absurd rfl h
      · nofun
  theorem Fields.jsDs_ne (c : JsCfg) : ∀ (fs : Fields) (start : Nat) (d : Buf) (base off : Int), fs.tDsFields (jsTgt c) start d base off ≠ .panic
    | .nil, start, d, base, off => by simp [Fields.tDsFields]
    | .void n r, start, d, base, off => by simp only [Fields.tDsFields]; exact Fields.jsDs_ne c r _ _ _ _
    | .const _ n _ _ r, start, d, base, off => by simp only [Fields.tDsFields]; exact Fields.jsDs_ne c r _ _ _ _
    | .one t bits _ r, start, d, base, off => by
      simp only [Fields.tDsFields]
      split
      · split
        · exact Fields.jsDs_ne c r _ _ _ _
        · exact Ty.jsDs_ne c t _ _ _ _
      · exact Fields.jsDs_ne c r _ _ _ _
    | .arr t len bits _ r, start, d, base, off => by
      simp only [Fields.tDsFields]
      split
      · split
        · exact Fields.jsDs_ne c r _ _ _ _
        · exact iterX_ne (fun off => Ty.jsDs_ne c t _ _ _ off) _ _
      · exact Fields.jsDs_ne c r _ _ _ _
end

/-- C81, JavaScript, `decode_size` at any position: it throws no exception at all. -/
theorem C81_js_size_any (c : JsCfg) (fs : Fields) (d : Buf) (base : Int) : fs.tDecodeSize (jsTgt c) d base ≠ none := by
  unfold Fields.tDecodeSize
  split
  · have := Fields.jsDs_ne c fs 0 d base 0
    unfold tDsFinish
    split
    · rename_i e; exact absurd e this
    · nofun
    · split <;> nofun
  · split <;> nofun

theorem js_check_ne (c : JsCfg) (fs : Fields) (d : Buf) (base : Nat) : fs.tCheck (jsTgt c) d base ≠ .panic := by
  unfold Fields.tCheck
  split
  · split
    · rename_i e; exact absurd e (C81_js_size_any c fs d base)
    · split <;> nofun
  · nofun

theorem decIdx_ne {β : Type} {f : Nat → Nat → Res (β × Nat)} (hf : ∀ i off, f i off ≠ .panic) : ∀ (n i off : Nat), decIdx f n i off ≠ .panic
  | 0, i, off => by simp [decIdx]
  | n + 1, i, off => by
    simp only [decIdx]
    have h1 := hf i off
    have h2 := fun o => decIdx_ne hf n (i + 1) o
    cases e : f i off with
    | panic => exact absurd e h1
    | fail => simp
    | ok xo =>
      obtain ⟨x, o⟩ := xo
      simp only
      cases e2 : decIdx f n (i + 1) o with
      | panic => exact absurd e2 (h2 o)
      | fail => simp
      | ok y => simp

theorem jsPrim_ne {p : Prim} (h : p.width ≤ 32) (big : Bool) (d : Buf) (start n base : Nat) : jsDecPrim p big d start n base ≠ none := by
  unfold jsDecPrim
  rw [if_neg (by omega)]
  nofun

mutual
  theorem Ty.js_ne (c : JsCfg) : ∀ (t : Ty) (ctx : List Fields) (big arr : Bool) (d : Buf) (start n base off : Nat),
      t.jsNarrow (looped c.unroll) false = true → t.tDec (jsTgt c) ctx big arr d start n base off ≠ .panic
    | .sc s, ctx, big, arr, d, start, n, base, off => by
      intro h
      simp only [Ty.jsNarrow, jsNarrowSc, Bool.false_or] at h
      have : (jsTgt c).decSc ctx s big arr d start n (base + off) ≠ none := by
        show jsDecSc c ctx s big arr d start n (base + off) ≠ none
        cases s with
        | enum b => simp [jsDecSc]
        | prim p => exact jsPrim_ne (by simpa using h) _ _ _ _ _
      simp only [Ty.tDec]
      split
      · rename_i e; exact absurd e this
      · nofun
    | .str, ctx, big, arr, d, start, n, base, off => by
      intro _
      have : (jsTgt c).decStr d (base + off + start / 8) ≠ .panic := by
        show jsDecStr d _ ≠ .panic
        simp only [jsDecStr]
        split <;> nofun
      simp only [Ty.tDec]
      split
      · nofun
      · rename_i e; exact absurd e this
      · nofun
    | .bytes, ctx, big, arr, d, start, n, base, off => by
      intro _
      have : (jsTgt c).decBytes d (base + off + start / 8) ≠ .panic := by
        show jsDecBytes d _ ≠ .panic
        unfold jsDecBytes
        split
        · nofun
        · split <;> nofun
      simp only [Ty.tDec]
      split
      · nofun
      · rename_i e; exact absurd e this
      · nofun
    | .struct fs, ctx, big, arr, d, start, n, base, off => by
      intro h
      simp only [Ty.jsNarrow] at h
      simp only [Ty.tDec]
      rw [if_pos (show (jsTgt c).sub d.length base (off + start / 8 : Nat) = true from rfl)]
      split
      · nofun
      · rename_i e; exact absurd e (js_check_ne c fs d _)
      · have := Fields.js_ne c fs ctx d 0 (base + off + start / 8) 0 h
        split
        · nofun
        · rename_i e; exact absurd e this
        · nofun
  theorem Fields.js_ne (c : JsCfg) : ∀ (fs : Fields) (ctx : List Fields) (d : Buf) (start base off : Nat), fs.jsNarrow (looped c.unroll) = true →
      fs.tDecFields (jsTgt c) ctx d start base off ≠ .panic
    | .nil, ctx, d, start, base, off => by intro _; simp [Fields.tDecFields]
    | .void n r, ctx, d, start, base, off => by
      intro h
      simp only [Fields.tDecFields]
      exact Fields.js_ne c r ctx d _ _ _ h
    | .const p n big val r, ctx, d, start, base, off => by
      intro h
      simp only [Fields.jsNarrow, Bool.and_eq_true, decide_eq_true_eq] at h
      have h1 : (jsTgt c).decConst p n big val d start (base + off) ≠ none := by
        show jsDecConst p n big val d start (base + off) ≠ none
        unfold jsDecConst
        rw [if_pos h.1.1]
        split
        · rename_i e; exact absurd e (jsPrim_ne h.1.2 _ _ _ _ _)
        · nofun
      simp only [Fields.tDecFields]
      split
      · rename_i e; exact absurd e h1
      · nofun
      · exact Fields.js_ne c r ctx d _ _ _ h.2
    | .one t bits big r, ctx, d, start, base, off => by
      intro h
      simp only [Fields.jsNarrow, Bool.and_eq_true] at h
      have h1 := Ty.js_ne c t (.one t bits big r :: ctx) big false d start (bits.getD 0) base off h.1
      simp only [Fields.tDecFields]
      split
      · nofun
      · rename_i e; exact absurd e h1
      · rename_i off' _
        have := Fields.js_ne c r ctx d (start + bits.getD 0) base off' h.2
        split
        · nofun
        · rename_i e; exact absurd e this
        · nofun
    | .arr t len bits big r, ctx, d, start, base, off => by
      intro h
      simp only [Fields.jsNarrow, Bool.and_eq_true] at h
      have h1 := decIdx_ne (f := tArrElemDec (jsTgt c) t (.arr t len bits big r :: ctx)
          (fun start n base off => t.tDec (jsTgt c) (.arr t len bits big r :: ctx) big true d start n base off)
          len (bits.getD 0 / len) start base big d) (fun i off => by
        unfold tArrElemDec
        have hl : (jsTgt c).loop len = looped c.unroll len := rfl
        rw [hl]
        cases hlp : looped c.unroll len with
        | false =>
          rw [hlp] at h
          exact Ty.js_ne c t _ _ _ _ _ _ _ _ h.1
        | true =>
          cases t with
          | str => exact Ty.js_ne c .str (.arr .str len bits big r :: ctx) big true d start (bits.getD 0 / len) base off rfl
          | bytes => exact Ty.js_ne c .bytes (.arr .bytes len bits big r :: ctx) big true d start (bits.getD 0 / len) base off rfl
          | sc s =>
            have : ∀ pos n, (jsTgt c).decScLoop (.arr (.sc s) len bits big r :: ctx) s big d pos n ≠ none := by
              intro pos n
              show jsDecScLoop c _ s big d pos n ≠ none
              cases s <;> simp [jsDecScLoop]
            simp only [if_true]
            split
            · rename_i e; exact absurd e (this _ _)
            · nofun
          | struct fs =>
            have h0 : (Ty.struct fs).jsNarrow (looped c.unroll) false = true := h.1
            simp only [if_true]
            split
            · exact Ty.js_ne c (.struct fs) _ _ _ _ _ _ _ _ h0
            · exact Ty.js_ne c (.struct fs) _ _ _ _ _ _ _ _ h0) len 0 off
      simp only [Fields.tDecFields]
      split
      · nofun
      · rename_i e; exact absurd e h1
      · rename_i off' _
        have := Fields.js_ne c r ctx d (start + bits.getD 0) base off' h.2
        split
        · nofun
        · rename_i e; exact absurd e this
        · nofun
end

/-- C81, JavaScript, any definition without 64-bit fields and constants, with strings too: no exception, whatever the data
and wherever decoding starts. -/
theorem C81_js_numbers (c : JsCfg) {fs : Fields} (hs : fs.jsNarrow (looped c.unroll) = true) (d : Buf) (base : Nat) :
    fs.tDecode (jsTgt c) d base ≠ .panic := by
  unfold Fields.tDecode
  split
  · nofun
  · rename_i e; exact absurd e (js_check_ne c fs d base)
  · have := Fields.js_ne c fs [] d 0 base 0 hs
    split
    · nofun
    · rename_i e; exact absurd e this
    · nofun

/-! ### The hypotheses are met, and cannot be dropped -/

/-- `C81_js` on two constants, bytes and an array of structs, for any data. -/
example (d : Buf) (hd : d.length < 2 ^ 28) : Calm (jsTgt jsCfg) jsPlain d 0 :=
  C81_js jsCfg (by decide +kernel) (by decide +kernel) (by decide +kernel) (by decide +kernel) (by decide +kernel) (by decide +kernel)
    d hd 0 (by omega)

/-- `C81_js_size` and `C81_js_numbers` on a message with every kind of field. -/
example (d : Buf) (hd : d.length < 2 ^ 28) (base : Nat) (hb : base ≤ d.length) :
    (∃ z, msg.tDecodeSize (jsTgt jsCfg) d base = some z ∧ (0 ≤ z → (base : Int) + z ≤ d.length)) ∧
    msg.tDecode (jsTgt jsCfg) d base ≠ .panic :=
  ⟨C81_js_size jsCfg msg_accepted msg_noDirectDyn (by decide +kernel) (by decide +kernel) d hd base hb,
    C81_js_numbers jsCfg (by decide +kernel) d base⟩

/-- `struct N { T[2] t; uint16 x[#12]; void[#4]; Point p; string s; float32 f; }` with `struct T { string s; uint8 x; }` -/
def calmMsg : Fields :=
  .arr (.struct (.one .str none false <| .one (.sc (.prim .u8)) (some 8) false .nil)) 2 none false <|
  .one (.sc (.prim .u16)) (some 12) false <| .void 4 <| .one (.struct point) (some 16) false <|
  .one .str none false <| .one (.sc (.prim .f32)) (some 32) false .nil

example (d : Buf) (hd : d.length < 2 ^ 30) (base : Nat) (hb : base ≤ d.length) : Calm javaCfg.tgt calmMsg d base :=
  C81_java (top := false) javaCfg (by decide +kernel) (by decide +kernel) (by decide +kernel) (by decide +kernel) (by decide +kernel)
    d hd base nofun hb

example (d : Buf) (hd : d.length < 2 ^ 30) (base : Nat) (hb : base ≤ d.length) : Calm (csCfg true).tgt calmMsg d base :=
  C81_csharp (csCfg true) (by decide +kernel) (by decide +kernel) (by decide +kernel) (by decide +kernel) (by decide +kernel)
    d hd base hb

/-- `struct S { string s; Point[2] p; float32 f; string t; }` without `-memcpy` -/
def calmFlat : Fields :=
  .one .str none false <| .arr (.struct point) 2 (some 32) false <| .one (.sc (.prim .f32)) (some 32) false <|
  .one .str none false .nil

example (d : Buf) (hd : d.length < 2 ^ 30) (base : Nat) (hb : base ≤ d.length) : Calm (csCfg false).tgt calmFlat d base :=
  C81_csharp (csCfg false) (by decide +kernel) (by decide +kernel) (by decide +kernel) (by decide +kernel) (by decide +kernel)
    d hd base hb

/-- `struct S { string s; uint64 x; }` -/
def jsStrWide : Fields := .one .str none false <| .one (.sc (.prim .u64)) (some 64) false .nil

/-- A malformed string ends later for the reader than for `decode_size`: the data passes the check, the next field is read
past its end, and `BigInt(undefined)` throws. -/
theorem C81_string_counterexample :
    jsStrWide.accepted = true ∧ jsStrWide.noDirectDyn = true ∧
    jsStrWide.tDecodeSize (jsTgt jsCfg) [0xC3#8, 0#8, 0x41#8, 0#8, 1#8, 2#8, 3#8, 4#8, 5#8, 6#8] 0 = some 10 ∧
    jsStrWide.tDecode (jsTgt jsCfg) [0xC3#8, 0#8, 0x41#8, 0#8, 1#8, 2#8, 3#8, 4#8, 5#8, 6#8] 0 = .panic := by
  refine ⟨by decide +kernel, by decide +kernel, by decide +kernel, ?_⟩
  rw [← Res.isPanic_iff]; decide +kernel

end Bubbler
