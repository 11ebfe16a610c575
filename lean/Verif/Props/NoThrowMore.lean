import Verif.Props.NoThrowProps
import Verif.Props.KtProps
import Verif.Props.PyProps

/-
C81 for Kotlin and Python.
-/
set_option linter.unusedSimpArgs false
namespace Bubbler
open Sample

/-! ### Kotlin -/

/-- C81, Kotlin: without bytes (`C49_bytes_counterexample`), `decode` and `decodeSize` throw no exception. -/
theorem C81_kotlin (c : KtCfg) {fs : Fields} (hacc : fs.accepted = true) (hn : fs.noDirectDyn = true) (hnb : fs.noBytes = true)
    (hr : (Ty.struct fs).ktReach < 2 ^ 30) (d : Buf) (hd : d.length < 2 ^ 30) (base : Nat) (hb : base ≤ d.length) :
    (∃ z, fs.ktDecodeSize d base = some z ∧ (0 ≤ z → (base : Int) + z ≤ d.length)) ∧ fs.ktDecode c d base ≠ .panic := by
  refine ⟨?_, Fields.ktDecode_np c hacc hn hnb hr hd hb⟩
  obtain ⟨h1, _, _, _⟩ := Fields.accepted_facts hacc
  simp only [Ty.ktReach] at hr
  unfold Fields.ktDecodeSize
  by_cases hdyn : fs.dynamic = true
  · have hg := Fields.ktDsFields_good fs 0 d base 0 d.length
      (d.length + fs.sum / 8 + fs.ktReach + 1) h1 hnb (by omega) (by omega) (by omega) (by omega)
    rw [hdyn] at hg
    simp only [ktLow, if_true, Nat.zero_add] at hg
    have h0 : ((0 : Nat) : Int) = 0 := rfl
    rw [h0] at hg
    rw [if_pos hdyn]
    rcases ktDsFinish_good (d := d) (fixed := fs.sum / 8) (by omega) (by omega) (by omega) hb hg with ⟨o1, _, h2, h3⟩ | ⟨q, h2, h3, _⟩
    · exact ⟨_, h2, fun _ => by omega⟩
    · exact ⟨_, h2, fun _ => by omega⟩
  · rw [if_neg hdyn, w32_id (by omega) (by omega)]
    split
    · exact ⟨_, rfl, fun _ => by omega⟩
    · exact ⟨_, rfl, fun _ => by omega⟩

/-! ### Python -/

/-- Neither strings nor enums, at any depth. -/
def Fields.pyCalm (fs : Fields) : Bool :=
  fs.avoids false true true (fun s _ _ => match s with | .prim _ => true | .enum _ => false) (fun _ => true)

abbrev isPrim : Sc → Bool → Nat → Bool := fun s _ _ => match s with | .prim _ => true | .enum _ => false

theorem decIdx_congr' {α : Type} {f g : Nat → Nat → Res (α × Nat)} (h : ∀ i off, f i off = g i off) :
    ∀ n i off, decIdx f n i off = decIdx g n i off := by
  have : f = g := by funext i off; exact h i off
  intro n i off; rw [this]

mutual
  /-- Without strings and enums, decoding does not depend on which strings and members there are. -/
  theorem Ty.pyDec_calm {c c' : PyCfg} (hu : c.unroll = c'.unroll) : ∀ (t : Ty) (lp : Bool) (m : Nat), t.avoids false true true isPrim (fun _ => true) lp m = true →
      ∀ (ctx : List Fields) (big : Bool) (d : Buf) (start n off : Nat), t.pyDecElem c ctx big d start n off = t.pyDecElem c' ctx big d start n off
    | .sc (.prim p), _, _, _, _, _, _, _, _, _ => rfl
    | .sc (.enum b), _, _, h, _, _, _, _, _, _ => by simp only [Ty.avoids, isPrim] at h; cases h
    | .str, _, _, h, _, _, _, _, _, _ => by simp only [Ty.avoids] at h; cases h
    | .bytes, _, _, _, _, _, _, _, _, _ => rfl
    | .struct fs, _, _, h, ctx, big, d, start, n, off => by
      simp only [Ty.avoids, Bool.true_or, Bool.true_and] at h
      have h2 := Fields.pyDec_calm hu fs h
      simp only [Ty.pyDecElem, h2]
  theorem Fields.pyDec_calm {c c' : PyCfg} (hu : c.unroll = c'.unroll) : ∀ (fs : Fields), fs.avoids false true true isPrim (fun _ => true) = true →
      ∀ (ctx : List Fields) (d : Buf) (start off : Nat), fs.pyDecFields c ctx d start off = fs.pyDecFields c' ctx d start off
    | .nil, _, _, _, _, _ => rfl
    | .void n r, h, ctx, d, start, off => by
      simp only [Fields.avoids] at h
      simp only [Fields.pyDecFields]
      exact Fields.pyDec_calm hu r h _ _ _ _
    | .const p n big val r, h, ctx, d, start, off => by
      simp only [Fields.avoids] at h
      have h2 := Fields.pyDec_calm hu r h
      simp only [Fields.pyDecFields, h2]
    | .one t bits big r, h, ctx, d, start, off => by
      simp only [Fields.avoids, Bool.and_eq_true] at h
      have h1 := Ty.pyDec_calm hu t _ _ h.1
      have h2 := Fields.pyDec_calm hu r h.2
      simp only [Fields.pyDecFields, h1, h2]
    | .arr t len bits big r, h, ctx, d, start, off => by
      simp only [Fields.avoids, Bool.and_eq_true] at h
      have h1 := Ty.pyDec_calm hu t _ _ h.1
      have h2 := Fields.pyDec_calm hu r h.2
      have : ∀ i o, pyArrElemDec c (.arr t len bits big r :: ctx) t
            (fun from_ n off => t.pyDecElem c (.arr t len bits big r :: ctx) big d from_ n off)
            len (bits.getD 0 / len) start big d i o =
          pyArrElemDec c' (.arr t len bits big r :: ctx) t
            (fun from_ n off => t.pyDecElem c' (.arr t len bits big r :: ctx) big d from_ n off)
            len (bits.getD 0 / len) start big d i o := by
        intro i o
        simp only [h1]
        unfold pyArrElemDec PyCfg.useLoop
        rw [hu]
        cases t with
        | sc s =>
          cases s with
          | prim p => rfl
          | «enum» b => have := h.1; simp only [Ty.avoids, isPrim] at this; cases this
        | _ => rfl
      simp only [Fields.pyDecFields, decIdx_congr' this, h2]
end

mutual
  theorem Ty.pyAligned_congr {c c' : PyCfg} (hu : c.unroll = c'.unroll) : ∀ (t : Ty), t.pyAligned c = t.pyAligned c'
    | .sc _ => rfl
    | .str => rfl
    | .bytes => rfl
    | .struct fs => by simp only [Ty.pyAligned]; exact Fields.pyAligned_congr hu fs 0
  theorem Fields.pyAligned_congr {c c' : PyCfg} (hu : c.unroll = c'.unroll) : ∀ (fs : Fields) (start : Nat),
      fs.pyAligned c start = fs.pyAligned c' start
    | .nil, _ => rfl
    | .void n r, start => by simp only [Fields.pyAligned]; exact Fields.pyAligned_congr hu r _
    | .const p n big val r, start => by
      have h2 := Fields.pyAligned_congr hu r
      simp only [Fields.pyAligned, h2]
    | .one t bits big r, start => by
      have h1 := Ty.pyAligned_congr hu t
      have h2 := Fields.pyAligned_congr hu r
      simp only [Fields.pyAligned, h1, h2]
    | .arr t len bits big r, start => by
      have h1 := Ty.pyAligned_congr hu t
      have h2 := Fields.pyAligned_congr hu r
      simp only [Fields.pyAligned, h1, h2, PyCfg.useLoop, hu]
end

/-- C81, Python: for every definition and any data `decode_size` returns a number, if it is not negative a length
within the data. -/
theorem C81_python_size {fs : Fields} (hacc : fs.accepted = true) (d : Buf) :
    ∃ z, fs.pyDecodeSize d = some z ∧ z ≤ d.length := by
  have hrel := Fields.pyDecodeSize_rel (Fields.accepted_facts hacc).1 d
  cases hs : fs.iSize d with
  | ret r =>
    rw [hs] at hrel
    obtain ⟨r', h1, h2⟩ := hrel
    exact ⟨r', h2, by omega⟩
  | ok o =>
    rw [hs] at hrel
    obtain ⟨off, _, _, _⟩ := iFinish_bound hs
    exact ⟨_, hrel, by omega⟩

/-- C81, Python: `decode` of a definition without strings and enums (`str(…, 'utf-8')` and `E(…)` raise for what is not
UTF-8 and not a member), whose fields lie where the Python decode statements read the right bits, raises no exception,
whatever the data. -/
theorem C81_python (c : PyCfg) {fs : Fields} (hacc : fs.accepted = true) (hn : fs.noDirectDyn = true) (hal : fs.pyAligned c 0 = true)
    (hs : fs.pyCalm = true) (d : Buf) (hd : d.length < 2 ^ 62) :
    fs.pyDecode c d ≠ .panic := by
  cases hi : fs.iSize d with
  | ret r =>
    have hrel := Fields.pyDecodeSize_rel (Fields.accepted_facts hacc).1 d
    rw [hi] at hrel
    obtain ⟨r', h1, h2⟩ := hrel
    unfold Fields.pyDecode
    rw [h2]
    simp only
    rw [if_pos h1]; nofun
  | ok o =>
    have hw : fs.NoWrap d := fun r hr => by rw [hi] at hr; cases hr
    let c' : PyCfg := { c with utf8 := fun _ => true, member := fun _ _ => true }
    have e : fs.pyDecode c d = fs.pyDecode c' d := by
      unfold Fields.pyDecode
      rw [Fields.pyDec_calm (c := c) (c' := c') rfl fs hs]
    rw [e]
    have hsim := Fields.pyDecode_sim flatCfg flatCfg_useLoop c' hacc hn
      ((Fields.pyAligned_congr (c := c') (c' := c) rfl fs 0).trans hal) hd hw
    have ht : c'.total := ⟨fun _ => rfl, fun _ _ => rfl⟩
    rcases (C09_decode_total flatCfg hacc hn d hd hw).1 with h | ⟨v, n, h, _⟩
    · rw [h] at hsim
      rcases hsim with h | h
      · rw [h]; nofun
      · exact absurd ht h.2
    · rw [h] at hsim
      simp only [PySim, Fields.pyAcc_total ht, if_true] at hsim
      rw [hsim]; nofun

/-! ### The hypotheses are met, and cannot be dropped -/

example (d : Buf) (hd : d.length < 2 ^ 30) (base : Nat) (hb : base ≤ d.length) : calmMsg.ktDecode ktCfg d base ≠ .panic :=
  (C81_kotlin ktCfg (by decide +kernel) (by decide +kernel) (by decide +kernel) (by decide +kernel) d hd base hb).2

/-- `struct S { struct { bytes b; uint8 x; }[2] a; uint16 y; Point p; bytes b; int32 z; }` -/
def pyCalmMsg : Fields :=
  .arr (.struct (.one .bytes none false <| .one (.sc (.prim .u8)) (some 8) false .nil)) 2 none false <|
  .one (.sc (.prim .u16)) (some 16) false <| .one (.struct point) (some 16) false <|
  .one .bytes none false <| .one (.sc (.prim .i32)) (some 32) false .nil

example (d : Buf) (hd : d.length < 2 ^ 62) : pyCalmMsg.pyDecode pyCfg d ≠ .panic :=
  C81_python pyCfg (by decide +kernel) (by decide +kernel) (by decide +kernel) (by decide +kernel) d hd

/-- Strings that are not UTF-8 and numbers of no enum value raise an exception in Python. -/
theorem C81_python_counterexample :
    (Fields.one .str none false .nil).accepted = true ∧
    (Fields.one .str none false .nil).pyDecode { unroll := -1, utf8 := fun s => s ≠ [0xFF#8], member := fun _ _ => true } [0xFF#8, 0#8] = .panic ∧
    (Fields.one (.sc (.enum 8)) (some 8) false .nil).accepted = true ∧
    (Fields.one (.sc (.enum 8)) (some 8) false .nil).pyDecode { unroll := -1, utf8 := fun _ => true, member := fun _ x => x = 0 } [1#8] = .panic := by
  refine ⟨by decide +kernel, ?_, by decide +kernel, ?_⟩
  · rw [← Res.isPanic_iff]; decide +kernel
  · rw [← Res.isPanic_iff]; decide +kernel

end Bubbler
