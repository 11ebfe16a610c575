import Verif.Props.CodecB

/-
Where the generated code does not have the property one would like: exact counterexamples, each
evaluated by the kernel on the model of the generated code.  They show that the hypotheses of
C01-C16 (`noDirectDyn`, `NoWrap`, `noBoolArr`, constants that fit) cannot be dropped.
-/
namespace Bubbler
open Sample

def Res.isPanic {α : Type} : Res α → Bool
  | .panic => true
  | _ => false
def Res.isFail {α : Type} : Res α → Bool
  | .fail => true
  | _ => false

theorem Res.isPanic_iff {α : Type} (r : Res α) : r.isPanic = true ↔ r = .panic := by cases r <;> simp [Res.isPanic]
theorem Res.isFail_iff {α : Type} (r : Res α) : r.isFail = true ↔ r = .fail := by cases r <;> simp [Res.isFail]

/-! ### A field whose type is directly a variable-length struct

    struct Inner { bytes x; uint8 y; }
    struct Outer { Inner a; bytes b; }      -/

def dInner : Fields := .one .bytes none false <| .one (.sc (.prim .u8)) (some 8) false <| .nil
def dOuter : Fields := .one (.struct dInner) (some 8) false <| .one .bytes none false <| .nil

/-- `Outer{a: {x: [100], y: 1}, b: []}` -/
def dVal : dOuter.Val := ((([100#8] : List Byte), (1#8 : BitVec 8), ()), ([] : List Byte), ())

theorem dOuter_accepted : dOuter.accepted = true ∧ dOuter.noDirectDyn = false := by decide +kernel

/-- C01 fails for it: an in-range value encodes to 5 bytes, and Decode refuses these bytes.  (The 4th
byte is a gap: the wire form has an unused copy of the fixed part of `Inner` after `Inner`.) -/
theorem C01_direct_dynamic_counterexample :
    dOuter.Legal dVal ∧ dOuter.InRange dVal ∧
    dOuter.encode cfg dVal = some [1#8, 100#8, 1#8, 0#8, 0#8] ∧
    dOuter.decode cfg [1#8, 100#8, 1#8, 0#8, 0#8] = .fail ∧
    dOuter.decodeSize [1#8, 100#8, 1#8, 0#8, 0#8] = some (-102) := by
  refine ⟨⟨⟨by show 1 ≤ maxInt; decide, nofun, trivial⟩, by show 0 ≤ maxInt; decide, trivial⟩,
    ⟨⟨trivial, by show (1#8).toNat < 2 ^ 8; decide, trivial⟩, trivial, trivial⟩, by decide +kernel, ?_, by decide +kernel⟩
  rw [← Res.isFail_iff]; decide +kernel

/-- C09 fails for it: the two bytes 00 00 make Decode read out of bounds. -/
theorem C09_direct_dynamic_counterexample : dOuter.decode cfg [0#8, 0#8] = .panic := by
  rw [← Res.isPanic_iff]; decide +kernel

/-- C08 and C10 fail for it: `Outer{a: {x: [0,0], y: 7}, b: [9]}` encodes to 7 bytes; DecodeSize answers 2
both for it and for its first two bytes, and Decode of these two bytes panics. -/
theorem C08_C10_direct_dynamic_counterexample :
    dOuter.encode cfg ((([0#8, 0#8] : List Byte), (7#8 : BitVec 8), ()), ([9#8] : List Byte), ()) =
      some [2#8, 0#8, 0#8, 7#8, 0#8, 1#8, 9#8] ∧
    dOuter.decodeSize [2#8, 0#8, 0#8, 7#8, 0#8, 1#8, 9#8] = some 2 ∧
    dOuter.decodeSize [2#8, 0#8] = some 2 := by
  refine ⟨by decide +kernel, by decide +kernel, by decide +kernel⟩

/-! ### Integer overflow in DecodeSize

    struct Inner { bytes b; }
    struct Mid { uint8 a; uint8 b; Inner items[1]; }
    struct Top { uint8 x; Mid mids[1]; string s; }      -/

def oInner : Fields := .one .bytes none false .nil
def oMid : Fields :=
  .one (.sc (.prim .u8)) (some 8) false <| .one (.sc (.prim .u8)) (some 8) false <| .arr (.struct oInner) 1 none false .nil
def oTop : Fields :=
  .one (.sc (.prim .u8)) (some 8) false <| .arr (.struct oMid) 1 none false <| .one .str none false .nil

theorem oTop_accepted : oMid.accepted = true ∧ oMid.noDirectDyn = true ∧ oTop.accepted = true ∧ oTop.noDirectDyn = true := by
  decide +kernel

/-- The varint of 2^63 - 10. -/
def hugeLen : List Byte := [0xF6#8, 0xff#8, 0xff#8, 0xff#8, 0xff#8, 0xff#8, 0xff#8, 0xff#8, 0x7f#8]

/-- C11 fails: on eleven bytes DecodeSize answers 2^63-1 (a wrapped negative), although no such
message is there. -/
theorem C11_overflow_counterexample : oMid.decodeSize ([0#8, 0#8] ++ hugeLen) = some (2 ^ 63 - 1) := by decide +kernel

/-- C09 fails: twelve bytes make DecodeSize, and so Decode, index with a negative number. -/
theorem C09_overflow_counterexample :
    oTop.decodeSize ([0#8, 0#8, 0#8] ++ hugeLen) = none ∧ oTop.decode cfg ([0#8, 0#8, 0#8] ++ hugeLen) = .panic := by
  refine ⟨by decide +kernel, ?_⟩
  rw [← Res.isPanic_iff]; decide +kernel

/-! ### Arrays of bool -/

def boolArr : Fields := .arr (.sc (.prim .bool)) 2 (some 16) false .nil

deriving instance DecidableEq for Res
instance : DecidableEq boolArr.Val := inferInstanceAs (DecidableEq (List (BitVec 8) × Unit))

/-- C06 fails on input not produced by an encoder: unrolled code stores the raw byte 2 in a bool, the
loop stores true. -/
theorem C06_bool_array_counterexample :
    boolArr.accepted = true ∧
    boolArr.decode cfg [2#8, 0#8] = .ok ((([2#8, 0#8] : List (BitVec 8)), ()), 2) ∧
    boolArr.decode cfg' [2#8, 0#8] = .ok ((([1#8, 0#8] : List (BitVec 8)), ()), 2) := by
  decide +kernel

/-! ### Constants that do not fit -/

/-- `uint8 X[#4] = 20; void[#4];` -/
def badConst : Fields := .const .u8 4 false 20 <| .void 4 .nil
/-- `uint16 Y[1] = 5 (order big);` : one byte of a two-byte type. -/
def badBigConst : Fields := .const .u16 8 true 5 .nil

/-- C15: neither is accepted by `accepted` (the compiler accepts both); the message encodes and its
own decoder refuses it. -/
theorem C15_unfit_constant_counterexample :
    badConst.accepted = false ∧ badConst.encode cfg () = some [4#8] ∧ badConst.decode cfg [4#8] = .fail ∧
    badBigConst.accepted = false ∧ badBigConst.encode cfg () = some [0#8] ∧ badBigConst.decode cfg [0#8] = .fail := by
  refine ⟨by decide +kernel, by decide +kernel, ?_, by decide +kernel, by decide +kernel, ?_⟩
  · rw [← Res.isFail_iff]; decide +kernel
  · rw [← Res.isFail_iff]; decide +kernel

theorem decIdx_off {α : Type} {f : Nat → Nat → Res (α × Nat)} (hf : ∀ i off x o, f i off = .ok (x, o) → o = off) :
    ∀ (n i off : Nat) (xs : List α) (o : Nat), decIdx f n i off = .ok (xs, o) → o = off
  | 0, i, off, xs, o => by intro h; simp only [decIdx] at h; cases h; rfl
  | n + 1, i, off, xs, o => by
    intro h
    simp only [decIdx] at h
    cases h1 : f i off with
    | fail => rw [h1] at h; cases h
    | panic => rw [h1] at h; cases h
    | ok p =>
      obtain ⟨x, o1⟩ := p
      rw [h1] at h
      simp only at h
      cases h2 : decIdx f n (i + 1) o1 with
      | fail => rw [h2] at h; cases h
      | panic => rw [h2] at h; cases h
      | ok q =>
        obtain ⟨ys, o2⟩ := q
        rw [h2] at h
        cases h
        rw [decIdx_off hf n (i + 1) o1 ys _ h2, hf _ _ _ _ h1]

theorem Ty.decElem_off (c : Cfg) {t : Ty} (ht : t.dynamic = false) (big arr : Bool) (d : Buf) (start n off : Nat)
    (x : t.Val) (o : Nat) (h : t.decElem c big arr d start n off = .ok (x, o)) : o = off := by
  cases t with
  | sc s =>
    simp only [Ty.decElem] at h
    split at h
    · cases h
    · cases h; rfl
  | str => simp [Ty.dynamic] at ht
  | bytes => simp [Ty.dynamic] at ht
  | struct fs =>
    simp only [Ty.dynamic] at ht
    simp only [Ty.decElem, ht, Bool.false_eq_true, if_false] at h
    split at h
    · cases h
    · split at h
      · cases h
      · split at h
        · cases h
        · split at h
          · cases h
          · cases h
          · cases h; rfl

theorem arrElemDec_off (c : Cfg) {t : Ty} (ht : t.dynamic = false) (rec : Nat → Nat → Nat → Res (t.Val × Nat))
    (hrec : ∀ st n off x o, rec st n off = .ok (x, o) → o = off) (len eb start : Nat) (big : Bool) (d : Buf)
    (i off : Nat) (x : t.Val) (o : Nat) (h : arrElemDec c t rec len eb start big d i off = .ok (x, o)) : o = off := by
  unfold arrElemDec at h
  split at h
  · cases t with
    | sc s =>
      simp only at h
      split at h
      · cases h
      · cases h; rfl
    | str => simp [Ty.dynamic] at ht
    | bytes => simp [Ty.dynamic] at ht
    | struct fs =>
      simp only [Ty.dynamic] at ht
      simp only [ht, Bool.false_eq_true, if_false] at h
      exact hrec _ _ _ _ _ h
  · exact hrec _ _ _ _ _ h

theorem ReadsBits.lt {w : Nat} {d : Buf} {pos n : Nat} {big : Bool} {y : BitVec w} (h : ReadsBits d pos n big y) :
    y.toNat < 2 ^ n := by
  apply Nat.lt_of_not_le
  intro hle
  obtain ⟨i, hi, hb⟩ := Nat.exists_ge_and_testBit_of_ge_two_pow hle
  have := h.2 i hi
  simp only [BitVec.getLsbD] at this
  rw [hb] at this; cases this

theorem unfit_const_never (c : Cfg) (p : Prim) (n : Nat) (big : Bool) (val : Nat) (post : Fields) (hn0 : 0 < n)
    (hn : n ≤ p.width) (hval : 2 ^ n ≤ val) : ∀ (pre : Fields) (d : Buf) (start off : Nat) (v) (o : Nat),
    pre.dynamic = false → 8 * off + start + pre.sum + n ≤ 8 * d.length →
    (pre.append (.const p n big val post)).decFields c d start off ≠ .ok (v, o)
  | .nil, d, start, off, v, o => by
    intro _ hl h
    simp only [Fields.sum] at hl
    obtain ⟨y, e, hr⟩ := decField_spec big start n off d (0#p.width) hn hn0 (by omega)
    simp only [Fields.append, Fields.decFields, e] at h
    have := hr.lt
    have h' : (if y.toNat = val then post.decFields c d (start + n) off else .fail) =
      Res.ok ((show post.Val from v), o) := h
    rw [if_neg (by omega)] at h'
    cases h'
  | .void m r, d, start, off, v, o => by
    intro hd hl h
    simp only [Fields.dynamic] at hd
    simp only [Fields.sum] at hl
    exact unfit_const_never c p n big val post hn0 hn hval r d (start + m) off v o hd (by omega) h
  | .const p' m b v' r, d, start, off, v, o => by
    intro hd hl h
    simp only [Fields.dynamic] at hd
    simp only [Fields.sum] at hl
    simp only [Fields.append, Fields.decFields] at h
    split at h
    · cases h
    · rename_i y _
      have h' : (if y.toNat = v' then (r.append (.const p n big val post)).decFields c d (start + m) off else .fail) =
        Res.ok ((show (r.append (.const p n big val post)).Val from v), o) := h
      split at h'
      · exact unfit_const_never c p n big val post hn0 hn hval r d (start + m) off v o hd (by omega) h'
      · cases h'
  | .one t bits b r, d, start, off, v, o => by
    intro hd hl h
    simp only [Fields.dynamic, Bool.or_eq_false_iff] at hd
    simp only [Fields.sum] at hl
    simp only [Fields.append, Fields.decFields] at h
    cases h1 : t.decElem c b false d start (bits.getD 0) off with
    | fail => rw [h1] at h; cases h
    | panic => rw [h1] at h; cases h
    | ok q =>
      obtain ⟨x, o1⟩ := q
      rw [h1] at h
      simp only at h
      have ho := Ty.decElem_off c hd.1 _ _ _ _ _ _ _ _ h1
      subst ho
      cases h2 : (r.append (.const p n big val post)).decFields c d (start + bits.getD 0) o1 with
      | fail => rw [h2] at h; cases h
      | panic => rw [h2] at h; cases h
      | ok q =>
        obtain ⟨x2, o2⟩ := q
        exact unfit_const_never c p n big val post hn0 hn hval r d (start + bits.getD 0) o1 x2 o2 hd.2 (by omega) h2
  | .arr t len bits b r, d, start, off, v, o => by
    intro hd hl h
    simp only [Fields.dynamic, Bool.or_eq_false_iff] at hd
    simp only [Fields.sum] at hl
    simp only [Fields.append, Fields.decFields] at h
    split at h
    · cases h
    · cases h
    · rename_i xs o1 h1
      have ho := decIdx_off (fun i off x o he => arrElemDec_off c hd.1 _
        (fun st n off x o he => Ty.decElem_off c hd.1 _ _ _ _ _ _ _ _ he) len (bits.getD 0 / len) start b d i off x o he)
        _ _ _ _ _ h1
      subst ho
      cases h2 : (r.append (.const p n big val post)).decFields c d (start + bits.getD 0) o1 with
      | fail => rw [h2] at h; cases h
      | panic => rw [h2] at h; cases h
      | ok q =>
        obtain ⟨x2, o2⟩ := q
        exact unfit_const_never c p n big val post hn0 hn hval r d (start + bits.getD 0) o1 x2 o2 hd.2 (by omega) h2

/-- C15: a constant that exceeds its width makes every message undecodable, whatever the bytes
(fixed-size messages). -/
theorem C15_unfit_constant_undecodable (c : Cfg) (pre post : Fields) (p : Prim) (n : Nat) (big : Bool) (val : Nat)
    (hn0 : 0 < n) (hn : n ≤ p.width) (hval : 2 ^ n ≤ val) (h8 : (pre.append (.const p n big val post)).sum % 8 = 0)
    (hstat : pre.dynamic = false ∧ post.dynamic = false) (d : Buf)
    (v : (pre.append (.const p n big val post)).Val) (k : Nat) :
    (pre.append (.const p n big val post)).decode c d ≠ .ok (v, k) := by
  intro h
  have hdyn : (pre.append (.const p n big val post)).dynamic = false := by
    rw [Fields.dynamic_append, hstat.1]; simpa [Fields.dynamic] using hstat.2
  have hsum : (pre.append (.const p n big val post)).sum = pre.sum + (n + post.sum) := by
    rw [Fields.sum_append]; rfl
  unfold Fields.decode Fields.decodeSize at h
  rw [hdyn] at h
  simp only [Bool.false_eq_true, if_false] at h
  by_cases hl : d.length < (pre.append (.const p n big val post)).sum / 8
  · rw [if_pos hl] at h
    simp only at h
    rw [if_pos (by omega)] at h
    cases h
  · rw [if_neg hl] at h
    simp only at h
    rw [if_neg (by omega)] at h
    cases h2 : (pre.append (.const p n big val post)).decFields c d 0 0 with
    | fail => rw [h2] at h; cases h
    | panic => rw [h2] at h; cases h
    | ok q =>
      obtain ⟨x2, o2⟩ := q
      exact unfit_const_never c p n big val post hn0 hn hval pre d 0 0 x2 o2 hstat.1 (by omega) h2

example (d : Buf) (v k) : badConst.decode cfg d ≠ .ok (v, k) :=
  C15_unfit_constant_undecodable cfg .nil (.void 4 .nil) .u8 4 false 20 (by decide) (by decide) (by decide)
    (by decide) ⟨rfl, rfl⟩ d v k

/-! ### Arrays of structs declared narrower than their elements

    struct P[2] { uint16 x; }   struct Q { P ps[2] [2]; }   (two 2-byte elements in 2 bytes)   -/

def narrowArr : Fields := .arr (.struct (.one (.sc (.prim .u16)) (some 16) false .nil)) 2 (some 16) false .nil

/-- The compiler accepts it (C22); Encode panics because EncodeSize counts the declared two bytes. -/
theorem C02_narrow_array_counterexample :
    narrowArr.accepted = false ∧
    narrowArr.encode cfg (([((1#16 : BitVec 16), ()), ((2#16 : BitVec 16), ())] : List (BitVec 16 × Unit)), ()) = none := by
  decide +kernel

/-! ### Strings with a zero byte -/

/-- C14/C01: a string with a zero byte does not come back. -/
theorem C14_nul_counterexample : ∃ d, stringMsg.encode cfg (([65#8, 0#8, 66#8] : List Byte), ()) = some d ∧
    stringMsg.decode cfg d = .ok ((([65#8] : List Byte), ()), 2) := by
  obtain ⟨d, e1, e2, _⟩ := C14_string_roundtrip cfg cfg [65#8, 0#8, 66#8] (by decide)
  refine ⟨d, e1, ?_⟩
  have : [65#8, 0#8, 66#8].takeWhile (· ≠ 0#8) = [65#8] := by decide
  rw [this] at e2
  exact e2

end Bubbler
