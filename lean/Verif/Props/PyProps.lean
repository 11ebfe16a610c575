import Verif.Codec.PyTop
import Verif.Props.CodecB

/-
C46: the Python target against the Go target.
-/
set_option linter.unusedSimpArgs false
namespace Bubbler
open Sample

mutual
  theorem Ty.Legal.pyValid : ∀ (t : Ty) (v : t.PyVal), t.Legal (t.ofPy v) → t.PyValid v
    | .sc s, (v : Int) => fun _ => trivial
    | .str, (v : List Byte) => fun _ => trivial
    | .bytes, (v : List Byte) => fun h => h
    | .struct fs, v => fun h => Fields.Legal.pyValid fs v h
  theorem Fields.Legal.pyValid : ∀ (fs : Fields) (v : fs.PyVal), fs.Legal (fs.ofPy v) → fs.PyValid v
    | .nil, _ => fun _ => trivial
    | .void _ r, v => fun h => Fields.Legal.pyValid r v h
    | .const _ _ _ _ r, v => fun h => Fields.Legal.pyValid r v h
    | .one t _ _ r, (v : t.PyVal × r.PyVal) => fun h => ⟨Ty.Legal.pyValid t v.1 h.1, Fields.Legal.pyValid r v.2 h.2⟩
    | .arr t len _ _ r, (v : List t.PyVal × r.PyVal) => fun h => by
      refine ⟨by have := h.1; simp only [Fields.ofPy, List.length_map] at this; exact this, ?_, Fields.Legal.pyValid r v.2 h.2.2⟩
      intro x hx
      exact Ty.Legal.pyValid t x (h.2.1 _ (by simp only [Fields.ofPy]; exact List.mem_map_of_mem hx))
end

/-- C46, encoding: whatever options either was generated with, `encode()` in Python returns the bytes
Go's Encode returns for the same value (`ofPy`: numbers modulo the width of the Go type), `encode_size()`
is their number, and `encode(buffer)` leaves in a buffer that is large enough what EncodeTo leaves. -/
theorem C46_encode_agrees (c : PyCfg) (cg : Cfg) {fs : Fields} (hacc : fs.accepted = true) (v : fs.PyVal)
    (hv : fs.Legal (fs.ofPy v)) :
    fs.pyEncode c v = fs.encode cg (fs.ofPy v) ∧
    fs.pyEncodeSize v = fs.encodeSize (fs.ofPy v) ∧
    ∀ buf : Buf, fs.pyEncodeSize v ≤ buf.length → fs.pyEncodeTo c v buf = fs.encodeTo cg (fs.ofPy v) buf := by
  have hp := Fields.Legal.pyValid fs v hv
  have hs := Fields.pyEncodeSize_eq fs v hp
  have key : ∀ buf : Buf, fs.pyEncodeSize v ≤ buf.length → fs.pyEncodeTo c v buf = fs.encodeTo cg (fs.ofPy v) buf := by
    intro buf hb
    obtain ⟨d1, e1, o1⟩ := Fields.pyEncodeTo_spec c hacc hp hb
    obtain ⟨_, d2, e2, o2⟩ := Fields.encodeTo_spec cg hacc (Fields.Legal.valid cg false fs _ hv) (d := buf) (by omega)
    rw [e1, e2, o1.unique o2, hs]
  refine ⟨?_, hs, key⟩
  unfold Fields.pyEncode Fields.encode
  rw [← hs, key _ (by simp)]
  cases fs.encodeTo cg (fs.ofPy v) (List.replicate (fs.pyEncodeSize v) 0#8) <;> rfl

/-- C46, decoding: for a definition whose fields lie at positions the Python decode statements handle
(`pyAligned`, see `C46_field_positions`) and for every input, `decode` in Python returns
* the value Decode in Go returns (Go code without loops; by C06 any Go code if there is no array of bools)
  and the same count, if Python can hold it: every string is UTF-8 and every enum number a member;
  otherwise an exception is raised;
* `False` if Decode in Go refuses the input, unless an exception for such a string or number was raised
  before: never when everything is UTF-8 and a member. -/
theorem C46_decode_agrees (c : PyCfg) (cg : Cfg) {fs : Fields} (hacc : fs.accepted = true)
    (hn : fs.noDirectDyn = true) (hal : fs.pyAligned c 0 = true) (hcg : cg.unroll < 0 ∨ fs.noBoolArr = true)
    (d : Buf) (hd : d.length < 2 ^ 62) (hw : fs.NoWrap d) :
    (∀ v n, fs.decode cg d = .ok (v, n) →
      fs.pyDecode c d = if fs.pyAcc c [] v then .ok (fs.toPy v, n) else .panic) ∧
    (fs.decode cg d = .fail → fs.pyDecode c d = .fail ∨
      (fs.pyDecode c d = .panic ∧ ¬ ((∀ s, c.utf8 s = true) ∧ ∀ ctx x, c.member ctx x = true))) := by
  have key : ∃ cg' : Cfg, (∀ len, cg'.useLoop len = false) ∧ fs.decode cg d = fs.decode cg' d := by
    rcases hcg with h | h
    · exact ⟨cg, fun len => by simp only [Cfg.useLoop, Bool.and_eq_false_imp, decide_eq_true_eq]; omega, rfl⟩
    · exact ⟨flatCfg, flatCfg_useLoop, C06_decode_option_independent cg flatCfg hacc hn h d hd hw⟩
  obtain ⟨cg', h1, h2⟩ := key
  have hsim := Fields.pyDecode_sim cg' h1 c hacc hn hal hd hw
  rw [h2]
  constructor
  · intro v n e
    rw [e] at hsim
    exact hsim
  · intro e
    rw [e] at hsim
    exact hsim

/-- C46, round trip and exchange: a Python value that fits its declaration is encoded and read back
unchanged by Python, and Go reads the same value from the same bytes. -/
theorem C46_roundtrip (c c' : PyCfg) (cg : Cfg) {fs : Fields} (hacc : fs.accepted = true) (hn : fs.noDirectDyn = true)
    (hal : fs.pyAligned c' 0 = true) (v : fs.PyVal) (hv : fs.Legal (fs.ofPy v)) (hf : fs.PyFits c' [] v)
    (hsz : fs.pyEncodeSize v < 2 ^ 62) :
    ∃ d, fs.pyEncode c v = some d ∧ fs.pyDecode c' d = .ok (v, d.length) ∧
      fs.decode cg d = .ok (fs.ofPy v, d.length) := by
  obtain ⟨e1, e2, _⟩ := C46_encode_agrees c cg hacc v hv
  obtain ⟨r1, r2, r3⟩ := Fields.PyFits.ofPy fs [] 0 v (Fields.accepted_facts hacc).1 hf
  obtain ⟨d, h1, h2, h3, _⟩ := C07_stream cg cg hacc hn (fs.ofPy v) hv r1 [] (by simp only [List.length_nil]; omega)
  obtain ⟨d', h1', h2', _⟩ := C07_stream cg flatCfg hacc hn (fs.ofPy v) hv r1 [] (by simp only [List.length_nil]; omega)
  rw [h1] at h1'; cases h1'
  simp only [List.append_nil] at h2 h2'
  refine ⟨d, by rw [e1, h1], ?_, h2⟩
  have hlen := (C02_size_exact cg hacc (fs.ofPy v) hv).1
  obtain ⟨d', hd1, hd2⟩ := hlen
  rw [h1] at hd1; cases hd1
  have hnw : fs.NoWrap d := by
    intro r hr
    have hrep := Fields.wire_repr flatCfg fs 0 (fs.ofPy v) (Fields.accepted_facts hacc).1
      (Fields.Legal.valid flatCfg false fs _ hv) r1
    obtain ⟨d3, g1, _, _, _, ga⟩ := Fields.encode_spec cg hacc (Fields.Legal.valid cg false fs _ hv)
    rw [h1] at g1; cases g1
    obtain ⟨n, g3, _⟩ := Fields.iSize_of_repr flatCfg hacc hn hrep ga
    rw [hr] at g3; cases g3
  have := Fields.pyDecode_sim flatCfg flatCfg_useLoop c' hacc hn hal (d := d) (by omega) hnw
  rw [h2'] at this
  simp only [PySim] at this
  rw [this, r2, if_pos rfl, r3]

/-- C46, from Go to Python: Python reads the value Go encoded, if it can hold it. -/
theorem C46_from_go (c : PyCfg) (cg : Cfg) {fs : Fields} (hacc : fs.accepted = true) (hn : fs.noDirectDyn = true)
    (hal : fs.pyAligned c 0 = true) (v : fs.Val) (hv : fs.Legal v) (hr : fs.InRange v) (ha : fs.pyAcc c [] v = true)
    (rest : Buf) (hsz : fs.encodeSize v + rest.length < 2 ^ 62) :
    ∃ d, fs.encode cg v = some d ∧ fs.pyDecode c (d ++ rest) = .ok (fs.toPy v, d.length) ∧
      fs.pyDecodeSize (d ++ rest) = some (d.length : Int) := by
  obtain ⟨d, h1, h2, h3, _⟩ := C07_stream cg flatCfg hacc hn v hv hr rest hsz
  have hrep := Fields.wire_repr flatCfg fs 0 v (Fields.accepted_facts hacc).1
    (Fields.Legal.valid flatCfg false fs _ hv) hr
  obtain ⟨d3, g1, hl, hl8, _, ga⟩ := Fields.encode_spec cg hacc (Fields.Legal.valid cg false fs _ hv)
  rw [h1] at g1; cases g1
  obtain ⟨n, g3, g4⟩ := Fields.iSize_of_repr flatCfg hacc hn hrep (ga.append_right (e := rest))
  have hnw : fs.NoWrap (d ++ rest) := fun r hr => by rw [hr] at g3; cases g3
  have hsim := Fields.pyDecode_sim flatCfg flatCfg_useLoop c hacc hn hal (d := d ++ rest)
    (by rw [List.length_append]; omega) hnw
  rw [h2] at hsim
  simp only [PySim] at hsim
  refine ⟨d, h1, by rw [hsim, ha, if_pos rfl], ?_⟩
  have hp := Fields.pyDecodeSize_rel (Fields.accepted_facts hacc).1 (d ++ rest)
  rw [g3] at hp
  simp only [PRelSize] at hp
  rw [hp]
  congr 2; omega

theorem ReadsBits.toNat_eq {w n : Nat} {d : Buf} {pos : Nat} {big : Bool} {y : BitVec w} {r : BitVec n}
    (hy : ReadsBits d pos n big y) (hr : RawAt d pos n big r) : y.toNat = r.toNat := by
  rw [← hy.raw.unique hr, BitVec.toNat_setWidth, Nat.mod_eq_of_lt]
  apply Nat.lt_pow_two_of_testBit
  intro k hk
  have h2 := hy.2 k hk
  rw [BitVec.getLsbD] at h2
  exact h2

/-- C46, one field: for any position, width and byte order, the Python decode statements read what the Go
statements read on all data if and only if the field starts a byte, or has at most 8 bits, or is little
endian and ends within the byte after the one it starts in (`pyOk`). -/
theorem C46_field_positions (big : Bool) (start n : Nat) (hn0 : 0 < n) (hn : n ≤ 64) :
    (∀ (base : Nat) (d : Buf), 8 * base + start + n ≤ 8 * d.length →
        pyDecField big start n base d = (decField big start n base d (0#64)).map BitVec.toNat) ↔
      (start % 8 = 0 ∨ n ≤ 8 ∨ (big = false ∧ start % 8 + n ≤ 16)) := by
  have hiff : (start % 8 = 0 ∨ n ≤ 8 ∨ (big = false ∧ start % 8 + n ≤ 16)) ↔ pyOk big start n = true := by
    simp only [pyOk, Bool.or_eq_true, Bool.and_eq_true, decide_eq_true_eq, Bool.not_eq_true', or_assoc]
  rw [hiff]
  constructor
  · intro h
    cases hc : pyOk big start n with
    | true => rfl
    | false =>
      exfalso
      obtain ⟨j, hj, hne⟩ := pyPos_bad hc
      have hlen : start + j + 1 ≤ 8 * (List.replicate (start + n) 0#8).length := by
        rw [List.length_replicate]; omega
      obtain ⟨d, _, w1⟩ := bbWriteFieldBits_spec (List.replicate (start + n) 0#8) (start + j) 1 1#64 false hlen
      have hb : ∀ i, bitAt d i = decide (i = start + j) := by
        intro i
        rw [w1.2 i]
        by_cases hi : i = start + j
        · subst hi
          rw [if_pos (by omega)]
          have : valueBit false 1 (start + j - (start + j)) = 0 := by rw [Nat.sub_self]; rfl
          simp only [this]; simp
        · rw [if_neg (by omega)]
          have : bitAt (List.replicate (start + n) 0#8) i = false := by
            unfold bitAt
            rw [List.getD_eq_getElem?_getD, List.getElem?_replicate]
            split <;> simp
          rw [this]; simp [hi]
      have hdl : d.length = start + n := by rw [w1.1]; simp
      have hd : 8 * 0 + start + n ≤ 8 * d.length := by omega
      obtain ⟨y, e1, hy⟩ := decField_spec big start n 0 d (0#64) hn hn0 hd
      obtain ⟨z, e2, hz⟩ := pyDecField_spec big start n 0 d hd
      have := h 0 d hd
      rw [e1, e2] at this
      simp only [Option.map_some, Option.some.injEq] at this
      have h1 : z.testBit (pyPos big start n j) = true := (hz _).mpr ⟨j, hj, rfl, by rw [hb]; simp⟩
      rw [this] at h1
      have h2 : y.getLsbD (pyPos big start n j) = true := h1
      have hlt : pyPos big start n j < n := by
        by_cases hge : n ≤ pyPos big start n j
        · rw [hy.2 _ hge] at h2; cases h2
        · omega
      obtain ⟨j', hj', e'⟩ := valueBit_surj (big := big) hlt
      rw [← e', hy.1 j' hj', hb] at h2
      have hjj : j' = j := by
        have := of_decide_eq_true h2
        omega
      rw [hjj] at e'
      exact hne e'.symm
  · intro h base d hd
    obtain ⟨y, e1, hy⟩ := decField_spec big start n base d (0#64) hn hn0 hd
    obtain ⟨r, e2, hr⟩ := pyDecField_ok base d h hd
    rw [e1, e2, Option.map_some, hy.toNat_eq hr]

/-- C46, the run-time helpers of the looped code: they write and read what Go's helpers do, at every
position. -/
theorem C46_helpers (big : Bool) (pos n : Nat) (hn : n ≤ 64) (d : Buf) (hd : pos + n ≤ 8 * d.length) :
    (∀ x : Int, pyWriteFieldBits d pos n x big = bbWriteFieldBits d pos n (BitVec.ofInt 64 x) big) ∧
    pyReadFieldBits d pos n big = (bbReadFieldBits d pos n big).map BitVec.toNat := by
  constructor
  · intro x
    obtain ⟨d1, e1, w1⟩ := pyWriteFieldBits_spec d pos n x big hd
    obtain ⟨d2, e2, w2⟩ := bbWriteFieldBits_spec d pos n (BitVec.ofInt 64 x) big hd
    rw [e1, e2]
    congr 1
    refine (w1.congr (fun j hj => ?_)).unique w2
    rw [intBit_ofInt _ _ _ (by have := valueBit_lt (big := big) hj; omega)]
  · obtain ⟨y, e1, hy⟩ := bbReadFieldBits_spec d pos n big hn hd
    obtain ⟨r, e2, hr⟩ := pyReadFieldBits_spec d pos n big hd
    rw [e1, e2, Option.map_some, hy.toNat_eq hr]

/-! ### The hypotheses are met, and cannot be dropped -/

/-- `-unroll 2`; strings of ASCII bytes; the members of the enum are 0 … 19. -/
def pyCfg : PyCfg := ⟨2, fun s => s.all (fun b => b.toNat < 128), fun _ x => decide (0 ≤ x ∧ x < 20)⟩

theorem msg_pyAligned : msg.pyAligned pyCfg 0 = true := by decide +kernel

theorem msg_pyAcc : msg.pyAcc pyCfg [] msgVal = true := by decide +kernel

example : ∃ d, msg.encode cfg msgVal = some d ∧ msg.pyDecode pyCfg (d ++ [7#8]) = .ok (msg.toPy msgVal, d.length) ∧
    msg.pyDecodeSize (d ++ [7#8]) = some (d.length : Int) :=
  C46_from_go pyCfg cfg msg_accepted msg_noDirectDyn msg_pyAligned msgVal msg_legal msg_inRange msg_pyAcc [7#8]
    (by rw [msg_size_eq]; decide)

def pyPoint : point.PyVal := ((5 : Int), (-1234 : Int), ())
def pyEntry (a b : List Byte) : entry.PyVal := (a, b, ())
def pyMsg : msg.PyVal :=
  ((1 : Int), (17 : Int), pyPoint, [(0xABC : Int), (1 : Int), (0xFFF : Int)], ([1#8, 0#8, 3#8] : List Byte), ([0x68#8, 0x69#8] : List Byte),
    [pyEntry [0x61#8] [9#8], pyEntry [] []], (-70000 : Int), ())

theorem pyMsg_ofPy : msg.ofPy pyMsg = msgVal := rfl

theorem pyMsg_fits : msg.PyFits pyCfg [] pyMsg := by
  refine ⟨by show (0 : Int) ≤ 1 ∧ (1 : Int) < 2 ^ 1; decide, ⟨by show (0 : Int) ≤ 17 ∧ (17 : Int) < 2 ^ 5; decide, rfl⟩,
    ⟨by show (0 : Int) ≤ 5 ∧ (5 : Int) < 2 ^ 3; decide, by show -(2 : Int) ^ 12 ≤ -1234 ∧ (-1234 : Int) < 2 ^ 12; decide, trivial⟩,
    ?_, trivial, ⟨by show ¬ (0#8 ∈ [0x68#8, 0x69#8]); decide, rfl⟩, ?_,
    by show -(2 : Int) ^ 23 ≤ -70000 ∧ (-70000 : Int) < 2 ^ 23; decide, trivial⟩
  · have : ∀ x ∈ [(0xABC : Int), (1 : Int), (0xFFF : Int)], (0 : Int) ≤ x ∧ x < 2 ^ 12 := by decide
    exact fun x hx => this x hx
  · intro x hx
    rcases List.mem_cons.mp hx with rfl | hx
    · exact ⟨⟨by show ¬ (0#8 ∈ [0x61#8]); decide, rfl⟩, trivial, trivial⟩
    · rcases List.mem_cons.mp hx with rfl | hx
      · exact ⟨⟨by show ¬ (0#8 ∈ ([] : List Byte)); decide, rfl⟩, trivial, trivial⟩
      · cases hx

example : ∃ d, msg.pyEncode ⟨-1, pyCfg.utf8, pyCfg.member⟩ pyMsg = some d ∧ msg.pyDecode pyCfg d = .ok (pyMsg, d.length) ∧
    msg.decode cfg' d = .ok (msgVal, d.length) :=
  C46_roundtrip ⟨-1, pyCfg.utf8, pyCfg.member⟩ pyCfg cfg' msg_accepted msg_noDirectDyn msg_pyAligned pyMsg msg_legal pyMsg_fits
    (by rw [Fields.pyEncodeSize_eq _ _ (Fields.Legal.pyValid msg pyMsg msg_legal)]
        show msg.encodeSize msgVal < 2 ^ 62
        rw [msg_size_eq]; decide)

/-- `struct S { uint8 a[#3]; uint16 b[#14]; void[#7]; }` -/
def pyBad : Fields :=
  .one (.sc (.prim .u8)) (some 3) false <| .one (.sc (.prim .u16)) (some 14) false <| .void 7 .nil
def pyBadVal : pyBad.PyVal := ((0 : Int), (0x1FFF : Int), ())

/-- C46 does not hold for every accepted definition: here Python does not read back what it wrote
(`b = 0x1FFF` is read as `0xFF`), though the bytes are right and Go reads them correctly. -/
theorem C46_decode_counterexample :
    pyBad.accepted = true ∧ pyBad.noDirectDyn = true ∧ pyBad.pyAligned pyCfg 0 = false ∧
    pyBad.pyEncode pyCfg pyBadVal = some [0xF8#8, 0xFF#8, 0x00#8] ∧
    pyBad.decode cfg [0xF8#8, 0xFF#8, 0x00#8] = .ok (pyBad.ofPy pyBadVal, 3) ∧
    pyBad.pyDecode pyCfg [0xF8#8, 0xFF#8, 0x00#8] = .ok (((0 : Int), (0xFF : Int), ()), 3) := by
  refine ⟨by decide +kernel, by decide +kernel, by decide +kernel, by decide +kernel, ?_, ?_⟩
  · obtain ⟨d, e, h⟩ := C01_roundtrip cfg cfg (fs := pyBad) (by decide +kernel) (by decide +kernel)
      (pyBad.ofPy pyBadVal) ⟨nofun, nofun, trivial⟩
      ⟨by show (0#8).toNat < 2 ^ 3; decide, by show (0x1FFF#16).toNat < 2 ^ 14; decide, trivial⟩
      (by decide +kernel)
    have e' : pyBad.encode cfg (pyBad.ofPy pyBadVal) = some [0xF8#8, 0xFF#8, 0x00#8] := by decide +kernel
    rw [e] at e'
    cases e'
    exact h
  · have h0 : pyDecField false 0 3 0 [0xF8#8, 0xFF#8, 0x00#8] = some 0 := by decide +kernel
    have h1 : pyDecField false 3 14 0 [0xF8#8, 0xFF#8, 0x00#8] = some 0xFF := by decide +kernel
    have hs : pyBad.pyDecodeSize [0xF8#8, 0xFF#8, 0x00#8] = some 3 := by decide +kernel
    unfold Fields.pyDecode
    rw [hs]
    unfold pyBad
    simp only [Fields.pyDecFields, Ty.pyDecElem, Option.getD_some, Nat.zero_add, h0, h1, Sc.pyFinish, Prim.signed]
    rfl

/-- `struct S { int8 K = 200; }`, accepted (compiler/proto_visitor.go checks the magnitude only). -/
def pyConst : Fields := .const .i8 8 false 200 .nil

/-- A constant of signed type above half its range: Python refuses what it encoded itself. -/
theorem C46_signed_constant_counterexample :
    pyConst.accepted = true ∧ pyConst.pyEncode pyCfg () = some [200#8] ∧
    pyConst.decode cfg [200#8] = .ok ((), 1) ∧ pyConst.pyDecode pyCfg [200#8] = .fail := by
  refine ⟨by decide +kernel, by decide +kernel, ?_, ?_⟩
  · obtain ⟨d, e, h⟩ := C01_roundtrip cfg cfg (fs := pyConst) (by decide +kernel) (by decide +kernel)
      () trivial trivial (by decide +kernel)
    have e' : pyConst.encode cfg () = some [200#8] := by decide +kernel
    rw [e] at e'
    cases e'
    exact h
  · have h1 : pyDecField false 0 8 0 [200#8] = some 200 := by decide +kernel
    have hs : pyConst.pyDecodeSize [200#8] = some 1 := by decide +kernel
    unfold Fields.pyDecode
    rw [hs]
    unfold pyConst
    simp only [Fields.pyDecFields, h1]
    rfl

end Bubbler
