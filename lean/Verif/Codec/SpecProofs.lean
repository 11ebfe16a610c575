import Verif.Codec.Spec
import Verif.Codec.ChunkEnc

set_option linter.unusedSimpArgs false
namespace Bubbler

theorem specBit_eq (big : Bool) {n j : Nat} (h : j < n) : specBit big n j = valueBit big n j := by
  cases big
  · simp [specBit, valueBit]
  · rw [valueBit_be]; simp only [specBit, if_true]
    split <;> split <;> omega

@[simp] theorem scWire_length {w : Nat} (n : Nat) (big : Bool) (x : BitVec w) :
    (scWire n big x).length = n := by simp [scWire]

theorem scWire_getElem? {w : Nat} (n : Nat) (big : Bool) (x : BitVec w) (j : Nat) :
    (scWire n big x)[j]? = if j < n then some (some (x.getLsbD (valueBit big n j))) else none := by
  simp only [scWire, List.getElem?_map]
  by_cases h : j < n
  · simp [h, specBit_eq big h]
  · simp [h]

theorem scWire_congr {w w' : Nat} {n : Nat} {big : Bool} {x : BitVec w} {y : BitVec w'}
    (h : ∀ k, k < n → x.getLsbD k = y.getLsbD k) : scWire n big x = scWire n big y := by
  apply List.map_congr_left
  intro j hj
  have hj := List.mem_range.mp hj
  rw [specBit_eq big hj, h _ (valueBit_lt hj)]

/-! ### Overlay -/

theorem Overlay.nil (d : Buf) (pos : Nat) : Overlay d d pos [] := by
  refine ⟨rfl, fun i => ?_⟩
  simp

theorem Overlay.none (d : Buf) (pos n : Nat) : Overlay d d pos (List.replicate n none) := by
  refine ⟨rfl, fun i => ?_⟩
  simp only [List.getD_eq_getElem?_getD, List.getElem?_replicate]
  split
  · split <;> simp
  · rfl

theorem Overlay.append {d d1 d2 : Buf} {pos : Nat} {a b : List (Option Bool)}
    (h1 : Overlay d d1 pos a) (h2 : Overlay d1 d2 (pos + a.length) b) :
    Overlay d d2 pos (a ++ b) := by
  refine ⟨by rw [h2.1, h1.1], fun i => ?_⟩
  rw [h2.2, h1.2]
  simp only [List.getD_eq_getElem?_getD, List.getElem?_append]
  by_cases c1 : pos ≤ i
  · by_cases c2 : pos + a.length ≤ i
    · have : ¬ i - pos < a.length := by omega
      have e : i - pos - a.length = i - (pos + a.length) := by omega
      have e2 : a[i - pos]? = Option.none := List.getElem?_eq_none (by omega)
      simp [c1, c2, this, e, e2]
    · have : i - pos < a.length := by omega
      simp [c1, c2, this]
  · have : ¬ pos + a.length ≤ i := by omega
    simp [c1, this]

theorem Overlay.ofWrites {w : Nat} {d d' : Buf} {pos n : Nat} {big : Bool} {x : BitVec w}
    (h : WritesBits d d' pos n (fun j => x.getLsbD (valueBit big n j))) :
    Overlay d d' pos (scWire n big x) := by
  refine ⟨h.1, fun i => ?_⟩
  rw [h.2]
  simp only [List.getD_eq_getElem?_getD, scWire_getElem?]
  by_cases c1 : pos ≤ i
  · by_cases c2 : i - pos < n
    · have : i < pos + n := by omega
      simp [c1, c2, this]
    · have : ¬ i < pos + n := by omega
      simp [c1, c2, this]
  · simp [c1]

theorem Overlay.unique {d a b : Buf} {pos : Nat} {ws} (h1 : Overlay d a pos ws) (h2 : Overlay d b pos ws) :
    a = b :=
  Buf.ext_bits (by rw [h1.1, h2.1]) (fun i _ => by rw [h1.2, h2.2])

theorem Overlay.agrees {d d' : Buf} {pos : Nat} {ws} (h : Overlay d d' pos ws)
    (hl : pos + ws.length ≤ 8 * d.length) : Agrees d' pos ws := by
  refine ⟨by rw [h.1]; exact hl, fun j b hj => ?_⟩
  rw [h.2]
  have : pos + j - pos = j := by omega
  simp [List.getD_eq_getElem?_getD, this, hj]

theorem Overlay.sub {d sub' : Buf} {k pos : Nat} {ws} (hk : k ≤ d.length)
    (h : Overlay (d.drop k) sub' pos ws) : Overlay d (d.take k ++ sub') (8 * k + pos) ws := by
  have hl := h.1
  have htl : (d.take k).length = k := by simp [hk]
  refine ⟨by rw [List.length_append, htl, hl, List.length_drop]; omega, fun i => ?_⟩
  rw [bitAt_append, htl]
  by_cases c : i < 8 * k
  · rw [if_pos c, bitAt_take c, if_neg (by omega)]
  · rw [if_neg c, h.2, bitAt_drop]
    have e : 8 * k + (i - 8 * k) = i := by omega
    have e2 : i - 8 * k - pos = i - (8 * k + pos) := by omega
    rw [e, e2]
    by_cases c2 : pos ≤ i - 8 * k
    · rw [if_pos c2, if_pos (by omega)]
    · rw [if_neg c2, if_neg (by omega)]

/-! ### Agrees -/

theorem Agrees.append {d : Buf} {pos : Nat} {a b : List (Option Bool)} :
    Agrees d pos (a ++ b) ↔ Agrees d pos a ∧ Agrees d (pos + a.length) b := by
  constructor
  · intro ⟨h1, h2⟩
    rw [List.length_append] at h1
    refine ⟨⟨by omega, fun j x hj => h2 j x ?_⟩, ⟨by omega, fun j x hj => ?_⟩⟩
    · rw [List.getElem?_append_left]; exact hj
      exact (List.getElem?_eq_some_iff.mp hj).1
    · have := h2 (a.length + j) x (by rw [List.getElem?_append_right (by omega)]; simpa using hj)
      rw [← this]; congr 1; omega
  · intro ⟨⟨h1, h2⟩, ⟨h3, h4⟩⟩
    refine ⟨by rw [List.length_append]; omega, fun j x hj => ?_⟩
    by_cases c : j < a.length
    · rw [List.getElem?_append_left c] at hj; exact h2 j x hj
    · rw [List.getElem?_append_right (by omega)] at hj
      have := h4 _ x hj
      rw [← this]; congr 1; omega

theorem Agrees.drop {d : Buf} {k pos : Nat} {ws} (hk : k ≤ d.length) :
    Agrees (d.drop k) pos ws ↔ Agrees d (8 * k + pos) ws := by
  unfold Agrees
  simp only [bitAt_drop, List.length_drop, Nat.add_assoc]
  constructor
  · intro ⟨h1, h2⟩; exact ⟨by omega, h2⟩
  · intro ⟨h1, h2⟩; exact ⟨by omega, h2⟩

theorem Agrees.append_right {d e : Buf} {pos : Nat} {ws} (h : Agrees d pos ws) : Agrees (d ++ e) pos ws := by
  refine ⟨by have := h.1; rw [List.length_append]; omega, fun j b hj => ?_⟩
  have hlt := (List.getElem?_eq_some_iff.mp hj).1
  have h1 := h.1
  rw [bitAt_append, if_pos (by omega)]
  exact h.2 j b hj

theorem Agrees.length_le {d : Buf} {pos : Nat} {ws} (h : Agrees d pos ws) :
    pos + ws.length ≤ 8 * d.length := h.1

theorem Agrees.sc_bits {w : Nat} {d : Buf} {pos n : Nat} {big : Bool} {x : BitVec w}
    (h : Agrees d pos (scWire n big x)) :
    ∀ j, j < n → bitAt d (pos + j) = x.getLsbD (valueBit big n j) := by
  intro j hj
  exact h.2 j _ (by rw [scWire_getElem?, if_pos hj])

/-! ### Byte sequences -/

@[simp] theorem byteWire_length (s : List Byte) : (byteWire s).length = 8 * s.length := by
  induction s with
  | nil => rfl
  | cons b s ih => simp [byteWire, ih]; omega

theorem byteWire_append (a b : List Byte) : byteWire (a ++ b) = byteWire a ++ byteWire b := by
  induction a with
  | nil => rfl
  | cons x a ih => simp [byteWire, ih]

theorem byteWire_getElem? (s : List Byte) (j : Nat) :
    (byteWire s)[j]? = if j < 8 * s.length then some (some (bitAt s j)) else none := by
  induction s generalizing j with
  | nil => simp [byteWire]
  | cons b s ih =>
    rw [byteWire]
    by_cases h : j < 8
    · rw [List.getElem?_append_left (by simpa using h), scWire_getElem?, if_pos h]
      have h1 : j / 8 = 0 := by omega
      have h2 : j % 8 = j := by omega
      rw [if_pos (by simp; omega)]
      simp [bitAt, h1, h2, valueBit]
    · rw [List.getElem?_append_right (by simp; omega), ih]
      simp only [scWire_length, List.length_cons]
      have h3 : bitAt (b :: s) j = bitAt s (j - 8) := by
        have := @bitAt_append [b] s j
        simp only [List.cons_append, List.nil_append, List.length_cons, List.length_nil] at this
        rw [this, if_neg (by omega)]
      rw [h3]
      by_cases c : j - 8 < 8 * s.length
      · rw [if_pos c, if_pos (by omega)]
      · rw [if_neg c, if_neg (by omega)]

/-- Writing bytes with Go's copy, when they fit. -/
theorem Overlay.copyAt {d : Buf} {k : Nat} {s : List Byte} (h : k + s.length ≤ d.length) :
    ∃ d', d.copyAt k s = some d' ∧ Overlay d d' (8 * k) (byteWire s) := by
  have hk : k ≤ d.length := by omega
  refine ⟨d.take k ++ s.take (d.length - k) ++ d.drop (k + s.length), by simp only [Buf.copyAt, hk, if_true], ?_, fun i => ?_⟩
  · simp; omega
  · have hs : s.take (d.length - k) = s := List.take_of_length_le (by omega)
    have htl : (d.take k).length = k := by simp [hk]
    rw [hs, List.append_assoc, bitAt_append, htl]
    simp only [List.getD_eq_getElem?_getD, byteWire_getElem?]
    by_cases c : i < 8 * k
    · rw [if_pos c, bitAt_take c, if_neg (by omega)]
    · rw [if_neg c, if_pos (by omega), bitAt_append]
      by_cases c2 : i - 8 * k < 8 * s.length
      · simp [c2]
      · rw [if_neg c2, if_neg c2, bitAt_drop]
        simp only [Option.getD_none]
        congr 1; omega

theorem Overlay.wr {d : Buf} {k : Nat} {b : Byte} (h : k < d.length) :
    ∃ d', d.wr k b = some d' ∧ Overlay d d' (8 * k) (byteWire [b]) := by
  refine ⟨d.set k b, by simp only [Buf.wr, h, if_true], by simp, fun i => ?_⟩
  rw [bitAt_set h]
  simp only [List.getD_eq_getElem?_getD, byteWire_getElem?, List.length_cons, List.length_nil]
  by_cases c : i / 8 = k
  · have h1 : 8 * k ≤ i := by omega
    have h2 : i - 8 * k < 8 * (0 + 1) := by omega
    have h3 : (i - 8 * k) / 8 = 0 := by omega
    have h4 : (i - 8 * k) % 8 = i % 8 := by omega
    simp only [c, h1, h2, if_true, Option.getD_some]
    simp [bitAt, h3, h4]
  · by_cases h1 : 8 * k ≤ i
    · have h2 : ¬ i - 8 * k < 8 * (0 + 1) := by omega
      simp [c, h1, h2]
    · simp [c, h1]

/-- Agreeing with a byte sequence is containing it. -/
theorem Agrees.bytes {d : Buf} {k : Nat} {s : List Byte} (h : Agrees d (8 * k) (byteWire s)) :
    (d.drop k).take s.length = s ∧ k + s.length ≤ d.length := by
  have hl := h.1
  rw [byteWire_length] at hl
  have hk : k + s.length ≤ d.length := by omega
  refine ⟨?_, hk⟩
  apply Buf.ext_bits
  · simp; omega
  · intro i hi
    have hlen : ((d.drop k).take s.length).length = s.length := by simp; omega
    rw [hlen] at hi
    rw [bitAt_take hi, bitAt_drop]
    exact h.2 i _ (by rw [byteWire_getElem?, if_pos hi])

theorem agrees_bytes_iff {d : Buf} {k : Nat} {s : List Byte} :
    Agrees d (8 * k) (byteWire s) ↔ (d.drop k).take s.length = s ∧ k + s.length ≤ d.length := by
  refine ⟨Agrees.bytes, fun ⟨h1, h2⟩ => ⟨by simp; omega, fun j b hj => ?_⟩⟩
  rw [byteWire_getElem?] at hj
  by_cases c : j < 8 * s.length
  · rw [if_pos c] at hj
    have hb : bitAt s j = b := by simpa using hj
    rw [← hb]
    have : bitAt ((d.drop k).take s.length) j = bitAt s j := by rw [h1]
    rw [bitAt_take c, bitAt_drop] at this
    exact this
  · rw [if_neg c] at hj; cases hj

end Bubbler
