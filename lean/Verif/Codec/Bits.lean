/-
Byte buffers, their bits, and the Go memory operations used by the generated codec.

A Go `[]byte` is a `List (BitVec 8)`.  An out-of-range index or slice is a Go run-time panic;
such operations return `none` here, so "never panics" is a statement one can prove.
-/
namespace Bubbler

/-- A Go `byte`. -/
abbrev Byte := BitVec 8

/-- A Go `[]byte` seen as a value (aliasing is modelled by returning the new contents). -/
abbrev Buf := List Byte

/-- Bit `i` of the stream: bit `i % 8` (least significant first) of byte `i / 8`.
Models the addressing used in generator/target/golang/golang.go 291-296
(`data[dataBit/8]`, `1 << (dataBit & 7)`).  Bits past the end read as `false`
(the generated code never reads them: reads go through `Buf.rd`). -/
def bitAt (d : Buf) (i : Nat) : Bool := (d.getD (i / 8) 0#8).getLsbD (i % 8)

/-- Go `data[i]` as an rvalue; `none` = index out of range panic. -/
def Buf.rd (d : Buf) (i : Nat) : Option Byte := d[i]?

/-- Go `data[i] = b`; `none` = index out of range panic. -/
def Buf.wr (d : Buf) (i : Nat) (b : Byte) : Option Buf :=
  if i < d.length then some (d.set i b) else none

/-- Go `data[k:]` as an argument of a call; `none` = slice bounds panic. -/
def Buf.from? (d : Buf) (k : Nat) : Option Buf :=
  if k ≤ d.length then some (d.drop k) else none

/-- Go `copy(data[k:], src)`: copies `min(len(data)-k, len(src))` bytes; panics only when the
slice expression does. -/
def Buf.copyAt (d : Buf) (k : Nat) (src : List Byte) : Option Buf :=
  if k ≤ d.length then
    some (d.take k ++ src.take (d.length - k) ++ d.drop (k + src.length))
  else none

/-- `d'` is `d` with exactly the bits `[start, start+n)` replaced by `f 0, f 1, …, f (n-1)`.
This is the specification vocabulary for "writes a field at a bit position". -/
def WritesBits (d d' : Buf) (start n : Nat) (f : Nat → Bool) : Prop :=
  d'.length = d.length ∧
  ∀ i, bitAt d' i = if start ≤ i ∧ i < start + n then f (i - start) else bitAt d i

/-! ### Basic facts -/

theorem bitAt_of_le {d : Buf} {i : Nat} (h : 8 * d.length ≤ i) : bitAt d i = false := by
  unfold bitAt
  have : d.length ≤ i / 8 := by omega
  rw [List.getD_eq_getElem?_getD, List.getElem?_eq_none this]
  simp

/-- A buffer is determined by its length and its bits. -/
theorem Buf.ext_bits {a b : Buf} (hl : a.length = b.length)
    (h : ∀ i, i < 8 * a.length → bitAt a i = bitAt b i) : a = b := by
  apply List.ext_getElem hl
  intro n h1 h2
  apply BitVec.eq_of_getLsbD_eq
  intro k hk
  have := h (8 * n + k) (by omega)
  unfold bitAt at this
  have e1 : (8 * n + k) / 8 = n := by omega
  have e2 : (8 * n + k) % 8 = k := by omega
  rw [e1, e2] at this
  simpa [List.getD_eq_getElem?_getD, h1, h2] using this

theorem bitAt_set {d : Buf} {k : Nat} {b : Byte} (hk : k < d.length) (i : Nat) :
    bitAt (d.set k b) i = if i / 8 = k then b.getLsbD (i % 8) else bitAt d i := by
  unfold bitAt
  rw [List.getD_eq_getElem?_getD, List.getD_eq_getElem?_getD, List.getElem?_set]
  by_cases h : i / 8 = k
  · subst h; simp [hk]
  · have : ¬ k = i / 8 := fun e => h e.symm
    simp [this, h]

theorem WritesBits.refl (d : Buf) (s : Nat) (f) : WritesBits d d s 0 f := by
  refine ⟨rfl, fun i => ?_⟩
  have : ¬ (s ≤ i ∧ i < s + 0) := by omega
  rw [if_neg this]

theorem WritesBits.trans {d d' d'' : Buf} {s n m : Nat} {f : Nat → Bool}
    (h1 : WritesBits d d' s n f) (h2 : WritesBits d' d'' (s + n) m (fun j => f (n + j))) :
    WritesBits d d'' s (n + m) f := by
  refine ⟨by rw [h2.1, h1.1], fun i => ?_⟩
  rw [h2.2, h1.2]
  by_cases a : s + n ≤ i ∧ i < s + n + m
  · rw [if_pos a, if_pos (by omega)]
    show f (n + (i - (s + n))) = f (i - s)
    congr 1; omega
  · rw [if_neg a]
    by_cases b : s ≤ i ∧ i < s + n
    · rw [if_pos b, if_pos (by omega)]
    · rw [if_neg b, if_neg (by omega)]

theorem WritesBits.congr {d d' : Buf} {s n : Nat} {f g : Nat → Bool}
    (h : WritesBits d d' s n f) (e : ∀ j, j < n → f j = g j) : WritesBits d d' s n g := by
  refine ⟨h.1, fun i => ?_⟩
  rw [h.2]
  by_cases a : s ≤ i ∧ i < s + n
  · rw [if_pos a, if_pos a, e _ (by omega)]
  · rw [if_neg a, if_neg a]

/-- Two writes of the same bits over the same buffer give the same buffer. -/
theorem WritesBits.unique {d a b : Buf} {s n : Nat} {f : Nat → Bool}
    (h1 : WritesBits d a s n f) (h2 : WritesBits d b s n f) : a = b :=
  Buf.ext_bits (by rw [h1.1, h2.1]) (fun i _ => by rw [h1.2, h2.2])

theorem bitAt_take {d : Buf} {k i : Nat} (h : i < 8 * k) : bitAt (d.take k) i = bitAt d i := by
  unfold bitAt
  have : i / 8 < k := by omega
  simp [List.getD_eq_getElem?_getD, this]

theorem bitAt_drop {d : Buf} {k i : Nat} : bitAt (d.drop k) i = bitAt d (8 * k + i) := by
  unfold bitAt
  have h1 : (8 * k + i) / 8 = k + i / 8 := by omega
  have h2 : (8 * k + i) % 8 = i % 8 := by omega
  simp [List.getD_eq_getElem?_getD, List.getElem?_drop, h1, h2]

theorem bitAt_append {a b : Buf} {i : Nat} :
    bitAt (a ++ b) i = if i < 8 * a.length then bitAt a i else bitAt b (i - 8 * a.length) := by
  unfold bitAt
  by_cases h : i < 8 * a.length
  · have : i / 8 < a.length := by omega
    simp [List.getD_eq_getElem?_getD, List.getElem?_append, this, h]
  · have : ¬ i / 8 < a.length := by omega
    have e1 : (i - 8 * a.length) / 8 = i / 8 - a.length := by omega
    have e2 : (i - 8 * a.length) % 8 = i % 8 := by omega
    simp [List.getD_eq_getElem?_getD, List.getElem?_append, this, h, e1, e2]

theorem bitAt_replicate_zero {n i : Nat} : bitAt (List.replicate n (0#8)) i = false := by
  unfold bitAt
  simp only [List.getD_eq_getElem?_getD, List.getElem?_replicate]
  split <;> simp

end Bubbler
