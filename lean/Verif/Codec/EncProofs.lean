import Verif.Codec.ScalarProofs
import Verif.Codec.DynProofs

set_option linter.unusedSimpArgs false
namespace Bubbler

/-- Bits of an element that belong to the fixed part of the enclosing struct. -/
def Ty.fixed : Ty → Nat → Nat
  | .sc _, n => n
  | .str, _ => 0
  | .bytes, _ => 0
  | .struct fs, _ => if fs.dynamic then 0 else fs.sum

/-- Side conditions for an element at bit `start` with `n` bits. -/
def Ty.elemOk (arr : Bool) : Ty → Nat → Nat → Prop
  | .sc s, _, n => s.wf n = true ∧ (arr = true → s.wfArr = true)
  | .str, start, _ => start % 8 = 0
  | .bytes, start, _ => start % 8 = 0
  | .struct _, start, _ => start % 8 = 0

theorem wf_one {t : Ty} {bits : Option Nat} {big : Bool} {r : Fields} {start : Nat}
    (h : (Fields.one t bits big r).wf start = true) :
    t.wf = true ∧ r.wf (start + bits.getD 0) = true ∧ t.elemOk false start (bits.getD 0) ∧
      (bits.getD 0 = t.fixed (bits.getD 0) + (if t.dynamic then bits.getD 0 else 0)) ∧
      (bits = none → t.dynamic = true) := by
  simp only [Fields.wf, Bool.and_eq_true] at h
  obtain ⟨⟨h1, h2⟩, h3⟩ := h
  refine ⟨h1, h2, ?_⟩
  cases t with
  | sc s =>
    cases bits with
    | none => simp at h3
    | some n => simp at h3; exact ⟨⟨h3, by simp⟩, by simp [Ty.fixed, Ty.dynamic], by simp⟩
  | str =>
    cases bits with
    | none => simp at h3; exact ⟨h3, by simp [Ty.fixed, Ty.dynamic], by simp [Ty.dynamic]⟩
    | some n => simp at h3
  | bytes =>
    cases bits with
    | none => simp at h3; exact ⟨h3, by simp [Ty.fixed, Ty.dynamic], by simp [Ty.dynamic]⟩
    | some n => simp at h3
  | struct fs =>
    cases bits with
    | none => simp at h3
    | some n =>
      simp at h3
      refine ⟨h3.2, ?_, by simp⟩
      simp only [Ty.fixed, Ty.dynamic, Option.getD_some]
      by_cases hd : fs.dynamic = true <;> simp [hd] <;> omega

theorem wf_arr {t : Ty} {len : Nat} {bits : Option Nat} {big : Bool} {r : Fields} {start : Nat}
    (h : (Fields.arr t len bits big r).wf start = true) :
    0 < len ∧ t.wf = true ∧ r.wf (start + bits.getD 0) = true ∧
      (∀ i, t.elemOk true (start + i * (bits.getD 0 / len)) (bits.getD 0 / len)) ∧
      t.fixed (bits.getD 0 / len) = bits.getD 0 / len ∧ len * (bits.getD 0 / len) = bits.getD 0 ∧
      (bits = none ↔ t.dynamic = true) ∧
      (∀ fs, t = .struct fs → start % 8 = 0 ∧ (bits.getD 0 / len) % 8 = 0) := by
  simp only [Fields.wf, Bool.and_eq_true, decide_eq_true_eq] at h
  obtain ⟨⟨⟨h1, h2⟩, h4⟩, h3⟩ := h
  refine ⟨h4, h1, h2, ?_⟩
  cases t with
  | sc s =>
    cases bits with
    | none => simp at h3
    | some n =>
      simp at h3
      exact ⟨fun i => ⟨h3.1.2, fun _ => h3.2⟩, rfl,
        Nat.mul_div_cancel' (Nat.dvd_of_mod_eq_zero h3.1.1), by simp [Ty.dynamic], by simp⟩
  | str =>
    cases bits with
    | none =>
      simp at h3
      exact ⟨fun i => by simpa [Ty.elemOk] using h3, by simp [Ty.fixed], by simp, by simp [Ty.dynamic], by simp⟩
    | some n => simp at h3
  | bytes =>
    cases bits with
    | none =>
      simp at h3
      exact ⟨fun i => by simpa [Ty.elemOk] using h3, by simp [Ty.fixed], by simp, by simp [Ty.dynamic], by simp⟩
    | some n => simp at h3
  | struct fs =>
    cases bits with
    | none =>
      simp at h3
      exact ⟨fun i => by simpa [Ty.elemOk] using h3.2, by simp [Ty.fixed, h3.1], by simp, by simp [Ty.dynamic, h3.1], fun s _ => by simp [h3]⟩
    | some n =>
      simp at h3
      simp only [Ty.wf, Bool.and_eq_true, decide_eq_true_eq] at h1
      obtain ⟨⟨h5, h6⟩, h7⟩ := h3
      have e : n / len = fs.sum := by rw [h6]; exact Nat.mul_div_cancel_left _ h4
      simp only [Option.getD_some, e]
      refine ⟨fun i => ?_, by simp [Ty.fixed, h5], h6.symm, by simp [Ty.dynamic, h5], fun s _ => ⟨h7, h1.2⟩⟩
      simp only [Ty.elemOk]
      have : (i * fs.sum) % 8 = 0 := by rw [Nat.mul_mod, h1.2]; simp
      omega

/-! ### Length of the wire -/

mutual
  theorem Ty.wire_length (c : Cfg) (b : Bool) : ∀ (t : Ty) (arr : Bool) (start n : Nat) (big lp : Bool) (v : t.Val),
      t.wf = true → t.elemOk arr start n → t.Valid c b lp v →
      (t.wire n big v).length = t.fixed n + 8 * t.sizeExtra v
    | .sc s, arr, start, n, big, lp, (v : BitVec s.width) => by
      intro _ _ _
      simp [Ty.wire, Ty.fixed, Ty.sizeExtra]
    | .str, arr, start, n, big, lp, (v : List Byte) => by
      intro _ _ _
      simp [Ty.wire, Ty.fixed, Ty.sizeExtra]
    | .bytes, arr, start, n, big, lp, (v : List Byte) => by
      intro _ _ _
      simp only [Ty.wire, Ty.fixed, Ty.sizeExtra, byteWire_length, List.length_append, varint_length]
      omega
    | .struct fs, arr, start, n, big, lp, v => by
      intro h _ hv
      simp only [Ty.wf, Bool.and_eq_true, decide_eq_true_eq] at h
      have := Fields.wire_length c b fs 0 v h.1 hv
      have hs := Fields.sizeExtra_static fs v
      simp only [Ty.wire, Ty.fixed, Ty.sizeExtra]
      cases hd : fs.dynamic
      · rw [hd] at hs; simp; have := hs rfl; omega
      · simp; omega
  theorem Fields.wire_length (c : Cfg) (b : Bool) : ∀ (fs : Fields) (start : Nat) (v : fs.Val),
      fs.wf start = true → fs.Valid c b v → (fs.wire v).length = fs.sum + 8 * fs.sizeExtra v
    | .nil, start, v => by
      intro _ _; simp [Fields.wire, Fields.sum, Fields.sizeExtra]
    | .void n r, start, v => by
      intro h hv
      have := Fields.wire_length c b r (start + n) v (by simpa [Fields.wf] using h) hv
      simp only [Fields.wire, Fields.sum, Fields.sizeExtra, List.length_append, List.length_replicate]
      omega
    | .const p n big val r, start, v => by
      intro h hv
      simp only [Fields.wf, Bool.and_eq_true] at h
      have := Fields.wire_length c b r (start + n) v h.2 hv
      simp only [Fields.wire, Fields.sum, Fields.sizeExtra, List.length_append, scWire_length]
      omega
    | .one t bits big r, start, v => by
      intro h hv
      obtain ⟨h1, h2, h3, h4, _⟩ := wf_one h
      have e1 := Ty.wire_length c b t false start (bits.getD 0) big false v.1 h1 h3 hv.1
      have e2 := Fields.wire_length c b r (start + bits.getD 0) v.2 h2 hv.2
      simp only [Fields.wire, Fields.sum, Fields.sizeExtra, List.length_append]
      cases hd : t.dynamic
      · rw [hd] at h4; simp at h4 ⊢; omega
      · rw [hd] at h4; simp at h4 ⊢; omega
    | .arr t len bits big r, start, v => by
      intro h hv
      obtain ⟨h0, h1, h2, h3, h4, h5, _, _⟩ := wf_arr h
      obtain ⟨v1, v2⟩ := v
      obtain ⟨hl, hv1, hv2⟩ := hv
      simp only at hl hv1 hv2
      have e2 := Fields.wire_length c b r (start + bits.getD 0) v2 h2 hv2
      have e1 : ∀ x ∈ v1, (t.wire (bits.getD 0 / len) big x).length =
          bits.getD 0 / len + 8 * t.sizeExtra x := by
        intro x hx
        have := Ty.wire_length c b t true start (bits.getD 0 / len) big _ x h1 (by simpa using h3 0) (hv1 x hx)
        rw [this, h4]
      have e3 : ∀ (l : List t.Val), (∀ x ∈ l, (t.wire (bits.getD 0 / len) big x).length =
          bits.getD 0 / len + 8 * t.sizeExtra x) →
          ((l.map (fun x => t.wire (bits.getD 0 / len) big x)).flatten).length =
            l.length * (bits.getD 0 / len) + 8 * (l.map (fun x => t.sizeExtra x)).sum := by
        intro l hl
        induction l with
        | nil => simp
        | cons x l ih =>
          have a1 := hl x (by simp)
          have a2 := ih (fun y hy => hl y (by simp [hy]))
          simp only [List.map_cons, List.flatten_cons, List.length_append, List.sum_cons, List.length_cons,
            Nat.add_mul, Nat.one_mul]
          omega
      have e4 := e3 v1 e1
      rw [hl, h5] at e4
      simp only [Fields.wire, Fields.sum, Fields.sizeExtra, List.length_append, e2, e4]
      omega
  theorem Ty.sizeExtra_static : ∀ (t : Ty) (v : t.Val), t.dynamic = false → t.sizeExtra v = 0
    | .sc s, v => by intro _; simp [Ty.sizeExtra]
    | .str, v => by intro h; simp [Ty.dynamic] at h
    | .bytes, v => by intro h; simp [Ty.dynamic] at h
    | .struct fs, v => by
      intro h
      simp only [Ty.dynamic] at h
      simp [Ty.sizeExtra, h]
  theorem Fields.sizeExtra_static : ∀ (fs : Fields) (v : fs.Val), fs.dynamic = false → fs.sizeExtra v = 0
    | .nil, v => by intro _; simp [Fields.sizeExtra]
    | .void n r, v => by
      intro h; simp only [Fields.dynamic] at h
      have := Fields.sizeExtra_static r v h
      simpa [Fields.sizeExtra] using this
    | .const p n big val r, v => by
      intro h; simp only [Fields.dynamic] at h
      have := Fields.sizeExtra_static r v h
      simpa [Fields.sizeExtra] using this
    | .one t bits big r, v => by
      intro h; simp only [Fields.dynamic, Bool.or_eq_false_iff] at h
      have e1 := Ty.sizeExtra_static t v.1 h.1
      have e2 := Fields.sizeExtra_static r v.2 h.2
      simp only [Fields.sizeExtra]; omega
    | .arr t len bits big r, v => by
      intro h; simp only [Fields.dynamic, Bool.or_eq_false_iff] at h
      have e2 := Fields.sizeExtra_static r v.2 h.2
      have e1 : ∀ l : List t.Val, (l.map (fun x => t.sizeExtra x)).sum = 0 := by
        intro l
        induction l with
        | nil => rfl
        | cons x l ih => simp only [List.map_cons, List.sum_cons, Ty.sizeExtra_static t x h.1]; omega
      have := e1 v.1
      simp only [Fields.sizeExtra]; omega
end

end Bubbler
