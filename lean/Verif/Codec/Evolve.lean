import Verif.Codec.Legal
import Verif.Obj.FreshProofs

/-
Changing a struct definition: fields added at the end, and fields put where bits were reserved (void).
-/
namespace Bubbler

theorem Fields.Legal_join : ∀ (a b : Fields) (x : a.Val) (y : b.Val),
    (a.append b).Legal (a.join b x y) ↔ a.Legal x ∧ b.Legal y
  | .nil, b, x, y => by simp [Fields.append, Fields.join, Fields.Legal]
  | .void _ r, b, x, y => by
    have ih := Fields.Legal_join r b x y
    simpa only [Fields.append, Fields.join, Fields.Legal] using ih
  | .const _ _ _ _ r, b, x, y => by
    have ih := Fields.Legal_join r b x y
    simpa only [Fields.append, Fields.join, Fields.Legal] using ih
  | .one t _ _ r, b, (x1, x2), y => by
    have ih := Fields.Legal_join r b x2 y
    simp only [Fields.append, Fields.join, Fields.Legal, ih, and_assoc]
  | .arr t len _ _ r, b, (x1, x2), y => by
    have ih := Fields.Legal_join r b x2 y
    simp only [Fields.append, Fields.join, Fields.Legal, ih, and_assoc]

theorem Fields.InRange_join : ∀ (a b : Fields) (x : a.Val) (y : b.Val),
    (a.append b).InRange (a.join b x y) ↔ a.InRange x ∧ b.InRange y
  | .nil, b, x, y => by simp [Fields.append, Fields.join, Fields.InRange]
  | .void _ r, b, x, y => by
    have ih := Fields.InRange_join r b x y
    simpa only [Fields.append, Fields.join, Fields.InRange] using ih
  | .const _ _ _ _ r, b, x, y => by
    have ih := Fields.InRange_join r b x y
    simpa only [Fields.append, Fields.join, Fields.InRange] using ih
  | .one t _ _ r, b, (x1, x2), y => by
    have ih := Fields.InRange_join r b x2 y
    simp only [Fields.append, Fields.join, Fields.InRange, ih, and_assoc]
  | .arr t len _ _ r, b, (x1, x2), y => by
    have ih := Fields.InRange_join r b x2 y
    simp only [Fields.append, Fields.join, Fields.InRange, ih, and_assoc]

theorem Fields.noDirectDyn_append : ∀ (a b : Fields),
    (a.append b).noDirectDyn = (a.noDirectDyn && b.noDirectDyn)
  | .nil, b => by simp [Fields.append, Fields.noDirectDyn]
  | .void _ r, b => by
    have ih := Fields.noDirectDyn_append r b
    simpa only [Fields.append, Fields.noDirectDyn] using ih
  | .const _ _ _ _ r, b => by
    have ih := Fields.noDirectDyn_append r b
    simpa only [Fields.append, Fields.noDirectDyn] using ih
  | .one t _ _ r, b => by
    have ih := Fields.noDirectDyn_append r b
    simp only [Fields.append, Fields.noDirectDyn, ih, Bool.and_assoc]
    cases t <;> simp [Bool.and_comm, Bool.and_assoc, Bool.and_left_comm]
  | .arr t len _ _ r, b => by
    have ih := Fields.noDirectDyn_append r b
    simp only [Fields.append, Fields.noDirectDyn, ih, Bool.and_assoc]

theorem Fields.wf_append : ∀ (a b : Fields) (start : Nat),
    (a.append b).wf start = true → a.wf start = true ∧ b.wf (start + a.sum) = true
  | .nil, b, start, h => by simpa [Fields.append, Fields.wf, Fields.sum] using h
  | .void n r, b, start, h => by
    simp only [Fields.append, Fields.wf] at h
    have ih := Fields.wf_append r b _ h
    simp only [Fields.wf, Fields.sum, ← Nat.add_assoc]
    exact ih
  | .const _ n _ _ r, b, start, h => by
    simp only [Fields.append, Fields.wf, Bool.and_eq_true] at h
    have ih := Fields.wf_append r b _ h.2
    simp only [Fields.wf, Fields.sum, ← Nat.add_assoc, Bool.and_eq_true]
    exact ⟨⟨h.1, ih.1⟩, ih.2⟩
  | .one t bits _ r, b, start, h => by
    simp only [Fields.append, Fields.wf, Bool.and_eq_true] at h
    have ih := Fields.wf_append r b _ h.1.2
    simp only [Fields.wf, Fields.sum, ← Nat.add_assoc, Bool.and_eq_true]
    exact ⟨⟨⟨h.1.1, ih.1⟩, h.2⟩, ih.2⟩
  | .arr t len bits _ r, b, start, h => by
    simp only [Fields.append, Fields.wf, Bool.and_eq_true] at h
    have ih := Fields.wf_append r b _ h.1.1.2
    simp only [Fields.wf, Fields.sum, ← Nat.add_assoc, Bool.and_eq_true]
    exact ⟨⟨⟨⟨h.1.1.1, ih.1⟩, h.1.2⟩, h.2⟩, ih.2⟩

/-! ### Zero values on the wire -/

mutual
  /-- No constant field, at any depth -/
  def Ty.noConst : Ty → Bool
    | .struct fs => fs.noConst
    | _ => true
  /-- No constant field, at any depth -/
  def Fields.noConst : Fields → Bool
    | .nil => true
    | .void _ r => r.noConst
    | .const _ _ _ _ _ => false
    | .one t _ _ r => t.noConst && r.noConst
    | .arr t _ _ _ r => t.noConst && r.noConst
end

theorem scWire_zero {w : Nat} (n : Nat) (big : Bool) : some true ∉ scWire n big (0#w) := by
  simp [scWire]

mutual
  theorem Ty.zero_wire : ∀ (t : Ty) (n : Nat) (big : Bool), t.dynamic = false → t.noConst = true →
      some true ∉ t.wire n big t.zero
    | .sc _, n, big, _, _ => scWire_zero n big
    | .str, _, _, h, _ => nomatch h
    | .bytes, _, _, h, _ => nomatch h
    | .struct fs, _, _, hd, hc => Fields.zero_wire fs hd hc
  theorem Fields.zero_wire : ∀ (fs : Fields), fs.dynamic = false → fs.noConst = true → some true ∉ fs.wire fs.zero
    | .nil, _, _ => by simp [Fields.wire]
    | .void n r, hd, hc => by
      have ih := Fields.zero_wire r hd hc
      simp [Fields.wire, Fields.zero, ih]
    | .const _ _ _ _ _, _, hc => nomatch hc
    | .one t bits big r, hd, hc => by
      simp only [Fields.dynamic, Bool.or_eq_false_iff] at hd
      simp only [Fields.noConst, Bool.and_eq_true] at hc
      have ih := Fields.zero_wire r hd.2 hc.2
      have iht := Ty.zero_wire t (bits.getD 0) big hd.1 hc.1
      simp [Fields.wire, Fields.zero, ih, iht, hd.1]
    | .arr t len bits big r, hd, hc => by
      simp only [Fields.dynamic, Bool.or_eq_false_iff] at hd
      simp only [Fields.noConst, Bool.and_eq_true] at hc
      have ih := Fields.zero_wire r hd.2 hc.2
      have iht := Ty.zero_wire t (bits.getD 0 / len) big hd.1 hc.1
      simp only [Fields.wire, Fields.zero, List.mem_append, ih, or_false, List.mem_flatten, List.mem_map, not_exists, not_and]
      rintro l ⟨x, hx, rfl⟩
      have hx : x ∈ List.replicate len t.zero := hx
      rw [(List.mem_replicate.mp hx).2]
      exact iht
end

end Bubbler
