import Verif.Obj.EqProofs

/- Proofs for C68: hash codes. -/
set_option linter.unusedSimpArgs false
set_option linter.unusedVariables false
namespace Bubbler
open Obj

namespace Obj

/-- The hash code of an attribute or element. -/
def oneHash (l : Lang) (h : Hashes l.enumBits) : (t : Ty) → t.OVal l.enumBits → BitVec 32
  | .bytes, (x : Ref × List Byte) => if l.cs then h.ref x.1 (if l = .csSpan then x.2.length else 0) else bytesHash l x.2
  | t, x => t.objHash l h x

end Obj

theorem Fields.attrsHash_one (l : Lang) (h : Hashes l.enumBits) (t : Ty) (b : Option Nat) (big : Bool) (r : Fields)
    (x : (Fields.one t b big r).OVal l.enumBits) (res : BitVec 32) :
    (Fields.one t b big r).attrsHash l h x res = r.attrsHash l h x.2 (31#32 * res + oneHash l h t x.1) := by
  cases l <;> cases t <;> first | rfl | (rename_i s; cases s <;> rfl)

theorem Fields.attrsHash_arr (l : Lang) (h : Hashes l.enumBits) (t : Ty) (n : Nat) (b : Option Nat) (big : Bool) (r : Fields)
    (x : (Fields.arr t n b big r).OVal l.enumBits) (res : BitVec 32) :
    (Fields.arr t n b big r).attrsHash l h x res = r.attrsHash l h x.2 (31#32 * res + listHash l (fun a => oneHash l h t a) x.1) := by
  cases l <;> cases t <;> first | rfl | (rename_i s; cases s <;> rfl)

namespace Obj

theorem nan_mask {w : Nat} (m e : Nat) (hw : w = m + e + 1) (x : BitVec w) (h : (2 ^ e - 1) * 2 ^ m ≤ mag x) :
    x &&& BitVec.ofNat w ((2 ^ e - 1) * 2 ^ m) = BitVec.ofNat w ((2 ^ e - 1) * 2 ^ m) := by
  subst hw
  apply BitVec.eq_of_getLsbD_eq
  intro i hi
  rw [BitVec.getLsbD_and, BitVec.getLsbD_ofNat, Nat.testBit_mul_two_pow, Nat.testBit_two_pow_sub_one]
  by_cases h1 : m ≤ i
  · by_cases h2 : i - m < e
    · have hlt : mag x < 2 ^ (m + e) := Nat.mod_lt _ (Nat.two_pow_pos _)
      have hd : mag x / 2 ^ m = 2 ^ e - 1 := by
        refine Nat.div_eq_of_lt_le ?_ ?_
        · exact h
        · have := Nat.two_pow_pos e
          rw [Nat.sub_add_cancel this, ← Nat.pow_add, Nat.add_comm e m]
          exact hlt
      have hb : (mag x).testBit i = true := by
        have := congrArg (fun n => n.testBit (i - m)) hd
        simp only [Nat.testBit_div_two_pow, Nat.testBit_two_pow_sub_one] at this
        rw [Nat.sub_add_cancel h1] at this
        rw [this]; simpa using h2
      unfold mag at hb
      rw [Nat.testBit_mod_two_pow] at hb
      simp only [Bool.and_eq_true] at hb
      have : x.getLsbD i = true := hb.2
      rw [this]; simp
    · simp [h2]
  · simp [h1]

theorem zero_mask {w : Nat} (m e : Nat) (hw : w = m + e + 1) (x : BitVec w) (h : mag x = 0) :
    x &&& BitVec.ofNat w ((2 ^ e - 1) * 2 ^ m) = 0#w := by
  subst hw
  apply BitVec.eq_of_getLsbD_eq
  intro i hi
  rw [BitVec.getLsbD_and, BitVec.getLsbD_ofNat, Nat.testBit_mul_two_pow, Nat.testBit_two_pow_sub_one]
  by_cases h2 : m ≤ i ∧ i - m < e
  · have hb : (mag x).testBit i = false := by rw [h]; simp
    unfold mag at hb
    rw [Nat.testBit_mod_two_pow] at hb
    have hi' : i < m + e + 1 - 1 := by omega
    simp only [hi', decide_true, Bool.true_and] at hb
    have : x.getLsbD i = false := hb
    rw [this]; simp
  · have : (decide (m ≤ i) && decide (i - m < e)) = false := by
      rw [Bool.and_eq_false_iff]
      rcases Decidable.not_and_iff_or_not.mp h2 with h | h
      · exact .inl (by simpa using h)
      · exact .inr (by simpa using h)
    rw [this]; simp

theorem nan_mask' {p : Prim} (hp : isFloat p = true) (x : BitVec p.width) (h : isNaN p x = true) :
    x &&& BitVec.ofNat _ (infBits p) = BitVec.ofNat _ (infBits p) := by
  unfold isNaN at h
  have h' := Nat.le_of_lt (of_decide_eq_true h)
  cases p <;> first | (exact absurd hp (by decide)) | skip
  · exact nan_mask 23 8 rfl x h'
  · exact nan_mask 52 11 rfl x h'

theorem zero_mask' {p : Prim} (hp : isFloat p = true) (x : BitVec p.width) (h : isZero p x = true) :
    x &&& BitVec.ofNat _ (infBits p) = 0#_ := by
  unfold isZero at h
  rw [beq_iff_eq] at h
  cases p <;> first | (exact absurd hp (by decide)) | skip
  · exact zero_mask 23 8 rfl x h
  · exact zero_mask 52 11 rfl x h

theorem numHash_box {l : Lang} (h : Hashes l.enumBits) {p : Prim} {x y : BitVec p.width} (he : boxEq l p x y = true) : numHash l h p x = numHash l h p y := by
  unfold boxEq at he
  unfold numHash floatHash
  by_cases hp : isFloat p = true
  · simp only [if_pos hp] at he ⊢
    by_cases hl : l.cs = true
    · simp only [if_pos hl] at he ⊢
      rw [Bool.or_eq_true, Bool.and_eq_true] at he
      rcases he with e | e
      · have hn := ieeeEq_nan e
        unfold ieeeEq at e
        simp only [Bool.and_eq_true, Bool.not_eq_true', Bool.or_eq_true, beq_iff_eq] at e
        rcases e.2 with f | f
        · rw [f]
        · rw [f.1, f.2, hn.1, hn.2]
          simp only [Bool.or_true, if_true]
          rw [zero_mask' hp x f.1, zero_mask' hp y f.2]
      · rw [e.1, e.2]
        simp only [Bool.true_or, if_true]
        rw [nan_mask' hp x e.1, nan_mask' hp y e.2]
    · simp only [if_neg hl, beq_iff_eq] at he ⊢
      rw [he]
  · simp only [if_neg hp, beq_iff_eq] at he ⊢
    rw [he]

theorem numHash_num {l : Lang} (h : Hashes l.enumBits) {p : Prim} {x y : BitVec p.width}
    (hz : l.cs = true ∨ ((!isFloat p || notNegZero p x) = true ∧ (!isFloat p || notNegZero p y) = true)) (he : numEq p x y = true) : numHash l h p x = numHash l h p y := by
  unfold numEq at he
  by_cases hp : isFloat p = true
  · simp only [if_pos hp] at he
    rcases hz with hl | hz
    · refine numHash_box h ?_
      unfold boxEq
      rw [if_pos hp, if_pos hl, he]; rfl
    · unfold ieeeEq at he
      simp only [Bool.and_eq_true, Bool.not_eq_true', Bool.or_eq_true, beq_iff_eq] at he
      rcases he.2 with f | f
      · rw [f]
      · simp only [hp, Bool.not_true, Bool.false_or] at hz
        unfold notNegZero at hz
        rw [f.1, f.2] at hz
        simp only [Bool.not_true, Bool.false_or, beq_iff_eq] at hz
        rw [hz.1, hz.2]
  · simp only [if_neg hp, beq_iff_eq] at he
    rw [he]

theorem bytes_hash {l : Lang} (h : Hashes l.enumBits) {x y : Ref × List Byte} (he : (if l.cs then refEq l x y else x.2 == y.2) = true) :
    oneHash l h .bytes x = oneHash l h .bytes y := by
  show (if l.cs then h.ref x.1 (if l = .csSpan then x.2.length else 0) else bytesHash l x.2) =
    (if l.cs then h.ref y.1 (if l = .csSpan then y.2.length else 0) else bytesHash l y.2)
  split at he
  · rename_i hl
    rw [if_pos hl, if_pos hl]
    unfold refEq at he
    split at he
    · rename_i hs
      rw [Bool.and_eq_true, beq_iff_eq, beq_iff_eq] at he
      rw [if_pos hs, if_pos hs, he.1, he.2]
    · rename_i hs
      rw [beq_iff_eq] at he
      rw [if_neg hs, if_neg hs, he]
  · rename_i hl
    rw [beq_iff_eq] at he
    rw [if_neg hl, if_neg hl, he]

theorem listHash_eq {α : Type} {l : Lang} {f : α → α → Bool} {g : α → BitVec 32} {P : α → Prop} (h : ∀ x y, P x → P y → f x y = true → g x = g y)
    {xs ys : List α} (hx : ∀ a ∈ xs, P a) (hy : ∀ a ∈ ys, P a) (he : listEq f xs ys = true) : listHash l g xs = listHash l g ys := by
  have k := listEq_sound h hx hy he
  unfold listHash
  rw [← List.foldl_map (f := g) (g := fun r x => 31#32 * r + x), k, List.foldl_map]

/-- In C#, or if neither object has a negative zero. -/
abbrev ZeroOk (l : Lang) (t : Ty) (arr : Bool) (x : t.OVal l.enumBits) : Prop :=
  l.cs = true ∨ t.singles notNegZero l.enumBits arr (t.content l.enumBits x) = true

end Obj

mutual
  theorem Ty.objHash_eq (l : Lang) (h : Hashes l.enumBits) (H : Heap l.enumBits) : (t : Ty) → (hne : t ≠ .bytes) → ∀ x y : t.OVal l.enumBits, t.In l H x → t.In l H y →
      ZeroOk l t true x → ZeroOk l t true y → t.objEq l x y = true → t.objHash l h x = t.objHash l h y
    | .sc (.prim p), _, (x : BitVec p.width), (y : BitVec p.width), _, _, _, _, he => numHash_box h he
    | .sc (.enum _), _, (x : Option (BitVec l.enumBits)), (y : Option (BitVec l.enumBits)), _, _, _, _, he => by
      have he' : (x == y) = true := he
      rw [beq_iff_eq] at he'
      subst he'; rfl
    | .str, _, (x : List Byte), (y : List Byte), _, _, _, _, he => by
      have he' : (x == y) = true := he
      rw [beq_iff_eq] at he'
      subst he'; rfl
    | .bytes, hne, _, _, _, _, _, _, _ => absurd rfl hne
    | .struct fs, _, (x : Nat × fs.OVal l.enumBits), (y : Nat × fs.OVal l.enumBits), hx, hy, zx, zy, he => by
      have ih := Fields.attrsHash_eq l h H fs x.2 y.2 17#32 hx.2 hy.2 zx zy
      have he' : (x.1 == y.1 || fs.attrsEq l x.2 y.2) = true := he
      rw [Bool.or_eq_true, beq_iff_eq] at he'
      rcases he' with e | e
      · rw [same_obj hx hy e]
      · exact ih e
  theorem Fields.attrsHash_eq (l : Lang) (h : Hashes l.enumBits) (H : Heap l.enumBits) : (fs : Fields) → ∀ (x y : fs.OVal l.enumBits) (res : BitVec 32), fs.In l H x → fs.In l H y →
      (l.cs = true ∨ fs.singles notNegZero l.enumBits (fs.content l.enumBits x) = true) → (l.cs = true ∨ fs.singles notNegZero l.enumBits (fs.content l.enumBits y) = true) →
      fs.attrsEq l x y = true → fs.attrsHash l h x res = fs.attrsHash l h y res
    | .nil, _, _, _, _, _, _, _, _ => rfl
    | .void _ r, x, y, res, hx, hy, zx, zy, he => Fields.attrsHash_eq l h H r x y res hx hy zx zy he
    | .const _ _ _ _ r, x, y, res, hx, hy, zx, zy, he => Fields.attrsHash_eq l h H r x y res hx hy zx zy he
    | .one t b big r, x, y, res, hx, hy, zx, zy, he => by
      have split : ∀ z : (Fields.one t b big r).OVal l.enumBits, (l.cs = true ∨ (Fields.one t b big r).singles notNegZero l.enumBits ((Fields.one t b big r).content l.enumBits z) = true) →
          ZeroOk l t false z.1 ∧ (l.cs = true ∨ r.singles notNegZero l.enumBits (r.content l.enumBits z.2) = true) := by
        intro z hz
        rcases hz with hz | hz
        · exact ⟨.inl hz, .inl hz⟩
        · have hz' : (t.singles notNegZero l.enumBits false (t.content l.enumBits z.1) && r.singles notNegZero l.enumBits (r.content l.enumBits z.2)) = true := hz
          rw [Bool.and_eq_true] at hz'
          exact ⟨.inr hz'.1, .inr hz'.2⟩
      obtain ⟨zx1, zx2⟩ := split x zx
      obtain ⟨zy1, zy2⟩ := split y zy
      have he' := (Fields.attrsEq_one l t b big r x y).symm.trans he
      rw [Bool.and_eq_true] at he'
      have ih := fun res => Fields.attrsHash_eq l h H r x.2 y.2 res hx.2 hy.2 zx2 zy2 he'.2
      have iht := fun hne => Ty.objHash_eq l h H t hne x.1 y.1 hx.1 hy.1
      refine (Fields.attrsHash_one l h t b big r x res).trans (Eq.trans ?_ (Fields.attrsHash_one l h t b big r y res).symm)
      have key : oneHash l h t x.1 = oneHash l h t y.1 := by
        obtain ⟨x1, x2⟩ := x
        obtain ⟨y1, y2⟩ := y
        cases t with
        | sc s =>
          cases s with
          | prim p =>
            refine numHash_num (l := l) h (p := p) ?_ he'.1
            rcases zx1 with e | zx1
            · exact .inl e
            · rcases zy1 with e | zy1
              · exact .inl e
              · exact .inr ⟨zx1, zy1⟩
          | enum _ => exact iht (by simp) zx1 zy1 he'.1
        | str => exact iht (by simp) zx1 zy1 he'.1
        | bytes => exact bytes_hash h he'.1
        | struct _ => exact iht (by simp) zx1 zy1 he'.1
      rw [key]
      exact ih _
    | .arr t n b big r, x, y, res, hx, hy, zx, zy, he => by
      have split : ∀ z : (Fields.arr t n b big r).OVal l.enumBits, (l.cs = true ∨ (Fields.arr t n b big r).singles notNegZero l.enumBits ((Fields.arr t n b big r).content l.enumBits z) = true) →
          (∀ a ∈ z.1, ZeroOk l t true a) ∧ (l.cs = true ∨ r.singles notNegZero l.enumBits (r.content l.enumBits z.2) = true) := by
        intro z hz
        rcases hz with hz | hz
        · exact ⟨fun _ _ => .inl hz, .inl hz⟩
        · have hz' : ((z.1.map (fun a => t.content l.enumBits a)).all (fun a => t.singles notNegZero l.enumBits true a) && r.singles notNegZero l.enumBits (r.content l.enumBits z.2)) = true := hz
          rw [Bool.and_eq_true, List.all_map, List.all_eq_true] at hz'
          exact ⟨fun a ha => .inr (hz'.1 a ha), .inr hz'.2⟩
      obtain ⟨zx1, zx2⟩ := split x zx
      obtain ⟨zy1, zy2⟩ := split y zy
      have he' := (Fields.attrsEq_arr l t n b big r x y).symm.trans he
      rw [Bool.and_eq_true] at he'
      have ih := fun res => Fields.attrsHash_eq l h H r x.2 y.2 res hx.2 hy.2 zx2 zy2 he'.2
      have iht := fun hne a b => Ty.objHash_eq l h H t hne a b
      refine (Fields.attrsHash_arr l h t n b big r x res).trans (Eq.trans ?_ (Fields.attrsHash_arr l h t n b big r y res).symm)
      have key : listHash l (fun a => oneHash l h t a) x.1 = listHash l (fun a => oneHash l h t a) y.1 := by
        refine listHash_eq (P := fun a => t.In l H a ∧ ZeroOk l t true a) (fun a b ha hb hab => ?_)
          (fun a ha => ⟨hx.1 a ha, zx1 a ha⟩) (fun a ha => ⟨hy.1 a ha, zy1 a ha⟩) he'.1
        cases t with
        | sc s => exact iht (by simp) a b ha.1 hb.1 ha.2 hb.2 hab
        | str => exact iht (by simp) a b ha.1 hb.1 ha.2 hb.2 hab
        | bytes => exact bytes_hash h hab
        | struct _ => exact iht (by simp) a b ha.1 hb.1 ha.2 hb.2 hab
      rw [key]
      exact ih _
end

end Bubbler
