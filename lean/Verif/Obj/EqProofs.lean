import Verif.Obj.EqSpec

/- Proofs for C68. -/
set_option linter.unusedSimpArgs false
set_option linter.unusedVariables false
namespace Bubbler
open Obj

namespace Obj

/-- How a single attribute is compared, in one function. -/
def oneEq (l : Lang) : (t : Ty) → t.OVal l.enumBits → t.OVal l.enumBits → Bool
  | .sc (.prim p), (x : BitVec p.width), (y : BitVec p.width) => numEq p x y
  | .bytes, (x : Ref × List Byte), (y : Ref × List Byte) => if l.cs then refEq l x y else x.2 == y.2
  | t, x, y => t.objEq l x y

/-- How an element of an array is compared. -/
def elemEq (l : Lang) : (t : Ty) → t.OVal l.enumBits → t.OVal l.enumBits → Bool
  | .bytes, (x : Ref × List Byte), (y : Ref × List Byte) => if l.cs then refEq l x y else x.2 == y.2
  | t, x, y => t.objEq l x y

end Obj

theorem Fields.attrsEq_one (l : Lang) (t : Ty) (b : Option Nat) (big : Bool) (r : Fields)
    (x y : (Fields.one t b big r).OVal l.enumBits) :
    (Fields.one t b big r).attrsEq l x y = (oneEq l t x.1 y.1 && r.attrsEq l x.2 y.2) := by
  cases l <;> cases t <;> first | rfl | (rename_i s; cases s <;> rfl)

theorem Fields.attrsEq_arr (l : Lang) (t : Ty) (n : Nat) (b : Option Nat) (big : Bool) (r : Fields)
    (x y : (Fields.arr t n b big r).OVal l.enumBits) :
    (Fields.arr t n b big r).attrsEq l x y = (listEq (fun a b => elemEq l t a b) x.1 y.1 && r.attrsEq l x.2 y.2) := by
  cases l <;> cases t <;> first | rfl | (rename_i s; cases s <;> rfl)

namespace Obj

/-! ### Numbers -/

theorem ieeeEq_symm (p : Prim) (x y : BitVec p.width) : ieeeEq p x y = ieeeEq p y x := by
  unfold ieeeEq
  rw [show (x == y) = (y == x) from Bool.beq_comm]
  cases isNaN p x <;> cases isNaN p y <;> cases isZero p x <;> cases isZero p y <;> simp

theorem numEq_symm (p : Prim) (x y : BitVec p.width) : numEq p x y = numEq p y x := by
  unfold numEq
  rw [ieeeEq_symm, show (x == y) = (y == x) from Bool.beq_comm]

theorem boxEq_symm (l : Lang) (p : Prim) (x y : BitVec p.width) : boxEq l p x y = boxEq l p y x := by
  unfold boxEq
  rw [ieeeEq_symm, Bool.and_comm, show (x == y) = (y == x) from Bool.beq_comm,
    show (canonBits p x == canonBits p y) = (canonBits p y == canonBits p x) from Bool.beq_comm]

theorem refEq_symm (l : Lang) (x y : Ref × List Byte) : refEq l x y = refEq l y x := by
  unfold refEq
  rw [show (x.1 == y.1) = (y.1 == x.1) from Bool.beq_comm, show (x.2.length == y.2.length) = (y.2.length == x.2.length) from Bool.beq_comm]

theorem listEq_symm {α : Type} {f : α → α → Bool} (h : ∀ x y, f x y = f y x) : ∀ xs ys : List α, listEq f xs ys = listEq f ys xs
  | [], [] => rfl
  | [], _ :: _ => rfl
  | _ :: _, [] => rfl
  | x :: xs, y :: ys => by
    show (f x y && listEq f xs ys) = (f y x && listEq f ys xs)
    rw [h, listEq_symm h]

theorem listEq_iff {α β : Type} {f : α → α → Bool} {g : α → β} : ∀ {xs ys : List α} (_ : ∀ x ∈ xs, ∀ y ∈ ys, f x y = true ↔ g x = g y),
    (listEq f xs ys = true ↔ xs.map g = ys.map g)
  | [], [], _ => by simp [listEq]
  | [], _ :: _, _ => by simp [listEq]
  | _ :: _, [], _ => by simp [listEq]
  | x :: xs, y :: ys, h => by
    show (f x y && listEq f xs ys) = true ↔ _
    rw [Bool.and_eq_true, h x (by simp) y (by simp), listEq_iff (fun a ha b hb => h a (by simp [ha]) b (by simp [hb]))]
    simp

theorem listEq_trans {α : Type} {f : α → α → Bool} {P : α → Prop} (h : ∀ x y z, P x → P y → P z → f x y = true → f y z = true → f x z = true) :
    ∀ {xs ys zs : List α}, (∀ a ∈ xs, P a) → (∀ a ∈ ys, P a) → (∀ a ∈ zs, P a) → listEq f xs ys = true → listEq f ys zs = true → listEq f xs zs = true
  | [], [], [], _, _, _, _, _ => rfl
  | x :: xs, y :: ys, z :: zs, hx, hy, hz, h1, h2 => by
    have h1' : (f x y && listEq f xs ys) = true := h1
    have h2' : (f y z && listEq f ys zs) = true := h2
    show (f x z && listEq f xs zs) = true
    rw [Bool.and_eq_true] at *
    exact ⟨h x y z (hx _ (by simp)) (hy _ (by simp)) (hz _ (by simp)) h1'.1 h2'.1,
      listEq_trans h (fun a ha => hx a (by simp [ha])) (fun a ha => hy a (by simp [ha])) (fun a ha => hz a (by simp [ha])) h1'.2 h2'.2⟩
  | [], _ :: _, _, _, _, _, h, _ => by simp [listEq] at h
  | _ :: _, [], _, _, _, _, h, _ => by simp [listEq] at h
  | _, [], _ :: _, _, _, _, _, h => by simp [listEq] at h
  | _, _ :: _, [], _, _, _, _, h => by simp [listEq] at h

end Obj

/-! ### Symmetry -/

theorem Obj.bytesEq_symm (l : Lang) (x y : Ref × List Byte) :
    (if l.cs then refEq l x y else x.2 == y.2) = (if l.cs then refEq l y x else y.2 == x.2) := by
  rw [refEq_symm, show (x.2 == y.2) = (y.2 == x.2) from Bool.beq_comm]

theorem Obj.oneEq_symm (l : Lang) (t : Ty) (h : ∀ a b : t.OVal l.enumBits, t.objEq l a b = t.objEq l b a) (x y : t.OVal l.enumBits) :
    oneEq l t x y = oneEq l t y x := by
  cases t with
  | sc s =>
    cases s with
    | prim p => exact numEq_symm p x y
    | enum _ => exact h x y
  | str => exact h x y
  | bytes => exact bytesEq_symm l x y
  | struct _ => exact h x y

theorem Obj.elemEq_symm (l : Lang) (t : Ty) (h : ∀ a b : t.OVal l.enumBits, t.objEq l a b = t.objEq l b a) (x y : t.OVal l.enumBits) :
    elemEq l t x y = elemEq l t y x := by
  cases t with
  | sc s => exact h x y
  | str => exact h x y
  | bytes => exact bytesEq_symm l x y
  | struct _ => exact h x y

mutual
  theorem Ty.objEq_symm (l : Lang) : (t : Ty) → ∀ x y : t.OVal l.enumBits, t.objEq l x y = t.objEq l y x
    | .sc (.prim p), (x : BitVec p.width), (y : BitVec p.width) => boxEq_symm l p x y
    | .sc (.enum _), (x : Option (BitVec l.enumBits)), (y : Option (BitVec l.enumBits)) => by
      show (x == y) = (y == x)
      exact Bool.beq_comm
    | .str, (x : List Byte), (y : List Byte) => by
      show (x == y) = (y == x)
      exact Bool.beq_comm
    | .bytes, (x : Ref × List Byte), (y : Ref × List Byte) => refEq_symm l x y
    | .struct fs, (x : Nat × fs.OVal l.enumBits), (y : Nat × fs.OVal l.enumBits) => by
      have ih := Fields.attrsEq_symm l fs x.2 y.2
      show (x.1 == y.1 || fs.attrsEq l x.2 y.2) = (y.1 == x.1 || fs.attrsEq l y.2 x.2)
      rw [ih, show (x.1 == y.1) = (y.1 == x.1) from Bool.beq_comm]
  theorem Fields.attrsEq_symm (l : Lang) : (fs : Fields) → ∀ x y : fs.OVal l.enumBits, fs.attrsEq l x y = fs.attrsEq l y x
    | .nil, _, _ => rfl
    | .void _ r, x, y => Fields.attrsEq_symm l r x y
    | .const _ _ _ _ r, x, y => Fields.attrsEq_symm l r x y
    | .one t b big r, x, y => by
      have ih := Fields.attrsEq_symm l r x.2 y.2
      have iht := fun a b => Ty.objEq_symm l t a b
      refine (Fields.attrsEq_one l t b big r x y).trans (Eq.trans ?_ (Fields.attrsEq_one l t b big r y x).symm)
      rw [ih, oneEq_symm l t iht]
    | .arr t n b big r, x, y => by
      have ih := Fields.attrsEq_symm l r x.2 y.2
      have iht := fun a b => Ty.objEq_symm l t a b
      refine (Fields.attrsEq_arr l t n b big r x y).trans (Eq.trans ?_ (Fields.attrsEq_arr l t n b big r y x).symm)
      rw [ih, listEq_symm (elemEq_symm l t iht)]
end

/-! ### Transitivity -/

namespace Obj

theorem ieeeEq_trans {p : Prim} {x y z : BitVec p.width} (h1 : ieeeEq p x y = true) (h2 : ieeeEq p y z = true) : ieeeEq p x z = true := by
  unfold ieeeEq at *
  simp only [Bool.and_eq_true, Bool.not_eq_true', Bool.or_eq_true, beq_iff_eq] at *
  refine ⟨⟨h1.1.1, h2.1.2⟩, ?_⟩
  rcases h1.2 with e | e <;> rcases h2.2 with f | f
  · exact .inl (e.trans f)
  · subst e; exact .inr f
  · subst f; exact .inr e
  · exact .inr ⟨e.1, f.2⟩

theorem numEq_trans {p : Prim} {x y z : BitVec p.width} (h1 : numEq p x y = true) (h2 : numEq p y z = true) : numEq p x z = true := by
  unfold numEq at *
  split at h1
  · rename_i h; rw [if_pos h] at *; exact ieeeEq_trans h1 h2
  · rename_i h; rw [if_neg h] at *
    rw [beq_iff_eq] at *; exact h1.trans h2

theorem ieeeEq_nan {p : Prim} {x y : BitVec p.width} (h : ieeeEq p x y = true) : isNaN p x = false ∧ isNaN p y = false := by
  unfold ieeeEq at h
  simp only [Bool.and_eq_true, Bool.not_eq_true'] at h
  exact h.1

theorem boxEq_trans {l : Lang} {p : Prim} {x y z : BitVec p.width} (h1 : boxEq l p x y = true) (h2 : boxEq l p y z = true) : boxEq l p x z = true := by
  unfold boxEq at *
  split at h1
  · rename_i h; rw [if_pos h] at *
    split at h1
    · rename_i h'; rw [if_pos h'] at *
      simp only [Bool.or_eq_true, Bool.and_eq_true] at *
      rcases h1 with e | e <;> rcases h2 with f | f
      · exact .inl (ieeeEq_trans e f)
      · have := (ieeeEq_nan e).2; rw [f.1] at this; cases this
      · have := (ieeeEq_nan f).1; rw [e.2] at this; cases this
      · exact .inr ⟨e.1, f.2⟩
    · rename_i h'; rw [if_neg h'] at *
      rw [beq_iff_eq] at *; exact h1.trans h2
  · rename_i h; rw [if_neg h] at *
    rw [beq_iff_eq] at *; exact h1.trans h2

theorem refEq_trans {l : Lang} {x y z : Ref × List Byte} (h1 : refEq l x y = true) (h2 : refEq l y z = true) : refEq l x z = true := by
  unfold refEq at *
  split at h1
  · rename_i h; rw [if_pos h] at *
    rw [Bool.and_eq_true, beq_iff_eq, beq_iff_eq] at *
    exact ⟨h1.1.trans h2.1, h1.2.trans h2.2⟩
  · rename_i h; rw [if_neg h] at *
    rw [beq_iff_eq] at *; exact h1.trans h2

theorem bytesEq_trans {l : Lang} {x y z : Ref × List Byte} (h1 : (if l.cs then refEq l x y else x.2 == y.2) = true)
    (h2 : (if l.cs then refEq l y z else y.2 == z.2) = true) : (if l.cs then refEq l x z else x.2 == z.2) = true := by
  split at h1
  · rename_i h; rw [if_pos h] at *; exact refEq_trans h1 h2
  · rename_i h; rw [if_neg h] at *
    rw [beq_iff_eq] at *; exact h1.trans h2

/-- Transitivity on the values of a heap. -/
abbrev TransOn (l : Lang) (H : Heap l.enumBits) (t : Ty) (f : t.OVal l.enumBits → t.OVal l.enumBits → Bool) : Prop :=
  ∀ x y z, t.In l H x → t.In l H y → t.In l H z → f x y = true → f y z = true → f x z = true

theorem oneEq_trans {l : Lang} {H : Heap l.enumBits} {t : Ty} (h : TransOn l H t (t.objEq l)) : TransOn l H t (oneEq l t) := by
  intro x y z hx hy hz h1 h2
  cases t with
  | sc s =>
    cases s with
    | prim p => exact numEq_trans (p := p) h1 h2
    | enum _ => exact h x y z hx hy hz h1 h2
  | str => exact h x y z hx hy hz h1 h2
  | bytes => exact bytesEq_trans (l := l) h1 h2
  | struct _ => exact h x y z hx hy hz h1 h2

theorem elemEq_trans {l : Lang} {H : Heap l.enumBits} {t : Ty} (h : TransOn l H t (t.objEq l)) : TransOn l H t (elemEq l t) := by
  intro x y z hx hy hz h1 h2
  cases t with
  | sc s => exact h x y z hx hy hz h1 h2
  | str => exact h x y z hx hy hz h1 h2
  | bytes => exact bytesEq_trans (l := l) h1 h2
  | struct _ => exact h x y z hx hy hz h1 h2

/-- The same identity: the same object. -/
theorem same_obj {l : Lang} {w : Nat} {H : Heap w} {fs : Fields} {x y : Nat × fs.OVal w} (hx : (Ty.struct fs).In l H x) (hy : (Ty.struct fs).In l H y)
    (h : x.1 = y.1) : x = y := by
  obtain ⟨a, x⟩ := x
  obtain ⟨b, y⟩ := y
  cases h
  have h1 : x = H.obj fs a := hx.1
  have h2 : y = H.obj fs a := hy.1
  rw [h1, h2]

end Obj

mutual
  theorem Ty.objEq_trans (l : Lang) (H : Heap l.enumBits) : (t : Ty) → TransOn l H t (t.objEq l)
    | .sc (.prim p), (x : BitVec p.width), (y : BitVec p.width), (z : BitVec p.width), _, _, _, h1, h2 => boxEq_trans (p := p) h1 h2
    | .sc (.enum _), (x : Option (BitVec l.enumBits)), (y : Option (BitVec l.enumBits)), (z : Option (BitVec l.enumBits)), _, _, _, h1, h2 => by
      have h1' : (x == y) = true := h1
      have h2' : (y == z) = true := h2
      show (x == z) = true
      rw [beq_iff_eq] at *; exact h1'.trans h2'
    | .str, (x : List Byte), (y : List Byte), (z : List Byte), _, _, _, h1, h2 => by
      have h1' : (x == y) = true := h1
      have h2' : (y == z) = true := h2
      show (x == z) = true
      rw [beq_iff_eq] at *; exact h1'.trans h2'
    | .bytes, (x : Ref × List Byte), (y : Ref × List Byte), (z : Ref × List Byte), _, _, _, h1, h2 => refEq_trans (l := l) h1 h2
    | .struct fs, (x : Nat × fs.OVal l.enumBits), (y : Nat × fs.OVal l.enumBits), (z : Nat × fs.OVal l.enumBits), hx, hy, hz, h1, h2 => by
      have ih := Fields.attrsEq_trans l H fs x.2 y.2 z.2 hx.2 hy.2 hz.2
      have h1' : (x.1 == y.1 || fs.attrsEq l x.2 y.2) = true := h1
      have h2' : (y.1 == z.1 || fs.attrsEq l y.2 z.2) = true := h2
      show (x.1 == z.1 || fs.attrsEq l x.2 z.2) = true
      rw [Bool.or_eq_true, beq_iff_eq] at *
      rcases h1' with e | e
      · cases same_obj hx hy e; exact h2'
      · rcases h2' with f | f
        · cases same_obj hy hz f; exact .inr e
        · exact .inr (ih e f)
  theorem Fields.attrsEq_trans (l : Lang) (H : Heap l.enumBits) : (fs : Fields) → ∀ x y z : fs.OVal l.enumBits, fs.In l H x → fs.In l H y → fs.In l H z →
      fs.attrsEq l x y = true → fs.attrsEq l y z = true → fs.attrsEq l x z = true
    | .nil, _, _, _, _, _, _, _, _ => rfl
    | .void _ r, x, y, z, hx, hy, hz, h1, h2 => Fields.attrsEq_trans l H r x y z hx hy hz h1 h2
    | .const _ _ _ _ r, x, y, z, hx, hy, hz, h1, h2 => Fields.attrsEq_trans l H r x y z hx hy hz h1 h2
    | .one t b big r, x, y, z, hx, hy, hz, h1, h2 => by
      have ih := Fields.attrsEq_trans l H r x.2 y.2 z.2 hx.2 hy.2 hz.2
      have iht := Ty.objEq_trans l H t
      have h1' := (Fields.attrsEq_one l t b big r x y).symm.trans h1
      have h2' := (Fields.attrsEq_one l t b big r y z).symm.trans h2
      rw [Bool.and_eq_true] at h1' h2'
      refine (Fields.attrsEq_one l t b big r x z).trans ?_
      rw [Bool.and_eq_true]
      exact ⟨oneEq_trans iht _ _ _ hx.1 hy.1 hz.1 h1'.1 h2'.1, ih h1'.2 h2'.2⟩
    | .arr t n b big r, x, y, z, hx, hy, hz, h1, h2 => by
      have ih := Fields.attrsEq_trans l H r x.2 y.2 z.2 hx.2 hy.2 hz.2
      have iht := Ty.objEq_trans l H t
      have h1' := (Fields.attrsEq_arr l t n b big r x y).symm.trans h1
      have h2' := (Fields.attrsEq_arr l t n b big r y z).symm.trans h2
      rw [Bool.and_eq_true] at h1' h2'
      refine (Fields.attrsEq_arr l t n b big r x z).trans ?_
      rw [Bool.and_eq_true]
      exact ⟨listEq_trans (P := t.In l H) (elemEq_trans iht) hx.1 hy.1 hz.1 h1'.1 h2'.1, ih h1'.2 h2'.2⟩
end

/-! ### Contents -/

namespace Obj

theorem isZero_zero (p : Prim) : isZero p 0#_ = true := by
  unfold isZero mag
  simp

theorem zero_notNaN {p : Prim} {x : BitVec p.width} (h : isZero p x = true) : isNaN p x = false := by
  unfold isZero at h
  unfold isNaN
  rw [beq_iff_eq] at h
  rw [h]
  simp

theorem canon_nan {p : Prim} (hp : isFloat p = true) {x : BitVec p.width} : isNaN p (canonBits p x) = isNaN p x := by
  unfold canonBits
  split
  · rename_i h
    rw [h]
    cases p <;> first | (exact absurd hp (by decide)) | decide +kernel
  · rfl

theorem canon_of {p : Prim} {x : BitVec p.width} (h : isNaN p x = false) : canonBits p x = x := by
  unfold canonBits
  rw [h]; rfl

theorem ieeeEq_drop {p : Prim} {x y : BitVec p.width} (hp : isFloat p = true) (h : ieeeEq p x y = true) : dropSign p x = dropSign p y := by
  unfold ieeeEq at h
  simp only [Bool.and_eq_true, Bool.not_eq_true', Bool.or_eq_true, beq_iff_eq] at h
  rcases h.2 with e | e
  · rw [e]
  · unfold dropSign
    rw [if_pos ⟨hp, e.1⟩, if_pos ⟨hp, e.2⟩]

theorem drop_ieeeEq {p : Prim} {x y : BitVec p.width} (hp : isFloat p = true) (hx : isNaN p x = false) (h : dropSign p x = dropSign p y) : ieeeEq p x y = true := by
  unfold ieeeEq
  simp only [Bool.and_eq_true, Bool.not_eq_true', Bool.or_eq_true, beq_iff_eq]
  unfold dropSign at h
  by_cases zx : isZero p x = true <;> by_cases zy : isZero p y = true
  · exact ⟨⟨hx, zero_notNaN zy⟩, .inr ⟨zx, zy⟩⟩
  · rw [if_pos ⟨hp, zx⟩, if_neg (fun e => zy e.2)] at h
    rw [← h] at zy
    exact absurd (isZero_zero p) zy
  · rw [if_neg (fun e => zx e.2), if_pos ⟨hp, zy⟩] at h
    rw [h] at zx
    exact absurd (isZero_zero p) zx
  · rw [if_neg (fun e => zx e.2), if_neg (fun e => zy e.2)] at h
    subst h
    exact ⟨⟨hx, hx⟩, .inl rfl⟩

theorem dropSign_int {p : Prim} (hp : ¬ isFloat p = true) (x : BitVec p.width) : dropSign p x = x := by
  unfold dropSign
  rw [if_neg (fun e => hp e.1)]

theorem numEq_norm {l : Lang} {p : Prim} {x y : BitVec p.width} (h : numEq p x y = true) : seen l false p x = seen l false p y := by
  unfold numEq at h
  show dropSign p x = dropSign p y
  split at h
  · rename_i hp; exact ieeeEq_drop hp h
  · rw [beq_iff_eq] at h; rw [h]

theorem norm_numEq {l : Lang} {p : Prim} {x y : BitVec p.width} (hx : (!isFloat p || notNaN p x) = true) (h : seen l false p x = seen l false p y) : numEq p x y = true := by
  have h' : dropSign p x = dropSign p y := h
  unfold numEq
  split
  · rename_i hp
    rw [hp] at hx
    exact drop_ieeeEq hp (by simpa [notNaN] using hx) h'
  · rename_i hp
    rw [dropSign_int hp, dropSign_int hp] at h'
    rw [beq_iff_eq]; exact h'

theorem boxEq_norm {l : Lang} {p : Prim} {x y : BitVec p.width} : boxEq l p x y = true ↔ seen l true p x = seen l true p y := by
  unfold boxEq seen dropPayload
  by_cases hp : isFloat p = true
  · simp only [if_pos hp, if_true]
    by_cases hl : l.cs = true
    · simp only [if_pos hl]
      rw [Bool.or_eq_true, Bool.and_eq_true]
      have hn : ∀ z : BitVec p.width, isNaN p z = true → dropSign p (canonBits p z) = canonBits p z := by
        intro z hz
        unfold dropSign
        rw [if_neg]
        intro e
        have := zero_notNaN e.2
        rw [canon_nan hp, hz] at this
        cases this
      have hc : ∀ z z' : BitVec p.width, isNaN p z = true → isNaN p z' = true → canonBits p z = canonBits p z' := by
        intro z z' h h'
        unfold canonBits
        rw [if_pos h, if_pos h']
      constructor
      · rintro (h | h)
        · obtain ⟨a, b⟩ := ieeeEq_nan h
          rw [canon_of a, canon_of b]
          exact ieeeEq_drop hp h
        · rw [hc _ _ h.1 h.2]
      · intro h
        cases hx : isNaN p x with
        | false =>
          rw [← canon_nan hp] at hx
          have k := drop_ieeeEq hp hx h
          have k2 := ieeeEq_nan k
          rw [canon_nan hp, canon_nan hp] at k2
          rw [canon_of k2.1, canon_of k2.2] at k
          exact .inl k
        | true =>
          cases hy : isNaN p y with
          | true => exact .inr ⟨rfl, rfl⟩
          | false =>
            rw [← canon_nan hp] at hy
            have k := ieeeEq_nan (drop_ieeeEq hp hy h.symm)
            rw [canon_nan hp, canon_nan hp, hx] at k
            cases k.2
    · simp only [if_neg hl, beq_iff_eq]
  · simp only [if_neg hp, if_true, beq_iff_eq]
    split
    · rw [dropSign_int hp, dropSign_int hp]
    · rfl

theorem refEq_bytes {l : Lang} {w : Nat} {H : Heap w} {x y : Ref × List Byte} (hx : H.HasBytes l x) (hy : H.HasBytes l y) (h : refEq l x y = true) : x.2 = y.2 := by
  unfold refEq at h
  unfold Heap.HasBytes at hx hy
  split at h
  · rename_i hl
    rw [if_pos hl] at hx hy
    rw [Bool.and_eq_true, beq_iff_eq, beq_iff_eq] at h
    rw [h.1] at hx
    exact (List.prefix_of_prefix_length_le hx hy (Nat.le_of_eq h.2)).eq_of_length h.2
  · rename_i hl
    rw [if_neg hl] at hx hy
    rw [beq_iff_eq] at h
    rw [hx.2, hy.2, h]

theorem bytesEq_norm {l : Lang} {w : Nat} {H : Heap w} {x y : Ref × List Byte} (hx : H.HasBytes l x) (hy : H.HasBytes l y)
    (h : (if l.cs then refEq l x y else x.2 == y.2) = true) : x.2 = y.2 := by
  split at h
  · exact refEq_bytes hx hy h
  · exact beq_iff_eq.mp h

theorem bytesEq_complete {l : Lang} {x y : Ref × List Byte} (hl : l.cs = true → False) (h : x.2 = y.2) :
    (if l.cs then refEq l x y else x.2 == y.2) = true := by
  rw [if_neg (fun e => hl e), beq_iff_eq]; exact h

theorem norm_struct (l : Lang) (w : Nat) (t : Ty) (h : ∀ p, t ≠ .sc (.prim p)) (x : t.CVal w) : t.norm l w true x = t.norm l w false x := by
  cases t with
  | sc s => cases s with
    | prim p => exact absurd rfl (h p)
    | enum _ => rfl
  | str => rfl
  | bytes => rfl
  | struct _ => rfl

/-- What is compared as equal has the same visible content. -/
abbrev Sound (l : Lang) (H : Heap l.enumBits) (t : Ty) (arr : Bool) (f : t.OVal l.enumBits → t.OVal l.enumBits → Bool) : Prop :=
  ∀ x y, t.In l H x → t.In l H y → f x y = true → t.norm l l.enumBits arr (t.content l.enumBits x) = t.norm l l.enumBits arr (t.content l.enumBits y)

theorem oneEq_sound {l : Lang} {H : Heap l.enumBits} {t : Ty} (h : Sound l H t true (t.objEq l)) : Sound l H t false (oneEq l t) := by
  intro x y hx hy h1
  cases t with
  | sc s =>
    cases s with
    | prim p => exact numEq_norm (p := p) h1
    | enum _ => exact h x y hx hy h1
  | str => exact h x y hx hy h1
  | bytes => exact bytesEq_norm (l := l) hx hy h1
  | struct _ => exact h x y hx hy h1

theorem elemEq_sound {l : Lang} {H : Heap l.enumBits} {t : Ty} (h : Sound l H t true (t.objEq l)) : Sound l H t true (elemEq l t) := by
  intro x y hx hy h1
  cases t with
  | sc s => exact h x y hx hy h1
  | str => exact h x y hx hy h1
  | bytes => exact bytesEq_norm (l := l) hx hy h1
  | struct _ => exact h x y hx hy h1

theorem listEq_sound {α β : Type} {f : α → α → Bool} {g : α → β} {P : α → Prop} (h : ∀ x y, P x → P y → f x y = true → g x = g y) :
    ∀ {xs ys : List α}, (∀ a ∈ xs, P a) → (∀ a ∈ ys, P a) → listEq f xs ys = true → xs.map g = ys.map g
  | [], [], _, _, _ => rfl
  | x :: xs, y :: ys, hx, hy, h1 => by
    have h1' : (f x y && listEq f xs ys) = true := h1
    rw [Bool.and_eq_true] at h1'
    rw [List.map_cons, List.map_cons, h x y (hx _ (by simp)) (hy _ (by simp)) h1'.1,
      listEq_sound h (fun a ha => hx a (by simp [ha])) (fun a ha => hy a (by simp [ha])) h1'.2]
  | [], _ :: _, _, _, h => by simp [listEq] at h
  | _ :: _, [], _, _, h => by simp [listEq] at h

theorem listEq_complete {α β : Type} {f : α → α → Bool} {g : α → β} {P : α → Prop} (h : ∀ x y, P x → g x = g y → f x y = true) :
    ∀ {xs ys : List α}, (∀ a ∈ xs, P a) → xs.map g = ys.map g → listEq f xs ys = true
  | [], [], _, _ => rfl
  | x :: xs, y :: ys, hx, h1 => by
    simp only [List.map_cons, List.cons.injEq] at h1
    show (f x y && listEq f xs ys) = true
    rw [Bool.and_eq_true]
    exact ⟨h x y (hx _ (by simp)) h1.1, listEq_complete h (fun a ha => hx a (by simp [ha])) h1.2⟩
  | [], _ :: _, _, h => by simp at h
  | _ :: _, [], _, h => by simp at h

end Obj

mutual
  theorem Ty.objEq_sound (l : Lang) (H : Heap l.enumBits) : (t : Ty) → Sound l H t true (t.objEq l)
    | .sc (.prim p), (x : BitVec p.width), (y : BitVec p.width), _, _, h => boxEq_norm.mp h
    | .sc (.enum _), (x : Option (BitVec l.enumBits)), (y : Option (BitVec l.enumBits)), _, _, h => by
      have h' : (x == y) = true := h
      rw [beq_iff_eq] at h'
      subst h'; rfl
    | .str, (x : List Byte), (y : List Byte), _, _, h => by
      have h' : (x == y) = true := h
      rw [beq_iff_eq] at h'
      subst h'; rfl
    | .bytes, (x : Ref × List Byte), (y : Ref × List Byte), hx, hy, h => refEq_bytes (l := l) hx hy h
    | .struct fs, (x : Nat × fs.OVal l.enumBits), (y : Nat × fs.OVal l.enumBits), hx, hy, h => by
      have ih := Fields.attrsEq_sound l H fs x.2 y.2 hx.2 hy.2
      have h' : (x.1 == y.1 || fs.attrsEq l x.2 y.2) = true := h
      rw [Bool.or_eq_true, beq_iff_eq] at h'
      rcases h' with e | e
      · rw [same_obj hx hy e]
      · exact ih e
  theorem Fields.attrsEq_sound (l : Lang) (H : Heap l.enumBits) : (fs : Fields) → ∀ x y : fs.OVal l.enumBits, fs.In l H x → fs.In l H y →
      fs.attrsEq l x y = true → fs.norm l l.enumBits (fs.content l.enumBits x) = fs.norm l l.enumBits (fs.content l.enumBits y)
    | .nil, _, _, _, _, _ => rfl
    | .void _ r, x, y, hx, hy, h => Fields.attrsEq_sound l H r x y hx hy h
    | .const _ _ _ _ r, x, y, hx, hy, h => Fields.attrsEq_sound l H r x y hx hy h
    | .one t b big r, x, y, hx, hy, h => by
      have ih := Fields.attrsEq_sound l H r x.2 y.2 hx.2 hy.2
      have iht := Ty.objEq_sound l H t
      have h' := (Fields.attrsEq_one l t b big r x y).symm.trans h
      rw [Bool.and_eq_true] at h'
      exact Prod.ext (oneEq_sound iht _ _ hx.1 hy.1 h'.1) (ih h'.2)
    | .arr t n b big r, x, y, hx, hy, h => by
      have ih := Fields.attrsEq_sound l H r x.2 y.2 hx.2 hy.2
      have iht := Ty.objEq_sound l H t
      have h' := (Fields.attrsEq_arr l t n b big r x y).symm.trans h
      rw [Bool.and_eq_true] at h'
      have k := listEq_sound (g := fun a => t.norm l l.enumBits true (t.content l.enumBits a)) (elemEq_sound iht) hx.1 hy.1 h'.1
      refine Prod.ext ?_ (ih h'.2)
      show (x.1.map _).map _ = (y.1.map _).map _
      rw [List.map_map, List.map_map]
      exact k
end

mutual
  theorem Ty.objEq_complete (l : Lang) : (t : Ty) → (hb : l.cs = true → t.noBytes = true) → (hne : t ≠ .bytes) → ∀ x y : t.OVal l.enumBits,
      t.singles notNaN l.enumBits true (t.content l.enumBits x) = true →
      t.norm l l.enumBits true (t.content l.enumBits x) = t.norm l l.enumBits true (t.content l.enumBits y) → t.objEq l x y = true
    | .sc (.prim p), _, _, (x : BitVec p.width), (y : BitVec p.width), _, h => boxEq_norm.mpr h
    | .sc (.enum _), _, _, (x : Option (BitVec l.enumBits)), (y : Option (BitVec l.enumBits)), _, h => by
      show (x == y) = true
      rw [beq_iff_eq]; exact h
    | .str, _, _, (x : List Byte), (y : List Byte), _, h => by
      show (x == y) = true
      rw [beq_iff_eq]; exact h
    | .bytes, _, hne, _, _, _, _ => absurd rfl hne
    | .struct fs, hb, _, (x : Nat × fs.OVal l.enumBits), (y : Nat × fs.OVal l.enumBits), hx, h => by
      have ih := Fields.attrsEq_complete l fs hb x.2 y.2 hx h
      show (x.1 == y.1 || fs.attrsEq l x.2 y.2) = true
      rw [ih, Bool.or_true]
  theorem Fields.attrsEq_complete (l : Lang) : (fs : Fields) → (hb : l.cs = true → fs.noBytes = true) → ∀ x y : fs.OVal l.enumBits,
      fs.singles notNaN l.enumBits (fs.content l.enumBits x) = true →
      fs.norm l l.enumBits (fs.content l.enumBits x) = fs.norm l l.enumBits (fs.content l.enumBits y) → fs.attrsEq l x y = true
    | .nil, _, _, _, _, _ => rfl
    | .void _ r, hb, x, y, hx, h => Fields.attrsEq_complete l r hb x y hx h
    | .const _ _ _ _ r, hb, x, y, hx, h => Fields.attrsEq_complete l r hb x y hx h
    | .one t b big r, hb, x, y, hx, h => by
      have hb' : l.cs = true → (t.noBytes && r.noBytes) = true := hb
      have hx' : (t.singles notNaN l.enumBits false (t.content l.enumBits x.1) && r.singles notNaN l.enumBits (r.content l.enumBits x.2)) = true := hx
      have h' := Prod.mk.inj (show (t.norm l l.enumBits false (t.content l.enumBits x.1), r.norm l l.enumBits (r.content l.enumBits x.2)) =
        (t.norm l l.enumBits false (t.content l.enumBits y.1), r.norm l l.enumBits (r.content l.enumBits y.2)) from h)
      rw [Bool.and_eq_true] at hx'
      have ih := Fields.attrsEq_complete l r (fun e => (Bool.and_eq_true _ _ ▸ hb' e).2) x.2 y.2 hx'.2 h'.2
      have iht := fun hne => Ty.objEq_complete l t (fun e => (Bool.and_eq_true _ _ ▸ hb' e).1) hne x.1 y.1
      refine (Fields.attrsEq_one l t b big r x y).trans ?_
      rw [ih, Bool.and_true]
      obtain ⟨x1, x2⟩ := x
      obtain ⟨y1, y2⟩ := y
      cases t with
      | sc s =>
        cases s with
        | prim p => exact norm_numEq (l := l) (p := p) hx'.1 h'.1
        | enum _ => exact iht (by simp) hx'.1 h'.1
      | str => exact iht (by simp) hx'.1 h'.1
      | bytes => exact bytesEq_complete (l := l) (fun e => by have := hb' e; simp [Ty.noBytes] at this) h'.1
      | struct _ => exact iht (by simp) hx'.1 h'.1
    | .arr t n b big r, hb, x, y, hx, h => by
      have hb' : l.cs = true → (t.noBytes && r.noBytes) = true := hb
      have hx' : ((x.1.map (fun a => t.content l.enumBits a)).all (fun a => t.singles notNaN l.enumBits true a) && r.singles notNaN l.enumBits (r.content l.enumBits x.2)) = true := hx
      have h' := Prod.mk.inj (show ((x.1.map (fun a => t.content l.enumBits a)).map (fun a => t.norm l l.enumBits true a), r.norm l l.enumBits (r.content l.enumBits x.2)) =
        ((y.1.map (fun a => t.content l.enumBits a)).map (fun a => t.norm l l.enumBits true a), r.norm l l.enumBits (r.content l.enumBits y.2)) from h)
      rw [Bool.and_eq_true, List.all_map, List.all_eq_true] at hx'
      rw [List.map_map, List.map_map] at h'
      have ih := Fields.attrsEq_complete l r (fun e => (Bool.and_eq_true _ _ ▸ hb' e).2) x.2 y.2 hx'.2 h'.2
      have iht := fun hne a b => Ty.objEq_complete l t (fun e => (Bool.and_eq_true _ _ ▸ hb' e).1) hne a b
      refine (Fields.attrsEq_arr l t n b big r x y).trans ?_
      rw [ih, Bool.and_true]
      refine listEq_complete (P := fun a => t.singles notNaN l.enumBits true (t.content l.enumBits a) = true) (fun a b ha hab => ?_) hx'.1 h'.1
      cases t with
      | sc s => exact iht (by simp) a b ha hab
      | str => exact iht (by simp) a b ha hab
      | bytes => exact bytesEq_complete (l := l) (fun e => by have := hb' e; simp [Ty.noBytes] at this) hab
      | struct _ => exact iht (by simp) a b ha hab
end

end Bubbler
