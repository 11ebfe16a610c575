import Verif.Obj.HashProofs
import Verif.Codec.MgSound

/- The contents of objects as the values the models of `encode` and `decode` work on (MgTgt.lean, KtMsg.lean), for C68. -/
set_option linter.unusedVariables false
namespace Bubbler
open Obj

mutual
  /-- The content of a Java or C# object as `encode` sees it. -/
  def Ty.toMg (c : MgCfg) : (t : Ty) → t.CVal 32 → t.TVal (mgTgt c)
    | .sc (.prim p), (x : BitVec p.width) => (x : BitVec p.width)
    | .sc (.enum _), (x : Option (BitVec 32)) => (x : Option (BitVec 32))
    | .str, (x : List Byte) => (x : List Byte)
    | .bytes, (x : List Byte) => (x : List Byte)
    | .struct fs, x => fs.toMg c x
  def Fields.toMg (c : MgCfg) : (fs : Fields) → fs.CVal 32 → fs.TVal (mgTgt c)
    | .nil, _ => ()
    | .void _ r, x => r.toMg c x
    | .const _ _ _ _ r, x => r.toMg c x
    | .one t _ _ r, (x : t.CVal 32 × r.CVal 32) => (t.toMg c x.1, r.toMg c x.2)
    | .arr t _ _ _ r, (x : List (t.CVal 32) × r.CVal 32) => (x.1.map (fun a => t.toMg c a), r.toMg c x.2)
end

mutual
  /-- The content of a Kotlin object as `encode` sees it. -/
  def Ty.asKt : (t : Ty) → t.CVal 64 → t.KtVal
    | .sc (.prim p), (x : BitVec p.width) => (x : BitVec p.width)
    | .sc (.enum _), (x : Option (BitVec 64)) => (x : Option (BitVec 64))
    | .str, (x : List Byte) => (x : List Byte)
    | .bytes, (x : List Byte) => (x : List Byte)
    | .struct fs, x => fs.asKt x
  def Fields.asKt : (fs : Fields) → fs.CVal 64 → fs.KtVal
    | .nil, _ => ()
    | .void _ r, x => r.asKt x
    | .const _ _ _ _ r, x => r.asKt x
    | .one t _ _ r, (x : t.CVal 64 × r.CVal 64) => (t.asKt x.1, r.asKt x.2)
    | .arr t _ _ _ r, (x : List (t.CVal 64) × r.CVal 64) => (x.1.map (fun a => t.asKt a), r.asKt x.2)
end

theorem Obj.map_inj {α β : Type} {f : α → β} (h : ∀ x y, f x = f y → x = y) : ∀ {xs ys : List α}, xs.map f = ys.map f → xs = ys
  | [], [], _ => rfl
  | [], _ :: _, e => by simp at e
  | _ :: _, [], e => by simp at e
  | x :: xs, y :: ys, e => by
    simp only [List.map_cons, List.cons.injEq] at e
    rw [h x y e.1, map_inj h e.2]

mutual
  theorem Ty.toMg_inj (c : MgCfg) : (t : Ty) → ∀ x y : t.CVal 32, t.toMg c x = t.toMg c y → x = y
    | .sc (.prim _), _, _, h => h
    | .sc (.enum _), _, _, h => h
    | .str, _, _, h => h
    | .bytes, _, _, h => h
    | .struct fs, x, y, h => Fields.toMg_inj c fs x y h
  theorem Fields.toMg_inj (c : MgCfg) : (fs : Fields) → ∀ x y : fs.CVal 32, fs.toMg c x = fs.toMg c y → x = y
    | .nil, _, _, _ => rfl
    | .void _ r, x, y, h => Fields.toMg_inj c r x y h
    | .const _ _ _ _ r, x, y, h => Fields.toMg_inj c r x y h
    | .one t _ _ r, (x : t.CVal 32 × r.CVal 32), (y : t.CVal 32 × r.CVal 32), h => by
      have ih := Fields.toMg_inj c r x.2 y.2
      have iht := Ty.toMg_inj c t x.1 y.1
      have h' := Prod.mk.inj (show (t.toMg c x.1, r.toMg c x.2) = (t.toMg c y.1, r.toMg c y.2) from h)
      exact Prod.ext (iht h'.1) (ih h'.2)
    | .arr t _ _ _ r, (x : List (t.CVal 32) × r.CVal 32), (y : List (t.CVal 32) × r.CVal 32), h => by
      have ih := Fields.toMg_inj c r x.2 y.2
      have iht := fun a b => Ty.toMg_inj c t a b
      have h' := Prod.mk.inj (show (x.1.map (fun a => t.toMg c a), r.toMg c x.2) = (y.1.map (fun a => t.toMg c a), r.toMg c y.2) from h)
      exact Prod.ext (map_inj iht h'.1) (ih h'.2)
end

mutual
  theorem Ty.asKt_inj : (t : Ty) → ∀ x y : t.CVal 64, t.asKt x = t.asKt y → x = y
    | .sc (.prim _), _, _, h => h
    | .sc (.enum _), _, _, h => h
    | .str, _, _, h => h
    | .bytes, _, _, h => h
    | .struct fs, x, y, h => Fields.asKt_inj fs x y h
  theorem Fields.asKt_inj : (fs : Fields) → ∀ x y : fs.CVal 64, fs.asKt x = fs.asKt y → x = y
    | .nil, _, _, _ => rfl
    | .void _ r, x, y, h => Fields.asKt_inj r x y h
    | .const _ _ _ _ r, x, y, h => Fields.asKt_inj r x y h
    | .one t _ _ r, (x : t.CVal 64 × r.CVal 64), (y : t.CVal 64 × r.CVal 64), h => by
      have ih := Fields.asKt_inj r x.2 y.2
      have iht := Ty.asKt_inj t x.1 y.1
      have h' := Prod.mk.inj (show (t.asKt x.1, r.asKt x.2) = (t.asKt y.1, r.asKt y.2) from h)
      exact Prod.ext (iht h'.1) (ih h'.2)
    | .arr t _ _ _ r, (x : List (t.CVal 64) × r.CVal 64), (y : List (t.CVal 64) × r.CVal 64), h => by
      have ih := Fields.asKt_inj r x.2 y.2
      have iht := fun a b => Ty.asKt_inj t a b
      have h' := Prod.mk.inj (show (x.1.map (fun a => t.asKt a), r.asKt x.2) = (y.1.map (fun a => t.asKt a), r.asKt y.2) from h)
      exact Prod.ext (map_inj iht h'.1) (ih h'.2)
end

/-! ### Without floats everything is seen -/

theorem Obj.seen_int (l : Lang) (arr : Bool) {p : Prim} (hp : (!isFloat p) = true) (x : BitVec p.width) : seen l arr p x = x := by
  have hp' : ¬ isFloat p = true := by rw [Bool.not_eq_true] ; simpa using hp
  unfold seen dropPayload
  rw [if_neg hp', dropSign_int hp']
  split <;> (try split) <;> rfl

mutual
  theorem Ty.norm_noFloats (l : Lang) (w : Nat) (arr : Bool) : (t : Ty) → t.noFloats = true → ∀ x : t.CVal w, t.norm l w arr x = x
    | .sc (.prim _), h, x => seen_int l arr h x
    | .sc (.enum _), _, _ => rfl
    | .str, _, _ => rfl
    | .bytes, _, _ => rfl
    | .struct fs, h, x => Fields.norm_noFloats l w fs h x
  theorem Fields.norm_noFloats (l : Lang) (w : Nat) : (fs : Fields) → fs.noFloats = true → ∀ x : fs.CVal w, fs.norm l w x = x
    | .nil, _, _ => rfl
    | .void _ r, h, x => Fields.norm_noFloats l w r h x
    | .const _ _ _ _ r, h, x => Fields.norm_noFloats l w r h x
    | .one t _ _ r, h, (x : t.CVal w × r.CVal w) => by
      have h' : (t.noFloats && r.noFloats) = true := h
      rw [Bool.and_eq_true] at h'
      have ih := Fields.norm_noFloats l w r h'.2 x.2
      have iht := Ty.norm_noFloats l w false t h'.1 x.1
      exact Prod.ext iht ih
    | .arr t _ _ _ r, h, (x : List (t.CVal w) × r.CVal w) => by
      have h' : (t.noFloats && r.noFloats) = true := h
      rw [Bool.and_eq_true] at h'
      have ih := Fields.norm_noFloats l w r h'.2 x.2
      have iht := fun a => Ty.norm_noFloats l w true t h'.1 a
      refine Prod.ext ?_ ih
      show x.1.map (fun a => t.norm l w true a) = x.1
      simp only [iht, List.map_id']
end

mutual
  theorem Ty.singles_noFloats (P : (p : Prim) → BitVec p.width → Bool) (w : Nat) (arr : Bool) : (t : Ty) → t.noFloats = true → ∀ x : t.CVal w, t.singles P w arr x = true
    | .sc (.prim p), h, (x : BitVec p.width) => by
      have h' : (!isFloat p) = true := h
      show (arr || !isFloat p || P p x) = true
      rw [h']; simp
    | .sc (.enum _), _, _ => rfl
    | .str, _, _ => rfl
    | .bytes, _, _ => rfl
    | .struct fs, h, x => Fields.singles_noFloats P w fs h x
  theorem Fields.singles_noFloats (P : (p : Prim) → BitVec p.width → Bool) (w : Nat) : (fs : Fields) → fs.noFloats = true → ∀ x : fs.CVal w, fs.singles P w x = true
    | .nil, _, _ => rfl
    | .void _ r, h, x => Fields.singles_noFloats P w r h x
    | .const _ _ _ _ r, h, x => Fields.singles_noFloats P w r h x
    | .one t _ _ r, h, (x : t.CVal w × r.CVal w) => by
      have h' : (t.noFloats && r.noFloats) = true := h
      rw [Bool.and_eq_true] at h'
      have ih := Fields.singles_noFloats P w r h'.2 x.2
      have iht := Ty.singles_noFloats P w false t h'.1 x.1
      show (t.singles P w false x.1 && r.singles P w x.2) = true
      rw [ih, iht]; rfl
    | .arr t _ _ _ r, h, (x : List (t.CVal w) × r.CVal w) => by
      have h' : (t.noFloats && r.noFloats) = true := h
      rw [Bool.and_eq_true] at h'
      have ih := Fields.singles_noFloats P w r h'.2 x.2
      have iht := fun a => Ty.singles_noFloats P w true t h'.1 a
      show (x.1.all (fun a => t.singles P w true a) && r.singles P w x.2) = true
      rw [ih, List.all_eq_true.mpr (fun a _ => iht a)]; rfl
end

end Bubbler
