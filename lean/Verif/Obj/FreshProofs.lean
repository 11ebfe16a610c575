import Verif.Obj.Fresh
import Verif.Codec.MgEnc
import Verif.Codec.JsEnc
import Verif.Codec.Legal
import Verif.Codec.Top

set_option linter.unusedSimpArgs false
namespace Bubbler

/-! ### Go -/

theorem Sc.zero_inRange (s : Sc) (n : Nat) : s.InRange n (0#(s.width)) := by
  unfold Sc.InRange
  split
  · have h : (0 : Int) < 2 ^ (n - 1) := Int.pow_pos (by decide)
    have e : (0#(s.width)).toInt = 0 := by simp
    rw [e]; omega
  · simp only [BitVec.toNat_ofNat, Nat.zero_mod]; exact Nat.pow_pos (by decide)

mutual
  theorem Ty.zero_legal : ∀ (t : Ty), t.Legal t.zero
    | .sc s => by intro _; show (0#(s.width)).toNat ≤ 1; simp
    | .str => trivial
    | .bytes => Nat.zero_le _
    | .struct fs => Fields.zero_legal fs
  theorem Fields.zero_legal : ∀ (fs : Fields), fs.Legal fs.zero
    | .nil => trivial
    | .void _ r => Fields.zero_legal r
    | .const _ _ _ _ r => Fields.zero_legal r
    | .one t _ _ r => ⟨Ty.zero_legal t, Fields.zero_legal r⟩
    | .arr t len _ _ r => by
      have h := Ty.zero_legal t
      refine ⟨List.length_replicate .., fun x hx => ?_, Fields.zero_legal r⟩
      have hx : x ∈ List.replicate len t.zero := hx
      rw [List.eq_of_mem_replicate hx]; exact h
end

mutual
  theorem Ty.zero_inRange : ∀ (t : Ty) (n : Nat), t.InRange n t.zero
    | .sc s, n => Sc.zero_inRange s n
    | .str, _ => by show 0#8 ∉ ([] : List Byte); simp
    | .bytes, _ => trivial
    | .struct fs, _ => Fields.zero_inRange fs
  theorem Fields.zero_inRange : ∀ (fs : Fields), fs.InRange fs.zero
    | .nil => trivial
    | .void _ r => Fields.zero_inRange r
    | .const _ _ _ _ r => Fields.zero_inRange r
    | .one t bits _ r => ⟨Ty.zero_inRange t _, Fields.zero_inRange r⟩
    | .arr t len bits _ r => by
      have h := Ty.zero_inRange t (bits.getD 0 / len)
      refine ⟨fun x hx => ?_, Fields.zero_inRange r⟩
      have hx : x ∈ List.replicate len t.zero := hx
      rw [List.eq_of_mem_replicate hx]; exact h
end

theorem Fields.wf_one {t : Ty} {b : Option Nat} {big : Bool} {r : Fields} {start : Nat} (h : (Fields.one t b big r).wf start = true) :
    t.wf = true ∧ r.wf (start + b.getD 0) = true := by
  simp only [Fields.wf, Bool.and_eq_true] at h; exact ⟨h.1.1, h.1.2⟩

theorem Fields.wf_arr {t : Ty} {len : Nat} {b : Option Nat} {big : Bool} {r : Fields} {start : Nat}
    (h : (Fields.arr t len b big r).wf start = true) : t.wf = true ∧ r.wf (start + b.getD 0) = true ∧ 0 < len := by
  simp only [Fields.wf, Bool.and_eq_true, decide_eq_true_eq] at h; exact ⟨h.1.1.1, h.1.1.2, h.1.2⟩

theorem Fields.wf_const {p : Prim} {n : Nat} {big : Bool} {val : Nat} {r : Fields} {start : Nat}
    (h : (Fields.const p n big val r).wf start = true) : r.wf (start + n) = true := by
  simp only [Fields.wf, Bool.and_eq_true] at h; exact h.2

theorem Ty.wf_struct {fs : Fields} (h : (Ty.struct fs).wf = true) : fs.wf 0 = true := by
  simp only [Ty.wf, Bool.and_eq_true] at h; exact h.1

/-! ### The generic targets -/

/-- Under a condition on types the initial values are legal and stand for zero values. -/
structure NewVals.Ok {T : Tgt} (N : NewVals T) (S : TgtSpec T) (p : Bool → Ty → Bool) : Prop where
  sc : ∀ arr ctx s, p arr (.sc s) = true → S.legalSc ctx s (N.sc s) ∧ S.ofSc ctx s (N.sc s) = 0#(s.width)
  str : S.legalStr N.str ∧ S.ofStr N.str = []
  bytes : 0 < S.maxBytes
  arr : ∀ t x n, t.tNew N = some x → p true t = true → 0 < n → N.arr t x n = some (List.replicate n x)

variable {T : Tgt} {S : TgtSpec T} {N : NewVals T} {p : Bool → Ty → Bool}

mutual
  theorem Ty.tNew_ok (O : N.Ok S p) (arr : Bool) : ∀ (t : Ty) (ctx : List Fields), t.wf = true → p arr t = true → t.attrs p = true →
      ∃ v, t.tNew N = some v ∧ ∀ ctx, t.TLegal S ctx v ∧ t.ofT S ctx v = t.zero
    | .sc s, _ => fun _ hp _ => ⟨N.sc s, rfl, fun ctx => O.sc arr ctx s hp⟩
    | .str, _ => fun _ _ _ => ⟨N.str, rfl, fun _ => O.str⟩
    | .bytes, _ => fun _ _ _ => ⟨([] : List Byte), rfl, fun _ => ⟨O.bytes, rfl⟩⟩
    | .struct fs, ctx => fun hw _ ha => Fields.tNew_ok O fs 0 (Ty.wf_struct hw) ha
  theorem Fields.tNew_ok (O : N.Ok S p) : ∀ (fs : Fields) (start : Nat), fs.wf start = true → fs.attrs p = true →
      ∃ v, fs.tNew N = some v ∧ ∀ ctx, fs.TLegal S ctx v ∧ fs.ofT S ctx v = fs.zero
    | .nil, _ => fun _ _ => ⟨(), rfl, fun _ => ⟨trivial, rfl⟩⟩
    | .void n r, start => fun hw ha => Fields.tNew_ok O r (start + n) hw ha
    | .const _ n _ _ r, start => fun hw ha => Fields.tNew_ok O r (start + n) (Fields.wf_const hw) ha
    | .one t b big r, start => fun hw ha => by
      simp only [Fields.attrs, Bool.and_eq_true] at ha
      obtain ⟨h1, h2⟩ := Fields.wf_one hw
      obtain ⟨x, e1, l1⟩ := Ty.tNew_ok O false t [] h1 ha.1.1 ha.1.2
      obtain ⟨y, e2, l2⟩ := Fields.tNew_ok O r _ h2 ha.2
      refine ⟨(x, y), ?_, fun ctx => ⟨⟨(l1 _).1, (l2 _).1⟩, ?_⟩⟩
      · simp only [Fields.tNew, e1, e2]
      · exact Prod.ext (l1 _).2 (l2 _).2
    | .arr t len b big r, start => fun hw ha => by
      simp only [Fields.attrs, Bool.and_eq_true] at ha
      obtain ⟨h1, h2, h3⟩ := Fields.wf_arr hw
      obtain ⟨x, e1, l1⟩ := Ty.tNew_ok O true t [] h1 ha.1.1 ha.1.2
      obtain ⟨y, e2, l2⟩ := Fields.tNew_ok O r _ h2 ha.2
      refine ⟨(List.replicate len x, y), ?_, fun ctx => ⟨⟨List.length_replicate .., fun z hz => ?_, (l2 _).1⟩, ?_⟩⟩
      · simp only [Fields.tNew, e1, e2, O.arr t x len e1 ha.1.1 h3]
      · have hz : z ∈ List.replicate len x := hz
        rw [List.eq_of_mem_replicate hz]; exact (l1 _).1
      · refine Prod.ext ?_ (l2 _).2
        show (List.replicate len x).map _ = List.replicate len t.zero
        rw [List.map_replicate, (l1 _).2]
end

theorem iterate_one {α : Type} {n : Nat} (h : 0 < n) (x : α) : (x :: (iterate 1 n).map fun _ => x) = List.replicate n x := by
  obtain ⟨m, rfl⟩ : ∃ m, n = m + 1 := ⟨n - 1, by omega⟩
  rw [List.replicate_succ]
  congr 1
  rw [List.eq_replicate_iff]
  refine ⟨by simp [iterate], fun b hb => ?_⟩
  obtain ⟨_, _, rfl⟩ := List.mem_map.mp hb
  rfl

/-- Enums only in C#, arrays of bytes only without `-memcpy`. -/
theorem mgNewVals_ok (c : MgCfg) (memcpy : Bool) :
    (mgNewVals c memcpy).Ok (mgSpec c) (fun arr t => (!c.java || !t.isEnum) && (!memcpy || !(arr && t.isBytes))) where
  sc := fun arr ctx s h => by
    cases s with
    | prim q =>
      refine ⟨?_, rfl⟩
      cases q <;> first | exact trivial | (show (0#8).toNat ≤ 1; decide)
    | enum b =>
      simp only [Ty.isEnum, Bool.not_true, Bool.or_false, Bool.and_eq_true] at h
      have hj : c.java = false := by simpa using h.1
      constructor
      · show (if c.java = true then none else some 0#32) ≠ none
        rw [hj]; simp
      · show ((if c.java = true then none else some 0#32 : Option (BitVec 32)).getD 0#32).signExtend (goUintWidth b) = _
        rw [hj]; simp; rfl
  str := ⟨trivial, rfl⟩
  bytes := Nat.pow_pos (by decide)
  arr := fun t x n hx h hn => by
    show mgArr memcpy _ t x n = _
    unfold mgArr
    split
    · simp only [Bool.and_eq_true, Ty.isBytes, Bool.and_true, Bool.not_true, Bool.or_false] at h
      have : memcpy = false := by simpa using h.2
      rw [this]; simp only [Bool.false_eq_true, if_false, iterate_one hn]
    · cases hx; rfl
    · exact congrArg some (iterate_one hn _)

theorem jsNewVals_ok (c : JsCfg) :
    (jsNewVals c).Ok (jsSpec c) (fun arr t => !t.isEnum && (!arr || t.isStruct)) where
  sc := fun arr ctx s h => by
    cases s with
    | prim q =>
      refine ⟨?_, by show BitVec.ofInt _ 0 = 0#_; simp⟩
      cases q <;> first | exact trivial | exact Or.inl rfl | exact ⟨Int.le_refl 0, Int.pow_pos (n := _) (show (0 : Int) < 2 by decide)⟩
    | enum b => simp [Ty.isEnum] at h
  str := ⟨⟨[], rfl⟩, rfl⟩
  bytes := Nat.pow_pos (by decide)
  arr := fun t x n hx h hn => by
    cases t with
    | struct fs => rfl
    | sc s => simp [Ty.isStruct] at h
    | str => simp [Ty.isStruct] at h
    | bytes => simp [Ty.isStruct] at h

/-! ### Java: null enums -/

/-- The encoders of scalars throw for this initial value. -/
theorem encIdx_none {α : Type} {f : Nat → α → Buf → Nat → Option (Buf × Nat)} {x : α} (h : ∀ i d off, f i x d off = none)
    (i : Nat) (xs : List α) (d : Buf) (off : Nat) : encIdx f i (x :: xs) d off = none := by
  simp only [encIdx, h]

/-- The initial value of an enum cannot be encoded, and arrays begin with the initial value. -/
structure NewVals.Throws {T : Tgt} (N : NewVals T) : Prop where
  sc : ∀ ctx b big arr start n base d, T.encSc ctx (.enum b) big arr (N.sc (.enum b)) start n base d = none
  scLoop : ∀ ctx b big pos n d, T.encScLoop ctx (.enum b) big (N.sc (.enum b)) pos n d = none
  arr : ∀ t x n xs, t.tNew N = some x → N.arr t x n = some xs → (t.isEnum || t.isStruct) = true → ∃ r, xs = x :: r

mutual
  theorem Ty.tEnc_throws (E : N.Throws) : ∀ (t : Ty) (v : t.TVal T), t.tNew N = some v →
      (t.isEnum || !(t.attrs fun _ t => !t.isEnum)) = true →
      ∀ ctx big arr start n base d off, t.tEnc T ctx big arr v start n base d off = none
    | .sc (.prim q), v => fun _ h => by simp [Ty.isEnum, Ty.attrs] at h
    | .sc (.enum b), v => fun hv _ ctx big arr start n base d off => by
      have hv : N.sc (.enum b) = v := Option.some.inj hv
      subst hv
      simp only [Ty.tEnc, E.sc]
    | .str, v => fun _ h => by simp [Ty.isEnum, Ty.attrs] at h
    | .bytes, v => fun _ h => by simp [Ty.isEnum, Ty.attrs] at h
    | .struct fs, v => fun hv h ctx big arr start n base d off => by
      have h : (fs.attrs fun _ t => !t.isEnum) = false := by simpa [Ty.isEnum, Ty.attrs] using h
      have := Fields.tEnc_throws E fs v hv h ctx 0 (base + off + start / 8) d 0
      simp only [Ty.tEnc]
      split
      · rw [this]
      · rfl
  theorem Fields.tEnc_throws (E : N.Throws) : ∀ (fs : Fields) (v : fs.TVal T), fs.tNew N = some v →
      (fs.attrs fun _ t => !t.isEnum) = false →
      ∀ ctx start base d off, fs.tEncFields T ctx v start base d off = none
    | .nil, v => fun _ h => by simp [Fields.attrs] at h
    | .void n r, v => fun hv h ctx start base d off => Fields.tEnc_throws E r v hv h ctx (start + n) base d off
    | .const p n big val r, v => fun hv h ctx start base d off => by
      have ih := Fields.tEnc_throws E r v hv h ctx (start + n) base
      simp only [Fields.tEncFields]
      split
      · rfl
      · exact ih _ _
    | .one t b big r, v => fun hv h ctx start base d off => by
      obtain ⟨x, y, e1, e2, rfl⟩ : ∃ x y, t.tNew N = some x ∧ r.tNew N = some y ∧ (x, y) = v := by
        simp only [Fields.tNew] at hv
        cases e1 : t.tNew N with
        | none => rw [e1] at hv; simp at hv
        | some x =>
          cases e2 : r.tNew N with
          | none => rw [e1, e2] at hv; simp at hv
          | some y => rw [e1, e2] at hv; exact ⟨x, y, rfl, rfl, Option.some.inj hv⟩
      have i1 := Ty.tEnc_throws E t x e1
      have i2 := Fields.tEnc_throws E r y e2
      simp only [Fields.attrs] at h
      simp only [Fields.tEncFields]
      by_cases ht : (t.isEnum || !(t.attrs fun _ t => !t.isEnum)) = true
      · rw [i1 ht]
      · have hr : (r.attrs fun _ t => !t.isEnum) = false := by
          cases h1 : t.isEnum <;> cases h2 : (t.attrs fun _ t => !t.isEnum) <;> simp_all
        split
        · rfl
        · exact i2 hr ctx _ _ _ _
    | .arr t len b big r, v => fun hv h ctx start base d off => by
      obtain ⟨x, xs, y, e1, e2, e3, rfl⟩ : ∃ x xs y, t.tNew N = some x ∧ N.arr t x len = some xs ∧ r.tNew N = some y ∧ (xs, y) = v := by
        simp only [Fields.tNew] at hv
        cases e1 : t.tNew N with
        | none => rw [e1] at hv; simp at hv
        | some x =>
          rw [e1] at hv
          cases e2 : N.arr t x len with
          | none => simp [e2] at hv
          | some xs =>
            cases e3 : r.tNew N with
            | none => simp [e2, e3] at hv
            | some y => simp only [e2, e3] at hv; exact ⟨x, xs, y, rfl, e2, rfl, Option.some.inj hv⟩
      have i1 := Ty.tEnc_throws E t x e1
      have i2 := Fields.tEnc_throws E r y e3
      simp only [Fields.attrs] at h
      simp only [Fields.tEncFields]
      by_cases ht : (t.isEnum || !(t.attrs fun _ t => !t.isEnum)) = true
      · have hs : (t.isEnum || t.isStruct) = true := by
          cases t <;> simp_all [Ty.isEnum, Ty.isStruct, Ty.attrs]
        obtain ⟨l, rfl⟩ := E.arr t x len xs e1 e2 hs
        rw [encIdx_none]
        intro i d off
        unfold tArrElemEnc
        split
        · cases t with
          | sc s =>
            cases s with
            | prim q => simp [Ty.isEnum, Ty.attrs] at ht
            | enum c =>
              have e1 : N.sc (.enum c) = x := Option.some.inj e1
              subst e1
              simp only [E.scLoop]
          | str => exact i1 ht ..
          | bytes => exact i1 ht ..
          | struct gs =>
            simp only
            split
            · exact i1 ht ..
            · exact i1 ht ..
        · exact i1 ht ..
      · have hr : (r.attrs fun _ t => !t.isEnum) = false := by
          cases h1 : t.isEnum <;> cases h2 : (t.attrs fun _ t => !t.isEnum) <;> simp_all
        split
        · rfl
        · exact i2 hr ctx _ _ _ _
end

theorem javaNewVals_throws (c : MgCfg) (hj : c.java = true) (memcpy : Bool) : (mgNewVals c memcpy).Throws where
  sc := fun ctx b big arr start n base d => by
    show mgEncSc c ctx (.enum b) big arr (if c.java then none else some 0#32) start n base d = none
    rw [hj]; rfl
  scLoop := fun ctx b big pos n d => by
    show mgEncScLoop c ctx (.enum b) big (if c.java then none else some 0#32) pos n d = none
    rw [hj]; rfl
  arr := fun t x n xs hx h ht => by
    have h : mgArr memcpy _ t x n = some xs := h
    unfold mgArr at h
    split at h
    · simp [Ty.isEnum, Ty.isStruct] at ht
    · simp [Ty.isEnum, Ty.isStruct] at ht
    · exact ⟨_, (Option.some.inj h).symm⟩

/-! ### Kotlin -/

mutual
  theorem Ty.ktNew_ok : ∀ (t : Ty), (t.isEnum || !(t.attrs fun _ t => !t.isEnum)) = false → t.KtLegal t.ktNew ∧ t.ofKt t.ktNew = t.zero
    | .sc (.prim q) => fun _ => ⟨fun _ => by show (0#(q.width)).toNat ≤ 1; simp, rfl⟩
    | .sc (.enum b) => fun h => by simp [Ty.isEnum] at h
    | .str => fun _ => ⟨trivial, rfl⟩
    | .bytes => fun _ => ⟨Nat.pow_pos (by decide), rfl⟩
    | .struct fs => fun h => Fields.ktNew_ok fs (by simpa [Ty.isEnum, Ty.attrs] using h)
  theorem Fields.ktNew_ok : ∀ (fs : Fields), (fs.attrs fun _ t => !t.isEnum) = true → fs.KtLegal fs.ktNew ∧ fs.ofKt fs.ktNew = fs.zero
    | .nil => fun _ => ⟨trivial, rfl⟩
    | .void _ r => fun h => Fields.ktNew_ok r h
    | .const _ _ _ _ r => fun h => Fields.ktNew_ok r h
    | .one t b big r => fun h => by
      simp only [Fields.attrs, Bool.and_eq_true, Bool.not_eq_true'] at h
      have i1 := Ty.ktNew_ok t (by rw [h.1.1, h.1.2]; rfl)
      have i2 := Fields.ktNew_ok r h.2
      exact ⟨⟨i1.1, i2.1⟩, Prod.ext i1.2 i2.2⟩
    | .arr t len b big r => fun h => by
      simp only [Fields.attrs, Bool.and_eq_true, Bool.not_eq_true'] at h
      have i1 := Ty.ktNew_ok t (by rw [h.1.1, h.1.2]; rfl)
      have i2 := Fields.ktNew_ok r h.2
      refine ⟨⟨List.length_replicate .., fun z hz => ?_, i2.1⟩, Prod.ext ?_ i2.2⟩
      · have hz : z ∈ List.replicate len t.ktNew := hz
        rw [List.eq_of_mem_replicate hz]; exact i1.1
      · show (List.replicate len t.ktNew).map _ = List.replicate len t.zero
        rw [List.map_replicate, i1.2]
end

mutual
  theorem Ty.ktEnc_throws : ∀ (t : Ty), t.wf = true → (t.isEnum || !(t.attrs fun _ t => !t.isEnum)) = true →
      ∀ big base start n dyn i d off, t.ktEnc big t.ktNew base start n dyn i d off = none
    | .sc (.prim q) => fun _ h => by simp [Ty.isEnum, Ty.attrs] at h
    | .sc (.enum b) => fun _ _ big base start n dyn i d off => rfl
    | .str => fun _ h => by simp [Ty.isEnum, Ty.attrs] at h
    | .bytes => fun _ h => by simp [Ty.isEnum, Ty.attrs] at h
    | .struct fs => fun hw h big base start n dyn i d off => by
      have h : (fs.attrs fun _ t => !t.isEnum) = false := by simpa [Ty.isEnum, Ty.attrs] using h
      have := Fields.ktEnc_throws fs 0 (Ty.wf_struct hw) h (base + ktOff dyn off + start / 8 + i * (n / 8)) 0 false d 0
      simp only [Ty.ktEnc]
      have e : (Ty.struct fs).ktNew = fs.ktNew := rfl
      rw [e, this]
  theorem Fields.ktEnc_throws : ∀ (fs : Fields) (st : Nat), fs.wf st = true → (fs.attrs fun _ t => !t.isEnum) = false →
      ∀ base start dyn d off, fs.ktEncFields fs.ktNew base start dyn d off = none
    | .nil, _ => fun _ h => by simp [Fields.attrs] at h
    | .void n r, st => fun hw h base start dyn d off => Fields.ktEnc_throws r (st + n) hw h base (start + n) dyn d off
    | .const p n big val r, st => fun hw h base start dyn d off => by
      have ih := Fields.ktEnc_throws r _ (Fields.wf_const hw) h base (start + n) dyn
      simp only [Fields.ktEncFields]
      split
      · rfl
      · exact ih _ _
    | .one t b big r, st => fun hw h base start dyn d off => by
      obtain ⟨h1, h2⟩ := Fields.wf_one hw
      have i1 := Ty.ktEnc_throws t h1
      have i2 := Fields.ktEnc_throws r _ h2
      simp only [Fields.attrs] at h
      simp only [Fields.ktEncFields, Fields.ktNew]
      by_cases ht : (t.isEnum || !(t.attrs fun _ t => !t.isEnum)) = true
      · rw [i1 ht]
      · have hr : (r.attrs fun _ t => !t.isEnum) = false := by
          cases h1 : t.isEnum <;> cases h2 : (t.attrs fun _ t => !t.isEnum) <;> simp_all
        split
        · rfl
        · exact i2 hr ..
    | .arr t len b big r, st => fun hw h base start dyn d off => by
      obtain ⟨h1, h2, h3⟩ := Fields.wf_arr hw
      have i1 := Ty.ktEnc_throws t h1
      have i2 := Fields.ktEnc_throws r _ h2
      simp only [Fields.attrs] at h
      simp only [Fields.ktEncFields, Fields.ktNew]
      by_cases ht : (t.isEnum || !(t.attrs fun _ t => !t.isEnum)) = true
      · obtain ⟨m, rfl⟩ : ∃ m, len = m + 1 := ⟨len - 1, by omega⟩
        rw [List.replicate_succ, encIdx_none]
        intro i d off
        exact i1 ht ..
      · have hr : (r.attrs fun _ t => !t.isEnum) = false := by
          cases h1 : t.isEnum <;> cases h2 : (t.attrs fun _ t => !t.isEnum) <;> simp_all
        split
        · rfl
        · exact i2 hr ..
end

/-! ### Python -/

mutual
  theorem Ty.pyNew_ok : ∀ (t : Ty), (t.isEnum || !(t.attrs fun _ t => !t.isEnum)) = false → ∃ v, t.pyNew = some v ∧ t.ofPy v = t.zero
    | .sc (.prim q) => fun _ => ⟨(0 : Int), rfl, by show BitVec.ofInt _ 0 = 0#_; simp⟩
    | .sc (.enum b) => fun h => by simp [Ty.isEnum] at h
    | .str => fun _ => ⟨([] : List Byte), rfl, rfl⟩
    | .bytes => fun _ => ⟨([] : List Byte), rfl, rfl⟩
    | .struct fs => fun h => Fields.pyNew_ok fs (by simpa [Ty.isEnum, Ty.attrs] using h)
  theorem Fields.pyNew_ok : ∀ (fs : Fields), (fs.attrs fun _ t => !t.isEnum) = true → ∃ v, fs.pyNew = some v ∧ fs.ofPy v = fs.zero
    | .nil => fun _ => ⟨(), rfl, rfl⟩
    | .void _ r => fun h => Fields.pyNew_ok r h
    | .const _ _ _ _ r => fun h => Fields.pyNew_ok r h
    | .one t b big r => fun h => by
      simp only [Fields.attrs, Bool.and_eq_true, Bool.not_eq_true'] at h
      obtain ⟨x, e1, l1⟩ := Ty.pyNew_ok t (by rw [h.1.1, h.1.2]; rfl)
      obtain ⟨y, e2, l2⟩ := Fields.pyNew_ok r h.2
      exact ⟨(x, y), by simp only [Fields.pyNew, e1, e2], Prod.ext l1 l2⟩
    | .arr t len b big r => fun h => by
      simp only [Fields.attrs, Bool.and_eq_true, Bool.not_eq_true'] at h
      obtain ⟨x, e1, l1⟩ := Ty.pyNew_ok t (by rw [h.1.1, h.1.2]; rfl)
      obtain ⟨y, e2, l2⟩ := Fields.pyNew_ok r h.2
      refine ⟨(List.replicate len x, y), by simp only [Fields.pyNew, e1, e2], Prod.ext ?_ l2⟩
      show (List.replicate len x).map _ = List.replicate len t.zero
      rw [List.map_replicate, l1]
end

theorem Fields.attrs_and (p q : Bool → Ty → Bool) : ∀ (fs : Fields), fs.attrs p = true → fs.attrs q = true →
    fs.attrs (fun a t => p a t && q a t) = true := by
  apply Fields.rec (motive_1 := fun t => t.attrs p = true → t.attrs q = true → t.attrs (fun a t => p a t && q a t) = true)
    (motive_2 := fun fs => fs.attrs p = true → fs.attrs q = true → fs.attrs (fun a t => p a t && q a t) = true)
  all_goals (intros; simp_all [Fields.attrs, Ty.attrs])

theorem Fields.attrs_true : ∀ (fs : Fields), fs.attrs (fun _ _ => true) = true := by
  apply Fields.rec (motive_1 := fun t => t.attrs (fun _ _ => true) = true) (motive_2 := fun fs => fs.attrs (fun _ _ => true) = true)
  all_goals (intros; simp_all [Fields.attrs, Ty.attrs])

end Bubbler
