import Verif.Compiler.Bridge
import Verif.Props.DeclProps
import Verif.Props.CodecA

/-
C45: what the compiler accepts, the generated codec can carry.

The compiler's result is a list of definitions; `StructD.schema` is what the Go generator sees of one of them.
-/
namespace Bubbler
open Comp

/-- All struct and enum definitions that occur in the result of compiling `entry` -/
def Comp.InProject (fs : FS) (entry : Str) (s : StructD) : Prop :=
  ∃ n rt u name td, compile fs n entry RT.new = some (rt, .ok u) ∧ (name, td) ∈ u.globalTypes ∧ td.ty = .struct s

/-- C45: every struct of an accepted project that the Go target supports (`goOk`: constants are non-negative integers that fit,
enums have at most 64 bits, arrays of structs are not narrowed, sizes do not overflow) gives rise to an accepted schema, with
the size and the dynamic flag the compiler computed. -/
theorem C45_schema (fs : FS) (entry : Str) (s : StructD) (h : InProject fs entry s) (hg : s.goOk = true) :
    ∃ sch, s.schema = some sch ∧ sch.accepted = true ∧ (sch.sum : Int) = s.bits ∧ sch.dynamic = s.dyn := by
  obtain ⟨n, rt, u, name, td, hc, hm, hs⟩ := h
  have hl := ((compile_sound hc Inv.new).compiled.legal _ hm).1
  rw [hs] at hl
  unfold CTy.Legal at hl
  exact struct_schema hl hg

/-- C45: hence the messages of that struct survive a round trip, if no field is directly a dynamic struct (finding 1); and if the
struct has a fixed size, every message is encoded in exactly that many bytes. -/
theorem C45_roundtrip (fs : FS) (entry : Str) (s : StructD) (h : InProject fs entry s) (hg : s.goOk = true) :
    ∃ sch, s.schema = some sch ∧
      (s.dyn = false → ∀ v c, sch.Legal v → ∃ d, sch.encode c v = some d ∧ 8 * (d.length : Int) = s.bits) ∧
      (sch.noDirectDyn = true → ∀ v ce cd, sch.Legal v → sch.InRange v → sch.encodeSize v < 2 ^ 62 →
        ∃ d, sch.encode ce v = some d ∧ sch.decode cd d = .ok (v, d.length)) := by
  obtain ⟨sch, h1, h2, h3, h4⟩ := C45_schema fs entry s h hg
  refine ⟨sch, h1, ?_, fun hn v ce cd hv hr hsz => C01_roundtrip ce cd h2 hn v hv hr hsz⟩
  intro hd v c hv
  obtain ⟨d, e, hl⟩ := (C02_size_exact c h2 v hv).1
  refine ⟨d, e, ?_⟩
  have h8 := (Fields.accepted_facts h2).2.1
  have : sch.encodeSize v = sch.sum / 8 := by
    unfold Fields.encodeSize
    simp [h4, hd]
  omega

/-! ### What the schema says -/

/-- The option list asks for big endian: its first entry for `order` is "big". -/
def AsksBig (os : List (Str × Comp.Lit)) : Prop :=
  ∃ a b, os = a ++ ("order".toList, .str "big".toList) :: b ∧ "order".toList ∉ a.map (·.1)

/-- A size in bits, -1 for variable length. -/
inductive SameWidth : Int → Option Nat → Prop
  | fixed (n : Nat) : SameWidth n (some n)
  | variable : SameWidth (-1) none

mutual
  /-- The type of a definition and the type the codec works with. -/
  inductive SameTy : CTy → Ty → Prop
    | basic (p : Prim) : SameTy (.basic p) (.sc (.prim p))
    | enum (e : EnumD) (n : Nat) : (n : Int) = e.bits → SameTy (.enum e) (.sc (.enum n))
    | str : SameTy .str .str
    | bytes : SameTy .bytes .bytes
    | struct (name : Str) (b : Int) (dyn : Bool) (fs : List FieldD) (f : Fields) : SameFields fs f → SameTy (.struct (.mk name b dyn fs)) (.struct f)
  /-- The fields of a definition and those the codec works with: the same fields in the same order, with the same types, sizes,
  byte orders and constant values; the record of an embedding has no counterpart (what is embedded follows it). -/
  inductive SameFields : List FieldD → Fields → Prop
    | nil : SameFields [] .nil
    | void (n : Nat) (r : List FieldD) (f : Fields) : SameFields r f → SameFields (.void n :: r) (.void n f)
    | embedded (s : StructD) (b : Bool) (r : List FieldD) (f : Fields) : SameFields r f → SameFields (.embedded s b :: r) f
    | const (name : Str) (p : Prim) (n v : Nat) (os : List (Str × Comp.Lit)) (big : Bool) (r : List FieldD) (f : Fields) :
        (big = true ↔ AsksBig os) → SameFields r f → SameFields (.const name p n (.int v) os :: r) (.const p n big v f)
    | one (name : Str) (t : CTy) (y : Ty) (b : Int) (w : Option Nat) (ms : List (Str × List (Bool × Prim))) (os : List (Str × Comp.Lit))
        (big : Bool) (r : List FieldD) (f : Fields) :
        SameTy t y → SameWidth b w → (big = true ↔ AsksBig os) → SameFields r f → SameFields (.normal name t b ms os :: r) (.one y w big f)
    | arr (name : Str) (e : CTy) (y : Ty) (len : Nat) (b : Int) (w : Option Nat) (ms : List (Str × List (Bool × Prim)))
        (os : List (Str × Comp.Lit)) (big : Bool) (r : List FieldD) (f : Fields) :
        SameTy e y → SameWidth b w → (big = true ↔ AsksBig os) → SameFields r f →
          SameFields (.normal name (.array e len) b ms os :: r) (.arr y len w big f)
end

theorem isBig_iff (os : List (Str × Comp.Lit)) : isBig os = true ↔ AsksBig os := by
  unfold isBig AsksBig
  rw [decide_eq_true_eq, show "order".toList = ['o', 'r', 'd', 'e', 'r'] from by decide +kernel,
    show "big".toList = ['b', 'i', 'g'] from by decide +kernel]
  generalize ['o', 'r', 'd', 'e', 'r'] = k
  induction os with
  | nil => simp [aget]
  | cons e r ih =>
    obtain ⟨n, v⟩ := e
    by_cases hn : n = k
    · subst hn
      simp only [aget, List.find?_cons, decide_true, Option.map_some, Option.some.injEq]
      constructor
      · rintro rfl; exact ⟨[], r, rfl, by simp⟩
      · rintro ⟨a, b, h1, h2⟩
        cases a with
        | nil =>
          simp only [List.nil_append, List.cons.injEq, Prod.mk.injEq, true_and] at h1
          exact h1.1
        | cons x a =>
          simp only [List.cons_append, List.cons.injEq] at h1
          rw [← h1.1] at h2
          simp at h2
    · have : aget ((n, v) :: r) k = aget r k := by
        simp only [aget, List.find?_cons, hn, decide_false]
      rw [this, ih]
      constructor
      · rintro ⟨a, b, rfl, h⟩
        exact ⟨(n, v) :: a, b, rfl, by simp only [List.map_cons, List.mem_cons, not_or]; exact ⟨fun e => hn e.symm, h⟩⟩
      · rintro ⟨a, b, h1, h2⟩
        cases a with
        | nil =>
          simp only [List.nil_append, List.cons.injEq, Prod.mk.injEq] at h1
          exact absurd h1.1.1 hn
        | cons x a =>
          simp only [List.cons_append, List.cons.injEq] at h1
          simp only [List.map_cons, List.mem_cons, not_or] at h2
          exact ⟨a, b, h1.2, h2.2⟩

theorem sameWidth {b : Int} (h : 0 ≤ b ∨ b = -1) : SameWidth b (sizeOpt b) := by
  rcases h with h | rfl
  · rw [sizeOpt_nonneg h]
    have := SameWidth.fixed b.toNat
    rwa [Int.toNat_of_nonneg h] at this
  · exact .variable

/-- One field in front of the others, for the induction below. -/
theorem sameOne (n : Str) (t : CTy) (b : Int) (ms : List (Str × List (Bool × Prim))) (os : List (Str × Comp.Lit)) (r : List FieldD) (f : Fields)
    (ha : t.isArray = false)
    (hl : fieldsLegal (.normal n t b ms os :: r)) (hg : fieldsGoOk (.normal n t b ms os :: r) = true)
    (ht : ∀ y, t.Legal → t.goOk = true → t.schema = some y → SameTy t y)
    (hr : ∀ f, fieldsLegal r → fieldsGoOk r = true → fieldsSchema r = some f → SameFields r f)
    (h : fieldsSchema (.normal n t b ms os :: r) = some f) : SameFields (.normal n t b ms os :: r) f := by
  unfold fieldsLegal at hl
  unfold fieldsGoOk at hg
  simp only [Bool.and_eq_true] at hg
  have hs := goOk_sane hl.1 hg.1
  have hlf := hl.1
  unfold FieldD.Legal at hlf
  obtain ⟨hgt, -, -⟩ := goOk_normal hg.1
  have h' : ∃ y f', t.schema = some y ∧ fieldsSchema r = some f' ∧ f = .one y (sizeOpt b) (isBig os) f' := by
    cases t with
    | array e l => cases ha
    | _ =>
      simp only [fieldsSchema] at h
      split at h
      · rename_i y f' h1 h2
        simp only [Option.some.injEq] at h
        exact ⟨y, f', h1, h2, h.symm⟩
      · cases h
  obtain ⟨y, f', h1, h2, rfl⟩ := h'
  exact .one n t y b _ ms os _ r f' (ht y hlf.1 hgt h1) (sameWidth hs) (isBig_iff os) (hr f' hl.2 hg.2 h2)

mutual
  theorem sameTy : ∀ (t : CTy) (y : Ty), t.Legal → t.goOk = true → t.schema = some y → SameTy t y
    | .basic p, y, _, _, h => by simp only [CTy.schema, Option.some.injEq] at h; subst h; exact .basic p
    | .str, y, _, _, h => by simp only [CTy.schema, Option.some.injEq] at h; subst h; exact .str
    | .bytes, y, _, _, h => by simp only [CTy.schema, Option.some.injEq] at h; subst h; exact .bytes
    | .enum e, y, _, hg, h => by
      simp only [CTy.schema, Option.some.injEq] at h; subst h
      unfold CTy.goOk at hg
      simp only [Bool.and_eq_true, decide_eq_true_eq] at hg
      exact .enum e _ (Int.toNat_of_nonneg hg.1)
    | .array _ _, y, _, _, h => by simp [CTy.schema] at h
    | .struct (.mk name b d fs), y, hl, hg, h => by
      unfold CTy.schema at h
      simp only [Option.map_eq_some_iff] at h
      obtain ⟨f, h, rfl⟩ := h
      unfold CTy.Legal StructD.Legal at hl
      unfold CTy.goOk StructD.goOk at hg
      simp only [Bool.and_eq_true, decide_eq_true_eq] at hg
      exact .struct _ _ _ _ _ (sameFields fs f hl.1 hg.1 h)
  theorem sameFields : ∀ (fs : List FieldD) (f : Fields), fieldsLegal fs → fieldsGoOk fs = true → fieldsSchema fs = some f → SameFields fs f
    | [], f, _, _, h => by simp only [fieldsSchema, Option.some.injEq] at h; subst h; exact .nil
    | .void b :: r, f, hl, hg, h => by
      unfold fieldsLegal at hl
      unfold fieldsGoOk at hg
      simp only [Bool.and_eq_true] at hg
      simp only [fieldsSchema, Option.map_eq_some_iff] at h
      obtain ⟨f, h, rfl⟩ := h
      have hb := hg.1
      unfold FieldD.goOk at hb
      simp only [decide_eq_true_eq] at hb
      have := SameFields.void b.toNat r f (sameFields r f hl.2 hg.2 h)
      rwa [Int.toNat_of_nonneg hb] at this
    | .embedded s b :: r, f, hl, hg, h => by
      unfold fieldsLegal at hl
      unfold fieldsGoOk at hg
      simp only [Bool.and_eq_true] at hg
      simp only [fieldsSchema] at h
      exact .embedded s b r f (sameFields r f hl.2 hg.2 h)
    | .const n p b l os :: r, f, hl, hg, h => by
      unfold fieldsLegal at hl
      unfold fieldsGoOk at hg
      simp only [Bool.and_eq_true] at hg
      have hb := hg.1
      unfold FieldD.goOk constGo at hb
      cases l with
      | int v =>
        simp only [Bool.and_eq_true, decide_eq_true_eq] at hb
        have h0 := hb.1.1.1
        simp only [fieldsSchema, h0.1, if_true, Option.map_eq_some_iff] at h
        obtain ⟨f, h, rfl⟩ := h
        have := SameFields.const n p b.toNat v.toNat os (isBig os) r f (isBig_iff os) (sameFields r f hl.2 hg.2 h)
        rwa [Int.toNat_of_nonneg h0.1, Int.toNat_of_nonneg h0.2] at this
      | _ => cases hb
    | .normal n (.array e len) b ms os :: r, f, hl, hg, h => by
      unfold fieldsLegal at hl
      unfold fieldsGoOk at hg
      simp only [Bool.and_eq_true] at hg
      have hs := goOk_sane hl.1 hg.1
      have hlf := hl.1
      unfold FieldD.Legal CTy.Legal at hlf
      obtain ⟨hgt, -, -⟩ := goOk_normal hg.1
      unfold CTy.goOk at hgt
      simp only [Bool.and_eq_true] at hgt
      simp only [fieldsSchema] at h
      cases h1 : e.schema with
      | none => rw [h1] at h; cases h
      | some y =>
        cases h2 : fieldsSchema r with
        | none => rw [h1, h2] at h; cases h
        | some f' =>
          rw [h1, h2] at h
          simp only [Option.some.injEq] at h
          subst h
          have := SameFields.arr n e y len.toNat b _ ms os _ r f' (sameTy e y hlf.1.1 hgt.1 h1) (sameWidth hs) (isBig_iff os) (sameFields r f' hl.2 hg.2 h2)
          rwa [Int.toNat_of_nonneg (by omega)] at this
    | .normal n (.basic p) b ms os :: r, f, hl, hg, h => sameOne n (.basic p) b ms os r f rfl hl hg
        (fun y h1 h2 h3 => sameTy _ y h1 h2 h3) (fun f h1 h2 h3 => sameFields r f h1 h2 h3) h
    | .normal n .str b ms os :: r, f, hl, hg, h => sameOne n .str b ms os r f rfl hl hg
        (fun y h1 h2 h3 => sameTy _ y h1 h2 h3) (fun f h1 h2 h3 => sameFields r f h1 h2 h3) h
    | .normal n .bytes b ms os :: r, f, hl, hg, h => sameOne n .bytes b ms os r f rfl hl hg
        (fun y h1 h2 h3 => sameTy _ y h1 h2 h3) (fun f h1 h2 h3 => sameFields r f h1 h2 h3) h
    | .normal n (.enum e) b ms os :: r, f, hl, hg, h => sameOne n (.enum e) b ms os r f rfl hl hg
        (fun y h1 h2 h3 => sameTy _ y h1 h2 h3) (fun f h1 h2 h3 => sameFields r f h1 h2 h3) h
    | .normal n (.struct s) b ms os :: r, f, hl, hg, h => sameOne n (.struct s) b ms os r f rfl hl hg
        (fun y h1 h2 h3 => sameTy _ y h1 h2 h3) (fun f h1 h2 h3 => sameFields r f h1 h2 h3) h
end

/-- C45: the codec of a struct works on exactly the fields of its definition (`SameFields`). -/
theorem C45_fields (fs : FS) (entry : Str) (s : StructD) (h : InProject fs entry s) (hg : s.goOk = true) :
    ∃ sch, s.schema = some sch ∧ SameFields s.fields sch := by
  obtain ⟨sch, h1, -⟩ := C45_schema fs entry s h hg
  refine ⟨sch, h1, ?_⟩
  obtain ⟨n, rt, u, name, td, hc, hm, hs⟩ := h
  have hl := ((compile_sound hc Inv.new).compiled.legal _ hm).1
  rw [hs] at hl
  obtain ⟨name, b, d, fs⟩ := s
  unfold CTy.Legal StructD.Legal at hl
  unfold StructD.goOk at hg
  simp only [Bool.and_eq_true] at hg
  exact sameFields fs sch hl.1 hg.1 h1

theorem fieldsSchema_cons (x : FieldD) (r : List FieldD) : 
    fieldsSchema (x :: r) = none ∨ ∃ p, fieldsSchema [x] = some p ∧ fieldsSchema (x :: r) = (fieldsSchema r).map p.append := by
  cases x with
  | void b => exact .inr ⟨.void b.toNat .nil, by simp [fieldsSchema], by simp only [fieldsSchema]; rfl⟩
  | embedded s b => exact .inr ⟨.nil, by simp [fieldsSchema], by simp only [fieldsSchema]; cases fieldsSchema r <;> rfl⟩
  | const n p b l os =>
    cases l with
    | int v =>
      simp only [fieldsSchema]
      split
      · exact .inr ⟨_, rfl, rfl⟩
      · exact .inl rfl
    | _ => exact .inl rfl
  | normal n t b ms os =>
    cases t with
    | array e len =>
      simp only [fieldsSchema]
      cases e.schema with
      | none => exact .inl rfl
      | some y => exact .inr ⟨_, rfl, by cases fieldsSchema r <;> rfl⟩
    | _ =>
      simp only [fieldsSchema]
      generalize CTy.schema _ = o
      cases o with
      | none => exact .inl rfl
      | some y => exact .inr ⟨_, rfl, by cases fieldsSchema r <;> rfl⟩

theorem Fields.append_assoc' : ∀ a b c : Fields, (a.append b).append c = a.append (b.append c)
  | .nil, b, c => rfl
  | .void _ r, b, c => by simp only [Fields.append, Fields.append_assoc' r b c]
  | .const _ _ _ _ r, b, c => by simp only [Fields.append, Fields.append_assoc' r b c]
  | .one _ _ _ r, b, c => by simp only [Fields.append, Fields.append_assoc' r b c]
  | .arr _ _ _ _ r, b, c => by simp only [Fields.append, Fields.append_assoc' r b c]

theorem fieldsSchema_append (a b : List FieldD) (f : Fields) (h : fieldsSchema (a ++ b) = some f) :
    ∃ p q, fieldsSchema a = some p ∧ fieldsSchema b = some q ∧ f = p.append q := by
  induction a generalizing f with
  | nil => exact ⟨.nil, f, by simp [fieldsSchema], h, rfl⟩
  | cons x a ih =>
    rcases fieldsSchema_cons x (a ++ b) with h' | ⟨p, h1, h2⟩
    · rw [List.cons_append, h'] at h; cases h
    · rw [List.cons_append, h2] at h
      simp only [Option.map_eq_some_iff] at h
      obtain ⟨g, hg, rfl⟩ := h
      obtain ⟨p', q, e1, e2, rfl⟩ := ih g hg
      rcases fieldsSchema_cons x a with h' | ⟨p2, h3, h4⟩
      · exfalso
        rcases fieldsSchema_cons x (a ++ b) with h'' | ⟨p3, h5, h6⟩
        · rw [h2, hg] at h''; cases h''
        · -- `x` has a schema, so has `x :: a`
          cases x with
          | void n => rw [fieldsSchema, e1] at h'; cases h'
          | embedded s n => rw [fieldsSchema, e1] at h'; cases h'
          | const n p b l os =>
            cases l with
            | int v =>
              simp only [fieldsSchema] at h' h5
              split at h5
              · rename_i hv; rw [if_pos hv, e1] at h'; cases h'
              · cases h5
            | _ => simp [fieldsSchema] at h5
          | normal n t b ms os =>
            cases t with
            | array e len =>
              simp only [fieldsSchema] at h' h5
              cases hs : e.schema with
              | none => rw [hs] at h5; cases h5
              | some y => rw [hs, e1] at h'; cases h'
            | _ =>
              simp only [fieldsSchema] at h' h5
              generalize CTy.schema _ = o at h' h5
              cases o with
              | none => cases h5
              | some y => rw [e1] at h'; cases h'
      · rw [h1] at h3
        cases h3
        refine ⟨p.append p', q, ?_, e2, (Fields.append_assoc' p p' q).symm⟩
        rw [h4, e1]; rfl

theorem Fields.Legal_append : ∀ (a b : Fields) (x : a.Val) (y : b.Val), (a.append b).Legal (a.join b x y) → a.Legal x
  | .nil, b, x, y, h => by simp [Fields.Legal]
  | .void _ r, b, x, y, h => by
    simp only [Fields.append, Fields.join, Fields.Legal] at h ⊢
    exact Fields.Legal_append r b x y h
  | .const _ _ _ _ r, b, x, y, h => by
    simp only [Fields.append, Fields.join, Fields.Legal] at h ⊢
    exact Fields.Legal_append r b x y h
  | .one _ _ _ r, b, (x1, x2), y, h => by
    simp only [Fields.append, Fields.join, Fields.Legal] at h ⊢
    exact ⟨h.1, Fields.Legal_append r b x2 y h.2⟩
  | .arr _ _ _ _ r, b, (x1, x2), y, h => by
    simp only [Fields.append, Fields.join, Fields.Legal] at h ⊢
    exact ⟨h.1, h.2.1, Fields.Legal_append r b x2 y h.2.2⟩

theorem fieldsGoOk_append (a b : List FieldD) : fieldsGoOk (a ++ b) = (fieldsGoOk a && fieldsGoOk b) := by
  induction a with
  | nil => simp [fieldsGoOk]
  | cons f r ih => simp only [List.cons_append, fieldsGoOk, ih, Bool.and_assoc]

theorem checkAlign_prefix (a b : List FieldD) (start : Int) (h : checkAlign (a ++ b) start = none) : checkAlign a start = none := by
  induction a generalizing start with
  | nil => rfl
  | cons f r ih =>
    rw [List.cons_append, checkAlign_cons] at h
    rw [checkAlign_cons]
    cases f with
    | normal n t b ms os =>
      simp only at h ⊢
      split
      · rename_i hc; rw [if_pos hc] at h; cases h
      · rename_i hc; rw [if_neg hc] at h; exact ih _ h
    | _ => exact ih _ h

/-- The scalar a field type is carried as. -/
inductive ScalarOf : CTy → Sc → Prop
  | basic (p : Prim) : ScalarOf (.basic p) (.prim p)
  | enum (e : EnumD) (n : Nat) : (n : Int) = e.bits → ScalarOf (.enum e) (.enum n)

/-- C45: from the definition to the bytes.  Let `f` be a field of a basic or enum type of an accepted project's struct, behind fields of
fixed size only.  In every encoded message the value of that field is at the position that is the sum of the sizes of the
fields before it, with the width of the field, big endian exactly if its option says so. -/
theorem C45_position (fs : FS) (entry : Str) (s : StructD) (h : InProject fs entry s) (hg : s.goOk = true)
    (before after : List FieldD) (name : Str) (t : CTy) (sc : Sc) (w : Int) (ms : List (Str × List (Bool × Prim))) (os : List (Str × Comp.Lit))
    (hf : s.fields = before ++ .normal name t w ms os :: after) (ht : ScalarOf t sc) (hfix : ∀ g ∈ before, ¬ g.IsVar) :
    ∃ pre post big, s.schema = some (pre.append (.one (.sc sc) (some w.toNat) big post)) ∧ 0 < w ∧ (big = true ↔ AsksBig os) ∧
      SameFields before pre ∧ SameFields after post ∧
      ∀ c (x : pre.Val) (y : BitVec sc.width) (z : post.Val),
        (pre.append (.one (.sc sc) (some w.toNat) big post)).Legal (pre.join (.one (.sc sc) (some w.toNat) big post) x (y, z)) →
        ∃ d, (pre.append (.one (.sc sc) (some w.toNat) big post)).encode c (pre.join (.one (.sc sc) (some w.toNat) big post) x (y, z)) = some d ∧
          ∀ j, j < w.toNat → bitAt d ((before.map fun g => g.bits.toNat).sum + j) = y.getLsbD (specBit big w.toNat j) := by
  obtain ⟨sch, h1, hacc, -⟩ := C45_schema fs entry s h hg
  obtain ⟨n, rt, u, tn, td, hc, hm, hs⟩ := h
  have hl := ((compile_sound hc Inv.new).compiled.legal _ hm).1
  rw [hs] at hl
  obtain ⟨sname, sb, sd, fs⟩ := s
  simp only [StructD.fields] at hf
  subst hf
  unfold CTy.Legal StructD.Legal at hl
  unfold StructD.goOk at hg
  simp only [Bool.and_eq_true, decide_eq_true_eq] at hg
  obtain ⟨hl, hal, -⟩ := hl
  obtain ⟨hg, htot⟩ := hg
  rw [fieldsLegal_append] at hl
  rw [fieldsGoOk_append, Bool.and_eq_true] at hg
  rw [total_append] at htot
  unfold StructD.schema at h1
  simp only [StructD.fields] at h1
  obtain ⟨pre, q, e1, e2, rfl⟩ := fieldsSchema_append _ _ _ h1
  obtain ⟨pre', f1, f2, f3, f4, f5⟩ := fields_schema before 0 hl.1 hg.1 (by omega) (checkAlign_prefix _ _ _ hal)
  rw [e1] at f1
  cases f1
  have hpd : pre.dynamic = false := by
    rw [f4, Bool.eq_false_iff]
    intro hd
    obtain ⟨g, hg1, hg2⟩ := (anyDyn_iff _).1 hd
    exact hfix g hg1 hg2
  have hsf := sameFields _ _ hl.2 hg.2 e2
  have hw0 : 0 < w := by
    have h2 := hl.2; unfold fieldsLegal FieldD.Legal at h2
    have h3 := hg.2; unfold fieldsGoOk at h3; simp only [Bool.and_eq_true] at h3
    obtain ⟨k1, k2, -⟩ := goOk_normal h3.1
    have hbt : 0 < t.bits := by
      cases ht with
      | basic p => cases p <;> decide
      | enum e n hn =>
        have := h2.1.1
        unfold CTy.Legal at this
        simp only [CTy.bits]; omega
    rcases h2.1.2 with e | ⟨e, -⟩ <;> omega
  have key : ∃ big post, q = .one (.sc sc) (some w.toNat) big post ∧ (big = true ↔ AsksBig os) ∧ SameFields after post := by
    cases hsf with
    | one _ _ y _ wd _ _ big _ f k1 k2 k3 k4 =>
      refine ⟨big, f, ?_, k3, k4⟩
      have hwd : wd = some w.toNat := by
        cases k2 with
        | fixed n => simp
        | «variable» => omega
      have hy : y = .sc sc := by
        cases ht with
        | basic p => cases k1; rfl
        | enum e n hn =>
          cases k1 with
          | enum _ m hm => rw [show m = n by omega]
      rw [hwd, hy]
    | arr => cases ht
  obtain ⟨big, post, rfl, k1, k2⟩ := key
  refine ⟨pre, post, big, h1, hw0, k1, sameFields _ _ hl.1 hg.1 e1, k2, ?_⟩
  intro c x y z hv
  obtain ⟨d, he, hd⟩ := C03_field_position c pre post sc w.toNat big hacc x y z hv
  refine ⟨d, he, fun j hj => ?_⟩
  have hlen := C03_fixed_prefix 0 f2 hpd x (Fields.Legal_append _ _ _ _ hv)
  have := hd j hj
  rw [hlen, f5] at this
  exact this

/-- A project: `a` imports `b`, which defines
`struct Head { bool v[#1]; void[#3]; uint8 k[#4] order=big; int64 n[6]; }`; `a` defines
`struct Msg { Head; uint8 a[#4]; uint8 b[#4]; string s; int8<3> x; ; bytes<2> t; }` -/
def bridgeFS : FS := fun p =>
  if p = ['a'] then .parsed ⟨[some ['b']], [['p', 'a']], [], [.struct Comp.Sample.msg]⟩ else
  if p = ['b'] then .parsed ⟨[], [['p', 'b']], [], [.struct Comp.Sample.head]⟩ else .missing

/-- The struct called `n` in the result of compiling `a` -/
def bridgeStruct (n : Str) : Option StructD :=
  match compile bridgeFS 5 ['a'] RT.new with
  | some (_, .ok u) =>
    match aget u.globalTypes n with
    | some td =>
      match td.ty with
      | .struct s => some s
      | _ => none
    | none => none
  | _ => none

theorem bridge_ok : (bridgeStruct ['M', 's', 'g']).any (fun s => s.goOk && decide (s.bits = 88) && s.dyn && decide (s.fields.length = 10)) = true := by
  decide +kernel

example : ∃ s, InProject bridgeFS ['a'] s ∧ s.goOk = true ∧ s.bits = 88 ∧ s.dyn = true ∧ s.fields.length = 10 := by
  have h := bridge_ok
  unfold bridgeStruct at h
  cases hc : compile bridgeFS 5 ['a'] RT.new with
  | none => rw [hc] at h; cases h
  | some x =>
    obtain ⟨rt, o⟩ := x
    rw [hc] at h
    cases o with
    | ok u =>
      simp only at h
      cases ha : aget u.globalTypes ['M', 's', 'g'] with
      | none => rw [ha] at h; cases h
      | some td =>
        rw [ha] at h
        simp only at h
        cases ht : td.ty with
        | struct s =>
          rw [ht] at h
          simp only [Option.any_some, Bool.and_eq_true, decide_eq_true_eq] at h
          refine ⟨s, ⟨5, rt, u, _, td, hc, aget_mem ha, ht⟩, h.1.1.1, h.1.1.2, h.1.2, h.2⟩
        | _ => rw [ht] at h; cases h
    | _ => cases h

/-- `Head` has a `bool` field and a `void` before its big-endian `uint8 k[#4]`. -/
def headShape : StructD → Bool
  | .mk _ _ _ (.normal _ (.basic .bool) 1 _ _ :: .void 3 :: .normal ['k'] (.basic .u8) 4 _ os :: _) => isBig os
  | _ => false

theorem bridge_head : (bridgeStruct ['H', 'e', 'a', 'd']).any (fun s => s.goOk && headShape s) = true := by decide +kernel

/-- The hypotheses of `C45_position` can be met, with a big-endian field. -/
example : ∃ s before after ms os, InProject bridgeFS ['a'] s ∧ s.goOk = true ∧
    s.fields = before ++ .normal ['k'] (.basic .u8) 4 ms os :: after ∧ AsksBig os ∧ (∀ g ∈ before, ¬ g.IsVar) ∧
    (before.map fun g => g.bits.toNat).sum = 4 := by
  have h := bridge_head
  unfold bridgeStruct at h
  cases hc : compile bridgeFS 5 ['a'] RT.new with
  | none => rw [hc] at h; cases h
  | some x =>
    obtain ⟨rt, o⟩ := x
    rw [hc] at h
    cases o with
    | ok u =>
      simp only at h
      cases ha : aget u.globalTypes ['H', 'e', 'a', 'd'] with
      | none => rw [ha] at h; cases h
      | some td =>
        rw [ha] at h
        simp only at h
        cases ht : td.ty with
        | struct s =>
          rw [ht] at h
          simp only [Option.any_some, Bool.and_eq_true] at h
          obtain ⟨h1, h2⟩ := h
          unfold headShape at h2
          split at h2
          · rename_i os _
            refine ⟨_, [_, _], _, _, os, ⟨5, rt, u, _, td, hc, aget_mem ha, ht⟩, h1, rfl, (isBig_iff os).1 h2, ?_, rfl⟩
            intro g hg hv
            simp only [List.mem_cons, List.not_mem_nil, or_false] at hg
            rcases hg with rfl | rfl
            · cases hv with | mk _ _ _ _ _ h => cases h
            · cases hv
          · cases h2
        | _ => rw [ht] at h; cases h
    | _ => cases h

end Bubbler
