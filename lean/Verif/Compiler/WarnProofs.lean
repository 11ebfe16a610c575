import Verif.Compiler.Warn
import Verif.Compiler.RuntimeSound
import Verif.Compiler.ErrProofs

/-
The visitors warn exactly as WarnSpec.lean says.
-/
namespace Bubbler.Comp

/-- A visitor method adds warnings from this list, in this order, and all of them if it succeeds. -/
def Says {α : Type} (m : V α) (spec : List Warn) : Prop :=
  ∀ u, ∃ ws, (m u).2.warns = u.warns ++ ws ∧ ws.Sublist spec ∧ ∀ a, (m u).1 = .ok a → ws = spec

variable {α β : Type}

theorem says_pure (a : α) : Says (pure a : V α) [] := fun u => ⟨[], by simp [pure, V.pure], .refl _, fun _ _ => rfl⟩

theorem says_err (es : List CErr) (s : List Warn) : Says ((fun u => (.err es, u)) : V α) s :=
  fun u => ⟨[], by simp, List.nil_sublist s, nofun⟩

theorem says_fail (e : CErr) (s : List Warn) : Says (fail e : V α) s := says_err _ _

theorem says_bind {x : V α} {f : α → V β} {s t : List Warn} (hx : Says x s) (hf : ∀ a, Says (f a) t) :
    Says (x >>= f) (s ++ t) := by
  intro u
  obtain ⟨w1, h1, h2, h3⟩ := hx u
  show ∃ ws, (V.bind x f u).2.warns = u.warns ++ ws ∧ ws.Sublist (s ++ t) ∧ ∀ a, (V.bind x f u).1 = .ok a → ws = s ++ t
  unfold V.bind
  rcases hr : x u with ⟨o, u'⟩
  rw [hr] at h1 h3
  dsimp only at h1 h3
  cases o with
  | ok a =>
    obtain ⟨w2, k1, k2, k3⟩ := hf a u'
    refine ⟨w1 ++ w2, ?_, h2.append k2, fun b hb => ?_⟩
    · dsimp only; rw [k1, h1, List.append_assoc]
    · rw [h3 a rfl, k3 b hb]
  | err es => exact ⟨w1, h1, h2.trans (List.sublist_append_left _ _), nofun⟩
  | panic => exact ⟨w1, h1, h2.trans (List.sublist_append_left _ _), nofun⟩

/-- Binding something silent -/
theorem says_bind0 {x : V α} {f : α → V β} {t : List Warn} (hx : Says x []) (hf : ∀ a, Says (f a) t) : Says (x >>= f) t :=
  says_bind hx hf

theorem says_ite {p : Prop} [Decidable p] {x y : V α} {s : List Warn} (hx : p → Says x s) (hy : ¬p → Says y s) :
    Says (if p then x else y) s := by
  split
  · exact hx ‹_›
  · exact hy ‹_›

theorem says_warn (w : Warn) : Says (warn w) [w] := fun u => ⟨[w], rfl, .refl _, fun _ _ => rfl⟩

theorem says_getU : Says getU [] := fun u => ⟨[], by simp [getU], .refl _, fun _ _ => rfl⟩

theorem says_quiet {x : V α} (h : ∀ u, (x u).2.warns = u.warns) : Says x [] :=
  fun u => ⟨[], by simp [h], .refl _, fun _ _ => rfl⟩

theorem says_visitIntLit (t : Str) : Says (visitIntLit t) [] := by
  unfold visitIntLit
  split
  · exact says_ite (fun _ => says_pure _) fun _ => says_fail _ _
  · exact says_fail _ _

theorem says_visitConstant (c : ConstA) : Says (visitConstant c) [] := by
  cases c with
  | int neg t => exact says_bind0 (says_visitIntLit t) fun _ => says_pure _
  | float ok neg t => exact says_ite (fun _ => says_pure _) fun _ => says_fail _ _
  | str v => cases v with
    | none => exact says_fail _ _
    | some s => exact says_pure _
  | bool b => exact says_pure _

theorem says_visitOptInt (s : Option Str) : Says (visitOptInt s) [] := by
  cases s with
  | none => exact says_pure _
  | some t => exact says_visitIntLit t

theorem says_visitSizeA (s : SizeA) : Says (visitSizeA s) [] := by
  unfold visitSizeA
  refine says_bind0 (says_visitOptInt _) fun _ => says_bind0 (says_visitOptInt _) fun _ => ?_
  split
  · exact says_pure _
  · exact says_fail _ _

theorem says_visitOptSize (s : Option SizeA) : Says (visitOptSize s) [] := by
  cases s with
  | none => exact says_pure _
  | some s => exact says_visitSizeA s

theorem says_visitName (check : Str → Bool) (conv : Str → Str) (n : Str) :
    Says (visitName check conv n) (styleW conv n) := by
  unfold visitName styleW
  refine says_ite (fun _ => says_fail _ _) fun _ => ?_
  by_cases h : conv (conv n) = n
  · rw [if_neg (by simp [h]), if_pos h]; exact says_pure _
  · rw [if_pos (Ne.symm h), if_neg h]
    exact says_bind (s := [_]) (t := []) (says_warn _) fun _ => says_pure _

theorem says_visitOptName (v : Str → V Str) (conv : Str → Str) (h : ∀ n, Says (v n) (styleW conv n)) (n : Option Str) :
    Says (visitOptName v n) (optStyleW conv n) := by
  cases n with
  | none => exact says_pure _
  | some n => exact h n

theorem says_addLocalName (n : Str) (d : NameDef) : Says (addLocalName n d) [] := by
  refine says_quiet fun u => ?_
  unfold addLocalName UnitD.addLocalName
  split
  · rename_i h; split at h <;> simp only [Prod.mk.injEq] at h <;> obtain ⟨rfl, h⟩ := h <;> rfl
  · rename_i h; split at h <;> simp only [Prod.mk.injEq] at h <;> obtain ⟨rfl, h⟩ := h <;> rfl

/-! ### Options -/

theorem fieldValidate_warns (n : Str) (v : Lit) :
    (n ∈ fieldOptionNames ∧ ∀ w, fieldValidator.validate n v ≠ .warning w) ∨
    (n ∉ fieldOptionNames ∧ fieldValidator.validate n v = .warning (.unknownOption n)) := by
  by_cases h : n = "order".toList
  · refine .inl ⟨by simp [fieldOptionNames, h], fun w => ?_⟩
    subst h
    unfold Validator.validate
    have : aget fieldValidator.types "order".toList = some .str := by decide +kernel
    rw [this]
    dsimp only
    split
    · simp
    · split
      · split <;> simp
      · simp
  · refine .inr ⟨by simpa [fieldOptionNames] using h, ?_⟩
    unfold Validator.validate
    have h1 : aget fieldValidator.types n = none := aget_none_iff.2 (by
      intro hm; exact h (List.mem_singleton.1 hm))
    have h2 : aget fieldValidator.values n = none := aget_none_iff.2 (by
      intro hm; exact h (List.mem_singleton.1 hm))
    rw [h1, h2]

theorem fileValidate_warns (n : Str) (v : Lit) :
    (n ∈ fileOptionNames ∧ ∀ w, fileValidator.validate n v ≠ .warning w) ∨
    (n ∉ fileOptionNames ∧ fileValidator.validate n v = .warning (.unknownOption n)) := by
  have hv : ∀ n, aget fileValidator.values n = none := fun n => rfl
  have ht : fileValidator.types.map (·.1) = fileOptionNames := by decide +kernel
  unfold Validator.validate
  rw [hv]
  rcases h : aget fileValidator.types n with _ | k
  · right
    exact ⟨ht ▸ aget_none_iff.1 h, rfl⟩
  · left
    refine ⟨ht ▸ List.mem_map.2 ⟨_, aget_in h, rfl⟩, fun w => ?_⟩
    dsimp only
    split <;> simp

theorem unknownW_cons (known : List Str) (o : OptA) (r : List OptA) :
    unknownW known (o :: r) = (if o.name ∈ known then [] else [.unknownOption o.name]) ++ unknownW known r := by
  unfold unknownW
  rw [List.filter_cons]
  by_cases h : o.name ∈ known <;> simp [h]

theorem says_visitFieldOptions (os : List OptA) (acc : List (Str × Lit)) :
    Says (visitFieldOptions os acc) (unknownW fieldOptionNames os) := by
  induction os generalizing acc with
  | nil => exact says_pure _
  | cons o r ih =>
    unfold visitFieldOptions
    refine says_bind0 (says_visitConstant _) fun v => ?_
    rw [unknownW_cons]
    have next : Says (if (aget acc o.name).isSome then fail (.optionDuplicate o.name)
        else visitFieldOptions r (aput acc o.name v)) (unknownW fieldOptionNames r) :=
      says_ite (fun _ => says_fail _ _) fun _ => ih _
    rcases fieldValidate_warns o.name v with ⟨h1, h2⟩ | ⟨h1, h2⟩
    · rw [if_pos h1]
      rcases h : fieldValidator.validate o.name v with _ | w | e
      · exact next
      · exact absurd h (h2 w)
      · exact says_fail _ _
    · rw [if_neg h1, h2]
      exact says_bind (s := [_]) (says_warn _) fun _ => next

/-! ### Methods -/

theorem says_visitMethod (m : MethA) : Says (visitMethod m) (optStyleW Name.toSnake m.name) := by
  unfold visitMethod
  have := says_bind (t := []) (says_visitOptName visitMethodName _ (says_visitName _ _) m.name)
    (f := fun name => if name = [] then fail .anonymousMethod else if !m.exprOk then fail .invalidLiteral
      else pure (m.set, name, m.ty))
    fun name => says_ite (fun _ => says_fail _ _) fun _ => says_ite (fun _ => says_fail _ _) fun _ => says_pure _
  rw [List.append_nil] at this
  exact this

/-- The shape of the loops: one element, then the rest, where an error of the element makes the whole fail. -/
theorem says_step {x : V α} {y : V β} (k : Out α → V β) {s t : List Warn} (hx : Says x s) (hh : Honest x)
    (hok : ∀ a, Says (k (.ok a)) t) (herr : ∀ es, es ≠ [] → Says (k (.err es)) t ∧ ∀ u b, (k (.err es) u).1 ≠ .ok b)
    (hpan : ∀ u, k .panic u = (.panic, u)) (hy : ∀ u, y u = k (x u).1 (x u).2) : Says y (s ++ t) := by
  intro u
  rw [hy]
  obtain ⟨w1, h1, h2, h3⟩ := hx u
  rcases hr : x u with ⟨o, u'⟩
  rw [hr] at h1 h3
  dsimp only at h1 h3
  cases o with
  | ok a =>
    obtain ⟨w2, k1, k2, k3⟩ := hok a u'
    refine ⟨w1 ++ w2, ?_, h2.append k2, fun b hb => ?_⟩
    · dsimp only; rw [k1, h1, List.append_assoc]
    · rw [h3 a rfl, k3 b hb]
  | err es =>
    obtain ⟨e1, e2⟩ := herr es (hh u es u' hr)
    obtain ⟨w2, k1, k2, -⟩ := e1 u'
    refine ⟨w1 ++ w2, ?_, h2.append k2, fun b hb => absurd hb (e2 u' b)⟩
    dsimp only; rw [k1, h1, List.append_assoc]
  | panic =>
    refine ⟨w1, ?_, h2.trans (List.sublist_append_left _ _), fun b hb => ?_⟩
    · dsimp only; rw [hpan]; exact h1
    · dsimp only at hb; rw [hpan] at hb; cases hb

theorem says_visitMethods (l : List MethA) (ms : List (Str × List (Bool × Prim))) (errs : List CErr) :
    Says (visitMethods l ms errs) (methodsW l) ∧ (errs ≠ [] → ∀ u b, (visitMethods l ms errs u).1 ≠ .ok b) := by
  induction l generalizing ms errs with
  | nil =>
    unfold visitMethods
    refine ⟨says_ite (fun _ => says_pure _) fun _ => says_err _ _, fun h u b => ?_⟩
    rw [if_neg h]; simp
  | cons m r ih =>
    constructor
    · refine says_step (fun o => match o with
          | .panic => fun u' => (.panic, u')
          | .err es => visitMethods r ms (errs ++ es)
          | .ok (set, name, ty) => match addMethod ms set name ty with
            | .error e => fun u' => (.err [e], u')
            | .ok ms' => visitMethods r ms' errs) (t := methodsW r) (says_visitMethod m) (honest_visitMethod m)
        (fun a => by
          obtain ⟨set, name, ty⟩ := a
          dsimp only
          split
          · exact says_err _ _
          · exact (ih _ _).1)
        (fun es hes => ⟨(ih _ _).1, (ih _ _).2 (by simp [hes])⟩) (fun _ => rfl) fun u => ?_
      rw [visitMethods]
      dsimp only
      rcases visitMethod m u with ⟨o, u'⟩
      rcases o with ⟨set, name, ty⟩ | es | _
      · dsimp only; cases addMethod ms set name ty <;> rfl
      · rfl
      · rfl
    · intro h u b
      rw [visitMethods]
      dsimp only
      rcases visitMethod m u with ⟨o, u'⟩
      rcases o with ⟨set, name, ty⟩ | es | _
      · dsimp only
        split
        · simp
        · exact (ih _ _).2 h _ _
      · exact (ih _ _).2 (by simp [h]) _ _
      · simp

/-! ### Types -/

theorem says_lookupType (n : Str) : Says (lookupType n) [] := by
  refine says_quiet fun u => ?_
  unfold lookupType
  split <;> rfl

theorem says_nameOrPanic (v : Str → V Str) (n : Str) (s : List Warn) (h : Says (v n) s) : Says (nameOrPanic v n) s := by
  intro u
  obtain ⟨ws, h1, h2, h3⟩ := h u
  unfold nameOrPanic
  rcases hr : v n u with ⟨o, u'⟩
  rw [hr] at h1 h3
  cases o with
  | ok a => exact ⟨ws, h1, h2, h3⟩
  | err es => exact ⟨ws, h1, h2, nofun⟩
  | panic => exact ⟨ws, h1, h2, nofun⟩

theorem says_tail {x : V α} {f : α → V β} {s : List Warn} (hx : Says x s) (hf : ∀ a, Says (f a) []) : Says (x >>= f) s := by
  have := says_bind hx hf
  rwa [List.append_nil] at this

theorem says_lookupStruct (n : Str) : Says (lookupStruct n) (styleW Name.toPascal n) := by
  unfold lookupStruct
  refine says_tail (says_nameOrPanic _ _ _ (says_visitName _ _ n)) fun n => says_bind0 (says_lookupType n) fun t => ?_
  split
  · exact says_pure _
  · exact says_fail _ _

theorem says_lookupEnum (n : Str) : Says (lookupEnum n) (styleW Name.toPascal n) := by
  unfold lookupEnum
  refine says_tail (says_nameOrPanic _ _ _ (says_visitName _ _ n)) fun n => says_bind0 (says_lookupType n) fun t => ?_
  split
  · exact says_pure _
  · exact says_fail _ _

/-! ### Fields -/

theorem says_normalSize (t : CTy) (s : Int) : Says (normalSize t s) [] := by
  unfold normalSize
  refine says_ite (fun _ => says_pure _) fun _ => says_ite (fun _ => says_fail _ _) fun _ =>
    says_ite (fun _ => says_fail _ _) fun _ => ?_
  split
  · exact says_ite (fun _ => says_fail _ _) fun _ => says_pure _
  · exact says_ite (fun _ => says_fail _ _) fun _ => says_pure _
  · exact says_pure _

theorem says_visitNormalRest (t : CTy) (n : Str) (s : Option SizeA) (os : List OptA) (ms : Option (List MethA)) :
    Says (visitNormalRest t n s os ms) (styleW Name.toSnake n ++ (unknownW fieldOptionNames os ++
        (match ms with | some ms => methodsW ms | none => []))) := by
  unfold visitNormalRest
  refine says_bind (says_visitName _ _ n) fun _ => says_bind0 (says_visitOptSize s) fun _ =>
    says_bind0 (says_normalSize _ _) fun _ => says_bind (says_visitFieldOptions os []) fun _ => ?_
  cases ms with
  | none => exact says_pure _
  | some ms =>
    dsimp only
    split
    · exact says_tail (says_visitMethods ms [] []).1 fun _ => says_pure _
    · exact says_fail _ _

theorem says_visitConstVal (v : ConstA ⊕ Str) : Says (visitConstVal v) [] := by
  cases v with
  | inl c => exact says_visitConstant c
  | inr n =>
    refine says_quiet fun u => ?_
    unfold visitConstVal
    dsimp only
    split
    · rfl
    · split <;> rfl

theorem says_constSize (p : Prim) (s : Int) : Says (constSize p s) [] := by
  unfold constSize
  exact says_ite (fun _ => says_pure _) fun _ => says_ite (fun _ => says_fail _ _) fun _ => says_pure _

theorem says_visitConst (p : Prim) (n : Option Str) (s : Option SizeA) (v : ConstA ⊕ Str) (os : List OptA) :
    Says (visitConst p n s v os) (optStyleW Name.toSnake n ++ unknownW fieldOptionNames os) := by
  unfold visitConst
  refine says_bind (says_visitOptName visitFieldName _ (says_visitName _ _) n) fun _ => says_bind0 (says_visitOptSize s)
    fun _ => says_bind0 (says_constSize _ _) fun _ => says_bind0 (says_visitConstVal v) fun _ => ?_
  exact says_ite (fun _ => says_fail _ _) fun _ => says_tail (says_visitFieldOptions os []) fun _ => says_pure _

theorem says_finishStruct (n : Str) (s : Int) (fs : List FieldD) : Says (finishStruct n s fs) [] := by
  unfold finishStruct
  refine says_ite (fun _ => says_fail _ _) fun _ => ?_
  dsimp only
  split
  · exact says_fail _ _
  · refine says_ite (fun _ => says_fail _ _) fun _ => says_ite (fun _ => says_pure _) fun _ => says_ite (fun _ => says_fail _ _)
      fun _ => says_ite (fun _ => says_fail _ _) fun _ => says_pure _

mutual
  theorem says_visitElem : (e : ElemA) → Says (visitElem e) (elemW e)
    | .basic p => by rw [visitElem, elemW]; exact says_pure _
    | .str => by rw [visitElem, elemW]; exact says_pure _
    | .bytes => by rw [visitElem, elemW]; exact says_pure _
    | .structName n => by rw [visitElem, elemW]; exact says_lookupStruct n
    | .structDef d => by
      have ih := says_visitStruct d
      rw [visitElem, elemW]; exact says_tail ih fun _ => says_pure _
    | .enumName n => by rw [visitElem, elemW]; exact says_lookupEnum n
    | .ident n => by rw [visitElem, elemW]; exact says_lookupType n
  theorem says_visitType : (t : TypeA) → Says (visitType t) (typeW t)
    | .elem e => by
      have ih := says_visitElem e
      rw [visitType, typeW]; exact ih
    | .array e len => by
      have ih := says_visitElem e
      rw [visitType, typeW]
      exact says_tail ih fun _ => says_bind0 (says_visitIntLit _) fun _ => says_ite (fun _ => says_fail _ _) fun _ => says_pure _
  theorem says_visitField : (f : FieldA) → Says (visitField f) (fieldW f)
    | .empty => by rw [visitField, fieldW]; exact says_pure _
    | .void s os => by
      rw [visitField, fieldW]
      exact says_bind0 (says_visitSizeA s) fun _ => says_tail (says_visitFieldOptions os []) fun _ => says_pure _
    | .const p n s v os => by
      rw [visitField, fieldW]
      exact says_tail (says_visitConst p n s v os) fun _ => says_pure _
    | .embedded t os => by
      have ih := says_visitType t
      rw [visitField, fieldW]
      refine says_bind ih fun ty => ?_
      split
      · exact says_tail (says_visitFieldOptions os []) fun _ => says_pure _
      · exact says_fail _ _
    | .normal t n s os ms => by
      have ih := says_visitType t
      rw [visitField, fieldW.eq_def]
      exact says_bind ih fun ty => says_tail (says_visitNormalRest ty n s os ms) fun _ => says_pure _
  theorem says_visitBody : (b : BodyA) → (a : Acc) → (errs : List CErr) →
      Says (visitBody b a errs) (bodyW b) ∧ (errs ≠ [] → ∀ u x, (visitBody b a errs u).1 ≠ .ok x)
    | .nil, a, errs => by
      rw [visitBody, bodyW]
      refine ⟨says_ite (fun _ => says_pure _) fun _ => says_err _ _, fun h u b => ?_⟩
      rw [if_neg h]; simp
    | .cons f r, a, errs => by
      have ihf := says_visitField f
      have ih := says_visitBody r
      rw [bodyW]
      constructor
      · refine says_step (fun o => match o with
            | .panic => fun u' => (.panic, u')
            | .err es => visitBody r a (errs ++ es)
            | .ok none => visitBody r a errs
            | .ok (some fd) => match addField fd a with
              | .error e => fun u' => (.err [wrapAdd fd e], u')
              | .ok a' => visitBody r a' errs) (t := bodyW r) ihf (honest_visitField f)
          (fun o => by
            cases o with
            | none => exact (ih _ _).1
            | some fd =>
              dsimp only
              split
              · exact says_err _ _
              · exact (ih _ _).1)
          (fun es hes => ⟨(ih _ _).1, (ih _ _).2 (by simp [hes])⟩) (fun _ => rfl) fun u => ?_
        rw [visitBody]
        dsimp only
        rcases visitField f u with ⟨o, u'⟩
        rcases o with (_ | fd) | es | _
        · rfl
        · dsimp only; cases addField fd a <;> rfl
        · rfl
        · rfl
      · intro h u b
        rw [visitBody]
        dsimp only
        rcases visitField f u with ⟨o, u'⟩
        rcases o with (_ | fd) | es | _
        · exact (ih _ _).2 h _ _
        · dsimp only
          split
          · simp
          · exact (ih _ _).2 h _ _
        · exact (ih _ _).2 (by simp [h]) _ _
        · simp
  theorem says_visitStruct : (d : StructA) → Says (visitStruct d) (structW d)
    | .mk line col n s b => by
      have ih := says_visitBody b
      rw [visitStruct, structW]
      refine says_bind (says_visitName _ _ n) fun _ => says_bind0 says_getU fun _ => says_bind0 (says_addLocalName _ _) fun _ =>
        says_bind0 (says_visitOptSize s) fun _ => says_tail (ih _ _).1 fun _ => says_finishStruct _ _ _
end

/-! ### Enums -/

theorem says_visitEnumNum (v : Option (ConstA ⊕ Str)) : Says (visitEnumNum v) [] := by
  cases v with
  | none => exact says_pure _
  | some c =>
    refine says_bind0 (says_visitConstVal c) fun _ => ?_
    split
    · exact says_pure _
    · exact says_fail _ _

theorem says_visitEnumValue (line col : Nat) (n : Str) (v : Option (ConstA ⊕ Str)) :
    Says (visitEnumValue line col n v) (styleW Name.toAllCap n) := by
  unfold visitEnumValue
  exact says_tail (says_visitName _ _ n) fun _ => says_bind0 (says_visitEnumNum v) fun _ => says_bind0 says_getU fun _ =>
    says_pure _

theorem says_visitEnumBody (l : List EnumElemA) (vs : List (Pos × Str × Int)) (errs : List CErr) :
    Says (visitEnumBody l vs errs) (l.flatMap enumElemW) ∧ (errs ≠ [] → ∀ u b, (visitEnumBody l vs errs u).1 ≠ .ok b) := by
  induction l generalizing vs errs with
  | nil =>
    unfold visitEnumBody
    refine ⟨says_ite (fun _ => says_pure _) fun _ => says_err _ _, fun h u b => ?_⟩
    rw [if_neg h]; simp
  | cons x r ih =>
    cases x with
    | empty => rw [visitEnumBody, List.flatMap_cons]; exact ih vs errs
    | value line col n val =>
      rw [List.flatMap_cons]
      constructor
      · refine says_step (fun o => match o with
            | .panic => fun u' => (.panic, u')
            | .err es => visitEnumBody r vs (errs ++ es)
            | .ok (pos, name, v) => if vs.any (fun e => e.2.1 = name) then fun u' => (.err [.duplicate name], u')
                else visitEnumBody r (vs ++ [(pos, name, enumNumber vs v)]) errs) (t := r.flatMap enumElemW)
          (says_visitEnumValue line col n val) (honest_visitEnumValue line col n val)
          (fun a => says_ite (fun _ => says_err _ _) fun _ => (ih _ _).1)
          (fun es hes => ⟨(ih _ _).1, (ih _ _).2 (by simp [hes])⟩) (fun _ => rfl) fun u => ?_
        rw [visitEnumBody]
        dsimp only
        rcases visitEnumValue line col n val u with ⟨o, u'⟩
        rcases o with ⟨pos, name, v⟩ | es | _
        · dsimp only; split <;> rfl
        · rfl
        · rfl
      · intro h u b
        rw [visitEnumBody]
        dsimp only
        rcases visitEnumValue line col n val u with ⟨o, u'⟩
        rcases o with ⟨pos, name, v⟩ | es | _
        · dsimp only
          split
          · simp
          · exact (ih _ _).2 h _ _
        · exact (ih _ _).2 (by simp [h]) _ _
        · simp

theorem says_addEnumNames (l : List (Pos × Str × Int)) (errs : List CErr) : Says (addEnumNames l errs) [] := by
  refine says_quiet fun u => ?_
  induction l generalizing errs u with
  | nil =>
    unfold addEnumNames
    split <;> rfl
  | cons x r ih =>
    obtain ⟨pos, n, v⟩ := x
    have h : (addLocalName n ⟨pos, some v⟩ u).2.warns = u.warns := by
      obtain ⟨ws, h1, h2, -⟩ := says_addLocalName n ⟨pos, some v⟩ u
      rw [h1, List.sublist_nil.1 h2, List.append_nil]
    rw [addEnumNames]
    dsimp only
    rcases hr : addLocalName n ⟨pos, some v⟩ u with ⟨o, u'⟩
    rw [hr] at h
    cases o with
    | ok a => exact (ih _ _).trans h
    | err es => exact (ih _ _).trans h
    | panic => exact h

theorem says_visitEnum (d : EnumA) : Says (visitEnum d) (enumW d) := by
  unfold visitEnum enumW
  refine says_bind (says_visitName _ _ _) fun _ => says_bind0 says_getU fun _ => says_bind0 (says_addLocalName _ _) fun _ =>
    says_bind0 (says_visitSizeA _) fun _ => says_tail (says_visitEnumBody _ _ _).1 fun _ => ?_
  exact says_ite (fun _ => says_fail _ _) fun _ => says_bind0 (says_addEnumNames _ _) fun _ => says_pure _

/-! ### Files -/

theorem says_visitTop (t : TopA) : Says (visitTop t) (topW t) := by
  unfold visitTop
  refine says_bind0 says_getU fun u => ?_
  cases t with
  | struct d =>
    obtain ⟨line, col, n, s, b⟩ := d
    exact says_tail (says_visitStruct _) fun _ => says_pure _
  | enum d => exact says_tail (says_visitEnum _) fun _ => says_pure _

theorem addLocalType_warns (u : UnitD) (t : TypeDef) : (u.addLocalType t).1.warns = u.warns := by
  unfold UnitD.addLocalType
  dsimp only
  split <;> rfl

theorem says_visitProto (l : List TopA) (errs : List CErr) :
    Says (visitProto l errs) (l.flatMap topW) ∧ (errs ≠ [] → ∀ u b, (visitProto l errs u).1 ≠ .ok b) := by
  induction l generalizing errs with
  | nil =>
    unfold visitProto
    refine ⟨says_ite (fun _ => says_pure _) fun _ => says_err _ _, fun h u b => ?_⟩
    rw [if_neg h]; simp
  | cons t r ih =>
    rw [List.flatMap_cons]
    constructor
    · refine says_step (fun o => match o with
          | .panic => fun u' => (.panic, u')
          | .err es => visitProto r (errs ++ es)
          | .ok td => fun u' => visitProto r errs (u'.addLocalType td).1) (t := r.flatMap topW) (says_visitTop t)
        (honest_visitTop t)
        (fun a u => by
          obtain ⟨ws, h1, h2, h3⟩ := (ih errs).1 (u.addLocalType a).1
          exact ⟨ws, by rw [h1, addLocalType_warns], h2, h3⟩)
        (fun es hes => ⟨(ih _).1, (ih _).2 (by simp [hes])⟩) (fun _ => rfl) fun u => ?_
      rw [visitProto]
      dsimp only
      rcases visitTop t u with ⟨o, u'⟩
      rcases o with td | es | _ <;> rfl
    · intro h u b
      rw [visitProto]
      dsimp only
      rcases visitTop t u with ⟨o, u'⟩
      rcases o with td | es | _
      · exact (ih _).2 h _ _
      · exact (ih _).2 (by simp [h]) _ _
      · simp

theorem visitIntLit_not_panic (t : Str) (u : UnitD) : (visitIntLit t u).1 ≠ .panic := by
  unfold visitIntLit
  cases Num.parseNat t with
  | none => exact nofun
  | some n =>
    dsimp only
    split
    · exact nofun
    · exact nofun

theorem visitConstant_not_panic (c : ConstA) (u : UnitD) : (visitConstant c u).1 ≠ .panic := by
  cases c with
  | int neg t =>
    have h := visitIntLit_not_panic t u
    show (V.bind (visitIntLit t) _ u).1 ≠ .panic
    unfold V.bind
    rcases hr : visitIntLit t u with ⟨o, u'⟩
    rw [hr] at h
    cases o with
    | ok a => exact nofun
    | err es => exact nofun
    | panic => exact absurd rfl h
  | float ok neg t =>
    show ((if ok = true then (pure _ : V Lit) else fail _) u).1 ≠ .panic
    split
    · exact nofun
    · exact nofun
  | str v => cases v <;> exact nofun
  | bool b => exact nofun

theorem visitFileOptions_warns (os : List OptA) (acc : List (Str × Lit)) (errs : List CErr) (u : UnitD) :
    ∃ ws, (visitFileOptions os acc errs u).2.2.warns = u.warns ++ ws ∧ ws.Sublist (unknownW fileOptionNames os) ∧
      ((visitFileOptions os acc errs u).2.1 = [] → errs = [] ∧ ws = unknownW fileOptionNames os) := by
  induction os generalizing acc errs u with
  | nil => exact ⟨[], by simp [visitFileOptions], List.nil_sublist _, fun h => ⟨h, rfl⟩⟩
  | cons o r ih =>
    rw [unknownW_cons]
    unfold visitFileOptions
    obtain ⟨w0, h1, h2, -⟩ := says_visitConstant o.val u
    have h0 : (visitConstant o.val u).2.warns = u.warns := by rw [h1, List.sublist_nil.1 h2, List.append_nil]
    have hh := honest_visitConstant o.val u
    rcases hr : visitConstant o.val u with ⟨c, u'⟩
    rw [hr] at h0
    dsimp only at h0
    have skip : ∀ (acc : List (Str × Lit)) (es : List CErr) (v : UnitD) (w : List Warn), v.warns = u.warns ++ w → es ≠ [] →
        w.Sublist (if o.name ∈ fileOptionNames then [] else [.unknownOption o.name]) →
        ∃ ws, (visitFileOptions r acc (errs ++ es) v).2.2.warns = u.warns ++ ws ∧
          ws.Sublist ((if o.name ∈ fileOptionNames then [] else [.unknownOption o.name]) ++ unknownW fileOptionNames r) ∧
          ((visitFileOptions r acc (errs ++ es) v).2.1 = [] → errs = [] ∧
            ws = (if o.name ∈ fileOptionNames then [] else [.unknownOption o.name]) ++ unknownW fileOptionNames r) := by
      intro acc es v w hv hes hw
      obtain ⟨w2, k1, k2, k3⟩ := ih acc (errs ++ es) v
      refine ⟨w ++ w2, by rw [k1, hv, List.append_assoc], hw.append k2, fun h => ?_⟩
      exact absurd (k3 h).1 (by simp [hes])
    have go : ∀ (acc : List (Str × Lit)) (v : UnitD),
        v.warns = u.warns ++ (if o.name ∈ fileOptionNames then [] else [.unknownOption o.name]) →
        ∃ ws, (visitFileOptions r acc errs v).2.2.warns = u.warns ++ ws ∧
          ws.Sublist ((if o.name ∈ fileOptionNames then [] else [.unknownOption o.name]) ++ unknownW fileOptionNames r) ∧
          ((visitFileOptions r acc errs v).2.1 = [] → errs = [] ∧
            ws = (if o.name ∈ fileOptionNames then [] else [.unknownOption o.name]) ++ unknownW fileOptionNames r) := by
      intro acc v hv
      obtain ⟨w2, k1, k2, k3⟩ := ih acc errs v
      exact ⟨_ ++ w2, by rw [k1, hv, List.append_assoc], (List.Sublist.refl _).append k2, fun h => ⟨(k3 h).1, by rw [(k3 h).2]⟩⟩
    cases c with
    | ok val =>
      dsimp only
      rcases fileValidate_warns o.name val with ⟨e1, e2⟩ | ⟨e1, e2⟩
      · rw [if_pos e1] at go skip ⊢
        rcases h : fileValidator.validate o.name val with _ | w | e
        · dsimp only
          split
          · exact skip _ _ _ [] (by simp [h0]) (by simp) (.refl _)
          · exact go _ _ (by simp [h0])
        · exact absurd h (e2 w)
        · exact skip _ _ _ [] (by simp [h0]) (by simp) (.refl _)
      · rw [if_neg e1] at go skip ⊢
        rw [e2]
        dsimp only
        split
        · exact skip _ _ _ _ (by simp [h0]) (by simp) (.refl _)
        · exact go _ _ (by simp [h0])
    | err es => exact skip _ _ _ [] (by simp [h0]) (hh _ _ hr) (List.nil_sublist _)
    | panic =>
      exact absurd (congrArg Prod.fst hr) (visitConstant_not_panic o.val u)

end Bubbler.Comp
