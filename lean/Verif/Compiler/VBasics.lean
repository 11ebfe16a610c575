import Verif.Compiler.Visitor
import Verif.Compiler.Maps

/-
Reasoning about visitor methods: when a composition succeeds, and what a visitor may change in the unit.
-/
namespace Bubbler.Comp

theorem bind_ok {α β : Type} {x : V α} {f : α → V β} {u u' : UnitD} {b : β} :
    (x >>= f) u = (.ok b, u') ↔ ∃ a u1, x u = (.ok a, u1) ∧ f a u1 = (.ok b, u') := by
  show V.bind x f u = _ ↔ _
  unfold V.bind
  rcases h : x u with ⟨o, u1⟩
  cases o with
  | ok a =>
    constructor
    · intro e; exact ⟨a, u1, rfl, e⟩
    · rintro ⟨_, _, e, k⟩
      simp only [Prod.mk.injEq, Out.ok.injEq] at e
      obtain ⟨rfl, rfl⟩ := e
      exact k
  | err es => simp
  | panic => simp

theorem pure_ok {α : Type} {a b : α} {u u' : UnitD} : (pure a : V α) u = (.ok b, u') ↔ a = b ∧ u = u' := by
  show V.pure a u = _ ↔ _
  unfold V.pure
  simp

theorem fail_ok {α : Type} {e : CErr} {b : α} {u u' : UnitD} : (fail e : V α) u = (.ok b, u') ↔ False := by
  simp [fail]

theorem warn_ok {w : Warn} {u u' : UnitD} {x : Unit} :
    warn w u = (.ok x, u') ↔ { u with warns := u.warns ++ [w] } = u' := by simp [warn]

theorem getU_ok {u u' v : UnitD} : getU u = (.ok v, u') ↔ u = v ∧ u = u' := by simp [getU]

theorem errs_ok {α : Type} {es : List CErr} {b : α} {u u' : UnitD} :
    ((fun u => (.err es, u)) : V α) u = (.ok b, u') ↔ False := by simp

/-- The name tables of a unit are consistent: names are bound once, and the local names are exactly the visible names that
are defined in this file. -/
structure Tab (u : UnitD) : Prop where
  globalNodup : (u.globalNames.map (·.1)).Nodup
  localNodup : (u.localNames.map (·.1)).Nodup
  localIff : ∀ e, e ∈ u.localNames ↔ e ∈ u.globalNames ∧ e.2.pos.file = u.path

/-- What visitors below the level of a file may change: they warn and they register names of this file. -/
structure Step (u u' : UnitD) : Prop where
  path : u'.path = u.path
  pkg : u'.pkg = u.pkg
  options : u'.options = u.options
  globalImports : u'.globalImports = u.globalImports
  localImports : u'.localImports = u.localImports
  globalTypes : u'.globalTypes = u.globalTypes
  localTypes : u'.localTypes = u.localTypes
  globalNames : ∃ x, u'.globalNames = u.globalNames ++ x ∧ ∀ e ∈ x, e.2.pos.file = u.path
  localNames : ∃ x, u'.localNames = u.localNames ++ x ∧ ∀ e ∈ x, e.2.pos.file = u.path
  warns : ∃ x, u'.warns = u.warns ++ x
  tab : Tab u → Tab u'

theorem Step.refl (u : UnitD) : Step u u :=
  ⟨rfl, rfl, rfl, rfl, rfl, rfl, rfl, ⟨[], by simp⟩, ⟨[], by simp⟩, ⟨[], by simp⟩, id⟩

theorem Step.trans {a b c : UnitD} (h : Step a b) (k : Step b c) : Step a c := by
  obtain ⟨x, hx, hx'⟩ := h.globalNames
  obtain ⟨y, hy, hy'⟩ := k.globalNames
  obtain ⟨p, hp, hp'⟩ := h.localNames
  obtain ⟨q, hq, hq'⟩ := k.localNames
  obtain ⟨r, hr⟩ := h.warns
  obtain ⟨s, hs⟩ := k.warns
  rw [h.path] at hy' hq'
  refine ⟨k.path.trans h.path, k.pkg.trans h.pkg, k.options.trans h.options, k.globalImports.trans h.globalImports,
    k.localImports.trans h.localImports, k.globalTypes.trans h.globalTypes, k.localTypes.trans h.localTypes,
    ⟨x ++ y, by rw [hy, hx, List.append_assoc], ?_⟩, ⟨p ++ q, by rw [hq, hp, List.append_assoc], ?_⟩,
    ⟨r ++ s, by rw [hs, hr, List.append_assoc]⟩, fun t => k.tab (h.tab t)⟩
  · intro e he
    rcases List.mem_append.1 he with he | he
    · exact hx' e he
    · exact hy' e he
  · intro e he
    rcases List.mem_append.1 he with he | he
    · exact hp' e he
    · exact hq' e he

/-- A visitor that always makes a `Step`. -/
def Steps {α : Type} (x : V α) : Prop := ∀ u, Step u (x u).2

theorem Steps.ok {α : Type} {x : V α} (h : Steps x) {u u' : UnitD} {o : Out α} (e : x u = (o, u')) : Step u u' := by
  have := h u
  rw [e] at this
  exact this

theorem steps_pure {α : Type} (a : α) : Steps (pure a : V α) := fun u => Step.refl u

theorem steps_fail {α : Type} (e : CErr) : Steps (fail e : V α) := fun u => Step.refl u

theorem steps_errs {α : Type} (es : List CErr) : Steps ((fun u => (.err es, u)) : V α) := fun u => Step.refl u

theorem steps_bind {α β : Type} {x : V α} {f : α → V β} (hx : Steps x) (hf : ∀ a, Steps (f a)) : Steps (x >>= f) := by
  intro u
  show Step u (V.bind x f u).2
  unfold V.bind
  rcases h : x u with ⟨o, u1⟩
  have h1 := hx.ok h
  cases o with
  | ok a => exact h1.trans (hf a u1)
  | err es => exact h1
  | panic => exact h1

theorem steps_warn (w : Warn) : Steps (warn w) := by
  intro u
  refine ⟨rfl, rfl, rfl, rfl, rfl, rfl, rfl, ⟨[], by simp [warn]⟩, ⟨[], by simp [warn]⟩, ⟨[w], rfl⟩, fun t => ⟨t.1, t.2, t.3⟩⟩

theorem steps_getU : Steps getU := fun u => Step.refl u

theorem steps_ite {α : Type} {p : Prop} [Decidable p] {x y : V α} (hx : Steps x) (hy : Steps y) :
    Steps (if p then x else y) := by
  split
  · exact hx
  · exact hy

/-- Registering a name of this file is a `Step`. -/
theorem step_addLocalName (u : UnitD) (n : Str) (d : NameDef) (h : d.pos.file = u.path) :
    Step u (addLocalName n d u).2 := by
  unfold addLocalName UnitD.addLocalName
  split
  · rename_i u' e
    split at e
    · simp at e
    · simp at e
      subst e
      refine ⟨rfl, rfl, rfl, rfl, rfl, rfl, rfl, aput_ext _ _ _ _ h, aput_ext _ _ _ _ h, ⟨[], by simp⟩, fun t => ?_⟩
      refine ⟨aput_nodup _ _ _ t.1, aput_nodup _ _ _ t.2, ?_⟩
      intro e
      simp only
      by_cases hg : n ∈ u.globalNames.map (·.1)
      · rw [aput_old _ _ _ hg]
        by_cases hl : n ∈ u.localNames.map (·.1)
        · rw [aput_old _ _ _ hl]
          exact t.3 e
        · exfalso
          rename_i hc
          obtain ⟨⟨m, d'⟩, he, rfl⟩ := List.mem_map.1 hg
          refine hl (List.mem_map.2 ⟨(m, d'), (t.3 _).2 ⟨he, ?_⟩, rfl⟩)
          simp only [UnitD.conflicts, (aget_some_iff t.1).2 he] at hc
          have : d'.pos = d.pos := by simpa using hc
          simp only [this, h]
      · have hl : n ∉ u.localNames.map (·.1) := by
          intro hl
          obtain ⟨e, he, rfl⟩ := List.mem_map.1 hl
          exact hg (List.mem_map.2 ⟨e, ((t.3 _).1 he).1, rfl⟩)
        rw [aput_new _ _ _ hg, aput_new _ _ _ hl]
        simp only [List.mem_append, List.mem_singleton, t.3 e]
        constructor
        · rintro (⟨a, b⟩ | rfl)
          · exact ⟨.inl a, b⟩
          · exact ⟨.inr rfl, h⟩
        · rintro ⟨a | a, b⟩
          · exact .inl ⟨a, b⟩
          · exact .inr a
  · rename_i u' e
    split at e
    · simp at e
      subst e
      exact Step.refl _
    · simp at e

theorem steps_visitIntLit (t : Str) : Steps (visitIntLit t) := by
  unfold visitIntLit
  split
  · exact steps_ite (steps_pure _) (steps_fail _)
  · exact steps_fail _

theorem steps_visitConstant (c : ConstA) : Steps (visitConstant c) := by
  unfold visitConstant
  split
  · exact steps_bind (steps_visitIntLit _) fun _ => steps_pure _
  · exact steps_ite (steps_pure _) (steps_fail _)
  · exact steps_fail _
  · exact steps_pure _
  · exact steps_pure _

theorem steps_visitOptInt (s : Option Str) : Steps (visitOptInt s) := by
  unfold visitOptInt
  split
  · exact steps_visitIntLit _
  · exact steps_pure _

theorem steps_visitSizeA (s : SizeA) : Steps (visitSizeA s) := by
  unfold visitSizeA
  refine steps_bind (steps_visitOptInt _) fun _ => steps_bind (steps_visitOptInt _) fun _ => ?_
  split
  · exact steps_pure _
  · exact steps_fail _

theorem steps_visitOptSize (s : Option SizeA) : Steps (visitOptSize s) := by
  unfold visitOptSize
  split
  · exact steps_pure _
  · exact steps_visitSizeA _

theorem steps_visitName (check : Str → Bool) (conv : Str → Str) (n : Str) : Steps (visitName check conv n) := by
  unfold visitName
  exact steps_ite (steps_fail _) (steps_ite (steps_bind (steps_warn _) fun _ => steps_pure _) (steps_pure _))

theorem steps_visitFieldOptions (os : List OptA) (acc : List (Str × Lit)) : Steps (visitFieldOptions os acc) := by
  induction os generalizing acc with
  | nil => exact steps_pure _
  | cons o r ih =>
    unfold visitFieldOptions
    refine steps_bind (steps_visitConstant _) fun _ => ?_
    split
    · exact steps_fail _
    · exact steps_bind (steps_warn _) fun _ => steps_ite (steps_fail _) (ih _)
    · exact steps_ite (steps_fail _) (ih _)

theorem steps_visitOptName (v : Str → V Str) (n : Option Str) (h : ∀ n, Steps (v n)) : Steps (visitOptName v n) := by
  unfold visitOptName
  split
  · exact h _
  · exact steps_pure _

theorem steps_visitMethod (m : MethA) : Steps (visitMethod m) := by
  unfold visitMethod
  exact steps_bind (steps_visitOptName _ _ (steps_visitName _ _)) fun _ =>
    steps_ite (steps_fail _) (steps_ite (steps_fail _) (steps_pure _))

theorem steps_visitMethods (l : List MethA) (ms : List (Str × List (Bool × Prim))) (errs : List CErr) :
    Steps (visitMethods l ms errs) := by
  induction l generalizing ms errs with
  | nil =>
    unfold visitMethods
    exact steps_ite (steps_pure _) (steps_errs _)
  | cons m r ih =>
    intro u
    unfold visitMethods
    rcases h : visitMethod m u with ⟨o, u1⟩
    have h1 := (steps_visitMethod m).ok h
    cases o with
    | panic => exact h1
    | err es => exact h1.trans (ih _ _ u1)
    | ok a =>
      obtain ⟨s, n, t⟩ := a
      simp only
      split
      · exact h1
      · exact h1.trans (ih _ _ u1)

theorem steps_lookupType (n : Str) : Steps (lookupType n) := by
  intro u
  unfold lookupType
  split <;> exact Step.refl _

theorem steps_nameOrPanic (v : Str → V Str) (n : Str) (h : Steps (v n)) : Steps (nameOrPanic v n) := by
  intro u
  have := h u
  unfold nameOrPanic
  split
  · rename_i e; rw [e] at this; exact this
  · rename_i e; rw [e] at this; exact this

theorem steps_lookupStruct (n : Str) : Steps (lookupStruct n) := by
  unfold lookupStruct
  refine steps_bind (steps_nameOrPanic _ _ (steps_visitName _ _ _)) fun _ => steps_bind (steps_lookupType _) fun _ => ?_
  split
  · exact steps_pure _
  · exact steps_fail _

theorem steps_lookupEnum (n : Str) : Steps (lookupEnum n) := by
  unfold lookupEnum
  refine steps_bind (steps_nameOrPanic _ _ (steps_visitName _ _ _)) fun _ => steps_bind (steps_lookupType _) fun _ => ?_
  split
  · exact steps_pure _
  · exact steps_fail _

theorem steps_normalSize (t : CTy) (s : Int) : Steps (normalSize t s) := by
  unfold normalSize
  refine steps_ite (steps_pure _) (steps_ite (steps_fail _) (steps_ite (steps_fail _) ?_))
  split
  · exact steps_ite (steps_fail _) (steps_pure _)
  · exact steps_ite (steps_fail _) (steps_pure _)
  · exact steps_pure _

theorem steps_visitNormalRest (t : CTy) (n : Str) (s : Option SizeA) (os : List OptA) (ms : Option (List MethA)) :
    Steps (visitNormalRest t n s os ms) := by
  unfold visitNormalRest
  refine steps_bind (steps_visitName _ _ _) fun _ => steps_bind (steps_visitOptSize _) fun _ =>
    steps_bind (steps_normalSize _ _) fun _ => steps_bind (steps_visitFieldOptions _ _) fun _ => ?_
  split
  · exact steps_pure _
  · split
    · exact steps_bind (steps_visitMethods _ _ _) fun _ => steps_pure _
    · exact steps_fail _

theorem steps_visitConstVal (v : ConstA ⊕ Str) : Steps (visitConstVal v) := by
  intro u
  unfold visitConstVal
  split
  · exact steps_visitConstant _ u
  · split
    · exact Step.refl _
    · split <;> exact Step.refl _

theorem steps_constSize (p : Prim) (s : Int) : Steps (constSize p s) := by
  unfold constSize
  exact steps_ite (steps_pure _) (steps_ite (steps_fail _) (steps_pure _))

theorem steps_visitConst (p : Prim) (n : Option Str) (s : Option SizeA) (v : ConstA ⊕ Str) (os : List OptA) :
    Steps (visitConst p n s v os) := by
  unfold visitConst
  refine steps_bind (steps_visitOptName _ _ (steps_visitName _ _)) fun _ => steps_bind (steps_visitOptSize _) fun _ =>
    steps_bind (steps_constSize _ _) fun _ => steps_bind (steps_visitConstVal _) fun _ => ?_
  exact steps_ite (steps_fail _) (steps_bind (steps_visitFieldOptions _ _) fun _ => steps_pure _)

theorem steps_finishStruct (n : Str) (s : Int) (fs : List FieldD) : Steps (finishStruct n s fs) := by
  unfold finishStruct
  refine steps_ite (steps_fail _) ?_
  dsimp only
  split
  · exact steps_fail _
  · exact steps_ite (steps_fail _) (steps_ite (steps_pure _) (steps_ite (steps_fail _) (steps_ite (steps_fail _) (steps_pure _))))

mutual
  theorem steps_visitElem : ∀ e : ElemA, Steps (visitElem e)
    | .basic p => by unfold visitElem; exact steps_pure _
    | .str => by unfold visitElem; exact steps_pure _
    | .bytes => by unfold visitElem; exact steps_pure _
    | .structName n => by unfold visitElem; exact steps_lookupStruct _
    | .structDef d => by unfold visitElem; exact steps_bind (steps_visitStruct d) fun _ => steps_pure _
    | .enumName n => by unfold visitElem; exact steps_lookupEnum _
    | .ident n => by unfold visitElem; exact steps_lookupType _
  theorem steps_visitType : ∀ t : TypeA, Steps (visitType t)
    | .elem e => by unfold visitType; exact steps_visitElem e
    | .array e len => by
      unfold visitType
      exact steps_bind (steps_visitElem e) fun _ => steps_bind (steps_visitIntLit _) fun _ =>
        steps_ite (steps_fail _) (steps_pure _)
  theorem steps_visitField : ∀ f : FieldA, Steps (visitField f)
    | .empty => by unfold visitField; exact steps_pure _
    | .void s os => by
      unfold visitField
      exact steps_bind (steps_visitSizeA _) fun _ => steps_bind (steps_visitFieldOptions _ _) fun _ => steps_pure _
    | .const p n s v os => by
      unfold visitField
      exact steps_bind (steps_visitConst _ _ _ _ _) fun _ => steps_pure _
    | .embedded t os => by
      unfold visitField
      refine steps_bind (steps_visitType t) fun _ => ?_
      split
      · exact steps_bind (steps_visitFieldOptions _ _) fun _ => steps_pure _
      · exact steps_fail _
    | .normal t n s os ms => by
      unfold visitField
      exact steps_bind (steps_visitType t) fun _ => steps_bind (steps_visitNormalRest _ _ _ _ _) fun _ => steps_pure _
  theorem steps_visitBody : ∀ (b : BodyA) (a : Acc) (errs : List CErr), Steps (visitBody b a errs)
    | .nil, a, errs => by unfold visitBody; exact steps_ite (steps_pure _) (steps_errs _)
    | .cons f r, a, errs => by
      intro u
      unfold visitBody
      have h1 := steps_visitField f u
      rcases h : visitField f u with ⟨o, u1⟩
      rw [h] at h1
      cases o with
      | panic => exact h1
      | err es => exact h1.trans (steps_visitBody r _ _ u1)
      | ok fd =>
        cases fd with
        | none => exact h1.trans (steps_visitBody r _ _ u1)
        | some fd =>
          simp only
          split
          · exact h1
          · exact h1.trans (steps_visitBody r _ _ u1)
  theorem steps_visitStruct : ∀ s : StructA, Steps (visitStruct s)
    | .mk line col name size body => by
      unfold visitStruct
      refine steps_bind (steps_visitName _ _ _) fun name => ?_
      intro u
      have hb : Steps (do
          let size ← visitOptSize size
          let fields ← visitBody body ⟨[], []⟩ []
          finishStruct name size fields) :=
        steps_bind (steps_visitOptSize _) fun _ => steps_bind (steps_visitBody body _ _) fun _ => steps_finishStruct _ _ _
      have ha := step_addLocalName u name ⟨⟨u.path, line, col⟩, none⟩ rfl
      show Step u (V.bind getU _ u).2
      unfold V.bind getU
      show Step u (V.bind (addLocalName name ⟨⟨u.path, line, col⟩, none⟩) _ u).2
      unfold V.bind
      rcases h : addLocalName name ⟨⟨u.path, line, col⟩, none⟩ u with ⟨o, u1⟩
      rw [h] at ha
      cases o with
      | panic => exact ha
      | err es => exact ha
      | ok x => exact ha.trans (hb u1)
end

theorem steps_visitEnumNum (v : Option (ConstA ⊕ Str)) : Steps (visitEnumNum v) := by
  unfold visitEnumNum
  split
  · exact steps_pure _
  · refine steps_bind (steps_visitConstVal _) fun _ => ?_
    split
    · exact steps_pure _
    · exact steps_fail _

theorem steps_visitEnumValue (line col : Nat) (n : Str) (v : Option (ConstA ⊕ Str)) : Steps (visitEnumValue line col n v) := by
  unfold visitEnumValue
  exact steps_bind (steps_visitName _ _ _) fun _ => steps_bind (steps_visitEnumNum _) fun _ => steps_bind steps_getU fun _ => steps_pure _

theorem visitEnumValue_ok {line col : Nat} {n : Str} {v : Option (ConstA ⊕ Str)} {u u' : UnitD} {p : Pos} {m : Str} {x : Int} :
    visitEnumValue line col n v u = (.ok (p, m, x), u') ↔
      ∃ u1, visitEnumValueName n u = (.ok m, u1) ∧ visitEnumNum v u1 = (.ok x, u') ∧ p = ⟨u'.path, line, col⟩ := by
  unfold visitEnumValue
  simp only [bind_ok, pure_ok, getU_ok, Prod.mk.injEq]
  constructor
  · rintro ⟨_, u1, h1, _, u2, h2, _, _, ⟨rfl, rfl⟩, ⟨rfl, rfl, rfl⟩, rfl⟩
    exact ⟨u1, h1, h2, rfl⟩
  · rintro ⟨u1, h1, h2, rfl⟩
    exact ⟨_, u1, h1, _, _, h2, _, _, ⟨rfl, rfl⟩, ⟨rfl, rfl, rfl⟩, rfl⟩

/-- The values collected so far carry the path of the file. -/
theorem steps_visitEnumBody (b : List EnumElemA) (vs : List (Pos × Str × Int)) (errs : List CErr) :
    Steps (visitEnumBody b vs errs) := by
  induction b generalizing vs errs with
  | nil =>
    unfold visitEnumBody
    exact steps_ite (steps_pure _) (steps_errs _)
  | cons e r ih =>
    cases e with
    | empty => unfold visitEnumBody; exact ih _ _
    | value line col n v =>
      intro u
      unfold visitEnumBody
      rcases h : visitEnumValue line col n v u with ⟨o, u1⟩
      have h1 := (steps_visitEnumValue line col n v).ok h
      cases o with
      | panic => exact h1
      | err es => exact h1.trans (ih _ _ u1)
      | ok a =>
        obtain ⟨p, m, x⟩ := a
        simp only
        split
        · exact h1
        · exact h1.trans (ih _ _ u1)

theorem visitEnumBody_file (b : List EnumElemA) (vs : List (Pos × Str × Int)) (errs : List CErr) (u u' : UnitD)
    (out : List (Pos × Str × Int)) (h : visitEnumBody b vs errs u = (.ok out, u')) (hv : ∀ e ∈ vs, e.1.file = u.path) :
    ∀ e ∈ out, e.1.file = u'.path := by
  induction b generalizing vs errs u with
  | nil =>
    unfold visitEnumBody at h
    split at h
    · obtain ⟨rfl, rfl⟩ := pure_ok.1 h
      exact hv
    · simp at h
  | cons e r ih =>
    cases e with
    | empty => unfold visitEnumBody at h; exact ih _ _ _ h hv
    | value line col n v =>
      unfold visitEnumBody at h
      rcases k : visitEnumValue line col n v u with ⟨o, u1⟩
      have h1 := (steps_visitEnumValue line col n v).ok k
      rw [k] at h
      cases o with
      | panic => simp at h
      | err es => exact ih _ _ _ h (by rw [h1.path]; exact hv)
      | ok a =>
        obtain ⟨p, m, x⟩ := a
        simp only at h
        split at h
        · simp at h
        · refine ih _ _ _ h ?_
          obtain ⟨_, _, _, hp⟩ := visitEnumValue_ok.1 k
          intro e he
          rcases List.mem_append.1 he with he | he
          · rw [h1.path]; exact hv e he
          · obtain rfl := List.mem_singleton.1 he
            rw [hp]

theorem step_addEnumNames (vs : List (Pos × Str × Int)) (errs : List CErr) (u : UnitD) (hv : ∀ e ∈ vs, e.1.file = u.path) :
    Step u (addEnumNames vs errs u).2 := by
  induction vs generalizing errs u with
  | nil =>
    unfold addEnumNames
    exact steps_ite (steps_pure _) (steps_errs _) u
  | cons e r ih =>
    obtain ⟨p, n, v⟩ := e
    unfold addEnumNames
    have h1 := step_addLocalName u n ⟨p, some v⟩ (hv (p, n, v) (by simp))
    rcases k : addLocalName n ⟨p, some v⟩ u with ⟨o, u1⟩
    rw [k] at h1
    have h2 : ∀ e ∈ r, e.1.file = u1.path := by
      intro e he
      rw [h1.path]
      exact hv e (by simp [he])
    cases o with
    | panic => exact h1
    | err es => exact h1.trans (ih _ _ h2)
    | ok a => exact h1.trans (ih _ _ h2)

theorem bind_snd {α β : Type} {x : V α} {f : α → V β} {u : UnitD} {P : UnitD → Prop} (h0 : P (x u).2)
    (h : ∀ a u1, x u = (.ok a, u1) → P (f a u1).2) : P ((x >>= f) u).2 := by
  show P (V.bind x f u).2
  unfold V.bind
  rcases k : x u with ⟨o, u1⟩
  rw [k] at h0
  cases o with
  | ok a => exact h a u1 k
  | err es => exact h0
  | panic => exact h0

theorem steps_visitEnum (d : EnumA) : Steps (visitEnum d) := by
  unfold visitEnum
  refine steps_bind (steps_visitName _ _ _) fun name => ?_
  intro u
  refine bind_snd (Step.refl u) ?_
  intro a u1 e
  obtain ⟨rfl, rfl⟩ := getU_ok.1 e
  have ha := step_addLocalName u name ⟨⟨u.path, d.line, d.col⟩, none⟩ rfl
  refine bind_snd ha ?_
  intro x u1 e1
  rw [e1] at ha
  refine ha.trans ?_
  refine bind_snd (steps_visitSizeA _ _) ?_
  intro s u2 e2
  refine ((steps_visitSizeA _).ok e2).trans ?_
  refine bind_snd (steps_visitEnumBody _ _ _ _) ?_
  intro vs u3 e3
  refine ((steps_visitEnumBody _ _ _).ok e3).trans ?_
  split
  · exact Step.refl _
  · have h4 := step_addEnumNames vs [] u3 (visitEnumBody_file _ _ _ _ _ _ e3 (by simp))
    refine bind_snd h4 ?_
    intro x u4 e4
    rw [e4] at h4
    exact h4

theorem steps_visitTop (t : TopA) : Steps (visitTop t) := by
  unfold visitTop
  refine steps_bind steps_getU fun u => ?_
  split
  · exact steps_bind (steps_visitStruct _) fun _ => steps_pure _
  · exact steps_bind (steps_visitEnum _) fun _ => steps_pure _

/-! ### A failing visitor reports at least one error -/

def Honest {α : Type} (x : V α) : Prop := ∀ u es u', x u = (.err es, u') → es ≠ []

theorem honest_pure {α : Type} (a : α) : Honest (pure a : V α) := by
  intro u es u' h
  exact absurd h (by simp [pure, V.pure])

theorem honest_fail {α : Type} (e : CErr) : Honest (fail e : V α) := by
  intro u es u' h
  simp only [fail, Prod.mk.injEq, Out.err.injEq] at h
  rw [← h.1]
  simp

theorem honest_bind {α β : Type} {x : V α} {f : α → V β} (hx : Honest x) (hf : ∀ a, Honest (f a)) : Honest (x >>= f) := by
  intro u es u' h
  change V.bind x f u = _ at h
  unfold V.bind at h
  rcases k : x u with ⟨o, u1⟩
  rw [k] at h
  cases o with
  | ok a => exact hf a u1 es u' h
  | err es' =>
    simp only [Prod.mk.injEq, Out.err.injEq] at h
    rw [← h.1]
    exact hx _ _ _ k
  | panic => simp at h

theorem honest_warn (w : Warn) : Honest (warn w) := by intro u es u' h; simp [warn] at h

theorem honest_getU : Honest getU := by intro u es u' h; simp [getU] at h

theorem honest_ite {α : Type} {p : Prop} [Decidable p] {x y : V α} (hx : Honest x) (hy : Honest y) :
    Honest (if p then x else y) := by
  split
  · exact hx
  · exact hy

theorem honest_errs {α : Type} {x : V α} (es : List CErr) (hx : Honest x) :
    Honest (if es = [] then x else (fun u => (.err es, u))) := by
  split
  · exact hx
  · intro u es' u' h
    simp only [Prod.mk.injEq, Out.err.injEq] at h
    rw [← h.1]
    assumption

theorem honest_addLocalName (n : Str) (d : NameDef) : Honest (addLocalName n d) := by
  intro u es u' h
  unfold addLocalName at h
  split at h
  · simp at h
  · simp only [Prod.mk.injEq, Out.err.injEq] at h
    rw [← h.1]
    simp

theorem honest_visitIntLit (t : Str) : Honest (visitIntLit t) := by
  unfold visitIntLit
  split
  · exact honest_ite (honest_pure _) (honest_fail _)
  · exact honest_fail _

theorem honest_visitConstant (c : ConstA) : Honest (visitConstant c) := by
  unfold visitConstant
  split
  · exact honest_bind (honest_visitIntLit _) fun _ => honest_pure _
  · exact honest_ite (honest_pure _) (honest_fail _)
  · exact honest_fail _
  · exact honest_pure _
  · exact honest_pure _

theorem honest_visitOptInt (s : Option Str) : Honest (visitOptInt s) := by
  unfold visitOptInt
  split
  · exact honest_visitIntLit _
  · exact honest_pure _

theorem honest_visitSizeA (s : SizeA) : Honest (visitSizeA s) := by
  unfold visitSizeA
  refine honest_bind (honest_visitOptInt _) fun _ => honest_bind (honest_visitOptInt _) fun _ => ?_
  split
  · exact honest_pure _
  · exact honest_fail _

theorem honest_visitOptSize (s : Option SizeA) : Honest (visitOptSize s) := by
  unfold visitOptSize
  split
  · exact honest_pure _
  · exact honest_visitSizeA _

theorem honest_visitName (check : Str → Bool) (conv : Str → Str) (n : Str) : Honest (visitName check conv n) := by
  unfold visitName
  exact honest_ite (honest_fail _) (honest_ite (honest_bind (honest_warn _) fun _ => honest_pure _) (honest_pure _))

theorem honest_visitFieldOptions (os : List OptA) (acc : List (Str × Lit)) : Honest (visitFieldOptions os acc) := by
  induction os generalizing acc with
  | nil => exact honest_pure _
  | cons o r ih =>
    unfold visitFieldOptions
    refine honest_bind (honest_visitConstant _) fun _ => ?_
    split
    · exact honest_fail _
    · exact honest_bind (honest_warn _) fun _ => honest_ite (honest_fail _) (ih _)
    · exact honest_ite (honest_fail _) (ih _)

theorem honest_visitOptName (v : Str → V Str) (n : Option Str) (h : ∀ n, Honest (v n)) : Honest (visitOptName v n) := by
  unfold visitOptName
  split
  · exact h _
  · exact honest_pure _

theorem honest_visitMethod (m : MethA) : Honest (visitMethod m) := by
  unfold visitMethod
  exact honest_bind (honest_visitOptName _ _ (honest_visitName _ _)) fun _ =>
    honest_ite (honest_fail _) (honest_ite (honest_fail _) (honest_pure _))

theorem honest_visitMethods (l : List MethA) (ms : List (Str × List (Bool × Prim))) (errs : List CErr) :
    Honest (visitMethods l ms errs) := by
  induction l generalizing ms errs with
  | nil =>
    unfold visitMethods
    exact honest_errs _ (honest_pure _)
  | cons m r ih =>
    intro u es u' h
    unfold visitMethods at h
    rcases k : visitMethod m u with ⟨o, u1⟩
    rw [k] at h
    cases o with
    | panic => simp at h
    | err es => exact ih _ _ _ _ _ h
    | ok a =>
      obtain ⟨s, n, t⟩ := a
      simp only at h
      split at h
      · simp only [Prod.mk.injEq, Out.err.injEq] at h
        rw [← h.1]
        simp
      · exact ih _ _ _ _ _ h

theorem honest_lookupType (n : Str) : Honest (lookupType n) := by
  intro u es u' h
  unfold lookupType at h
  split at h
  · simp at h
  · simp only [Prod.mk.injEq, Out.err.injEq] at h
    rw [← h.1]
    simp

theorem honest_nameOrPanic (v : Str → V Str) (n : Str) : Honest (nameOrPanic v n) := by
  intro u es u' h
  unfold nameOrPanic at h
  split at h <;> simp at h

theorem honest_lookupStruct (n : Str) : Honest (lookupStruct n) := by
  unfold lookupStruct
  refine honest_bind (honest_nameOrPanic _ _) fun _ => honest_bind (honest_lookupType _) fun _ => ?_
  split
  · exact honest_pure _
  · exact honest_fail _

theorem honest_lookupEnum (n : Str) : Honest (lookupEnum n) := by
  unfold lookupEnum
  refine honest_bind (honest_nameOrPanic _ _) fun _ => honest_bind (honest_lookupType _) fun _ => ?_
  split
  · exact honest_pure _
  · exact honest_fail _

theorem honest_normalSize (t : CTy) (s : Int) : Honest (normalSize t s) := by
  unfold normalSize
  refine honest_ite (honest_pure _) (honest_ite (honest_fail _) (honest_ite (honest_fail _) ?_))
  split
  · exact honest_ite (honest_fail _) (honest_pure _)
  · exact honest_ite (honest_fail _) (honest_pure _)
  · exact honest_pure _

theorem honest_visitNormalRest (t : CTy) (n : Str) (s : Option SizeA) (os : List OptA) (ms : Option (List MethA)) :
    Honest (visitNormalRest t n s os ms) := by
  unfold visitNormalRest
  refine honest_bind (honest_visitName _ _ _) fun _ => honest_bind (honest_visitOptSize _) fun _ =>
    honest_bind (honest_normalSize _ _) fun _ => honest_bind (honest_visitFieldOptions _ _) fun _ => ?_
  split
  · exact honest_pure _
  · split
    · exact honest_bind (honest_visitMethods _ _ _) fun _ => honest_pure _
    · exact honest_fail _

theorem honest_visitConstVal (v : ConstA ⊕ Str) : Honest (visitConstVal v) := by
  intro u es u' h
  unfold visitConstVal at h
  split at h
  · exact honest_visitConstant _ _ _ _ h
  · split at h
    · simp only [Prod.mk.injEq, Out.err.injEq] at h
      rw [← h.1]
      simp
    · split at h
      · simp at h
      · simp only [Prod.mk.injEq, Out.err.injEq] at h
        rw [← h.1]
        simp

theorem honest_constSize (p : Prim) (s : Int) : Honest (constSize p s) := by
  unfold constSize
  exact honest_ite (honest_pure _) (honest_ite (honest_fail _) (honest_pure _))

theorem honest_visitConst (p : Prim) (n : Option Str) (s : Option SizeA) (v : ConstA ⊕ Str) (os : List OptA) :
    Honest (visitConst p n s v os) := by
  unfold visitConst
  refine honest_bind (honest_visitOptName _ _ (honest_visitName _ _)) fun _ => honest_bind (honest_visitOptSize _) fun _ =>
    honest_bind (honest_constSize _ _) fun _ => honest_bind (honest_visitConstVal _) fun _ => ?_
  exact honest_ite (honest_fail _) (honest_bind (honest_visitFieldOptions _ _) fun _ => honest_pure _)

theorem honest_finishStruct (n : Str) (s : Int) (fs : List FieldD) : Honest (finishStruct n s fs) := by
  unfold finishStruct
  refine honest_ite (honest_fail _) ?_
  dsimp only
  split
  · exact honest_fail _
  · exact honest_ite (honest_fail _) (honest_ite (honest_pure _) (honest_ite (honest_fail _) (honest_ite (honest_fail _) (honest_pure _))))

mutual
  theorem honest_visitElem : ∀ e : ElemA, Honest (visitElem e)
    | .basic p => by unfold visitElem; exact honest_pure _
    | .str => by unfold visitElem; exact honest_pure _
    | .bytes => by unfold visitElem; exact honest_pure _
    | .structName n => by unfold visitElem; exact honest_lookupStruct _
    | .structDef d => by unfold visitElem; exact honest_bind (honest_visitStruct d) fun _ => honest_pure _
    | .enumName n => by unfold visitElem; exact honest_lookupEnum _
    | .ident n => by unfold visitElem; exact honest_lookupType _
  theorem honest_visitType : ∀ t : TypeA, Honest (visitType t)
    | .elem e => by unfold visitType; exact honest_visitElem e
    | .array e len => by
      unfold visitType
      exact honest_bind (honest_visitElem e) fun _ => honest_bind (honest_visitIntLit _) fun _ =>
        honest_ite (honest_fail _) (honest_pure _)
  theorem honest_visitField : ∀ f : FieldA, Honest (visitField f)
    | .empty => by unfold visitField; exact honest_pure _
    | .void s os => by
      unfold visitField
      exact honest_bind (honest_visitSizeA _) fun _ => honest_bind (honest_visitFieldOptions _ _) fun _ => honest_pure _
    | .const p n s v os => by
      unfold visitField
      exact honest_bind (honest_visitConst _ _ _ _ _) fun _ => honest_pure _
    | .embedded t os => by
      unfold visitField
      refine honest_bind (honest_visitType t) fun _ => ?_
      split
      · exact honest_bind (honest_visitFieldOptions _ _) fun _ => honest_pure _
      · exact honest_fail _
    | .normal t n s os ms => by
      unfold visitField
      exact honest_bind (honest_visitType t) fun _ => honest_bind (honest_visitNormalRest _ _ _ _ _) fun _ => honest_pure _
  theorem honest_visitBody : ∀ (b : BodyA) (a : Acc) (errs : List CErr), Honest (visitBody b a errs)
    | .nil, a, errs => by unfold visitBody; exact honest_errs _ (honest_pure _)
    | .cons f r, a, errs => by
      intro u es u' h
      unfold visitBody at h
      rcases k : visitField f u with ⟨o, u1⟩
      rw [k] at h
      cases o with
      | panic => simp at h
      | err es => exact honest_visitBody r _ _ _ _ _ h
      | ok fd =>
        cases fd with
        | none => exact honest_visitBody r _ _ _ _ _ h
        | some fd =>
          simp only at h
          split at h
          · simp only [Prod.mk.injEq, Out.err.injEq] at h
            rw [← h.1]
            simp
          · exact honest_visitBody r _ _ _ _ _ h
  theorem honest_visitStruct : ∀ s : StructA, Honest (visitStruct s)
    | .mk line col name size body => by
      unfold visitStruct
      exact honest_bind (honest_visitName _ _ _) fun name => honest_bind honest_getU fun u =>
        honest_bind (honest_addLocalName _ _) fun _ => honest_bind (honest_visitOptSize _) fun _ =>
        honest_bind (honest_visitBody body _ _) fun _ => honest_finishStruct _ _ _
end

theorem honest_visitEnumNum (v : Option (ConstA ⊕ Str)) : Honest (visitEnumNum v) := by
  unfold visitEnumNum
  split
  · exact honest_pure _
  · refine honest_bind (honest_visitConstVal _) fun _ => ?_
    split
    · exact honest_pure _
    · exact honest_fail _

theorem honest_visitEnumValue (line col : Nat) (n : Str) (v : Option (ConstA ⊕ Str)) : Honest (visitEnumValue line col n v) := by
  unfold visitEnumValue
  exact honest_bind (honest_visitName _ _ _) fun _ => honest_bind (honest_visitEnumNum _) fun _ => honest_bind honest_getU fun _ => honest_pure _

theorem honest_visitEnumBody (b : List EnumElemA) (vs : List (Pos × Str × Int)) (errs : List CErr) :
    Honest (visitEnumBody b vs errs) := by
  induction b generalizing vs errs with
  | nil =>
    unfold visitEnumBody
    exact honest_errs _ (honest_pure _)
  | cons e r ih =>
    cases e with
    | empty => unfold visitEnumBody; exact ih _ _
    | value line col n v =>
      intro u es u' h
      unfold visitEnumBody at h
      rcases k : visitEnumValue line col n v u with ⟨o, u1⟩
      rw [k] at h
      cases o with
      | panic => simp at h
      | err es => exact ih _ _ _ _ _ h
      | ok a =>
        obtain ⟨p, m, x⟩ := a
        simp only at h
        split at h
        · simp only [Prod.mk.injEq, Out.err.injEq] at h
          rw [← h.1]
          simp
        · exact ih _ _ _ _ _ h

theorem honest_addEnumNames (vs : List (Pos × Str × Int)) (errs : List CErr) : Honest (addEnumNames vs errs) := by
  induction vs generalizing errs with
  | nil =>
    unfold addEnumNames
    exact honest_errs _ (honest_pure _)
  | cons e r ih =>
    obtain ⟨p, n, v⟩ := e
    intro u es u' h
    unfold addEnumNames at h
    rcases k : addLocalName n ⟨p, some v⟩ u with ⟨o, u1⟩
    rw [k] at h
    cases o with
    | panic => simp at h
    | err es => exact ih _ _ _ _ h
    | ok a => exact ih _ _ _ _ h

theorem honest_visitEnum (d : EnumA) : Honest (visitEnum d) := by
  unfold visitEnum
  refine honest_bind (honest_visitName _ _ _) fun name => honest_bind honest_getU fun u =>
    honest_bind (honest_addLocalName _ _) fun _ => honest_bind (honest_visitSizeA _) fun _ =>
    honest_bind (honest_visitEnumBody _ _ _) fun _ => ?_
  split
  · exact honest_fail _
  · exact honest_bind (honest_addEnumNames _ _) fun _ => honest_pure _

theorem honest_visitTop (t : TopA) : Honest (visitTop t) := by
  unfold visitTop
  refine honest_bind honest_getU fun u => ?_
  split
  · exact honest_bind (honest_visitStruct _) fun _ => honest_pure _
  · exact honest_bind (honest_visitEnum _) fun _ => honest_pure _

end Bubbler.Comp
