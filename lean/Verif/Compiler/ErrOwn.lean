import Verif.Compiler.ErrSpec
import Verif.Compiler.UnitProofs

/-
The visitors of one file report errors of its own text only.
-/
namespace Bubbler.Comp



/-- Every error of the visitor is an error of the text. -/
def Own {α : Type} (x : V α) : Prop := ∀ u es u', x u = (.err es, u') → ∀ e ∈ es, e.ofText = true

theorem of_one {e : CErr} (h : e.ofText = true) : ∀ x ∈ [e], x.ofText = true := by
  intro x hx
  rw [List.mem_singleton.1 hx]; exact h

theorem of_app {a b : List CErr} (ha : ∀ e ∈ a, e.ofText = true) (hb : ∀ e ∈ b, e.ofText = true) :
    ∀ e ∈ a ++ b, e.ofText = true := fun e he => (List.mem_append.1 he).elim (ha e) (hb e)

theorem validate_ofText {v : Validator} {n : Str} {l : Lit} {e : CErr} (h : v.validate n l = .error e) : e.ofText = true := by
  unfold Validator.validate at h
  split at h
  · split at h
    · cases h; rfl
    · split at h
      · split at h
        · cases h
        · cases h; rfl
      · cases h
  · split at h
    · split at h
      · cases h
      · cases h; rfl
    · cases h

theorem addMethod_ofText {ms : List (Str × List (Bool × Prim))} {b : Bool} {n : Str} {t : Prim} {e : CErr}
    (h : addMethod ms b n t = .error e) : e.ofText = true := by
  unfold addMethod at h
  split at h
  · split at h
    · cases h; rfl
    · split at h
      · cases h; rfl
      · cases h
  · cases h

theorem checkAlign_ofText {l : List FieldD} {z : Int} {e : CErr} (h : checkAlign l z = some e) : e.ofText = true := by
  induction l generalizing z with
  | nil => simp [checkAlign] at h
  | cons f r ih =>
    unfold checkAlign at h
    dsimp only at h
    split at h
    · split at h
      · cases h; rfl
      · exact ih h
    · exact ih h

theorem addName_ofText {a : Acc} {n : Str} {e : CErr} (h : addName a n = .error e) : e.ofText = true := by
  unfold addName at h
  split at h
  · cases h; rfl
  · cases h

theorem own_pure {α : Type} (a : α) : Own (pure a : V α) := by
  intro u es u' h
  exact absurd h (by simp [pure, V.pure])

theorem own_fail {α : Type} {e : CErr} (he : e.ofText = true) : Own (fail e : V α) := by
  intro u es u' h
  simp only [fail, Prod.mk.injEq, Out.err.injEq] at h
  rw [← h.1]
  exact of_one he

theorem own_bind {α β : Type} {x : V α} {f : α → V β} (hx : Own x) (hf : ∀ a, Own (f a)) : Own (x >>= f) := by
  intro u es u' h
  change V.bind x f u = _ at h
  unfold V.bind at h
  rcases k : x u with ⟨o, u1⟩
  rw [k] at h
  cases o with
  | ok a => exact hf a u1 es u' h
  | err es' =>
    simp only [Prod.mk.injEq, Out.err.injEq] at h
    rw [← h.1]
    exact hx _ _ _ k
  | panic => simp at h

theorem own_warn (w : Warn) : Own (warn w) := by intro u es u' h; simp [warn] at h

theorem own_getU : Own getU := by intro u es u' h; simp [getU] at h

theorem own_ite {α : Type} {p : Prop} [Decidable p] {x y : V α} (hx : Own x) (hy : Own y) :
    Own (if p then x else y) := by
  split
  · exact hx
  · exact hy

theorem own_errs {α : Type} {x : V α} (es : List CErr) (he : ∀ e ∈ es, e.ofText = true) (hx : Own x) :
    Own (if es = [] then x else (fun u => (.err es, u))) := by
  split
  · exact hx
  · intro u es' u' h
    simp only [Prod.mk.injEq, Out.err.injEq] at h
    rw [← h.1]
    assumption

theorem own_addLocalName (n : Str) (d : NameDef) : Own (addLocalName n d) := by
  intro u es u' h
  unfold addLocalName at h
  split at h
  · simp at h
  · simp only [Prod.mk.injEq, Out.err.injEq] at h
    rw [← h.1]
    exact of_one rfl

theorem own_visitIntLit (t : Str) : Own (visitIntLit t) := by
  unfold visitIntLit
  split
  · exact own_ite (own_pure _) (own_fail rfl)
  · exact own_fail rfl

theorem own_visitConstant (c : ConstA) : Own (visitConstant c) := by
  unfold visitConstant
  split
  · exact own_bind (own_visitIntLit _) fun _ => own_pure _
  · exact own_ite (own_pure _) (own_fail rfl)
  · exact own_fail rfl
  · exact own_pure _
  · exact own_pure _

theorem own_visitOptInt (s : Option Str) : Own (visitOptInt s) := by
  unfold visitOptInt
  split
  · exact own_visitIntLit _
  · exact own_pure _

theorem own_visitSizeA (s : SizeA) : Own (visitSizeA s) := by
  unfold visitSizeA
  refine own_bind (own_visitOptInt _) fun _ => own_bind (own_visitOptInt _) fun _ => ?_
  split
  · exact own_pure _
  · exact own_fail rfl

theorem own_visitOptSize (s : Option SizeA) : Own (visitOptSize s) := by
  unfold visitOptSize
  split
  · exact own_pure _
  · exact own_visitSizeA _

theorem own_visitName (check : Str → Bool) (conv : Str → Str) (n : Str) : Own (visitName check conv n) := by
  unfold visitName
  exact own_ite (own_fail rfl) (own_ite (own_bind (own_warn _) fun _ => own_pure _) (own_pure _))

theorem own_visitFieldOptions (os : List OptA) (acc : List (Str × Lit)) : Own (visitFieldOptions os acc) := by
  induction os generalizing acc with
  | nil => exact own_pure _
  | cons o r ih =>
    unfold visitFieldOptions
    refine own_bind (own_visitConstant _) fun _ => ?_
    split
    · exact own_fail (validate_ofText ‹_›)
    · exact own_bind (own_warn _) fun _ => own_ite (own_fail rfl) (ih _)
    · exact own_ite (own_fail rfl) (ih _)

theorem own_visitOptName (v : Str → V Str) (n : Option Str) (h : ∀ n, Own (v n)) : Own (visitOptName v n) := by
  unfold visitOptName
  split
  · exact h _
  · exact own_pure _

theorem own_visitMethod (m : MethA) : Own (visitMethod m) := by
  unfold visitMethod
  exact own_bind (own_visitOptName _ _ (own_visitName _ _)) fun _ =>
    own_ite (own_fail rfl) (own_ite (own_fail rfl) (own_pure _))

theorem own_visitMethods (l : List MethA) (ms : List (Str × List (Bool × Prim))) (errs : List CErr)
    (he : ∀ e ∈ errs, e.ofText = true) :
    Own (visitMethods l ms errs) := by
  induction l generalizing ms errs with
  | nil =>
    unfold visitMethods
    exact own_errs _ he (own_pure _)
  | cons m r ih =>
    intro u es u' h
    unfold visitMethods at h
    rcases k : visitMethod m u with ⟨o, u1⟩
    rw [k] at h
    cases o with
    | panic => simp at h
    | err es => exact ih _ _ (of_app he (own_visitMethod _ _ _ _ k)) _ _ _ h
    | ok a =>
      obtain ⟨s, n, t⟩ := a
      simp only at h
      split at h
      · simp only [Prod.mk.injEq, Out.err.injEq] at h
        rw [← h.1]
        exact of_one (addMethod_ofText ‹_›)
      · exact ih _ _ he _ _ _ h

theorem own_lookupType (n : Str) : Own (lookupType n) := by
  intro u es u' h
  unfold lookupType at h
  split at h
  · simp at h
  · simp only [Prod.mk.injEq, Out.err.injEq] at h
    rw [← h.1]
    exact of_one rfl

theorem own_nameOrPanic (v : Str → V Str) (n : Str) : Own (nameOrPanic v n) := by
  intro u es u' h
  unfold nameOrPanic at h
  split at h <;> simp at h

theorem own_lookupStruct (n : Str) : Own (lookupStruct n) := by
  unfold lookupStruct
  refine own_bind (own_nameOrPanic _ _) fun _ => own_bind (own_lookupType _) fun _ => ?_
  split
  · exact own_pure _
  · exact own_fail rfl

theorem own_lookupEnum (n : Str) : Own (lookupEnum n) := by
  unfold lookupEnum
  refine own_bind (own_nameOrPanic _ _) fun _ => own_bind (own_lookupType _) fun _ => ?_
  split
  · exact own_pure _
  · exact own_fail rfl

theorem own_normalSize (t : CTy) (s : Int) : Own (normalSize t s) := by
  unfold normalSize
  refine own_ite (own_pure _) (own_ite (own_fail rfl) (own_ite (own_fail rfl) ?_))
  split
  · exact own_ite (own_fail rfl) (own_pure _)
  · exact own_ite (own_fail rfl) (own_pure _)
  · exact own_pure _

theorem own_visitNormalRest (t : CTy) (n : Str) (s : Option SizeA) (os : List OptA) (ms : Option (List MethA)) :
    Own (visitNormalRest t n s os ms) := by
  unfold visitNormalRest
  refine own_bind (own_visitName _ _ _) fun _ => own_bind (own_visitOptSize _) fun _ =>
    own_bind (own_normalSize _ _) fun _ => own_bind (own_visitFieldOptions _ _) fun _ => ?_
  split
  · exact own_pure _
  · split
    · exact own_bind (own_visitMethods _ _ _ (fun _ h => nomatch h)) fun _ => own_pure _
    · exact own_fail rfl

theorem own_visitConstVal (v : ConstA ⊕ Str) : Own (visitConstVal v) := by
  intro u es u' h
  unfold visitConstVal at h
  split at h
  · exact own_visitConstant _ _ _ _ h
  · split at h
    · simp only [Prod.mk.injEq, Out.err.injEq] at h
      rw [← h.1]
      exact of_one rfl
    · split at h
      · simp at h
      · simp only [Prod.mk.injEq, Out.err.injEq] at h
        rw [← h.1]
        exact of_one rfl

theorem own_constSize (p : Prim) (s : Int) : Own (constSize p s) := by
  unfold constSize
  exact own_ite (own_pure _) (own_ite (own_fail rfl) (own_pure _))

theorem own_visitConst (p : Prim) (n : Option Str) (s : Option SizeA) (v : ConstA ⊕ Str) (os : List OptA) :
    Own (visitConst p n s v os) := by
  unfold visitConst
  refine own_bind (own_visitOptName _ _ (own_visitName _ _)) fun _ => own_bind (own_visitOptSize _) fun _ =>
    own_bind (own_constSize _ _) fun _ => own_bind (own_visitConstVal _) fun _ => ?_
  exact own_ite (own_fail rfl) (own_bind (own_visitFieldOptions _ _) fun _ => own_pure _)

theorem own_finishStruct (n : Str) (s : Int) (fs : List FieldD) : Own (finishStruct n s fs) := by
  unfold finishStruct
  refine own_ite (own_fail rfl) ?_
  dsimp only
  split
  · exact own_fail (checkAlign_ofText ‹_›)
  · exact own_ite (own_fail rfl) (own_ite (own_pure _) (own_ite (own_fail rfl) (own_ite (own_fail rfl) (own_pure _))))

theorem addNames_ofText {l : List Str} {a : Acc} {e : CErr} (h : addNames a l = .error e) : e.ofText = true := by
  induction l generalizing a with
  | nil => simp [addNames] at h
  | cons n r ih =>
    unfold addNames at h
    split at h
    · exact ih h
    · rename_i h'
      cases h
      exact addName_ofText h'

mutual
  theorem addField_ofText : ∀ (f : FieldD) (a : Acc) {e : CErr}, addField f a = .error e → e.ofText = true
    | .normal n t b ms os, a, e, h => by
      unfold addField at h
      split at h
      · rename_i h'
        cases h
        exact addName_ofText h'
      · split at h
        · rename_i h'
          cases h
          exact addNames_ofText h'
        · cases h
    | .embedded (.mk n b d fs) belongs, a, e, h => by
      have ih := addFields_ofText fs
      unfold addField at h
      split at h
      · rename_i h'
        cases h
        exact addName_ofText h'
      · dsimp only at h
        split at h
        · cases h
        · exact ih _ h
    | .void b, a, e, h => by simp [addField] at h
    | .const n p b l os, a, e, h => by
      unfold addField at h
      split at h
      · cases h
      · split at h
        · rename_i h'
          cases h
          exact addName_ofText h'
        · cases h
  theorem addFields_ofText : ∀ (l : List FieldD) (a : Acc) {e : CErr}, addFields l a = .error e → e.ofText = true
    | [], a, e, h => by simp [addFields] at h
    | f :: r, a, e, h => by
      have i1 := addField_ofText f
      have i2 := addFields_ofText r
      unfold addFields at h
      split at h
      · rename_i h'
        cases h
        exact i1 _ h'
      · exact i2 _ h
end

theorem wrapAdd_ofText (f : FieldD) {e : CErr} (h : e.ofText = true) : (wrapAdd f e).ofText = true := by
  unfold wrapAdd
  split
  · exact h
  · exact h

mutual
  theorem own_visitElem : ∀ e : ElemA, Own (visitElem e)
    | .basic p => by unfold visitElem; exact own_pure _
    | .str => by unfold visitElem; exact own_pure _
    | .bytes => by unfold visitElem; exact own_pure _
    | .structName n => by unfold visitElem; exact own_lookupStruct _
    | .structDef d => by unfold visitElem; exact own_bind (own_visitStruct d) fun _ => own_pure _
    | .enumName n => by unfold visitElem; exact own_lookupEnum _
    | .ident n => by unfold visitElem; exact own_lookupType _
  theorem own_visitType : ∀ t : TypeA, Own (visitType t)
    | .elem e => by unfold visitType; exact own_visitElem e
    | .array e len => by
      unfold visitType
      exact own_bind (own_visitElem e) fun _ => own_bind (own_visitIntLit _) fun _ =>
        own_ite (own_fail rfl) (own_pure _)
  theorem own_visitField : ∀ f : FieldA, Own (visitField f)
    | .empty => by unfold visitField; exact own_pure _
    | .void s os => by
      unfold visitField
      exact own_bind (own_visitSizeA _) fun _ => own_bind (own_visitFieldOptions _ _) fun _ => own_pure _
    | .const p n s v os => by
      unfold visitField
      exact own_bind (own_visitConst _ _ _ _ _) fun _ => own_pure _
    | .embedded t os => by
      unfold visitField
      refine own_bind (own_visitType t) fun _ => ?_
      split
      · exact own_bind (own_visitFieldOptions _ _) fun _ => own_pure _
      · exact own_fail rfl
    | .normal t n s os ms => by
      unfold visitField
      exact own_bind (own_visitType t) fun _ => own_bind (own_visitNormalRest _ _ _ _ _) fun _ => own_pure _
  theorem own_visitBody : ∀ (b : BodyA) (a : Acc) (errs : List CErr), (∀ e ∈ errs, e.ofText = true) → Own (visitBody b a errs)
    | .nil, a, errs, he => by unfold visitBody; exact own_errs _ he (own_pure _)
    | .cons f r, a, errs, he => by
      intro u es u' h
      unfold visitBody at h
      rcases k : visitField f u with ⟨o, u1⟩
      rw [k] at h
      cases o with
      | panic => simp at h
      | err es => exact own_visitBody r _ _ (of_app he (own_visitField f _ _ _ k)) _ _ _ h
      | ok fd =>
        cases fd with
        | none => exact own_visitBody r _ _ he _ _ _ h
        | some fd =>
          simp only at h
          split at h
          · simp only [Prod.mk.injEq, Out.err.injEq] at h
            rw [← h.1]
            exact of_one (wrapAdd_ofText fd (addField_ofText fd _ ‹_›))
          · exact own_visitBody r _ _ he _ _ _ h
  theorem own_visitStruct : ∀ s : StructA, Own (visitStruct s)
    | .mk line col name size body => by
      unfold visitStruct
      exact own_bind (own_visitName _ _ _) fun name => own_bind own_getU fun u =>
        own_bind (own_addLocalName _ _) fun _ => own_bind (own_visitOptSize _) fun _ =>
        own_bind (own_visitBody body _ _ (fun _ h => nomatch h)) fun _ => own_finishStruct _ _ _
end

theorem own_visitEnumNum (v : Option (ConstA ⊕ Str)) : Own (visitEnumNum v) := by
  unfold visitEnumNum
  split
  · exact own_pure _
  · refine own_bind (own_visitConstVal _) fun _ => ?_
    split
    · exact own_pure _
    · exact own_fail rfl

theorem own_visitEnumValue (line col : Nat) (n : Str) (v : Option (ConstA ⊕ Str)) : Own (visitEnumValue line col n v) := by
  unfold visitEnumValue
  exact own_bind (own_visitName _ _ _) fun _ => own_bind (own_visitEnumNum _) fun _ => own_bind own_getU fun _ => own_pure _

theorem own_visitEnumBody (b : List EnumElemA) (vs : List (Pos × Str × Int)) (errs : List CErr)
    (he : ∀ e ∈ errs, e.ofText = true) :
    Own (visitEnumBody b vs errs) := by
  induction b generalizing vs errs with
  | nil =>
    unfold visitEnumBody
    exact own_errs _ he (own_pure _)
  | cons e r ih =>
    cases e with
    | empty => unfold visitEnumBody; exact ih _ _ he
    | value line col n v =>
      intro u es u' h
      unfold visitEnumBody at h
      rcases k : visitEnumValue line col n v u with ⟨o, u1⟩
      rw [k] at h
      cases o with
      | panic => simp at h
      | err es => exact ih _ _ (of_app he (own_visitEnumValue _ _ _ _ _ _ _ k)) _ _ _ h
      | ok a =>
        obtain ⟨p, m, x⟩ := a
        simp only at h
        split at h
        · simp only [Prod.mk.injEq, Out.err.injEq] at h
          rw [← h.1]
          exact of_one rfl
        · exact ih _ _ he _ _ _ h

theorem own_addEnumNames (vs : List (Pos × Str × Int)) (errs : List CErr) (he : ∀ e ∈ errs, e.ofText = true) :
    Own (addEnumNames vs errs) := by
  induction vs generalizing errs with
  | nil =>
    unfold addEnumNames
    exact own_errs _ he (own_pure _)
  | cons e r ih =>
    obtain ⟨p, n, v⟩ := e
    intro u es u' h
    unfold addEnumNames at h
    rcases k : addLocalName n ⟨p, some v⟩ u with ⟨o, u1⟩
    rw [k] at h
    cases o with
    | panic => simp at h
    | err es => exact ih _ (of_app he (own_addLocalName _ _ _ _ _ k)) _ _ _ h
    | ok a => exact ih _ he _ _ _ h

theorem own_visitEnum (d : EnumA) : Own (visitEnum d) := by
  unfold visitEnum
  refine own_bind (own_visitName _ _ _) fun name => own_bind own_getU fun u =>
    own_bind (own_addLocalName _ _) fun _ => own_bind (own_visitSizeA _) fun _ =>
    own_bind (own_visitEnumBody _ _ _ (fun _ h => nomatch h)) fun _ => ?_
  split
  · exact own_fail rfl
  · exact own_bind (own_addEnumNames _ _ (fun _ h => nomatch h)) fun _ => own_pure _

theorem own_visitTop (t : TopA) : Own (visitTop t) := by
  unfold visitTop
  refine own_bind own_getU fun u => ?_
  split
  · exact own_bind (own_visitStruct _) fun _ => own_pure _
  · exact own_bind (own_visitEnum _) fun _ => own_pure _

theorem own_visitProto (ts : List TopA) (errs : List CErr) (he : ∀ e ∈ errs, e.ofText = true) :
    Own (visitProto ts errs) := by
  induction ts generalizing errs with
  | nil =>
    unfold visitProto
    exact own_errs errs he (own_pure _)
  | cons t r ih =>
    intro u es u' h
    unfold visitProto at h
    rcases h1 : visitTop t u with ⟨o, u1⟩
    rw [h1] at h
    cases o with
    | panic => simp at h
    | err es1 => exact ih _ (of_app he (own_visitTop _ _ _ _ h1)) _ _ _ h
    | ok td => exact ih _ he _ _ _ h

end Bubbler.Comp
