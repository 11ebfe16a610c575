import Verif.Compiler.ValRefs

/-
Visitors that register no name: everything below struct and enum definitions.
-/
namespace Bubbler.Comp

/-- The visible names are the same. -/
def SameNames (u u' : UnitD) : Prop := u'.globalNames = u.globalNames

theorem SameNames.refl (u : UnitD) : SameNames u u := rfl

theorem SameNames.trans {a b c : UnitD} (h : SameNames a b) (k : SameNames b c) : SameNames a c := Eq.trans k h

/-- A visitor that always makes a `SameNames`. -/
def Quiet {α : Type} (x : V α) : Prop := ∀ u, SameNames u (x u).2

theorem Quiet.ok {α : Type} {x : V α} (h : Quiet x) {u u' : UnitD} {o : Out α} (e : x u = (o, u')) : SameNames u u' := by
  have := h u
  rw [e] at this
  exact this

theorem quiet_pure {α : Type} (a : α) : Quiet (pure a : V α) := fun u => SameNames.refl u

theorem quiet_fail {α : Type} (e : CErr) : Quiet (fail e : V α) := fun u => SameNames.refl u

theorem quiet_errs {α : Type} (es : List CErr) : Quiet ((fun u => (.err es, u)) : V α) := fun u => SameNames.refl u

theorem quiet_bind {α β : Type} {x : V α} {f : α → V β} (hx : Quiet x) (hf : ∀ a, Quiet (f a)) : Quiet (x >>= f) := by
  intro u
  show SameNames u (V.bind x f u).2
  unfold V.bind
  rcases h : x u with ⟨o, u1⟩
  have h1 := hx.ok h
  cases o with
  | ok a => exact h1.trans (hf a u1)
  | err es => exact h1
  | panic => exact h1

theorem quiet_warn (w : Warn) : Quiet (warn w) := fun u => rfl

theorem quiet_getU : Quiet getU := fun u => SameNames.refl u

theorem quiet_ite {α : Type} {p : Prop} [Decidable p] {x y : V α} (hx : Quiet x) (hy : Quiet y) :
    Quiet (if p then x else y) := by
  split
  · exact hx
  · exact hy

theorem quiet_visitIntLit (t : Str) : Quiet (visitIntLit t) := by
  unfold visitIntLit
  split
  · exact quiet_ite (quiet_pure _) (quiet_fail _)
  · exact quiet_fail _

theorem quiet_visitConstant (c : ConstA) : Quiet (visitConstant c) := by
  unfold visitConstant
  split
  · exact quiet_bind (quiet_visitIntLit _) fun _ => quiet_pure _
  · exact quiet_ite (quiet_pure _) (quiet_fail _)
  · exact quiet_fail _
  · exact quiet_pure _
  · exact quiet_pure _

theorem quiet_visitOptInt (s : Option Str) : Quiet (visitOptInt s) := by
  unfold visitOptInt
  split
  · exact quiet_visitIntLit _
  · exact quiet_pure _

theorem quiet_visitSizeA (s : SizeA) : Quiet (visitSizeA s) := by
  unfold visitSizeA
  refine quiet_bind (quiet_visitOptInt _) fun _ => quiet_bind (quiet_visitOptInt _) fun _ => ?_
  split
  · exact quiet_pure _
  · exact quiet_fail _

theorem quiet_visitOptSize (s : Option SizeA) : Quiet (visitOptSize s) := by
  unfold visitOptSize
  split
  · exact quiet_pure _
  · exact quiet_visitSizeA _

theorem quiet_visitName (check : Str → Bool) (conv : Str → Str) (n : Str) : Quiet (visitName check conv n) := by
  unfold visitName
  exact quiet_ite (quiet_fail _) (quiet_ite (quiet_bind (quiet_warn _) fun _ => quiet_pure _) (quiet_pure _))

theorem quiet_visitFieldOptions (os : List OptA) (acc : List (Str × Lit)) : Quiet (visitFieldOptions os acc) := by
  induction os generalizing acc with
  | nil => exact quiet_pure _
  | cons o r ih =>
    unfold visitFieldOptions
    refine quiet_bind (quiet_visitConstant _) fun _ => ?_
    split
    · exact quiet_fail _
    · exact quiet_bind (quiet_warn _) fun _ => quiet_ite (quiet_fail _) (ih _)
    · exact quiet_ite (quiet_fail _) (ih _)

theorem quiet_visitOptName (v : Str → V Str) (n : Option Str) (h : ∀ n, Quiet (v n)) : Quiet (visitOptName v n) := by
  unfold visitOptName
  split
  · exact h _
  · exact quiet_pure _

theorem quiet_visitMethod (m : MethA) : Quiet (visitMethod m) := by
  unfold visitMethod
  exact quiet_bind (quiet_visitOptName _ _ (quiet_visitName _ _)) fun _ =>
    quiet_ite (quiet_fail _) (quiet_ite (quiet_fail _) (quiet_pure _))

theorem quiet_visitMethods (l : List MethA) (ms : List (Str × List (Bool × Prim))) (errs : List CErr) :
    Quiet (visitMethods l ms errs) := by
  induction l generalizing ms errs with
  | nil =>
    unfold visitMethods
    exact quiet_ite (quiet_pure _) (quiet_errs _)
  | cons m r ih =>
    intro u
    unfold visitMethods
    rcases h : visitMethod m u with ⟨o, u1⟩
    have h1 := (quiet_visitMethod m).ok h
    cases o with
    | panic => exact h1
    | err es => exact h1.trans (ih _ _ u1)
    | ok a =>
      obtain ⟨s, n, t⟩ := a
      simp only
      split
      · exact h1
      · exact h1.trans (ih _ _ u1)

theorem quiet_lookupType (n : Str) : Quiet (lookupType n) := by
  intro u
  unfold lookupType
  split <;> exact SameNames.refl _

theorem quiet_nameOrPanic (v : Str → V Str) (n : Str) (h : Quiet (v n)) : Quiet (nameOrPanic v n) := by
  intro u
  have := h u
  unfold nameOrPanic
  split
  · rename_i e; rw [e] at this; exact this
  · rename_i e; rw [e] at this; exact this

theorem quiet_lookupStruct (n : Str) : Quiet (lookupStruct n) := by
  unfold lookupStruct
  refine quiet_bind (quiet_nameOrPanic _ _ (quiet_visitName _ _ _)) fun _ => quiet_bind (quiet_lookupType _) fun _ => ?_
  split
  · exact quiet_pure _
  · exact quiet_fail _

theorem quiet_lookupEnum (n : Str) : Quiet (lookupEnum n) := by
  unfold lookupEnum
  refine quiet_bind (quiet_nameOrPanic _ _ (quiet_visitName _ _ _)) fun _ => quiet_bind (quiet_lookupType _) fun _ => ?_
  split
  · exact quiet_pure _
  · exact quiet_fail _

theorem quiet_normalSize (t : CTy) (s : Int) : Quiet (normalSize t s) := by
  unfold normalSize
  refine quiet_ite (quiet_pure _) (quiet_ite (quiet_fail _) (quiet_ite (quiet_fail _) ?_))
  split
  · exact quiet_ite (quiet_fail _) (quiet_pure _)
  · exact quiet_ite (quiet_fail _) (quiet_pure _)
  · exact quiet_pure _

theorem quiet_visitNormalRest (t : CTy) (n : Str) (s : Option SizeA) (os : List OptA) (ms : Option (List MethA)) :
    Quiet (visitNormalRest t n s os ms) := by
  unfold visitNormalRest
  refine quiet_bind (quiet_visitName _ _ _) fun _ => quiet_bind (quiet_visitOptSize _) fun _ =>
    quiet_bind (quiet_normalSize _ _) fun _ => quiet_bind (quiet_visitFieldOptions _ _) fun _ => ?_
  split
  · exact quiet_pure _
  · split
    · exact quiet_bind (quiet_visitMethods _ _ _) fun _ => quiet_pure _
    · exact quiet_fail _

theorem quiet_visitConstVal (v : ConstA ⊕ Str) : Quiet (visitConstVal v) := by
  intro u
  unfold visitConstVal
  split
  · exact quiet_visitConstant _ u
  · split
    · exact SameNames.refl _
    · split <;> exact SameNames.refl _

theorem quiet_constSize (p : Prim) (s : Int) : Quiet (constSize p s) := by
  unfold constSize
  exact quiet_ite (quiet_pure _) (quiet_ite (quiet_fail _) (quiet_pure _))

theorem quiet_visitConst (p : Prim) (n : Option Str) (s : Option SizeA) (v : ConstA ⊕ Str) (os : List OptA) :
    Quiet (visitConst p n s v os) := by
  unfold visitConst
  refine quiet_bind (quiet_visitOptName _ _ (quiet_visitName _ _)) fun _ => quiet_bind (quiet_visitOptSize _) fun _ =>
    quiet_bind (quiet_constSize _ _) fun _ => quiet_bind (quiet_visitConstVal _) fun _ => ?_
  exact quiet_ite (quiet_fail _) (quiet_bind (quiet_visitFieldOptions _ _) fun _ => quiet_pure _)

theorem quiet_finishStruct (n : Str) (s : Int) (fs : List FieldD) : Quiet (finishStruct n s fs) := by
  unfold finishStruct
  refine quiet_ite (quiet_fail _) ?_
  dsimp only
  split
  · exact quiet_fail _
  · exact quiet_ite (quiet_fail _) (quiet_ite (quiet_pure _) (quiet_ite (quiet_fail _) (quiet_ite (quiet_fail _) (quiet_pure _))))


end Bubbler.Comp
