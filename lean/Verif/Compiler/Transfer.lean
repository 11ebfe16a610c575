import Verif.Compiler.FieldProofs

/-
When visiting something in two units gives the same result.
-/
namespace Bubbler.Comp

/-- Successful visits carry over from the first unit to the second. -/
def Tr {α : Type} (R : UnitD → UnitD → Prop) (x : V α) : Prop :=
  ∀ u v a u', R u v → x u = (.ok a, u') → ∃ v', x v = (.ok a, v') ∧ R u' v'

/-- The same unit with more warnings -/
def UnitD.warned (u : UnitD) (ws : List Warn) : UnitD := { u with warns := u.warns ++ ws }

/-- What a relation must satisfy so that visits carry over: what the first unit finds the second one finds too.
`inl`: also inline struct definitions carry over. -/
structure Compat (R : UnitD → UnitD → Prop) (inl : Bool) : Prop where
  warn : ∀ u v w, R u v → R (u.warned [w]) (v.warned [w])
  types : ∀ u v n d, R u v → aget u.globalTypes n = some d → aget v.globalTypes n = some d
  vals : ∀ u v n d x, R u v → aget u.globalNames n = some d → d.enumVal = some x →
    ∃ d', aget v.globalNames n = some d' ∧ d'.enumVal = some x
  path : inl = true → ∀ u v, R u v → v.path = u.path
  add : inl = true → ∀ u v n p u', R u v → u.addLocalName n ⟨p, none⟩ = (u', true) →
    ∃ v', v.addLocalName n ⟨p, none⟩ = (v', true) ∧ R u' v'

section
variable {R : UnitD → UnitD → Prop}

theorem tr_pure {α : Type} (a : α) : Tr R (pure a : V α) := by
  intro u v b u' h e
  obtain ⟨rfl, rfl⟩ := pure_ok.1 e
  exact ⟨v, rfl, h⟩

theorem tr_fail {α : Type} (e : CErr) : Tr R (fail e : V α) := by
  intro u v b u' h e
  exact absurd e (by simp [fail])

theorem tr_errs {α : Type} (es : List CErr) : Tr R ((fun u => (.err es, u)) : V α) := by
  intro u v b u' h e
  exact absurd e (by simp)

theorem tr_bind {α β : Type} {x : V α} {f : α → V β} (hx : Tr R x) (hf : ∀ a, Tr R (f a)) : Tr R (x >>= f) := by
  intro u v b u' h e
  obtain ⟨a, u1, e1, e2⟩ := bind_ok.1 e
  obtain ⟨v1, k1, h1⟩ := hx u v a u1 h e1
  obtain ⟨v2, k2, h2⟩ := hf a u1 v1 b u' h1 e2
  exact ⟨v2, bind_ok.2 ⟨a, v1, k1, k2⟩, h2⟩

theorem tr_ite {α : Type} {p : Prop} [Decidable p] {x y : V α} (hx : Tr R x) (hy : Tr R y) : Tr R (if p then x else y) := by
  split
  · exact hx
  · exact hy

variable {inl : Bool} (C : Compat R inl)
include C

theorem tr_warn (w : Warn) : Tr R (warn w) := by
  intro u v b u' h e
  have := warn_ok.1 e
  subst this
  exact ⟨_, rfl, C.warn u v w h⟩

omit C in
theorem tr_visitIntLit (t : Str) : Tr R (visitIntLit t) := by
  unfold visitIntLit
  split
  · exact tr_ite (tr_pure _) (tr_fail _)
  · exact tr_fail _

omit C in
theorem tr_visitConstant (c : ConstA) : Tr R (visitConstant c) := by
  unfold visitConstant
  split
  · exact tr_bind (tr_visitIntLit _) fun _ => tr_pure _
  · exact tr_ite (tr_pure _) (tr_fail _)
  · exact tr_fail _
  · exact tr_pure _
  · exact tr_pure _

omit C in
theorem tr_visitOptInt (s : Option Str) : Tr R (visitOptInt s) := by
  unfold visitOptInt
  split
  · exact tr_visitIntLit _
  · exact tr_pure _

omit C in
theorem tr_visitSizeA (s : SizeA) : Tr R (visitSizeA s) := by
  unfold visitSizeA
  refine tr_bind (tr_visitOptInt _) fun _ => tr_bind (tr_visitOptInt _) fun _ => ?_
  split
  · exact tr_pure _
  · exact tr_fail _

omit C in
theorem tr_visitOptSize (s : Option SizeA) : Tr R (visitOptSize s) := by
  unfold visitOptSize
  split
  · exact tr_pure _
  · exact tr_visitSizeA _

theorem tr_visitName (check : Str → Bool) (conv : Str → Str) (n : Str) : Tr R (visitName check conv n) := by
  unfold visitName
  exact tr_ite (tr_fail _) (tr_ite (tr_bind (tr_warn C _) fun _ => tr_pure _) (tr_pure _))

theorem tr_visitFieldOptions (os : List OptA) (acc : List (Str × Lit)) : Tr R (visitFieldOptions os acc) := by
  induction os generalizing acc with
  | nil => exact tr_pure _
  | cons o r ih =>
    unfold visitFieldOptions
    refine tr_bind (tr_visitConstant _) fun _ => ?_
    split
    · exact tr_fail _
    · exact tr_bind (tr_warn C _) fun _ => tr_ite (tr_fail _) (ih _)
    · exact tr_ite (tr_fail _) (ih _)

omit C in
theorem tr_visitOptName (v : Str → V Str) (n : Option Str) (h : ∀ n, Tr R (v n)) : Tr R (visitOptName v n) := by
  unfold visitOptName
  split
  · exact h _
  · exact tr_pure _

theorem tr_visitMethod (m : MethA) : Tr R (visitMethod m) := by
  unfold visitMethod
  exact tr_bind (tr_visitOptName _ _ (tr_visitName C _ _)) fun _ => tr_ite (tr_fail _) (tr_ite (tr_fail _) (tr_pure _))

omit C in
theorem visitMethods_noErr (l : List MethA) (ms : List (Str × List (Bool × Prim))) (errs : List CErr) (u u' : UnitD)
    (out : List (Str × List (Bool × Prim))) (h : visitMethods l ms errs u = (.ok out, u')) : errs = [] := by
  induction l generalizing ms errs u with
  | nil =>
    unfold visitMethods at h
    split at h
    · assumption
    · simp at h
  | cons m r ih =>
    unfold visitMethods at h
    rcases hm : visitMethod m u with ⟨o, u1⟩
    rw [hm] at h
    rcases o with ⟨set, name, ty⟩ | es | _
    · simp only at h
      split at h
      · simp at h
      · exact ih _ _ _ h
    · simp only at h
      have := ih _ _ _ h
      simp only [List.append_eq_nil_iff] at this
      exact this.1
    · simp at h

theorem tr_visitMethods (l : List MethA) (ms : List (Str × List (Bool × Prim))) (errs : List CErr) :
    Tr R (visitMethods l ms errs) := by
  induction l generalizing ms errs with
  | nil =>
    unfold visitMethods
    exact tr_ite (tr_pure _) (tr_errs _)
  | cons m r ih =>
    intro u v a u' h e
    unfold visitMethods at e ⊢
    rcases hm : visitMethod m u with ⟨o, u1⟩
    rw [hm] at e
    rcases o with ⟨set, name, ty⟩ | es | _
    · obtain ⟨v1, k1, h1⟩ := tr_visitMethod C m u v _ u1 h hm
      rw [k1]
      simp only at e ⊢
      cases hadd : addMethod ms set name ty with
      | error er => rw [hadd] at e; simp at e
      | ok ms' =>
        rw [hadd] at e
        exact ih _ _ u1 v1 a u' h1 e
    · -- an error has been recorded, so the loop fails
      have := visitMethods_noErr _ _ _ _ _ _ e
      simp only [List.append_eq_nil_iff] at this
      exact absurd this.2 (honest_visitMethod m u es u1 hm)
    · simp at e

theorem tr_lookupType (n : Str) : Tr R (lookupType n) := by
  intro u v a u' h e
  unfold lookupType at e ⊢
  cases hd : aget u.globalTypes n with
  | none => rw [hd] at e; simp at e
  | some d =>
    rw [hd] at e
    simp only [Prod.mk.injEq, Out.ok.injEq] at e
    rw [C.types u v n d h hd]
    obtain ⟨rfl, rfl⟩ := e
    exact ⟨v, rfl, h⟩

omit C in
theorem tr_nameOrPanic (x : Str → V Str) (n : Str) (h : Tr R (x n)) : Tr R (nameOrPanic x n) := by
  intro u v a u' hr e
  unfold nameOrPanic at e ⊢
  rcases hx : x n u with ⟨o, u1⟩
  rw [hx] at e
  cases o with
  | ok s =>
    obtain ⟨v1, k1, h1⟩ := h u v s u1 hr hx
    rw [k1]
    simp only [Prod.mk.injEq, Out.ok.injEq] at e
    obtain ⟨rfl, rfl⟩ := e
    exact ⟨v1, rfl, h1⟩
  | _ => simp at e

theorem tr_lookupStruct (n : Str) : Tr R (lookupStruct n) := by
  unfold lookupStruct
  refine tr_bind (tr_nameOrPanic _ _ (tr_visitName C _ _ _)) fun _ => tr_bind (tr_lookupType C _) fun _ => ?_
  split
  · exact tr_pure _
  · exact tr_fail _

theorem tr_lookupEnum (n : Str) : Tr R (lookupEnum n) := by
  unfold lookupEnum
  refine tr_bind (tr_nameOrPanic _ _ (tr_visitName C _ _ _)) fun _ => tr_bind (tr_lookupType C _) fun _ => ?_
  split
  · exact tr_pure _
  · exact tr_fail _

omit C in
theorem tr_normalSize (t : CTy) (s : Int) : Tr R (normalSize t s) := by
  unfold normalSize
  refine tr_ite (tr_pure _) (tr_ite (tr_fail _) (tr_ite (tr_fail _) ?_))
  split
  · exact tr_ite (tr_fail _) (tr_pure _)
  · exact tr_ite (tr_fail _) (tr_pure _)
  · exact tr_pure _

theorem tr_visitNormalRest (t : CTy) (n : Str) (s : Option SizeA) (os : List OptA) (ms : Option (List MethA)) :
    Tr R (visitNormalRest t n s os ms) := by
  unfold visitNormalRest
  refine tr_bind (tr_visitName C _ _ _) fun _ => tr_bind (tr_visitOptSize _) fun _ =>
    tr_bind (tr_normalSize _ _) fun _ => tr_bind (tr_visitFieldOptions C _ _) fun _ => ?_
  split
  · exact tr_pure _
  · split
    · exact tr_bind (tr_visitMethods C _ _ _) fun _ => tr_pure _
    · exact tr_fail _

theorem tr_visitConstVal (x : ConstA ⊕ Str) : Tr R (visitConstVal x) := by
  unfold visitConstVal
  split
  · exact tr_visitConstant _
  · rename_i n
    intro u v a u' h e
    simp only at e ⊢
    cases hd : aget u.globalNames n with
    | none => rw [hd] at e; simp at e
    | some d =>
      rw [hd] at e
      simp only at e
      cases hv : d.enumVal with
      | none => rw [hv] at e; simp at e
      | some y =>
        rw [hv] at e
        simp only [Prod.mk.injEq, Out.ok.injEq] at e
        obtain ⟨rfl, rfl⟩ := e
        obtain ⟨d', k1, k2⟩ := C.vals u v n d y h hd hv
        rw [k1]
        simp only [k2]
        exact ⟨v, rfl, h⟩

omit C in
theorem tr_constSize (p : Prim) (s : Int) : Tr R (constSize p s) := by
  unfold constSize
  exact tr_ite (tr_pure _) (tr_ite (tr_fail _) (tr_pure _))

theorem tr_visitConst (p : Prim) (n : Option Str) (s : Option SizeA) (x : ConstA ⊕ Str) (os : List OptA) :
    Tr R (visitConst p n s x os) := by
  unfold visitConst
  refine tr_bind (tr_visitOptName _ _ (tr_visitName C _ _)) fun _ => tr_bind (tr_visitOptSize _) fun _ =>
    tr_bind (tr_constSize _ _) fun _ => tr_bind (tr_visitConstVal C _) fun _ => ?_
  exact tr_ite (tr_fail _) (tr_bind (tr_visitFieldOptions C _ _) fun _ => tr_pure _)

omit C in
theorem tr_finishStruct (n : Str) (s : Int) (fs : List FieldD) : Tr R (finishStruct n s fs) := by
  unfold finishStruct
  refine tr_ite (tr_fail _) ?_
  dsimp only
  split
  · exact tr_fail _
  · exact tr_ite (tr_fail _) (tr_ite (tr_pure _) (tr_ite (tr_fail _) (tr_ite (tr_fail _) (tr_pure _))))

end

mutual
  /-- No struct is defined inside the type. -/
  def ElemA.plain : ElemA → Bool
    | .structDef _ => false
    | _ => true
  def TypeA.plain : TypeA → Bool
    | .elem e => e.plain
    | .array e _ => e.plain
  def FieldA.plain : FieldA → Bool
    | .embedded t _ => t.plain
    | .normal t _ _ _ _ => t.plain
    | _ => true
  /-- No struct is defined inside the body. -/
  def BodyA.plain : BodyA → Bool
    | .nil => true
    | .cons f r => f.plain && r.plain
end

section
variable {R : UnitD → UnitD → Prop} {inl : Bool} (C : Compat R inl)
include C

mutual
  theorem tr_visitElem : ∀ e : ElemA, (inl || e.plain) = true → Tr R (visitElem e)
    | .basic p, _ => by unfold visitElem; exact tr_pure _
    | .str, _ => by unfold visitElem; exact tr_pure _
    | .bytes, _ => by unfold visitElem; exact tr_pure _
    | .structName n, _ => by unfold visitElem; exact tr_lookupStruct C _
    | .structDef d, h => by
      have hi : inl = true := by simpa [ElemA.plain] using h
      unfold visitElem
      exact tr_bind (tr_visitStruct d hi) fun _ => tr_pure _
    | .enumName n, _ => by unfold visitElem; exact tr_lookupEnum C _
    | .ident n, _ => by unfold visitElem; exact tr_lookupType C _
  theorem tr_visitType : ∀ t : TypeA, (inl || t.plain) = true → Tr R (visitType t)
    | .elem e, h => by unfold visitType; exact tr_visitElem e (by simpa [TypeA.plain] using h)
    | .array e len, h => by
      unfold visitType
      exact tr_bind (tr_visitElem e (by simpa [TypeA.plain] using h)) fun _ => tr_bind (tr_visitIntLit _) fun _ =>
        tr_ite (tr_fail _) (tr_pure _)
  theorem tr_visitField : ∀ f : FieldA, (inl || f.plain) = true → Tr R (visitField f)
    | .empty, _ => by unfold visitField; exact tr_pure _
    | .void s os, _ => by
      unfold visitField
      exact tr_bind (tr_visitSizeA _) fun _ => tr_bind (tr_visitFieldOptions C _ _) fun _ => tr_pure _
    | .const p n s v os, _ => by
      unfold visitField
      exact tr_bind (tr_visitConst C _ _ _ _ _) fun _ => tr_pure _
    | .embedded t os, h => by
      unfold visitField
      refine tr_bind (tr_visitType t (by simpa [FieldA.plain] using h)) fun _ => ?_
      split
      · exact tr_bind (tr_visitFieldOptions C _ _) fun _ => tr_pure _
      · exact tr_fail _
    | .normal t n s os ms, h => by
      unfold visitField
      exact tr_bind (tr_visitType t (by simpa [FieldA.plain] using h)) fun _ => tr_bind (tr_visitNormalRest C _ _ _ _ _) fun _ => tr_pure _
  theorem tr_visitAll : ∀ (b : BodyA), (inl || b.plain) = true → ∀ u v fs u', R u v → VisitAll b u fs u' →
      ∃ v', VisitAll b v fs v' ∧ R u' v'
    | .nil, _, u, v, fs, u', hr, h => by
      unfold VisitAll at h
      obtain ⟨rfl, rfl⟩ := h
      exact ⟨v, by unfold VisitAll; exact ⟨rfl, rfl⟩, hr⟩
    | .cons f r, hp, u, v, fs, u', hr, h => by
      unfold VisitAll at h
      obtain ⟨o, u1, h1, fs', rfl, h2⟩ := h
      have hp1 : (inl || f.plain) = true := by
        cases inl
        · simp only [BodyA.plain, Bool.false_or, Bool.and_eq_true] at hp ⊢; exact hp.1
        · rfl
      have hp2 : (inl || r.plain) = true := by
        cases inl
        · simp only [BodyA.plain, Bool.false_or, Bool.and_eq_true] at hp ⊢; exact hp.2
        · rfl
      obtain ⟨v1, k1, r1⟩ := tr_visitField f hp1 u v o u1 hr h1
      obtain ⟨v2, k2, r2⟩ := tr_visitAll r hp2 u1 v1 fs' u' r1 h2
      exact ⟨v2, by unfold VisitAll; exact ⟨o, v1, k1, fs', rfl, k2⟩, r2⟩
  theorem tr_visitStruct : ∀ d : StructA, inl = true → Tr R (visitStruct d)
    | .mk line col name size body, hi => by
      intro u v s u' hr h
      obtain ⟨u1, u2, u3, sz, fs, h1, h2, h3, h4, h5, h6⟩ := visitStruct_ok.1 h
      obtain ⟨v1, k1, r1⟩ := tr_visitName C _ _ _ u v _ u1 hr h1
      have h2' : u1.addLocalName name ⟨⟨u1.path, line, col⟩, none⟩ = (u2, true) := by
        unfold addLocalName at h2
        split at h2
        · rename_i e; rw [e]; simp only [Prod.mk.injEq, true_and] at h2; rw [h2]
        · simp at h2
      obtain ⟨v2, k2, r2⟩ := C.add hi u1 v1 _ _ u2 r1 h2'
      obtain ⟨v3, k3, r3⟩ := tr_visitOptSize size u2 v2 _ u3 r2 h3
      obtain ⟨v4, k4, r4⟩ := tr_visitAll body (by rw [hi]; rfl) u3 v3 fs u' r3 h4
      obtain ⟨v5, k5, r5⟩ := tr_finishStruct name sz (expandAll fs) u' v4 s u' r4 h6
      have e5 : v4 = v5 := (finishStruct_ok.1 k5).2.2.2.2.2
      subst e5
      refine ⟨v4, visitStruct_ok.2 ⟨v1, v2, v3, sz, fs, k1, ?_, k3, k4, h5, k5⟩, r4⟩
      rw [C.path hi _ _ r1]
      unfold addLocalName
      rw [k2]
end

end

end Bubbler.Comp
