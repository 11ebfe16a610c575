import Verif.Compiler.Refs
import Verif.Compiler.EnumProofs

/-
The names of enum values a definition refers to, and where accepted definitions find them.
-/
namespace Bubbler.Comp

/-- Names that are added are not those of enum values. -/
def ValStep (u u' : UnitD) : Prop := ∀ e ∈ u'.globalNames, e ∈ u.globalNames ∨ e.2.enumVal = none

theorem ValStep.refl (u : UnitD) : ValStep u u := fun _ h => .inl h

theorem ValStep.trans {a b c : UnitD} (h : ValStep a b) (k : ValStep b c) : ValStep a c := by
  intro e he
  rcases k e he with he | he
  · exact h e he
  · exact .inr he

/-- A visitor that always makes a `ValStep`. -/
def Vals {α : Type} (x : V α) : Prop := ∀ u, ValStep u (x u).2

theorem Vals.ok {α : Type} {x : V α} (h : Vals x) {u u' : UnitD} {o : Out α} (e : x u = (o, u')) : ValStep u u' := by
  have := h u
  rw [e] at this
  exact this

theorem vals_pure {α : Type} (a : α) : Vals (pure a : V α) := fun u => ValStep.refl u

theorem vals_fail {α : Type} (e : CErr) : Vals (fail e : V α) := fun u => ValStep.refl u

theorem vals_errs {α : Type} (es : List CErr) : Vals ((fun u => (.err es, u)) : V α) := fun u => ValStep.refl u

theorem vals_bind {α β : Type} {x : V α} {f : α → V β} (hx : Vals x) (hf : ∀ a, Vals (f a)) : Vals (x >>= f) := by
  intro u
  show ValStep u (V.bind x f u).2
  unfold V.bind
  rcases h : x u with ⟨o, u1⟩
  have h1 := hx.ok h
  cases o with
  | ok a => exact h1.trans (hf a u1)
  | err es => exact h1
  | panic => exact h1

theorem vals_warn (w : Warn) : Vals (warn w) := fun u e h => .inl h

theorem vals_getU : Vals getU := fun u => ValStep.refl u

theorem vals_ite {α : Type} {p : Prop} [Decidable p] {x y : V α} (hx : Vals x) (hy : Vals y) :
    Vals (if p then x else y) := by
  split
  · exact hx
  · exact hy

theorem val_addLocalName (u : UnitD) (n : Str) (d : NameDef) (h : d.enumVal = none) :
    ValStep u (addLocalName n d u).2 := by
  intro e he
  unfold addLocalName UnitD.addLocalName at he
  cases hc : u.conflicts n d.pos <;> simp only [hc, Bool.false_eq_true, if_true, if_false] at he
  · rcases aput_mem he with he | ⟨rfl, -⟩
    · exact .inl he
    · exact .inr h
  · exact .inl he

theorem vals_visitIntLit (t : Str) : Vals (visitIntLit t) := by
  unfold visitIntLit
  split
  · exact vals_ite (vals_pure _) (vals_fail _)
  · exact vals_fail _

theorem vals_visitConstant (c : ConstA) : Vals (visitConstant c) := by
  unfold visitConstant
  split
  · exact vals_bind (vals_visitIntLit _) fun _ => vals_pure _
  · exact vals_ite (vals_pure _) (vals_fail _)
  · exact vals_fail _
  · exact vals_pure _
  · exact vals_pure _

theorem vals_visitOptInt (s : Option Str) : Vals (visitOptInt s) := by
  unfold visitOptInt
  split
  · exact vals_visitIntLit _
  · exact vals_pure _

theorem vals_visitSizeA (s : SizeA) : Vals (visitSizeA s) := by
  unfold visitSizeA
  refine vals_bind (vals_visitOptInt _) fun _ => vals_bind (vals_visitOptInt _) fun _ => ?_
  split
  · exact vals_pure _
  · exact vals_fail _

theorem vals_visitOptSize (s : Option SizeA) : Vals (visitOptSize s) := by
  unfold visitOptSize
  split
  · exact vals_pure _
  · exact vals_visitSizeA _

theorem vals_visitName (check : Str → Bool) (conv : Str → Str) (n : Str) : Vals (visitName check conv n) := by
  unfold visitName
  exact vals_ite (vals_fail _) (vals_ite (vals_bind (vals_warn _) fun _ => vals_pure _) (vals_pure _))

theorem vals_visitFieldOptions (os : List OptA) (acc : List (Str × Lit)) : Vals (visitFieldOptions os acc) := by
  induction os generalizing acc with
  | nil => exact vals_pure _
  | cons o r ih =>
    unfold visitFieldOptions
    refine vals_bind (vals_visitConstant _) fun _ => ?_
    split
    · exact vals_fail _
    · exact vals_bind (vals_warn _) fun _ => vals_ite (vals_fail _) (ih _)
    · exact vals_ite (vals_fail _) (ih _)

theorem vals_visitOptName (v : Str → V Str) (n : Option Str) (h : ∀ n, Vals (v n)) : Vals (visitOptName v n) := by
  unfold visitOptName
  split
  · exact h _
  · exact vals_pure _

theorem vals_visitMethod (m : MethA) : Vals (visitMethod m) := by
  unfold visitMethod
  exact vals_bind (vals_visitOptName _ _ (vals_visitName _ _)) fun _ =>
    vals_ite (vals_fail _) (vals_ite (vals_fail _) (vals_pure _))

theorem vals_visitMethods (l : List MethA) (ms : List (Str × List (Bool × Prim))) (errs : List CErr) :
    Vals (visitMethods l ms errs) := by
  induction l generalizing ms errs with
  | nil =>
    unfold visitMethods
    exact vals_ite (vals_pure _) (vals_errs _)
  | cons m r ih =>
    intro u
    unfold visitMethods
    rcases h : visitMethod m u with ⟨o, u1⟩
    have h1 := (vals_visitMethod m).ok h
    cases o with
    | panic => exact h1
    | err es => exact h1.trans (ih _ _ u1)
    | ok a =>
      obtain ⟨s, n, t⟩ := a
      simp only
      split
      · exact h1
      · exact h1.trans (ih _ _ u1)

theorem vals_lookupType (n : Str) : Vals (lookupType n) := by
  intro u
  unfold lookupType
  split <;> exact ValStep.refl _

theorem vals_nameOrPanic (v : Str → V Str) (n : Str) (h : Vals (v n)) : Vals (nameOrPanic v n) := by
  intro u
  have := h u
  unfold nameOrPanic
  split
  · rename_i e; rw [e] at this; exact this
  · rename_i e; rw [e] at this; exact this

theorem vals_lookupStruct (n : Str) : Vals (lookupStruct n) := by
  unfold lookupStruct
  refine vals_bind (vals_nameOrPanic _ _ (vals_visitName _ _ _)) fun _ => vals_bind (vals_lookupType _) fun _ => ?_
  split
  · exact vals_pure _
  · exact vals_fail _

theorem vals_lookupEnum (n : Str) : Vals (lookupEnum n) := by
  unfold lookupEnum
  refine vals_bind (vals_nameOrPanic _ _ (vals_visitName _ _ _)) fun _ => vals_bind (vals_lookupType _) fun _ => ?_
  split
  · exact vals_pure _
  · exact vals_fail _

theorem vals_normalSize (t : CTy) (s : Int) : Vals (normalSize t s) := by
  unfold normalSize
  refine vals_ite (vals_pure _) (vals_ite (vals_fail _) (vals_ite (vals_fail _) ?_))
  split
  · exact vals_ite (vals_fail _) (vals_pure _)
  · exact vals_ite (vals_fail _) (vals_pure _)
  · exact vals_pure _

theorem vals_visitNormalRest (t : CTy) (n : Str) (s : Option SizeA) (os : List OptA) (ms : Option (List MethA)) :
    Vals (visitNormalRest t n s os ms) := by
  unfold visitNormalRest
  refine vals_bind (vals_visitName _ _ _) fun _ => vals_bind (vals_visitOptSize _) fun _ =>
    vals_bind (vals_normalSize _ _) fun _ => vals_bind (vals_visitFieldOptions _ _) fun _ => ?_
  split
  · exact vals_pure _
  · split
    · exact vals_bind (vals_visitMethods _ _ _) fun _ => vals_pure _
    · exact vals_fail _

theorem vals_visitConstVal (v : ConstA ⊕ Str) : Vals (visitConstVal v) := by
  intro u
  unfold visitConstVal
  split
  · exact vals_visitConstant _ u
  · split
    · exact ValStep.refl _
    · split <;> exact ValStep.refl _

theorem vals_constSize (p : Prim) (s : Int) : Vals (constSize p s) := by
  unfold constSize
  exact vals_ite (vals_pure _) (vals_ite (vals_fail _) (vals_pure _))

theorem vals_visitConst (p : Prim) (n : Option Str) (s : Option SizeA) (v : ConstA ⊕ Str) (os : List OptA) :
    Vals (visitConst p n s v os) := by
  unfold visitConst
  refine vals_bind (vals_visitOptName _ _ (vals_visitName _ _)) fun _ => vals_bind (vals_visitOptSize _) fun _ =>
    vals_bind (vals_constSize _ _) fun _ => vals_bind (vals_visitConstVal _) fun _ => ?_
  exact vals_ite (vals_fail _) (vals_bind (vals_visitFieldOptions _ _) fun _ => vals_pure _)

theorem vals_finishStruct (n : Str) (s : Int) (fs : List FieldD) : Vals (finishStruct n s fs) := by
  unfold finishStruct
  refine vals_ite (vals_fail _) ?_
  dsimp only
  split
  · exact vals_fail _
  · exact vals_ite (vals_fail _) (vals_ite (vals_pure _) (vals_ite (vals_fail _) (vals_ite (vals_fail _) (vals_pure _))))

mutual
  theorem vals_visitElem : ∀ e : ElemA, Vals (visitElem e)
    | .basic p => by unfold visitElem; exact vals_pure _
    | .str => by unfold visitElem; exact vals_pure _
    | .bytes => by unfold visitElem; exact vals_pure _
    | .structName n => by unfold visitElem; exact vals_lookupStruct _
    | .structDef d => by unfold visitElem; exact vals_bind (vals_visitStruct d) fun _ => vals_pure _
    | .enumName n => by unfold visitElem; exact vals_lookupEnum _
    | .ident n => by unfold visitElem; exact vals_lookupType _
  theorem vals_visitType : ∀ t : TypeA, Vals (visitType t)
    | .elem e => by unfold visitType; exact vals_visitElem e
    | .array e len => by
      unfold visitType
      exact vals_bind (vals_visitElem e) fun _ => vals_bind (vals_visitIntLit _) fun _ =>
        vals_ite (vals_fail _) (vals_pure _)
  theorem vals_visitField : ∀ f : FieldA, Vals (visitField f)
    | .empty => by unfold visitField; exact vals_pure _
    | .void s os => by
      unfold visitField
      exact vals_bind (vals_visitSizeA _) fun _ => vals_bind (vals_visitFieldOptions _ _) fun _ => vals_pure _
    | .const p n s v os => by
      unfold visitField
      exact vals_bind (vals_visitConst _ _ _ _ _) fun _ => vals_pure _
    | .embedded t os => by
      unfold visitField
      refine vals_bind (vals_visitType t) fun _ => ?_
      split
      · exact vals_bind (vals_visitFieldOptions _ _) fun _ => vals_pure _
      · exact vals_fail _
    | .normal t n s os ms => by
      unfold visitField
      exact vals_bind (vals_visitType t) fun _ => vals_bind (vals_visitNormalRest _ _ _ _ _) fun _ => vals_pure _
  theorem vals_visitBody : ∀ (b : BodyA) (a : Acc) (errs : List CErr), Vals (visitBody b a errs)
    | .nil, a, errs => by unfold visitBody; exact vals_ite (vals_pure _) (vals_errs _)
    | .cons f r, a, errs => by
      intro u
      unfold visitBody
      have h1 := vals_visitField f u
      rcases h : visitField f u with ⟨o, u1⟩
      rw [h] at h1
      cases o with
      | panic => exact h1
      | err es => exact h1.trans (vals_visitBody r _ _ u1)
      | ok fd =>
        cases fd with
        | none => exact h1.trans (vals_visitBody r _ _ u1)
        | some fd =>
          simp only
          split
          · exact h1
          · exact h1.trans (vals_visitBody r _ _ u1)
  theorem vals_visitStruct : ∀ s : StructA, Vals (visitStruct s)
    | .mk line col name size body => by
      unfold visitStruct
      refine vals_bind (vals_visitName _ _ _) fun name => ?_
      intro u
      have hb : Vals (do
          let size ← visitOptSize size
          let fields ← visitBody body ⟨[], []⟩ []
          finishStruct name size fields) :=
        vals_bind (vals_visitOptSize _) fun _ => vals_bind (vals_visitBody body _ _) fun _ => vals_finishStruct _ _ _
      have ha := val_addLocalName u name ⟨⟨u.path, line, col⟩, none⟩ rfl
      show ValStep u (V.bind getU _ u).2
      unfold V.bind getU
      show ValStep u (V.bind (addLocalName name ⟨⟨u.path, line, col⟩, none⟩) _ u).2
      unfold V.bind
      rcases h : addLocalName name ⟨⟨u.path, line, col⟩, none⟩ u with ⟨o, u1⟩
      rw [h] at ha
      cases o with
      | panic => exact ha
      | err es => exact ha
      | ok x => exact ha.trans (hb u1)
end

mutual
  /-- Names of enum values written as constants in a type (that is, in inline structs) -/
  def ElemA.vals : ElemA → List Str
    | .basic _ => []
    | .str => []
    | .bytes => []
    | .structName _ => []
    | .structDef d => d.vals
    | .enumName _ => []
    | .ident _ => []
  def TypeA.vals : TypeA → List Str
    | .elem e => e.vals
    | .array e _ => e.vals
  def StructA.vals : StructA → List Str
    | .mk _ _ _ _ b => b.vals
  def BodyA.vals : BodyA → List Str
    | .nil => []
    | .cons f r => f.vals ++ r.vals
  def FieldA.vals : FieldA → List Str
    | .empty => []
    | .void _ _ => []
    | .const _ _ _ (.inl _) _ => []
    | .const _ _ _ (.inr n) _ => [n]
    | .embedded t _ => t.vals
    | .normal t _ _ _ _ => t.vals
end

/-- Names of enum values written in a definition of a file -/
def TopA.vals : TopA → List Str
  | .struct d => d.vals
  | .enum d => d.body.filterMap fun e => match e with
    | .value _ _ _ (some (.inr n)) => some n
    | _ => none

/-- Names of enum values a definition of a file introduces -/
def TopA.valNames : TopA → List Str
  | .struct _ => []
  | .enum d => (enumElems d.body).map (·.1)

/-- The name is visible and is that of an enum value. -/
def ValBound (u : UnitD) (n : Str) : Prop := ∃ d v, (n, d) ∈ u.globalNames ∧ d.enumVal = some v

theorem ValBound.step {u u' : UnitD} {n : Str} (s : ValStep u u') (h : ValBound u' n) : ValBound u n := by
  obtain ⟨d, v, h1, h2⟩ := h
  rcases s _ h1 with h1 | h1
  · exact ⟨d, v, h1, h2⟩
  · simp only at h1
    rw [h1] at h2
    cases h2

theorem aget_mem {α : Type} {m : List (Str × α)} {n : Str} {a : α} (h : aget m n = some a) : (n, a) ∈ m := by
  unfold aget at h
  obtain ⟨⟨k, b⟩, hx, rfl⟩ := Option.map_eq_some_iff.1 h
  have := List.find?_some hx
  simp only [decide_eq_true_eq] at this
  subst this
  exact List.mem_of_find?_eq_some hx

theorem visitConstVal_bound {n : Str} {u u' : UnitD} {l : Lit} (h : visitConstVal (.inr n) u = (.ok l, u')) : ValBound u n := by
  unfold visitConstVal at h
  simp only at h
  rcases hg : aget u.globalNames n with _ | d
  · rw [hg] at h; cases h
  · rw [hg] at h
    simp only at h
    rcases he : d.enumVal with _ | w
    · rw [he] at h; cases h
    · exact ⟨d, w, aget_mem hg, he⟩

mutual
  theorem visitElem_vals : ∀ (e : ElemA) (u u' : UnitD) (t : CTy), visitElem e u = (.ok t, u') → ∀ n ∈ e.vals, ValBound u n
    | .basic p, u, u', t, h => by simp [ElemA.vals]
    | .str, u, u', t, h => by simp [ElemA.vals]
    | .bytes, u, u', t, h => by simp [ElemA.vals]
    | .structName n, u, u', t, h => by simp [ElemA.vals]
    | .structDef d, u, u', t, h => by
      unfold visitElem at h
      obtain ⟨s, u1, h1, h⟩ := bind_ok.1 h
      unfold ElemA.vals
      exact visitStruct_vals d u u1 s h1
    | .enumName n, u, u', t, h => by simp [ElemA.vals]
    | .ident n, u, u', t, h => by simp [ElemA.vals]
  theorem visitType_vals : ∀ (e : TypeA) (u u' : UnitD) (t : CTy), visitType e u = (.ok t, u') → ∀ n ∈ e.vals, ValBound u n
    | .elem e, u, u', t, h => by
      unfold visitType at h
      unfold TypeA.vals
      exact visitElem_vals e u u' t h
    | .array e len, u, u', t, h => by
      unfold visitType at h
      obtain ⟨t', u1, h1, h⟩ := bind_ok.1 h
      unfold TypeA.vals
      exact visitElem_vals e u u1 t' h1
  theorem visitField_vals : ∀ (f : FieldA) (u u' : UnitD) (o : Option FieldD), visitField f u = (.ok o, u') →
      ∀ n ∈ f.vals, ValBound u n
    | .empty, u, u', o, h => by simp [FieldA.vals]
    | .void _ _, u, u', o, h => by simp [FieldA.vals]
    | .const p nm s (.inl c) os, u, u', o, h => by simp [FieldA.vals]
    | .const p nm s (.inr n) os, u, u', o, h => by
      unfold visitField visitConst at h
      obtain ⟨f, u1, h1, h⟩ := bind_ok.1 h
      obtain ⟨_, u2, k1, h1⟩ := bind_ok.1 h1
      obtain ⟨_, u3, k2, h1⟩ := bind_ok.1 h1
      obtain ⟨_, u4, k3, h1⟩ := bind_ok.1 h1
      obtain ⟨_, u5, k4, h1⟩ := bind_ok.1 h1
      intro m hm
      simp only [FieldA.vals, List.mem_singleton] at hm
      subst hm
      exact (visitConstVal_bound k4).step
        ((((vals_visitOptName _ _ (vals_visitName _ _)).ok k1).trans ((vals_visitOptSize _).ok k2)).trans ((vals_constSize _ _).ok k3))
    | .embedded t os, u, u', o, h => by
      unfold visitField at h
      obtain ⟨t', u1, h1, h⟩ := bind_ok.1 h
      unfold FieldA.vals
      exact visitType_vals t u u1 t' h1
    | .normal t n s os ms, u, u', o, h => by
      unfold visitField at h
      obtain ⟨t', u1, h1, h⟩ := bind_ok.1 h
      unfold FieldA.vals
      exact visitType_vals t u u1 t' h1
  theorem visitBody_vals : ∀ (b : BodyA) (u u' : UnitD) (fs : List FieldD), VisitAll b u fs u' → ∀ n ∈ b.vals, ValBound u n
    | .nil, u, u', fs, h => by simp [BodyA.vals]
    | .cons f b, u, u', fs, h => by
      unfold VisitAll at h
      obtain ⟨o, u1, h1, fs', -, h2⟩ := h
      intro r hr
      unfold BodyA.vals at hr
      rcases List.mem_append.1 hr with hr | hr
      · exact visitField_vals f u u1 o h1 r hr
      · exact (visitBody_vals b u1 u' fs' h2 r hr).step ((vals_visitField f).ok h1)
  theorem visitStruct_vals : ∀ (d : StructA) (u u' : UnitD) (s : StructD), visitStruct d u = (.ok s, u') →
      ∀ n ∈ d.vals, ValBound u n
    | .mk line col name size body, u, u', s, h => by
      obtain ⟨u1, u2, u3, sz, fs, h1, h2, h3, h4, -, -⟩ := visitStruct_ok.1 h
      intro r hr
      unfold StructA.vals at hr
      have h5 := visitBody_vals body u3 u' fs h4 r hr
      have s1 := (vals_visitName _ _ _).ok h1
      have s2 : ValStep u1 u2 := by
        have := val_addLocalName u1 name ⟨⟨u1.path, line, col⟩, none⟩ rfl
        rw [h2] at this
        exact this
      exact h5.step ((s1.trans s2).trans ((vals_visitOptSize _).ok h3))
end

theorem visitTop_vals {t : TopA} {u u' : UnitD} {td : TypeDef} (h : visitTop t u = (.ok td, u')) :
    ∀ n ∈ t.vals, ValBound u n := by
  unfold visitTop at h
  obtain ⟨v, u1, h1, h⟩ := bind_ok.1 h
  obtain ⟨rfl, rfl⟩ := getU_ok.1 h1
  cases t with
  | struct d =>
    obtain ⟨line, col, n, s, b⟩ := d
    obtain ⟨sd, u2, h2, -⟩ := bind_ok.1 h
    exact visitStruct_vals _ _ _ _ h2
  | enum d =>
    obtain ⟨ed, u2, h2, -⟩ := bind_ok.1 h
    obtain ⟨-, -, -, -, -, -, -, ws, hw, -⟩ := visitEnum_ok h2
    intro n hn
    obtain ⟨e, he, hen⟩ := List.mem_filterMap.1 hn
    have : ∃ m, (m, some (.inr n)) ∈ enumElems d.body := by
      split at hen
      · rename_i l c m k
        cases hen
        exact ⟨m, List.mem_filterMap.2 ⟨_, he, rfl⟩⟩
      · cases hen
    obtain ⟨m, hm⟩ := this
    have hx : writtenNum u.globalNames (some (.inr n)) ∈ ws.map some := by
      rw [← hw]
      exact List.mem_map.2 ⟨_, hm, rfl⟩
    obtain ⟨w, -, hw'⟩ := List.mem_map.1 hx
    obtain ⟨nd, h3, h4⟩ := Option.bind_eq_some_iff.1 hw'.symm
    exact ⟨nd, w, aget_mem h3, h4⟩

theorem addEnumNames_mem (vs : List (Pos × Str × Int)) (errs : List CErr) (u u' : UnitD) (x : Unit)
    (h : addEnumNames vs errs u = (.ok x, u')) : ∀ e ∈ u'.globalNames, e ∈ u.globalNames ∨ e.1 ∈ vs.map (·.2.1) := by
  induction vs generalizing errs u with
  | nil =>
    unfold addEnumNames at h
    split at h
    · obtain ⟨-, rfl⟩ := pure_ok.1 h
      exact fun e he => .inl he
    · cases h
  | cons a r ih =>
    obtain ⟨p, n, v⟩ := a
    unfold addEnumNames at h
    rcases k : addLocalName n ⟨p, some v⟩ u with ⟨o, u1⟩
    rw [k] at h
    have h1 : ∀ e ∈ u1.globalNames, e ∈ u.globalNames ∨ e.1 = n := by
      intro e he
      unfold addLocalName UnitD.addLocalName at k
      cases hc : u.conflicts n p <;> simp only [hc, Bool.false_eq_true, if_true, if_false, Prod.mk.injEq] at k
      · obtain ⟨-, rfl⟩ := k
        rcases aput_mem he with he | ⟨rfl, -⟩
        · exact .inl he
        · exact .inr rfl
      · obtain ⟨-, rfl⟩ := k
        exact .inl he
    have key : ∀ errs', addEnumNames r errs' u1 = (.ok x, u') → ∀ e ∈ u'.globalNames, e ∈ u.globalNames ∨ e.1 ∈ n :: r.map (·.2.1) := by
      intro errs' h' e he
      rcases ih _ _ h' e he with he | he
      · rcases h1 e he with he | he
        · exact .inl he
        · exact .inr (by simp [he])
      · exact .inr (List.mem_cons_of_mem _ he)
    cases o with
    | panic => cases h
    | err es => exact key _ h
    | ok a => exact key _ h

/-- The visible enum values after a definition -/
theorem visitTop_names {t : TopA} {u u' : UnitD} {td : TypeDef} (h : visitTop t u = (.ok td, u')) :
    ∀ e ∈ u'.globalNames, e ∈ u.globalNames ∨ e.2.enumVal = none ∨ e.1 ∈ t.valNames := by
  unfold visitTop at h
  obtain ⟨v, u1, h1, h⟩ := bind_ok.1 h
  obtain ⟨rfl, rfl⟩ := getU_ok.1 h1
  cases t with
  | struct d =>
    obtain ⟨line, col, n, s, b⟩ := d
    obtain ⟨sd, u2, h2, h⟩ := bind_ok.1 h
    obtain ⟨-, rfl⟩ := pure_ok.1 h
    intro e he
    rcases (vals_visitStruct _).ok h2 e he with he | he
    · exact .inl he
    · exact .inr (.inl he)
  | enum d =>
    obtain ⟨ed, u2, h2, h⟩ := bind_ok.1 h
    obtain ⟨-, rfl⟩ := pure_ok.1 h
    unfold visitEnum at h2
    obtain ⟨n, v1, k1, h2⟩ := bind_ok.1 h2
    obtain ⟨_, _, hg, h2⟩ := bind_ok.1 h2
    obtain ⟨rfl, rfl⟩ := getU_ok.1 hg
    obtain ⟨_, v2, k2, h2⟩ := bind_ok.1 h2
    obtain ⟨sz, v3, k3, h2⟩ := bind_ok.1 h2
    obtain ⟨vs, v4, k4, h2⟩ := bind_ok.1 h2
    obtain ⟨-, e2, e3, -⟩ := visitEnumBody_ok _ _ _ _ _ _ k4 (by simp)
    split at h2
    · exact absurd h2 (by simp [fail])
    · obtain ⟨_, v5, k5, h2⟩ := bind_ok.1 h2
      obtain ⟨-, rfl⟩ := pure_ok.1 h2
      intro e he
      rcases addEnumNames_mem _ _ _ _ _ k5 e he with he | he
      · rw [e2] at he
        have s1 := (vals_visitName _ _ _).ok k1
        have s2 : ValStep v1 v2 := by
          have := val_addLocalName v1 n ⟨⟨v1.path, d.line, d.col⟩, none⟩ rfl
          rw [k2] at this
          exact this
        rcases ((s1.trans s2).trans ((vals_visitSizeA _).ok k3)) e he with he | he
        · exact .inl he
        · exact .inr (.inl he)
      · rw [e3] at he
        exact .inr (.inr he)

theorem Defs.names {ts : List TopA} {u u' : UnitD} (h : Defs ts u u') :
    ∀ e ∈ u'.globalNames, e ∈ u.globalNames ∨ e.2.enumVal = none ∨ ∃ t ∈ ts, e.1 ∈ t.valNames := by
  induction h with
  | nil u => exact fun e h => .inl h
  | cons t r td u u1 u2 h1 h2 ih =>
    intro e he
    rcases ih e he with h | h | ⟨t', ht', h⟩
    · have : e ∈ u1.globalNames ∨ e.2.enumVal = none := by
        rcases addLocalType_cases u1 td with e' | ⟨-, e'⟩
        · rw [e'] at h; exact .inl h
        · rw [e'] at h
          rcases aput_mem h with h | ⟨rfl, -⟩
          · exact .inl h
          · exact .inr rfl
      rcases this with h | h
      · rcases visitTop_names h1 e h with h | h | h
        · exact .inl h
        · exact .inr (.inl h)
        · exact .inr (.inr ⟨t, by simp, h⟩)
      · exact .inr (.inl h)
    · exact .inr (.inl h)
    · exact .inr (.inr ⟨t', by simp [ht'], h⟩)

end Bubbler.Comp
