import Verif.Compiler.Move
import Verif.Compiler.RuntimeSpec

/-
Renaming the files of a project renames the files in what the compiler makes of it, if it compiles.
-/
namespace Bubbler.Comp

/-! ### Renaming tables -/

def Pos.ren (ρ : Str → Str) (p : Pos) : Pos := ⟨ρ p.file, p.line, p.col⟩
def TypeDef.ren (ρ : Str → Str) (t : TypeDef) : TypeDef := ⟨t.pos.ren ρ, t.ty⟩
def NameDef.ren (ρ : Str → Str) (t : NameDef) : NameDef := ⟨t.pos.ren ρ, t.enumVal⟩
def tren (ρ : Str → Str) (m : List (Str × TypeDef)) : List (Str × TypeDef) := m.map fun e => (e.1, e.2.ren ρ)
def nren (ρ : Str → Str) (m : List (Str × NameDef)) : List (Str × NameDef) := m.map fun e => (e.1, e.2.ren ρ)

def UnitD.ren (ρ : Str → Str) (u : UnitD) : UnitD :=
  { u with path := ρ u.path, globalTypes := tren ρ u.globalTypes, globalNames := nren ρ u.globalNames,
           localTypes := tren ρ u.localTypes, localNames := nren ρ u.localNames,
           localImports := u.localImports.map ρ, globalImports := u.globalImports.map ρ }

/-- Different files get different names. -/
def Inj (ρ : Str → Str) : Prop := ∀ a b, ρ a = ρ b → a = b

variable {ρ : Str → Str}

theorem Inj.pos (h : Inj ρ) {p q : Pos} (e : p.ren ρ = q.ren ρ) : p = q := by
  obtain ⟨f, l, c⟩ := p
  obtain ⟨f', l', c'⟩ := q
  simp only [Pos.ren, Pos.mk.injEq] at e
  rw [h _ _ e.1, e.2.1, e.2.2]

theorem aget_nren (m : List (Str × NameDef)) (k : Str) : aget (nren ρ m) k = (aget m k).map (·.ren ρ) :=
  aget_map' _ m k
theorem aget_tren (m : List (Str × TypeDef)) (k : Str) : aget (tren ρ m) k = (aget m k).map (·.ren ρ) :=
  aget_map' _ m k
theorem aput_nren (m : List (Str × NameDef)) (k : Str) (v : NameDef) :
    aput (nren ρ m) k (v.ren ρ) = nren ρ (aput m k v) := aput_map' _ m k v
theorem aput_tren (m : List (Str × TypeDef)) (k : Str) (v : TypeDef) :
    aput (tren ρ m) k (v.ren ρ) = tren ρ (aput m k v) := aput_map' _ m k v

theorem conflicts_ren (h : Inj ρ) (u : UnitD) (n : Str) (p : Pos) :
    (u.ren ρ).conflicts n (p.ren ρ) = u.conflicts n p := by
  simp only [UnitD.conflicts, UnitD.ren, aget_nren]
  cases hg : aget u.globalNames n with
  | none => rfl
  | some d =>
    simp only [Option.map_some, NameDef.ren]
    by_cases e : d.pos = p
    · simp [e]
    · have e' : d.pos.ren ρ ≠ p.ren ρ := fun e2 => e (h.pos e2)
      simp [e, e']

theorem addLocalType_ren (h : Inj ρ) (u : UnitD) (t : TypeDef) :
    (u.ren ρ).addLocalType (t.ren ρ) = ((u.addLocalType t).1.ren ρ, (u.addLocalType t).2) := by
  simp only [UnitD.addLocalType, TypeDef.ren, conflicts_ren h]
  split
  · rfl
  · simp only [UnitD.ren]
    rw [← aput_nren, ← aput_nren, ← aput_tren, ← aput_tren]
    rfl

theorem addLocalName_ren (h : Inj ρ) (u : UnitD) (n : Str) (d : NameDef) :
    (u.ren ρ).addLocalName n (d.ren ρ) = ((u.addLocalName n d).1.ren ρ, (u.addLocalName n d).2) := by
  have hc : (u.ren ρ).conflicts n (d.ren ρ).pos = u.conflicts n d.pos := conflicts_ren h u n d.pos
  unfold UnitD.addLocalName
  rw [hc]
  split
  · rfl
  · simp only [UnitD.ren]
    rw [← aput_nren, ← aput_nren]

theorem addGlobalType_ren (h : Inj ρ) (u : UnitD) (t : TypeDef) :
    (u.ren ρ).addGlobalType (t.ren ρ) = ((u.addGlobalType t).1.ren ρ, (u.addGlobalType t).2) := by
  simp only [UnitD.addGlobalType, TypeDef.ren, conflicts_ren h]
  split
  · rfl
  · simp only [UnitD.ren]
    rw [← aput_nren, ← aput_tren]
    rfl

theorem addGlobalName_ren (h : Inj ρ) (u : UnitD) (n : Str) (d : NameDef) :
    (u.ren ρ).addGlobalName n (d.ren ρ) = ((u.addGlobalName n d).1.ren ρ, (u.addGlobalName n d).2) := by
  have hc : (u.ren ρ).conflicts n (d.ren ρ).pos = u.conflicts n d.pos := conflicts_ren h u n d.pos
  unfold UnitD.addGlobalName
  rw [hc]
  split
  · rfl
  · simp only [UnitD.ren]
    rw [← aput_nren]

theorem importNames_ren (h : Inj ρ) : ∀ (l : List (Str × NameDef)) (u : UnitD) (errs : List CErr),
    (u.ren ρ).importNames (nren ρ l) errs = ((u.importNames l errs).1.ren ρ, (u.importNames l errs).2)
  | [], u, errs => rfl
  | (n, d) :: r, u, errs => by
    simp only [nren, List.map_cons, UnitD.importNames, addGlobalName_ren h]
    rcases u.addGlobalName n d with ⟨u', b⟩
    cases b
    · exact importNames_ren h r u' _
    · exact importNames_ren h r u' _

theorem importTypes_ren (h : Inj ρ) : ∀ (l : List (Str × TypeDef)) (u : UnitD) (errs : List CErr),
    (u.ren ρ).importTypes (tren ρ l) errs = ((u.importTypes l errs).1.ren ρ, (u.importTypes l errs).2)
  | [], u, errs => rfl
  | (n, d) :: r, u, errs => by
    simp only [tren, List.map_cons, UnitD.importTypes, addGlobalType_ren h]
    rcases u.addGlobalType d with ⟨u', b⟩
    cases b
    · exact importTypes_ren h r u' _
    · exact importTypes_ren h r u' _

/-! ### Visitors -/

/-- `x` does in the renamed tables what it does in the tables. -/
def Ren (ρ : Str → Str) {α : Type} (x : V α) : Prop := ∀ u, x (u.ren ρ) = ((x u).1, (x u).2.ren ρ)

theorem Ren.pure {α : Type} (a : α) : Ren ρ (Pure.pure a : V α) := fun _ => rfl
theorem Ren.fail {α : Type} (e : CErr) : Ren ρ (Comp.fail e : V α) := fun _ => rfl
theorem Ren.errs {α : Type} (es : List CErr) : Ren ρ (fun u => (.err es, u) : V α) := fun _ => rfl
theorem Ren.warn (w : Warn) : Ren ρ (Comp.warn w) := fun _ => rfl

theorem Ren.bind {α β : Type} {x : V α} {f : α → V β} (hx : Ren ρ x) (hf : ∀ a, Ren ρ (f a)) : Ren ρ (x >>= f) := by
  intro u
  have h1 := hx u
  change V.bind x f (u.ren ρ) = ((V.bind x f u).1, (V.bind x f u).2.ren ρ)
  simp only [V.bind, h1]
  rcases hxu : x u with ⟨o, u'⟩
  cases o with
  | ok a => exact hf a u'
  | err es => rfl
  | panic => rfl

theorem ren_intLit (t : Str) : Ren ρ (visitIntLit t) := by
  unfold visitIntLit
  split
  · split
    · exact .pure _
    · exact .fail _
  · exact .fail _

theorem ren_constant (c : ConstA) : Ren ρ (visitConstant c) := by
  unfold visitConstant
  split
  · exact .bind (ren_intLit _) fun _ => .pure _
  · split
    · exact .pure _
    · exact .fail _
  · exact .fail _
  · exact .pure _
  · exact .pure _

theorem ren_optInt (t : Option Str) : Ren ρ (visitOptInt t) := by
  cases t
  · exact .pure _
  · exact ren_intLit _

theorem ren_size (s : SizeA) : Ren ρ (visitSizeA s) := by
  unfold visitSizeA
  refine .bind (ren_optInt _) fun _ => .bind (ren_optInt _) fun _ => ?_
  split
  · exact .pure _
  · exact .fail _

theorem ren_optSize (s : Option SizeA) : Ren ρ (visitOptSize s) := by
  cases s
  · exact .pure _
  · exact ren_size _

theorem ren_name (check : Str → Bool) (conv : Str → Str) (n : Str) :
    Ren ρ (visitName check conv n) := by
  unfold visitName
  split
  · exact .fail _
  · split
    · exact .bind (.warn _) fun _ => .pure _
    · exact .pure _

theorem ren_optName {v : Str → V Str} (hv : ∀ n, Ren ρ (v n)) (n : Option Str) :
    Ren ρ (visitOptName v n) := by
  cases n
  · exact .pure _
  · exact hv _

theorem ren_fieldOptions : ∀ (os : List OptA) (acc : List (Str × Lit)),
    Ren ρ (visitFieldOptions os acc)
  | [], acc => .pure _
  | o :: r, acc => by
    rw [visitFieldOptions]
    refine .bind (ren_constant _) fun v => ?_
    split
    · exact .fail _
    · refine .bind (.warn _) fun _ => ?_
      split
      · exact .fail _
      · exact ren_fieldOptions r _
    · split
      · exact .fail _
      · exact ren_fieldOptions r _

theorem ren_method (m : MethA) : Ren ρ (visitMethod m) := by
  unfold visitMethod
  refine .bind (ren_optName (fun n => ren_name _ _ n) _) fun n => ?_
  split
  · exact .fail _
  · split
    · exact .fail _
    · exact .pure _

theorem ren_methods : ∀ (l : List MethA) (ms : List (Str × List (Bool × Prim))) (errs : List CErr),
    Ren ρ (visitMethods l ms errs)
  | [], ms, errs => by
    rw [visitMethods]
    split
    · exact .pure _
    · exact .errs _
  | m :: r, ms, errs => by
    intro u
    obtain h1 := ren_method m (ρ := ρ) u
    simp only [visitMethods, h1]
    rcases hxu : visitMethod m u with ⟨o, u'⟩
    cases o with
    | panic => exact rfl
    | err es => exact ren_methods r _ _ u'
    | ok a =>
      obtain ⟨set, name, ty⟩ := a
      simp only
      cases addMethod ms set name ty with
      | error e => exact rfl
      | ok ms' => exact ren_methods r _ _ u'

theorem ren_lookupType (n : Str) : Ren ρ (lookupType n) := by
  intro u
  have e : (u.ren ρ).globalTypes = tren ρ u.globalTypes := rfl
  simp only [lookupType, e, aget_tren]
  cases aget u.globalTypes n with
  | none => exact rfl
  | some t => exact rfl

theorem ren_nameOrPanic {v : Str → V Str} (hv : ∀ n, Ren ρ (v n)) (n : Str) :
    Ren ρ (nameOrPanic v n) := by
  intro u
  obtain h1 := hv n u
  simp only [nameOrPanic, h1]
  rcases hxu : v n u with ⟨o, u'⟩
  cases o <;> exact rfl

theorem ren_lookupStruct (n : Str) : Ren ρ (lookupStruct n) := by
  unfold lookupStruct
  refine .bind (ren_nameOrPanic (fun n => ren_name _ _ n) _) fun n => .bind (ren_lookupType _) fun t => ?_
  split
  · exact .pure _
  · exact .fail _

theorem ren_lookupEnum (n : Str) : Ren ρ (lookupEnum n) := by
  unfold lookupEnum
  refine .bind (ren_nameOrPanic (fun n => ren_name _ _ n) _) fun n => .bind (ren_lookupType _) fun t => ?_
  split
  · exact .pure _
  · exact .fail _

theorem ren_normalSize (t : CTy) (s : Int) : Ren ρ (normalSize t s) := by
  unfold normalSize
  split
  · exact .pure _
  · split
    · exact .fail _
    · split
      · exact .fail _
      · split
        · split
          · exact .fail _
          · exact .pure _
        · split
          · exact .fail _
          · exact .pure _
        · exact .pure _

theorem ren_normalRest (t : CTy) (n : Str) (s : Option SizeA) (os : List OptA) (ms : Option (List MethA)) :
    Ren ρ (visitNormalRest t n s os ms) := by
  unfold visitNormalRest
  refine .bind (ren_name _ _ _) fun _ => .bind (ren_optSize _) fun _ => .bind (ren_normalSize _ _) fun _ =>
    .bind (ren_fieldOptions _ _) fun _ => ?_
  split
  · exact .pure _
  · split
    · exact .bind (ren_methods _ _ _) fun _ => .pure _
    · exact .fail _

theorem ren_constVal (v : ConstA ⊕ Str) : Ren ρ (visitConstVal v) := by
  cases v with
  | inl c => exact ren_constant c
  | inr n =>
    intro u
    have e : (u.ren ρ).globalNames = nren ρ u.globalNames := rfl
    simp only [visitConstVal, e, aget_nren]
    cases aget u.globalNames n with
    | none => exact rfl
    | some d =>
      simp only [Option.map_some, NameDef.ren]
      cases d.enumVal <;> exact rfl

theorem ren_constSize (q : Prim) (s : Int) : Ren ρ (constSize q s) := by
  unfold constSize
  split
  · exact .pure _
  · split
    · exact .fail _
    · exact .pure _

theorem ren_const (q : Prim) (n : Option Str) (s : Option SizeA) (v : ConstA ⊕ Str) (os : List OptA) :
    Ren ρ (visitConst q n s v os) := by
  unfold visitConst
  refine .bind (ren_optName (fun n => ren_name _ _ n) _) fun _ => .bind (ren_optSize _) fun _ =>
    .bind (ren_constSize _ _) fun _ => .bind (ren_constVal _) fun _ => ?_
  split
  · exact .fail _
  · exact .bind (ren_fieldOptions _ _) fun _ => .pure _

theorem ren_finish (n : Str) (s : Int) (fs : List FieldD) : Ren ρ (finishStruct n s fs) := by
  unfold finishStruct
  split
  · exact .fail _
  · simp only
    split
    · exact .fail _
    · split
      · exact .fail _
      · split
        · exact .pure _
        · split
          · exact .fail _
          · split
            · exact .fail _
            · exact .pure _


/-- Adding the name of a definition of this file. -/
theorem ren_addHere (h : Inj ρ) (n : Str) (l c : Nat) (v : Option Int) :
    Ren ρ (do let u ← getU; addLocalName n ⟨⟨u.path, l, c⟩, v⟩) := by
  intro u
  change addLocalName n (NameDef.ren ρ ⟨⟨u.path, l, c⟩, v⟩) (u.ren ρ) =
    ((addLocalName n ⟨⟨u.path, l, c⟩, v⟩ u).1, (addLocalName n ⟨⟨u.path, l, c⟩, v⟩ u).2.ren ρ)
  simp only [addLocalName, addLocalName_ren h]
  rcases u.addLocalName n ⟨⟨u.path, l, c⟩, v⟩ with ⟨u', b⟩
  cases b <;> rfl

theorem ren_getAdd {β : Type} (h : Inj ρ) (n : Str) (l c : Nat) (v : Option Int) {f : V β} (hf : Ren ρ f) :
    Ren ρ (do let u ← getU; addLocalName n ⟨⟨u.path, l, c⟩, v⟩; f) :=
  Ren.bind (ren_addHere h n l c v) (f := fun _ => f) fun _ => hf

mutual
  theorem ren_elem (h : Inj ρ) : ∀ e : ElemA, Ren ρ (visitElem e)
    | .basic q => .pure _
    | .str => .pure _
    | .bytes => .pure _
    | .structName n => ren_lookupStruct n
    | .structDef d => by
      have hd := ren_struct h d
      exact Ren.bind hd fun _ => .pure _
    | .enumName n => ren_lookupEnum n
    | .ident n => ren_lookupType n
  theorem ren_type (h : Inj ρ) : ∀ t : TypeA, Ren ρ (visitType t)
    | .elem e => by
      have he := ren_elem h e
      exact he
    | .array e len => by
      have he := ren_elem h e
      simp only [visitType]
      refine Ren.bind he fun _ => Ren.bind (ren_intLit _) fun _ => ?_
      split
      · exact .fail _
      · exact .pure _
  theorem ren_field (h : Inj ρ) : ∀ f : FieldA, Ren ρ (visitField f)
    | .empty => .pure _
    | .void s o => by
      simp only [visitField]
      exact Ren.bind (ren_size _) fun _ => .bind (ren_fieldOptions _ _) fun _ => .pure _
    | .const q n s v o => by
      simp only [visitField]
      exact Ren.bind (ren_const _ _ _ _ _) fun _ => .pure _
    | .embedded t o => by
      have ht := ren_type h t
      simp only [visitField]
      refine Ren.bind ht fun t => ?_
      split
      · exact .bind (ren_fieldOptions _ _) fun _ => .pure _
      · exact .fail _
    | .normal t n s o m => by
      have ht := ren_type h t
      simp only [visitField]
      exact Ren.bind ht fun t => .bind (ren_normalRest _ _ _ _ _) fun _ => .pure _
  theorem ren_body (h : Inj ρ) : ∀ (b : BodyA) (a : Acc) (errs : List CErr), Ren ρ (visitBody b a errs)
    | .nil, a, errs => by
      simp only [visitBody]
      split
      · exact .pure _
      · exact .errs _
    | .cons f r, a, errs => by
      have hf := ren_field h f
      have hr := ren_body h r
      intro u
      have h1 := hf u
      simp only [visitBody, h1]
      rcases hxu : visitField f u with ⟨o, u'⟩
      cases o with
      | panic => rfl
      | err es => exact hr _ _ u'
      | ok fd =>
        cases fd with
        | none => exact hr _ _ u'
        | some fd =>
          simp only
          cases addField fd a with
          | error e => rfl
          | ok a' => exact hr _ _ u'
  theorem ren_struct (h : Inj ρ) : ∀ d : StructA, Ren ρ (visitStruct d)
    | .mk l c n s b => by
      have hb := ren_body h b
      simp only [visitStruct]
      exact .bind (ren_name _ _ _) fun n => ren_getAdd h n l c none
        (.bind (ren_optSize _) fun s => .bind (hb _ _) fun fs => ren_finish _ _ _)
end

/-! ### Visitors whose results contain places -/

/-- As `Ren`, the result renamed by `m`. -/
def RenM (ρ : Str → Str) {α : Type} (m : α → α) (x y : V α) : Prop := ∀ u, y (u.ren ρ) = ((x u).1.map m, (x u).2.ren ρ)

theorem Ren.bindM {α β : Type} {m : β → β} {x : V α} {f g : α → V β} (hx : Ren ρ x)
    (hf : ∀ a, RenM ρ m (f a) (g a)) : RenM ρ m (x >>= f) (x >>= g) := by
  intro u
  have h1 := hx u
  change V.bind x g (u.ren ρ) = ((V.bind x f u).1.map m, (V.bind x f u).2.ren ρ)
  simp only [V.bind, h1]
  rcases hxu : x u with ⟨o, u'⟩
  cases o with
  | ok a => exact hf a u'
  | err es => rfl
  | panic => rfl

theorem RenM.bind {α β : Type} {m : α → α} {x y : V α} {f g : α → V β} (hx : RenM ρ m x y)
    (hf : ∀ a u, g (m a) (u.ren ρ) = ((f a u).1, (f a u).2.ren ρ)) (u : UnitD) :
    (y >>= g) (u.ren ρ) = (((x >>= f) u).1, ((x >>= f) u).2.ren ρ) := by
  have h1 := hx u
  change V.bind y g (u.ren ρ) = ((V.bind x f u).1, (V.bind x f u).2.ren ρ)
  simp only [V.bind, h1]
  rcases hxu : x u with ⟨o, u'⟩
  cases o with
  | ok a => exact hf a u'
  | err es => rfl
  | panic => rfl

theorem ren_enumNum (v : Option (ConstA ⊕ Str)) : Ren ρ (visitEnumNum v) := by
  cases v with
  | none => exact .pure _
  | some c =>
    simp only [visitEnumNum]
    refine .bind (ren_constVal c) fun v => ?_
    split
    · exact .pure _
    · exact .fail _

def renVal (ρ : Str → Str) (e : Pos × Str × Int) : Pos × Str × Int := (e.1.ren ρ, e.2)

theorem ren_enumValue (l c : Nat) (n : Str) (v : Option (ConstA ⊕ Str)) :
    RenM ρ (renVal ρ) (visitEnumValue l c n v) (visitEnumValue l c n v) := by
  unfold visitEnumValue
  refine Ren.bindM (ren_name _ _ _) fun n => Ren.bindM (ren_enumNum v) fun v => ?_
  intro u
  rfl

theorem enumNumber_ren (vs : List (Pos × Str × Int)) (v : Int) :
    enumNumber (vs.map (renVal ρ)) v = enumNumber vs v := by
  unfold enumNumber
  simp only [List.getLast?_map]
  cases vs.getLast? with
  | none => rfl
  | some e => rfl

theorem ren_enumBody : ∀ (b : List EnumElemA) (vs : List (Pos × Str × Int)) (errs : List CErr),
    RenM ρ (List.map (renVal ρ)) (visitEnumBody b vs errs) (visitEnumBody b (vs.map (renVal ρ)) errs)
  | [], vs, errs => by
    intro u
    simp only [visitEnumBody]
    split <;> rfl
  | .empty :: r, vs, errs => by
    have hr := ren_enumBody r vs errs
    simpa only [visitEnumBody] using hr
  | .value l c n v :: r, vs, errs => by
    have hr := ren_enumBody r
    intro u
    have h1 := ren_enumValue (ρ := ρ) l c n v u
    simp only [visitEnumBody, h1]
    rcases hxu : visitEnumValue l c n v u with ⟨o, u'⟩
    cases o with
    | panic => rfl
    | err es => exact hr _ _ u'
    | ok e =>
      obtain ⟨pos, name, w⟩ := e
      have ha : (vs.map (renVal ρ)).any (fun e => decide (e.2.1 = name)) = vs.any (fun e => decide (e.2.1 = name)) := by
        rw [List.any_map]; rfl
      simp only [Out.map, renVal, ha, enumNumber_ren]
      split
      · rfl
      · have := hr (vs ++ [(pos, name, enumNumber vs w)]) errs u'
        rw [List.map_append] at this
        exact this

theorem ren_addLocalName (h : Inj ρ) (n : Str) (d : NameDef) (u : UnitD) :
    addLocalName n (d.ren ρ) (u.ren ρ) = ((addLocalName n d u).1, (addLocalName n d u).2.ren ρ) := by
  simp only [addLocalName, addLocalName_ren h]
  rcases u.addLocalName n d with ⟨u', b⟩
  cases b <;> rfl

theorem ren_addEnumNames (h : Inj ρ) : ∀ (vs : List (Pos × Str × Int)) (errs : List CErr) (u : UnitD),
    addEnumNames (vs.map (renVal ρ)) errs (u.ren ρ) = ((addEnumNames vs errs u).1, (addEnumNames vs errs u).2.ren ρ)
  | [], errs, u => by
    simp only [addEnumNames, List.map_nil]
    split <;> rfl
  | (q, n, v) :: r, errs, u => by
    have hr := ren_addEnumNames h r
    have h1 := ren_addLocalName h n ⟨q, some v⟩ u
    simp only [addEnumNames, List.map_cons, renVal]
    change (match addLocalName n (NameDef.ren ρ ⟨q, some v⟩) (u.ren ρ) with
      | (.ok _, u') => addEnumNames (r.map (renVal ρ)) errs u'
      | (.err es, u') => addEnumNames (r.map (renVal ρ)) (errs ++ es) u'
      | (.panic, u') => (.panic, u')) = _
    rw [h1]
    rcases hxu : addLocalName n ⟨q, some v⟩ u with ⟨o, u'⟩
    cases o with
    | panic => rfl
    | err es => exact hr _ u'
    | ok e => exact hr _ u'

theorem ren_enum (h : Inj ρ) (d : EnumA) : Ren ρ (visitEnum d) := by
  unfold visitEnum
  refine .bind (ren_name _ _ _) fun n => ren_getAdd h n _ _ none (.bind (ren_size _) fun s => ?_)
  refine RenM.bind (ren_enumBody d.body [] []) fun vs u => ?_
  by_cases hv : vs = []
  · subst hv
    rfl
  · have hv' : vs.map (renVal ρ) ≠ [] := fun he => hv (List.map_eq_nil_iff.1 he)
    rw [if_neg hv, if_neg hv']
    have : (vs.map (renVal ρ)).map (·.2) = vs.map (·.2) := by
      rw [List.map_map]; rfl
    rw [this]
    change V.bind _ _ (u.ren ρ) = ((V.bind _ _ u).1, (V.bind _ _ u).2.ren ρ)
    simp only [V.bind, ren_addEnumNames h vs []]
    rcases hxu : addEnumNames vs [] u with ⟨o, u'⟩
    cases o <;> rfl

theorem ren_top (h : Inj ρ) (t : TopA) : RenM ρ (TypeDef.ren ρ) (visitTop t) (visitTop t) := by
  intro u
  cases t with
  | struct d =>
    obtain ⟨l, c, n, s, b⟩ := d
    have h1 := ren_struct h (.mk l c n s b) u
    change V.bind (visitStruct (.mk l c n s b))
        (fun sd => (Pure.pure (⟨⟨ρ u.path, l, c⟩, .struct sd⟩ : TypeDef) : V TypeDef)) (u.ren ρ) =
      ((V.bind (visitStruct (.mk l c n s b)) (fun sd => (Pure.pure (⟨⟨u.path, l, c⟩, .struct sd⟩ : TypeDef) : V TypeDef)) u).1.map (TypeDef.ren ρ),
       (V.bind (visitStruct (.mk l c n s b)) (fun sd => (Pure.pure (⟨⟨u.path, l, c⟩, .struct sd⟩ : TypeDef) : V TypeDef)) u).2.ren ρ)
    simp only [V.bind, h1]
    rcases hxu : visitStruct (.mk l c n s b) u with ⟨o, u'⟩
    cases o <;> rfl
  | enum d =>
    have h1 := ren_enum h d u
    change V.bind (visitEnum d)
        (fun sd => (Pure.pure (⟨⟨ρ u.path, d.line, d.col⟩, .enum sd⟩ : TypeDef) : V TypeDef)) (u.ren ρ) =
      ((V.bind (visitEnum d) (fun sd => (Pure.pure (⟨⟨u.path, d.line, d.col⟩, .enum sd⟩ : TypeDef) : V TypeDef)) u).1.map (TypeDef.ren ρ),
       (V.bind (visitEnum d) (fun sd => (Pure.pure (⟨⟨u.path, d.line, d.col⟩, .enum sd⟩ : TypeDef) : V TypeDef)) u).2.ren ρ)
    simp only [V.bind, h1]
    rcases hxu : visitEnum d u with ⟨o, u'⟩
    cases o <;> rfl

theorem ren_proto (h : Inj ρ) : ∀ (ts : List TopA) (errs : List CErr), Ren ρ (visitProto ts errs)
  | [], errs => by
    simp only [visitProto]
    split
    · exact .pure _
    · exact .errs _
  | t :: r, errs => by
    have hr := ren_proto h r
    intro u
    have h1 := ren_top h t u
    simp only [visitProto, h1]
    rcases hxu : visitTop t u with ⟨o, u'⟩
    cases o with
    | panic => rfl
    | err es => exact hr _ u'
    | ok e =>
      simp only [Out.map, addLocalType_ren h]
      exact hr _ _

/-! ### Files -/

theorem ren_fileOptions : ∀ (os : List OptA) (acc : List (Str × Lit)) (errs : List CErr) (u : UnitD),
    visitFileOptions os acc errs (u.ren ρ) =
      ((visitFileOptions os acc errs u).1, (visitFileOptions os acc errs u).2.1, (visitFileOptions os acc errs u).2.2.ren ρ)
  | [], acc, errs, u => rfl
  | o :: r, acc, errs, u => by
    have h1 := ren_constant (ρ := ρ) o.val u
    simp only [visitFileOptions, h1]
    rcases hxu : visitConstant o.val u with ⟨v, u'⟩
    cases v with
    | panic => exact ren_fileOptions r _ _ _
    | err es => exact ren_fileOptions r _ _ _
    | ok val =>
      simp only
      cases fileValidator.validate o.name val with
      | error e => exact ren_fileOptions r _ _ _
      | warning w =>
        simp only
        split
        · exact ren_fileOptions r _ _ { u' with warns := u'.warns ++ [w] }
        · exact ren_fileOptions r _ _ { u' with warns := u'.warns ++ [w] }
      | good =>
        simp only
        split
        · exact ren_fileOptions r _ _ _
        · exact ren_fileOptions r _ _ _

def FileA.ren (ρ : Str → Str) (f : FileA) : FileA := { f with imports := f.imports.map (Option.map ρ) }

def FileS.ren (ρ : Str → Str) : FileS → FileS
  | .parsed a => .parsed (a.ren ρ)
  | s => s

theorem ren_info (f : FileA) (u : UnitD) : visitInfo (f.ren ρ) (u.ren ρ) = ((visitInfo f u).1, (visitInfo f u).2.ren ρ) := by
  have e1 : (f.ren ρ).pkgs = f.pkgs := rfl
  have e2 : (f.ren ρ).opts = f.opts := rfl
  simp only [visitInfo, e1, e2]
  cases f.pkgs with
  | nil => rfl
  | cons q qs =>
    have h1 := ren_fileOptions (ρ := ρ) f.opts [] (qs.map fun _ => CErr.packageStmtDuplicate) { u with pkg := q }
    change visitFileOptions f.opts [] _ { u.ren ρ with pkg := q } = _ at h1
    simp only [h1]
    rcases hx : visitFileOptions f.opts [] (qs.map fun _ => CErr.packageStmtDuplicate) { u with pkg := q } with ⟨os, es, u'⟩
    simp only
    split <;> rfl

/-! ### Imports -/

theorem Inj.mem (h : Inj ρ) {l : List Str} {x : Str} : ρ x ∈ l.map ρ ↔ x ∈ l := by
  rw [List.mem_map]
  exact ⟨fun ⟨y, hy, e⟩ => h _ _ e ▸ hy, fun hx => ⟨x, hx, rfl⟩⟩

theorem sput_ren (h : Inj ρ) (l : List Str) (x : Str) : sput (l.map ρ) (ρ x) = (sput l x).map ρ := by
  unfold sput
  by_cases hx : x ∈ l
  · rw [if_pos hx, if_pos (h.mem.2 hx)]
  · rw [if_neg hx, if_neg (mt h.mem.1 hx)]
    simp

theorem foldl_sput_ren (h : Inj ρ) : ∀ (m l : List Str), (m.map ρ).foldl sput (l.map ρ) = (m.foldl sput l).map ρ
  | [], _ => rfl
  | x :: m, l => by
    simp only [List.map_cons, List.foldl_cons, sput_ren h]
    exact foldl_sput_ren h m _

theorem addImport_ren (h : Inj ρ) (u o : UnitD) (hok : (u.addImport o).2 = none) :
    (u.ren ρ).addImport (o.ren ρ) = ((u.addImport o).1.ren ρ, none) := by
  unfold UnitD.addImport at hok ⊢
  have e1 : (o.ren ρ).globalNames = nren ρ o.globalNames := rfl
  have e2 : (o.ren ρ).globalTypes = tren ρ o.globalTypes := rfl
  have e3 : (o.ren ρ).path = ρ o.path := rfl
  have e4 : (u.ren ρ).globalImports = u.globalImports.map ρ := rfl
  have e5 : (u.ren ρ).localImports = u.localImports.map ρ := rfl
  have e6 : (o.ren ρ).globalImports = o.globalImports.map ρ := rfl
  simp only [e1, e2, e3, e4, e5, e6, importNames_ren h, importTypes_ren h] at hok ⊢
  by_cases hm : o.path ∈ u.globalImports
  · rw [if_pos hm, if_pos (h.mem.2 hm), sput_ren h]
    rfl
  · rw [if_neg hm] at hok ⊢
    rw [if_neg (mt h.mem.1 hm)]
    by_cases he : ((u.importNames o.globalNames []).1.importTypes o.globalTypes (u.importNames o.globalNames []).2).2 = []
    · rw [if_neg (by simpa using he), if_neg (by simpa using he)]
      have e7 : ∀ w : UnitD, (w.ren ρ).globalImports = w.globalImports.map ρ := fun _ => rfl
      have e8 : ∀ w : UnitD, (w.ren ρ).localImports = w.localImports.map ρ := fun _ => rfl
      rw [e7, e8, sput_ren h, sput_ren h, foldl_sput_ren h]
      rfl
    · rw [if_pos he] at hok
      exact nomatch hok

/-! ### The runtime -/

def RT.ren (ρ : Str → Str) (rt : RT) : RT :=
  ⟨rt.units.map fun e => (ρ e.1, e.2.ren ρ), rt.packages.map fun e => (e.1, ρ e.2), rt.stack.map ρ⟩

theorem aget_keys {α : Type} (h : Inj ρ) (f : α → α) : ∀ (m : List (Str × α)) (k : Str),
    aget (m.map fun e => (ρ e.1, f e.2)) (ρ k) = (aget m k).map f
  | [], _ => rfl
  | (x, v) :: m, k => by
    have ih := aget_keys h f m k
    rw [List.map_cons]
    unfold aget at ih ⊢
    rw [List.find?_cons, List.find?_cons]
    by_cases e : x = k
    · subst e; simp
    · have e' : ρ x ≠ ρ k := fun e2 => e (h _ _ e2)
      simpa [e, e'] using ih

theorem importLoop_grows {rec : Str → RT → Option (RT × Out UnitD)} : ∀ (ps : List Str) (rt rt' : RT) (u u' : UnitD) (errs errs' : List CErr),
    importLoop rec ps rt u errs = some (rt', .ok (u', errs')) → errs <+: errs'
  | [], rt, rt', u, u', errs, errs', h => by
    simp only [importLoop, Option.some.injEq, Prod.mk.injEq, Out.ok.injEq] at h
    rw [h.2.2]
    exact List.prefix_refl _
  | p :: r, rt, rt', u, u', errs, errs', h => by
    unfold importLoop at h
    split at h
    · exact nomatch h
    · simp at h
    · exact (List.prefix_append _ _).trans (importLoop_grows r _ _ _ _ _ _ h)
    · split at h
      · exact importLoop_grows r _ _ _ _ _ _ h
      · exact (List.prefix_append _ _).trans (importLoop_grows r _ _ _ _ _ _ h)

theorem wrapImport_ne (p : Str) (es : List CErr) : wrapImport p es ≠ [] := by
  unfold wrapImport
  split
  · split <;> simp
  · simp

theorem importLoop_ren (h : Inj ρ) {rec rec' : Str → RT → Option (RT × Out UnitD)} {S : Str → Prop}
    (hrec : ∀ q rt rt' v, S q → rec q rt = some (rt', .ok v) → rec' (ρ q) (rt.ren ρ) = some (rt'.ren ρ, .ok (v.ren ρ))) :
    ∀ (ps : List Str) (rt rt' : RT) (u u' : UnitD), (∀ q ∈ ps, S q) → importLoop rec ps rt u [] = some (rt', .ok (u', [])) →
      importLoop rec' (ps.map ρ) (rt.ren ρ) (u.ren ρ) [] = some (rt'.ren ρ, .ok (u'.ren ρ, []))
  | [], rt, rt', u, u', _, he => by
    simp only [importLoop, Option.some.injEq, Prod.mk.injEq, Out.ok.injEq, and_true] at he
    rw [← he.1, ← he.2]
    rfl
  | p :: r, rt, rt', u, u', hS, he => by
    rw [List.map_cons]
    unfold importLoop at he
    have hbad : ∀ (es : List CErr), es ≠ [] → ∀ (rt1 : RT) (u1 : UnitD), importLoop rec r rt1 u1 es ≠ some (rt', .ok (u', [])) := by
      intro es hes rt1 u1 h2
      obtain ⟨t, ht⟩ := importLoop_grows _ _ _ _ _ _ _ h2
      exact hes (List.append_eq_nil_iff.1 ht).1
    split at he
    · exact nomatch he
    · simp at he
    · exact absurd he (hbad _ (by simp [wrapImport_ne]) _ _)
    · rename_i rt1 o hr
      have h1 := hrec p rt rt1 o (hS p (by simp)) hr
      split at he
      · rename_i u1 ha
        have h2 := addImport_ren h u o (by rw [ha])
        rw [ha] at h2
        unfold importLoop
        simp only [h1, h2]
        exact importLoop_ren h hrec r _ _ _ _ (fun q hq => hS q (by simp [hq])) he
      · exact absurd he (hbad _ (by simp) _ _)

theorem new_ren (p : Str) : UnitD.new (ρ p) = (UnitD.new p).ren ρ := rfl

theorem filter_ren (h : Inj ρ) (l : List Str) (p : Str) : (l.map ρ).filter (· ≠ ρ p) = (l.filter (· ≠ p)).map ρ := by
  induction l with
  | nil => rfl
  | cons x l ih =>
    rw [List.map_cons, List.filter_cons, List.filter_cons]
    by_cases e : x = p
    · subst e; simpa using ih
    · have e' : ρ x ≠ ρ p := fun e2 => e (h _ _ e2)
      simpa [e, e'] using ih

theorem aput_keys {α : Type} (h : Inj ρ) (f : α → α) (m : List (Str × α)) (k : Str) (v : α) :
    aput (m.map fun e => (ρ e.1, f e.2)) (ρ k) (f v) = (aput m k v).map fun e => (ρ e.1, f e.2) := by
  unfold aput
  rw [aget_keys h, Option.isSome_map]
  split <;> simp

theorem compileParsed_ren (h : Inj ρ) {rec rec' : Str → RT → Option (RT × Out UnitD)} {S : Str → Prop}
    (hrec : ∀ q rt rt' v, S q → rec q rt = some (rt', .ok v) → rec' (ρ q) (rt.ren ρ) = some (rt'.ren ρ, .ok (v.ren ρ)))
    (p : Str) (f : FileA) (hS : ∀ q, some q ∈ f.imports → S q) (rt rt' : RT) (v : UnitD)
    (he : compileParsed rec p f rt = some (rt', .ok v)) :
    compileParsed rec' (ρ p) (f.ren ρ) (rt.ren ρ) = some (rt'.ren ρ, .ok (v.ren ρ)) := by
  unfold compileParsed at he ⊢
  have e1 : (f.ren ρ).imports.any (·.isNone) = f.imports.any (·.isNone) := by
    show (f.imports.map (Option.map ρ)).any _ = _
    rw [List.any_map]
    congr 1
    funext x
    cases x <;> rfl
  have e2 : (f.ren ρ).imports.filterMap id = (f.imports.filterMap id).map ρ := by
    show (f.imports.map (Option.map ρ)).filterMap _ = _
    rw [List.filterMap_map, List.map_filterMap]
    rfl
  rw [e1, e2, new_ren, ren_info]
  split at he
  · simp at he
  rename_i h1
  rw [if_neg h1]
  rcases hx : visitInfo f (UnitD.new p) with ⟨o, u⟩
  rw [hx] at he
  cases o with
  | err es => simp at he
  | panic => simp at he
  | ok _ =>
    simp only at he ⊢
    have e3 : (u.ren ρ).pkg = u.pkg := rfl
    have e4 : aget (rt.ren ρ).packages u.pkg = (aget rt.packages u.pkg).map ρ := aget_map' _ _ _
    rw [e3, e4, Option.isSome_map]
    split at he
    · simp at he
    rename_i h2
    rw [if_neg h2]
    cases hi : importLoop rec (f.imports.filterMap id)
        { rt with packages := rt.packages ++ [(u.pkg, p)], stack := rt.stack ++ [p] } u [] with
    | none => rw [hi] at he; exact nomatch he
    | some x =>
      obtain ⟨rt1, o⟩ := x
      rw [hi] at he
      cases o with
      | panic => simp at he
      | err es => simp at he
      | ok y =>
        obtain ⟨u', errs⟩ := y
        simp only at he
        split at he
        · simp at he
        rename_i h3
        have h3 : errs = [] := Classical.not_not.1 h3
        subst h3
        have h4 := importLoop_ren h hrec _ _ _ _ _ (fun q hq => hS q (by simpa using hq)) hi
        have e5 : ({ rt with packages := rt.packages ++ [(u.pkg, p)], stack := rt.stack ++ [p] } : RT).ren ρ =
            { rt.ren ρ with packages := (rt.ren ρ).packages ++ [(u.pkg, ρ p)], stack := (rt.ren ρ).stack ++ [ρ p] } := by
          simp [RT.ren]
        rw [e5] at h4
        rw [h4]
        simp only [ne_eq, not_true_eq_false, if_false]
        have e6 : (f.ren ρ).tops = f.tops := rfl
        rw [e6, ren_proto h f.tops [] u']
        rcases hv : visitProto f.tops [] u' with ⟨o, u2⟩
        rw [hv] at he
        cases o with
        | panic => simp at he
        | err es => simp at he
        | ok _ =>
          simp only [Option.some.injEq, Prod.mk.injEq, Out.ok.injEq] at he ⊢
          rw [← he.1, ← he.2]
          refine ⟨?_, rfl⟩
          have e7 : (rt1.ren ρ).stack = rt1.stack.map ρ := rfl
          have e8 : (rt1.ren ρ).units = rt1.units.map fun e => (ρ e.1, e.2.ren ρ) := rfl
          have e9 := aput_keys h (UnitD.ren ρ) rt1.units p u2
          rw [e7, e8, filter_ren h, e9]
          rfl

/-- **Renaming.** `S` is a set of files with everything they import.  If a file of `S` compiles, so does the renamed file in the
renamed directory, with the renamed result. -/
theorem compile_ren (h : Inj ρ) {fs fs' : FS} {S : Str → Prop} (hfs : ∀ q, S q → fs' (ρ q) = (fs q).ren ρ)
    (hS : ∀ q r, S q → Imports fs q r → S r) : ∀ (fuel : Nat) (p : Str) (rt rt' : RT) (v : UnitD), S p →
      compile fs fuel p rt = some (rt', .ok v) → compile fs' fuel (ρ p) (rt.ren ρ) = some (rt'.ren ρ, .ok (v.ren ρ))
  | 0, _, _, _, _, _, he => nomatch he
  | fuel + 1, p, rt, rt', v, hp, he => by
    have e1 : (rt.ren ρ).stack = rt.stack.map ρ := rfl
    have e2 : aget (rt.ren ρ).units (ρ p) = (aget rt.units p).map (·.ren ρ) := aget_keys h (UnitD.ren ρ) _ _
    simp only [compile, e1, e2, hfs p hp] at he ⊢
    cases hf : fs p with
    | missing => rw [hf] at he; simp at he
    | unreadable => rw [hf] at he; simp at he
    | garbage =>
      rw [hf] at he
      simp only [FileS.ren] at he ⊢
      split at he
      · simp at he
      rename_i hst
      rw [if_neg (mt h.mem.1 hst)]
      cases hu : aget rt.units p with
      | none => rw [hu] at he; simp at he
      | some w =>
        rw [hu] at he
        simp only [Option.some.injEq, Prod.mk.injEq, Out.ok.injEq] at he
        rw [← he.1, ← he.2]
        rfl
    | parsed f =>
      rw [hf] at he
      simp only [FileS.ren] at he ⊢
      split at he
      · simp at he
      rename_i hst
      rw [if_neg (mt h.mem.1 hst)]
      cases hu : aget rt.units p with
      | some w =>
        rw [hu] at he
        simp only [Option.some.injEq, Prod.mk.injEq, Out.ok.injEq] at he
        rw [← he.1, ← he.2]
        rfl
      | none =>
        rw [hu] at he
        exact compileParsed_ren h (fun q rt rt' v hq hc => compile_ren h hfs hS fuel q rt rt' v hq hc) p f
          (fun q hq => hS p q hp ⟨f, hf, hq⟩) rt rt' v he

/-- The whole run. -/
theorem compileFile_ren (h : Inj ρ) {fs fs' : FS} {S : Str → Prop} (hfs : ∀ q, S q → fs' (ρ q) = (fs q).ren ρ)
    (hS : ∀ q r, S q → Imports fs q r → S r) {abs abs' : Str → Option Str} {file file' p : Str}
    (ha : abs file = some p) (ha' : abs' file' = some (ρ p)) (hf' : file' ≠ []) (hp : S p) {fuel : Nat} {us : List UnitD} {u : UnitD}
    (he : compileFile fs abs fuel file = some (us, .ok (some u))) :
    compileFile fs' abs' fuel file' = some (us.map (·.ren ρ), .ok (some (u.ren ρ))) := by
  unfold compileFile at he ⊢
  rw [if_neg hf', ha']
  split at he
  · simp at he
  rw [ha] at he
  simp only at he ⊢
  cases hc : compile fs fuel p RT.new with
  | none => rw [hc] at he; exact nomatch he
  | some x =>
    obtain ⟨rt, o⟩ := x
    rw [hc] at he
    cases o with
    | err es => simp at he
    | panic => simp at he
    | ok w =>
      simp only [Option.some.injEq, Prod.mk.injEq, Out.ok.injEq] at he
      have e := compile_ren h hfs hS fuel p RT.new rt w hp hc
      have e0 : RT.new.ren ρ = RT.new := rfl
      rw [e0] at e
      simp only [e, Option.some.injEq, Prod.mk.injEq, Out.ok.injEq]
      rw [← he.1, ← he.2]
      simp [RT.ren]

end Bubbler.Comp
