import Verif.Compiler.Runtime

/-
The compiler looks at positions only to tell definitions apart: moving the definitions of every file to other places
(different ones to different places) moves them in the result and changes nothing else.
-/
namespace Bubbler.Comp

/-- A change of places within each file. -/
structure Moves (π : Pos → Pos) : Prop where
  file : ∀ p, (π p).file = p.file
  inj : ∀ p q, π p = π q → p = q

/-! ### Moving trees, tables and file systems -/

/-- The new place of a line and column in the file `f`. -/
def lineOf (π : Pos → Pos) (f : Str) (l c : Nat) : Nat := (π ⟨f, l, c⟩).line
def colOf (π : Pos → Pos) (f : Str) (l c : Nat) : Nat := (π ⟨f, l, c⟩).col

mutual
  def ElemA.move (π : Pos → Pos) (f : Str) : ElemA → ElemA
    | .basic p => .basic p
    | .str => .str
    | .bytes => .bytes
    | .structName n => .structName n
    | .structDef d => .structDef (d.move π f)
    | .enumName n => .enumName n
    | .ident n => .ident n
  def TypeA.move (π : Pos → Pos) (f : Str) : TypeA → TypeA
    | .elem e => .elem (e.move π f)
    | .array e len => .array (e.move π f) len
  def StructA.move (π : Pos → Pos) (f : Str) : StructA → StructA
    | .mk l c n s b => .mk (lineOf π f l c) (colOf π f l c) n s (b.move π f)
  def BodyA.move (π : Pos → Pos) (f : Str) : BodyA → BodyA
    | .nil => .nil
    | .cons fd r => .cons (fd.move π f) (r.move π f)
  def FieldA.move (π : Pos → Pos) (f : Str) : FieldA → FieldA
    | .empty => .empty
    | .void s o => .void s o
    | .const p n s v o => .const p n s v o
    | .embedded t o => .embedded (t.move π f) o
    | .normal t n s o m => .normal (t.move π f) n s o m
end

def EnumElemA.move (π : Pos → Pos) (f : Str) : EnumElemA → EnumElemA
  | .empty => .empty
  | .value l c n v => .value (lineOf π f l c) (colOf π f l c) n v

def EnumA.move (π : Pos → Pos) (f : Str) (d : EnumA) : EnumA :=
  ⟨lineOf π f d.line d.col, colOf π f d.line d.col, d.name, d.size, d.body.map (·.move π f)⟩

def TopA.move (π : Pos → Pos) (f : Str) : TopA → TopA
  | .struct d => .struct (d.move π f)
  | .enum d => .enum (d.move π f)

def FileA.move (π : Pos → Pos) (f : Str) (a : FileA) : FileA := { a with tops := a.tops.map (·.move π f) }

def FileS.move (π : Pos → Pos) (f : Str) : FileS → FileS
  | .parsed a => .parsed (a.move π f)
  | s => s

def TypeDef.move (π : Pos → Pos) (t : TypeDef) : TypeDef := ⟨π t.pos, t.ty⟩
def NameDef.move (π : Pos → Pos) (t : NameDef) : NameDef := ⟨π t.pos, t.enumVal⟩

def tmap (π : Pos → Pos) (m : List (Str × TypeDef)) : List (Str × TypeDef) := m.map fun e => (e.1, e.2.move π)
def nmap (π : Pos → Pos) (m : List (Str × NameDef)) : List (Str × NameDef) := m.map fun e => (e.1, e.2.move π)

def UnitD.move (π : Pos → Pos) (u : UnitD) : UnitD :=
  { u with globalTypes := tmap π u.globalTypes, globalNames := nmap π u.globalNames,
           localTypes := tmap π u.localTypes, localNames := nmap π u.localNames }

def RT.move (π : Pos → Pos) (rt : RT) : RT := { rt with units := rt.units.map fun e => (e.1, e.2.move π) }

/-! ### Tables -/

theorem aget_map' {α β : Type} (f : α → β) (m : List (Str × α)) (k : Str) :
    aget (m.map fun e => (e.1, f e.2)) k = (aget m k).map f := by
  induction m with
  | nil => rfl
  | cons e r ih =>
    by_cases h : e.1 = k
    · simp [aget, h]
    · simp only [aget, List.map_cons, List.find?_cons, h, decide_false] at ih ⊢
      exact ih

theorem aput_map' {α β : Type} (f : α → β) (m : List (Str × α)) (k : Str) (v : α) :
    aput (m.map fun e => (e.1, f e.2)) k (f v) = (aput m k v).map fun e => (e.1, f e.2) := by
  unfold aput
  rw [aget_map']
  cases aget m k <;> simp

variable {π : Pos → Pos}

theorem aget_nmap (m : List (Str × NameDef)) (k : Str) : aget (nmap π m) k = (aget m k).map (·.move π) :=
  aget_map' _ m k
theorem aget_tmap (m : List (Str × TypeDef)) (k : Str) : aget (tmap π m) k = (aget m k).map (·.move π) :=
  aget_map' _ m k
theorem aput_nmap (m : List (Str × NameDef)) (k : Str) (v : NameDef) :
    aput (nmap π m) k (v.move π) = nmap π (aput m k v) := aput_map' _ m k v
theorem aput_tmap (m : List (Str × TypeDef)) (k : Str) (v : TypeDef) :
    aput (tmap π m) k (v.move π) = tmap π (aput m k v) := aput_map' _ m k v

theorem conflicts_move (h : Moves π) (u : UnitD) (n : Str) (p : Pos) :
    (u.move π).conflicts n (π p) = u.conflicts n p := by
  simp only [UnitD.conflicts, UnitD.move, aget_nmap]
  cases hg : aget u.globalNames n with
  | none => rfl
  | some d =>
    simp only [Option.map_some, NameDef.move]
    by_cases e : d.pos = p
    · simp [e]
    · have : π d.pos ≠ π p := fun h' => e (h.inj _ _ h')
      simp [e, this]

theorem addLocalType_move (h : Moves π) (u : UnitD) (t : TypeDef) :
    (u.move π).addLocalType (t.move π) = ((u.addLocalType t).1.move π, (u.addLocalType t).2) := by
  simp only [UnitD.addLocalType, TypeDef.move, conflicts_move h]
  split
  · rfl
  · simp only [UnitD.move]
    rw [← aput_nmap, ← aput_nmap, ← aput_tmap, ← aput_tmap]
    rfl

theorem addLocalName_move (h : Moves π) (u : UnitD) (n : Str) (d : NameDef) :
    (u.move π).addLocalName n (d.move π) = ((u.addLocalName n d).1.move π, (u.addLocalName n d).2) := by
  have hc : (u.move π).conflicts n (d.move π).pos = u.conflicts n d.pos := conflicts_move h u n d.pos
  unfold UnitD.addLocalName
  rw [hc]
  split
  · rfl
  · simp only [UnitD.move]
    rw [← aput_nmap, ← aput_nmap]

theorem addGlobalType_move (h : Moves π) (u : UnitD) (t : TypeDef) :
    (u.move π).addGlobalType (t.move π) = ((u.addGlobalType t).1.move π, (u.addGlobalType t).2) := by
  simp only [UnitD.addGlobalType, TypeDef.move, conflicts_move h]
  split
  · rfl
  · simp only [UnitD.move]
    rw [← aput_nmap, ← aput_tmap]
    rfl

theorem addGlobalName_move (h : Moves π) (u : UnitD) (n : Str) (d : NameDef) :
    (u.move π).addGlobalName n (d.move π) = ((u.addGlobalName n d).1.move π, (u.addGlobalName n d).2) := by
  have hc : (u.move π).conflicts n (d.move π).pos = u.conflicts n d.pos := conflicts_move h u n d.pos
  unfold UnitD.addGlobalName
  rw [hc]
  split
  · rfl
  · simp only [UnitD.move]
    rw [← aput_nmap]

theorem importNames_move (h : Moves π) : ∀ (l : List (Str × NameDef)) (u : UnitD) (errs : List CErr),
    (u.move π).importNames (nmap π l) errs = ((u.importNames l errs).1.move π, (u.importNames l errs).2)
  | [], u, errs => rfl
  | (n, d) :: r, u, errs => by
    simp only [nmap, List.map_cons, UnitD.importNames, addGlobalName_move h]
    rcases u.addGlobalName n d with ⟨u', b⟩
    cases b
    · exact importNames_move h r u' _
    · exact importNames_move h r u' _

theorem importTypes_move (h : Moves π) : ∀ (l : List (Str × TypeDef)) (u : UnitD) (errs : List CErr),
    (u.move π).importTypes (tmap π l) errs = ((u.importTypes l errs).1.move π, (u.importTypes l errs).2)
  | [], u, errs => rfl
  | (n, d) :: r, u, errs => by
    simp only [tmap, List.map_cons, UnitD.importTypes, addGlobalType_move h]
    rcases u.addGlobalType d with ⟨u', b⟩
    cases b
    · exact importTypes_move h r u' _
    · exact importTypes_move h r u' _

theorem addImport_move (h : Moves π) (u o : UnitD) :
    (u.move π).addImport (o.move π) = ((u.addImport o).1.move π, (u.addImport o).2) := by
  unfold UnitD.addImport
  have e1 : (o.move π).globalNames = nmap π o.globalNames := rfl
  have e2 : (o.move π).globalTypes = tmap π o.globalTypes := rfl
  simp only [e1, e2, importNames_move h, importTypes_move h]
  have e3 : (o.move π).path = o.path := rfl
  have e4 : (u.move π).globalImports = u.globalImports := rfl
  rw [e3, e4]
  split
  · rfl
  · split <;> rfl

/-! ### Visitors -/

/-- On a file at path `p`, `y` does in the moved tables what `x` does. -/
def Eqv (π : Pos → Pos) (p : Str) {α : Type} (x y : V α) : Prop :=
  ∀ u, u.path = p → y (u.move π) = ((x u).1, (x u).2.move π) ∧ (x u).2.path = p

variable {p : Str}

theorem Eqv.pure {α : Type} (a : α) : Eqv π p (Pure.pure a : V α) (Pure.pure a) := fun _ h => ⟨rfl, h⟩
theorem Eqv.fail {α : Type} (e : CErr) : Eqv π p (Comp.fail e : V α) (Comp.fail e) := fun _ h => ⟨rfl, h⟩
theorem Eqv.errs {α : Type} (es : List CErr) : Eqv π p (fun u => (.err es, u) : V α) (fun u => (.err es, u)) :=
  fun _ h => ⟨rfl, h⟩
theorem Eqv.warn (w : Warn) : Eqv π p (Comp.warn w) (Comp.warn w) := fun _ h => ⟨rfl, h⟩

theorem Eqv.bind {α β : Type} {x y : V α} {f g : α → V β} (hx : Eqv π p x y) (hf : ∀ a, Eqv π p (f a) (g a)) :
    Eqv π p (x >>= f) (y >>= g) := by
  intro u hu
  obtain ⟨h1, h2⟩ := hx u hu
  change V.bind y g (u.move π) = ((V.bind x f u).1, (V.bind x f u).2.move π) ∧ (V.bind x f u).2.path = p
  simp only [V.bind, h1]
  rcases hxu : x u with ⟨o, u'⟩
  rw [hxu] at h2
  cases o with
  | ok a => exact hf a u' h2
  | err es => exact ⟨rfl, h2⟩
  | panic => exact ⟨rfl, h2⟩

theorem eqv_intLit (t : Str) : Eqv π p (visitIntLit t) (visitIntLit t) := by
  unfold visitIntLit
  split
  · split
    · exact .pure _
    · exact .fail _
  · exact .fail _

theorem eqv_constant (c : ConstA) : Eqv π p (visitConstant c) (visitConstant c) := by
  unfold visitConstant
  split
  · exact .bind (eqv_intLit _) fun _ => .pure _
  · split
    · exact .pure _
    · exact .fail _
  · exact .fail _
  · exact .pure _
  · exact .pure _

theorem eqv_optInt (t : Option Str) : Eqv π p (visitOptInt t) (visitOptInt t) := by
  cases t
  · exact .pure _
  · exact eqv_intLit _

theorem eqv_size (s : SizeA) : Eqv π p (visitSizeA s) (visitSizeA s) := by
  unfold visitSizeA
  refine .bind (eqv_optInt _) fun _ => .bind (eqv_optInt _) fun _ => ?_
  split
  · exact .pure _
  · exact .fail _

theorem eqv_optSize (s : Option SizeA) : Eqv π p (visitOptSize s) (visitOptSize s) := by
  cases s
  · exact .pure _
  · exact eqv_size _

theorem eqv_name (check : Str → Bool) (conv : Str → Str) (n : Str) :
    Eqv π p (visitName check conv n) (visitName check conv n) := by
  unfold visitName
  split
  · exact .fail _
  · split
    · exact .bind (.warn _) fun _ => .pure _
    · exact .pure _

theorem eqv_optName {v : Str → V Str} (hv : ∀ n, Eqv π p (v n) (v n)) (n : Option Str) :
    Eqv π p (visitOptName v n) (visitOptName v n) := by
  cases n
  · exact .pure _
  · exact hv _

theorem eqv_fieldOptions : ∀ (os : List OptA) (acc : List (Str × Lit)),
    Eqv π p (visitFieldOptions os acc) (visitFieldOptions os acc)
  | [], acc => .pure _
  | o :: r, acc => by
    rw [visitFieldOptions]
    refine .bind (eqv_constant _) fun v => ?_
    split
    · exact .fail _
    · refine .bind (.warn _) fun _ => ?_
      split
      · exact .fail _
      · exact eqv_fieldOptions r _
    · split
      · exact .fail _
      · exact eqv_fieldOptions r _

theorem eqv_method (m : MethA) : Eqv π p (visitMethod m) (visitMethod m) := by
  unfold visitMethod
  refine .bind (eqv_optName (fun n => eqv_name _ _ n) _) fun n => ?_
  split
  · exact .fail _
  · split
    · exact .fail _
    · exact .pure _

theorem eqv_methods : ∀ (l : List MethA) (ms : List (Str × List (Bool × Prim))) (errs : List CErr),
    Eqv π p (visitMethods l ms errs) (visitMethods l ms errs)
  | [], ms, errs => by
    rw [visitMethods]
    split
    · exact .pure _
    · exact .errs _
  | m :: r, ms, errs => by
    intro u hu
    obtain ⟨h1, h2⟩ := eqv_method m (π := π) (p := p) u hu
    simp only [visitMethods, h1]
    rcases hxu : visitMethod m u with ⟨o, u'⟩
    rw [hxu] at h2
    cases o with
    | panic => exact ⟨rfl, h2⟩
    | err es => exact eqv_methods r _ _ u' h2
    | ok a =>
      obtain ⟨set, name, ty⟩ := a
      simp only
      cases addMethod ms set name ty with
      | error e => exact ⟨rfl, h2⟩
      | ok ms' => exact eqv_methods r _ _ u' h2

theorem eqv_lookupType (n : Str) : Eqv π p (lookupType n) (lookupType n) := by
  intro u hu
  have e : (u.move π).globalTypes = tmap π u.globalTypes := rfl
  simp only [lookupType, e, aget_tmap]
  cases aget u.globalTypes n with
  | none => exact ⟨rfl, hu⟩
  | some t => exact ⟨rfl, hu⟩

theorem eqv_nameOrPanic {v : Str → V Str} (hv : ∀ n, Eqv π p (v n) (v n)) (n : Str) :
    Eqv π p (nameOrPanic v n) (nameOrPanic v n) := by
  intro u hu
  obtain ⟨h1, h2⟩ := hv n u hu
  simp only [nameOrPanic, h1]
  rcases hxu : v n u with ⟨o, u'⟩
  rw [hxu] at h2
  cases o <;> exact ⟨rfl, h2⟩

theorem eqv_lookupStruct (n : Str) : Eqv π p (lookupStruct n) (lookupStruct n) := by
  unfold lookupStruct
  refine .bind (eqv_nameOrPanic (fun n => eqv_name _ _ n) _) fun n => .bind (eqv_lookupType _) fun t => ?_
  split
  · exact .pure _
  · exact .fail _

theorem eqv_lookupEnum (n : Str) : Eqv π p (lookupEnum n) (lookupEnum n) := by
  unfold lookupEnum
  refine .bind (eqv_nameOrPanic (fun n => eqv_name _ _ n) _) fun n => .bind (eqv_lookupType _) fun t => ?_
  split
  · exact .pure _
  · exact .fail _

theorem eqv_normalSize (t : CTy) (s : Int) : Eqv π p (normalSize t s) (normalSize t s) := by
  unfold normalSize
  split
  · exact .pure _
  · split
    · exact .fail _
    · split
      · exact .fail _
      · split
        · split
          · exact .fail _
          · exact .pure _
        · split
          · exact .fail _
          · exact .pure _
        · exact .pure _

theorem eqv_normalRest (t : CTy) (n : Str) (s : Option SizeA) (os : List OptA) (ms : Option (List MethA)) :
    Eqv π p (visitNormalRest t n s os ms) (visitNormalRest t n s os ms) := by
  unfold visitNormalRest
  refine .bind (eqv_name _ _ _) fun _ => .bind (eqv_optSize _) fun _ => .bind (eqv_normalSize _ _) fun _ =>
    .bind (eqv_fieldOptions _ _) fun _ => ?_
  split
  · exact .pure _
  · split
    · exact .bind (eqv_methods _ _ _) fun _ => .pure _
    · exact .fail _

theorem eqv_constVal (v : ConstA ⊕ Str) : Eqv π p (visitConstVal v) (visitConstVal v) := by
  cases v with
  | inl c => exact eqv_constant c
  | inr n =>
    intro u hu
    have e : (u.move π).globalNames = nmap π u.globalNames := rfl
    simp only [visitConstVal, e, aget_nmap]
    cases aget u.globalNames n with
    | none => exact ⟨rfl, hu⟩
    | some d =>
      simp only [Option.map_some, NameDef.move]
      cases d.enumVal <;> exact ⟨rfl, hu⟩

theorem eqv_constSize (q : Prim) (s : Int) : Eqv π p (constSize q s) (constSize q s) := by
  unfold constSize
  split
  · exact .pure _
  · split
    · exact .fail _
    · exact .pure _

theorem eqv_const (q : Prim) (n : Option Str) (s : Option SizeA) (v : ConstA ⊕ Str) (os : List OptA) :
    Eqv π p (visitConst q n s v os) (visitConst q n s v os) := by
  unfold visitConst
  refine .bind (eqv_optName (fun n => eqv_name _ _ n) _) fun _ => .bind (eqv_optSize _) fun _ =>
    .bind (eqv_constSize _ _) fun _ => .bind (eqv_constVal _) fun _ => ?_
  split
  · exact .fail _
  · exact .bind (eqv_fieldOptions _ _) fun _ => .pure _

theorem eqv_finish (n : Str) (s : Int) (fs : List FieldD) : Eqv π p (finishStruct n s fs) (finishStruct n s fs) := by
  unfold finishStruct
  split
  · exact .fail _
  · simp only
    split
    · exact .fail _
    · split
      · exact .fail _
      · split
        · exact .pure _
        · split
          · exact .fail _
          · split
            · exact .fail _
            · exact .pure _

theorem Moves.pos (h : Moves π) (f : Str) (l c : Nat) : π ⟨f, l, c⟩ = ⟨f, lineOf π f l c, colOf π f l c⟩ := by
  have := h.file ⟨f, l, c⟩
  rcases hq : π ⟨f, l, c⟩ with ⟨a, b, d⟩
  rw [hq] at this
  simp only at this
  subst this
  simp [lineOf, colOf, hq]

/-- Adding the name of a definition of this file. -/
theorem eqv_addHere (h : Moves π) (n : Str) (l c : Nat) (v : Option Int) :
    Eqv π p (do let u ← getU; addLocalName n ⟨⟨u.path, l, c⟩, v⟩)
      (do let u ← getU; addLocalName n ⟨⟨u.path, lineOf π p l c, colOf π p l c⟩, v⟩) := by
  intro u hu
  have e : (⟨⟨p, lineOf π p l c, colOf π p l c⟩, v⟩ : NameDef) = NameDef.move π ⟨⟨p, l, c⟩, v⟩ := by
    simp only [NameDef.move, h.pos]
  have e2 : (u.move π).path = p := hu
  change addLocalName n ⟨⟨(u.move π).path, lineOf π p l c, colOf π p l c⟩, v⟩ (u.move π) =
    ((addLocalName n ⟨⟨u.path, l, c⟩, v⟩ u).1, (addLocalName n ⟨⟨u.path, l, c⟩, v⟩ u).2.move π) ∧
    (addLocalName n ⟨⟨u.path, l, c⟩, v⟩ u).2.path = p
  rw [e2, e, hu]
  simp only [addLocalName, addLocalName_move h]
  have hp : (u.addLocalName n ⟨⟨p, l, c⟩, v⟩).1.path = p := by
    unfold UnitD.addLocalName; split <;> exact hu
  rcases hx : u.addLocalName n ⟨⟨p, l, c⟩, v⟩ with ⟨u', b⟩
  rw [hx] at hp
  cases b <;> exact ⟨rfl, hp⟩

theorem eqv_getAdd {β : Type} (h : Moves π) (n : Str) (l c : Nat) (v : Option Int) {f g : V β} (hf : Eqv π p f g) :
    Eqv π p (do let u ← getU; addLocalName n ⟨⟨u.path, l, c⟩, v⟩; f)
      (do let u ← getU; addLocalName n ⟨⟨u.path, lineOf π p l c, colOf π p l c⟩, v⟩; g) := by
  have hb := Eqv.bind (eqv_addHere (p := p) h n l c v) (f := fun _ => f) (g := fun _ => g) fun _ => hf
  exact hb

mutual
  theorem eqv_elem (h : Moves π) : ∀ e : ElemA, Eqv π p (visitElem e) (visitElem (e.move π p))
    | .basic q => .pure _
    | .str => .pure _
    | .bytes => .pure _
    | .structName n => eqv_lookupStruct n
    | .structDef d => by
      have hd := eqv_struct h d
      exact Eqv.bind hd fun _ => .pure _
    | .enumName n => eqv_lookupEnum n
    | .ident n => eqv_lookupType n
  theorem eqv_type (h : Moves π) : ∀ t : TypeA, Eqv π p (visitType t) (visitType (t.move π p))
    | .elem e => by
      have he := eqv_elem h e
      exact he
    | .array e len => by
      have he := eqv_elem h e
      simp only [visitType, TypeA.move]
      refine Eqv.bind he fun _ => Eqv.bind (eqv_intLit _) fun _ => ?_
      split
      · exact .fail _
      · exact .pure _
  theorem eqv_field (h : Moves π) : ∀ f : FieldA, Eqv π p (visitField f) (visitField (f.move π p))
    | .empty => .pure _
    | .void s o => by
      simp only [visitField, FieldA.move]
      exact Eqv.bind (eqv_size _) fun _ => .bind (eqv_fieldOptions _ _) fun _ => .pure _
    | .const q n s v o => by
      simp only [visitField, FieldA.move]
      exact Eqv.bind (eqv_const _ _ _ _ _) fun _ => .pure _
    | .embedded t o => by
      have ht := eqv_type h t
      simp only [visitField, FieldA.move]
      refine Eqv.bind ht fun t => ?_
      split
      · exact .bind (eqv_fieldOptions _ _) fun _ => .pure _
      · exact .fail _
    | .normal t n s o m => by
      have ht := eqv_type h t
      simp only [visitField, FieldA.move]
      exact Eqv.bind ht fun t => .bind (eqv_normalRest _ _ _ _ _) fun _ => .pure _
  theorem eqv_body (h : Moves π) : ∀ (b : BodyA) (a : Acc) (errs : List CErr),
      Eqv π p (visitBody b a errs) (visitBody (b.move π p) a errs)
    | .nil, a, errs => by
      simp only [visitBody, BodyA.move]
      split
      · exact .pure _
      · exact .errs _
    | .cons f r, a, errs => by
      have hf := eqv_field h f
      have hr := eqv_body h r
      intro u hu
      obtain ⟨h1, h2⟩ := hf u hu
      simp only [visitBody, BodyA.move, h1]
      rcases hxu : visitField f u with ⟨o, u'⟩
      rw [hxu] at h2
      cases o with
      | panic => exact ⟨rfl, h2⟩
      | err es => exact hr _ _ u' h2
      | ok fd =>
        cases fd with
        | none => exact hr _ _ u' h2
        | some fd =>
          simp only
          cases addField fd a with
          | error e => exact ⟨rfl, h2⟩
          | ok a' => exact hr _ _ u' h2
  theorem eqv_struct (h : Moves π) : ∀ d : StructA, Eqv π p (visitStruct d) (visitStruct (d.move π p))
    | .mk l c n s b => by
      have hb := eqv_body h b
      simp only [visitStruct, StructA.move]
      exact .bind (eqv_name _ _ _) fun n => eqv_getAdd h n l c none
        (.bind (eqv_optSize _) fun s => .bind (hb _ _) fun fs => eqv_finish _ _ _)
end

/-! ### Visitors whose results contain places -/

def Out.map {α β : Type} (g : α → β) : Out α → Out β
  | .ok a => .ok (g a)
  | .err es => .err es
  | .panic => .panic

/-- As `Eqv`, the result moved by `m`. -/
def EqvM (π : Pos → Pos) (p : Str) {α : Type} (m : α → α) (x y : V α) : Prop :=
  ∀ u, u.path = p → y (u.move π) = ((x u).1.map m, (x u).2.move π) ∧ (x u).2.path = p

theorem EqvM.pure {α : Type} (m : α → α) (a : α) : EqvM π p m (Pure.pure a : V α) (Pure.pure (m a)) :=
  fun _ h => ⟨rfl, h⟩
theorem EqvM.errs {α : Type} (m : α → α) (es : List CErr) :
    EqvM π p m (fun u => (.err es, u) : V α) (fun u => (.err es, u)) := fun _ h => ⟨rfl, h⟩

theorem Eqv.bindM {α β : Type} {m : β → β} {x y : V α} {f g : α → V β} (hx : Eqv π p x y)
    (hf : ∀ a, EqvM π p m (f a) (g a)) : EqvM π p m (x >>= f) (y >>= g) := by
  intro u hu
  obtain ⟨h1, h2⟩ := hx u hu
  change V.bind y g (u.move π) = ((V.bind x f u).1.map m, (V.bind x f u).2.move π) ∧ (V.bind x f u).2.path = p
  simp only [V.bind, h1]
  rcases hxu : x u with ⟨o, u'⟩
  rw [hxu] at h2
  cases o with
  | ok a => exact hf a u' h2
  | err es => exact ⟨rfl, h2⟩
  | panic => exact ⟨rfl, h2⟩

theorem EqvM.bind {α β : Type} {m : α → α} {x y : V α} {f g : α → V β} (hx : EqvM π p m x y)
    (hf : ∀ a, Eqv π p (f a) (g (m a))) : Eqv π p (x >>= f) (y >>= g) := by
  intro u hu
  obtain ⟨h1, h2⟩ := hx u hu
  change V.bind y g (u.move π) = ((V.bind x f u).1, (V.bind x f u).2.move π) ∧ (V.bind x f u).2.path = p
  simp only [V.bind, h1]
  rcases hxu : x u with ⟨o, u'⟩
  rw [hxu] at h2
  cases o with
  | ok a => exact hf a u' h2
  | err es => exact ⟨rfl, h2⟩
  | panic => exact ⟨rfl, h2⟩

theorem eqv_enumNum (v : Option (ConstA ⊕ Str)) : Eqv π p (visitEnumNum v) (visitEnumNum v) := by
  cases v with
  | none => exact .pure _
  | some c =>
    simp only [visitEnumNum]
    refine .bind (eqv_constVal c) fun v => ?_
    split
    · exact .pure _
    · exact .fail _

def moveVal (π : Pos → Pos) (e : Pos × Str × Int) : Pos × Str × Int := (π e.1, e.2)

theorem eqv_enumValue (h : Moves π) (l c : Nat) (n : Str) (v : Option (ConstA ⊕ Str)) :
    EqvM π p (moveVal π) (visitEnumValue l c n v) (visitEnumValue (lineOf π p l c) (colOf π p l c) n v) := by
  unfold visitEnumValue
  refine Eqv.bindM (eqv_name _ _ _) fun n => Eqv.bindM (eqv_enumNum v) fun v => ?_
  intro u hu
  refine ⟨?_, hu⟩
  change (Out.ok (⟨u.path, lineOf π p l c, colOf π p l c⟩, n, v), u.move π) =
    ((Out.ok (⟨u.path, l, c⟩, n, v)).map (moveVal π), u.move π)
  simp only [Out.map, moveVal, h.pos, hu]

theorem enumNumber_move (vs : List (Pos × Str × Int)) (v : Int) :
    enumNumber (vs.map (moveVal π)) v = enumNumber vs v := by
  unfold enumNumber
  simp only [List.getLast?_map]
  cases vs.getLast? with
  | none => rfl
  | some e => rfl

theorem eqv_enumBody (h : Moves π) : ∀ (b : List EnumElemA) (vs : List (Pos × Str × Int)) (errs : List CErr),
    EqvM π p (List.map (moveVal π)) (visitEnumBody b vs errs)
      (visitEnumBody (b.map (·.move π p)) (vs.map (moveVal π)) errs)
  | [], vs, errs => by
    simp only [visitEnumBody, List.map_nil]
    split
    · exact .pure _ _
    · exact .errs _ _
  | .empty :: r, vs, errs => by
    have hr := eqv_enumBody h r vs errs
    simpa only [visitEnumBody, List.map_cons, EnumElemA.move] using hr
  | .value l c n v :: r, vs, errs => by
    have hr := eqv_enumBody h r
    intro u hu
    obtain ⟨h1, h2⟩ := eqv_enumValue (p := p) h l c n v u hu
    simp only [visitEnumBody, List.map_cons, EnumElemA.move, h1]
    rcases hxu : visitEnumValue l c n v u with ⟨o, u'⟩
    rw [hxu] at h2
    cases o with
    | panic => exact ⟨rfl, h2⟩
    | err es => exact hr _ _ u' h2
    | ok e =>
      obtain ⟨pos, name, w⟩ := e
      have ha : (vs.map (moveVal π)).any (fun e => decide (e.2.1 = name)) = vs.any (fun e => decide (e.2.1 = name)) := by
        rw [List.any_map]; rfl
      simp only [Out.map, moveVal, ha, enumNumber_move]
      split
      · exact ⟨rfl, h2⟩
      · have := hr (vs ++ [(pos, name, enumNumber vs w)]) errs u' h2
        rw [List.map_append] at this
        exact this

theorem eqv_addLocalName (h : Moves π) (n : Str) (d : NameDef) :
    Eqv π p (addLocalName n d) (addLocalName n (d.move π)) := by
  intro u hu
  simp only [addLocalName, addLocalName_move h]
  have hp : (u.addLocalName n d).1.path = p := by
    unfold UnitD.addLocalName; split <;> exact hu
  rcases hx : u.addLocalName n d with ⟨u', b⟩
  rw [hx] at hp
  cases b <;> exact ⟨rfl, hp⟩

theorem eqv_addEnumNames (h : Moves π) : ∀ (vs : List (Pos × Str × Int)) (errs : List CErr),
    Eqv π p (addEnumNames vs errs) (addEnumNames (vs.map (moveVal π)) errs)
  | [], errs => by
    simp only [addEnumNames, List.map_nil]
    split
    · exact .pure _
    · exact .errs _
  | (q, n, v) :: r, errs => by
    have hr := eqv_addEnumNames h r
    intro u hu
    obtain ⟨h1, h2⟩ := eqv_addLocalName (p := p) h n ⟨q, some v⟩ u hu
    simp only [addEnumNames, List.map_cons, moveVal]
    change (match addLocalName n (NameDef.move π ⟨q, some v⟩) (u.move π) with
      | (.ok _, u') => addEnumNames (r.map (moveVal π)) errs u'
      | (.err es, u') => addEnumNames (r.map (moveVal π)) (errs ++ es) u'
      | (.panic, u') => (.panic, u')) = _ ∧ _
    rw [h1]
    rcases hxu : addLocalName n ⟨q, some v⟩ u with ⟨o, u'⟩
    rw [hxu] at h2
    cases o with
    | panic => exact ⟨rfl, h2⟩
    | err es => exact hr _ u' h2
    | ok e => exact hr _ u' h2

theorem eqv_enum (h : Moves π) (d : EnumA) : Eqv π p (visitEnum d) (visitEnum (d.move π p)) := by
  unfold visitEnum EnumA.move
  refine .bind (eqv_name _ _ _) fun n => eqv_getAdd h n _ _ none (.bind (eqv_size _) fun s => ?_)
  refine EqvM.bind (eqv_enumBody h d.body [] []) fun vs => ?_
  by_cases hv : vs = []
  · subst hv
    exact .fail _
  · have hv' : vs.map (moveVal π) ≠ [] := fun he => hv (List.map_eq_nil_iff.1 he)
    rw [if_neg hv, if_neg hv']
    refine .bind (eqv_addEnumNames h vs []) fun _ => ?_
    have : (vs.map (moveVal π)).map (·.2) = vs.map (·.2) := by
      rw [List.map_map]; rfl
    rw [this]
    exact .pure _

theorem eqv_top (h : Moves π) (t : TopA) : EqvM π p (TypeDef.move π) (visitTop t) (visitTop (t.move π p)) := by
  intro u hu
  cases t with
  | struct d =>
    obtain ⟨l, c, n, s, b⟩ := d
    have := eqv_struct (p := p) h (.mk l c n s b) u hu
    simp only [StructA.move] at this
    change V.bind (visitStruct (.mk (lineOf π p l c) (colOf π p l c) n s (b.move π p)))
        (fun sd => (Pure.pure (⟨⟨u.path, lineOf π p l c, colOf π p l c⟩, .struct sd⟩ : TypeDef) : V TypeDef)) (u.move π) =
      ((V.bind (visitStruct (.mk l c n s b)) (fun sd => (Pure.pure (⟨⟨u.path, l, c⟩, .struct sd⟩ : TypeDef) : V TypeDef)) u).1.map (TypeDef.move π),
       (V.bind (visitStruct (.mk l c n s b)) (fun sd => (Pure.pure (⟨⟨u.path, l, c⟩, .struct sd⟩ : TypeDef) : V TypeDef)) u).2.move π) ∧
      (V.bind (visitStruct (.mk l c n s b)) (fun sd => (Pure.pure (⟨⟨u.path, l, c⟩, .struct sd⟩ : TypeDef) : V TypeDef)) u).2.path = p
    obtain ⟨h1, h2⟩ := this
    simp only [V.bind, h1]
    rcases hxu : visitStruct (.mk l c n s b) u with ⟨o, u'⟩
    rw [hxu] at h2
    cases o with
    | panic => exact ⟨rfl, h2⟩
    | err es => exact ⟨rfl, h2⟩
    | ok e =>
      refine ⟨?_, h2⟩
      change (Out.ok (⟨⟨u.path, lineOf π p l c, colOf π p l c⟩, .struct e⟩ : TypeDef), u'.move π) =
        (Out.ok (⟨π ⟨u.path, l, c⟩, .struct e⟩ : TypeDef), u'.move π)
      rw [hu, h.pos]
  | enum d =>
    obtain ⟨h1, h2⟩ := eqv_enum (p := p) h d u hu
    change V.bind (visitEnum (d.move π p))
        (fun sd => (Pure.pure (⟨⟨u.path, lineOf π p d.line d.col, colOf π p d.line d.col⟩, .enum sd⟩ : TypeDef) : V TypeDef)) (u.move π) =
      ((V.bind (visitEnum d) (fun sd => (Pure.pure (⟨⟨u.path, d.line, d.col⟩, .enum sd⟩ : TypeDef) : V TypeDef)) u).1.map (TypeDef.move π),
       (V.bind (visitEnum d) (fun sd => (Pure.pure (⟨⟨u.path, d.line, d.col⟩, .enum sd⟩ : TypeDef) : V TypeDef)) u).2.move π) ∧
      (V.bind (visitEnum d) (fun sd => (Pure.pure (⟨⟨u.path, d.line, d.col⟩, .enum sd⟩ : TypeDef) : V TypeDef)) u).2.path = p
    simp only [V.bind, h1]
    rcases hxu : visitEnum d u with ⟨o, u'⟩
    rw [hxu] at h2
    cases o with
    | panic => exact ⟨rfl, h2⟩
    | err es => exact ⟨rfl, h2⟩
    | ok e =>
      refine ⟨?_, h2⟩
      change (Out.ok (⟨⟨u.path, lineOf π p d.line d.col, colOf π p d.line d.col⟩, .enum e⟩ : TypeDef), u'.move π) =
        (Out.ok (⟨π ⟨u.path, d.line, d.col⟩, .enum e⟩ : TypeDef), u'.move π)
      rw [hu, h.pos]

theorem addLocalType_path (u : UnitD) (t : TypeDef) : (u.addLocalType t).1.path = u.path := by
  simp only [UnitD.addLocalType]
  split <;> rfl

theorem eqv_proto (h : Moves π) : ∀ (ts : List TopA) (errs : List CErr),
    Eqv π p (visitProto ts errs) (visitProto (ts.map (·.move π p)) errs)
  | [], errs => by
    simp only [visitProto, List.map_nil]
    split
    · exact .pure _
    · exact .errs _
  | t :: r, errs => by
    have hr := eqv_proto h r
    intro u hu
    obtain ⟨h1, h2⟩ := eqv_top (p := p) h t u hu
    simp only [visitProto, List.map_cons, h1]
    rcases hxu : visitTop t u with ⟨o, u'⟩
    rw [hxu] at h2
    cases o with
    | panic => exact ⟨rfl, h2⟩
    | err es => exact hr _ u' h2
    | ok e =>
      simp only [Out.map, addLocalType_move h]
      exact hr _ _ ((addLocalType_path u' e).trans h2)

/-! ### Files -/

theorem eqv_fileOptions : ∀ (os : List OptA) (acc : List (Str × Lit)) (errs : List CErr) (u : UnitD), u.path = p →
    visitFileOptions os acc errs (u.move π) =
      ((visitFileOptions os acc errs u).1, (visitFileOptions os acc errs u).2.1, (visitFileOptions os acc errs u).2.2.move π) ∧
    (visitFileOptions os acc errs u).2.2.path = p
  | [], acc, errs, u, hu => ⟨rfl, hu⟩
  | o :: r, acc, errs, u, hu => by
    obtain ⟨h1, h2⟩ := eqv_constant (π := π) o.val u hu
    simp only [visitFileOptions, h1]
    rcases hxu : visitConstant o.val u with ⟨v, u'⟩
    rw [hxu] at h2
    cases v with
    | panic => exact eqv_fileOptions r _ _ _ h2
    | err es => exact eqv_fileOptions r _ _ _ h2
    | ok val =>
      simp only
      cases fileValidator.validate o.name val with
      | error e => exact eqv_fileOptions r _ _ _ h2
      | warning w =>
        simp only
        split
        · exact eqv_fileOptions r _ _ { u' with warns := u'.warns ++ [w] } h2
        · exact eqv_fileOptions r _ _ { u' with warns := u'.warns ++ [w] } h2
      | good =>
        simp only
        split
        · exact eqv_fileOptions r _ _ _ h2
        · exact eqv_fileOptions r _ _ _ h2

theorem eqv_info (f : FileA) : Eqv π p (visitInfo f) (visitInfo (f.move π p)) := by
  intro u hu
  have e1 : (f.move π p).pkgs = f.pkgs := rfl
  have e2 : (f.move π p).opts = f.opts := rfl
  simp only [visitInfo, e1, e2]
  cases f.pkgs with
  | nil => exact ⟨rfl, hu⟩
  | cons q qs =>
    obtain ⟨h1, h2⟩ := eqv_fileOptions (π := π) (p := p) f.opts [] (qs.map fun _ => CErr.packageStmtDuplicate)
      { u with pkg := q } hu
    change visitFileOptions f.opts [] _ { u.move π with pkg := q } = _ at h1
    simp only [h1]
    rcases hx : visitFileOptions f.opts [] (qs.map fun _ => CErr.packageStmtDuplicate) { u with pkg := q } with ⟨os, es, u'⟩
    rw [hx] at h2
    simp only
    split
    · exact ⟨rfl, h2⟩
    · exact ⟨rfl, h2⟩

def moveOut (π : Pos → Pos) (x : RT × Out UnitD) : RT × Out UnitD := (x.1.move π, x.2.map (·.move π))

theorem importLoop_move (h : Moves π) {rec rec' : Str → RT → Option (RT × Out UnitD)}
    (hrec : ∀ q rt, rec' q (rt.move π) = (rec q rt).map (moveOut π)) :
    ∀ (ps : List Str) (rt : RT) (u : UnitD) (errs : List CErr),
      importLoop rec' ps (rt.move π) (u.move π) errs =
        (importLoop rec ps rt u errs).map fun x => (x.1.move π, x.2.map fun y => (y.1.move π, y.2))
  | [], rt, u, errs => rfl
  | q :: r, rt, u, errs => by
    simp only [importLoop, hrec]
    cases rec q rt with
    | none => rfl
    | some x =>
      obtain ⟨rt', o⟩ := x
      cases o with
      | panic => rfl
      | err es => exact importLoop_move h hrec r _ _ _
      | ok o =>
        simp only [Option.map_some, moveOut, Out.map, addImport_move h]
        rcases u.addImport o with ⟨u', e⟩
        cases e with
        | none => exact importLoop_move h hrec r _ _ _
        | some e => exact importLoop_move h hrec r _ _ _

theorem addGlobalName_path (u : UnitD) (n : Str) (d : NameDef) : (u.addGlobalName n d).1.path = u.path := by
  unfold UnitD.addGlobalName
  split <;> rfl

theorem addGlobalType_path (u : UnitD) (d : TypeDef) : (u.addGlobalType d).1.path = u.path := by
  simp only [UnitD.addGlobalType]
  split <;> rfl

theorem importNames_path : ∀ (l : List (Str × NameDef)) (u : UnitD) (errs : List CErr),
    (u.importNames l errs).1.path = u.path
  | [], u, errs => rfl
  | (n, d) :: r, u, errs => by
    have hp := addGlobalName_path u n d
    simp only [UnitD.importNames]
    rcases hx : u.addGlobalName n d with ⟨u', b⟩
    rw [hx] at hp
    cases b
    · exact (importNames_path r u' _).trans hp
    · exact (importNames_path r u' _).trans hp

theorem importTypes_path : ∀ (l : List (Str × TypeDef)) (u : UnitD) (errs : List CErr),
    (u.importTypes l errs).1.path = u.path
  | [], u, errs => rfl
  | (n, d) :: r, u, errs => by
    have hp := addGlobalType_path u d
    simp only [UnitD.importTypes]
    rcases hx : u.addGlobalType d with ⟨u', b⟩
    rw [hx] at hp
    cases b
    · exact (importTypes_path r u' _).trans hp
    · exact (importTypes_path r u' _).trans hp

theorem addImport_path (u o : UnitD) : (u.addImport o).1.path = u.path := by
  unfold UnitD.addImport
  have h1 := importNames_path o.globalNames u []
  simp only
  split
  · rfl
  · have h2 := importTypes_path o.globalTypes
    split <;> simp_all

theorem importLoop_path {rec : Str → RT → Option (RT × Out UnitD)} :
    ∀ (ps : List Str) (rt : RT) (u : UnitD) (errs : List CErr) {rt' : RT} {u' : UnitD} {errs' : List CErr},
      importLoop rec ps rt u errs = some (rt', .ok (u', errs')) → u'.path = u.path
  | [], rt, u, errs, rt', u', errs', hi => by
    simp only [importLoop, Option.some.injEq, Prod.mk.injEq, Out.ok.injEq] at hi
    rw [← hi.2.1]
  | q :: r, rt, u, errs, rt', u', errs', hi => by
    simp only [importLoop] at hi
    cases hx : rec q rt with
    | none => rw [hx] at hi; exact nomatch hi
    | some x =>
      obtain ⟨rt1, o⟩ := x
      rw [hx] at hi
      cases o with
      | panic => exact nomatch hi
      | err es => exact importLoop_path r _ _ _ hi
      | ok o =>
        simp only at hi
        have hp := addImport_path u o
        rcases hy : u.addImport o with ⟨u1, e⟩
        rw [hy] at hi hp
        cases e with
        | none => exact (importLoop_path r _ _ _ hi).trans hp
        | some e => exact (importLoop_path r _ _ _ hi).trans hp

theorem compileParsed_move (h : Moves π) {rec rec' : Str → RT → Option (RT × Out UnitD)}
    (hrec : ∀ q rt, rec' q (rt.move π) = (rec q rt).map (moveOut π)) (p : Str) (f : FileA) (rt : RT) :
    compileParsed rec' p (f.move π p) (rt.move π) = (compileParsed rec p f rt).map (moveOut π) := by
  have e1 : (f.move π p).imports = f.imports := rfl
  have e2 : (f.move π p).tops = f.tops.map (·.move π p) := rfl
  have e3 : (rt.move π).packages = rt.packages := rfl
  have e4 : UnitD.new p = (UnitD.new p).move π := rfl
  unfold compileParsed
  rw [e1]
  split
  · rfl
  obtain ⟨h1, h2⟩ := eqv_info (π := π) (p := p) f (UnitD.new p) rfl
  rw [← e4] at h1
  rw [h1]
  rcases hx : visitInfo f (UnitD.new p) with ⟨o, u⟩
  rw [hx] at h2
  cases o with
  | err es => rfl
  | panic => rfl
  | ok _ =>
    simp only
    have e5 : (u.move π).pkg = u.pkg := rfl
    rw [e5, e3]
    split
    · rfl
    have e6 := importLoop_move h hrec (f.imports.filterMap id)
      { rt with packages := rt.packages ++ [(u.pkg, p)], stack := rt.stack ++ [p] } u []
    change importLoop rec' _ { rt.move π with packages := rt.packages ++ [(u.pkg, p)], stack := rt.stack ++ [p] } _ _ = _ at e6
    have e7 : (rt.move π).stack = rt.stack := rfl
    rw [e7, e6]
    cases hi : importLoop rec (f.imports.filterMap id)
      { rt with packages := rt.packages ++ [(u.pkg, p)], stack := rt.stack ++ [p] } u [] with
    | none => rfl
    | some x =>
      obtain ⟨rt', o⟩ := x
      cases o with
      | panic => rfl
      | err es => rfl
      | ok y =>
        obtain ⟨u', errs⟩ := y
        have hp : u'.path = p := (importLoop_path _ _ _ _ hi).trans h2
        simp only [Option.map_some, Out.map]
        split
        · rfl
        obtain ⟨h3, h4⟩ := eqv_proto (p := p) h f.tops [] u' hp
        rw [e2, h3]
        rcases hv : visitProto f.tops [] u' with ⟨o, u''⟩
        have e8 : ∀ (m : List (Str × UnitD)), aput (m.map fun e => (e.1, e.2.move π)) p (u''.move π) =
            (aput m p u'').map fun e => (e.1, e.2.move π) := fun m => aput_map' (fun w => UnitD.move π w) m p u''
        cases o <;> simp only [RT.move, moveOut, Option.map_some, Out.map, e8]

/-- Moving all definitions moves the result. -/
theorem compile_move (h : Moves π) (fs : FS) : ∀ (fuel : Nat) (p : Str) (rt : RT),
    compile (fun q => (fs q).move π q) fuel p (rt.move π) = (compile fs fuel p rt).map (moveOut π)
  | 0, _, _ => rfl
  | fuel + 1, p, rt => by
    have e1 : (rt.move π).stack = rt.stack := rfl
    have e2 : aget (rt.move π).units p = (aget rt.units p).map (·.move π) := aget_map' (fun w => UnitD.move π w) _ _
    simp only [compile, e1, e2]
    cases hf : fs p with
    | missing => rfl
    | unreadable => rfl
    | garbage =>
      simp only [FileS.move]
      split
      · rfl
      · cases aget rt.units p <;> rfl
    | parsed f =>
      simp only [FileS.move]
      split
      · rfl
      · cases aget rt.units p with
        | some u => rfl
        | none =>
          exact compileParsed_move h (compile_move h fs fuel) p f rt

/-- The whole run. -/
theorem compileFile_move (h : Moves π) (fs : FS) (abs : Str → Option Str) (fuel : Nat) (file : Str) :
    compileFile (fun q => (fs q).move π q) abs fuel file =
      (compileFile fs abs fuel file).map fun x => (x.1.map (·.move π), x.2.map (Option.map (·.move π))) := by
  unfold compileFile
  split
  · rfl
  cases abs file with
  | none => rfl
  | some p =>
    have e := compile_move h fs fuel p RT.new
    have e0 : RT.new.move π = RT.new := rfl
    rw [e0] at e
    simp only [e]
    cases compile fs fuel p RT.new with
    | none => rfl
    | some x =>
      obtain ⟨rt, o⟩ := x
      cases o <;> simp [moveOut, Out.map, RT.move]

end Bubbler.Comp
