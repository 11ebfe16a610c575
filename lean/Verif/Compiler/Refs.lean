import Verif.Compiler.RuntimeTables
import Verif.Compiler.FieldProofs

/-
The type names a definition refers to, and where accepted definitions find them.
-/
namespace Bubbler.Comp

/-- How a type is referred to: `struct N`, `enum N` or plain `N`. -/
inductive RefKind | struct | enum | any
deriving DecidableEq

/-- A type of the kind that is asked for -/
def RefKind.fits : RefKind → CTy → Prop
  | .struct, t => ∃ s, t = .struct s
  | .enum, t => ∃ e, t = .enum e
  | .any, _ => True

mutual
  /-- Type names written in a type; those in an inline struct definition included -/
  def ElemA.refs : ElemA → List (RefKind × Str)
    | .basic _ => []
    | .str => []
    | .bytes => []
    | .structName n => [(.struct, n)]
    | .structDef d => d.refs
    | .enumName n => [(.enum, n)]
    | .ident n => [(.any, n)]
  def TypeA.refs : TypeA → List (RefKind × Str)
    | .elem e => e.refs
    | .array e _ => e.refs
  def StructA.refs : StructA → List (RefKind × Str)
    | .mk _ _ _ _ b => b.refs
  def BodyA.refs : BodyA → List (RefKind × Str)
    | .nil => []
    | .cons f r => f.refs ++ r.refs
  def FieldA.refs : FieldA → List (RefKind × Str)
    | .empty => []
    | .void _ _ => []
    | .const _ _ _ _ _ => []
    | .embedded t _ => t.refs
    | .normal t _ _ _ _ => t.refs
end

/-- Type names written in a definition of a file -/
def TopA.refs : TopA → List (RefKind × Str)
  | .struct d => d.refs
  | .enum _ => []

def StructA.defName : StructA → Str
  | .mk _ _ n _ _ => n

/-- The name a definition of a file introduces -/
def TopA.defName : TopA → Str
  | .struct d => d.defName
  | .enum d => d.name

/-- Line and column of a definition of a file -/
def TopA.at : TopA → Nat × Nat
  | .struct (.mk l c _ _ _) => (l, c)
  | .enum d => (d.line, d.col)

/-- The definition is of the kind that is asked for. -/
def RefKind.fitsTop : RefKind → TopA → Prop
  | .struct, t => ∃ d, t = .struct d
  | .enum, t => ∃ d, t = .enum d
  | .any, _ => True

/-- The name is in the table of visible types, as a type of the kind asked for. -/
def Bound (u : UnitD) (r : RefKind × Str) : Prop := ∃ t, aget u.globalTypes r.2 = some t ∧ r.1.fits t.ty

theorem Bound.step {u u' : UnitD} {r : RefKind × Str} (s : Step u u') (h : Bound u' r) : Bound u r := by
  obtain ⟨t, h1, h2⟩ := h
  exact ⟨t, by rw [s.globalTypes] at h1; exact h1, h2⟩

theorem lookupType_ok {n : Str} {u u' : UnitD} {t : CTy} :
    lookupType n u = (.ok t, u') ↔ u = u' ∧ ∃ d, aget u.globalTypes n = some d ∧ d.ty = t := by
  unfold lookupType
  rcases h : aget u.globalTypes n with _ | d
  · simp
  · simp [and_comm]

theorem nameOrPanic_ok {v : Str → V Str} {n m : Str} {u u' : UnitD} :
    nameOrPanic v n u = (.ok m, u') ↔ v n u = (.ok m, u') := by
  unfold nameOrPanic
  rcases h : v n u with ⟨o, u1⟩
  cases o <;> simp

theorem lookupStruct_ok {n : Str} {u u' : UnitD} {t : CTy} (h : lookupStruct n u = (.ok t, u')) :
    ∃ d s, aget u.globalTypes n = some d ∧ d.ty = .struct s ∧ t = .struct s := by
  unfold lookupStruct at h
  obtain ⟨m, u1, h1, h⟩ := bind_ok.1 h
  obtain ⟨-, rfl, rfl⟩ := visitName_ok.1 (nameOrPanic_ok.1 h1)
  obtain ⟨t', u2, h2, h⟩ := bind_ok.1 h
  obtain ⟨rfl, d, hd, rfl⟩ := lookupType_ok.1 h2
  have hd' : aget u.globalTypes n = some d := by
    unfold styleWarn at hd
    split at hd <;> exact hd
  rcases hs : d.ty with p | _ | _ | ⟨e, l⟩ | s | s <;> rw [hs] at h <;> first
    | exact ⟨d, s, hd', hs, (pure_ok.1 h).1.symm⟩
    | exact absurd h (by simp [fail])

theorem lookupEnum_ok {n : Str} {u u' : UnitD} {t : CTy} (h : lookupEnum n u = (.ok t, u')) :
    ∃ d s, aget u.globalTypes n = some d ∧ d.ty = .enum s ∧ t = .enum s := by
  unfold lookupEnum at h
  obtain ⟨m, u1, h1, h⟩ := bind_ok.1 h
  obtain ⟨-, rfl, rfl⟩ := visitName_ok.1 (nameOrPanic_ok.1 h1)
  obtain ⟨t', u2, h2, h⟩ := bind_ok.1 h
  obtain ⟨rfl, d, hd, rfl⟩ := lookupType_ok.1 h2
  have hd' : aget u.globalTypes n = some d := by
    unfold styleWarn at hd
    split at hd <;> exact hd
  rcases hs : d.ty with p | _ | _ | ⟨e, l⟩ | s | s <;> rw [hs] at h <;> first
    | exact ⟨d, s, hd', hs, (pure_ok.1 h).1.symm⟩
    | exact absurd h (by simp [fail])

mutual
  theorem visitElem_refs : ∀ (e : ElemA) (u u' : UnitD) (t : CTy), visitElem e u = (.ok t, u') →
      ∀ r ∈ e.refs, Bound u r
    | .basic p, u, u', t, h => by simp [ElemA.refs]
    | .str, u, u', t, h => by simp [ElemA.refs]
    | .bytes, u, u', t, h => by simp [ElemA.refs]
    | .structName n, u, u', t, h => by
      unfold visitElem at h
      obtain ⟨d, s, hd, hs, -⟩ := lookupStruct_ok h
      intro r hr
      simp only [ElemA.refs, List.mem_singleton] at hr
      subst hr
      exact ⟨d, hd, s, hs⟩
    | .structDef d, u, u', t, h => by
      unfold visitElem at h
      obtain ⟨s, u1, h1, h⟩ := bind_ok.1 h
      intro r hr
      unfold ElemA.refs at hr
      exact visitStruct_refs d u u1 s h1 r hr
    | .enumName n, u, u', t, h => by
      unfold visitElem at h
      obtain ⟨d, s, hd, hs, -⟩ := lookupEnum_ok h
      intro r hr
      simp only [ElemA.refs, List.mem_singleton] at hr
      subst hr
      exact ⟨d, hd, s, hs⟩
    | .ident n, u, u', t, h => by
      unfold visitElem at h
      obtain ⟨-, d, hd, hs⟩ := lookupType_ok.1 h
      intro r hr
      simp only [ElemA.refs, List.mem_singleton] at hr
      subst hr
      exact ⟨d, hd, trivial⟩
  theorem visitType_refs : ∀ (e : TypeA) (u u' : UnitD) (t : CTy), visitType e u = (.ok t, u') →
      ∀ r ∈ e.refs, Bound u r
    | .elem e, u, u', t, h => by
      unfold visitType at h
      unfold TypeA.refs
      exact visitElem_refs e u u' t h
    | .array e len, u, u', t, h => by
      unfold visitType at h
      obtain ⟨t', u1, h1, h⟩ := bind_ok.1 h
      unfold TypeA.refs
      exact visitElem_refs e u u1 t' h1
  theorem visitField_refs : ∀ (f : FieldA) (u u' : UnitD) (o : Option FieldD), visitField f u = (.ok o, u') →
      ∀ r ∈ f.refs, Bound u r
    | .empty, u, u', o, h => by simp [FieldA.refs]
    | .void _ _, u, u', o, h => by simp [FieldA.refs]
    | .const _ _ _ _ _, u, u', o, h => by simp [FieldA.refs]
    | .embedded t os, u, u', o, h => by
      unfold visitField at h
      obtain ⟨t', u1, h1, h⟩ := bind_ok.1 h
      unfold FieldA.refs
      exact visitType_refs t u u1 t' h1
    | .normal t n s os ms, u, u', o, h => by
      unfold visitField at h
      obtain ⟨t', u1, h1, h⟩ := bind_ok.1 h
      unfold FieldA.refs
      exact visitType_refs t u u1 t' h1
  theorem visitBody_refs : ∀ (b : BodyA) (u u' : UnitD) (fs : List FieldD), VisitAll b u fs u' →
      ∀ r ∈ b.refs, Bound u r
    | .nil, u, u', fs, h => by simp [BodyA.refs]
    | .cons f b, u, u', fs, h => by
      unfold VisitAll at h
      obtain ⟨o, u1, h1, fs', -, h2⟩ := h
      intro r hr
      unfold BodyA.refs at hr
      rcases List.mem_append.1 hr with hr | hr
      · exact visitField_refs f u u1 o h1 r hr
      · exact (visitBody_refs b u1 u' fs' h2 r hr).step ((steps_visitField f).ok h1)
  theorem visitStruct_refs : ∀ (d : StructA) (u u' : UnitD) (s : StructD), visitStruct d u = (.ok s, u') →
      ∀ r ∈ d.refs, Bound u r
    | .mk line col name size body, u, u', s, h => by
      obtain ⟨u1, u2, u3, sz, fs, h1, h2, h3, h4, -, -⟩ := visitStruct_ok.1 h
      intro r hr
      unfold StructA.refs at hr
      have h5 := visitBody_refs body u3 u' fs h4 r hr
      have s1 := (steps_visitName _ _ _).ok h1
      have s2 : Step u1 u2 := by
        have := step_addLocalName u1 name ⟨⟨u1.path, line, col⟩, none⟩ rfl
        rw [h2] at this
        exact this
      exact h5.step ((s1.trans s2).trans ((steps_visitOptSize _).ok h3))
end

theorem visitTop_refs {t : TopA} {u u' : UnitD} {td : TypeDef} (h : visitTop t u = (.ok td, u')) :
    ∀ r ∈ t.refs, Bound u r := by
  unfold visitTop at h
  obtain ⟨v, u1, h1, h⟩ := bind_ok.1 h
  obtain ⟨rfl, rfl⟩ := getU_ok.1 h1
  cases t with
  | struct d =>
    obtain ⟨line, col, n, s, b⟩ := d
    obtain ⟨sd, u2, h2, -⟩ := bind_ok.1 h
    exact visitStruct_refs _ _ _ _ h2
  | enum d => simp [TopA.refs]

/-- What an accepted definition of a file is entered as -/
theorem visitTop_def {t : TopA} {u u' : UnitD} {td : TypeDef} (h : visitTop t u = (.ok td, u')) :
    td.pos = ⟨u.path, t.at.1, t.at.2⟩ ∧ td.ty.customName = t.defName ∧
      ((∃ s, td.ty = .struct s) ∧ (∃ d, t = .struct d) ∨ (∃ e, td.ty = .enum e) ∧ (∃ d, t = .enum d)) ∧
      u.conflicts t.defName td.pos = false := by
  unfold visitTop at h
  obtain ⟨v, u1, h1, h⟩ := bind_ok.1 h
  obtain ⟨rfl, rfl⟩ := getU_ok.1 h1
  have conf : ∀ {check : Str → Bool} {conv : Str → Str} {n m : Str} {u' : UnitD} {u1 : UnitD} {p : Pos},
      visitName check conv n u = (.ok m, u1) → addLocalName n ⟨p, none⟩ u1 = (.ok (), u') → u.conflicts n p = false := by
    intro check conv n m u' u1 p h1 h2
    obtain ⟨-, rfl, rfl⟩ := visitName_ok.1 h1
    unfold addLocalName UnitD.addLocalName at h2
    have e : (styleWarn conv n u).conflicts n p = u.conflicts n p := by
      unfold styleWarn
      split <;> rfl
    cases hc : u.conflicts n p
    · rfl
    · simp only [e, hc, if_true] at h2
      simp at h2
  cases t with
  | struct d =>
    obtain ⟨line, col, n, s, b⟩ := d
    obtain ⟨sd, u2, h2, h⟩ := bind_ok.1 h
    obtain ⟨rfl, -⟩ := pure_ok.1 h
    obtain ⟨v1, v2, v3, sz, fs, k1, k2, -, -, -, k6⟩ := visitStruct_ok.1 h2
    obtain ⟨_, _, _, _, rfl, -⟩ := finishStruct_ok.1 k6
    have hp : v1.path = u.path := ((steps_visitName _ _ _).ok k1).path
    rw [hp] at k2
    exact ⟨rfl, rfl, .inl ⟨⟨_, rfl⟩, ⟨_, rfl⟩⟩, conf k1 k2⟩
  | enum d =>
    obtain ⟨ed, u2, h2, h⟩ := bind_ok.1 h
    obtain ⟨rfl, -⟩ := pure_ok.1 h
    unfold visitEnum at h2
    obtain ⟨n, v1, k1, h2⟩ := bind_ok.1 h2
    have hp : v1.path = u.path := ((steps_visitName _ _ _).ok k1).path
    obtain ⟨-, rfl, -⟩ := visitName_ok.1 k1
    obtain ⟨_, _, hg, h2⟩ := bind_ok.1 h2
    obtain ⟨rfl, rfl⟩ := getU_ok.1 hg
    obtain ⟨_, v2, k2, h2⟩ := bind_ok.1 h2
    obtain ⟨sz, v3, -, h2⟩ := bind_ok.1 h2
    obtain ⟨vs, v4, -, h2⟩ := bind_ok.1 h2
    rw [hp] at k2
    split at h2
    · exact absurd h2 (by simp [fail])
    · obtain ⟨_, v5, -, h2⟩ := bind_ok.1 h2
      obtain ⟨rfl, -⟩ := pure_ok.1 h2
      exact ⟨rfl, rfl, .inr ⟨⟨_, rfl⟩, ⟨_, rfl⟩⟩, conf k1 k2⟩

/-- Visiting definitions without an error, one by one -/
inductive Defs : List TopA → UnitD → UnitD → Prop
  | nil (u : UnitD) : Defs [] u u
  | cons (t : TopA) (r : List TopA) (td : TypeDef) (u u1 u2 : UnitD) :
    visitTop t u = (.ok td, u1) → Defs r (u1.addLocalType td).1 u2 → Defs (t :: r) u u2

theorem visitProto_errs (ts : List TopA) (errs : List CErr) (u u' : UnitD) (h : visitProto ts errs u = (.ok (), u')) : errs = [] := by
  induction ts generalizing errs u with
  | nil =>
    unfold visitProto at h
    split at h
    · assumption
    · simp at h
  | cons t r ih =>
    unfold visitProto at h
    rcases k : visitTop t u with ⟨o, u1⟩
    rw [k] at h
    cases o with
    | panic => simp at h
    | err es =>
      have := ih _ _ h
      simp at this
      exact this.1
    | ok td => exact ih _ _ h

/-- A file is accepted exactly if each of its definitions is, in order. -/
theorem visitProto_ok {ts : List TopA} {u u' : UnitD} : visitProto ts [] u = (.ok (), u') ↔ Defs ts u u' := by
  induction ts generalizing u with
  | nil =>
    unfold visitProto
    rw [if_pos rfl, pure_ok]
    constructor
    · rintro ⟨-, rfl⟩; exact .nil _
    · intro h; cases h; exact ⟨rfl, rfl⟩
  | cons t r ih =>
    unfold visitProto
    rcases k : visitTop t u with ⟨o, u1⟩
    cases o with
    | panic =>
      simp only [Prod.mk.injEq, reduceCtorEq, false_and, false_iff]
      intro h
      cases h with
      | cons _ _ td _ u1 _ h1 _ => rw [k] at h1; cases h1
    | err es =>
      simp only
      constructor
      · intro h
        have := visitProto_errs _ _ _ _ h
        simp at this
        exact absurd this (honest_visitTop _ _ _ _ k)
      · intro h
        cases h with
        | cons _ _ td _ u1 _ h1 _ => rw [k] at h1; cases h1
    | ok td =>
      simp only
      rw [ih]
      constructor
      · intro h; exact .cons t r td u u1 u' k h
      · intro h
        cases h with
        | cons _ _ td' _ u1' _ h1 h2 =>
          rw [k] at h1
          simp only [Prod.mk.injEq, Out.ok.injEq] at h1
          obtain ⟨rfl, rfl⟩ := h1
          exact h2

theorem Defs.append {a b : List TopA} {u u' : UnitD} : Defs (a ++ b) u u' ↔ ∃ u1, Defs a u u1 ∧ Defs b u1 u' := by
  induction a generalizing u with
  | nil =>
    constructor
    · intro h; exact ⟨u, .nil u, h⟩
    · rintro ⟨_, h1, h2⟩; cases h1; exact h2
  | cons t r ih =>
    constructor
    · intro h
      cases h with
      | cons _ _ td _ u1 _ h1 h2 =>
        obtain ⟨u2, k1, k2⟩ := ih.1 h2
        exact ⟨u2, .cons t r td u u1 u2 h1 k1, k2⟩
    · rintro ⟨u2, h1, h2⟩
      cases h1 with
      | cons _ _ td _ u1 _ h1 h3 => exact .cons t _ td u u1 u' h1 (ih.2 ⟨u2, h3, h2⟩)

/-- After an accepted list of definitions the visible types are the earlier ones and these. -/
theorem Defs.types {ts : List TopA} {u u' : UnitD} (h : Defs ts u u') :
    u'.path = u.path ∧
    (∀ e ∈ u.globalNames, e ∈ u'.globalNames) ∧
    ∀ e ∈ u'.globalTypes, e ∈ u.globalTypes ∨
      ∃ t ∈ ts, t.defName = e.1 ∧ e.2.pos = ⟨u.path, t.at.1, t.at.2⟩ ∧
        ((∃ s, e.2.ty = .struct s) ∧ (∃ d, t = .struct d) ∨ (∃ s, e.2.ty = .enum s) ∧ (∃ d, t = .enum d)) := by
  induction h with
  | nil u => exact ⟨rfl, fun e h => h, fun e h => .inl h⟩
  | cons t r td u u1 u2 h1 h2 ih =>
    obtain ⟨i1, i2, i3⟩ := ih
    have s := (steps_visitTop t).ok h1
    obtain ⟨d1, d2, d3, -⟩ := visitTop_def h1
    have hp : (u1.addLocalType td).1.path = u.path := by
      rcases addLocalType_cases u1 td with e | ⟨-, e⟩
      · rw [e, s.path]
      · rw [e]; exact s.path
    refine ⟨i1.trans hp, ?_, ?_⟩
    · intro e he
      apply i2
      obtain ⟨x, hx, -⟩ := s.globalNames
      have he' : e ∈ u1.globalNames := by rw [hx]; exact List.mem_append_left _ he
      rcases addLocalType_cases u1 td with e' | ⟨-, e'⟩
      · rw [e']; exact he'
      · rw [e']; exact mem_aput he'
    · intro e he
      rcases i3 e he with h | ⟨t', ht', k1, k2, k3⟩
      · rcases addLocalType_cases u1 td with e' | ⟨-, e'⟩
        · rw [e', s.globalTypes] at h; exact .inl h
        · rw [e'] at h
          rcases aput_mem h with h | ⟨rfl, -⟩
          · rw [s.globalTypes] at h; exact .inl h
          · exact .inr ⟨t, by simp, d2.symm, d1, d3⟩
      · refine .inr ⟨t', by simp [ht'], k1, ?_, k3⟩
        rw [k2, hp]

theorem Good.defs {ts : List TopA} {u u' : UnitD} (h : Defs ts u u') (g : Good u) : Good u' := by
  have := proto_visitProto ts [] u
  rw [visitProto_ok.2 h] at this
  exact this.good g

end Bubbler.Comp
