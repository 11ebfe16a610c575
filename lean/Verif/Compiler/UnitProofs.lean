import Verif.Compiler.VBasics
import Verif.Compiler.Maps

/-
definition/compilation_unit.go: what the Add functions and AddImport do to the tables of a unit.
-/
namespace Bubbler.Comp

/-- Puts a list of entries into a map. -/
def putAll {α : Type} (m l : List (Str × α)) : List (Str × α) := l.foldl (fun m e => aput m e.1 e.2) m

theorem mem_putAll_left {α : Type} {m l : List (Str × α)} {e : Str × α} (h : e ∈ m) : e ∈ putAll m l := by
  induction l generalizing m with
  | nil => exact h
  | cons a r ih => exact ih (mem_aput h)

theorem putAll_nodup {α : Type} {m l : List (Str × α)} (h : (m.map (·.1)).Nodup) : ((putAll m l).map (·.1)).Nodup := by
  induction l generalizing m with
  | nil => exact h
  | cons a r ih => exact ih (aput_nodup _ _ _ h)

theorem putAll_mem {α : Type} {m l : List (Str × α)} {e : Str × α} (h : e ∈ putAll m l) :
    e ∈ m ∨ (e ∈ l ∧ e.1 ∉ m.map (·.1)) := by
  induction l generalizing m with
  | nil => exact .inl h
  | cons a r ih =>
    rcases ih h with h | ⟨h, hn⟩
    · rcases aput_mem h with h | ⟨rfl, hk⟩
      · exact .inl h
      · exact .inr ⟨by simp, hk⟩
    · refine .inr ⟨by simp [h], fun hk => hn ?_⟩
      obtain ⟨e', he', hk⟩ := List.mem_map.1 hk
      exact List.mem_map.2 ⟨e', mem_aput he', hk⟩

theorem putAll_key {α : Type} {m l : List (Str × α)} {e : Str × α} (h : e ∈ l) : e.1 ∈ (putAll m l).map (·.1) := by
  induction l generalizing m with
  | nil => cases h
  | cons a r ih =>
    rcases List.mem_cons.1 h with rfl | h
    · obtain ⟨x, hx, hk⟩ := List.mem_map.1 (aput_key m e.1 e.2)
      exact List.mem_map.2 ⟨x, mem_putAll_left (m := aput m e.1 e.2) (l := r) hx, hk⟩
    · exact ih h

theorem conflicts_iff {u : UnitD} {n : Str} {pos : Pos} :
    u.conflicts n pos = false ↔ ∀ d, aget u.globalNames n = some d → d.pos = pos := by
  unfold UnitD.conflicts
  rcases h : aget u.globalNames n with _ | d
  · simp
  · simp

theorem addGlobalName_ok {u u' : UnitD} {n : Str} {d : NameDef} :
    u.addGlobalName n d = (u', true) ↔
      (∀ d', aget u.globalNames n = some d' → d'.pos = d.pos) ∧ u' = { u with globalNames := aput u.globalNames n d } := by
  unfold UnitD.addGlobalName
  rw [← conflicts_iff]
  cases u.conflicts n d.pos <;> simp [eq_comm]

theorem addGlobalType_ok {u u' : UnitD} {t : TypeDef} :
    u.addGlobalType t = (u', true) ↔
      (∀ d', aget u.globalNames t.ty.customName = some d' → d'.pos = t.pos) ∧
        u' = { u with
          globalTypes := aput u.globalTypes t.ty.customName t
          globalNames := aput u.globalNames t.ty.customName ⟨t.pos, none⟩ } := by
  unfold UnitD.addGlobalType
  rw [← conflicts_iff]
  simp only
  cases u.conflicts t.ty.customName t.pos <;> simp [eq_comm]

theorem importNames_errs (u : UnitD) (l : List (Str × NameDef)) (errs : List CErr) :
    ∃ es, (u.importNames l errs).2 = errs ++ es := by
  induction l generalizing u errs with
  | nil => exact ⟨[], by simp [UnitD.importNames]⟩
  | cons e r ih =>
    obtain ⟨n, d⟩ := e
    unfold UnitD.importNames
    rcases h : u.addGlobalName n d with ⟨u1, b⟩
    cases b with
    | true => exact ih u1 errs
    | false =>
      obtain ⟨es, he⟩ := ih u1 (errs ++ [.duplicate n])
      exact ⟨_, by rw [he, List.append_assoc]⟩

/-- The first loop of `AddImport` without an error -/
theorem importNames_ok {u u' : UnitD} {l : List (Str × NameDef)} (h : u.importNames l [] = (u', [])) :
    u' = { u with globalNames := putAll u.globalNames l } ∧
      ∀ n d, (n, d) ∈ l → ∀ d', aget u.globalNames n = some d' → d'.pos = d.pos := by
  induction l generalizing u with
  | nil =>
    simp only [UnitD.importNames, Prod.mk.injEq, and_true] at h
    subst h
    exact ⟨rfl, by simp⟩
  | cons e r ih =>
    obtain ⟨n, d⟩ := e
    unfold UnitD.importNames at h
    rcases hg : u.addGlobalName n d with ⟨u1, b⟩
    rw [hg] at h
    cases b with
    | true =>
      obtain ⟨h1, rfl⟩ := addGlobalName_ok.1 hg
      obtain ⟨h2, h3⟩ := ih h
      refine ⟨h2, ?_⟩
      intro m d1 hm d' hd
      rcases List.mem_cons.1 hm with hm | hm
      · simp only [Prod.mk.injEq] at hm
        obtain ⟨rfl, rfl⟩ := hm
        exact h1 d' hd
      · refine h3 m d1 hm d' ?_
        simp only
        unfold aput
        split
        · exact hd
        · unfold aget at hd ⊢
          obtain ⟨x, hx, rfl⟩ := Option.map_eq_some_iff.1 hd
          rw [List.find?_append, hx]
          rfl
    | false =>
      obtain ⟨es, he⟩ := importNames_errs u1 r ([] ++ [.duplicate n])
      simp only at h
      rw [h] at he
      simp at he

theorem importTypes_errs (u : UnitD) (l : List (Str × TypeDef)) (errs : List CErr) :
    ∃ es, (u.importTypes l errs).2 = errs ++ es := by
  induction l generalizing u errs with
  | nil => exact ⟨[], by simp [UnitD.importTypes]⟩
  | cons e r ih =>
    obtain ⟨n, t⟩ := e
    unfold UnitD.importTypes
    rcases h : u.addGlobalType t with ⟨u1, b⟩
    cases b with
    | true => exact ih u1 errs
    | false =>
      obtain ⟨es, he⟩ := ih u1 (errs ++ [.duplicate t.ty.customName])
      exact ⟨_, by rw [he, List.append_assoc]⟩

/-- The second loop of `AddImport` without an error, if the names of all types are bound already -/
theorem importTypes_ok {u u' : UnitD} {l : List (Str × TypeDef)} (hk : ∀ n t, (n, t) ∈ l → t.ty.customName = n)
    (hb : ∀ n t, (n, t) ∈ l → n ∈ u.globalNames.map (·.1)) (errs : List CErr) (h : u.importTypes l errs = (u', [])) :
    errs = [] ∧ u' = { u with globalTypes := putAll u.globalTypes l } := by
  induction l generalizing u errs with
  | nil =>
    simp only [UnitD.importTypes, Prod.mk.injEq] at h
    obtain ⟨rfl, rfl⟩ := h
    exact ⟨rfl, rfl⟩
  | cons e r ih =>
    obtain ⟨n, t⟩ := e
    unfold UnitD.importTypes at h
    rcases hg : u.addGlobalType t with ⟨u1, b⟩
    rw [hg] at h
    cases b with
    | true =>
      obtain ⟨h1, rfl⟩ := addGlobalType_ok.1 hg
      have hn := hk n t (by simp)
      have e1 := hb n t (by simp)
      rw [hn, aput_old _ _ _ e1] at h
      obtain ⟨h2, h3⟩ := ih (u := { u with globalTypes := aput u.globalTypes n t }) (fun m s hm => hk m s (by simp [hm]))
        (fun m s hm => hb m s (by simp [hm])) errs h
      exact ⟨h2, h3⟩
    | false =>
      obtain ⟨es, he⟩ := importTypes_errs u1 r (errs ++ [.duplicate t.ty.customName])
      simp only at h
      rw [h] at he
      simp at he

/-- Every type of the unit is entered under its name, which is bound to its position. -/
structure Keyed (u : UnitD) : Prop where
  names : (u.globalNames.map (·.1)).Nodup
  types : (u.globalTypes.map (·.1)).Nodup
  key : ∀ n t, (n, t) ∈ u.globalTypes → t.ty.customName = n
  bound : ∀ n t, (n, t) ∈ u.globalTypes → ∃ d, (n, d) ∈ u.globalNames ∧ d.pos = t.pos

/-- `AddImport` without an error -/
theorem addImport_ok {u o u' : UnitD} (ho : Keyed o) (h : u.addImport o = (u', none)) :
    (o.path ∈ u.globalImports ∧ u' = { u with localImports := sput u.localImports o.path }) ∨
    (o.path ∉ u.globalImports ∧
      (∀ n d, (n, d) ∈ o.globalNames → ∀ d', aget u.globalNames n = some d' → d'.pos = d.pos) ∧
      u' = { u with
        globalNames := putAll u.globalNames o.globalNames
        globalTypes := putAll u.globalTypes o.globalTypes
        localImports := sput u.localImports o.path
        globalImports := o.globalImports.foldl sput (sput u.globalImports o.path) }) := by
  unfold UnitD.addImport at h
  split at h
  · rename_i hp
    simp only [Prod.mk.injEq, and_true] at h
    exact .inl ⟨hp, h.symm⟩
  · rename_i hp
    right
    rcases h1 : u.importNames o.globalNames [] with ⟨u1, es1⟩
    rw [h1] at h
    simp only at h
    rcases h2 : u1.importTypes o.globalTypes es1 with ⟨u2, es2⟩
    rw [h2] at h
    simp only at h
    by_cases he : es2 = []
    · subst he
      rw [if_neg (by simp)] at h
      have hes : es1 = [] := by
        obtain ⟨es, he⟩ := importTypes_errs u1 o.globalTypes es1
        rw [h2] at he
        simp at he
        exact he.1
      subst hes
      obtain ⟨rfl, k⟩ := importNames_ok h1
      obtain ⟨-, rfl⟩ := importTypes_ok ho.key (by
        intro n t ht
        obtain ⟨d, hd, -⟩ := ho.bound n t ht
        exact putAll_key hd) [] h2
      simp only [Prod.mk.injEq, and_true] at h
      exact ⟨hp, k, h.symm⟩
    · rw [if_pos he] at h
      simp at h

theorem importNames_same (u : UnitD) (l : List (Str × NameDef)) (errs : List CErr) :
    (u.importNames l errs).1.path = u.path ∧ (u.importNames l errs).1.pkg = u.pkg := by
  induction l generalizing u errs with
  | nil => exact ⟨rfl, rfl⟩
  | cons e r ih =>
    obtain ⟨n, d⟩ := e
    unfold UnitD.importNames
    have : (u.addGlobalName n d).1.path = u.path ∧ (u.addGlobalName n d).1.pkg = u.pkg := by
      unfold UnitD.addGlobalName; split <;> exact ⟨rfl, rfl⟩
    rcases h : u.addGlobalName n d with ⟨u1, b⟩
    rw [h] at this
    cases b with
    | true => exact ⟨(ih _ _).1.trans this.1, (ih _ _).2.trans this.2⟩
    | false => exact ⟨(ih _ _).1.trans this.1, (ih _ _).2.trans this.2⟩

theorem importTypes_same (u : UnitD) (l : List (Str × TypeDef)) (errs : List CErr) :
    (u.importTypes l errs).1.path = u.path ∧ (u.importTypes l errs).1.pkg = u.pkg := by
  induction l generalizing u errs with
  | nil => exact ⟨rfl, rfl⟩
  | cons e r ih =>
    obtain ⟨n, d⟩ := e
    unfold UnitD.importTypes
    have : (u.addGlobalType d).1.path = u.path ∧ (u.addGlobalType d).1.pkg = u.pkg := by
      unfold UnitD.addGlobalType; simp only; split <;> exact ⟨rfl, rfl⟩
    rcases h : u.addGlobalType d with ⟨u1, b⟩
    rw [h] at this
    cases b with
    | true => exact ⟨(ih _ _).1.trans this.1, (ih _ _).2.trans this.2⟩
    | false => exact ⟨(ih _ _).1.trans this.1, (ih _ _).2.trans this.2⟩

theorem addImport_same (u o : UnitD) : (u.addImport o).1.path = u.path ∧ (u.addImport o).1.pkg = u.pkg := by
  unfold UnitD.addImport
  simp only
  have h1 := importNames_same u o.globalNames []
  have h2 := importTypes_same (u.importNames o.globalNames []).1 o.globalTypes (u.importNames o.globalNames []).2
  split
  · exact ⟨rfl, rfl⟩
  · split
    · exact ⟨h2.1.trans h1.1, h2.2.trans h1.2⟩
    · exact ⟨h2.1.trans h1.1, h2.2.trans h1.2⟩

/-! ### The definitions of a file -/

/-- The local tables are the part of the visible tables that belongs to this file. -/
structure Good (u : UnitD) : Prop where
  tab : Tab u
  keyed : Keyed u
  locNodup : (u.localTypes.map (·.1)).Nodup
  locTypes : ∀ e, e ∈ u.localTypes ↔ e ∈ u.globalTypes ∧ e.2.pos.file = u.path

theorem Good.step {u u' : UnitD} (h : Good u) (s : Step u u') : Good u' := by
  have ht := s.tab h.tab
  refine ⟨ht, ⟨ht.1, ?_, ?_, ?_⟩, ?_, ?_⟩
  · rw [s.globalTypes]; exact h.keyed.types
  · rw [s.globalTypes]; exact h.keyed.key
  · rw [s.globalTypes]
    intro n t hn
    obtain ⟨d, hd, he⟩ := h.keyed.bound n t hn
    obtain ⟨x, hx, -⟩ := s.globalNames
    exact ⟨d, by rw [hx]; exact List.mem_append_left _ hd, he⟩
  · rw [s.localTypes]; exact h.locNodup
  · rw [s.localTypes, s.globalTypes, s.path]; exact h.locTypes

/-- What `AddLocalType` may do -/
theorem addLocalType_cases (u : UnitD) (t : TypeDef) :
    (u.addLocalType t).1 = u ∨
    ((∀ d', aget u.globalNames t.ty.customName = some d' → d'.pos = t.pos) ∧
      (u.addLocalType t).1 = { u with
        globalTypes := aput u.globalTypes t.ty.customName t
        globalNames := aput u.globalNames t.ty.customName ⟨t.pos, none⟩
        localTypes := aput u.localTypes t.ty.customName t
        localNames := aput u.localNames t.ty.customName ⟨t.pos, none⟩ }) := by
  unfold UnitD.addLocalType
  simp only
  cases h : u.conflicts t.ty.customName t.pos
  · right
    exact ⟨conflicts_iff.1 h, rfl⟩
  · exact .inl rfl

theorem Good.addLocalType {u : UnitD} (h : Good u) (t : TypeDef) (hf : t.pos.file = u.path) :
    Good (u.addLocalType t).1 := by
  rcases addLocalType_cases u t with e | ⟨hc, e⟩
  · rw [e]; exact h
  · rw [e]
    have s1 : Step u { u with
        globalNames := aput u.globalNames t.ty.customName ⟨t.pos, none⟩
        localNames := aput u.localNames t.ty.customName ⟨t.pos, none⟩ } := by
      have := step_addLocalName u t.ty.customName ⟨t.pos, none⟩ hf
      unfold Comp.addLocalName UnitD.addLocalName at this
      have hc' : u.conflicts t.ty.customName t.pos = false := conflicts_iff.2 hc
      simp only [hc', Bool.false_eq_true, if_false] at this
      exact this
    have h1 := h.step s1
    have hbound : ∃ d, (t.ty.customName, d) ∈ aput u.globalNames t.ty.customName ⟨t.pos, none⟩ ∧ d.pos = t.pos := by
      obtain ⟨⟨m, d⟩, hm, hk⟩ := List.mem_map.1 (aput_key u.globalNames t.ty.customName ⟨t.pos, none⟩)
      simp only at hk
      subst hk
      refine ⟨d, hm, ?_⟩
      rcases aput_mem hm with hm | ⟨hm, -⟩
      · exact hc d ((aget_some_iff h.tab.1).2 hm)
      · simp only [Prod.mk.injEq, true_and] at hm
        rw [hm]
    refine ⟨⟨h1.tab.1, h1.tab.2, h1.tab.3⟩, ⟨h1.tab.1, aput_nodup _ _ _ h.keyed.types, ?_, ?_⟩,
      aput_nodup _ _ _ h.locNodup, ?_⟩
    · intro n s hs
      rcases aput_mem hs with hs | ⟨hs, -⟩
      · exact h.keyed.key n s hs
      · simp only [Prod.mk.injEq] at hs
        rw [hs.1, hs.2]
    · intro n s hs
      rcases aput_mem hs with hs | ⟨hs, -⟩
      · obtain ⟨d, hd, he⟩ := h.keyed.bound n s hs
        exact ⟨d, mem_aput hd, he⟩
      · simp only [Prod.mk.injEq] at hs
        obtain ⟨rfl, rfl⟩ := hs
        exact hbound
    · intro e
      simp only
      by_cases hg : t.ty.customName ∈ u.globalTypes.map (·.1)
      · rw [aput_old _ _ _ hg]
        by_cases hl : t.ty.customName ∈ u.localTypes.map (·.1)
        · rw [aput_old _ _ _ hl]
          exact h.locTypes e
        · exfalso
          obtain ⟨⟨m, t'⟩, he, hk⟩ := List.mem_map.1 hg
          simp only at hk
          subst hk
          obtain ⟨d, hd, hp⟩ := h.keyed.bound _ _ he
          have := hc d ((aget_some_iff h.tab.1).2 hd)
          refine hl (List.mem_map.2 ⟨_, (h.locTypes _).2 ⟨he, ?_⟩, rfl⟩)
          simp only [← hp, this, hf]
      · have hl : t.ty.customName ∉ u.localTypes.map (·.1) := by
          intro hl
          obtain ⟨e, he, hk⟩ := List.mem_map.1 hl
          exact hg (List.mem_map.2 ⟨e, ((h.locTypes _).1 he).1, hk⟩)
        rw [aput_new _ _ _ hg, aput_new _ _ _ hl]
        simp only [List.mem_append, List.mem_singleton, h.locTypes e]
        constructor
        · rintro (⟨a, b⟩ | rfl)
          · exact ⟨.inl a, b⟩
          · exact ⟨.inr rfl, hf⟩
        · rintro ⟨a | a, b⟩
          · exact .inl ⟨a, b⟩
          · exact .inr a

/-- What visiting the definitions of a file does to its unit -/
structure Proto (u u' : UnitD) : Prop where
  path : u'.path = u.path
  pkg : u'.pkg = u.pkg
  options : u'.options = u.options
  globalImports : u'.globalImports = u.globalImports
  localImports : u'.localImports = u.localImports
  globalTypes : ∃ x, u'.globalTypes = u.globalTypes ++ x ∧ ∀ e ∈ x, e.2.pos.file = u.path
  globalNames : ∃ x, u'.globalNames = u.globalNames ++ x ∧ ∀ e ∈ x, e.2.pos.file = u.path
  good : Good u → Good u'

theorem Proto.refl (u : UnitD) : Proto u u := ⟨rfl, rfl, rfl, rfl, rfl, ⟨[], by simp⟩, ⟨[], by simp⟩, id⟩

theorem Proto.trans {a b c : UnitD} (h : Proto a b) (k : Proto b c) : Proto a c := by
  obtain ⟨x, hx, hx'⟩ := h.globalTypes
  obtain ⟨y, hy, hy'⟩ := k.globalTypes
  obtain ⟨p, hp, hp'⟩ := h.globalNames
  obtain ⟨q, hq, hq'⟩ := k.globalNames
  rw [h.path] at hy' hq'
  refine ⟨k.path.trans h.path, k.pkg.trans h.pkg, k.options.trans h.options, k.globalImports.trans h.globalImports,
    k.localImports.trans h.localImports, ⟨x ++ y, by rw [hy, hx, List.append_assoc], ?_⟩,
    ⟨p ++ q, by rw [hq, hp, List.append_assoc], ?_⟩, fun t => k.good (h.good t)⟩
  · intro e he
    rcases List.mem_append.1 he with he | he
    · exact hx' e he
    · exact hy' e he
  · intro e he
    rcases List.mem_append.1 he with he | he
    · exact hp' e he
    · exact hq' e he

theorem Proto.ofStep {u u' : UnitD} (h : Step u u') : Proto u u' :=
  ⟨h.path, h.pkg, h.options, h.globalImports, h.localImports, ⟨[], by simp [h.globalTypes]⟩, h.globalNames, fun g => g.step h⟩

theorem Proto.addLocalType (u : UnitD) (t : TypeDef) (hf : t.pos.file = u.path) : Proto u (u.addLocalType t).1 := by
  have hg : Good u → Good (u.addLocalType t).1 := fun g => g.addLocalType t hf
  rcases addLocalType_cases u t with e | ⟨-, e⟩
  · rw [e]; exact Proto.refl u
  · rw [e] at hg ⊢
    exact ⟨rfl, rfl, rfl, rfl, rfl, aput_ext _ _ _ _ hf, aput_ext _ _ _ _ hf, hg⟩

theorem visitTop_file {t : TopA} {u u' : UnitD} {td : TypeDef} (h : visitTop t u = (.ok td, u')) :
    td.pos.file = u.path := by
  unfold visitTop at h
  obtain ⟨v, u1, h1, h⟩ := bind_ok.1 h
  obtain ⟨rfl, rfl⟩ := getU_ok.1 h1
  split at h
  · obtain ⟨sd, u2, -, h⟩ := bind_ok.1 h
    rw [← (pure_ok.1 h).1]
  · obtain ⟨sd, u2, -, h⟩ := bind_ok.1 h
    rw [← (pure_ok.1 h).1]

theorem proto_visitProto (ts : List TopA) (errs : List CErr) (u : UnitD) : Proto u (visitProto ts errs u).2 := by
  induction ts generalizing errs u with
  | nil =>
    unfold visitProto
    split
    · exact Proto.refl u
    · exact Proto.refl u
  | cons t r ih =>
    unfold visitProto
    have h1 := Proto.ofStep (steps_visitTop t u)
    rcases h : visitTop t u with ⟨o, u1⟩
    rw [h] at h1
    cases o with
    | panic => exact h1
    | err es => exact h1.trans (ih _ _)
    | ok td =>
      have hf := visitTop_file h
      rw [← h1.path] at hf
      exact (h1.trans (Proto.addLocalType u1 td hf)).trans (ih _ _)

theorem honest_visitProto (ts : List TopA) (errs : List CErr) : Honest (visitProto ts errs) := by
  induction ts generalizing errs with
  | nil =>
    unfold visitProto
    exact honest_errs errs (honest_pure _)
  | cons t r ih =>
    intro u es u' h
    unfold visitProto at h
    rcases h1 : visitTop t u with ⟨o, u1⟩
    rw [h1] at h
    cases o with
    | panic => simp at h
    | err es1 => exact ih _ _ _ _ h
    | ok td => exact ih _ _ _ _ h

end Bubbler.Comp
