import Verif.Gen.Occ
import Verif.Compiler.ValRefs
import Verif.Compiler.Refs

/-
The types of the definitions of a file.
-/
namespace Bubbler.Gen
open Comp

/-! ### Enums -/

theorem visitEnumBody_places (b : List EnumElemA) (vs : List (Pos × Str × Int)) (errs : List CErr) (u u' : UnitD)
    (out : List (Pos × Str × Int)) (h : visitEnumBody b vs errs u = (.ok out, u')) :
    ∀ e ∈ out, e ∈ vs ∨ ∃ p ∈ b.flatMap EnumElemA.places, e.1 = ⟨u.path, p.1, p.2⟩ := by
  induction b generalizing vs errs u with
  | nil =>
    unfold visitEnumBody at h
    split at h
    · obtain ⟨rfl, rfl⟩ := pure_ok.1 h
      exact fun e he => .inl he
    · simp at h
  | cons x r ih =>
    cases x with
    | empty =>
      unfold visitEnumBody at h
      intro e he
      rcases ih _ _ _ h e he with h1 | ⟨p, hp, h1⟩
      · exact .inl h1
      · exact .inr ⟨p, by simpa [EnumElemA.places] using hp, h1⟩
    | value line col n v =>
      unfold visitEnumBody at h
      rcases k : visitEnumValue line col n v u with ⟨o, u1⟩
      have s := (steps_visitEnumValue line col n v).ok k
      rw [k] at h
      have more : ∀ {e : Pos × Str × Int}, (∃ p ∈ r.flatMap EnumElemA.places, e.1 = ⟨u1.path, p.1, p.2⟩) →
          ∃ p ∈ (EnumElemA.value line col n v :: r).flatMap EnumElemA.places, e.1 = ⟨u.path, p.1, p.2⟩ := by
        rintro e ⟨p, hp, h1⟩
        refine ⟨p, ?_, by rw [h1, s.path]⟩
        rw [List.flatMap_cons]
        exact List.mem_append_right _ hp
      cases o with
      | panic => simp at h
      | err es =>
        intro e he
        rcases ih _ _ _ h e he with h1 | h1
        · exact .inl h1
        · exact .inr (more h1)
      | ok a =>
        obtain ⟨p, m, x⟩ := a
        simp only at h
        split at h
        · simp at h
        · intro e he
          rcases ih _ _ _ h e he with h1 | h1
          · rcases List.mem_append.1 h1 with h1 | h1
            · exact .inl h1
            · obtain rfl := List.mem_singleton.1 h1
              obtain ⟨_, _, _, hp⟩ := visitEnumValue_ok.1 k
              refine .inr ⟨(line, col), ?_, ?_⟩
              · rw [List.flatMap_cons]
                exact List.mem_append_left _ (by simp [EnumElemA.places])
              · simp only [hp, s.path]
          · exact .inr (more h1)

theorem addEnumNames_adds (vs : List (Pos × Str × Int)) (errs : List CErr) (u u' : UnitD) (x : Unit)
    (h : addEnumNames vs errs u = (.ok x, u')) : ∀ e ∈ u'.globalNames, e ∈ u.globalNames ∨ ∃ v ∈ vs, e.2.pos = v.1 := by
  induction vs generalizing errs u with
  | nil =>
    unfold addEnumNames at h
    split at h
    · obtain ⟨-, rfl⟩ := pure_ok.1 h
      exact fun e he => .inl he
    · cases h
  | cons a r ih =>
    obtain ⟨p, n, v⟩ := a
    unfold addEnumNames at h
    rcases k : addLocalName n ⟨p, some v⟩ u with ⟨o, u1⟩
    rw [k] at h
    have h1 : ∀ e ∈ u1.globalNames, e ∈ u.globalNames ∨ e.2.pos = p := by
      intro e he
      unfold addLocalName UnitD.addLocalName at k
      cases hc : u.conflicts n p <;> simp only [hc, Bool.false_eq_true, if_true, if_false, Prod.mk.injEq] at k
      · obtain ⟨-, rfl⟩ := k
        rcases aput_mem he with he | ⟨rfl, -⟩
        · exact .inl he
        · exact .inr rfl
      · obtain ⟨-, rfl⟩ := k
        exact .inl he
    have key : ∀ errs', addEnumNames r errs' u1 = (.ok x, u') → ∀ e ∈ u'.globalNames, e ∈ u.globalNames ∨
        ∃ v' ∈ (p, n, v) :: r, e.2.pos = v'.1 := by
      intro errs' h' e he
      rcases ih _ _ h' e he with he | ⟨v', hv, he⟩
      · rcases h1 e he with he | he
        · exact .inl he
        · exact .inr ⟨(p, n, v), by simp, he⟩
      · exact .inr ⟨v', List.mem_cons_of_mem _ hv, he⟩
    cases o with
    | panic => cases h
    | err es => exact key _ h
    | ok _ => exact key _ h

theorem visitEnum_new {d : EnumA} {u u' : UnitD} {e : EnumD} (h : visitEnum d u = (.ok e, u')) (hu : UInv u)
    (hc : Clean u (TopA.enum d).places) : New u u' (TopA.enum d).places [d.name] [.enum e] := by
  have hname := (visitEnum_ok h).1
  unfold visitEnum at h
  obtain ⟨n, u1, h1, m1⟩ := bind_ok.1 h
  obtain ⟨_, _, hg, m2⟩ := bind_ok.1 m1
  obtain ⟨rfl, rfl⟩ := getU_ok.1 hg
  obtain ⟨_, u2, h2, m3⟩ := bind_ok.1 m2
  obtain ⟨sz, u3, h3, m4⟩ := bind_ok.1 m3
  obtain ⟨vs, u4, h4, m5⟩ := bind_ok.1 m4
  clear h m1 m2 m3 m4
  have s1 := (steps_visitName _ _ _).ok h1
  have q1 : SameNames u u1 := (quiet_visitName _ _ _).ok h1
  obtain ⟨-, rfl, -⟩ := visitName_ok.1 h1
  have hc1 : Clean u1 ([(d.line, d.col)] ++ d.body.flatMap EnumElemA.places) := Clean.quiet s1 q1 hc
  obtain ⟨f1, f2, f3⟩ := addLocalName_new h2 hc1.left
  have s2 : Step u1 u2 := by
    have := step_addLocalName u1 d.name ⟨⟨u1.path, d.line, d.col⟩, none⟩ rfl
    rw [h2] at this
    exact this
  have s3 := (steps_visitSizeA _).ok h3
  have q3 : SameNames u2 u3 := (quiet_visitSizeA _).ok h3
  have s4 := (steps_visitEnumBody _ _ _).ok h4
  have q4 : u4.globalNames = u3.globalNames := (visitEnumBody_ok _ _ _ _ _ _ h4 (by simp)).2.1
  have pl := visitEnumBody_places _ _ _ _ _ _ h4
  split at m5
  · exact absurd m5 (by simp [fail])
  · obtain ⟨x, u5, h5, m6⟩ := bind_ok.1 m5
    obtain ⟨rfl, rfl⟩ := pure_ok.1 m6
    have s5 : Step u4 u5 := by
      have := step_addEnumNames vs [] u4 (visitEnumBody_file _ _ _ _ _ _ h4 (by simp))
      rw [h5] at this
      exact this
    have st := (((s1.trans s2).trans s3).trans s4).trans s5
    have grow : ∀ e ∈ u2.globalNames, e ∈ u5.globalNames := by
      intro e he
      obtain ⟨y, hy, -⟩ := s5.globalNames
      rw [hy, q4, q3]
      exact List.mem_append_left _ he
    have hn2 : d.name ∈ keys u5 := by
      obtain ⟨e, he, h⟩ := List.mem_map.1 f2
      rw [← h]
      exact mem_keys (grow e he)
    have hn1 : d.name ∉ keys u := by
      have : keys u1 = keys u := by unfold keys; rw [q1]
      rw [← this]
      exact f1
    refine ⟨st.path, ?_, ?_, ?_, ?_, ?_, ?_, ?_, by simp, ?_⟩
    · intro e he
      refine grow e (f3.grow e ?_)
      rw [q1]
      exact he
    · intro e he
      rcases addEnumNames_adds _ _ _ _ _ h5 e he with h | ⟨v, hv, h⟩
      · rw [q4, q3] at h
        rcases f3.adds e h with h | ⟨p, hp, h⟩
        · rw [q1] at h
          exact .inl h
        · rw [s1.path] at h
          exact .inr ⟨p, by
            unfold TopA.places
            rw [List.mem_singleton] at hp
            rw [hp]
            simp, h⟩
      · rcases pl v hv with h' | ⟨p, hp, h'⟩
        · cases h'
        · refine .inr ⟨p, ?_, ?_⟩
          · unfold TopA.places
            exact List.mem_cons_of_mem _ hp
          · rw [h, h', s3.path, s2.path, s1.path]
    · intro X hX
      rw [List.mem_singleton] at hX
      subst hX
      exact .inr (by simp [CTy.customName])
    · intro m hm
      rw [List.mem_singleton] at hm
      subst hm
      exact ⟨_, List.mem_singleton.2 rfl, rfl⟩
    · intro m hm
      rw [List.mem_singleton] at hm
      subst hm
      exact hn1
    · intro m hm
      rw [List.mem_singleton] at hm
      subst hm
      exact hn2
    · intro X hX Y hY _
      rw [List.mem_singleton] at hX hY
      rw [hX, hY]
    · intro X hX
      rw [List.mem_singleton] at hX
      subst hX
      intro f hf
      simp [fieldsOf] at hf

/-! ### Definitions -/

theorem visitTop_new {t : TopA} {u u' : UnitD} {td : TypeDef} (h : visitTop t u = (.ok td, u')) (hu : UInv u) (hc : Clean u t.places)
    (hn : t.places.Nodup) : New u u' t.places t.decls (visits td.ty) := by
  unfold visitTop at h
  obtain ⟨v, u1, h1, h⟩ := bind_ok.1 h
  obtain ⟨rfl, rfl⟩ := getU_ok.1 h1
  cases t with
  | struct d =>
    obtain ⟨line, col, n, s, b⟩ := d
    obtain ⟨sd, u2, h2, h⟩ := bind_ok.1 h
    obtain ⟨rfl, rfl⟩ := pure_ok.1 h
    exact (visitStruct_new _ _ _ _ h2 hu hc hn).2
  | enum d =>
    obtain ⟨ed, u2, h2, h⟩ := bind_ok.1 h
    obtain ⟨rfl, rfl⟩ := pure_ok.1 h
    exact visitEnum_new h2 hu hc

theorem visitsT_append (a b : List (Str × TypeDef)) : visitsT (a ++ b) = visitsT a ++ visitsT b := by
  simp [visitsT]

theorem UInv.entered {u u1 u1' : UnitD} {P : List (Nat × Nat)} {ds : List Str} {vs : List CTy} (hu : UInv u) (k : New u u1 P ds vs)
    (hn : ∀ e ∈ u1.globalNames, e ∈ u1'.globalNames) (ht : ∀ X, X ∈ visitsT u1'.globalTypes → X ∈ visitsT u.globalTypes ∨ X ∈ vs) : UInv u1' := by
  have key : ∀ n, n ∈ keys u1 → n ∈ keys u1' := by
    intro n h
    obtain ⟨e, he, rfl⟩ := List.mem_map.1 h
    exact mem_keys (hn e he)
  have cross : ∀ X ∈ vs, ∀ Y, Y ∈ visitsT u.globalTypes → X.customName = Y.customName → X = Y := by
    intro X hX Y hY e
    rcases k.old X hX with h1 | h1
    · exact hu.same X Y h1 hY e
    · exact absurd (hu.bound Y hY) (by rw [← e]; exact k.fresh _ h1)
  refine ⟨?_, ?_, ?_⟩
  · intro X hX
    apply key
    rcases ht X hX with h | h
    · exact k.keep (hu.bound X h)
    · rcases k.old X h with h | h
      · exact k.keep (hu.bound X h)
      · exact k.bound _ h
  · intro X hX
    rcases ht X hX with h | h
    · exact hu.flat X h
    · exact k.flat X h
  · intro X Y hX hY e
    rcases ht X hX with h | h <;> rcases ht Y hY with h' | h'
    · exact hu.same X Y h h' e
    · exact (cross Y h' X h e.symm).symm
    · exact cross X h Y h' e
    · exact k.same X h Y h' e

theorem addLocalName_entry {n : Str} {l c : Nat} {o : Option Int} {u u' : UnitD} (h : addLocalName n ⟨⟨u.path, l, c⟩, o⟩ u = (.ok (), u')) :
    ∃ d, (n, d) ∈ u'.globalNames ∧ d.pos = ⟨u.path, l, c⟩ := by
  unfold addLocalName UnitD.addLocalName at h
  cases hcf : u.conflicts n ⟨u.path, l, c⟩ <;> simp only [hcf, Bool.false_eq_true, if_true, if_false, Prod.mk.injEq, reduceCtorEq, false_and,
    true_and] at h
  subst h
  rcases ha : aget u.globalNames n with _ | d
  · refine ⟨⟨⟨u.path, l, c⟩, o⟩, ?_, rfl⟩
    show _ ∈ aput u.globalNames n _
    rw [aput_new _ _ _ (aget_none_iff.1 ha)]
    simp
  · exact ⟨d, mem_aput (aget_mem ha), conflicts_iff.1 hcf d ha⟩

theorem VisitAll.step : ∀ {b : BodyA} {u u' : UnitD} {fs : List FieldD}, VisitAll b u fs u' → Step u u'
  | .nil, u, u', fs, h => by
    unfold VisitAll at h
    obtain ⟨rfl, rfl⟩ := h
    exact Step.refl _
  | .cons f b, u, u', fs, h => by
    unfold VisitAll at h
    obtain ⟨o, u1, h1, fs', rfl, h2⟩ := h
    exact ((steps_visitField f).ok h1).trans (VisitAll.step h2)

/-- The name of a definition is bound to its place. -/
theorem visitTop_entry {t : TopA} {u u' : UnitD} {td : TypeDef} (h : visitTop t u = (.ok td, u')) :
    ∃ d, (t.defName, d) ∈ u'.globalNames ∧ d.pos = td.pos := by
  unfold visitTop at h
  obtain ⟨v, u1, h1, h⟩ := bind_ok.1 h
  obtain ⟨rfl, rfl⟩ := getU_ok.1 h1
  cases t with
  | struct d =>
    obtain ⟨line, col, n, s, b⟩ := d
    obtain ⟨sd, u2, h2, h⟩ := bind_ok.1 h
    obtain ⟨rfl, rfl⟩ := pure_ok.1 h
    obtain ⟨v1, v2, v3, sz, fs, k1, k2, k3, k4, -, k6⟩ := visitStruct_ok.1 h2
    have s1 := (steps_visitName _ _ _).ok k1
    have s3 := (steps_visitOptSize _).ok k3
    have s4 := VisitAll.step k4
    obtain ⟨d, hd, hp⟩ := addLocalName_entry k2
    obtain ⟨x, hx, -⟩ := (s3.trans s4).globalNames
    exact ⟨d, by rw [hx]; exact List.mem_append_left _ hd, by rw [hp, s1.path]⟩
  | enum d =>
    obtain ⟨ed, u2, h2, h⟩ := bind_ok.1 h
    obtain ⟨rfl, rfl⟩ := pure_ok.1 h
    unfold visitEnum at h2
    obtain ⟨n, v1, k1, m1⟩ := bind_ok.1 h2
    obtain ⟨_, _, hg, m2⟩ := bind_ok.1 m1
    obtain ⟨rfl, rfl⟩ := getU_ok.1 hg
    obtain ⟨_, v2, k2, m3⟩ := bind_ok.1 m2
    obtain ⟨sz, v3, k3, m4⟩ := bind_ok.1 m3
    obtain ⟨vs, v4, k4, m5⟩ := bind_ok.1 m4
    have s1 := (steps_visitName _ _ _).ok k1
    obtain ⟨-, rfl, -⟩ := visitName_ok.1 k1
    have s3 := (steps_visitSizeA _).ok k3
    have s4 := (steps_visitEnumBody _ _ _).ok k4
    split at m5
    · exact absurd m5 (by simp [fail])
    · obtain ⟨x, u5, h5, m6⟩ := bind_ok.1 m5
      obtain ⟨-, rfl⟩ := pure_ok.1 m6
      have s5 : Step v4 u5 := by
        have := step_addEnumNames vs [] v4 (visitEnumBody_file _ _ _ _ _ _ k4 (by simp))
        rw [h5] at this
        exact this
      obtain ⟨d', hd, hp⟩ := addLocalName_entry k2
      obtain ⟨x, hx, -⟩ := ((s3.trans s4).trans s5).globalNames
      exact ⟨d', by rw [hx]; exact List.mem_append_left _ hd, by rw [hp, s1.path]⟩

/-- The definition enters the tables. -/
theorem addLocalType_new {t : TopA} {u u1 : UnitD} {td : TypeDef} (g : Good u) (h : visitTop t u = (.ok td, u1)) (hu : UInv u)
    (hc : Clean u t.places) (hn : t.places.Nodup) :
    (u1.addLocalType td).1.globalNames = u1.globalNames ∧ (u1.addLocalType td).1.path = u1.path ∧
      (u1.addLocalType td).1.globalTypes = u.globalTypes ++ [(t.defName, td)] ∧
      (u1.addLocalType td).1.localTypes = u.localTypes ++ [(t.defName, td)] := by
  have k := visitTop_new h hu hc hn
  have s := (steps_visitTop t).ok h
  obtain ⟨d1, d2, d3, d4⟩ := visitTop_def h
  have hmem : td.ty ∈ visits td.ty := by
    rcases d3 with ⟨⟨x, e⟩, -⟩ | ⟨⟨x, e⟩, -⟩
    · rw [e, visits_struct]; simp
    · rw [e]; simp [visits]
  have hfresh : t.defName ∉ keys u := by
    have hd : t.defName ∈ t.decls := by
      cases t with
      | struct d => obtain ⟨_, _, _, _, _⟩ := d; simp [TopA.defName, TopA.decls, StructA.decls, StructA.defName]
      | enum d => simp [TopA.defName, TopA.decls]
    exact k.fresh _ hd
  have hin : t.defName ∈ keys u1 := by
    have hd : t.defName ∈ t.decls := by
      cases t with
      | struct d => obtain ⟨_, _, _, _, _⟩ := d; simp [TopA.defName, TopA.decls, StructA.decls, StructA.defName]
      | enum d => simp [TopA.defName, TopA.decls]
    exact k.bound _ hd
  have hty : t.defName ∉ u.globalTypes.map (·.1) := by
    intro hx
    obtain ⟨⟨m, x⟩, he, rfl⟩ := List.mem_map.1 hx
    obtain ⟨d, hd, -⟩ := g.keyed.bound _ _ he
    exact hfresh (mem_keys hd)
  have hlt : t.defName ∉ u.localTypes.map (·.1) := by
    intro hx
    obtain ⟨e, he, e'⟩ := List.mem_map.1 hx
    exact hty (List.mem_map.2 ⟨e, ((g.locTypes e).1 he).1, e'⟩)
  -- the name is bound to the place of the definition
  have hcf : u1.conflicts td.ty.customName td.pos = false := by
    rw [conflicts_iff]
    intro d' hd'
    rw [d2] at hd'
    have he := aget_mem hd'
    have gt := (g.step s).tab
    -- the entry the visitor made
    have hent : ∃ d, (t.defName, d) ∈ u1.globalNames ∧ d.pos = td.pos := visitTop_entry h
    obtain ⟨d, hd, hp⟩ := hent
    rw [(aget_some_iff gt.1).2 hd] at hd'
    cases hd'
    exact hp
  have e : (u1.addLocalType td).1 = { u1 with
      globalTypes := aput u1.globalTypes td.ty.customName td
      globalNames := aput u1.globalNames td.ty.customName ⟨td.pos, none⟩
      localTypes := aput u1.localTypes td.ty.customName td
      localNames := aput u1.localNames td.ty.customName ⟨td.pos, none⟩ } := by
    unfold UnitD.addLocalType
    simp only [hcf]
    rfl
  rw [e, d2, s.globalTypes, s.localTypes]
  refine ⟨aput_old _ _ _ hin, rfl, aput_new _ _ _ hty, aput_new _ _ _ hlt⟩

/-- The definitions of a file -/
theorem Defs.news {ts : List TopA} {u u' : UnitD} (h : Defs ts u u') : Good u → UInv u → Clean u (ts.flatMap TopA.places) →
    (ts.flatMap TopA.places).Nodup → UInv u' ∧ ∃ L, u'.localTypes = u.localTypes ++ L ∧ u'.globalTypes = u.globalTypes ++ L ∧
      New u u' (ts.flatMap TopA.places) (ts.flatMap TopA.decls) (visitsT L) := by
  induction h with
  | nil u =>
    intro _ hu _ _
    exact ⟨hu, [], by simp, by simp, New.quiet (Step.refl _) (SameNames.refl _)⟩
  | cons t r td u u1 u2 h1 h2 ih =>
    intro g hu hc hn
    rw [List.flatMap_cons] at hc hn ⊢
    rw [List.flatMap_cons]
    have k := visitTop_new h1 hu hc.left (nodup_left hn)
    obtain ⟨e1, e2, e3, e4⟩ := addLocalType_new g h1 hu hc.left (nodup_left hn)
    have s := (steps_visitTop t).ok h1
    have hf : td.pos.file = u1.path := by rw [visitTop_file h1, s.path]
    have ht : ∀ X ∈ visitsT (u1.addLocalType td).1.globalTypes, X ∈ visitsT u.globalTypes ∨ X ∈ visits td.ty := by
      intro X hX
      rw [e3, visitsT_append] at hX
      rcases List.mem_append.1 hX with h | h
      · exact .inl h
      · exact .inr (by simpa [visitsT] using h)
    have hu1 : UInv (u1.addLocalType td).1 := hu.entered k (fun e he => by rw [e1]; exact he) ht
    have hc1 : Clean (u1.addLocalType td).1 (r.flatMap TopA.places) := by
      have := Clean.next k hc hn
      intro e he p hp
      rw [e1] at he
      rw [e2]
      exact this e he p hp
    obtain ⟨i1, L, i2, i3, i4⟩ := ih ((g.step s).addLocalType td hf) hu1 hc1 (nodup_right hn)
    refine ⟨i1, (t.defName, td) :: L, by rw [i2, e4]; simp, by rw [i3, e3]; simp, ?_⟩
    exact k.comp hu e1 e2 ht i4

/-- The definitions enter the table in the order of the file. -/
theorem Defs.names_order {ts : List TopA} {u u' : UnitD} (h : Defs ts u u') : Good u → UInv u → Clean u (ts.flatMap TopA.places) →
    (ts.flatMap TopA.places).Nodup → u'.localTypes.map (·.1) = u.localTypes.map (·.1) ++ ts.map TopA.defName := by
  induction h with
  | nil u => intros; simp
  | cons t r td u u1 u2 h1 h2 ih =>
    intro g hu hc hn
    rw [List.flatMap_cons] at hc hn
    have k := visitTop_new h1 hu hc.left (nodup_left hn)
    obtain ⟨e1, e2, e3, e4⟩ := addLocalType_new g h1 hu hc.left (nodup_left hn)
    have s := (steps_visitTop t).ok h1
    have hf : td.pos.file = u1.path := by rw [visitTop_file h1, s.path]
    have ht : ∀ X ∈ visitsT (u1.addLocalType td).1.globalTypes, X ∈ visitsT u.globalTypes ∨ X ∈ visits td.ty := by
      intro X hX
      rw [e3, visitsT_append] at hX
      rcases List.mem_append.1 hX with h | h
      · exact .inl h
      · exact .inr (by simpa [visitsT] using h)
    have hu1 : UInv (u1.addLocalType td).1 := hu.entered k (fun e he => by rw [e1]; exact he) ht
    have hc1 : Clean (u1.addLocalType td).1 (r.flatMap TopA.places) := by
      have := Clean.next k hc hn
      intro e he p hp
      rw [e1] at he
      rw [e2]
      exact this e he p hp
    rw [ih ((g.step s).addLocalType td hf) hu1 hc1 (nodup_right hn), e4]
    simp

end Bubbler.Gen
