import Verif.Compiler.RuleNames

/-
C75: enums and the definitions of a file.
-/
namespace Bubbler.Comp
open Front (WidthIs roomOf nextNum firsts FlatTy)
open Gen (keys Clean nodup_left nodup_right mem_keys)

/-! ### The values of an enum -/

theorem num_iff {Γ : Scope} {u : UnitD} (hM : Match Γ u) {c : ConstA ⊕ Str} {v : Int} :
    ValOk Γ c (.int v) ↔ writtenNum u.globalNames (some c) = some v := by
  cases c with
  | inl c =>
    simp only [writtenNum]
    constructor
    · intro h
      cases h with
      | lit h => rw [h]; rfl
    · intro h
      obtain ⟨l, h1, h2⟩ := Option.bind_eq_some_iff.1 h
      cases l with
      | int w =>
        simp only [Option.some.injEq] at h2
        subst h2
        exact .lit h1
      | _ => simp at h2
  | inr n =>
    simp only [writtenNum]
    constructor
    · intro h
      cases h with
      | name h =>
        obtain ⟨d, h1, h2⟩ := (hM.val _ _).1 h
        rw [h1]
        exact h2
    · intro h
      obtain ⟨d, h1, h2⟩ := Option.bind_eq_some_iff.1 h
      exact .name ((hM.val _ _).2 ⟨d, h1, h2⟩)

theorem enumNumber_next (vs : List (Pos × Str × Int)) : enumNumber vs (-1) = nextNum (vs.getLast?.map (·.2.2)) := by
  rw [enumNumber_eq, if_pos rfl, List.getLast?_map]
  cases vs.getLast? with
  | none => rfl
  | some e => simp only [Option.map_some, nextNum, i64]

/-- The names of the values -/
def valueNames (b : List EnumElemA) : List Str := b.filterMap fun
  | .value _ _ n _ => some n
  | .empty => none

theorem enumBody_errs (b : List EnumElemA) (vs : List (Pos × Str × Int)) (errs : List CErr) (u u' : UnitD)
    (out : List (Pos × Str × Int)) (h : visitEnumBody b vs errs u = (.ok out, u')) : errs = [] := by
  induction b generalizing vs errs u with
  | nil =>
    unfold visitEnumBody at h
    split at h
    · assumption
    · simp at h
  | cons e r ih =>
    cases e with
    | empty =>
      unfold visitEnumBody at h
      exact ih _ _ _ h
    | value line col n v =>
      unfold visitEnumBody at h
      rcases k : visitEnumValue line col n v u with ⟨o, u1⟩
      rw [k] at h
      cases o with
      | panic => simp at h
      | err es =>
        have := ih _ _ _ h
        simp at this
        exact this.1
      | ok a =>
        simp only at h
        split at h
        · simp at h
        · exact ih _ _ _ h

theorem enumBody_sound {Γ : Scope} (b : List EnumElemA) (vs : List (Pos × Str × Int)) (u u' : UnitD) (out : List (Pos × Str × Int))
    (hM : Match Γ u) (h : visitEnumBody b vs [] u = (.ok out, u')) :
    ∃ ns, out = vs ++ ns ∧ NumsOk Γ (vs.getLast?.map (·.2.2)) b (ns.map (·.2)) ∧ u'.globalNames = u.globalNames ∧
      ns.map (·.1) = (b.flatMap EnumElemA.places).map (fun p => (⟨u.path, p.1, p.2⟩ : Pos)) ∧ ns.map (·.2.1) = valueNames b := by
  induction b generalizing vs u with
  | nil =>
    unfold visitEnumBody at h
    rw [if_pos rfl] at h
    obtain ⟨rfl, rfl⟩ := pure_ok.1 h
    exact ⟨[], by simp, .nil, rfl, rfl, rfl⟩
  | cons e r ih =>
    cases e with
    | empty =>
      unfold visitEnumBody at h
      obtain ⟨ns, h1, h2, h3, h4, h5⟩ := ih vs u hM h
      exact ⟨ns, h1, .empty h2, h3, h4, h5⟩
    | value line col n v =>
      unfold visitEnumBody at h
      rcases k : visitEnumValue line col n v u with ⟨o, u1⟩
      have s1 := (steps_visitEnumValue line col n v).ok k
      rw [k] at h
      cases o with
      | panic => simp at h
      | err es =>
        have := enumBody_errs _ _ _ _ _ _ h
        simp only [List.nil_append] at this
        exact absurd this (honest_visitEnumValue _ _ _ _ _ _ _ k)
      | ok a =>
        obtain ⟨p, m, x⟩ := a
        obtain ⟨u2, k1, k2, hp⟩ := visitEnumValue_ok.1 k
        have m1 := hM.visit (steps_visitName _ _ _) (vals_visitName _ _ _) k1
        have q1 := (quiet_visitName _ _ _).ok k1
        obtain ⟨hc, rfl, -⟩ := visitName_ok.1 k1
        obtain ⟨k3, rfl⟩ := visitEnumNum_ok.1 k2
        simp only at h
        split at h
        · simp at h
        · obtain ⟨ns, rfl, h2, h3, h4, h5⟩ := ih _ u2 m1 h
          refine ⟨(p, n, enumNumber vs x) :: ns, by simp, ?_, h3.trans q1, ?_, ?_⟩
          · simp only [List.map_cons]
            rw [List.getLast?_concat] at h2
            simp only [Option.map_some] at h2
            by_cases hx : x = -1
            · subst hx
              rw [enumNumber_next] at h2 ⊢
              refine .next hc ?_ h2
              rintro w rfl
              exact (num_iff m1).2 k3
            · cases v with
              | none =>
                simp only [writtenNum, Option.some.injEq] at k3
                exact absurd k3.symm hx
              | some w =>
                have e : enumNumber vs x = x := by unfold enumNumber; rw [if_neg hx]
                rw [e] at h2 ⊢
                refine .given hc ?_ hx h2
                have := (num_iff m1).2 k3
                cases this with
                | lit h => exact .lit h
                | name h => exact .name h
          · simp only [List.map_cons, h4, hp, List.flatMap_cons, EnumElemA.places, List.singleton_append]
            rw [s1.path]
          · simp only [List.map_cons, h5, valueNames, List.filterMap_cons]

theorem enumBody_complete {Γ : Scope} (b : List EnumElemA) (vs : List (Pos × Str × Int)) (u : UnitD) (ws : List (Str × Int))
    (hM : Match Γ u) (h : NumsOk Γ (vs.getLast?.map (·.2.2)) b ws) (hn : (vs.map (·.2.1) ++ valueNames b).Nodup) :
    ∃ out u', visitEnumBody b vs [] u = (.ok out, u') ∧ out.map (·.2) = vs.map (·.2) ++ ws := by
  induction b generalizing vs u ws with
  | nil =>
    cases h
    exact ⟨vs, u, by unfold visitEnumBody; rw [if_pos rfl]; exact pure_ok.2 ⟨rfl, rfl⟩, by simp⟩
  | cons e r ih =>
    cases e with
    | empty =>
      cases h with
      | empty h =>
        obtain ⟨out, u', h1, h2⟩ := ih vs u ws hM h hn
        exact ⟨out, u', by unfold visitEnumBody; exact h1, h2⟩
    | value line col n v =>
      have hn' : ∀ y : Pos × Str × Int, y.2.1 = n → ((vs ++ [y]).map (·.2.1) ++ valueNames r).Nodup := by
        rintro y hy
        simpa [valueNames, hy] using hn
      have hnot : ¬ (vs.any (fun e => e.2.1 = n) = true) := by
        intro hany
        obtain ⟨e, he, e'⟩ := List.any_eq_true.1 hany
        refine (List.nodup_append.1 hn).2.2 e.2.1 (List.mem_map.2 ⟨e, he, rfl⟩) n ?_ (by simpa using e')
        simp [valueNames]
      have go : Name.isCapitalized n = true → ∀ x u1 vs' y, writtenNum u.globalNames v = some x → enumNumber vs x = y →
          (vs.map (·.2) ++ (n, y) :: vs' = vs.map (·.2) ++ ws) → u1 = styleWarn Name.toAllCap n u → NumsOk Γ (some y) r vs' →
          ∃ out u', visitEnumBody (.value line col n v :: r) vs [] u = (.ok out, u') ∧ out.map (·.2) = vs.map (·.2) ++ ws := by
        intro hc x u1 vs' y hw hy hws hu1 hnum
        have k1 : visitEnumValueName n u = (.ok n, u1) := visitName_ok.2 ⟨hc, rfl, hu1.symm⟩
        have m1 := hM.visit (steps_visitName _ _ _) (vals_visitName _ _ _) k1
        have k : visitEnumValue line col n v u = (.ok (⟨u1.path, line, col⟩, n, x), u1) := by
          refine visitEnumValue_ok.2 ⟨u1, k1, visitEnumNum_ok.2 ⟨?_, rfl⟩, rfl⟩
          rw [hu1, styleWarn_names]
          exact hw
        obtain ⟨out, u', h1, h2⟩ := ih (vs ++ [(⟨u1.path, line, col⟩, n, y)]) u1 vs' m1 (by simpa using hnum) (hn' _ rfl)
        refine ⟨out, u', ?_, ?_⟩
        · unfold visitEnumBody
          rw [k]
          simp only
          rw [if_neg hnot, hy]
          exact h1
        · rw [h2, ← hws]
          simp
      cases h with
      | next hc hw hr =>
        refine go hc (-1) _ _ _ ?_ (enumNumber_next vs) rfl rfl hr
        cases v with
        | none => rfl
        | some w => exact (num_iff hM).1 (hw w rfl)
      | given hc hw hx hr =>
        refine go hc _ _ _ _ ((num_iff hM).1 hw) ?_ rfl rfl hr
        unfold enumNumber
        rw [if_neg hx]

/-! ### Registering the values -/

/-- The entries of the values -/
def valueEntries (vs : List (Pos × Str × Int)) : List (Str × NameDef) := vs.map fun e => (e.2.1, ⟨e.1, some e.2.2⟩)

theorem addEnumNames_errs (vs : List (Pos × Str × Int)) (errs : List CErr) (u u' : UnitD) (x : Unit)
    (h : addEnumNames vs errs u = (.ok x, u')) : errs = [] := by
  induction vs generalizing errs u with
  | nil =>
    unfold addEnumNames at h
    split at h
    · assumption
    · cases h
  | cons a r ih =>
    obtain ⟨p, n, v⟩ := a
    unfold addEnumNames at h
    rcases k : addLocalName n ⟨p, some v⟩ u with ⟨o, u1⟩
    rw [k] at h
    cases o with
    | panic => cases h
    | err es =>
      have := ih _ _ h
      simp at this
      exact this.1
    | ok _ => exact ih _ _ h

theorem addEnumNames_sound (vs : List (Pos × Str × Int)) (ps : List (Nat × Nat)) (u u' : UnitD) (x : Unit)
    (hp : vs.map (·.1) = ps.map (fun p => (⟨u.path, p.1, p.2⟩ : Pos))) (hc : Clean u ps) (hn : ps.Nodup)
    (h : addEnumNames vs [] u = (.ok x, u')) :
    Adds u u' ps (vs.map (·.2.1)) ∧ u'.globalNames = u.globalNames ++ valueEntries vs := by
  induction vs generalizing u ps with
  | nil =>
    have : ps = [] := by simpa using hp.symm
    subst this
    unfold addEnumNames at h
    rw [if_pos rfl] at h
    obtain ⟨-, rfl⟩ := pure_ok.1 h
    exact ⟨.quiet (Step.refl _) (SameNames.refl _), by simp [valueEntries]⟩
  | cons a r ih =>
    obtain ⟨p, n, v⟩ := a
    cases ps with
    | nil => simp at hp
    | cons q ps =>
      simp only [List.map_cons, List.cons.injEq] at hp
      obtain ⟨rfl, hp⟩ := hp
      unfold addEnumNames at h
      rcases k : addLocalName n ⟨⟨u.path, q.1, q.2⟩, some v⟩ u with ⟨o, u1⟩
      rw [k] at h
      cases o with
      | panic => cases h
      | err es =>
        have := addEnumNames_errs _ _ _ _ _ h
        unfold addLocalName at k
        split at k <;> simp_all
      | ok _ =>
        have a1 := addLocalName_adds k (Clean.left (P := [q]) hc)
        have e1 : u1.globalNames = u.globalNames ++ [(n, ⟨⟨u.path, q.1, q.2⟩, some v⟩)] := by
          obtain ⟨-, rfl⟩ := addLocalName_ok.1 k
          exact aput_new _ _ _ (a1.fresh.2 n (by simp))
        obtain ⟨a2, e2⟩ := ih ps u1 (by rw [a1.path]; exact hp) (a1.clean (P := [q]) hc hn) (List.nodup_cons.1 hn).2 h
        refine ⟨a1.trans a2, ?_⟩
        rw [e2, e1]
        simp [valueEntries]

theorem addEnumNames_complete (vs : List (Pos × Str × Int)) (u : UnitD) (hf : Fresh u (vs.map (·.2.1))) :
    ∃ u', addEnumNames vs [] u = (.ok (), u') ∧ u'.globalNames = u.globalNames ++ valueEntries vs := by
  induction vs generalizing u with
  | nil => exact ⟨u, by unfold addEnumNames; rw [if_pos rfl]; exact pure_ok.2 ⟨rfl, rfl⟩, by simp [valueEntries]⟩
  | cons a r ih =>
    obtain ⟨p, n, v⟩ := a
    have hnf := hf.2 n (by simp)
    obtain ⟨u1, h1, h2⟩ := addLocalName_fresh (d := ⟨p, some v⟩) hnf
    have e1 : u1.globalNames = u.globalNames ++ [(n, ⟨p, some v⟩)] := by
      obtain ⟨-, rfl⟩ := addLocalName_ok.1 h1
      exact aput_new _ _ _ hnf
    obtain ⟨u', h3, h4⟩ := ih u1 (Fresh.right (a := [n]) hf h2)
    refine ⟨u', ?_, ?_⟩
    · unfold addEnumNames
      rw [h1]
      exact h3
    · rw [h4, e1]
      simp [valueEntries]

/-! ### Enums -/

/-- After an enum: its name without a number, and its values -/
structure EnumIn (d : EnumA) (e : EnumD) (u u' : UnitD) : Prop where
  entries : ∃ p vs, u'.globalNames = u.globalNames ++ (d.name, ⟨p, none⟩) :: valueEntries vs ∧ vs.map (·.2) = e.values
  name : e.name = d.name
  names : e.values.map (·.1) = valueNames d.body

theorem visitEnum_iff {d : EnumA} {u u' : UnitD} {e : EnumD} : visitEnum d u = (.ok e, u') ↔
    ∃ u1 u2 u4 b vs, visitEnumName d.name u = (.ok d.name, u1) ∧
      addLocalName d.name ⟨⟨u1.path, d.line, d.col⟩, none⟩ u1 = (.ok (), u2) ∧ annotSize (some d.size) = some b ∧
      visitEnumBody d.body [] [] u2 = (.ok vs, u4) ∧ vs ≠ [] ∧ addEnumNames vs [] u4 = (.ok (), u') ∧ e = ⟨d.name, b, vs.map (·.2)⟩ := by
  have key : ∀ b u u', visitSizeA d.size u = (.ok b, u') ↔ annotSize (some d.size) = some b ∧ u = u' := fun b u u' =>
    visitOptSize_ok (s := some d.size)
  unfold visitEnum
  constructor
  · intro h
    obtain ⟨n, u1, h1, m1⟩ := bind_ok.1 h
    obtain ⟨_, _, hg, m2⟩ := bind_ok.1 m1
    obtain ⟨rfl, rfl⟩ := getU_ok.1 hg
    obtain ⟨_, u2, h2, m3⟩ := bind_ok.1 m2
    obtain ⟨b, u3, h3, m4⟩ := bind_ok.1 m3
    obtain ⟨vs, u4, h4, m5⟩ := bind_ok.1 m4
    obtain ⟨h3', rfl⟩ := (key _ _ _).1 h3
    have hn : n = d.name := (visitName_ok.1 h1).2.1.symm
    subst hn
    split at m5
    · exact absurd m5 (by simp [fail])
    · rename_i hne
      obtain ⟨x, u5, h5, m6⟩ := bind_ok.1 m5
      obtain ⟨rfl, rfl⟩ := pure_ok.1 m6
      exact ⟨_, _, _, b, vs, h1, h2, h3', h4, hne, h5, rfl⟩
  · rintro ⟨u1, u2, u4, b, vs, h1, h2, h3, h4, h5, h6, rfl⟩
    refine bind_ok.2 ⟨_, _, h1, bind_ok.2 ⟨_, _, getU_ok.2 ⟨rfl, rfl⟩, bind_ok.2 ⟨_, _, h2, bind_ok.2 ⟨_, _, (key _ _ _).2 ⟨h3, rfl⟩,
      bind_ok.2 ⟨_, _, h4, ?_⟩⟩⟩⟩⟩
    rw [if_neg h5]
    exact bind_ok.2 ⟨_, _, h6, pure_ok.2 ⟨rfl, rfl⟩⟩

theorem enum_sound {Γ : Scope} {d : EnumA} {u u' : UnitD} {e : EnumD} (hM : Match Γ u) (h : visitEnum d u = (.ok e, u')) : EnumOk Γ d e := by
  obtain ⟨u1, u2, u4, b, vs, h1, h2, h3, h4, h5, h6, rfl⟩ := visitEnum_iff.1 h
  have m1 := hM.visit (steps_visitName _ _ _) (vals_visitName _ _ _) h1
  have m2 : Match Γ u2 := by
    have s2 := step_addLocalName u1 d.name ⟨⟨u1.path, d.line, d.col⟩, none⟩ rfl
    have v2 := val_addLocalName u1 d.name ⟨⟨u1.path, d.line, d.col⟩, none⟩ rfl
    rw [h2] at s2 v2
    exact m1.step s2 v2
  obtain ⟨ns, rfl, k2, -⟩ := enumBody_sound _ _ _ _ _ m2 h4
  obtain ⟨l, c, n, s, body⟩ := d
  exact .mk (visitName_ok.1 h1).1 h3 k2 (by simpa using h5)

theorem enum_adds {Γ : Scope} {d : EnumA} {u u' : UnitD} {e : EnumD} (hM : Match Γ u) (h : visitEnum d u = (.ok e, u'))
    (hc : Clean u (TopA.enum d).places) (hn : (TopA.enum d).places.Nodup) :
    Adds u u' (TopA.enum d).places (TopA.enum d).intro ∧ EnumIn d e u u' := by
  obtain ⟨u1, u2, u4, b, vs, h1, h2, h3, h4, h5, h6, rfl⟩ := visitEnum_iff.1 h
  have m1 := hM.visit (steps_visitName _ _ _) (vals_visitName _ _ _) h1
  have m2 : Match Γ u2 := by
    have s2 := step_addLocalName u1 d.name ⟨⟨u1.path, d.line, d.col⟩, none⟩ rfl
    have v2 := val_addLocalName u1 d.name ⟨⟨u1.path, d.line, d.col⟩, none⟩ rfl
    rw [h2] at s2 v2
    exact m1.step s2 v2
  obtain ⟨ns, hns, k2, k3, k4, k5⟩ := enumBody_sound _ _ _ _ _ m2 h4
  simp only [List.nil_append] at hns
  subst hns
  unfold TopA.places at hc hn ⊢
  have q1 := (quiet_visitName _ _ _).ok h1
  have a1 := Adds.quiet ((steps_visitName _ _ _).ok h1) q1
  have c1 := a1.clean (Q := (d.line, d.col) :: d.body.flatMap EnumElemA.places) hc hn
  have a2 := addLocalName_adds h2 (Clean.left (Q := d.body.flatMap EnumElemA.places) c1)
  have c2 := a2.clean (P := [(d.line, d.col)]) c1 hn
  have s3 := (steps_visitEnumBody _ _ _).ok h4
  have a3 := Adds.quiet s3 k3
  have c3 := a3.clean (P := []) c2 (List.nodup_cons.1 hn).2
  have a4 := addEnumNames_sound _ (d.body.flatMap EnumElemA.places) _ _ _ (by rw [s3.path]; exact k4) c3 (List.nodup_cons.1 hn).2 h6
  have e2 : u2.globalNames = u1.globalNames ++ [(d.name, ⟨⟨u1.path, d.line, d.col⟩, none⟩)] := by
    obtain ⟨-, rfl⟩ := addLocalName_ok.1 h2
    exact aput_new _ _ _ (a2.fresh.2 _ (by simp))
  refine ⟨?_, ⟨⟨u1.path, d.line, d.col⟩, vs, ?_, rfl⟩, rfl, ?_⟩
  · have := (a1.trans a2).trans (a3.trans a4.1)
    simp only [List.nil_append, List.singleton_append] at this
    rw [k5] at this
    exact this
  · rw [a4.2, k3, e2, q1]
    simp
  · simp only [List.map_map]
    exact k5

theorem enum_complete {Γ : Scope} {d : EnumA} {u : UnitD} {e : EnumD} (hM : Match Γ u) (hf : Fresh u (TopA.enum d).intro)
    (h : EnumOk Γ d e) : ∃ u', visitEnum d u = (.ok e, u') ∧ keys u' = keys u ++ (TopA.enum d).intro ∧ EnumIn d e u u' := by
  cases h with
  | @mk l c n s body b vs h1 h2 h3 h4 =>
    have e1 : visitEnumName n u = (.ok n, styleWarn Name.toPascal n u) := visitName_ok.2 ⟨h1, rfl, rfl⟩
    have q1 : SameNames u (styleWarn Name.toPascal n u) := (quiet_visitName _ _ _).ok e1
    have m1 := hM.visit (steps_visitName _ _ _) (vals_visitName _ _ _) e1
    generalize styleWarn Name.toPascal n u = u1 at e1 q1 m1
    have hf1 : Fresh u1 (n :: valueNames body) := hf.same q1
    have hn1 := hf1.2 n (by simp)
    obtain ⟨u2, e2, k2⟩ := addLocalName_fresh (d := ⟨⟨u1.path, l, c⟩, none⟩) hn1
    have g2 : u2.globalNames = u1.globalNames ++ [(n, ⟨⟨u1.path, l, c⟩, none⟩)] := by
      obtain ⟨-, rfl⟩ := addLocalName_ok.1 e2
      exact aput_new _ _ _ hn1
    have m2 : Match Γ u2 := by
      have s2 := step_addLocalName u1 n ⟨⟨u1.path, l, c⟩, none⟩ rfl
      have v2 := val_addLocalName u1 n ⟨⟨u1.path, l, c⟩, none⟩ rfl
      rw [e2] at s2 v2
      exact m1.step s2 v2
    have hf2 : Fresh u2 (valueNames body) := Fresh.right (a := [n]) hf1 k2
    obtain ⟨out, u4, e4, k4⟩ := enumBody_complete body [] u2 vs m2 h3 (by simpa using hf2.1)
    obtain ⟨ns, hns, -, q4, -, k5⟩ := enumBody_sound body [] u2 u4 out m2 e4
    simp only [List.nil_append] at hns
    subst hns
    simp only [List.map_nil, List.nil_append] at k4
    obtain ⟨u', e5, k6⟩ := addEnumNames_complete out u4 (by rw [k5]; exact hf2.same q4)
    refine ⟨u', visitEnum_iff.2 ⟨u1, u2, u4, b, out, e1, e2, h2, e4, ?_, e5, by rw [k4]⟩, ?_, ⟨⟨u1.path, l, c⟩, out, ?_, k4⟩, rfl, ?_⟩
    · rintro rfl
      exact h4 k4.symm
    · have hk : keys u' = keys u4 ++ valueNames body := by
        unfold keys
        rw [k6, List.map_append, ← k5]
        simp [valueEntries]
      rw [hk, keys_same q4, k2, keys_same q1, List.append_assoc]
      rfl
    · rw [k6, q4, g2, q1]
      simp
    · rw [← k4, List.map_map]
      exact k5

/-! ### Definitions -/

theorem visitTop_struct {d : StructA} {u u' : UnitD} {td : TypeDef} : visitTop (.struct d) u = (.ok td, u') ↔
    ∃ x, visitStruct d u = (.ok x, u') ∧ td = ⟨⟨u.path, (TopA.struct d).at.1, (TopA.struct d).at.2⟩, .struct x⟩ := by
  obtain ⟨line, col, n, s, b⟩ := d
  unfold visitTop
  constructor
  · intro h
    obtain ⟨v, u1, h1, h⟩ := bind_ok.1 h
    obtain ⟨rfl, rfl⟩ := getU_ok.1 h1
    obtain ⟨sd, u2, h2, h⟩ := bind_ok.1 h
    obtain ⟨rfl, rfl⟩ := pure_ok.1 h
    exact ⟨sd, h2, rfl⟩
  · rintro ⟨x, h, rfl⟩
    exact bind_ok.2 ⟨u, u, getU_ok.2 ⟨rfl, rfl⟩, bind_ok.2 ⟨x, u', h, pure_ok.2 ⟨rfl, rfl⟩⟩⟩

theorem visitTop_enum {d : EnumA} {u u' : UnitD} {td : TypeDef} : visitTop (.enum d) u = (.ok td, u') ↔
    ∃ x, visitEnum d u = (.ok x, u') ∧ td = ⟨⟨u.path, d.line, d.col⟩, .enum x⟩ := by
  unfold visitTop
  constructor
  · intro h
    obtain ⟨v, u1, h1, h⟩ := bind_ok.1 h
    obtain ⟨rfl, rfl⟩ := getU_ok.1 h1
    obtain ⟨sd, u2, h2, h⟩ := bind_ok.1 h
    obtain ⟨rfl, rfl⟩ := pure_ok.1 h
    exact ⟨sd, h2, rfl⟩
  · rintro ⟨x, h, rfl⟩
    exact bind_ok.2 ⟨u, u, getU_ok.2 ⟨rfl, rfl⟩, bind_ok.2 ⟨x, u', h, pure_ok.2 ⟨rfl, rfl⟩⟩⟩

theorem top_sound {Γ : Scope} {t : TopA} {u u' : UnitD} {td : TypeDef} (hM : Match Γ u) (h : visitTop t u = (.ok td, u')) :
    TopOk Γ t td.ty ∧ FlatTy td.ty := by
  cases t with
  | struct d =>
    obtain ⟨x, h1, rfl⟩ := visitTop_struct.1 h
    obtain ⟨k1, k2⟩ := struct_sound d u u' x hM h1
    exact ⟨.struct k1, k2⟩
  | enum d =>
    obtain ⟨x, h1, rfl⟩ := visitTop_enum.1 h
    exact ⟨.enum (enum_sound hM h1), trivial⟩

/-- The numbers known after a definition -/
def ValIn (Γ : Scope) (ty : CTy) (u : UnitD) : Prop :=
  ∀ n v, (Γ.add ty).val n v ↔ ∃ d, aget u.globalNames n = some d ∧ d.enumVal = some v

theorem valIn_struct {Γ : Scope} {d : StructA} {u u' : UnitD} {x : StructD} (hM : Match Γ u) (h : visitStruct d u = (.ok x, u')) :
    ValIn Γ (.struct x) u' := by
  intro n v
  rw [← (hM.visit (steps_visitStruct d) (vals_visitStruct d) h).val]
  simp [Scope.add]

theorem valIn_enum {Γ : Scope} {d : EnumA} {u u' : UnitD} {e : EnumD} (hM : Match Γ u) (hk : (keys u).Nodup)
    (hk' : (keys u').Nodup) (h : EnumIn d e u u') : ValIn Γ (.enum e) u' := by
  intro n v
  simp only [Scope.add, CTy.enum.injEq, exists_eq_left', hM.val]
  obtain ⟨p, vs, hg, hv⟩ := h.entries
  simp only [aget_some_iff hk, aget_some_iff hk', ← hv]
  rw [hg]
  constructor
  · rintro (⟨d', h1, h2⟩ | h1)
    · exact ⟨d', List.mem_append_left _ h1, h2⟩
    · obtain ⟨y, hy, e1⟩ := List.mem_map.1 h1
      refine ⟨⟨y.1, some v⟩, List.mem_append_right _ (List.mem_cons_of_mem _ (List.mem_map.2 ⟨y, hy, ?_⟩)), rfl⟩
      rw [e1]
  · rintro ⟨d', h1, h2⟩
    rcases List.mem_append.1 h1 with h1 | h1
    · exact .inl ⟨d', h1, h2⟩
    · rcases List.mem_cons.1 h1 with h1 | h1
      · cases h1
        cases h2
      · obtain ⟨y, hy, e1⟩ := List.mem_map.1 h1
        refine .inr (List.mem_map.2 ⟨y, hy, ?_⟩)
        cases e1
        cases h2
        rfl

theorem Adds.nodup {u u' : UnitD} {P : List (Nat × Nat)} {ns : List Str} (h : Adds u u' P ns) (hk : (Gen.keys u).Nodup) :
    (Gen.keys u').Nodup := by
  rw [h.keys]
  exact List.nodup_append.2 ⟨hk, h.fresh.1, fun a ha b hb e => h.fresh.2 b hb (e ▸ ha)⟩

theorem Fresh.nodup {u u' : UnitD} {ns : List Str} (h : Fresh u ns) (k : keys u' = keys u ++ ns) (hk : (keys u).Nodup) : (keys u').Nodup := by
  rw [k]
  exact List.nodup_append.2 ⟨hk, h.1, fun a ha b hb e => h.2 b hb (e ▸ ha)⟩

theorem top_adds {Γ : Scope} {t : TopA} {u u' : UnitD} {td : TypeDef} (hM : Match Γ u) (hk : (keys u).Nodup)
    (h : visitTop t u = (.ok td, u')) (hc : Clean u t.places) (hn : t.places.Nodup) :
    Adds u u' t.places t.intro ∧ ValIn Γ td.ty u' := by
  cases t with
  | struct d =>
    obtain ⟨x, h1, rfl⟩ := visitTop_struct.1 h
    exact ⟨struct_adds d u u' x h1 hc hn, valIn_struct hM h1⟩
  | enum d =>
    obtain ⟨x, h1, rfl⟩ := visitTop_enum.1 h
    obtain ⟨k1, k2⟩ := enum_adds hM h1 hc hn
    exact ⟨k1, valIn_enum hM hk (k1.nodup hk) k2⟩

theorem top_complete {Γ : Scope} {t : TopA} {u : UnitD} {ty : CTy} (hM : Match Γ u) (hk : (keys u).Nodup) (hf : Fresh u t.intro)
    (h : TopOk Γ t ty) : ∃ td u', visitTop t u = (.ok td, u') ∧ td.ty = ty ∧ keys u' = keys u ++ t.intro ∧ ValIn Γ ty u' := by
  cases h with
  | @struct d x h =>
    obtain ⟨u', h1, h2⟩ := struct_complete d u x hM hf h
    exact ⟨_, u', visitTop_struct.2 ⟨x, h1, rfl⟩, rfl, h2, valIn_struct hM h1⟩
  | @enum d x h =>
    obtain ⟨u', h1, h2, h3⟩ := enum_complete hM hf h
    exact ⟨_, u', visitTop_enum.2 ⟨x, h1, rfl⟩, rfl, h2, valIn_enum hM hk (hf.nodup h2 hk) h3⟩

theorem defName_intro (t : TopA) : t.defName ∈ t.intro := by
  cases t with
  | struct d => obtain ⟨_, _, _, _, _⟩ := d; simp [TopA.defName, TopA.intro, StructA.intro, StructA.defName]
  | enum d => simp [TopA.defName, TopA.intro]

/-- The definition enters the tables. -/
theorem addLocalType_fresh {t : TopA} {u u1 : UnitD} {td : TypeDef} (g : Good u) (h : visitTop t u = (.ok td, u1))
    (hf : t.defName ∉ keys u) :
    (u1.addLocalType td).1.globalNames = u1.globalNames ∧ (u1.addLocalType td).1.path = u1.path ∧
      (u1.addLocalType td).1.globalTypes = u.globalTypes ++ [(t.defName, td)] ∧
      (u1.addLocalType td).1.localTypes = u.localTypes ++ [(t.defName, td)] := by
  have s := (steps_visitTop t).ok h
  obtain ⟨-, d2, -, -⟩ := visitTop_def h
  obtain ⟨d, hd, hp⟩ := Gen.visitTop_entry h
  have hty : t.defName ∉ u.globalTypes.map (·.1) := by
    intro hx
    obtain ⟨⟨m, x⟩, he, rfl⟩ := List.mem_map.1 hx
    obtain ⟨d, hd, -⟩ := g.keyed.bound _ _ he
    exact hf (mem_keys hd)
  have hlt : t.defName ∉ u.localTypes.map (·.1) := by
    intro hx
    obtain ⟨e, he, e'⟩ := List.mem_map.1 hx
    exact hty (List.mem_map.2 ⟨e, ((g.locTypes e).1 he).1, e'⟩)
  have hcf : u1.conflicts td.ty.customName td.pos = false := by
    rw [conflicts_iff]
    intro d' hd'
    rw [d2] at hd'
    rw [(aget_some_iff (g.step s).tab.1).2 hd] at hd'
    cases hd'
    exact hp
  have e : (u1.addLocalType td).1 = { u1 with
      globalTypes := aput u1.globalTypes td.ty.customName td
      globalNames := aput u1.globalNames td.ty.customName ⟨td.pos, none⟩
      localTypes := aput u1.localTypes td.ty.customName td
      localNames := aput u1.localNames td.ty.customName ⟨td.pos, none⟩ } := by
    unfold UnitD.addLocalType
    simp only [hcf]
    rfl
  rw [e, d2, s.globalTypes, s.localTypes]
  exact ⟨aput_old _ _ _ (mem_keys hd), rfl, aput_new _ _ _ hty, aput_new _ _ _ hlt⟩

theorem Match.entered {Γ : Scope} {t : TopA} {u u1 : UnitD} {td : TypeDef} (hM : Match Γ u) (g : Good u)
    (h : visitTop t u = (.ok td, u1)) (hf : t.defName ∉ keys u) (hv : ValIn Γ td.ty u1) (hflat : FlatTy td.ty) :
    Match (Γ.add td.ty) (u1.addLocalType td).1 := by
  obtain ⟨e1, -, e3, -⟩ := addLocalType_fresh g h hf
  have hid : td.ty.ident = t.defName := by
    obtain ⟨-, d2, d3, -⟩ := visitTop_def h
    rw [← d2]
    rcases d3 with ⟨⟨x, e⟩, -⟩ | ⟨⟨x, e⟩, -⟩
    · obtain ⟨_, _, _, _⟩ := x
      rw [e]
      rfl
    · rw [e]; rfl
  have hty : aget u.globalTypes t.defName = none := by
    rw [aget_none_iff]
    intro hx
    obtain ⟨⟨m, x⟩, he, rfl⟩ := List.mem_map.1 hx
    obtain ⟨d, hd, -⟩ := g.keyed.bound _ _ he
    exact hf (mem_keys hd)
  have hone : ∀ n, aget [(t.defName, td)] n = if t.defName = n then some td else none := by
    intro n
    unfold aget
    rw [List.find?_cons]
    by_cases e : t.defName = n
    · simp [e]
    · simp [e]
  refine ⟨?_, ?_, ?_⟩
  · intro n ty
    rw [e3]
    simp only [Scope.add, hM.type, aget_or, hone]
    constructor
    · rintro (⟨d, h1, h2⟩ | ⟨rfl, rfl⟩)
      · exact ⟨d, by rw [h1]; rfl, h2⟩
      · exact ⟨td, by rw [hid, hty, if_pos rfl]; rfl, rfl⟩
    · rintro ⟨d, h1, h2⟩
      rcases hg : aget u.globalTypes n with _ | d'
      · rw [hg] at h1
        simp only [Option.none_or] at h1
        split at h1
        · rename_i e
          cases h1
          exact .inr ⟨by rw [hid, e], h2.symm⟩
        · cases h1
      · rw [hg] at h1
        cases h1
        exact .inl ⟨_, rfl, h2⟩
  · intro n v
    rw [e1]
    exact hv n v
  · intro n ty hty
    rcases hty with hty | ⟨-, rfl⟩
    · exact hM.flat n ty hty
    · exact hflat

/-- Everything about the definitions of a file: the unit `u'` after them, starting with `u`. -/
structure DefsIn (Γ : Scope) (ts : List TopA) (ds : List CTy) (u u' : UnitD) : Prop where
  scope : Match (ds.foldl Scope.add Γ) u'
  keys : keys u' = keys u ++ ts.flatMap TopA.intro
  fresh : Fresh u (ts.flatMap TopA.intro)
  types : u'.localTypes.map (·.2.ty) = u.localTypes.map (·.2.ty) ++ ds

theorem Good.enter {t : TopA} {u u1 : UnitD} {td : TypeDef} (g : Good u) (h : visitTop t u = (.ok td, u1)) : Good (u1.addLocalType td).1 := by
  have s := (steps_visitTop t).ok h
  exact (g.step s).addLocalType td (by rw [visitTop_file h, s.path])

theorem keys_of {u u' : UnitD} (h : u'.globalNames = u.globalNames) : keys u' = keys u := by unfold keys; rw [h]

theorem defs_sound {ts : List TopA} {u u' : UnitD} (h : Defs ts u u') : ∀ {Γ : Scope}, Match Γ u → Good u →
    Clean u (ts.flatMap TopA.places) → (ts.flatMap TopA.places).Nodup → ∃ ds, DefsOk Γ ts ds ∧ DefsIn Γ ts ds u u' := by
  induction h with
  | nil u =>
    intro Γ hM _ _ _
    exact ⟨[], .nil, hM, by simp, .nil u, by simp⟩
  | cons t r td u u1 u2 h1 h2 ih =>
    intro Γ hM g hc hn
    rw [List.flatMap_cons] at hc hn
    obtain ⟨k1, k2⟩ := top_sound hM h1
    obtain ⟨a1, k3⟩ := top_adds hM g.tab.1 h1 hc.left (nodup_left hn)
    have hf := a1.fresh.2 _ (defName_intro t)
    obtain ⟨e1, e2, e3, e4⟩ := addLocalType_fresh g h1 hf
    have hM1 := hM.entered g h1 hf k3 k2
    have hc1 : Clean (u1.addLocalType td).1 (r.flatMap TopA.places) := by
      have := a1.clean hc hn
      intro e he p hp
      rw [e1] at he
      rw [e2]
      exact this e he p hp
    obtain ⟨ds, i1, i2⟩ := ih hM1 (g.enter h1) hc1 (nodup_right hn)
    refine ⟨td.ty :: ds, .cons k1 i1, i2.scope, ?_, ?_, ?_⟩
    · rw [i2.keys, keys_of e1, a1.keys, List.flatMap_cons, List.append_assoc]
    · rw [List.flatMap_cons]
      have hfr : Fresh u1 (r.flatMap TopA.intro) := by
        have := i2.fresh
        unfold Fresh at this ⊢
        rw [keys_of e1] at this
        exact this
      refine ⟨List.nodup_append.2 ⟨a1.fresh.1, hfr.1, ?_⟩, ?_⟩
      · rintro x hx y hy rfl
        exact hfr.2 x hy (by rw [a1.keys]; exact List.mem_append_right _ hx)
      · intro n hn
        rcases List.mem_append.1 hn with hn | hn
        · exact a1.fresh.2 n hn
        · exact fun hk => hfr.2 n hn (by rw [a1.keys]; exact List.mem_append_left _ hk)
    · rw [i2.types, e4]
      simp

theorem defs_complete {Γ : Scope} {ts : List TopA} {ds : List CTy} (h : DefsOk Γ ts ds) : ∀ {u : UnitD}, Match Γ u → Good u →
    Fresh u (ts.flatMap TopA.intro) → ∃ u', Defs ts u u' ∧ DefsIn Γ ts ds u u' := by
  induction h with
  | nil =>
    intro u hM _ hf
    exact ⟨u, .nil u, hM, by simp, hf, by simp⟩
  | @cons Γ t r ty ds h1 h2 ih =>
    intro u hM g hf0
    have hf0' := hf0
    rw [List.flatMap_cons] at hf0
    obtain ⟨td, u1, k1, rfl, k3, k4⟩ := top_complete hM g.tab.1 hf0.left h1
    have k2 := (top_sound hM k1).2
    have hf := hf0.left.2 _ (defName_intro t)
    obtain ⟨e1, e2, e3, e4⟩ := addLocalType_fresh g k1 hf
    have hM1 := hM.entered g k1 hf k4 k2
    have hfr : Fresh (u1.addLocalType td).1 (r.flatMap TopA.intro) := by
      have := hf0.right k3
      unfold Fresh at this ⊢
      rw [keys_of e1]
      exact this
    obtain ⟨u', i1, i2⟩ := ih hM1 (g.enter k1) hfr
    refine ⟨u', .cons t r td u u1 u' k1 i1, i2.scope, ?_, hf0', ?_⟩
    · rw [i2.keys, keys_of e1, k3, List.flatMap_cons, List.append_assoc]
    · rw [i2.types, e4]
      simp

end Bubbler.Comp
