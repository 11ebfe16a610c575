import Verif.Compiler.OptionProofs

/-
Enums: numbering and names.
-/
namespace Bubbler.Comp

/-- The value elements of an enum body -/
def enumElems (b : List EnumElemA) : List (Str × Option (ConstA ⊕ Str)) :=
  b.filterMap fun e => match e with
    | .empty => none
    | .value _ _ n v => some (n, v)

/-- The number an enum value is written with, -1 if none; an identifier stands for an enum value known before. -/
def writtenNum (names : List (Str × NameDef)) : Option (ConstA ⊕ Str) → Option Int
  | none => some (-1)
  | some (.inl c) => (litOf c).bind fun l => match l with
    | .int v => some v
    | _ => none
  | some (.inr n) => (aget names n).bind (·.enumVal)

theorem visitEnumNum_ok {v : Option (ConstA ⊕ Str)} {u u' : UnitD} {x : Int} :
    visitEnumNum v u = (.ok x, u') ↔ writtenNum u.globalNames v = some x ∧ u = u' := by
  cases v with
  | none =>
    simp only [visitEnumNum, pure_ok, writtenNum, Option.some.injEq]
  | some c =>
    unfold visitEnumNum
    simp only [bind_ok]
    cases c with
    | inl c =>
      simp only [visitConstVal, writtenNum, visitConstant_ok, Option.bind_eq_some_iff]
      constructor
      · rintro ⟨l, _, ⟨hl, rfl⟩, h⟩
        cases l with
        | int w =>
          obtain ⟨rfl, rfl⟩ := pure_ok.1 h
          exact ⟨⟨_, hl, rfl⟩, rfl⟩
        | _ => exact absurd h (by simp [fail])
      · rintro ⟨⟨l, hl, h⟩, rfl⟩
        cases l with
        | int w =>
          simp only [Option.some.injEq] at h
          subst h
          exact ⟨_, u, ⟨hl, rfl⟩, pure_ok.2 ⟨rfl, rfl⟩⟩
        | _ => simp at h
    | inr n =>
      simp only [visitConstVal, writtenNum]
      rcases hg : aget u.globalNames n with _ | d
      · simp
      · simp only [Option.bind_some]
        rcases he : d.enumVal with _ | w
        · simp
        · simp only [Prod.mk.injEq, Out.ok.injEq, Option.some.injEq]
          constructor
          · rintro ⟨l, _, ⟨rfl, rfl⟩, h⟩
            obtain ⟨rfl, rfl⟩ := pure_ok.1 h
            exact ⟨rfl, rfl⟩
          · rintro ⟨rfl, rfl⟩
            exact ⟨_, _, ⟨rfl, rfl⟩, pure_ok.2 ⟨rfl, rfl⟩⟩

theorem styleWarn_names (conv : Str → Str) (n : Str) (u : UnitD) : (styleWarn conv n u).globalNames = u.globalNames := by
  unfold styleWarn
  split <;> rfl

/-- The numbers given to the members, in order -/
def numbers (prev : List Int) : List Int → List Int
  | [] => prev
  | w :: r => numbers (prev ++ [if w = -1 then (match prev.getLast? with | some p => i64 (p + 1) | none => 0) else w]) r

theorem enumNumber_eq (vs : List (Pos × Str × Int)) (w : Int) :
    enumNumber vs w = if w = -1 then (match (vs.map (·.2.2)).getLast? with | some p => i64 (p + 1) | none => 0) else w := by
  unfold enumNumber
  split
  · rw [List.getLast?_map]
    cases vs.getLast? with
    | none => rfl
    | some e => rfl
  · rfl

theorem visitEnumBody_ok (b : List EnumElemA) (vs : List (Pos × Str × Int)) (errs : List CErr) (u u' : UnitD)
    (out : List (Pos × Str × Int)) (h : visitEnumBody b vs errs u = (.ok out, u')) (hvs : (vs.map (·.2.1)).Nodup) :
    errs = [] ∧ u'.globalNames = u.globalNames ∧ out.map (·.2.1) = vs.map (·.2.1) ++ (enumElems b).map (·.1) ∧
      (out.map (·.2.1)).Nodup ∧ (∀ n ∈ (enumElems b).map (·.1), Name.isCapitalized n = true) ∧
      ∃ ws, (enumElems b).map (fun e => writtenNum u.globalNames e.2) = ws.map some ∧
        out.map (·.2.2) = numbers (vs.map (·.2.2)) ws := by
  induction b generalizing vs errs u with
  | nil =>
    unfold visitEnumBody at h
    split at h
    · rename_i he
      obtain ⟨rfl, rfl⟩ := pure_ok.1 h
      exact ⟨he, rfl, by simp [enumElems], hvs, by simp [enumElems], [], by simp [enumElems], rfl⟩
    · simp at h
  | cons e r ih =>
    cases e with
    | empty =>
      unfold visitEnumBody at h
      exact ih vs errs u h hvs
    | value line col n v =>
      unfold visitEnumBody at h
      rcases k : visitEnumValue line col n v u with ⟨o, u1⟩
      rw [k] at h
      cases o with
      | panic => simp at h
      | err es =>
        obtain ⟨h1, _⟩ := ih _ _ _ h hvs
        simp at h1
        exact absurd h1.2 (honest_visitEnumValue _ _ _ _ _ _ _ k)
      | ok a =>
        obtain ⟨p, m, x⟩ := a
        obtain ⟨u2, k1, k2, hp⟩ := visitEnumValue_ok.1 k
        obtain ⟨hc, rfl, rfl⟩ := visitName_ok.1 k1
        obtain ⟨k3, rfl⟩ := visitEnumNum_ok.1 k2
        rw [styleWarn_names] at k3
        simp only at h
        split at h
        · simp at h
        · rename_i hany
          have hnot : n ∉ vs.map (·.2.1) := by
            intro hmem
            obtain ⟨e, he, rfl⟩ := List.mem_map.1 hmem
            exact hany (List.any_eq_true.2 ⟨e, he, by simp⟩)
          obtain ⟨h1, h2, h3, h4, h5, ws, h6, h7⟩ := ih _ _ _ h (by
            simp only [List.map_append, List.map_cons, List.map_nil]
            exact nodup_snoc hvs hnot)
          rw [styleWarn_names] at h2 h6
          refine ⟨h1, h2, ?_, h4, ?_, x :: ws, ?_, ?_⟩
          · rw [h3]
            simp [enumElems, List.filterMap_cons]
          · intro m hm
            simp only [enumElems, List.filterMap_cons, List.map_cons, List.mem_cons] at hm
            rcases hm with rfl | hm
            · exact hc
            · exact h5 m hm
          · simp only [enumElems, List.filterMap_cons, List.map_cons, k3, List.cons.injEq, true_and]
            exact h6
          · rw [h7]
            simp only [List.map_append, List.map_cons, List.map_nil, numbers, enumNumber_eq]

theorem numbers_get (ws : List Int) (prev : List Int) :
    (numbers prev ws).length = prev.length + ws.length ∧ (∀ (i : Nat) (x : Int), prev[i]? = some x → (numbers prev ws)[i]? = some x) ∧
    ∀ (i : Nat) (w : Int), ws[i]? = some w → (numbers prev ws)[prev.length + i]? =
      some (if w = -1 then (if prev.length + i = 0 then 0 else i64 (((numbers prev ws)[prev.length + i - 1]?).getD 0 + 1)) else w) := by
  induction ws generalizing prev with
  | nil => simp [numbers]
  | cons w r ih =>
    unfold numbers
    generalize hx : (if w = -1 then (match prev.getLast? with | some p => i64 (p + 1) | none => 0) else w) = x0
    obtain ⟨h1, h2, h3⟩ := ih (prev ++ [x0])
    refine ⟨?_, ?_, ?_⟩
    · rw [h1]; simp; omega
    · intro i x hx
      apply h2
      rw [List.getElem?_append_left (List.getElem?_eq_some_iff.1 hx).1]
      exact hx
    · intro i w' hw
      cases i with
      | zero =>
        simp only [List.getElem?_cons_zero, Option.some.injEq] at hw
        subst hw
        rw [Nat.add_zero]
        rw [h2 prev.length x0 (by simp)]
        congr 1
        by_cases hw1 : w = -1
        · rw [if_pos hw1] at hx ⊢
          rcases hl : prev.getLast? with _ | p
          · have : prev = [] := List.getLast?_eq_none_iff.1 hl
            rw [hl] at hx
            simp [this, ← hx]
          · have hne : prev ≠ [] := by rintro rfl; simp at hl
            have hlen : prev.length ≠ 0 := by
              intro h0
              exact hne (List.length_eq_zero_iff.1 h0)
            rw [if_neg hlen]
            rw [hl] at hx
            simp only at hx
            rw [List.getLast?_eq_getElem?] at hl
            rw [h2 (prev.length - 1) p (by rw [List.getElem?_append_left (by omega)]; exact hl)]
            exact hx.symm
        · rw [if_neg hw1] at hx ⊢
          exact hx.symm
      | succ i =>
        simp only [List.getElem?_cons_succ] at hw
        have := h3 i w' hw
        simp only [List.length_append, List.length_cons, List.length_nil] at this
        rw [show prev.length + (i + 1) = prev.length + (0 + 1) + i by omega]
        exact this

theorem addLocalName_ok {n : Str} {d : NameDef} {u u' : UnitD} {x : Unit} :
    addLocalName n d u = (.ok x, u') ↔ u.conflicts n d.pos = false ∧
      u' = { u with globalNames := aput u.globalNames n d, localNames := aput u.localNames n d } := by
  unfold addLocalName UnitD.addLocalName
  by_cases h : u.conflicts n d.pos = true
  · simp [h]
  · simp only [h, Bool.false_eq_true, if_false, Prod.mk.injEq, true_and]
    exact eq_comm

theorem aget_aput_val (m : List (Str × NameDef)) (k n : Str) (p : Pos) :
    (aget (aput m k ⟨p, none⟩) n).bind (·.enumVal) = (aget m n).bind (·.enumVal) := by
  unfold aput
  split
  · rfl
  · rename_i h
    unfold aget at h ⊢
    rw [List.find?_append]
    rcases hf : m.find? (fun e => decide (e.1 = n)) with _ | e
    · rw [hf]
      simp only [Option.none_or, List.find?_cons, List.find?_nil]
      split <;> rfl
    · rw [hf]
      rfl

theorem writtenNum_aput (m : List (Str × NameDef)) (k : Str) (p : Pos) (v : Option (ConstA ⊕ Str)) :
    writtenNum (aput m k ⟨p, none⟩) v = writtenNum m v := by
  cases v with
  | none => rfl
  | some c =>
    cases c with
    | inl c => rfl
    | inr n => exact aget_aput_val m k n p

/-- What an accepted enum looks like -/
theorem visitEnum_ok {d : EnumA} {u u' : UnitD} {e : EnumD} (h : visitEnum d u = (.ok e, u')) :
    e.name = d.name ∧ Name.isCapitalized d.name = true ∧ annotSize (some d.size) = some e.bits ∧ e.values ≠ [] ∧
      e.values.map (·.1) = (enumElems d.body).map (·.1) ∧ (e.values.map (·.1)).Nodup ∧
      (∀ n ∈ e.values.map (·.1), Name.isCapitalized n = true) ∧
      ∃ ws, (enumElems d.body).map (fun x => writtenNum u.globalNames x.2) = ws.map some ∧
        e.values.map (·.2) = numbers [] ws := by
  unfold visitEnum at h
  obtain ⟨n, u1, h1, m1⟩ := bind_ok.1 h
  obtain ⟨_, _, hg, m2⟩ := bind_ok.1 m1
  obtain ⟨rfl, rfl⟩ := getU_ok.1 hg
  obtain ⟨_, u2, h2, m3⟩ := bind_ok.1 m2
  obtain ⟨sz, u3, h3, m4⟩ := bind_ok.1 m3
  obtain ⟨vs, u4, h4, m5⟩ := bind_ok.1 m4
  clear h m1 m2 m3 m4
  obtain ⟨hc, rfl, rfl⟩ := visitName_ok.1 h1
  obtain ⟨hcf, rfl⟩ := addLocalName_ok.1 h2
  have h3' := (visitOptSize_ok (s := some d.size)).1 h3
  obtain ⟨hsz, rfl⟩ := h3'
  obtain ⟨-, k2, k3, k4, k5, ws, k6, k7⟩ := visitEnumBody_ok _ _ _ _ _ _ h4 (by simp)
  split at m5
  · exact absurd m5 (by simp [fail])
  · rename_i hne
    obtain ⟨_, u5, h5, m6⟩ := bind_ok.1 m5
    obtain ⟨rfl, rfl⟩ := pure_ok.1 m6
    simp only [List.map_nil, List.nil_append] at k3
    have em : List.map (·.1) (vs.map (·.2)) = vs.map (·.2.1) := by simp
    have ev : List.map (·.2) (vs.map (·.2)) = vs.map (·.2.2) := by simp
    refine ⟨rfl, hc, hsz, by simpa using hne, ?_, ?_, ?_, ws, ?_, ?_⟩
    · simp only [em, k3]
    · simp only [em]; exact k4
    · simp only [em, k3]; exact k5
    · simp only [writtenNum_aput, styleWarn_names] at k6
      exact k6
    · simp only [ev]; exact k7

end Bubbler.Comp
