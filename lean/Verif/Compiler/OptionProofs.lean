import Verif.Compiler.FieldProofs
import Verif.Compiler.Info

/-
Options: specification and what the option loops accept.
-/
namespace Bubbler.Comp

/-! ### Specification -/

/-- The literal a constant denotes, if it is valid -/
def litOf : ConstA → Option Lit
  | .int neg t => (readInt (some t)).map fun (n : Nat) => .int (if neg then i64 (-(n : Int)) else n)
  | .float ok neg t => if ok then some (.float neg t) else none
  | .str v => v.map .str
  | .bool b => some (.bool b)

/-- The one field option of the language -/
def orderName : Str := ['o', 'r', 'd', 'e', 'r']

/-- A field option has an admissible value: `order` is "big" or "little", other names are not checked. -/
def FieldOptOk (name : Str) (v : Lit) : Prop :=
  name = orderName → v = .str ['b', 'i', 'g'] ∨ v = .str ['l', 'i', 't', 't', 'l', 'e']

/-- The file options of the language with the kind of their value -/
def fileOptKinds : List (String × Kind) :=
  [("omit_empty", .bool), ("csharp_namespace", .str), ("cpp_namespace", .str), ("go_package", .str),
   ("java_package", .str), ("kotlin_package", .str)]

/-- A file option has an admissible value: known names need their kind, other names are not checked. -/
def FileOptOk (name : Str) (v : Lit) : Prop := ∀ e ∈ fileOptKinds, e.1.toList = name → v.kind = e.2

/-- The warnings for unknown option names -/
def unknownWarns (known : Str → Bool) (names : List Str) : List Warn :=
  (names.filter fun n => !known n).map .unknownOption

/-! ### Proofs -/

theorem visitConstant_ok {c : ConstA} {u u' : UnitD} {l : Lit} :
    visitConstant c u = (.ok l, u') ↔ litOf c = some l ∧ u = u' := by
  cases c with
  | int neg t =>
    unfold visitConstant litOf
    simp only [bind_ok, visitIntLit_ok, Option.map_eq_some_iff, pure_ok]
    constructor
    · rintro ⟨_, _, ⟨n, h, rfl, rfl⟩, rfl, rfl⟩; exact ⟨⟨n, h, rfl⟩, rfl⟩
    · rintro ⟨⟨n, h, rfl⟩, rfl⟩; exact ⟨_, _, ⟨n, h, rfl, rfl⟩, rfl, rfl⟩
  | float ok neg t =>
    unfold visitConstant litOf
    cases ok
    · simp [fail]
    · simp [pure_ok]
  | str v =>
    cases v with
    | none => simp [visitConstant, litOf, fail]
    | some s => simp [visitConstant, litOf, pure_ok]
  | bool b => simp [visitConstant, litOf, pure_ok]

theorem visitConstant_pure (c : ConstA) (u : UnitD) :
    (∃ l, litOf c = some l ∧ visitConstant c u = (.ok l, u)) ∨
    (litOf c = none ∧ visitConstant c u = (.err [.invalidLiteral], u)) := by
  rcases h : litOf c with _ | l
  · refine .inr ⟨rfl, ?_⟩
    cases c with
    | int neg t =>
      simp only [litOf, Option.map_eq_none_iff] at h
      have : visitIntLit t u = (.err [.invalidLiteral], u) := by
        unfold visitIntLit
        simp only [readInt] at h
        rcases hp : Num.parseNat t with _ | n
        · rfl
        · rw [hp] at h
          simp only [Option.bind_some] at h
          simp only
          by_cases hlt : n < 2 ^ 63
          · rw [if_pos hlt] at h
            cases h
          · rw [if_neg hlt]
            rfl
      show V.bind (visitIntLit t) _ u = _
      unfold V.bind
      rw [this]
    | float ok neg t =>
      cases ok
      · rfl
      · simp [litOf] at h
    | str v =>
      cases v with
      | none => rfl
      | some s => simp [litOf] at h
    | bool b => simp [litOf] at h
  · exact .inl ⟨l, rfl, visitConstant_ok.2 ⟨h, rfl⟩⟩

/-- Which options `FieldOptionValidator` knows -/
theorem fieldValidate (name : Str) (v : Lit) :
    fieldValidator.validate name v =
      if name = orderName then
        if v.kind ≠ .str then .error (.optionType name)
        else if v = .str ['b', 'i', 'g'] ∨ v = .str ['l', 'i', 't', 't', 'l', 'e'] then .good
        else .error (.optionValue name)
      else .warning (.unknownOption name) := by
  have ht : fieldValidator.types = [(orderName, .str)] := by decide +kernel
  have hv : fieldValidator.values = [(orderName, [.str ['b', 'i', 'g'], .str ['l', 'i', 't', 't', 'l', 'e']])] := by
    decide +kernel
  unfold Validator.validate
  rw [ht, hv]
  by_cases h : name = orderName
  · subst h
    simp [aget]
  · have h' : ¬ orderName = name := fun e => h e.symm
    simp [aget, h, h']

theorem fieldValidate_notError (name : Str) (v : Lit) :
    (∀ e, fieldValidator.validate name v ≠ .error e) ↔ FieldOptOk name v := by
  rw [fieldValidate]
  unfold FieldOptOk
  by_cases h : name = orderName
  · simp only [h, if_true, true_implies]
    by_cases hk : v.kind = .str
    · simp only [hk, ne_eq, not_true_eq_false, if_false]
      by_cases hv : v = .str ['b', 'i', 'g'] ∨ v = .str ['l', 'i', 't', 't', 'l', 'e']
      · simp [hv]
      · simp [hv]
    · simp only [ne_eq, hk, not_false_iff, if_true]
      constructor
      · intro k
        exact absurd rfl (k _)
      · rintro (rfl | rfl) <;> simp [Lit.kind] at hk
  · simp [h]

def addWarns (u : UnitD) (ws : List Warn) : UnitD := { u with warns := u.warns ++ ws }

theorem addWarns_nil (u : UnitD) : addWarns u [] = u := by simp [addWarns]

theorem addWarns_addWarns (u : UnitD) (a b : List Warn) : addWarns (addWarns u a) b = addWarns u (a ++ b) := by
  simp [addWarns, List.append_assoc]

/-- The option loop of a field -/
theorem visitFieldOptions_ok {os : List OptA} {acc r : List (Str × Lit)} {u u' : UnitD} (hacc : (acc.map (·.1)).Nodup) :
    visitFieldOptions os acc u = (.ok r, u') ↔
      ∃ lits, os.map (fun o => litOf o.val) = lits.map some ∧
        r = acc ++ (os.map (·.name)).zip lits ∧
        (acc.map (·.1) ++ os.map (·.name)).Nodup ∧
        (∀ e ∈ (os.map (·.name)).zip lits, FieldOptOk e.1 e.2) ∧
        u' = addWarns u (unknownWarns (fun n => n = orderName) (os.map (·.name))) := by
  induction os generalizing acc u with
  | nil =>
    simp only [visitFieldOptions, pure_ok, List.map_nil]
    constructor
    · rintro ⟨rfl, rfl⟩
      exact ⟨[], rfl, by simp, by simpa using hacc, by simp, (addWarns_nil u).symm⟩
    · rintro ⟨lits, h, rfl, -, -, rfl⟩
      exact ⟨by simp, (addWarns_nil u).symm⟩
  | cons o os ih =>
    unfold visitFieldOptions
    simp only [bind_ok, visitConstant_ok]
    by_cases hmem : o.name ∈ acc.map (·.1)
    · -- duplicate
      constructor
      · rintro ⟨l, _, ⟨hl, rfl⟩, h⟩
        have hs := (aget_isSome acc o.name).2 hmem
        rcases hv : fieldValidator.validate o.name l with _ | w | e
        · rw [hv] at h
          simp only [if_pos hs] at h
          exact absurd h (by simp [fail])
        · rw [hv] at h
          obtain ⟨_, _, _, h⟩ := bind_ok.1 h
          rw [if_pos hs] at h
          exact absurd h (by simp [fail])
        · rw [hv] at h
          exact absurd h (by simp [fail])
      · rintro ⟨lits, h, rfl, hn, -⟩
        rw [List.nodup_append] at hn
        exact absurd rfl (hn.2.2 o.name hmem o.name (by simp))
    · have hs : ¬ (aget acc o.name).isSome = true := fun k => hmem ((aget_isSome acc o.name).1 k)
      have hn' : ((acc ++ [(o.name, (default : Unit))].map fun e => (e.1, (Lit.bool true))).map (·.1)).Nodup := by
        simp only [List.map_append, List.map_cons, List.map_nil]
        exact nodup_snoc hacc hmem
      have hnl : ∀ l : Lit, ((acc ++ [(o.name, l)]).map (·.1)).Nodup := by
        intro l
        simp only [List.map_append, List.map_cons, List.map_nil]
        exact nodup_snoc hacc hmem
      have step : ∀ l v, (match fieldValidator.validate o.name l with
            | .error e => (fail e : V (List (Str × Lit)))
            | .warning w => (do
                warn w
                if (aget acc o.name).isSome then fail (.optionDuplicate o.name) else visitFieldOptions os (aput acc o.name l))
            | .good => if (aget acc o.name).isSome then fail (.optionDuplicate o.name)
                else visitFieldOptions os (aput acc o.name l)) v = (.ok r, u') ↔
          FieldOptOk o.name l ∧
            visitFieldOptions os (acc ++ [(o.name, l)]) (addWarns v (unknownWarns (fun n => n = orderName) [o.name])) = (.ok r, u') := by
        intro l v
        rw [← fieldValidate_notError, aput_new _ _ _ hmem]
        rw [fieldValidate]
        by_cases ho : o.name = orderName
        · simp only [if_pos ho]
          have hw : unknownWarns (fun n => n = orderName) [o.name] = [] := by simp [unknownWarns, ho]
          rw [hw, addWarns_nil]
          by_cases hk : l.kind = .str
          · simp only [hk, ne_eq, not_true_eq_false, if_false]
            by_cases hv : l = .str ['b', 'i', 'g'] ∨ l = .str ['l', 'i', 't', 't', 'l', 'e']
            · simp only [hv, if_true, if_neg hs, reduceCtorEq, not_false_iff, implies_true, true_and]
            · simp only [hv, if_false, fail_ok, false_iff, not_and]
              intro k
              exact absurd rfl (k _)
          · simp only [ne_eq, hk, not_false_iff, if_true, fail_ok, false_iff, not_and]
            intro k
            exact absurd rfl (k _)
        · simp only [if_neg ho, bind_ok, warn_ok, reduceCtorEq, ne_eq, not_false_iff, implies_true, true_and]
          have hw : unknownWarns (fun n => n = orderName) [o.name] = [.unknownOption o.name] := by simp [unknownWarns, ho]
          rw [hw]
          constructor
          · rintro ⟨_, _, rfl, h⟩
            rw [if_neg hs] at h
            exact h
          · intro h
            refine ⟨(), _, rfl, ?_⟩
            rw [if_neg hs]
            exact h
      have hw2 : ∀ v, addWarns (addWarns v (unknownWarns (fun n => n = orderName) [o.name]))
          (unknownWarns (fun n => n = orderName) (os.map (·.name))) =
          addWarns v (unknownWarns (fun n => n = orderName) ((o :: os).map (·.name))) := by
        intro v
        rw [addWarns_addWarns]
        congr 1
        simp only [unknownWarns, List.map_cons, ← List.map_append, ← List.filter_append, List.singleton_append]
      constructor
      · rintro ⟨l, _, ⟨hl, rfl⟩, h⟩
        obtain ⟨hok, h⟩ := (step l u).1 h
        obtain ⟨lits, h1, rfl, h3, h4, rfl⟩ := (ih (hnl l)).1 h
        refine ⟨l :: lits, by simp [hl, h1], by simp, by simpa using h3, ?_, hw2 u⟩
        intro e he
        simp only [List.map_cons, List.zip_cons_cons, List.mem_cons] at he
        rcases he with rfl | he
        · exact hok
        · exact h4 e he
      · rintro ⟨lits, h1, rfl, h3, h4, rfl⟩
        cases lits with
        | nil => simp at h1
        | cons l lits =>
          simp only [List.map_cons, List.cons.injEq] at h1
          refine ⟨l, u, ⟨h1.1, rfl⟩, (step l u).2 ⟨h4 (o.name, l) (by simp), ?_⟩⟩
          refine (ih (hnl l)).2 ⟨lits, h1.2, by simp, by simpa using h3, ?_, (hw2 u).symm⟩
          intro e he
          exact h4 e (by simp [he])

/-! ### File options -/

theorem fileTypes : fileValidator.types = fileOptKinds.map fun e => (e.1.toList, e.2) := by decide +kernel

theorem fileValues : fileValidator.values = [] := by decide +kernel

theorem fileKinds_nodup : ((fileOptKinds.map fun e => (e.1.toList, e.2)).map (·.1)).Nodup := by decide +kernel

/-- Is it a known file option? -/
def knownFileOpt (n : Str) : Bool := fileOptKinds.any fun e => e.1.toList = n

theorem fileValidate (name : Str) (v : Lit) :
    (knownFileOpt name = true ∧ FileOptOk name v ∧ fileValidator.validate name v = .good) ∨
    (knownFileOpt name = true ∧ ¬ FileOptOk name v ∧ fileValidator.validate name v = .error (.optionType name)) ∨
    (knownFileOpt name = false ∧ FileOptOk name v ∧ fileValidator.validate name v = .warning (.unknownOption name)) := by
  unfold Validator.validate
  rw [fileTypes, fileValues]
  rcases h : aget (fileOptKinds.map fun e => (e.1.toList, e.2)) name with _ | k
  · right; right
    have hk := aget_none_iff.1 h
    refine ⟨?_, ?_, by rw [h]; rfl⟩
    · unfold knownFileOpt
      rw [← Bool.not_eq_true, List.any_eq_true]
      rintro ⟨e, he, hn⟩
      exact hk (List.mem_map.2 ⟨(e.1.toList, e.2), List.mem_map.2 ⟨e, he, rfl⟩, by simpa using hn⟩)
    · intro e he hn
      exact absurd (List.mem_map.2 ⟨(e.1.toList, e.2), List.mem_map.2 ⟨e, he, rfl⟩, hn⟩) hk
  · have hm := (aget_some_iff fileKinds_nodup).1 h
    obtain ⟨e0, he0, heq⟩ := List.mem_map.1 hm
    simp only [Prod.mk.injEq] at heq
    have hknown : knownFileOpt name = true := by
      unfold knownFileOpt
      rw [List.any_eq_true]
      exact ⟨e0, he0, by simpa using heq.1⟩
    have hok : FileOptOk name v ↔ v.kind = k := by
      constructor
      · intro hf
        rw [← heq.2]
        exact hf e0 he0 heq.1
      · intro hv e he hn
        have h2 : aget (fileOptKinds.map fun e => (e.1.toList, e.2)) name = some e.2 :=
          (aget_some_iff fileKinds_nodup).2 (List.mem_map.2 ⟨e, he, by rw [hn]⟩)
        rw [h] at h2
        rw [hv]
        exact Option.some.inj h2
    by_cases hv : v.kind = k
    · left
      exact ⟨hknown, hok.2 hv, by rw [h]; simp only [hv, ne_eq, not_true_eq_false, if_false]; rfl⟩
    · right; left
      exact ⟨hknown, fun c => hv (hok.1 c), by rw [h]; simp only [ne_eq, hv, not_false_iff, if_true]⟩

theorem visitFileOptions_errs (os : List OptA) (acc : List (Str × Lit)) (errs : List CErr) (u : UnitD) :
    ∃ es, (visitFileOptions os acc errs u).2.1 = errs ++ es := by
  induction os generalizing acc errs u with
  | nil => exact ⟨[], by simp [visitFileOptions]⟩
  | cons o os ih =>
    unfold visitFileOptions
    split
    · split
      · obtain ⟨es, h⟩ := ih acc (errs ++ [_]) _
        exact ⟨_, by rw [h, List.append_assoc]⟩
      · dsimp only
        split
        · obtain ⟨es, h⟩ := ih acc (errs ++ [_]) _
          exact ⟨_, by rw [h, List.append_assoc]⟩
        · exact ih _ _ _
      · split
        · obtain ⟨es, h⟩ := ih acc (errs ++ [_]) _
          exact ⟨_, by rw [h, List.append_assoc]⟩
        · exact ih _ _ _
    · obtain ⟨es, h⟩ := ih acc (errs ++ _) _
      exact ⟨_, by rw [h, List.append_assoc]⟩
    · exact ih _ _ _

/-- The option loop of a file -/
theorem visitFileOptions_ok {os : List OptA} {acc r : List (Str × Lit)} {u u' : UnitD} (hacc : (acc.map (·.1)).Nodup) :
    visitFileOptions os acc [] u = (r, [], u') ↔
      ∃ lits, os.map (fun o => litOf o.val) = lits.map some ∧
        r = acc ++ (os.map (·.name)).zip lits ∧
        (acc.map (·.1) ++ os.map (·.name)).Nodup ∧
        (∀ e ∈ (os.map (·.name)).zip lits, FileOptOk e.1 e.2) ∧
        u' = addWarns u (unknownWarns knownFileOpt (os.map (·.name))) := by
  induction os generalizing acc u with
  | nil =>
    simp only [visitFileOptions, Prod.mk.injEq, true_and, List.map_nil]
    constructor
    · rintro ⟨rfl, rfl⟩
      exact ⟨[], rfl, by simp, by simpa using hacc, by simp, (addWarns_nil u).symm⟩
    · rintro ⟨lits, h, rfl, -, -, rfl⟩
      exact ⟨by simp, (addWarns_nil u).symm⟩
  | cons o os ih =>
    have bad : ∀ acc' e (es : List CErr) v, visitFileOptions os acc' (e :: es) v ≠ (r, [], u') := by
      intro acc' e es v h
      obtain ⟨es', h'⟩ := visitFileOptions_errs os acc' (e :: es) v
      rw [h] at h'
      simp at h'
    have hnl : ∀ l : Lit, o.name ∉ acc.map (·.1) → ((acc ++ [(o.name, l)]).map (·.1)).Nodup := by
      intro l hmem
      simp only [List.map_append, List.map_cons, List.map_nil]
      exact nodup_snoc hacc hmem
    have hw2 : ∀ v, addWarns (addWarns v (unknownWarns knownFileOpt [o.name])) (unknownWarns knownFileOpt (os.map (·.name))) =
        addWarns v (unknownWarns knownFileOpt ((o :: os).map (·.name))) := by
      intro v
      rw [addWarns_addWarns]
      congr 1
      simp only [unknownWarns, List.map_cons, ← List.map_append, ← List.filter_append, List.singleton_append]
    unfold visitFileOptions
    rcases visitConstant_pure o.val u with ⟨l, hl, hv⟩ | ⟨hl, hv⟩
    · rw [hv]
      simp only
      by_cases hmem : o.name ∈ acc.map (·.1)
      · have hs := (aget_isSome acc o.name).2 hmem
        constructor
        · intro h
          exfalso
          rcases fileValidate o.name l with ⟨_, _, hf⟩ | ⟨_, _, hf⟩ | ⟨_, _, hf⟩
          · rw [hf] at h
            simp only [if_pos hs, List.nil_append] at h
            exact bad _ _ _ _ h
          · rw [hf] at h
            exact bad _ _ _ _ h
          · rw [hf] at h
            simp only [if_pos hs, List.nil_append] at h
            exact bad _ _ _ _ h
        · rintro ⟨lits, h, rfl, hn, -⟩
          rw [List.nodup_append] at hn
          exact absurd rfl (hn.2.2 o.name hmem o.name (by simp))
      · have hs : ¬ (aget acc o.name).isSome = true := fun k => hmem ((aget_isSome acc o.name).1 k)
        have fwd : FileOptOk o.name l →
            (visitFileOptions os (acc ++ [(o.name, l)]) [] (addWarns u (unknownWarns knownFileOpt [o.name])) = (r, [], u') ↔
              ∃ lits, (o :: os).map (fun o => litOf o.val) = lits.map some ∧
                r = acc ++ ((o :: os).map (·.name)).zip lits ∧
                (acc.map (·.1) ++ (o :: os).map (·.name)).Nodup ∧
                (∀ e ∈ ((o :: os).map (·.name)).zip lits, FileOptOk e.1 e.2) ∧
                u' = addWarns u (unknownWarns knownFileOpt ((o :: os).map (·.name)))) := by
          intro hok
          rw [ih (hnl l hmem)]
          constructor
          · rintro ⟨lits, h1, rfl, h3, h4, rfl⟩
            refine ⟨l :: lits, by simp [hl, h1], by simp, by simpa using h3, ?_, hw2 u⟩
            intro e he
            simp only [List.map_cons, List.zip_cons_cons, List.mem_cons] at he
            rcases he with rfl | he
            · exact hok
            · exact h4 e he
          · rintro ⟨lits, h1, rfl, h3, h4, rfl⟩
            cases lits with
            | nil => simp at h1
            | cons l' lits =>
              simp only [List.map_cons, List.cons.injEq, hl, Option.some.injEq] at h1
              obtain ⟨rfl, h1⟩ := h1
              refine ⟨lits, h1, by simp, by simpa using h3, ?_, (hw2 u).symm⟩
              intro e he
              exact h4 e (by simp [he])
        rcases fileValidate o.name l with ⟨hk, hok, hf⟩ | ⟨hk, hok, hf⟩ | ⟨hk, hok, hf⟩
        · rw [hf]
          have e := fwd hok
          have hw : unknownWarns knownFileOpt [o.name] = [] := by simp [unknownWarns, hk]
          rw [hw, addWarns_nil] at e
          simp only [if_neg hs, aput_new _ _ _ hmem]
          exact e
        · rw [hf]
          constructor
          · intro h
            exact absurd h (bad _ _ _ _)
          · rintro ⟨lits, h1, rfl, h3, h4, rfl⟩
            cases lits with
            | nil => simp at h1
            | cons l' lits =>
              simp only [List.map_cons, List.cons.injEq, hl, Option.some.injEq] at h1
              obtain ⟨rfl, h1⟩ := h1
              exact absurd (h4 (o.name, l) (by simp)) hok
        · rw [hf]
          have e := fwd hok
          have hw : unknownWarns knownFileOpt [o.name] = [.unknownOption o.name] := by simp [unknownWarns, hk]
          rw [hw] at e
          simp only [if_neg hs, aput_new _ _ _ hmem]
          exact e
    · rw [hv]
      constructor
      · intro h
        exact absurd h (bad _ _ _ _)
      · rintro ⟨lits, h1, -⟩
        cases lits with
        | nil => simp at h1
        | cons l' lits => simp [hl] at h1

end Bubbler.Comp
