import Verif.Gen.Project

/-! The options of a unit are those written in its file. -/
namespace Bubbler
open Comp Gen

theorem importNames_options (u : UnitD) (l : List (Str × NameDef)) (errs : List CErr) : (u.importNames l errs).1.options = u.options := by
  induction l generalizing u errs with
  | nil => rfl
  | cons e r ih =>
    obtain ⟨n, d⟩ := e
    unfold UnitD.importNames
    have : (u.addGlobalName n d).1.options = u.options := by unfold UnitD.addGlobalName; split <;> rfl
    rcases h : u.addGlobalName n d with ⟨u1, b⟩
    rw [h] at this
    cases b <;> exact (ih _ _).trans this

theorem importTypes_options (u : UnitD) (l : List (Str × TypeDef)) (errs : List CErr) : (u.importTypes l errs).1.options = u.options := by
  induction l generalizing u errs with
  | nil => rfl
  | cons e r ih =>
    obtain ⟨n, d⟩ := e
    unfold UnitD.importTypes
    have : (u.addGlobalType d).1.options = u.options := by unfold UnitD.addGlobalType; simp only; split <;> rfl
    rcases h : u.addGlobalType d with ⟨u1, b⟩
    rw [h] at this
    cases b <;> exact (ih _ _).trans this

theorem addImport_options {u o u1 : UnitD} (h : u.addImport o = (u1, none)) : u1.options = u.options := by
  unfold UnitD.addImport at h
  split at h
  · cases h; rfl
  · simp only at h
    split at h
    · cases h
    · cases h
      exact (importTypes_options _ _ _).trans (importNames_options _ _ _)

theorem imported_options {fs : FS} {ps : List Str} {u u' : UnitD} (h : Imported fs ps u u') : u'.options = u.options := by
  induction ps generalizing u with
  | nil => cases h; rfl
  | cons p r ih =>
    cases h with
    | cons _ _ o _ u1 _ _ h2 h3 => exact (ih h3).trans (addImport_options h2)

/-- The options of a unit are those written in its file. -/
theorem _root_.Bubbler.Comp.Compiled.option_iff {fs : FS} {p : Str} {v : UnitD} (h : Compiled fs p v) {f : FileA} (hf : fs p = .parsed f) (n : Str) (l : Lit) :
    aget v.options n = some l ↔ ∃ o ∈ f.opts, o.name = n ∧ litOf o.val = some l := by
  cases h with
  | mk _ f' ps u0 u1 _ h1 h2 h3 h4 h5 =>
    rw [hf] at h1
    cases h1
    have e := (proto_visitProto f.tops [] u1).options
    rw [h5] at e
    simp only at e
    obtain ⟨pk, lits, -, k1, k2, k3, rfl⟩ := (C28_file_options _ _ _).1 h3
    rw [e, imported_options h4]
    simp only
    have hl : f.opts.length = lits.length := by simpa using congrArg List.length k1
    have key : ∀ (os : List OptA) (ls : List Lit), os.map (fun o => litOf o.val) = ls.map some →
        ((n, l) ∈ (os.map (·.name)).zip ls ↔ ∃ o ∈ os, o.name = n ∧ litOf o.val = some l) := by
      intro os
      induction os with
      | nil => intro ls _; simp
      | cons o r ih =>
        intro ls hls
        cases ls with
        | nil => simp at hls
        | cons x xs =>
          simp only [List.map_cons, List.cons.injEq] at hls
          simp only [List.map_cons, List.zip_cons_cons, List.mem_cons, Prod.mk.injEq, ih xs hls.2, exists_eq_or_imp, hls.1, Option.some.injEq]
          constructor
          · rintro (⟨a, b⟩ | h)
            · exact .inl ⟨a.symm, b.symm⟩
            · exact .inr h
          · rintro (⟨a, b⟩ | h)
            · exact .inl ⟨a.symm, b.symm⟩
            · exact .inr h
    rw [aget_some_iff (by rw [List.map_fst_zip (by simp [hl])]; exact k2)]
    exact key f.opts lits k1

/-- An option of a known name has a value of its kind. -/
theorem _root_.Bubbler.Comp.Compiled.option_kind {fs : FS} {p : Str} {v : UnitD} (h : Compiled fs p v) {n : Str} {l : Lit}
    (hg : aget v.options n = some l) : FileOptOk n l := by
  cases h with
  | mk _ f' ps u0 u1 _ h1 h2 h3 h4 h5 =>
    have e := (proto_visitProto f'.tops [] u1).options
    rw [h5] at e
    simp only at e
    obtain ⟨pk, lits, -, k1, k2, k3, rfl⟩ := (C28_file_options _ _ _).1 h3
    rw [e, imported_options h4] at hg
    exact k3 (n, l) (aget_mem hg)
end Bubbler
