import Verif.Compiler.ErrOwn
import Verif.Compiler.RuntimeSound

/-
The errors of a run are true (Verif/Compiler/ErrSpec.lean).
-/
namespace Bubbler.Comp

variable {fs : FS} {entry : Str}

/-! ### Errors of the header -/

theorem visitFileOptions_true {os : List OptA} {acc : List (Str × Lit)} {errs : List CErr} {u : UnitD} :
    ∀ e ∈ (visitFileOptions os acc errs u).2.1, e ∈ errs ∨ e.ofText = true := by
  induction os generalizing acc errs u with
  | nil => intro e he; exact .inl he
  | cons o r ih =>
    have step : ∀ {acc : List (Str × Lit)} {es : List CErr} {u : UnitD}, (∀ e ∈ es, e.ofText = true) →
        ∀ e ∈ (visitFileOptions r acc (errs ++ es) u).2.1, e ∈ errs ∨ e.ofText = true := by
      intro acc es u hes e he
      rcases ih e he with h | h
      · rcases List.mem_append.1 h with h | h
        · exact .inl h
        · exact .inr (hes e h)
      · exact .inr h
    intro e he
    unfold visitFileOptions at he
    split at he
    · split at he
      · rename_i hv
        exact step (of_one (validate_ofText hv)) e he
      · dsimp only at he
        split at he
        · exact step (of_one rfl) e he
        · exact ih e he
      · split at he
        · exact step (of_one rfl) e he
        · exact ih e he
    · rename_i hc
      exact step (own_visitConstant _ _ _ _ hc) e he
    · exact ih e he

theorem visitInfo_errs {p : Str} {f : FileA} {u u' : UnitD} {es : List CErr} (hf : fs p = .parsed f)
    (h : visitInfo f u = (.err es, u')) : ∀ e ∈ es, Claim fs entry p e ∧ FirstClaim fs entry p e := by
  unfold visitInfo at h
  split at h
  · rename_i hp
    simp only [Prod.mk.injEq, Out.err.injEq] at h
    rw [← h.1]
    intro e he
    rw [List.mem_singleton.1 he]
    exact ⟨.noPackage p f hf hp, .noPackage p f hf hp⟩
  · rename_i pk ps hp
    dsimp only at h
    split at h
    · simp at h
    · simp only [Prod.mk.injEq, Out.err.injEq] at h
      rw [← h.1]
      intro e he
      rcases visitFileOptions_true e he with h | h
      · obtain ⟨x, hx, rfl⟩ := List.mem_map.1 h
        have h2 : 2 ≤ f.pkgs.length := by
          rw [hp]
          cases ps with
          | nil => cases hx
          | cons a b => simp
        exact ⟨.twoPackages p f hf h2, .twoPackages p f hf h2⟩
      · exact ⟨.text p f e hf h, .text p f e hf h⟩

/-! ### Clashes -/

theorem addGlobalName_path_err (u : UnitD) (n : Str) (d : NameDef) : (u.addGlobalName n d).1.path = u.path := by
  unfold UnitD.addGlobalName; split <;> rfl

theorem addGlobalType_path_err (u : UnitD) (t : TypeDef) : (u.addGlobalType t).1.path = u.path := by
  unfold UnitD.addGlobalType; dsimp only; split <;> rfl

theorem importNames_path_err (l : List (Str × NameDef)) (u : UnitD) (errs : List CErr) : (u.importNames l errs).1.path = u.path := by
  induction l generalizing u errs with
  | nil => rfl
  | cons e r ih =>
    obtain ⟨n, d⟩ := e
    have := addGlobalName_path_err u n d
    unfold UnitD.importNames
    split <;> (rename_i h; rw [h] at this; rw [ih]; exact this)

theorem importTypes_path_err (l : List (Str × TypeDef)) (u : UnitD) (errs : List CErr) : (u.importTypes l errs).1.path = u.path := by
  induction l generalizing u errs with
  | nil => rfl
  | cons e r ih =>
    obtain ⟨n, d⟩ := e
    have := addGlobalType_path_err u d
    unfold UnitD.importTypes
    split <;> (rename_i h; rw [h] at this; rw [ih]; exact this)

theorem addImport_path_err {u o u' : UnitD} {e : Option CErr} (h : u.addImport o = (u', e)) : u'.path = u.path := by
  unfold UnitD.addImport at h
  split at h
  · simp only [Prod.mk.injEq] at h
    rw [← h.1]
  · dsimp only at h
    have key := (importTypes_path_err o.globalTypes (u.importNames o.globalNames []).1 (u.importNames o.globalNames []).2).trans
      (importNames_path_err o.globalNames u [])
    split at h
    · simp only [Prod.mk.injEq] at h
      rw [← h.1]; exact key
    · simp only [Prod.mk.injEq] at h
      rw [← h.1]; exact key

theorem importNames_dup (l : List (Str × NameDef)) (u : UnitD) (errs : List CErr) (h : ∀ e ∈ errs, ∃ n, e = CErr.duplicate n) :
    ∀ e ∈ (u.importNames l errs).2, ∃ n, e = CErr.duplicate n := by
  induction l generalizing u errs with
  | nil => exact h
  | cons e r ih =>
    obtain ⟨n, d⟩ := e
    unfold UnitD.importNames
    split
    · exact ih _ _ h
    · refine ih _ _ fun e he => ?_
      rcases List.mem_append.1 he with he | he
      · exact h e he
      · exact ⟨_, List.mem_singleton.1 he⟩

theorem importTypes_dup (l : List (Str × TypeDef)) (u : UnitD) (errs : List CErr) (h : ∀ e ∈ errs, ∃ n, e = CErr.duplicate n) :
    ∀ e ∈ (u.importTypes l errs).2, ∃ n, e = CErr.duplicate n := by
  induction l generalizing u errs with
  | nil => exact h
  | cons e r ih =>
    obtain ⟨n, d⟩ := e
    unfold UnitD.importTypes
    split
    · exact ih _ _ h
    · refine ih _ _ fun e he => ?_
      rcases List.mem_append.1 he with he | he
      · exact h e he
      · exact ⟨_, List.mem_singleton.1 he⟩

theorem addImport_dup {u o u' : UnitD} {e : CErr} (h : u.addImport o = (u', some e)) :
    ∃ es, e = .importing u.path es ∧ es ≠ [] ∧ ∀ x ∈ es, ∃ n, x = CErr.duplicate n := by
  unfold UnitD.addImport at h
  split at h
  · simp at h
  · dsimp only at h
    split at h
    · rename_i hne
      simp only [Prod.mk.injEq, Option.some.injEq] at h
      exact ⟨_, h.2.symm, hne, importTypes_dup _ _ _ (importNames_dup _ _ _ (by simp))⟩
    · simp at h

/-- a definition of `n` at `pos` in a correct file that `p` imports -/
def Defined (fs : FS) (p n : Str) (pos : Pos) : Prop :=
  ∃ o, Compiled fs pos.file o ∧ Below fs p pos.file ∧ ∃ d, (n, d) ∈ o.localNames ∧ d.pos = pos

theorem Defined.two {p n : Str} {a b : Pos} (ha : Defined fs p n a) (hb : Defined fs p n b) (hne : a ≠ b) : TwoDefs fs p n := by
  obtain ⟨o, h1, h2, d, h3, h4⟩ := ha
  obtain ⟨o', k1, k2, d', k3, k4⟩ := hb
  refine ⟨a.file, b.file, o, o', ?_, h2, k2, h1, k1, List.mem_map.2 ⟨_, h3, rfl⟩, List.mem_map.2 ⟨_, k3, rfl⟩⟩
  intro e
  rw [← e] at k1
  have := h1.det k1
  subst this
  have := nodup_unique h1.full.good.tab.localNodup h3 k3
  subst this
  exact hne (h4.symm.trans k4)

theorem aget_in {α : Type} {m : List (Str × α)} {n : Str} {a : α} (h : aget m n = some a) : (n, a) ∈ m := by
  unfold aget at h
  obtain ⟨e, he, rfl⟩ := Option.map_eq_some_iff.1 h
  have h1 := List.mem_of_find?_eq_some he
  have h2 := List.find?_some he
  simp only [decide_eq_true_eq] at h2
  rw [← h2]
  exact h1

theorem conflict_two {p n : Str} {u : UnitD} {pos : Pos} (hu : ∀ e ∈ u.globalNames, Defined fs p e.1 e.2.pos)
    (hp : Defined fs p n pos) (h : u.conflicts n pos = true) : TwoDefs fs p n := by
  unfold UnitD.conflicts at h
  split at h
  · rename_i d hd
    have hm : (n, d) ∈ u.globalNames := aget_in hd
    exact (hu _ hm).two hp (by simpa using h)
  · cases h

theorem importNames_true (p : Str) (l : List (Str × NameDef)) (hl : ∀ e ∈ l, Defined fs p e.1 e.2.pos) (u : UnitD) (errs : List CErr)
    (hu : ∀ e ∈ u.globalNames, Defined fs p e.1 e.2.pos) (h : ∀ e ∈ errs, ∃ n, e = CErr.duplicate n ∧ TwoDefs fs p n) :
    (∀ e ∈ (u.importNames l errs).1.globalNames, Defined fs p e.1 e.2.pos) ∧
    ∀ e ∈ (u.importNames l errs).2, ∃ n, e = CErr.duplicate n ∧ TwoDefs fs p n := by
  induction l generalizing u errs with
  | nil => exact ⟨hu, h⟩
  | cons e r ih =>
    obtain ⟨n, d⟩ := e
    have hd : Defined fs p n d.pos := hl (n, d) (by simp)
    have hr : ∀ e ∈ r, Defined fs p e.1 e.2.pos := fun e he => hl e (by simp [he])
    unfold UnitD.importNames UnitD.addGlobalName
    split
    · rename_i u1 h1
      split at h1
      · simp at h1
      · simp only [Prod.mk.injEq, and_true] at h1
        subst h1
        refine ih hr _ _ (fun e he => ?_) h
        rcases aput_mem he with he | ⟨rfl, -⟩
        · exact hu e he
        · exact hd
    · rename_i u1 h1
      split at h1
      · rename_i hc
        simp only [Prod.mk.injEq, and_true] at h1
        subst h1
        refine ih hr _ _ hu (fun e he => ?_)
        rcases List.mem_append.1 he with he | he
        · exact h e he
        · exact ⟨n, List.mem_singleton.1 he, conflict_two hu hd hc⟩
      · simp at h1

theorem importTypes_true (p : Str) (l : List (Str × TypeDef)) (hl : ∀ e ∈ l, Defined fs p e.2.ty.customName e.2.pos) (u : UnitD)
    (errs : List CErr) (hu : ∀ e ∈ u.globalNames, Defined fs p e.1 e.2.pos)
    (h : ∀ e ∈ errs, ∃ n, e = CErr.duplicate n ∧ TwoDefs fs p n) :
    ∀ e ∈ (u.importTypes l errs).2, ∃ n, e = CErr.duplicate n ∧ TwoDefs fs p n := by
  induction l generalizing u errs with
  | nil => exact h
  | cons e r ih =>
    obtain ⟨n, t⟩ := e
    have hd : Defined fs p t.ty.customName t.pos := hl (n, t) (by simp)
    have hr : ∀ e ∈ r, Defined fs p e.2.ty.customName e.2.pos := fun e he => hl e (by simp [he])
    unfold UnitD.importTypes UnitD.addGlobalType
    dsimp only
    split
    · rename_i u1 h1
      split at h1
      · simp at h1
      · simp only [Prod.mk.injEq, and_true] at h1
        subst h1
        refine ih hr _ _ (fun e he => ?_) h
        rcases aput_mem he with he | ⟨rfl, -⟩
        · exact hu e he
        · exact hd
    · rename_i u1 h1
      split at h1
      · rename_i hc
        simp only [Prod.mk.injEq, and_true] at h1
        subst h1
        refine ih hr _ _ hu (fun e he => ?_)
        rcases List.mem_append.1 he with he | he
        · exact h e he
        · exact ⟨_, List.mem_singleton.1 he, conflict_two hu hd hc⟩
      · simp at h1

theorem addImport_true {p q : Str} {S : List Str} {u o u' : UnitD} {e : CErr} (hp : Part fs p S u) (hS : ∀ r ∈ S, Imports fs p r)
    (hq : Imports fs p q) (ho : Compiled fs q o) (h : u.addImport o = (u', some e)) : FirstClaim fs entry p e := by
  have fo := ho.full
  have hu : ∀ e ∈ u.globalNames, Defined fs p e.1 e.2.pos := by
    intro e he
    obtain ⟨o1, h1, h2, r, hr, h3⟩ := hp.names e he
    exact ⟨o1, h1, ⟨r, hS r hr, h3⟩, e.2, h2, rfl⟩
  have hn : ∀ e ∈ o.globalNames, Defined fs p e.1 e.2.pos := by
    intro e he
    obtain ⟨o1, h1, h2, h3⟩ := fo.names e he
    exact ⟨o1, h1, ⟨q, hq, h3⟩, e.2, h2, rfl⟩
  have ht : ∀ e ∈ o.globalTypes, Defined fs p e.2.ty.customName e.2.pos := by
    rintro ⟨n, t⟩ he
    obtain ⟨d, hd, hpos⟩ := fo.good.keyed.bound n t he
    have := hn _ hd
    rw [fo.good.keyed.key n t he]
    rw [← hpos]
    exact this
  unfold UnitD.addImport at h
  split at h
  · simp at h
  · dsimp only at h
    split at h
    · rename_i hne
      simp only [Prod.mk.injEq, Option.some.injEq] at h
      obtain ⟨k1, k2⟩ := importNames_true p o.globalNames hn u [] hu (by simp)
      have k3 := importTypes_true p o.globalTypes ht _ _ k1 k2
      rw [← h.2, hp.path]
      exact .clash p _ hne k3
    · simp at h

end Bubbler.Comp
