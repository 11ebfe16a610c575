import Verif.Compiler.RuntimeTables

/-
The traversal: it terminates, its result does not depend on the fuel, it accepts exactly the correct files with different
packages, and what it leaves behind.
-/
namespace Bubbler.Comp

variable {fs : FS}

abbrev Rec := Str → RT → Option (RT × Out UnitD)

/-! ### Shape of a run -/

theorem wrapImport_ne (p : Str) (es : List CErr) : wrapImport p es ≠ [] := by
  unfold wrapImport
  split
  · split <;> simp
  · simp

theorem importLoop_errs {rec : Rec} {ps : List Str} {rt rt' : RT} {u u' : UnitD} {errs errs' : List CErr}
    (h : importLoop rec ps rt u errs = some (rt', .ok (u', errs'))) : ∃ es, errs' = errs ++ es := by
  induction ps generalizing rt u errs with
  | nil =>
    simp only [importLoop, Option.some.injEq, Prod.mk.injEq, Out.ok.injEq] at h
    exact ⟨[], by simp [h]⟩
  | cons p r ih =>
    unfold importLoop at h
    rcases hr : rec p rt with _ | ⟨rt1, o⟩
    · rw [hr] at h; simp at h
    · rw [hr] at h
      cases o with
      | panic => simp at h
      | err es =>
        obtain ⟨es', he⟩ := ih h
        exact ⟨_, by rw [he, List.append_assoc]⟩
      | ok o =>
        simp only at h
        rcases ha : u.addImport o with ⟨u1, e⟩
        rw [ha] at h
        cases e with
        | none => exact ih h
        | some e =>
          obtain ⟨es', he⟩ := ih h
          exact ⟨_, by rw [he, List.append_assoc]⟩

theorem importLoop_not_err {rec : Rec} {ps : List Str} {rt rt' : RT} {u : UnitD} {errs es : List CErr}
    (h : importLoop rec ps rt u errs = some (rt', .err es)) : False := by
  induction ps generalizing rt u errs with
  | nil => simp [importLoop] at h
  | cons p r ih =>
    unfold importLoop at h
    rcases hr : rec p rt with _ | ⟨rt1, o⟩
    · rw [hr] at h; simp at h
    · rw [hr] at h
      cases o with
      | panic => simp at h
      | err es => exact ih h
      | ok o =>
        simp only at h
        rcases ha : u.addImport o with ⟨u1, e⟩
        rw [ha] at h
        cases e with
        | none => exact ih h
        | some e => exact ih h

theorem importLoop_nil {rec : Rec} {rt rt' : RT} {u u' : UnitD} :
    importLoop rec [] rt u [] = some (rt', .ok (u', [])) ↔ rt = rt' ∧ u = u' := by
  simp [importLoop]

theorem importLoop_cons {rec : Rec} {p : Str} {ps : List Str} {rt rt' : RT} {u u' : UnitD} :
    importLoop rec (p :: ps) rt u [] = some (rt', .ok (u', [])) ↔
      ∃ rt1 o u1, rec p rt = some (rt1, .ok o) ∧ u.addImport o = (u1, none) ∧
        importLoop rec ps rt1 u1 [] = some (rt', .ok (u', [])) := by
  constructor
  · intro h
    unfold importLoop at h
    rcases hr : rec p rt with _ | ⟨rt1, o⟩
    · rw [hr] at h; simp at h
    · rw [hr] at h
      cases o with
      | panic => simp at h
      | err es =>
        obtain ⟨es', he⟩ := importLoop_errs h
        have := wrapImport_ne p es
        simp at he
        exact absurd he.1 this
      | ok o =>
        simp only at h
        rcases ha : u.addImport o with ⟨u1, e⟩
        rw [ha] at h
        cases e with
        | none => exact ⟨rt1, o, u1, rfl, ha, h⟩
        | some e =>
          obtain ⟨es', he⟩ := importLoop_errs h
          simp at he
  · rintro ⟨rt1, o, u1, h1, h2, h3⟩
    unfold importLoop
    simp only [h1, h2, h3]

theorem imports_some {l : List (Option Str)} (h : l.any (·.isNone) = false) : l = (l.filterMap id).map some := by
  induction l with
  | nil => rfl
  | cons a r ih =>
    simp only [List.any_cons, Bool.or_eq_false_iff] at h
    cases a with
    | none => simp at h
    | some a =>
      rw [List.filterMap_cons]
      simp only [id, List.map_cons]
      rw [← ih h.2]

theorem imports_none {ps : List Str} : (ps.map some).any (·.isNone) = false := by
  induction ps with
  | nil => rfl
  | cons a r ih => simp

theorem filterMap_some {ps : List Str} : (ps.map some).filterMap id = ps := by
  induction ps with
  | nil => rfl
  | cons a r ih => simp [List.filterMap_map]

/-- The state in which the imports of `p` are compiled -/
def RT.enter (rt : RT) (k p : Str) : RT := { rt with packages := rt.packages ++ [(k, p)], stack := rt.stack ++ [p] }

/-- The state when `p` is finished -/
def RT.leave (rt : RT) (p : Str) (u : UnitD) : RT :=
  { rt with stack := rt.stack.filter (· ≠ p), units := aput rt.units p u }

theorem compileParsed_ok {rec : Rec} {p : Str} {f : FileA} {rt rt' : RT} {u : UnitD} :
    compileParsed rec p f rt = some (rt', .ok u) ↔
      ∃ ps u0 rt1 u1, f.imports = ps.map some ∧ visitInfo f (UnitD.new p) = (.ok (), u0) ∧
        u0.pkg ∉ rt.packages.map (·.1) ∧ importLoop rec ps (rt.enter u0.pkg p) u0 [] = some (rt1, .ok (u1, [])) ∧
        visitProto f.tops [] u1 = (.ok (), u) ∧ rt' = rt1.leave p u := by
  constructor
  · intro h
    unfold compileParsed at h
    split at h
    · simp at h
    rename_i hany
    have hps := imports_some (Bool.eq_false_iff.2 hany)
    rcases hv : visitInfo f (UnitD.new p) with ⟨o, u0⟩
    rw [hv] at h
    cases o with
    | err es => simp at h
    | panic => simp at h
    | ok x =>
      simp only at h
      split at h
      · simp at h
      rename_i hpk
      rw [aget_isSome] at hpk
      split at h
      · simp at h
      · simp at h
      · simp at h
      · rename_i rt1 u1 errs hl
        split at h
        · simp at h
        rename_i he
        have he : errs = [] := by simpa using he
        subst he
        rcases hp : visitProto f.tops [] u1 with ⟨o, u2⟩
        rw [hp] at h
        cases o with
        | err es => simp at h
        | panic => simp at h
        | ok y =>
          simp only [Option.some.injEq, Prod.mk.injEq, Out.ok.injEq] at h
          obtain ⟨rfl, rfl⟩ := h
          exact ⟨_, u0, rt1, u1, hps, rfl, hpk, hl, hp, rfl⟩
  · rintro ⟨ps, u0, rt1, u1, h1, h2, h3, h4, h5, rfl⟩
    unfold compileParsed
    rw [h1, imports_none, if_neg (by simp), h2, filterMap_some]
    simp only
    rw [← aget_isSome] at h3
    rw [if_neg h3]
    unfold RT.enter at h4
    rw [h4]
    simp only [ne_eq, not_true_eq_false, if_false, h5]
    rfl

theorem compile_ok {n : Nat} {p : Str} {rt rt' : RT} {u : UnitD} :
    compile fs (n + 1) p rt = some (rt', .ok u) ↔
      p ∉ rt.stack ∧ ((fs p = .garbage ∨ ∃ f, fs p = .parsed f) ∧ aget rt.units p = some u ∧ rt' = rt ∨
        aget rt.units p = none ∧ ∃ f, fs p = .parsed f ∧ compileParsed (compile fs n) p f rt = some (rt', .ok u)) := by
  rw [compile]
  rcases hf : fs p with _ | _ | _ | f
  · simp
  · simp
  · simp only
    by_cases hs : p ∈ rt.stack
    · simp [hs]
    · simp only [hs, if_false, not_false_eq_true, true_and]
      rcases ha : aget rt.units p with _ | v
      · simp
      · simp [eq_comm, and_comm]
  · simp only
    by_cases hs : p ∈ rt.stack
    · simp [hs]
    · simp only [hs, if_false, not_false_eq_true, true_and]
      rcases ha : aget rt.units p with _ | v
      · simp
      · simp [eq_comm, and_comm]

/-! ### Fuel -/

theorem importLoop_mono {r1 r2 : Rec} (h : ∀ p rt x, r1 p rt = some x → r2 p rt = some x) (ps : List Str) (rt : RT) (u : UnitD)
    (errs : List CErr) (x : RT × Out (UnitD × List CErr)) (hx : importLoop r1 ps rt u errs = some x) :
    importLoop r2 ps rt u errs = some x := by
  induction ps generalizing rt u errs with
  | nil => exact hx
  | cons p r ih =>
    unfold importLoop at hx ⊢
    rcases hr : r1 p rt with _ | ⟨rt1, o⟩
    · rw [hr] at hx; simp at hx
    · rw [hr] at hx
      rw [h _ _ _ hr]
      cases o with
      | panic => exact hx
      | err es => exact ih _ _ _ hx
      | ok o =>
        simp only at hx ⊢
        rcases ha : u.addImport o with ⟨u1, e⟩
        rw [ha] at hx
        cases e with
        | none => exact ih _ _ _ hx
        | some e => exact ih _ _ _ hx

theorem compileParsed_mono {r1 r2 : Rec} (h : ∀ p rt x, r1 p rt = some x → r2 p rt = some x) (p : Str) (f : FileA) (rt : RT)
    (x : RT × Out UnitD) (hx : compileParsed r1 p f rt = some x) : compileParsed r2 p f rt = some x := by
  unfold compileParsed at hx ⊢
  split at hx
  · rename_i ha
    rw [if_pos ha]; exact hx
  rename_i ha
  rw [if_neg ha]
  rcases hv : visitInfo f (UnitD.new p) with ⟨o, u0⟩
  rw [hv] at hx
  cases o with
  | err es => exact hx
  | panic => exact hx
  | ok y =>
    simp only at hx ⊢
    split at hx
    · rename_i hb
      rw [if_pos hb]; exact hx
    rename_i hb
    rw [if_neg hb]
    rcases hl : importLoop r1 (f.imports.filterMap id)
      { rt with packages := rt.packages ++ [(u0.pkg, p)], stack := rt.stack ++ [p] } u0 [] with _ | y
    · rw [hl] at hx; simp at hx
    · rw [importLoop_mono h _ _ _ _ _ hl]
      rw [hl] at hx
      exact hx

theorem compile_mono {n : Nat} {p : Str} {rt : RT} {x : RT × Out UnitD} (h : compile fs n p rt = some x) :
    compile fs (n + 1) p rt = some x := by
  induction n generalizing p rt x with
  | zero => simp [compile] at h
  | succ n ih =>
    rw [compile] at h ⊢
    rcases hf : fs p with _ | _ | _ | f
    · rw [hf] at h; exact h
    · rw [hf] at h; exact h
    · rw [hf] at h; exact h
    · rw [hf] at h
      simp only at h ⊢
      by_cases hs : p ∈ rt.stack
      · rw [if_pos hs] at h ⊢; exact h
      · rw [if_neg hs] at h ⊢
        rcases ha : aget rt.units p with _ | v
        · rw [ha] at h
          exact compileParsed_mono (fun p rt x hx => ih hx) _ _ _ _ h
        · rw [ha] at h; exact h

theorem compile_mono_le {n m : Nat} (hnm : n ≤ m) {p : Str} {rt : RT} {x : RT × Out UnitD} (h : compile fs n p rt = some x) :
    compile fs m p rt = some x := by
  induction hnm with
  | refl => exact h
  | step _ ih => exact compile_mono ih

/-! ### The stack only grows, and that bounds the recursion -/

theorem importLoop_stack {rec : Rec} (hrec : ∀ p rt rt' o, rec p rt = some (rt', o) → rt.stack ⊆ rt'.stack) {ps : List Str}
    {rt rt' : RT} {u : UnitD} {errs : List CErr} {o : Out (UnitD × List CErr)}
    (h : importLoop rec ps rt u errs = some (rt', o)) : rt.stack ⊆ rt'.stack := by
  induction ps generalizing rt u errs with
  | nil =>
    simp only [importLoop, Option.some.injEq, Prod.mk.injEq] at h
    rw [h.1]; exact List.Subset.refl _
  | cons p r ih =>
    unfold importLoop at h
    rcases hr : rec p rt with _ | ⟨rt1, o1⟩
    · rw [hr] at h; simp at h
    · have h1 := hrec _ _ _ _ hr
      rw [hr] at h
      cases o1 with
      | panic =>
        simp only [Option.some.injEq, Prod.mk.injEq] at h
        rw [← h.1]; exact h1
      | err es => exact h1.trans (ih h)
      | ok o1 =>
        simp only at h
        rcases ha : u.addImport o1 with ⟨u1, e⟩
        rw [ha] at h
        cases e with
        | none => exact h1.trans (ih h)
        | some e => exact h1.trans (ih h)

theorem compileParsed_stack {rec : Rec} (hrec : ∀ p rt rt' o, rec p rt = some (rt', o) → rt.stack ⊆ rt'.stack) {p : Str}
    {f : FileA} {rt rt' : RT} {o : Out UnitD} (hp : p ∉ rt.stack) (h : compileParsed rec p f rt = some (rt', o)) :
    rt.stack ⊆ rt'.stack := by
  have triv : ∀ {o o' : Out UnitD}, some (rt, o) = some (rt', o') → rt.stack ⊆ rt'.stack := by
    intro o o' h
    simp only [Option.some.injEq, Prod.mk.injEq] at h
    rw [h.1]; exact List.Subset.refl _
  unfold compileParsed at h
  split at h
  · exact triv h
  rcases hv : visitInfo f (UnitD.new p) with ⟨o1, u0⟩
  rw [hv] at h
  cases o1 with
  | err es => exact triv h
  | panic => exact triv h
  | ok y =>
    simp only at h
    split at h
    · exact triv h
    have hsub : rt.stack ⊆ rt.stack ++ [p] := List.subset_append_left _ _
    split at h
    · simp at h
    · rename_i rt1 hl
      have := importLoop_stack hrec hl
      simp only [Option.some.injEq, Prod.mk.injEq] at h
      rw [← h.1]
      exact hsub.trans this
    · rename_i hl
      exact (importLoop_not_err hl).elim
    · rename_i rt1 u1 errs hl
      have h1 := hsub.trans (importLoop_stack hrec hl)
      split at h
      · simp only [Option.some.injEq, Prod.mk.injEq] at h
        rw [← h.1]; exact h1
      · have fin : rt.stack ⊆ rt1.stack.filter (· ≠ p) := by
          intro x hx
          rw [List.mem_filter]
          refine ⟨h1 hx, ?_⟩
          have : x ≠ p := fun e => hp (e ▸ hx)
          simpa using this
        rcases hpr : visitProto f.tops [] u1 with ⟨o2, u2⟩
        rw [hpr] at h
        cases o2 <;>
        · simp only [Option.some.injEq, Prod.mk.injEq] at h
          rw [← h.1]; exact fin

theorem compile_stack {n : Nat} {p : Str} {rt rt' : RT} {o : Out UnitD} (h : compile fs n p rt = some (rt', o)) :
    rt.stack ⊆ rt'.stack := by
  induction n generalizing p rt rt' o with
  | zero => simp [compile] at h
  | succ n ih =>
    have triv : ∀ {o o' : Out UnitD}, some (rt, o) = some (rt', o') → rt.stack ⊆ rt'.stack := by
      intro o o' h
      simp only [Option.some.injEq, Prod.mk.injEq] at h
      rw [h.1]; exact List.Subset.refl _
    rw [compile] at h
    rcases hf : fs p with _ | _ | _ | f
    · rw [hf] at h; exact triv h
    · rw [hf] at h; exact triv h
    · rw [hf] at h
      simp only at h
      split at h
      · exact triv h
      · split at h <;> exact triv h
    · rw [hf] at h
      simp only at h
      split at h
      · exact triv h
      · rename_i hs
        split at h
        · exact triv h
        · exact compileParsed_stack (fun p rt rt' o hx => ih hx) hs h

/-- Existing files not on the stack -/
def left (ps : List Str) (rt : RT) : Nat := (ps.filter (· ∉ rt.stack)).length

theorem left_le {ps : List Str} {a b : RT} (h : a.stack ⊆ b.stack) : left ps b ≤ left ps a := by
  unfold left
  induction ps with
  | nil => simp
  | cons x r ih =>
    rw [List.filter_cons, List.filter_cons]
    by_cases hb : x ∈ b.stack
    · simp only [hb, not_true_eq_false, decide_false, Bool.false_eq_true, if_false]
      split
      · simp only [List.length_cons]; omega
      · exact ih
    · have ha : x ∉ a.stack := fun h' => hb (h h')
      simp only [hb, ha, not_false_eq_true, decide_true, if_true, List.length_cons]
      omega

theorem left_enter {ps : List Str} {a b : RT} {p : Str} (h : a.stack ++ [p] ⊆ b.stack) (hp : p ∈ ps) (hn : p ∉ a.stack) :
    left ps b < left ps a := by
  have hsub : a.stack ⊆ b.stack := (List.subset_append_left _ _).trans h
  have hpb : p ∈ b.stack := h (by simp)
  induction ps with
  | nil => cases hp
  | cons x r ih =>
    have hle := left_le (ps := r) hsub
    unfold left at ih hle ⊢
    rw [List.filter_cons, List.filter_cons]
    by_cases hx : x = p
    · subst hx
      simp only [hpb, hn, not_true_eq_false, decide_false, Bool.false_eq_true, if_false, not_false_eq_true, decide_true, if_true,
        List.length_cons]
      omega
    · have hp' : p ∈ r := by
        rcases List.mem_cons.1 hp with e | e
        · exact absurd e.symm hx
        · exact e
      have := ih hp'
      by_cases hb : x ∈ b.stack
      · simp only [hb, not_true_eq_false, decide_false, Bool.false_eq_true, if_false]
        split
        · simp only [List.length_cons]; omega
        · exact this
      · have ha : x ∉ a.stack := fun h' => hb (hsub h')
        simp only [hb, ha, not_false_eq_true, decide_true, if_true, List.length_cons]
        omega

theorem importLoop_some {rec : Rec} {S : List Str} (hstack : ∀ p rt rt' o, rec p rt = some (rt', o) → rt.stack ⊆ rt'.stack)
    (hrec : ∀ p rt, S ⊆ rt.stack → rec p rt ≠ none) (ps : List Str) (rt : RT) (u : UnitD) (errs : List CErr)
    (hS : S ⊆ rt.stack) : importLoop rec ps rt u errs ≠ none := by
  induction ps generalizing rt u errs with
  | nil => simp [importLoop]
  | cons p r ih =>
    unfold importLoop
    rcases hr : rec p rt with _ | ⟨rt1, o1⟩
    · exact absurd hr (hrec p rt hS)
    · have h1 := hS.trans (hstack _ _ _ _ hr)
      cases o1 with
      | panic => simp
      | err es => exact ih _ _ _ h1
      | ok o1 =>
        simp only
        rcases ha : u.addImport o1 with ⟨u1, e⟩
        cases e with
        | none => exact ih _ _ _ h1
        | some e => exact ih _ _ _ h1

theorem compile_some {ps : List Str} (hps : ∀ p, fs p ≠ .missing → p ∈ ps) (n : Nat) (p : Str) (rt : RT)
    (h : left ps rt < n) : compile fs n p rt ≠ none := by
  induction n generalizing p rt with
  | zero => omega
  | succ n ih =>
    rw [compile]
    rcases hf : fs p with _ | _ | _ | f
    · simp
    · simp
    · simp only
      split
      · simp
      · split <;> simp
    · simp only
      split
      · simp
      · rename_i hs
        split
        · simp
        · have hp : p ∈ ps := hps p (by rw [hf]; simp)
          unfold compileParsed
          split
          · simp
          rcases hv : visitInfo f (UnitD.new p) with ⟨o1, u0⟩
          cases o1 with
          | err es => simp
          | panic => simp
          | ok y =>
            simp only
            split
            · simp
            have hl := importLoop_some (S := rt.stack ++ [p]) (fun p rt rt' o hx => compile_stack (n := n) (fs := fs) hx)
              (fun q rt1 hsub => ih q rt1 (by have := left_enter hsub hp hs; omega)) (f.imports.filterMap id)
              { rt with packages := rt.packages ++ [(u0.pkg, p)], stack := rt.stack ++ [p] } u0 [] (List.Subset.refl _)
            split
            · rename_i hn; exact absurd hn hl
            · simp
            · simp
            · split
              · simp
              · rcases visitProto f.tops [] _ with ⟨o2, u2⟩
                cases o2 <;> simp

end Bubbler.Comp
