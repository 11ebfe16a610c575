import Verif.Compiler.ErrMain
import Verif.Props.RuntimeProps
import Verif.Props.FrontProps

/-
C71: the errors of a run are true, the first one exactly, and no import that cannot be used goes unmentioned.
-/
namespace Bubbler.Comp

variable {fs : FS}

/-! ### Files that are known have been parsed -/

/-- `Units` and `ParseStack` contain parsed files only. -/
def Seen (fs : FS) (rt : RT) : Prop := ∀ s, s ∈ rt.stack ∨ s ∈ rt.units.map (·.1) → ∃ f, fs s = .parsed f

theorem importLoop_seen {rec : Rec} (hrec : ∀ p rt rt' o, rec p rt = some (rt', o) → Seen fs rt → Seen fs rt') {ps : List Str}
    {rt rt' : RT} {u : UnitD} {errs : List CErr} {o : Out (UnitD × List CErr)} (h : importLoop rec ps rt u errs = some (rt', o))
    (hs : Seen fs rt) : Seen fs rt' := by
  induction ps generalizing rt u errs with
  | nil =>
    simp only [importLoop, Option.some.injEq, Prod.mk.injEq] at h
    rw [← h.1]; exact hs
  | cons p r ih =>
    unfold importLoop at h
    rcases hr : rec p rt with _ | ⟨rt1, o1⟩
    · rw [hr] at h; simp at h
    · rw [hr] at h
      have h1 := hrec _ _ _ _ hr hs
      cases o1 with
      | panic =>
        simp only [Option.some.injEq, Prod.mk.injEq] at h
        rw [← h.1]; exact h1
      | err es => exact ih h h1
      | ok x =>
        simp only at h
        split at h
        · exact ih h h1
        · exact ih h h1

theorem compile_seen {n : Nat} {p : Str} {rt rt' : RT} {o : Out UnitD} (h : compile fs n p rt = some (rt', o)) (hs : Seen fs rt) :
    Seen fs rt' := by
  induction n generalizing p rt rt' o with
  | zero => simp [compile] at h
  | succ n ih =>
    have triv : ∀ {x : Out UnitD}, some (rt, x) = some (rt', o) → Seen fs rt' := by
      intro x h
      simp only [Option.some.injEq, Prod.mk.injEq] at h
      rw [← h.1]; exact hs
    rw [compile] at h
    rcases hf : fs p with _ | _ | _ | f
    · rw [hf] at h; exact triv h
    · rw [hf] at h; exact triv h
    · rw [hf] at h
      simp only at h
      split at h
      · exact triv h
      · split at h
        · exact triv h
        · exact triv h
    · rw [hf] at h
      simp only at h
      split at h
      · exact triv h
      split at h
      · exact triv h
      unfold compileParsed at h
      split at h
      · exact triv h
      rcases hv : visitInfo f (UnitD.new p) with ⟨o1, u0⟩
      rw [hv] at h
      cases o1 with
      | err es1 => exact triv h
      | panic => exact triv h
      | ok y =>
        simp only at h
        split at h
        · exact triv h
        have hen : Seen fs { rt with packages := rt.packages ++ [(u0.pkg, p)], stack := rt.stack ++ [p] } := by
          rintro s (h | h)
          · rcases List.mem_append.1 h with h | h
            · exact hs s (.inl h)
            · rw [List.mem_singleton.1 h]; exact ⟨f, hf⟩
          · exact hs s (.inr h)
        rcases hl : importLoop (compile fs n) (f.imports.filterMap id)
          { rt with packages := rt.packages ++ [(u0.pkg, p)], stack := rt.stack ++ [p] } u0 [] with _ | ⟨rt1, o1⟩
        · rw [hl] at h; simp at h
        rw [hl] at h
        have h1 := importLoop_seen (fun p rt rt' o h hs => ih h hs) hl hen
        have done : ∀ {x : Out UnitD}, some (rt1, x) = some (rt', o) → Seen fs rt' := by
          intro x h
          simp only [Option.some.injEq, Prod.mk.injEq] at h
          rw [← h.1]; exact h1
        cases o1 with
        | panic => exact done h
        | err es => exact done h
        | ok pr =>
          obtain ⟨u1, errs⟩ := pr
          simp only at h
          split at h
          · exact done h
          · rcases hpr : visitProto f.tops [] u1 with ⟨o2, u2⟩
            rw [hpr] at h
            have h2 : Seen fs { rt1 with stack := rt1.stack.filter (· ≠ p), units := aput rt1.units p u2 } := by
              rintro s (h | h)
              · exact h1 s (.inl (List.mem_filter.1 h).1)
              · obtain ⟨x, hx, rfl⟩ := List.mem_map.1 h
                rcases aput_mem hx with hx | ⟨rfl, -⟩
                · exact h1 _ (.inr (List.mem_map.2 ⟨x, hx, rfl⟩))
                · exact ⟨f, hf⟩
            cases o2 <;> (simp only [Option.some.injEq, Prod.mk.injEq] at h; rw [← h.1]; exact h2)

/-- A file that cannot be parsed is refused with one error, whatever has happened before. -/
theorem compile_unusable {n : Nat} {p : Str} {rt rt' : RT} {o : Out UnitD} (h : compile fs n p rt = some (rt', o)) (hs : Seen fs rt) :
    (fs p = .missing → o = .err [.fileNotFound p]) ∧ (fs p = .unreadable → o = .err [.fileRead p]) ∧
    (fs p = .garbage → o = .err [.syntaxError]) := by
  cases n with
  | zero => simp [compile] at h
  | succ n =>
    refine ⟨?_, ?_, ?_⟩ <;> intro hf
    · simp only [compile, hf, Option.some.injEq, Prod.mk.injEq] at h
      exact h.2.symm
    · simp only [compile, hf, Option.some.injEq, Prod.mk.injEq] at h
      exact h.2.symm
    · have hst : p ∉ rt.stack := fun hp => by
        obtain ⟨f, h⟩ := hs p (.inl hp)
        rw [hf] at h; cases h
      have hun : aget rt.units p = none := aget_none_iff.2 fun hp => by
        obtain ⟨f, h⟩ := hs p (.inr hp)
        rw [hf] at h; cases h
      simp only [compile, hf, if_neg hst, hun, Option.some.injEq, Prod.mk.injEq] at h
      exact h.2.symm

/-- The message about an import that cannot be read or parsed -/
def importMessage (fs : FS) (q : Str) : CErr :=
  match fs q with
  | .missing => .located (.fileNotFound q)
  | .unreadable => .importing q [.fileRead q]
  | _ => .importing q [.syntaxError]

theorem importLoop_reports {n : Nat} {ps : List Str} {rt rt' : RT} {u u' : UnitD} {errs errs' : List CErr}
    (h : importLoop (compile fs n) ps rt u errs = some (rt', .ok (u', errs'))) (hs : Seen fs rt) :
    (∀ e ∈ errs, e ∈ errs') ∧ ∀ q ∈ ps, (∀ f, fs q ≠ .parsed f) → importMessage fs q ∈ errs' := by
  induction ps generalizing rt u errs with
  | nil =>
    simp only [importLoop, Option.some.injEq, Prod.mk.injEq, Out.ok.injEq] at h
    obtain ⟨-, -, rfl⟩ := h
    exact ⟨fun e he => he, fun q hq => by cases hq⟩
  | cons p r ih =>
    unfold importLoop at h
    rcases hr : compile fs n p rt with _ | ⟨rt1, o1⟩
    · rw [hr] at h; simp at h
    rw [hr] at h
    have h1 := compile_seen hr hs
    have hun := compile_unusable hr hs
    have bad : (∀ f, fs p ≠ .parsed f) → ∃ es, o1 = .err es ∧ importMessage fs p ∈ wrapImport p es := by
      intro hnp
      unfold importMessage
      rcases hf : fs p with _ | _ | _ | f
      · exact ⟨_, hun.1 hf, by simp [wrapImport, CErr.plain]⟩
      · exact ⟨_, hun.2.1 hf, by simp [wrapImport, CErr.plain]⟩
      · exact ⟨_, hun.2.2 hf, by simp [wrapImport, CErr.plain]⟩
      · exact absurd hf (hnp f)
    cases o1 with
    | panic => simp at h
    | err es =>
      obtain ⟨k1, k2⟩ := ih h h1
      refine ⟨fun e he => k1 e (List.mem_append_left _ he), fun q hq hnp => ?_⟩
      rcases List.mem_cons.1 hq with rfl | hq
      · obtain ⟨es', he, hm⟩ := bad hnp
        cases he
        exact k1 _ (List.mem_append_right _ hm)
      · exact k2 q hq hnp
    | ok x =>
      have good : ¬ ∀ f, fs p ≠ .parsed f := fun hnp => by
        obtain ⟨es', he, -⟩ := bad hnp
        cases he
      simp only at h
      split at h
      · obtain ⟨k1, k2⟩ := ih h h1
        refine ⟨k1, fun q hq hnp => ?_⟩
        rcases List.mem_cons.1 hq with rfl | hq
        · exact absurd hnp good
        · exact k2 q hq hnp
      · obtain ⟨k1, k2⟩ := ih h h1
        refine ⟨fun e he => k1 e (List.mem_append_left _ he), fun q hq hnp => ?_⟩
        rcases List.mem_cons.1 hq with rfl | hq
        · exact absurd hnp good
        · exact k2 q hq hnp

end Bubbler.Comp

namespace Bubbler

open Comp

/-! ### C71 -/

/-- **C71, every error is true.** Whatever a run reports, at whatever depth, says what is the case: the file is missing,
unreadable or not parsable, it has no package or two, another file of the run declares the same package, the text itself is
at fault, or the file imports one of which the nested errors are true.  A cycle is one, or the file had been tried before and has
a true error of its own. -/
theorem C71_true (fs : FS) (n : Nat) (entry : Str) (rt : RT) (es : List CErr)
    (h : compile fs n entry RT.new = some (rt, .err es)) : es ≠ [] ∧ ∀ e ∈ es, Claim fs entry entry e :=
  ⟨compile_honest h, (compile_true (fs := fs) (entry := entry) h (by simp) .refl (.inl rfl) (by intro k s h; cases h)).claims es rfl⟩

/-- **C71, the first error.** The first message of a run, followed down to its innermost first message, is exact: if it reports a
cycle then there is one, and if it reports a name then that name is defined in two of the imported files. -/
theorem C71_first (fs : FS) (n : Nat) (entry : Str) (rt : RT) (es : List CErr)
    (h : compile fs n entry RT.new = some (rt, .err es)) : ∃ e l, es = e :: l ∧ FirstClaim fs entry entry e :=
  compile_first h Inv.new (.inl rfl) .refl (by rintro s (h | h) <;> cases h)

/-- **C71, the entry file.** Missing, unreadable and unparsable files are told apart. -/
theorem C71_entry (fs : FS) (n : Nat) (entry : Str) (r : RT × Out UnitD) (h : compile fs n entry RT.new = some r) :
    (fs entry = .missing ↔ r.2 = .err [.fileNotFound entry]) ∧ (fs entry = .unreadable ↔ r.2 = .err [.fileRead entry]) ∧
    (fs entry = .garbage ↔ r.2 = .err [.syntaxError]) := by
  obtain ⟨rt', o⟩ := r
  have k := compile_unusable h (by rintro s (h | h) <;> cases h)
  have c : ∀ e, o = .err [e] → Claim fs entry entry e := by
    rintro e rfl
    exact (C71_true fs n entry rt' [e] h).2 e (by simp)
  refine ⟨⟨k.1, fun h => ?_⟩, ⟨k.2.1, fun h => ?_⟩, ⟨k.2.2, fun h => ?_⟩⟩
  · cases c _ h with
    | missing _ h => exact h
    | text _ _ _ _ h => cases h
  · cases c _ h with
    | unreadable _ h => exact h
    | text _ _ _ _ h => cases h
  · cases c _ h with
    | garbage _ h => exact h
    | text _ _ _ _ h => cases h

/-- **C71, imports.** If the head of a file is right (import literals, package, options), every file it imports that is missing,
unreadable or not parsable is reported, not only the first. -/
theorem C71_imports (fs : FS) (n : Nat) (entry : Str) (f : FileA) (u0 : UnitD) (rt : RT) (o : Out UnitD) (ho : o ≠ .panic)
    (hf : fs entry = .parsed f) (hl : none ∉ f.imports) (hv : visitInfo f (UnitD.new entry) = (.ok (), u0))
    (h : compile fs n entry RT.new = some (rt, o)) (q : Str) (hi : Imports fs entry q) (hq : ∀ g, fs q ≠ .parsed g) :
    ∃ es, o = .err es ∧ importMessage fs q ∈ es := by
  cases n with
  | zero => simp [compile] at h
  | succ n =>
    have hany : f.imports.any (·.isNone) = false := by
      rw [List.any_eq_false]
      rintro x hx hnone
      cases x with
      | none => exact hl hx
      | some y => cases hnone
    obtain ⟨f', hf', hq'⟩ := hi
    rw [hf] at hf'
    cases hf'
    have hin : q ∈ f.imports.filterMap id := List.mem_filterMap.2 ⟨some q, hq', rfl⟩
    simp only [compile, hf, RT.new, List.not_mem_nil, if_false] at h
    simp only [show aget ([] : List (Str × UnitD)) entry = none from rfl] at h
    unfold compileParsed at h
    rw [hany, hv] at h
    simp only [Bool.false_eq_true, if_false, show aget ([] : List (Str × Str)) u0.pkg = none from rfl, Option.isSome_none] at h
    split at h
    · simp at h
    · simp only [Option.some.injEq, Prod.mk.injEq] at h
      exact absurd h.2.symm ho
    · rename_i hloop
      exact (importLoop_not_err hloop).elim
    · rename_i rt1 u1 errs hloop
      have hm := (importLoop_reports hloop (by
        rintro s (h | h)
        · have h : s ∈ [entry] := h
          rw [List.mem_singleton.1 h]; exact ⟨f, hf⟩
        · cases h)).2 q hin hq
      have hne : errs ≠ [] := fun e => by rw [e] at hm; cases hm
      rw [if_pos hne] at h
      simp only [Option.some.injEq, Prod.mk.injEq] at h
      exact ⟨errs, h.2.symm, hm⟩

open Front in
/-- **C71, texts.** The same for a directory of texts: a text that is no file of the grammar is a syntax error and nothing else
is. -/
theorem C71_text (resolve : Front.Str → Front.Str → Option Front.Str) (d : Front.Str → Src) (n : Nat) (entry : Front.Str)
    (r : RT × Out UnitD) (h : compile (srcFS resolve d) n entry RT.new = some r) :
    (d entry = .missing ↔ r.2 = .err [.fileNotFound entry]) ∧ (d entry = .unreadable ↔ r.2 = .err [.fileRead entry]) ∧
    ((∃ s, d entry = .text s ∧ ¬ ∃ f ts, lex s = some ts ∧ WFfile f ∧ protoToks f = ts.map mkTok) ↔ r.2 = .err [.syntaxError]) := by
  obtain ⟨h1, h2, h3⟩ := C71_entry (srcFS resolve d) n entry r h
  rw [← h1, ← h2, ← h3]
  unfold srcFS Src.file
  cases hd : d entry with
  | missing => simp
  | unreadable => simp
  | text s =>
    dsimp only
    cases hr : Front.read s with
    | none =>
      refine ⟨by simp, by simp, fun _ => rfl, fun _ => ⟨s, rfl, ?_⟩⟩
      rintro ⟨f, ts, hl, hw, ht⟩
      have := (C61_exact s f).2 ⟨ts, hl, hw, ht⟩
      rw [hr] at this
      cases this
    | some f =>
      refine ⟨by simp, by simp, ⟨?_, by simp⟩⟩
      rintro ⟨s', hs', hn⟩
      cases hs'
      obtain ⟨ts, hl, hw, ht⟩ := (C61_exact s f).1 hr
      exact absurd ⟨f, ts, hl, hw, ht⟩ hn

/-! ### Samples -/

/-- The run of C29_false_cycle_counterexample: the first message is the missing file, the second the cycle that is none. -/
example : ∃ rt es, compile failFS 5 ['a'] RT.new = some (rt, .err es) ∧ 2 ≤ es.length := by
  have h := C29_false_cycle_counterexample.1
  unfold runErrs at h
  split at h
  · rename_i rt es hc
    exact ⟨rt, es, hc, by rw [h]; decide⟩
  · cases h

/-- `d` has a right head and imports the missing file `e`. -/
example : ∃ f u0 rt es, failFS ['d'] = .parsed f ∧ none ∉ f.imports ∧ visitInfo f (UnitD.new ['d']) = (.ok (), u0) ∧
    compile failFS 5 ['d'] RT.new = some (rt, .err es) ∧ Imports failFS ['d'] ['e'] ∧ ∀ g, failFS ['e'] ≠ .parsed g :=
  ⟨⟨[some ['e']], [['m', 'd']], [], [leafTop]⟩, _, _, _, rfl, by simp, rfl, rfl, ⟨_, rfl, by simp⟩, by simp [failFS]⟩

/-- A text without tokens -/
example : ∃ r, compile (Front.srcFS (fun _ _ => none) fun _ => .text "package a; §".toList) 1 ['a'] RT.new = some r ∧
    ¬ ∃ ts, Front.lex "package a; §".toList = some ts :=
  ⟨_, rfl, by rintro ⟨ts, h⟩; rw [show Front.lex "package a; §".toList = none by decide +kernel] at h; cases h⟩

end Bubbler
