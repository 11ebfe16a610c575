import Verif.Util.Misc
import Verif.Props.OMapProps
import Verif.Props.CodecA

set_option linter.unusedSimpArgs false
/-
C39 (joining errors), C40 (targets), C41 (options).
-/
namespace Bubbler

/-! ### C39 -/

mutual
/-- The single errors in an error, in order. -/
def Err.leaves {α : Type} : Err α → List α
  | .one a => [a]
  | .join es => leavesList es
def leavesList {α : Type} : List (Err α) → List α
  | [] => []
  | e :: es => e.leaves ++ leavesList es
end

/-- The single errors in a possibly nil error. -/
def leavesOpt {α : Type} : Option (Err α) → List α
  | none => []
  | some e => e.leaves

theorem leavesList_append {α : Type} : ∀ (a b : List (Err α)), leavesList (a ++ b) = leavesList a ++ leavesList b
  | [], b => by simp [leavesList]
  | e :: es, b => by simp [leavesList, leavesList_append es b]

theorem leaves_fold {α : Type} (errs : List (Option (Err α))) (acc : List (Err α)) :
    leavesList (errs.foldl joinStep acc) = leavesList acc ++ errs.flatMap leavesOpt := by
  induction errs generalizing acc with
  | nil => simp
  | cons e es ih =>
    rw [List.foldl_cons, ih, List.flatMap_cons]
    cases e with
    | none => simp [joinStep, leavesOpt]
    | some e =>
      cases e with
      | one a => simp [joinStep, leavesOpt, leavesList_append, leavesList, Err.leaves]
      | join l => simp [joinStep, leavesOpt, leavesList_append, Err.leaves]

/-- **C39.** Joining keeps every single error, once and in order. -/
theorem C39_keeps_all {α : Type} (errs : List (Option (Err α))) :
    leavesOpt (joinErrors errs) = errs.flatMap leavesOpt := by
  have := leaves_fold errs []
  unfold joinErrors
  cases h : errs.foldl joinStep [] with
  | nil => rw [h] at this; simpa [leavesOpt, leavesList] using this
  | cons e es => rw [h] at this; simpa [leavesOpt, leavesList, Err.leaves] using this

/-- An error as the compiler makes them: a join is never empty. -/
def Err.wf {α : Type} : Err α → Prop
  | .one _ => True
  | .join es => es ≠ []

theorem fold_nil {α : Type} (errs : List (Option (Err α))) (acc : List (Err α)) (hw : ∀ e, some e ∈ errs → e.wf) :
    errs.foldl joinStep acc = [] ↔ acc = [] ∧ ∀ e ∈ errs, e = none := by
  induction errs generalizing acc with
  | nil => simp
  | cons e es ih =>
    rw [List.foldl_cons, ih _ (fun x hx => hw x (by simp [hx]))]
    cases e with
    | none => simp [joinStep]
    | some e =>
      cases e with
      | one a => simp [joinStep]
      | join l =>
        have : l ≠ [] := hw (.join l) (by simp)
        simp [joinStep, this]

/-- **C39.** The result is nil exactly when all arguments are nil. -/
theorem C39_nil {α : Type} (errs : List (Option (Err α))) (hw : ∀ e, some e ∈ errs → e.wf) :
    joinErrors errs = none ↔ ∀ e ∈ errs, e = none := by
  have := fold_nil errs [] hw
  unfold joinErrors
  cases h : errs.foldl joinStep [] with
  | nil => rw [h] at this; simpa using this
  | cons e es =>
    rw [h] at this
    simp only [reduceCtorEq, false_iff, true_and] at this ⊢
    exact this

/-- **C39.** The result is well formed again. -/
theorem C39_wf {α : Type} (errs : List (Option (Err α))) (e : Err α) (h : joinErrors errs = some e) : e.wf := by
  unfold joinErrors at h
  cases hf : errs.foldl joinStep [] with
  | nil => rw [hf] at h; cases h
  | cons x xs => rw [hf] at h; cases h; simp [Err.wf]

theorem foldl_joinStep_acc {α : Type} (errs : List (Option (Err α))) (acc : List (Err α)) :
    errs.foldl joinStep acc = acc ++ errs.foldl joinStep [] := by
  induction errs generalizing acc with
  | nil => simp
  | cons e es ih =>
    rw [List.foldl_cons, List.foldl_cons, ih, ih (joinStep [] e)]
    cases e with
    | none => simp [joinStep]
    | some e => cases e <;> simp [joinStep]

/-- **C39.** Joining is associative: joining partial results is joining everything at once, so the order in
which errors are collected through imports does not matter for the final list. -/
theorem C39_assoc {α : Type} (xs ys : List (Option (Err α))) :
    joinErrors [joinErrors xs, joinErrors ys] = joinErrors (xs ++ ys) := by
  have e : (xs ++ ys).foldl joinStep [] = xs.foldl joinStep [] ++ ys.foldl joinStep [] := by
    rw [List.foldl_append, foldl_joinStep_acc]
  have key : ∀ zs : List (Option (Err α)), ∀ acc, joinStep acc (joinErrors zs) = acc ++ zs.foldl joinStep [] := by
    intro zs acc
    unfold joinErrors
    cases h : zs.foldl joinStep [] <;> simp [joinStep]
  have : [joinErrors xs, joinErrors ys].foldl joinStep [] = (xs ++ ys).foldl joinStep [] := by
    rw [e]; simp only [List.foldl_cons, List.foldl_nil, key, List.nil_append]
  unfold joinErrors at this ⊢
  rw [this]

theorem C39_assoc3 {α : Type} (a b c : Option (Err α)) :
    joinErrors [joinErrors [a, b], c] = joinErrors [a, joinErrors [b, c]] := by
  have key : ∀ (x : Option (Err α)) (zs), joinErrors [x, joinErrors zs] = joinErrors (x :: zs) := by
    intro x zs
    have : [x, joinErrors zs].foldl joinStep [] = (x :: zs).foldl joinStep [] := by
      simp only [List.foldl_cons, List.foldl_nil]
      rw [foldl_joinStep_acc zs]
      unfold joinErrors
      cases h : zs.foldl joinStep [] <;> simp [joinStep]
    unfold joinErrors at this ⊢
    rw [this]
  rw [key a [b, c]]
  have e2 : [joinErrors [a, b], c].foldl joinStep [] = [a, b, c].foldl joinStep [] := by
    simp only [List.foldl_cons, List.foldl_nil]
    unfold joinErrors
    simp only [List.foldl_cons, List.foldl_nil]
    cases h : joinStep (joinStep [] a) b <;> simp [joinStep]
  unfold joinErrors at e2 ⊢
  rw [e2]

example : joinErrors [none, some (.one 1), some (.join [.one 2, .one 3])] = some (Err.join [.one 1, .one 2, .one 3]) := rfl

/-! ### C40 -/

/-- The targets and aliases that the documentation lists (README, `bubbler` without arguments). -/
def documentedTargets : List (String × Gen) :=
  [("c", .c), ("cpp", .cpp), ("csharp", .csharp), ("cs", .csharp), ("commonjs", .commonjs), ("cjs", .commonjs),
   ("esmodule", .esm), ("javascript", .esm), ("js", .esm), ("mjs", .esm), ("esm", .esm), ("go", .go),
   ("java", .java), ("kotlin", .kotlin), ("kt", .kotlin), ("python", .python), ("py", .python)]

theorem targetMap_inv : OM.Inv targetMap ∧ targetMap.dflt = "" ∧ targetMap.entries = documentedTargets := by
  have h := OM.run_refines (targetPuts.map fun e => OM.Op.put e.1 e.2) (OM.inv_new (V := Gen) "") (by
    intro o ho
    obtain ⟨e, he, rfl⟩ := List.mem_map.mp ho
    have : ∀ e ∈ targetPuts, e.1 ≠ "" := by decide
    exact this e he)
  refine ⟨h.1, h.2.1, ?_⟩
  have := congrArg Prod.fst h.2.2
  exact this.trans (by decide +kernel)

/-- **C40.** For every name: a documented name or alias gives its generator; the empty name gives the
"not specified" error; any other name gives the "not supported" error.  No name makes it panic. -/
theorem C40_lookup (t : String) :
    (t = "" → getGenerator t = .notSpecified) ∧
    (∀ g, (t, g) ∈ documentedTargets → getGenerator t = .found g) ∧
    (t ≠ "" → t ∉ documentedTargets.map Prod.fst → getGenerator t = .notSupported t) := by
  obtain ⟨hinv, hd, he⟩ := targetMap_inv
  have hget : t ≠ "" → OM.get targetMap t = some ((documentedTargets.find? (fun e => decide (e.1 = t))).map Prod.snd) := by
    intro ht
    have := (OM.step_refines hinv (.get t) (by rw [hd]; exact ht)).2.2
    rw [he] at this
    simp only [OM.step, OM.specStep] at this
    cases hg : OM.get targetMap t with
    | none => rw [hg] at this; simp at this
    | some r => rw [hg] at this; simp only [Prod.mk.injEq, OM.Out.val.injEq] at this; rw [this.2]
  refine ⟨fun h => by simp [getGenerator, h], fun g hg => ?_, fun ht hn => ?_⟩
  · have hne : t ≠ "" := by
      have : ∀ e ∈ documentedTargets, e.1 ≠ "" := by decide
      exact this _ hg
    unfold getGenerator
    rw [if_neg hne, hget hne]
    have : ∀ e ∈ documentedTargets, documentedTargets.find? (fun x => decide (x.1 = e.1)) = some e := by decide +kernel
    rw [this _ hg]; rfl
  · unfold getGenerator
    rw [if_neg ht, hget ht]
    have : documentedTargets.find? (fun x => decide (x.1 = t)) = none := by
      rw [List.find?_eq_none]
      intro x hx
      simp only [decide_eq_true_eq]
      intro e
      exact hn (by rw [← e]; exact List.mem_map_of_mem hx)
    rw [this]; rfl

/-- **C40.** The list printed by the help text names each generator once, with all its aliases. -/
theorem C40_list : listGenerators =
    [("c", []), ("cpp", []), ("csharp", ["cs"]), ("commonjs", ["cjs"]), ("esmodule", ["javascript", "js", "mjs", "esm"]),
     ("go", []), ("java", []), ("kotlin", ["kt"]), ("python", ["py"])] := by
  unfold listGenerators
  rw [targetMap_inv.2.2]
  decide +kernel

theorem C40_listed_resolve : ∀ e ∈ listGenerators, ∃ g, getGenerator e.1 = .found g ∧ ∀ a ∈ e.2, getGenerator a = .found g := by
  rw [C40_list]
  have h := fun t g hg => (C40_lookup t).2.1 g hg
  intro e he
  simp only [List.mem_cons, List.not_mem_nil, or_false] at he
  rcases he with rfl | rfl | rfl | rfl | rfl | rfl | rfl | rfl | rfl
  · exact ⟨.c, h _ _ (by decide), by simp⟩
  · exact ⟨.cpp, h _ _ (by decide), by simp⟩
  · exact ⟨.csharp, h _ _ (by decide), by intro a ha; simp at ha; subst ha; exact h _ _ (by decide)⟩
  · exact ⟨.commonjs, h _ _ (by decide), by intro a ha; simp at ha; subst ha; exact h _ _ (by decide)⟩
  · refine ⟨.esm, h _ _ (by decide), ?_⟩
    intro a ha
    simp only [List.mem_cons, List.not_mem_nil, or_false] at ha
    rcases ha with rfl | rfl | rfl | rfl <;> exact h _ _ (by decide)
  · exact ⟨.go, h _ _ (by decide), by simp⟩
  · exact ⟨.java, h _ _ (by decide), by simp⟩
  · exact ⟨.kotlin, h _ _ (by decide), by intro a ha; simp at ha; subst ha; exact h _ _ (by decide)⟩
  · exact ⟨.python, h _ _ (by decide), by intro a ha; simp at ha; subst ha; exact h _ _ (by decide)⟩

/-! ### C41 -/

theorem signExtMethod_spec (s : Text.Str) :
    (∃ st, signExtMethod s = some st ∧ lower s ∈ ["".toList, "default".toList, "shift".toList, "arith".toList] ∧
      (lower s = "shift".toList → st = fun o => { o with signExt := .shift }) ∧
      (lower s = "arith".toList → st = fun o => { o with signExt := .arith }) ∧
      (lower s ≠ "shift".toList → lower s ≠ "arith".toList → st = fun o => { o with signExt := .default })) ∨
    (signExtMethod s = none ∧ lower s ∉ ["".toList, "default".toList, "shift".toList, "arith".toList]) := by
  have d1 : "shift".toList ≠ "".toList := by decide
  have d2 : "shift".toList ≠ "default".toList := by decide
  have d3 : "arith".toList ≠ "".toList := by decide
  have d4 : "arith".toList ≠ "default".toList := by decide
  have d5 : "arith".toList ≠ "shift".toList := by decide
  unfold signExtMethod
  generalize lower s = t
  revert d1 d2 d3 d4 d5
  generalize "shift".toList = S
  generalize "arith".toList = A
  generalize "default".toList = D
  generalize "".toList = E
  intro d1 d2 d3 d4 d5
  simp only
  by_cases h0 : t = E ∨ t = D
  · left
    have n1 : t ≠ S := h0.elim (fun h => h ▸ d1.symm) (fun h => h ▸ d2.symm)
    have n2 : t ≠ A := h0.elim (fun h => h ▸ d3.symm) (fun h => h ▸ d4.symm)
    rw [if_pos h0]
    exact ⟨_, rfl, by rcases h0 with h | h <;> simp [h], fun h => absurd h n1, fun h => absurd h n2, fun _ _ => rfl⟩
  · rw [if_neg h0]
    by_cases h1 : t = S
    · left
      rw [if_pos h1]
      exact ⟨_, rfl, by simp [h1], fun _ => rfl, fun h => absurd (h.symm.trans h1) d5, fun h => absurd h1 h⟩
    · rw [if_neg h1]
      by_cases h2 : t = A
      · left
        rw [if_pos h2]
        exact ⟨_, rfl, by simp [h2], fun h => absurd h h1, fun _ => rfl, fun _ h => absurd h2 h⟩
      · right
        rw [if_neg h2]
        refine ⟨rfl, ?_⟩
        simp only [List.mem_cons, List.not_mem_nil, or_false, not_or]
        exact ⟨fun h => h0 (.inl h), fun h => h0 (.inr h), h1, h2⟩

/-- **C41.** Which option values are refused: an unroll value below -1 or an unknown sign extension method
(any letter case is accepted); nothing else. -/
theorem C41_refused (f : Flags) :
    mainOptions f = none ↔
      f.unroll < -1 ∨ lower f.signext ∉ ["".toList, "default".toList, "shift".toList, "arith".toList] := by
  unfold mainOptions
  rcases signExtMethod_spec f.signext with ⟨st, e, hm, _⟩ | ⟨e, hm⟩
  · rw [e, Option.bind_some]
    unfold loopUnrollOpt
    by_cases hu : f.unroll < -1
    · rw [if_pos hu]; exact ⟨fun _ => .inl hu, fun _ => rfl⟩
    · rw [if_neg hu, Option.bind_some]
      exact ⟨fun h => absurd h (by simp), fun h => by rcases h with h | h; exact absurd h hu; exact absurd hm h⟩
  · rw [e]; exact ⟨fun _ => .inr hm, fun _ => rfl⟩

/-- **C41.** Accepted options are exactly what was asked for. -/
theorem C41_accepted (f : Flags) (o : GenOptions) (h : mainOptions f = some o) :
    o.loopUnroll = f.unroll ∧ -1 ≤ o.loopUnroll ∧
    (lower f.signext = "shift".toList → o.signExt = .shift) ∧
    (lower f.signext = "arith".toList → o.signExt = .arith) ∧
    (lower f.signext ≠ "shift".toList → lower f.signext ≠ "arith".toList → o.signExt = .default) ∧
    o.removePath = Text.parseRmPath f.rmpath ∧ o.relativePath = f.relpath ∧ o.innerClass = f.inner ∧
    o.singleFile = f.single ∧ o.minimalCode = f.minimal ∧ o.decimalNumber = f.decnum ∧ o.memoryCopy = f.memcpy ∧
    o.compatibleMode = f.compat := by
  unfold mainOptions at h
  rcases signExtMethod_spec f.signext with ⟨st, e, hm, s1, s2, s3⟩ | ⟨e, hm⟩
  · rw [e, Option.bind_some] at h
    unfold loopUnrollOpt at h
    by_cases hu : f.unroll < -1
    · rw [if_pos hu] at h; cases h
    · rw [if_neg hu, Option.bind_some] at h
      have h := Option.some.inj h
      have hst : (st = fun o => { o with signExt := .shift }) ∨ (st = fun o => { o with signExt := .arith }) ∨
          (st = fun o => { o with signExt := .default }) := by
        by_cases a : lower f.signext = "shift".toList
        · exact .inl (s1 a)
        · by_cases b : lower f.signext = "arith".toList
          · exact .inr (.inl (s2 b))
          · exact .inr (.inr (s3 a b))
      have hrest : o.loopUnroll = f.unroll ∧ o.removePath = Text.parseRmPath f.rmpath ∧ o.relativePath = f.relpath ∧
          o.innerClass = f.inner ∧ o.singleFile = f.single ∧ o.minimalCode = f.minimal ∧ o.decimalNumber = f.decnum ∧
          o.memoryCopy = f.memcpy ∧ o.compatibleMode = f.compat := by
        rw [← h]
        rcases hst with rfl | rfl | rfl <;> exact ⟨rfl, rfl, rfl, rfl, rfl, rfl, rfl, rfl, rfl⟩
      refine ⟨hrest.1, by rw [hrest.1]; omega, fun a => ?_, fun a => ?_, fun a b => ?_, hrest.2⟩
      · rw [← h, s1 a]; rfl
      · rw [← h, s2 a]; rfl
      · rw [← h, s3 a b]; rfl
  · rw [e] at h; cases h

/-- **C41.** When loops are generated: -1 never (always unrolled), otherwise exactly for arrays longer than
the threshold. -/
theorem C41_loop (f : Flags) (o : GenOptions) (h : mainOptions f = some o) (prev : (w : Nat) → BitVec w) (len : Nat) :
    (o.cfg prev).useLoop len = true ↔ f.unroll ≠ -1 ∧ f.unroll < len := by
  obtain ⟨h1, h2, _⟩ := C41_accepted f o h
  show (decide (0 ≤ o.loopUnroll) && decide ((len : Int) > o.loopUnroll)) = true ↔ _
  rw [Bool.and_eq_true, decide_eq_true_eq, decide_eq_true_eq, h1]
  rw [h1] at h2
  constructor
  · intro h; exact ⟨by omega, h.2⟩
  · intro h; exact ⟨by omega, h.2⟩

example : (mainOptions ⟨"".toList, false, false, false, false, false, false, false, "Arith".toList, -1⟩).isSome = true := by
  decide +kernel
example : mainOptions ⟨"".toList, false, false, false, false, false, false, false, "shift".toList, -2⟩ = none := by
  decide +kernel

end Bubbler
