import Verif.Compiler.RuleMain
import Verif.Props.RuntimeProps
import Verif.Front.Source

/-
C75: a project is accepted exactly if it obeys the rules of the language.

The rules are in Verif/Compiler/Rules.lean: `ProjectOk fs entry D` says that the project of `entry` is correct and that `D p` are the
definitions of its file `p`.
-/
namespace Bubbler
open Comp Gen

/-- **C75.** The compiler accepts a project exactly if it obeys the rules.  `places f` are the positions of the names a file
introduces; in a file that was parsed they are different (`C75_source`). -/
theorem C75_accepted_iff (fs : FS) (files : List Comp.Str) (hfin : ∀ p, fs p ≠ .missing → p ∈ files)
    (hpl : ∀ p f, fs p = .parsed f → (places f).Nodup) (n : Nat) (hn : files.length + 1 ≤ n) (entry : Comp.Str) :
    (∃ rt u, compile fs n entry RT.new = some (rt, .ok u)) ↔ ∃ D, ProjectOk fs entry D := by
  constructor
  · rintro ⟨rt, u, h⟩
    obtain ⟨h1, h2⟩ := (C31_accepted_iff fs files hfin n hn entry u).1 ⟨rt, h⟩
    exact ⟨_, rules_of_compiled hpl h1 h2⟩
  · rintro ⟨D, h⟩
    have hacc := acc_of files (fun p hp => hfin p (by
      obtain ⟨f, hf, -⟩ := h.files p hp
      rw [hf]
      simp)) h.acyclic
    obtain ⟨u, hu, -⟩ := compiled_of h hacc entry .refl .refl
    obtain ⟨rt, hr⟩ := (C31_accepted_iff fs files hfin n hn entry u).2 ⟨hu, h.packages⟩
    exact ⟨rt, u, hr⟩

/-- **C75, the definitions.** What the compiler makes of an accepted project are the definitions the rules assign to its files, in
their order; there is only one such assignment. -/
theorem C75_definitions (fs : FS) (n : Nat) (entry : Comp.Str) (rt : RT) (u : UnitD) (h : compile fs n entry RT.new = some (rt, .ok u))
    (D : Comp.Str → List CTy) (hD : ProjectOk fs entry D) :
    (∀ p, Reach fs entry p → ∃ v, (p, v) ∈ rt.units ∧ v.localTypes.map (·.2.ty) = D p) ∧
    ∀ D', ProjectOk fs entry D' → ∀ p, Reach fs entry p → D' p = D p := by
  have d := compile_sound h Inv.new
  have key : ∀ D, ProjectOk fs entry D → ∀ p, Reach fs entry p → ∃ v, (p, v) ∈ rt.units ∧ v.localTypes.map (·.2.ty) = D p := by
    intro D hD p hp
    obtain ⟨⟨q, v⟩, hv, rfl⟩ := List.mem_map.1 (reach_units d.inv.topo d.mem hp)
    have hc := d.inv.compiled _ _ hv
    obtain ⟨o, ho, hm⟩ := compiled_of hD d.compiled.acc q hp hp
    rw [ho.det hc] at hm
    exact ⟨v, hv, hm.types⟩
  refine ⟨key D hD, fun D' hD' p hp => ?_⟩
  obtain ⟨v, h1, h2⟩ := key D hD p hp
  obtain ⟨v', h3, h4⟩ := key D' hD' p hp
  rw [← h2, ← h4, nodup_unique d.inv.nodup h1 h3]

open Front in
/-- **C75, texts.** A directory of source texts is accepted exactly if the files its texts stand for obey the rules. -/
theorem C75_source (resolve : Front.Str → Front.Str → Option Front.Str) (d : Front.Str → Src) (files : List Front.Str)
    (hfin : ∀ p, d p ≠ .missing → p ∈ files) (n : Nat) (hn : files.length + 1 ≤ n) (entry : Front.Str) :
    (∃ rt u, compile (srcFS resolve d) n entry RT.new = some (rt, .ok u)) ↔ ∃ D, ProjectOk (srcFS resolve d) entry D := by
  refine C75_accepted_iff _ files (fun p hp => hfin p fun h => hp ?_) (srcFS_places resolve d) n hn entry
  unfold srcFS Src.file
  rw [h]

/-! ### Cases -/

/-- An enum `enum Color[1] { RED = 2; GREEN; }` and a struct, in a file `d` … -/
def colorTop : TopA := .enum ⟨1, 0, ['C'], ⟨some ['1'], none⟩,
  [.value 2 0 ['R'] (some (.inl (.int false ['2']))), .value 2 9 ['G'] none]⟩

/-- … used by a file `a`: `struct A { C x[#3]; void[#5]; uint8 = G; Leaf; }` -/
def userTop : TopA := .struct (.mk 1 0 ['A'] (some ⟨some ['3'], none⟩)
  (.cons (.normal (.elem (.ident ['C'])) ['x'] (some ⟨none, some ['3']⟩) [] none)
    (.cons (.void ⟨none, some ['5']⟩ [])
      (.cons (.const .u8 none none (.inr ['G']) [])
        (.cons (.embedded (.elem (.structName ['L', 'e', 'a', 'f'])) []) .nil)))))

def ruleFS : FS := fun p =>
  if p = ['a'] then .parsed ⟨[some ['d']], [['m', 'a']], [], [userTop]⟩
  else if p = ['d'] then .parsed ⟨[], [['m', 'd']], [], [colorTop, leafTop]⟩
  else .missing

/-- The definitions of these files -/
def colorD : EnumD := ⟨['C'], 8, [(['R'], 2), (['G'], 3)]⟩
def leafD : StructD := .mk ['L', 'e', 'a', 'f'] 8 false [.normal ['v'] (.basic .u8) 8 [] []]
def userD : StructD := .mk ['A'] 24 false [.normal ['x'] (.enum colorD) 3 [] [], .void 5, .const [] .u8 8 (.int 3) [],
  .embedded leafD true, .normal ['v'] (.basic .u8) 8 [] []]

def ruleDefs : Comp.Str → List CTy := fun p =>
  if p = ['a'] then [.struct userD] else if p = ['d'] then [.enum colorD, .struct leafD] else []

theorem rule_imports {p q : Comp.Str} (h : Imports ruleFS p q) : p = ['a'] ∧ q = ['d'] := by
  obtain ⟨f, hf, hq⟩ := h
  unfold ruleFS at hf
  split at hf
  · rename_i hp
    cases hf
    simp only [List.mem_cons, Option.some.injEq, List.not_mem_nil, or_false] at hq
    exact ⟨hp, hq⟩
  · split at hf
    · cases hf
      simp at hq
    · cases hf

theorem rule_reach {p : Comp.Str} (h : Reach ruleFS ['a'] p) : p = ['a'] ∨ p = ['d'] := by
  cases h with
  | refl => exact .inl rfl
  | step _ i => exact .inr (rule_imports i).2

theorem rule_below : Below ruleFS ['a'] ['d'] := ⟨['d'], ⟨_, rfl, by simp⟩, .refl⟩

theorem leaf_rule (Γ : Scope) : StructOk Γ (.mk 3 0 ['L', 'e', 'a', 'f'] none
    (.cons (.normal (.elem (.basic .u8)) ['v'] none [] none) .nil)) leafD := by
  have hb : BodyOk Γ (.cons (.normal (.elem (.basic .u8)) ['v'] none [] none) .nil) [.normal ['v'] (.basic .u8) 8 [] []] :=
    .cons (xs := [.normal ['v'] (.basic .u8) 8 [] []]) (ys := [])
      (.normal (.elem .basic) (by decide) (.none .basic) ⟨[], rfl, rfl, by simp, by simp⟩ .none) .nil
  refine .mk (by decide) hb (by simp) (by decide) ?_ (by decide) (.inl rfl) ?_
  · intro i f hf hbw
    cases i with
    | zero => rfl
    | succ i => simp at hf
  · simp only [Bool.false_eq_true, false_iff]
    rintro ⟨f, hf, hv⟩
    rw [List.mem_singleton] at hf
    subst hf
    cases hv with
    | mk _ _ _ _ _ h => cases h

theorem color_rule (Γ : Scope) : EnumOk Γ ⟨1, 0, ['C'], ⟨some ['1'], none⟩,
    [.value 2 0 ['R'] (some (.inl (.int false ['2']))), .value 2 9 ['G'] none]⟩ colorD :=
  .mk (by decide) (by decide +kernel) (.given (by decide) (.lit (by decide)) (by decide) (.next (by decide) (by simp) .nil)) (by simp)

/-- The rules can be applied by hand: the definitions are as expected. -/
theorem rule_project : ProjectOk ruleFS ['a'] ruleDefs := by
  have hC : (scopeOf ruleFS ruleDefs ['a']).type ['C'] (.enum colorD) := ⟨['d'], rule_below, by simp [ruleDefs], rfl⟩
  have hL : (scopeOf ruleFS ruleDefs ['a']).type ['L', 'e', 'a', 'f'] (.struct leafD) := ⟨['d'], rule_below, by simp [ruleDefs], rfl⟩
  have hG : (scopeOf ruleFS ruleDefs ['a']).val ['G'] 3 := ⟨['d'], colorD, rule_below, by simp [ruleDefs], by simp [colorD]⟩
  refine ⟨?_, ?_, ?_, ?_, ?_⟩
  · intro p hp
    rcases rule_reach hp with rfl | rfl
    · refine ⟨_, rfl, ⟨by simp, ⟨_, rfl⟩, [], rfl, by simp, by simp⟩, .cons (.struct ?_) .nil⟩
      have hopt : OptsOk [] [] := ⟨[], rfl, rfl, by simp, by simp⟩
      have hb := BodyOk.cons (Γ := scopeOf ruleFS ruleDefs ['a'])
        (.normal (n := ['x']) (s := some ⟨none, some ['3']⟩) (b := 3) (.elem (.ident hC)) (by decide)
          (.some (by decide +kernel) .enum (by decide) (by decide) (by simp) (by simp)) hopt .none)
        (.cons (.void (s := ⟨none, some ['5']⟩) (b := 5) (by decide +kernel) hopt)
          (.cons (.const (p := .u8) (n := none) (s := none) (by simp) .none (.name hG) (.int (by decide) (by decide)) hopt)
            (.cons (.embedded (.elem (.structName (by decide) hL)) hopt) .nil)))
      refine .mk (by decide) hb (by simp) (by decide) ?_ (by decide) (.inr ⟨?_, by decide +kernel⟩) ?_
      · intro i f hf hbw
        rcases i with _ | _ | _ | _ | _ | i
        · rfl
        · simp at hf; subst hf; cases hbw
        · simp at hf; subst hf; cases hbw
        · simp at hf; subst hf; cases hbw
        · rfl
        · simp [leafD, StructD.fields] at hf
      · rintro ⟨f, hf, hv⟩
        simp only [List.append_nil, List.cons_append, List.nil_append, leafD, StructD.fields, List.mem_cons, List.not_mem_nil, or_false] at hf
        rcases hf with rfl | rfl | rfl | rfl | rfl <;> cases hv <;> rename_i h <;> cases h
      · simp only [Bool.false_eq_true, false_iff]
        rintro ⟨f, hf, hv⟩
        simp only [List.append_nil, List.cons_append, List.nil_append, leafD, StructD.fields, List.mem_cons, List.not_mem_nil, or_false] at hf
        rcases hf with rfl | rfl | rfl | rfl | rfl <;> cases hv <;> rename_i h <;> cases h
    · exact ⟨_, rfl, ⟨by simp, ⟨_, rfl⟩, [], rfl, by simp, by simp⟩, .cons (.enum (color_rule _)) (.cons (.struct (leaf_rule _)) .nil)⟩
  · rintro p - ⟨q, h1, h2⟩
    obtain ⟨rfl, rfl⟩ := rule_imports h1
    cases h2 with
    | step _ i => have := (rule_imports i).2; simp at this
  · intro p q hp hq e
    rcases rule_reach hp with rfl | rfl <;> rcases rule_reach hq with rfl | rfl <;> first | rfl | exact absurd e (by decide)
  · intro p hp
    rcases rule_reach hp with rfl | rfl <;> decide
  · intro p q n hp hq h1 h2
    have hd : ∀ n ∈ introduces ruleFS ['a'], n ∉ introduces ruleFS ['d'] := by decide
    rcases rule_reach hp with rfl | rfl <;> rcases rule_reach hq with rfl | rfl
    · rfl
    · exact absurd h2 (hd n h1)
    · exact absurd h1 (hd n h2)
    · rfl

theorem rule_hyps : (∀ p, ruleFS p ≠ .missing → p ∈ [['a'], ['d']]) ∧ ∀ p f, ruleFS p = .parsed f → (places f).Nodup := by
  constructor
  · intro p h
    unfold ruleFS at h
    split at h
    · simp [*]
    · split at h
      · simp [*]
      · simp at h
  · intro p f hf
    unfold ruleFS at hf
    split at hf
    · cases hf; decide
    · split at hf
      · cases hf; decide
      · cases hf

/-- So the project is accepted … -/
example : ∃ rt u, compile ruleFS 3 ['a'] RT.new = some (rt, .ok u) :=
  (C75_accepted_iff ruleFS [['a'], ['d']] rule_hyps.1 rule_hyps.2 3 (by decide) ['a']).2 ⟨_, rule_project⟩

/-- … and a project that is refused obeys no rules: two definitions of one name in two files. -/
def clashFS : FS := fun p =>
  if p = ['a'] then .parsed ⟨[some ['d']], [['m', 'a']], [], [leafTop]⟩
  else if p = ['d'] then .parsed ⟨[], [['m', 'd']], [], [leafTop]⟩
  else .missing

theorem C75_clash_refused : ¬ ∃ rt u, compile clashFS 3 ['a'] RT.new = some (rt, .ok u) := by
  have hf : ∀ p, clashFS p ≠ .missing → p ∈ [['a'], ['d']] := by
    intro p h
    unfold clashFS at h
    split at h
    · simp [*]
    · split at h
      · simp [*]
      · simp at h
  have hp : ∀ p f, clashFS p = .parsed f → (places f).Nodup := by
    intro p f hf
    unfold clashFS at hf
    split at hf
    · cases hf; decide
    · split at hf
      · cases hf; decide
      · cases hf
  rw [C75_accepted_iff clashFS [['a'], ['d']] hf hp 3 (by decide) ['a']]
  rintro ⟨D, h⟩
  have := h.apart ['a'] ['d'] ['L', 'e', 'a', 'f'] .refl (Reach.refl.step ⟨_, rfl, by simp⟩) (by decide) (by decide)
  simp at this

end Bubbler
