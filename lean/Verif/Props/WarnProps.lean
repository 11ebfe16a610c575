import Verif.Compiler.WarnMain
import Verif.Props.RuntimeProps
import Verif.Props.NameProps

/-
C74: the warnings of a run are exactly those its files deserve.

Specification: Verif/Compiler/WarnSpec.lean (`fileW`: the warnings of a file in reading order; `WTree.Holds`, `about`) and
RuntimeSpec.lean (`Imports`, `Reach`).  `compileW` is `Compile` with all its three results.
-/
namespace Bubbler
open Comp

/-! ### A sample project with warnings -/

/-- `package ma; option nope = 1; import "b"; import "c"; struct XYZ { u8 a_Field; }` where `b` and `c` import `d`, and `d`
is `package md; enum color[1] …` in unusual style. -/
def warnFS : FS := fun p =>
  if p = ['a'] then .parsed ⟨[some ['b'], some ['c']], [['m', 'a']], [⟨['n', 'o', 'p', 'e'], .int false ['1']⟩],
    [.struct (.mk 4 0 ['X', 'Y', 'Z'] none (.cons (.normal (.elem (.basic .u8)) ['a', 'F'] none
      [⟨['z'], .bool true⟩] (some [⟨false, some ['g', 'O'], .u8, true⟩])) .nil))]⟩
  else if p = ['b'] then .parsed ⟨[some ['d']], [['m', 'b']], [], []⟩
  else if p = ['c'] then .parsed ⟨[some ['d']], [['m', 'c']], [⟨['q'], .bool true⟩], []⟩
  else if p = ['d'] then .parsed ⟨[], [['m', 'd']], [],
    [.enum ⟨3, 0, ['C', 'O', 'L'], ⟨some ['1'], none⟩, [.value 3 5 ['R', 'e', 'd'] none]⟩]⟩
  else .missing

deriving instance DecidableEq for Warn

/-- A printed report as text-like data, for the concrete cases -/
def report : Option (RT × Out UnitD × List WTree) → Option (Bool × List (Str × Warn))
  | some (_, .ok _, ws) => some (true, linesL ['a'] ws)
  | some (_, .err _, ws) => some (false, linesL ['a'] ws)
  | _ => none

theorem warn_run : report (compileW warnFS 5 ['a'] RT.new) = some (true,
    [(['a'], .unknownOption ['n', 'o', 'p', 'e']), (['d'], .nameStyle ['C', 'O', 'L'] ['C', 'o', 'l']),
     (['d'], .nameStyle ['R', 'e', 'd'] ['R', 'E', 'D']), (['c'], .unknownOption ['q']),
     (['a'], .nameStyle ['X', 'Y', 'Z'] ['X', 'y', 'z']), (['a'], .nameStyle ['a', 'F'] ['a', '_', 'f']),
     (['a'], .unknownOption ['z']), (['a'], .nameStyle ['g', 'O'] ['g', '_', 'o'])]) := by decide +kernel

theorem warn_ok : ∃ rt u ws, compileW warnFS 5 ['a'] RT.new = some (rt, .ok u, ws) := by
  have h := warn_run
  rcases e : compileW warnFS 5 ['a'] RT.new with _ | ⟨rt, o, ws⟩
  · rw [e] at h; cases h
  · cases o with
    | ok u => exact ⟨rt, u, ws, rfl⟩
    | err es => rw [e] at h; simp [report] at h
    | panic => rw [e] at h; cases h

/-! ### C74 -/

/-- The run the warnings belong to is the run of C29-C33: same state, same result. -/
theorem C74_same_run (fs : FS) (n : Nat) (p : Str) (rt : RT) :
    (compileW fs n p rt).map (fun x => (x.1, x.2.1)) = compile fs n p rt := compileW_result n p rt

/-- **C74.** In every run, accepted or not, every printed warning is true: it is one the file it is printed about
deserves, and it is printed under a chain of files each of which imports the next. -/
theorem C74_true (fs : FS) (n : Nat) (entry : Str) (rt : RT) (o : Out UnitD) (ws : List WTree)
    (h : compileW fs n entry RT.new = some (rt, o, ws)) : ∀ t ∈ ws, t.Holds fs entry := compileW_true h

/-- **C74.** In an accepted run every file that belongs to the project gets exactly the warnings it deserves, each once,
in reading order, however many files import it; nothing is printed about other files. -/
theorem C74_once (fs : FS) (n : Nat) (entry : Str) (rt : RT) (u : UnitD) (ws : List WTree)
    (h : compileW fs n entry RT.new = some (rt, .ok u, ws)) :
    (∀ q f, Reach fs entry q → fs q = .parsed f → about q entry ws = fileW f) ∧
    ∀ q, ¬ Reach fs entry q → about q entry ws = [] := by
  obtain ⟨d, ⟨new, hn, hs⟩, -⟩ := compileW_said h Inv.new
  have hkeys : ∀ q, q ∈ new.map (·.1) ↔ Reach fs entry q := by
    intro q
    have hn : rt.units = new := hn.trans (List.nil_append new)
    rw [← hn]
    constructor
    · intro hq
      obtain ⟨new', hn', hr⟩ := d.units
      rw [hn'] at hq
      simp only [RT.new, List.nil_append] at hq
      obtain ⟨e, he, rfl⟩ := List.mem_map.1 hq
      exact hr e he
    · exact reach_units d.inv.topo d.mem
  constructor
  · intro q f hr hf
    rw [hs, if_pos ((hkeys q).2 hr)]
    unfold deserved
    rw [hf]
  · intro q hr
    rw [hs, if_neg fun hm => hr ((hkeys q).1 hm)]

/-- **C74.** The order in an accepted run: the warnings about the options, then one block for each import that has
something to report (in the order of the import statements), then the warnings about the definitions. -/
theorem C74_order (fs : FS) (n : Nat) (entry : Str) (rt : RT) (u : UnitD) (ws : List WTree)
    (h : compileW fs n entry RT.new = some (rt, .ok u, ws)) :
    ∃ (f : FileA) (kids : List (Str × List WTree)), fs entry = .parsed f ∧
      ws = (headerW f).map .own ++ kids.map (fun k => .importing k.1 k.2) ++ (topsW f).map .own ∧
      ((kids.map (·.1)).map some).Sublist f.imports := by
  obtain ⟨-, -, hr⟩ := compileW_said h Inv.new
  obtain ⟨f, hf, ⟨kids, h1, h2⟩⟩ := hr (by simp [RT.new])
  exact ⟨f, kids, hf, h1, h2⟩

theorem linesL_nil {fs : FS} {t : WTree} {p : Str} (h : t.Holds fs p) : t.lines p ≠ [] := by
  induction h with
  | own _ _ => simp [WTree.lines]
  | @importing p q ws _ hne _ ih =>
    rw [WTree.lines]
    cases ws with
    | nil => exact absurd rfl hne
    | cons t r =>
      rw [linesL]
      intro h
      exact ih t (by simp) (List.append_eq_nil_iff.1 h).1

/-- **C74.** An accepted run is silent exactly if no file of the project deserves a warning. -/
theorem C74_silent (fs : FS) (n : Nat) (entry : Str) (rt : RT) (u : UnitD) (ws : List WTree)
    (h : compileW fs n entry RT.new = some (rt, .ok u, ws)) :
    ws = [] ↔ ∀ q f, Reach fs entry q → fs q = .parsed f → fileW f = [] := by
  obtain ⟨h1, h2⟩ := C74_once fs n entry rt u ws h
  constructor
  · rintro rfl q f hr hf
    rw [← h1 q f hr hf]; rfl
  · intro hq
    have hall : ∀ q, about q entry ws = [] := by
      intro q
      by_cases hr : Reach fs entry q
      · obtain ⟨d, -, -⟩ := compileW_said h Inv.new
        obtain ⟨o, ho⟩ := d.compiled.reach hr
        obtain ⟨q', f, -, -, -, -, hf, -⟩ := ho
        rw [h1 q f hr hf, hq q f hr hf]
      · exact h2 q hr
    cases ws with
    | nil => rfl
    | cons t r =>
      exfalso
      have ht := linesL_nil (C74_true fs n entry rt _ _ h t (by simp))
      obtain ⟨⟨q, w⟩, l, hl⟩ := List.exists_cons_of_ne_nil ht
      have := hall q
      unfold about at this
      rw [linesL, hl] at this
      simp at this

/-- **C74.** The advice of a style warning can be followed: a name of the recommended form gets no warning. -/
theorem C74_advice (n r : Str) :
    (.nameStyle n r ∈ styleW Name.toPascal n → styleW Name.toPascal r = []) ∧
    (.nameStyle n r ∈ styleW Name.toSnake n → styleW Name.toSnake r = []) ∧
    (.nameStyle n r ∈ styleW Name.toAllCap n → styleW Name.toAllCap r = []) := by
  obtain ⟨h1, h2, h3⟩ := C35_recommendation_stable n
  have key : ∀ conv : Str → Str, (let r := conv (conv n); conv (conv r) = r) →
      .nameStyle n r ∈ styleW conv n → styleW conv r = [] := by
    intro conv hc hm
    unfold styleW at hm
    split at hm
    · cases hm
    · simp only [List.mem_singleton, Warn.nameStyle.injEq] at hm
      rw [hm.2]
      exact if_pos hc
  exact ⟨key _ h1, key _ h2, key _ h3⟩

/-- C74 needs "accepted" for "once": a file whose options are refused is read again for every file that imports it, and
its warnings are printed again (with its errors). -/
def twiceFS : FS := fun p =>
  if p = ['a'] then .parsed ⟨[some ['b'], some ['c']], [['m', 'a']], [], []⟩
  else if p = ['b'] then .parsed ⟨[some ['d']], [['m', 'b']], [], []⟩
  else if p = ['c'] then .parsed ⟨[some ['d']], [['m', 'c']], [], []⟩
  else if p = ['d'] then .parsed ⟨[], [['m', 'd']], [⟨['q'], .bool true⟩, ⟨['q'], .bool true⟩], []⟩
  else .missing

theorem C74_repeat_counterexample : report (compileW twiceFS 5 ['a'] RT.new) = some (false,
    [(['d'], .unknownOption ['q']), (['d'], .unknownOption ['q']), (['d'], .unknownOption ['q']),
     (['d'], .unknownOption ['q'])]) := by decide +kernel

/-! ### Concrete cases -/

example : ∃ rt u ws, compileW warnFS 5 ['a'] RT.new = some (rt, .ok u, ws) ∧ ws ≠ [] ∧
    about ['d'] ['a'] ws = [.nameStyle ['C', 'O', 'L'] ['C', 'o', 'l'], .nameStyle ['R', 'e', 'd'] ['R', 'E', 'D']] := by
  obtain ⟨rt, u, ws, h⟩ := warn_ok
  have hr : Reach warnFS ['a'] ['d'] :=
    .step (.step .refl ⟨_, rfl, .head _⟩) ⟨⟨[some ['d']], [['m', 'b']], [], []⟩, by rfl, .head _⟩
  have hf : warnFS ['d'] = .parsed ⟨[], [['m', 'd']], [],
    [.enum ⟨3, 0, ['C', 'O', 'L'], ⟨some ['1'], none⟩, [.value 3 5 ['R', 'e', 'd'] none]⟩]⟩ := by rfl
  have h1 := (C74_once warnFS 5 ['a'] rt u ws h).1 ['d'] _ hr hf
  refine ⟨rt, u, ws, h, ?_, ?_⟩
  · rintro rfl
    have := (C74_silent warnFS 5 ['a'] rt u [] h).1 rfl ['d'] _ hr hf
    revert this
    decide +kernel
  · rw [h1]
    decide +kernel

/-- A run without warnings -/
example : report (compileW sampleFS 5 ['a'] RT.new) = some (true, []) := by decide +kernel

/-- A style warning and its advice -/
example : styleW Name.toSnake ['a', 'F'] = [.nameStyle ['a', 'F'] ['a', '_', 'f']] ∧ styleW Name.toSnake ['a', '_', 'f'] = [] := by
  decide +kernel

end Bubbler
