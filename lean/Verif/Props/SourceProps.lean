import Verif.Front.Source
import Verif.Props.FrontProps
import Verif.Props.ScopeProps
import Verif.Props.ImportProps

/-
C64: from source texts to outputs.
-/
namespace Bubbler
open Comp Gen
open Front hiding Str
open Text hiding Str

/-! ### Lines and columns do not get into the outputs -/

section
variable {π : Pos → Pos}

theorem genTypes_move (g : GenCfg) : ∀ (l : List (Str × TypeDef)) (st : GenSt), genTypes g (tmap π l) st = genTypes g l st
  | [], _ => rfl
  | (n, t) :: r, st => by
    have ih := genTypes_move g r
    show genTypes g ((n, t.move π) :: tmap π r) st = _
    unfold genTypes
    show (match genTy g t.ty st with | none => none | some st' => genTypes g (tmap π r) st') = _
    cases genTy g t.ty st with
    | none => rfl
    | some st' => exact ih st'

theorem skipped_move (u : UnitD) : skipped (u.move π) = skipped u := by
  have h1 : (u.move π).localTypes = tmap π u.localTypes := rfl
  have h2 : omitEmpty (u.move π) = omitEmpty u := rfl
  unfold skipped
  rw [h1, h2]
  cases u.localTypes <;> rfl

theorem genUnit_move (g : GenCfg) (hk : ∀ u, g.key (u.move π) = g.key u) (hf : ∀ u, g.files (u.move π) = g.files u)
    (u : UnitD) (keys : List Str) (st : GenSt) : genUnit g (u.move π) keys st = genUnit g u keys st := by
  have h1 : (u.move π).localTypes = tmap π u.localTypes := rfl
  have h2 : (u.move π).path = u.path := rfl
  simp only [genUnit, skipped_move, hk, hf, h1, h2, genTypes_move]

theorem genUnits_move (g : GenCfg) (hk : ∀ u, g.key (u.move π) = g.key u) (hf : ∀ u, g.files (u.move π) = g.files u) :
    ∀ (us : List UnitD) (keys : List Str) (st : GenSt), genUnits g (us.map (·.move π)) keys st = genUnits g us keys st
  | [], _, _ => rfl
  | u :: r, keys, st => by
    have ih := genUnits_move g hk hf r
    rw [List.map_cons]
    unfold genUnits
    rw [genUnit_move g hk hf]
    cases genUnit g u keys st with
    | none => rfl
    | some x => obtain ⟨keys', st', o⟩ := x; simp only [ih]

theorem key_move (t : FileTarget) (u : UnitD) : t.key (u.move π) = t.key u := by cases t <;> rfl
theorem files_move (t : FileTarget) (u : UnitD) : t.files (u.move π) = t.files u := by funext l; cases t <;> rfl

theorem importedUnits_move (us : List UnitD) (u : UnitD) :
    importedUnits (us.map (·.move π)) (u.move π) = (importedUnits us u).map (·.move π) := by
  show (u.localImports.filterMap fun p => (us.map (·.move π)).find? fun v => v.path = p) = _
  unfold importedUnits
  rw [List.map_filterMap]
  congr 1
  funext p
  rw [List.find?_map]
  rfl

theorem refText_move (t : FileTarget) (rel : Bool) (u v : UnitD) : t.refText rel (u.move π) (v.move π) = t.refText rel u v := by
  cases t <;> rfl

theorem refs_move (t : FileTarget) (rel : Bool) (us : List UnitD) (u : UnitD) :
    t.refs rel (us.map (·.move π)) (u.move π) = t.refs rel us u := by
  have h : ∀ f : UnitD → Str, (∀ v, f (v.move π) = f v) → (importedUnits (us.map (·.move π)) (u.move π)).map f = (importedUnits us u).map f := by
    intro f hf
    rw [importedUnits_move, List.map_map]
    exact List.map_congr_left fun v _ => hf v
  cases t <;> first
    | exact h _ fun v => refText_move _ rel u v
    | (show (kotlinImports _ [] _).map _ = _
       rw [h kotlinPkg fun v => rfl]
       rfl)

theorem declText_move (t : FileTarget) (u : UnitD) : t.declText (u.move π) = t.declText u := by cases t <;> rfl

theorem belongTypes_move (p : Str) : ∀ (l : List (Str × TypeDef)) (m : Owners), belongTypes p (tmap π l) m = belongTypes p l m
  | [], _ => rfl
  | (_, t) :: r, m => belongTypes_move p r _

theorem owners_move (us : List UnitD) : owners (us.map (·.move π)) = owners us := by
  unfold owners
  generalize ([] : Owners) = m
  induction us generalizing m with
  | nil => rfl
  | cons u r ih =>
    rw [List.map_cons]
    unfold ownersFrom
    rw [ih]
    congr 1
    exact belongTypes_move _ _ _

theorem needUnit_move (u : UnitD) : needUnit (u.move π) = needUnit u := by
  have h1 : (u.move π).localTypes = tmap π u.localTypes := rfl
  have h2 : (u.move π).localNames.map (·.1) = u.localNames.map (·.1) := by
    show (nmap π u.localNames).map _ = _
    unfold nmap
    rw [List.map_map]; rfl
  unfold needUnit
  rw [h1, h2]
  unfold tmap
  rw [List.flatMap_map]
  rfl

end

/-- What the generators take from a unit: its place, package and options, and its types with their names, without lines and columns. -/
structure UnitView where
  path : Str
  pkg : Str
  options : List (Str × Lit)
  types : List (Str × CTy)

/-- **C64, layout.** If the files of two directories have the same tokens, one compiles exactly if the other does, and then every
target writes the same types to the same files, and the files refer to the same files. -/
theorem C64_layout (resolve : Str → Str → Option Str) {d d' : Str → Src} (h : ∀ p, SameTokens (d p) (d' p))
    (abs : Str → Option Str) (n : Nat) (file : Str) (us : List UnitD) (u : UnitD)
    (hc : compileFile (srcFS resolve d) abs n file = some (us, .ok (some u))) :
    ∃ us' u', compileFile (srcFS resolve d') abs n file = some (us', .ok (some u')) ∧
      (us'.map fun v => (⟨v.path, v.pkg, v.options, v.localTypes.map fun e => (e.1, e.2.ty)⟩ : UnitView)) =
        (us.map fun v => ⟨v.path, v.pkg, v.options, v.localTypes.map fun e => (e.1, e.2.ty)⟩) ∧
      (∀ t fails, generate (FileTarget.cfg t fails) us' = generate (t.cfg fails) us) ∧
      (∀ t rel, us'.map (FileTarget.refs t rel us') = us.map (t.refs rel us)) ∧
      (∀ t, us'.map (FileTarget.declText t) = us.map t.declText) ∧
      ∀ gen, us'.map (resolveImports gen (owners us')) = us.map (resolveImports gen (owners us)) := by
  obtain ⟨⟨π, hπ, key⟩, -⟩ := C63_layout resolve h
  refine ⟨us.map (·.move π), u.move π, by rw [key, hc]; rfl, ?_, ?_, ?_, ?_, ?_⟩
  · rw [List.map_map]
    refine List.map_congr_left fun v _ => ?_
    simp only [Function.comp_apply, UnitD.move, tmap, List.map_map, TypeDef.move]
    rfl
  · intro t fails
    exact genUnits_move _ (key_move t) (files_move t) us [] _
  · intro t rel
    rw [List.map_map]
    exact List.map_congr_left fun v _ => refs_move t rel us v
  · intro t
    rw [List.map_map]
    exact List.map_congr_left fun v _ => declText_move t v
  · intro gen
    rw [List.map_map, owners_move]
    refine List.map_congr_left fun v _ => ?_
    simp only [Function.comp_apply, resolveImports, needUnit_move]

/-! ### What C55-C58 assume of the files is true of every text -/

theorem srcFS_parsed {resolve : Str → Str → Option Str} {d : Str → Src} {q : Str} {g : FileA} (h : srcFS resolve d q = .parsed g) :
    ∃ s f, d q = .text s ∧ Front.read s = some f ∧ g = toFile (resolve q) f := by
  unfold srcFS at h
  cases hd : d q with
  | missing => rw [hd] at h; exact nomatch h
  | unreadable => rw [hd] at h; exact nomatch h
  | text s =>
    rw [hd] at h
    simp only [Src.file] at h
    cases hr : Front.read s with
    | none => rw [hr] at h; exact nomatch h
    | some f =>
      rw [hr] at h
      simp only [FileS.parsed.injEq] at h
      exact ⟨s, f, rfl, hr, h.symm⟩

/-- The names of the types a text defines: at any depth, or at the top. -/
def Defines (resolve : Str → Option Str) (deep : Bool) (src : Src) (n : Str) : Prop :=
  ∃ s f, src = .text s ∧ Front.read s = some f ∧
    if deep then n ∈ declared (toFile resolve f) else n ∈ (toFile resolve f).tops.map TopA.defName

/-- **C64, types.** For every directory of texts that compiles, and every target: no type is written twice, and an output has
exactly the types its text defines (ESM and Kotlin: those it defines at the top). -/
theorem C64_types (resolve : Str → Str → Option Str) (d : Str → Src) (abs : Str → Option Str) (n : Nat) (file : Str)
    (us : List UnitD) (u : UnitD) (h : compileFile (srcFS resolve d) abs n file = some (us, .ok (some u)))
    (t : FileTarget) (fails : Str → Bool) (outs : List OutUnit) (hg : generate (t.cfg fails) us = some outs) :
    (outs.flatMap (·.types)).Nodup ∧ (outs.map (·.path)).Nodup ∧
    (∀ v ∈ us, ∃ s f, d v.path = .text s ∧ Front.read s = some f ∧
      (v.path ∈ outs.map (·.path) ↔ ¬ Omitted (toFile (resolve v.path) f))) ∧
    ∀ o ∈ outs, ∀ m, m ∈ o.types ↔ Defines (resolve o.path) (decide (t ≠ .esm ∧ t ≠ .kotlin)) (d o.path) m := by
  have hpos := srcFS_places resolve d
  have hnd : (us.map (·.path)).Nodup := (Project.of h hpos).nodup
  have iff : ∀ q g (P : FileA → Prop), srcFS resolve d q = .parsed g → P g →
      ∃ s f, d q = .text s ∧ Front.read s = some f ∧ P (toFile (resolve q) f) := by
    intro q g P hq hP
    obtain ⟨s, f, h1, h2, rfl⟩ := srcFS_parsed hq
    exact ⟨s, f, h1, h2, hP⟩
  by_cases ht : t = .esm ∨ t = .kotlin
  · obtain ⟨h1, h2, h3, h4⟩ := C55_top_level _ abs n file us u h hpos (t.cfg fails) (by rcases ht with rfl | rfl <;> rfl) outs hg
    refine ⟨h1, h2.nodup hnd, ?_, ?_⟩
    · intro v hv
      obtain ⟨g, hg', hk⟩ := h3 v hv
      exact iff v.path g (fun g => v.path ∈ outs.map (·.path) ↔ ¬ Omitted g) hg' hk
    · intro o ho m
      obtain ⟨g, hg', hk⟩ := h4 o ho
      obtain ⟨s, f, e1, e2, rfl⟩ := srcFS_parsed hg'
      rw [hk]
      have hdec : decide (t ≠ .esm ∧ t ≠ .kotlin) = false := by rcases ht with rfl | rfl <;> rfl
      rw [hdec]
      constructor
      · intro hm; exact ⟨s, f, e1, e2, hm⟩
      · rintro ⟨s', f', e1', e2', hm⟩
        rw [e1] at e1'; cases e1'
        rw [e2] at e2'; cases e2'
        exact hm
  · have hdec : decide (t ≠ .esm ∧ t ≠ .kotlin) = true := by simpa using ht
    obtain ⟨h1, h2, h3, h4, -⟩ := C55_types _ abs n file us u h hpos (t.cfg fails) (by
      simp only [not_or] at ht
      simp [FileTarget.cfg, ht.1, ht.2]) outs hg
    refine ⟨h1, h2.nodup hnd, ?_, ?_⟩
    · intro v hv
      obtain ⟨g, hg', hk⟩ := h3 v hv
      exact iff v.path g (fun g => v.path ∈ outs.map (·.path) ↔ ¬ Omitted g) hg' hk
    · intro o ho m
      obtain ⟨g, hg', hk⟩ := h4 o ho
      obtain ⟨s, f, e1, e2, rfl⟩ := srcFS_parsed hg'
      rw [hk, hdec]
      constructor
      · intro hm; exact ⟨s, f, e1, e2, hm⟩
      · rintro ⟨s', f', e1', e2', hm⟩
        rw [e1] at e1'; cases e1'
        rw [e2] at e2'; cases e2'
        exact hm

/-- **C64, files.** The files of a run have different names (Go: if the parts of a `go_package` are not empty). -/
theorem C64_files (resolve : Str → Str → Option Str) (d : Str → Src) (abs : Str → Option Str) (n : Nat) (file : Str)
    (us : List UnitD) (u : UnitD) (h : compileFile (srcFS resolve d) abs n file = some (us, .ok (some u)))
    (t : FileTarget) (fails : Str → Bool) (outs : List OutUnit) (hg : generate (t.cfg fails) us = some outs)
    (hgo : t = .go → ∀ q g, srcFS resolve d q = .parsed g → GoParts g) (out : Str) :
    (writtenFiles [] out outs).Nodup :=
  C57_distinct _ abs n file us u h (srcFS_places resolve d) t fails outs hg (srcFS_words resolve d) hgo out

/-- **C64, references.** For the targets whose outputs refer to files: the output of a text refers to the outputs of the texts it
imports, and to nothing else. -/
theorem C64_references (resolve : Str → Str → Option Str) (d : Str → Src) (abs : Str → Option Str) (n : Nat) (file : Str)
    (us : List UnitD) (u : UnitD) (h : compileFile (srcFS resolve d) abs n file = some (us, .ok (some u)))
    (t : FileTarget) (ht : pathTarget t = true) (fails : Str → Bool) (outs : List OutUnit) (hg : generate (t.cfg fails) us = some outs)
    (rel : Bool) (out : Str) (o : OutUnit) (ho : o ∈ outs) :
    ∃ v ∈ us, v.path = o.path ∧
      (∀ o' ∈ outs, Imports (srcFS resolve d) o.path o'.path → ∃ r ∈ t.refs rel us v, ∃ y ∈ writtenFiles [] out [o'], Provides t y ∧
        ∀ x ∈ writtenFiles [] out [o], follow t rel (outDir out) [] x r = some y) ∧
      (∀ r ∈ t.refs rel us v, ∃ q, Imports (srcFS resolve d) o.path q ∧ ∀ o' ∈ outs, o'.path = q →
        ∃ y ∈ writtenFiles [] out [o'], Provides t y ∧ ∀ x ∈ writtenFiles [] out [o], follow t rel (outDir out) [] x r = some y) := by
  obtain ⟨v, hv, e, h1, h2, -⟩ := C58_files _ abs n file us u h (srcFS_places resolve d) t ht fails outs hg (srcFS_words resolve d) rel out []
    (fun c hc => nomatch hc) (fun o _ x _ => ⟨Text.splitOn '/' x, Text.splitOn_ne_nil _ _, rfl⟩) o ho
  exact ⟨v, hv, e, h1, h2⟩

/-! ### A sample -/

/-- Two texts. -/
def textDir : Str → Src := fun p =>
  if p = ['a'] then .text "import \"b\"; package m.a;\n// uses Leaf\nstruct Use {\n\tLeaf x; struct In { bool b; } y;\n}\n".toList
  else if p = ['b'] then .text "package m.b; enum Kind[1] { A, B = 5; } struct Leaf { Kind k; }".toList
  else .missing

/-- The same tokens, laid out differently. -/
def textDir' : Str → Src := fun p =>
  if p = ['a'] then .text "import\"b\";package m.a;struct Use{Leaf x;struct In{bool b;}y;}".toList
  else if p = ['b'] then .text "package m . b ;\n/* kinds */ enum Kind [ 1 ] {\n A, B = 5; }\n struct Leaf { Kind k; }".toList
  else .missing

/-- They compile, and a target writes the types to files. -/
def textRun (d : Str → Src) (t : FileTarget) : Option (List (Str × List Str × List Str)) :=
  match compileFile (srcFS (fun _ n => some n) d) some 5 ['a'] with
  | some (us, .ok (some _)) => (generate (t.cfg fun _ => false) us).map fun outs => outs.map fun o => (o.path, o.types, o.files)
  | _ => none

example : textRun textDir .python = some
    [(['b'], ["Kind".toList, "Leaf".toList], ["m/b_bb.py".toList]), (['a'], ["In".toList, "Use".toList], ["m/a_bb.py".toList])] := by
  decide +kernel
example : textRun textDir' .python = textRun textDir .python := by decide +kernel
example : ∀ p, SameTokens (textDir p) (textDir' p) := by
  intro p
  unfold textDir textDir'
  split
  · show kinds _ = kinds _
    decide +kernel
  · split
    · show kinds _ = kinds _
      decide +kernel
    · trivial

end Bubbler
