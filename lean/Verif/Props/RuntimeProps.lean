import Verif.Compiler.RuntimeSound

/-
C29-C33: compiling a file together with everything it imports.

`Imports`, `Reach`, `Below`, `Compiled`, `pkgOf` (Verif/Compiler/RuntimeSpec.lean) are the specification: the import
relation, its closures, "this file is correct and this is its unit" and the declared package.
-/
namespace Bubbler
open Comp

/-! ### A sample project -/

/-- `package main; import "b"; import "c"; struct Top { Leaf x; }`, `b` and `c` both import `d`, which defines `Leaf`. -/
def leafTop : TopA := .struct (.mk 3 0 ['L', 'e', 'a', 'f'] none
  (.cons (.normal (.elem (.basic .u8)) ['v'] none [] none) .nil))
def useTop (n : Char) : TopA := .struct (.mk 4 0 [n] none
  (.cons (.normal (.elem (.ident ['L', 'e', 'a', 'f'])) ['x'] none [] none) .nil))

def sampleFS : FS := fun p =>
  if p = ['a'] then .parsed ⟨[some ['b'], some ['c']], [['m', 'a']], [], [useTop 'A']⟩
  else if p = ['b'] then .parsed ⟨[some ['d']], [['m', 'b']], [], [useTop 'B']⟩
  else if p = ['c'] then .parsed ⟨[some ['d'], some ['b']], [['m', 'c']], [], [useTop 'C']⟩
  else if p = ['d'] then .parsed ⟨[], [['m', 'd']], [], [leafTop]⟩
  else .missing

def runPaths : Option (RT × Out UnitD) → Option (List Str × List Str)
  | some (rt, .ok u) => some (rt.units.map (·.1), u.globalTypes.map (·.1))
  | _ => none

theorem sample_run : runPaths (compile sampleFS 5 ['a'] RT.new) =
    some ([['d'], ['b'], ['c'], ['a']], [['L', 'e', 'a', 'f'], ['B'], ['C'], ['A']]) := by decide +kernel

theorem sample_ok : ∃ rt u, compile sampleFS 5 ['a'] RT.new = some (rt, .ok u) := by
  have h := sample_run
  rcases e : compile sampleFS 5 ['a'] RT.new with _ | ⟨rt, o⟩
  · rw [e] at h; cases h
  · cases o with
    | ok u => exact ⟨rt, u, rfl⟩
    | err es => rw [e] at h; cases h
    | panic => rw [e] at h; cases h

/-! ### C29 -/

/-- C29: compiling any file of a finite file system terminates: the nesting of `Compile` calls is at most the number of
existing files plus one, and more fuel does not change the result. -/
theorem C29_terminates (fs : FS) (files : List Str) (hfin : ∀ p, fs p ≠ .missing → p ∈ files) (entry : Str) :
    ∃ r, ∀ n, files.length + 1 ≤ n → compile fs n entry RT.new = some r := by
  have h : left files RT.new < files.length + 1 := by
    have := List.length_filter_le (· ∉ RT.new.stack) files
    unfold left
    omega
  have := compile_some hfin (files.length + 1) entry RT.new h
  rcases hr : compile fs (files.length + 1) entry RT.new with _ | r
  · exact absurd hr this
  · exact ⟨r, fun n hn => compile_mono_le hn hr⟩

example : ∀ p, sampleFS p ≠ .missing → p ∈ [['a'], ['b'], ['c'], ['d']] := by
  intro p h
  unfold sampleFS at h
  split at h
  · simp [*]
  · split at h
    · simp [*]
    · split at h
      · simp [*]
      · split at h
        · simp [*]
        · exact absurd rfl h

/-- C29: if some file that is reached from the entry is in a cycle of imports, the entry is not accepted. -/
theorem C29_cycle_refused (fs : FS) (n : Nat) (entry q : Str) (hr : Reach fs entry q) (hc : Below fs q q) (rt' : RT)
    (u : UnitD) : compile fs n entry RT.new ≠ some (rt', .ok u) := by
  intro h
  obtain ⟨o, ho⟩ := (compile_sound h Inv.new).compiled.reach hr
  exact ho.not_below hc

/-- Two files importing each other -/
def cycleFS : FS := fun p =>
  if p = ['a'] then .parsed ⟨[some ['b']], [['m', 'a']], [], [leafTop]⟩
  else if p = ['b'] then .parsed ⟨[some ['a']], [['m', 'b']], [], [useTop 'B']⟩
  else .missing

example : Reach cycleFS ['a'] ['a'] ∧ Below cycleFS ['a'] ['a'] :=
  ⟨.refl, ['b'], ⟨_, rfl, by simp⟩, Reach.refl.step ⟨_, rfl, by simp⟩⟩

/-- C29: a file that imports itself is reported as a self import, if the imports written before are correct. -/
theorem C29_self_import (fs : FS) (n : Nat) (p : Str) (f : FileA) (pre post : List Str) (u0 u1 : UnitD) (hf : fs p = .parsed f)
    (himp : f.imports = (pre ++ p :: post).map some) (hinfo : visitInfo f (UnitD.new p) = (.ok (), u0))
    (hpre : Imported fs pre u0 u1)
    (hpk : ∀ q r, (q = p ∨ ∃ s ∈ pre, Reach fs s q) → (r = p ∨ ∃ s ∈ pre, Reach fs s r) → pkgOf fs q = pkgOf fs r → q = r)
    (r : RT × Out UnitD) (h : compile fs n p RT.new = some r) :
    r.2 = .panic ∨ ∃ es, r.2 = .err es ∧ CErr.located .importSelf ∈ es := by
  cases n with
  | zero => simp [compile] at h
  | succ n =>
    rw [compile, hf] at h
    simp only [RT.new, List.not_mem_nil, if_false, aget, List.find?_nil, Option.map_none] at h
    unfold compileParsed at h
    rw [himp, imports_none, if_neg (by simp), hinfo, filterMap_some] at h
    simp only [aget, List.find?_nil, Option.map_none, Option.isSome_none, Bool.false_eq_true, if_false, List.nil_append] at h
    have hpimp : Imports fs p p := ⟨f, hf, by rw [himp]; simp⟩
    have hno : ∀ s ∈ pre, ¬ Reach fs s p := by
      intro s hs hr
      obtain ⟨o, ho⟩ := hpre.mem s hs
      obtain ⟨o', ho'⟩ := ho.reach hr
      exact ho'.not_below ⟨p, hpimp, .refl⟩
    -- the loop over the imports before
    have hi : Inv fs ⟨[], [(u0.pkg, p)], [p]⟩ :=
      (Inv.new (fs := fs)).enter (p := p) (k := u0.pkg) (by simp [RT.new]) (by simp [RT.new]) (by simp [RT.new])
        (Part.start hf hinfo).pkg
    have hl := importLoop_complete (fs := fs) (rec := compile fs n) (fun p u rt rt' hx hi => compile_sound hx hi)
      (fun q => q = p ∨ ∃ s ∈ pre, Reach fs s q) hpre
      (fun q hq u rt c1 c2 c3 c4 c5 => compile_complete _ hpk c1 c2 c3 c4 c5) hi
      (by
        intro s hs q hq
        rw [List.mem_singleton] at hq
        subst hq
        exact hno s hs)
      (by
        rintro q (hq | hq)
        · cases hq
        · rw [List.mem_singleton] at hq
          exact .inl hq)
      (fun s hs q hq => .inr ⟨s, hs, hq⟩)
    have split_loop : ∀ (l1 l2 : List Str) (rt : RT) (u : UnitD),
        importLoop (compile fs n) (l1 ++ l2) rt u [] = none ∨ (∀ rt1 u1, importLoop (compile fs n) l1 rt u [] = some (rt1, .ok (u1, [])) →
          importLoop (compile fs n) (l1 ++ l2) rt u [] = importLoop (compile fs n) l2 rt1 u1 []) := by
      intro l1 l2
      induction l1 with
      | nil =>
        intro rt u
        right
        intro rt1 u1 h
        obtain ⟨rfl, rfl⟩ := importLoop_nil.1 h
        rfl
      | cons a l ih =>
        intro rt u
        by_cases hnone : importLoop (compile fs n) (a :: l ++ l2) rt u [] = none
        · exact .inl hnone
        right
        intro rt1 u1 h
        obtain ⟨rt2, o, u2, e1, e2, e3⟩ := importLoop_cons.1 h
        have : importLoop (compile fs n) (a :: l ++ l2) rt u [] = importLoop (compile fs n) (l ++ l2) rt2 u2 [] := by
          show importLoop (compile fs n) (a :: (l ++ l2)) rt u [] = _
          rw [importLoop]
          simp only [e1, e2]
        rw [this] at hnone ⊢
        rcases ih rt2 u2 with hn | hs
        · exact absurd hn hnone
        · exact hs rt1 u1 e3
    rcases hl with hl | ⟨rt1, hl⟩
    · exfalso
      have : ∀ (l1 l2 : List Str) (rt : RT) (u : UnitD) errs, importLoop (compile fs n) l1 rt u errs = none →
          importLoop (compile fs n) (l1 ++ l2) rt u errs = none := by
        intro l1 l2
        induction l1 with
        | nil => intro rt u errs h; simp [importLoop] at h
        | cons a l ih =>
          intro rt u errs h
          show importLoop (compile fs n) (a :: (l ++ l2)) rt u errs = none
          rw [importLoop] at h ⊢
          rcases hx : compile fs n a rt with _ | ⟨rt2, o⟩
          · rfl
          · rw [hx] at h
            cases o with
            | panic => simp at h
            | err es => exact ih _ _ _ h
            | ok o =>
              simp only at h ⊢
              rcases ha : u.addImport o with ⟨u3, e⟩
              rw [ha] at h
              cases e with
              | none => exact ih _ _ _ h
              | some e => exact ih _ _ _ h
      rw [this _ (p :: post) _ _ _ hl] at h
      simp at h
    · rcases split_loop pre (p :: post) ⟨[], [(u0.pkg, p)], [p]⟩ u0 with hn | hs
      · rw [hn] at h; simp at h
      · rw [hs rt1 u1 hl] at h
        have d := importLoop_sound (fs := fs) (fun p u rt rt' hx hi => compile_sound hx hi) hl hi
        have hst : rt1.stack = [p] := d.2.1
        rw [importLoop] at h
        rcases hx : compile fs n p rt1 with _ | y
        · rw [hx] at h; simp at h
        · have hy : y = (rt1, .err [.importSelf]) := by
            cases n with
            | zero => simp [compile] at hx
            | succ n =>
              rw [compile, hf] at hx
              simp only [hst, List.mem_singleton, if_true, List.getLast?_singleton, Option.some.injEq] at hx
              exact hx.symm
          rw [hx, hy] at h
          simp only [List.nil_append, wrapImport, CErr.plain, if_true] at h
          rcases hz : importLoop (compile fs n) post rt1 u1 [CErr.located .importSelf] with _ | ⟨rt2, o⟩
          · rw [hz] at h; simp at h
          · rw [hz] at h
            cases o with
            | err es => exact (importLoop_not_err hz).elim
            | panic =>
              simp only [Option.some.injEq] at h
              rw [← h]
              exact .inl rfl
            | ok w =>
              obtain ⟨u2, errs⟩ := w
              obtain ⟨es, rfl⟩ := importLoop_errs hz
              simp only [List.cons_append, List.nil_append, ne_eq, reduceCtorEq, not_false_eq_true, if_true,
                Option.some.injEq] at h
              rw [← h]
              exact .inr ⟨_, rfl, by simp⟩

/-- A file importing a correct file and then itself -/
def selfFS : FS := fun p =>
  if p = ['a'] then .parsed ⟨[some ['d'], some ['a']], [['m', 'a']], [], [leafTop]⟩
  else if p = ['d'] then .parsed ⟨[], [['m', 'd']], [], [leafTop]⟩
  else .missing

def runErrs : Option (RT × Out UnitD) → List CErr
  | some (_, .err es) => es
  | _ => []

def isSelf : List CErr → Bool
  | [.located .importSelf] => true
  | _ => false

example : isSelf (runErrs (compile selfFS 5 ['a'] RT.new)) = true := by decide +kernel

/-- Not every error that names a cycle is one: a file that failed stays on the stack of files being compiled, so importing
it again is reported as a cycle.  Here `a` imports `d` and `b`, `b` imports `d`, and `d` imports a missing file. -/
def failFS : FS := fun p =>
  if p = ['a'] then .parsed ⟨[some ['d'], some ['b']], [['m', 'a']], [], [leafTop]⟩
  else if p = ['b'] then .parsed ⟨[some ['d']], [['m', 'b']], [], [leafTop]⟩
  else if p = ['d'] then .parsed ⟨[some ['e']], [['m', 'd']], [], [leafTop]⟩
  else .missing

def isFalseCycle : List CErr → Bool
  | [.importing a [.located (.fileNotFound b)], .importing c [.located (.importCycle d)]] => a = ['d'] && b = ['e'] && c = ['b'] && d = ['d']
  | _ => false

theorem isFalseCycle_eq {es : List CErr} (h : isFalseCycle es = true) :
    es = [.importing ['d'] [.located (.fileNotFound ['e'])], .importing ['b'] [.located (.importCycle ['d'])]] := by
  unfold isFalseCycle at h
  split at h
  · simp at h
    obtain ⟨⟨⟨rfl, rfl⟩, rfl⟩, rfl⟩ := h
    rfl
  · simp at h

theorem C29_false_cycle_counterexample :
    runErrs (compile failFS 5 ['a'] RT.new) =
      [.importing ['d'] [.located (.fileNotFound ['e'])], .importing ['b'] [.located (.importCycle ['d'])]] ∧
    (∀ q, Reach failFS ['a'] q → ¬ Below failFS q q) := by
  refine ⟨isFalseCycle_eq (by decide +kernel), ?_⟩
  have imp : ∀ p q, Imports failFS p q → (p = ['a'] ∧ (q = ['d'] ∨ q = ['b'])) ∨ (p = ['b'] ∧ q = ['d']) ∨ (p = ['d'] ∧ q = ['e']) := by
    rintro p q ⟨f, hf, hq⟩
    unfold failFS at hf
    split at hf
    · rename_i hp
      cases hf
      simp only [List.mem_cons, Option.some.injEq, List.not_mem_nil, or_false] at hq
      exact .inl ⟨hp, hq⟩
    · split at hf
      · rename_i hp
        cases hf
        simp only [List.mem_cons, Option.some.injEq, List.not_mem_nil, or_false] at hq
        exact .inr (.inl ⟨hp, hq⟩)
      · split at hf
        · rename_i hp
          cases hf
          simp only [List.mem_cons, Option.some.injEq, List.not_mem_nil, or_false] at hq
          exact .inr (.inr ⟨hp, hq⟩)
        · cases hf
  have re : ∀ q, Reach failFS ['e'] q → q = ['e'] := by
    intro q h
    induction h with
    | refl => rfl
    | step _ i ih =>
      rw [ih] at i
      rcases imp _ _ i with ⟨h, -⟩ | ⟨h, -⟩ | ⟨h, -⟩ <;> simp at h
  have rd : ∀ q, Reach failFS ['d'] q → q = ['d'] ∨ q = ['e'] := by
    intro q h
    induction h with
    | refl => exact .inl rfl
    | step _ i ih =>
      rcases imp _ _ i with ⟨h, -⟩ | ⟨h, -⟩ | ⟨h, k⟩
      · rw [h] at ih; simp at ih
      · rw [h] at ih; simp at ih
      · exact .inr k
  have rb : ∀ q, Reach failFS ['b'] q → q = ['b'] ∨ q = ['d'] ∨ q = ['e'] := by
    intro q h
    induction h with
    | refl => exact .inl rfl
    | step _ i ih =>
      rcases imp _ _ i with ⟨h, -⟩ | ⟨h, k⟩ | ⟨h, k⟩
      · rw [h] at ih; simp at ih
      · exact .inr (.inl k)
      · exact .inr (.inr k)
  rintro q - ⟨r, hi, hr⟩
  rcases imp _ _ hi with ⟨rfl, rfl | rfl⟩ | ⟨rfl, rfl⟩ | ⟨rfl, rfl⟩
  · have := rd _ hr; simp at this
  · have := rb _ hr; simp at this
  · have := rd _ hr; simp at this
  · have := re _ hr; simp at this

/-! ### C30 -/

theorem reach_units {fs : FS} {units : List (Str × UnitD)} (ht : Topo fs units) {p q : Str} (hp : p ∈ units.map (·.1))
    (hr : Reach fs p q) : q ∈ units.map (·.1) := by
  induction hr with
  | refl => exact hp
  | step _ i ih =>
    obtain ⟨e, he, rfl⟩ := List.mem_map.1 ih
    obtain ⟨l1, l2, hl⟩ := List.append_of_mem he
    have := ht l1 e l2 hl _ i
    rw [hl, List.map_append]
    exact List.mem_append_left _ this

/-- C30: what a successful run returns are the units of exactly the files reached from the entry, each once, each after
the files it imports, the entry last; and each unit is the one its file should have. -/
theorem C30_units (fs : FS) (abs : Str → Option Str) (n : Nat) (file : Str) (us : List UnitD) (u : UnitD)
    (h : compileFile fs abs n file = some (us, .ok (some u))) :
    ∃ entry, abs file = some entry ∧ u.path = entry ∧ us.getLast? = some u ∧ (us.map (·.path)).Nodup ∧
      (∀ q, q ∈ us.map (·.path) ↔ Reach fs entry q) ∧
      (∀ l1 v l2, us = l1 ++ v :: l2 → ∀ q, Imports fs v.path q → q ∈ l1.map (·.path)) ∧
      ∀ v ∈ us, Compiled fs v.path v := by
  unfold compileFile at h
  split at h
  · simp at h
  split at h
  · simp at h
  rename_i entry habs
  split at h
  · simp at h
  · rename_i rt u' hc
    simp only [Option.some.injEq, Prod.mk.injEq, Out.ok.injEq] at h
    obtain ⟨rfl, rfl⟩ := h
    have d := compile_sound hc Inv.new
    have hpath : ∀ e ∈ rt.units, e.2.path = e.1 := fun e he => (d.inv.compiled e.1 e.2 he).full.path
    have hmap : (rt.units.map (·.2)).map (·.path) = rt.units.map (·.1) := by
      rw [List.map_map]
      exact List.map_congr_left hpath
    refine ⟨entry, habs, d.compiled.full.path, ?_, ?_, ?_, ?_, ?_⟩
    · obtain ⟨new, hn⟩ := d.last (by simp [RT.new])
      rw [hn]
      simp
    · rw [hmap]; exact d.inv.nodup
    · intro q
      rw [hmap]
      constructor
      · intro hq
        obtain ⟨new, hn, hr⟩ := d.units
        rw [hn] at hq
        simp only [RT.new, List.nil_append] at hq
        obtain ⟨e, he, rfl⟩ := List.mem_map.1 hq
        exact hr e he
      · exact reach_units d.inv.topo d.mem
    · intro l1 v l2 hv q hq
      obtain ⟨a, b, hab, rfl, hb⟩ := List.map_eq_append_iff.1 hv
      obtain ⟨e, c, rfl, rfl, rfl⟩ := List.map_eq_cons_iff.1 hb
      have := d.inv.topo a e c hab q (by rw [← hpath e (by rw [hab]; simp)]; exact hq)
      have hmap' : (a.map (·.2)).map (·.path) = a.map (·.1) := by
        rw [List.map_map]
        exact List.map_congr_left fun x hx => hpath x (by rw [hab]; simp [hx])
      rw [hmap']
      exact this
    · intro v hv
      obtain ⟨e, he, rfl⟩ := List.mem_map.1 hv
      rw [hpath e he]
      exact d.inv.compiled e.1 e.2 he
  · simp at h
  · simp at h

example : ∃ us u, compileFile sampleFS some 5 ['a'] = some (us, .ok (some u)) := by
  obtain ⟨rt, u, h⟩ := sample_ok
  exact ⟨rt.units.map (·.2), u, by simp [compileFile, h]⟩

/-! ### C31 -/

/-- C31, C29, C32 in one: a file is accepted exactly when it and everything it imports is correct and no two of these files
declare the same package; the unit is then the one the specification assigns to it. -/
theorem C31_accepted_iff (fs : FS) (files : List Str) (hfin : ∀ p, fs p ≠ .missing → p ∈ files) (n : Nat)
    (hn : files.length + 1 ≤ n) (entry : Str) (u : UnitD) :
    (∃ rt', compile fs n entry RT.new = some (rt', .ok u)) ↔
      Compiled fs entry u ∧ ∀ p q, Reach fs entry p → Reach fs entry q → pkgOf fs p = pkgOf fs q → p = q := by
  constructor
  · rintro ⟨rt', h⟩
    have d := compile_sound h Inv.new
    refine ⟨d.compiled, ?_⟩
    intro p q hp hq e
    have hp' := reach_units d.inv.topo d.mem hp
    have hq' := reach_units d.inv.topo d.mem hq
    obtain ⟨k, hk⟩ := d.inv.pkgsAll p (.inl hp')
    obtain ⟨k', hk'⟩ := d.inv.pkgsAll q (.inl hq')
    have e1 := (d.inv.pkgs _ _ hk).1
    have e2 := (d.inv.pkgs _ _ hk').1
    rw [e1, e2] at e
    cases e
    exact nodup_unique d.inv.pkgNodup hk hk'
  · rintro ⟨hc, hpk⟩
    obtain ⟨r, hr⟩ := C29_terminates fs files hfin entry
    have := compile_complete (fs := fs) (fun q => Reach fs entry q) (fun p q hp hq e => hpk p q hp hq e) (n := n) hc Inv.new
      (by intro q hq; cases hq) (by rintro q (hq | hq) <;> cases hq) (fun q hq => hq)
    rcases this with h | h
    · rw [hr n hn] at h; cases h
    · exact h

example : ∃ u, Compiled sampleFS ['a'] u ∧
    ∀ p q, Reach sampleFS ['a'] p → Reach sampleFS ['a'] q → pkgOf sampleFS p = pkgOf sampleFS q → p = q := by
  obtain ⟨rt, u, h⟩ := sample_ok
  refine ⟨u, (C31_accepted_iff sampleFS [['a'], ['b'], ['c'], ['d']] ?_ 5 (by decide) ['a'] u).1 ⟨rt, h⟩⟩
  intro p h
  unfold sampleFS at h
  split at h
  · simp [*]
  · split at h
    · simp [*]
    · split at h
      · simp [*]
      · split at h
        · simp [*]
        · exact absurd rfl h

/-- A file that cannot be right, whatever it imports -/
def Broken (fs : FS) (q : Str) : Prop :=
  fs q = .missing ∨ fs q = .unreadable ∨ fs q = .garbage ∨
    ∃ f, fs q = .parsed f ∧
      (none ∈ f.imports ∨ (∀ u, visitInfo f (UnitD.new q) ≠ (.ok (), u)) ∨ (∀ u u', visitProto f.tops [] u ≠ (.ok (), u')))

/-- C31: if a file reached from the entry is missing, unreadable, not parsable, has a wrong import literal, package
statement or option, or wrong definitions, then the run ends with at least one error (or the compiler panics). -/
theorem C31_errors_reported (fs : FS) (n : Nat) (entry q : Str) (hr : Reach fs entry q) (hb : Broken fs q)
    (r : RT × Out UnitD) (h : compile fs n entry RT.new = some r) :
    r.2 = .panic ∨ ∃ es, r.2 = .err es ∧ es ≠ [] := by
  obtain ⟨rt', o⟩ := r
  cases o with
  | panic => exact .inl rfl
  | err es => exact .inr ⟨es, rfl, compile_honest h⟩
  | ok u =>
    exfalso
    obtain ⟨o, ho⟩ := (compile_sound h Inv.new).compiled.reach hr
    cases ho with
    | mk _ f ps u0 u1 _ a b c d e =>
      rcases hb with hb | hb | hb | ⟨f', hf', hb⟩
      · rw [a] at hb; cases hb
      · rw [a] at hb; cases hb
      · rw [a] at hb; cases hb
      · rw [a] at hf'
        cases hf'
        rcases hb with hb | hb | hb
        · rw [b] at hb
          obtain ⟨x, -, hx⟩ := List.mem_map.1 hb
          cases hx
        · exact hb _ c
        · exact hb _ _ e

example : Reach failFS ['a'] ['e'] ∧ Broken failFS ['e'] :=
  ⟨(Reach.refl.step (q := ['a']) (r := ['d']) ⟨_, rfl, by simp⟩).step ⟨_, rfl, by simp⟩, .inl rfl⟩

/-- An empty file name is accepted without compiling anything. -/
theorem C31_empty_name_counterexample (fs : FS) (abs : Str → Option Str) (n : Nat) :
    compileFile fs abs n [] = some ([], .ok none) := rfl

/-! ### C32 -/

/-- C32: the units of a successful run have different packages, each the one its file declares. -/
theorem C32_packages (fs : FS) (abs : Str → Option Str) (n : Nat) (file : Str) (us : List UnitD) (u : UnitD)
    (h : compileFile fs abs n file = some (us, .ok (some u))) :
    (us.map (·.pkg)).Nodup ∧ ∀ v ∈ us, pkgOf fs v.path = some v.pkg := by
  obtain ⟨entry, h1, -, -, h4, h5, h6, h7⟩ := C30_units fs abs n file us u h
  have hp : ∀ v ∈ us, pkgOf fs v.path = some v.pkg := by
    intro v hv
    exact (h7 v hv).full.pkg
  refine ⟨?_, hp⟩
  unfold compileFile at h
  split at h
  · simp at h
  rw [h1] at h
  simp only at h
  split at h
  · simp at h
  · rename_i rt u' hc
    simp only [Option.some.injEq, Prod.mk.injEq, Out.ok.injEq] at h
    obtain ⟨rfl, rfl⟩ := h
    have d := compile_sound hc Inv.new
    have hpath : ∀ e ∈ rt.units, e.2.path = e.1 := fun e he => (d.inv.compiled e.1 e.2 he).full.path
    rw [List.map_map, List.nodup_iff_pairwise_ne, List.pairwise_map]
    have hn := d.inv.nodup
    rw [List.nodup_iff_pairwise_ne, List.pairwise_map] at hn
    refine hn.imp_of_mem ?_
    intro a b ha hb hne he
    obtain ⟨k, hk⟩ := d.inv.pkgsAll a.1 (.inl (List.mem_map.2 ⟨a, ha, rfl⟩))
    obtain ⟨k', hk'⟩ := d.inv.pkgsAll b.1 (.inl (List.mem_map.2 ⟨b, hb, rfl⟩))
    have e1 := (d.inv.pkgs _ _ hk).1
    have e2 := (d.inv.pkgs _ _ hk').1
    have f1 := (d.inv.compiled a.1 a.2 ha).full.pkg
    have f2 := (d.inv.compiled b.1 b.2 hb).full.pkg
    simp only [Function.comp_apply] at he
    rw [f1] at e1
    rw [f2, ← he] at e2
    cases e1
    cases e2
    exact hne (nodup_unique d.inv.pkgNodup hk hk')
  · simp at h
  · simp at h

/-- C32: two reached files with the same package are refused. -/
theorem C32_refused (fs : FS) (n : Nat) (entry p q : Str) (hp : Reach fs entry p) (hq : Reach fs entry q) (hne : p ≠ q)
    (hpk : pkgOf fs p = pkgOf fs q) (rt' : RT) (u : UnitD) : compile fs n entry RT.new ≠ some (rt', .ok u) := by
  intro h
  have d := compile_sound h Inv.new
  have hp' := reach_units d.inv.topo d.mem hp
  have hq' := reach_units d.inv.topo d.mem hq
  obtain ⟨k, hk⟩ := d.inv.pkgsAll p (.inl hp')
  obtain ⟨k', hk'⟩ := d.inv.pkgsAll q (.inl hq')
  have e1 := (d.inv.pkgs _ _ hk).1
  have e2 := (d.inv.pkgs _ _ hk').1
  rw [e1, e2] at hpk
  cases hpk
  exact hne (nodup_unique d.inv.pkgNodup hk hk')

/-! ### C33 -/

/-- C33: a name is refused exactly when it is bound to a definition at another position; then nothing changes.  Otherwise
the name is bound afterwards, to the previous definition if there was one, and all other names are as before. -/
theorem C33_add_name (u : UnitD) (n : Str) (d : NameDef) :
    ((u.addGlobalName n d).2 = false ↔ ∃ d', aget u.globalNames n = some d' ∧ d'.pos ≠ d.pos) ∧
    ((u.addGlobalName n d).2 = false → (u.addGlobalName n d).1 = u) ∧
    ((u.addGlobalName n d).2 = true →
      aget (u.addGlobalName n d).1.globalNames n = some ((aget u.globalNames n).getD d) ∧
      ∀ m, m ≠ n → aget (u.addGlobalName n d).1.globalNames m = aget u.globalNames m) := by
  have hput : ∀ m : List (Str × NameDef), aget (aput m n d) n = some ((aget m n).getD d) ∧
      ∀ k, k ≠ n → aget (aput m n d) k = aget m k := by
    intro m
    unfold aput
    split
    · rename_i hs
      obtain ⟨x, hx⟩ := Option.isSome_iff_exists.1 hs
      exact ⟨by rw [hx]; rfl, fun _ _ => rfl⟩
    · rename_i hs
      have hn : aget m n = none := by simpa using hs
      constructor
      · rw [hn]
        unfold aget at hn ⊢
        rw [List.find?_append]
        rw [Option.map_eq_none_iff] at hn
        rw [hn]
        simp
      · intro k hk
        unfold aget
        rw [List.find?_append]
        simp [Ne.symm hk]
  unfold UnitD.addGlobalName
  by_cases hc : u.conflicts n d.pos = true
  · rw [if_pos hc]
    refine ⟨⟨fun _ => ?_, fun _ => rfl⟩, fun _ => rfl, fun h => by simp at h⟩
    unfold UnitD.conflicts at hc
    rcases ha : aget u.globalNames n with _ | d'
    · rw [ha] at hc; simp at hc
    · rw [ha] at hc
      exact ⟨d', rfl, by simpa using hc⟩
  · rw [if_neg hc]
    have hc' := conflicts_iff.1 (Bool.eq_false_iff.2 hc)
    refine ⟨⟨fun h => by simp at h, ?_⟩, fun h => by simp at h, fun _ => hput _⟩
    rintro ⟨d', h1, h2⟩
    exact absurd (hc' d' h1) h2

example : ((UnitD.new ['p']).addGlobalName ['N'] ⟨⟨['q'], 1, 2⟩, none⟩).2 = true := rfl

/-- C33: the types visible in the unit of a correct file are exactly the types defined in the files it reaches, under
their own names, each name once; the same for names; so no definition is shadowed or lost. -/
theorem C33_tables (fs : FS) (p : Str) (u : UnitD) (h : Compiled fs p u) :
    (u.globalTypes.map (·.1)).Nodup ∧ (u.globalNames.map (·.1)).Nodup ∧
    (∀ n t, (n, t) ∈ u.globalTypes ↔ ∃ q o, Reach fs p q ∧ Compiled fs q o ∧ (n, t) ∈ o.localTypes) ∧
    (∀ n d, (n, d) ∈ u.globalNames ↔ ∃ q o, Reach fs p q ∧ Compiled fs q o ∧ (n, d) ∈ o.localNames) ∧
    (∀ q, q ∈ u.globalImports ↔ Below fs p q) ∧ (∀ q, q ∈ u.localImports ↔ Imports fs p q) := by
  have f := h.full
  refine ⟨f.good.keyed.types, f.good.keyed.names, ?_, ?_, f.imports, f.locals⟩
  · intro n t
    constructor
    · intro ht
      obtain ⟨o, c, m, r⟩ := f.types _ ht
      exact ⟨_, o, r, c, m⟩
    · rintro ⟨q, o, r, c, m⟩
      have m' := ((c.full.good.locTypes _).1 m).1
      rcases r.cases_head with rfl | r
      · rw [h.det c]; exact m'
      · exact (f.closed q o r c).1 _ m'
  · intro n t
    constructor
    · intro ht
      obtain ⟨o, c, m, r⟩ := f.names _ ht
      exact ⟨_, o, r, c, m⟩
    · rintro ⟨q, o, r, c, m⟩
      have m' := ((c.full.good.tab.localIff _).1 m).1
      rcases r.cases_head with rfl | r
      · rw [h.det c]; exact m'
      · exact (f.closed q o r c).2 _ m'

/-- C33: after compiling, every name of an imported unit resolves to the same definition in the importing unit. -/
theorem C33_imported_resolve (fs : FS) (p q : Str) (u o : UnitD) (h : Compiled fs p u) (hr : Reach fs p q)
    (ho : Compiled fs q o) :
    (∀ n t, aget o.globalTypes n = some t → aget u.globalTypes n = some t) ∧
    (∀ n d, aget o.globalNames n = some d → aget u.globalNames n = some d) := by
  have f := h.full
  have g := ho.full
  rcases hr.cases_head with rfl | hb
  · rw [h.det ho]
    exact ⟨fun _ _ => id, fun _ _ => id⟩
  · obtain ⟨k1, k2⟩ := f.closed q o hb ho
    constructor
    · intro n t ht
      exact (aget_some_iff f.good.keyed.types).2 (k1 _ ((aget_some_iff g.good.keyed.types).1 ht))
    · intro n d hd
      exact (aget_some_iff f.good.keyed.names).2 (k2 _ ((aget_some_iff g.good.keyed.names).1 hd))

/-- C33: two reached files that define the same name make the compilation fail. -/
theorem C33_clash_refused (fs : FS) (n : Nat) (entry p q : Str) (up uq : UnitD) (hp : Reach fs entry p) (hq : Reach fs entry q)
    (hne : p ≠ q) (cp : Compiled fs p up) (cq : Compiled fs q uq) (name : Str) (h1 : name ∈ up.localNames.map (·.1))
    (h2 : name ∈ uq.localNames.map (·.1)) (rt' : RT) (u : UnitD) : compile fs n entry RT.new ≠ some (rt', .ok u) := by
  intro h
  have hc := (compile_sound h Inv.new).compiled
  obtain ⟨-, hn, -, hall, -, -⟩ := C33_tables fs entry u hc
  obtain ⟨⟨_, d1⟩, m1, rfl⟩ := List.mem_map.1 h1
  obtain ⟨⟨n2, d2⟩, m2, e⟩ := List.mem_map.1 h2
  simp only at e
  subst e
  have e1 := (hall _ _).2 ⟨p, up, hp, cp, m1⟩
  have e2 := (hall _ _).2 ⟨q, uq, hq, cq, m2⟩
  have := nodup_unique hn e1 e2
  subst this
  have f1 := ((cp.full.good.tab.localIff _).1 m1).2
  have f2 := ((cq.full.good.tab.localIff _).1 m2).2
  rw [cp.full.path] at f1
  rw [cq.full.path] at f2
  exact hne (f1.symm.trans f2)

end Bubbler
