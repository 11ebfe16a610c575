import Verif.Gen.ScopeProofs
import Verif.Props.GenProps

/-
C56: a type that is used in an output is in scope there.

`Reach fs p q`: `p` is `q` or imports it, directly or not; `Imports fs p q`: the file `p` has an import statement for `q`.
-/
namespace Bubbler
open Comp Gen

/-- The struct `s` occurs in the project. -/
def Occurs (us : List UnitD) (s : StructD) : Prop := ∃ w ∈ us, ∃ e ∈ w.localTypes, Within e.2.ty (.struct s)

theorem occurs_visits {fs : FS} {us : List UnitD} {u : UnitD} (P : Project fs us u) {s : StructD} (h : Occurs us s) {v : UnitD} (hv : v ∈ us)
    {f : FileA} (hf : fs v.path = .parsed f) (hs : s.name ∈ declared f) : CTy.struct s ∈ visitsT v.localTypes := by
  obtain ⟨w, hw, e, he, hi⟩ := h
  have h1 : CTy.struct s ∈ visitsT w.localTypes := visitsT_mem he (within_visits hi (local_self (P.comp w hw) he))
  obtain ⟨X, hX, e2⟩ := ((P.fileInv hv).decls f hf).2.1 _ hs
  have := P.same X (.struct s) (P.visits_sub hv X hX) (P.visits_sub hw _ h1) e2
  rwa [this] at hX

theorem mention_visits {fs : FS} {us : List UnitD} {u : UnitD} (P : Project fs us u) {s : StructD} (h : Occurs us s) {v : UnitD} (hv : v ∈ us)
    {f : FileA} (hf : fs v.path = .parsed f) (hs : s.name ∈ declared f) {t : CTy} (hm : Mentions s t) : t ∈ visitsT v.localTypes := by
  refine visitsT_trans (occurs_visits P h hv hf hs) t ?_
  rw [visits_struct]
  exact List.mem_append_left _ (mentions_visits hm)

/-- C56: what the fields of a struct name is declared in the file of the struct or in a file that it imports, directly or not. -/
theorem C56_reachable (fs : FS) (abs : Str → Option Str) (n : Nat) (file : Str) (us : List UnitD) (u : UnitD)
    (h : compileFile fs abs n file = some (us, .ok (some u))) (hpos : ∀ q g, fs q = .parsed g → (places g).Nodup)
    (v : UnitD) (hv : v ∈ us) (f : FileA) (hf : fs v.path = .parsed f) (s : StructD) (ho : Occurs us s) (hs : s.name ∈ declared f)
    (t : CTy) (hm : Mentions s t) : ∃ q g, Reach fs v.path q ∧ fs q = .parsed g ∧ t.customName ∈ declared g := by
  have P := Project.of h hpos
  exact declared_somewhere hpos (P.comp v hv) t (mention_visits P ho hv hf hs hm)

/-- C56 for the outputs that take over what their imports have (C, C++, Python, CommonJS): if no file of the project is left out, all
the outputs an output refers to exist, and a type named in a struct it contains is in it or in one it refers to, directly or not.
(If it is in the same output, it comes before: C55.) -/
theorem C56_transitive (fs : FS) (abs : Str → Option Str) (n : Nat) (file : Str) (us : List UnitD) (u : UnitD)
    (h : compileFile fs abs n file = some (us, .ok (some u))) (hpos : ∀ q g, fs q = .parsed g → (places g).Nodup)
    (cfg : GenCfg) (hd : cfg.deep = true) (out : List OutUnit) (hg : generate cfg us = some out)
    (hno : ∀ v ∈ us, ∀ f, fs v.path = .parsed f → ¬ Omitted f) (o : OutUnit) (ho : o ∈ out) :
    (∀ q, Reach fs o.path q → q ∈ out.map (·.path)) ∧
    ∀ s, Occurs us s → s.name ∈ o.types → ∀ t, Mentions s t → ∃ o' ∈ out, Reach fs o.path o'.path ∧ t.customName ∈ o'.types := by
  have P := Project.of h hpos
  obtain ⟨-, c2, c3, c4, -⟩ := C55_types fs abs n file us u h hpos cfg hd out hg
  obtain ⟨v, hv, e⟩ := List.mem_map.1 (c2.subset (List.mem_map.2 ⟨o, ho, rfl⟩))
  have all : ∀ q, Reach fs o.path q → q ∈ out.map (·.path) := by
    intro q hq
    rw [← e] at hq
    obtain ⟨w, hw, rfl⟩ := List.mem_map.1 ((P.reach q).2 ((P.reach_of hv).trans hq))
    obtain ⟨f, hf, k⟩ := c3 w hw
    exact k.2 (hno w hw f hf)
  refine ⟨all, ?_⟩
  intro s hoc hs t hm
  obtain ⟨f, hf, hty⟩ := c4 o ho
  rw [← e] at hf
  obtain ⟨q, g, k1, k2, k3⟩ := C56_reachable fs abs n file us u h hpos v hv f hf s hoc ((hty _).1 hs) t hm
  rw [e] at k1
  obtain ⟨o', ho', e'⟩ := List.mem_map.1 (all q k1)
  obtain ⟨g', hg', hty'⟩ := c4 o' ho'
  rw [e', k2] at hg'
  cases hg'
  exact ⟨o', ho', by rw [e']; exact k1, (hty' _).2 k3⟩

/-- C56 for the outputs that see only what the files they import declare (Java, C#): the same if every file imports all the files it
depends on. -/
theorem C56_direct (fs : FS) (abs : Str → Option Str) (n : Nat) (file : Str) (us : List UnitD) (u : UnitD)
    (h : compileFile fs abs n file = some (us, .ok (some u))) (hpos : ∀ q g, fs q = .parsed g → (places g).Nodup)
    (cfg : GenCfg) (hd : cfg.deep = true) (out : List OutUnit) (hg : generate cfg us = some out)
    (hno : ∀ v ∈ us, ∀ f, fs v.path = .parsed f → ¬ Omitted f) (hdir : ∀ p q, Below fs p q → Imports fs p q) (o : OutUnit) (ho : o ∈ out) :
    ∀ s, Occurs us s → s.name ∈ o.types → ∀ t, Mentions s t →
      ∃ o' ∈ out, (o'.path = o.path ∨ Imports fs o.path o'.path) ∧ t.customName ∈ o'.types := by
  intro s hoc hs t hm
  obtain ⟨o', h1, h2, h3⟩ := (C56_transitive fs abs n file us u h hpos cfg hd out hg hno o ho).2 s hoc hs t hm
  refine ⟨o', h1, ?_, h3⟩
  rcases h2.cases_head with e | hb
  · exact .inl e.symm
  · exact .inr (hdir _ _ hb)

/-- C56 for Go: the generator finds the outputs to import - it does not run into a type whose output does not exist - and a type
named in a struct of the output is declared in the same file or in one of these. -/
theorem C56_go (fs : FS) (abs : Str → Option Str) (n : Nat) (file : Str) (us : List UnitD) (u : UnitD)
    (h : compileFile fs abs n file = some (us, .ok (some u))) (hpos : ∀ q g, fs q = .parsed g → (places g).Nodup)
    (l1 l2 : List UnitD) (v : UnitD) (hl : us = l1 ++ v :: l2) (f : FileA) (hf : fs v.path = .parsed f) :
    ∃ imps, resolveImports ((l1.filter fun w => !skipped w).map (·.path) ++ [v.path]) (owners us) v = some imps ∧
      (∀ q ∈ imps, Below fs v.path q) ∧
      ∀ s, Occurs us s → s.name ∈ declared f → ∀ t, Mentions s t →
        t.customName ∈ declared f ∨ ∃ q ∈ imps, ∃ g, fs q = .parsed g ∧ t.customName ∈ declared g := by
  have P := Project.of h hpos
  have hv : v ∈ us := by rw [hl]; simp
  have hcv := P.comp v hv
  -- names of the file and its own types
  have loc_of : ∀ m, m ∈ declared f → m ∈ v.localNames.map (·.1) := by
    intro m hm
    obtain ⟨d, h1, h2⟩ := ((P.fileInv hv).decls f hf).2.2.1 m hm
    exact List.mem_map.2 ⟨_, (hcv.full.good.tab.3 (m, d)).2 ⟨h1, h2⟩, rfl⟩
  have of_loc : ∀ m q g, Reach fs v.path q → fs q = .parsed g → m ∈ declared g → m ∈ v.localNames.map (·.1) → q = v.path := by
    intro m q g hr hg hm hl
    obtain ⟨w, hw, rfl⟩ := List.mem_map.1 ((P.reach q).2 ((P.reach_of hv).trans hr))
    obtain ⟨⟨m', d⟩, hd, e⟩ := List.mem_map.1 hl
    simp only at e
    subst e
    obtain ⟨h1, h2⟩ := (hcv.full.good.tab.3 _).1 hd
    rw [← h2]
    exact (P.declared_entry hw hg hm hv h1).symm
  have need : ∀ m, m ∈ needUnit v ↔ (∃ e ∈ v.localTypes, ∃ s, e.2.ty = .struct s ∧ ∃ X ∈ visitsF s.fields, X.customName = m) ∧
      m ∉ v.localNames.map (·.1) := by
    intro m
    unfold needUnit
    rw [List.mem_flatMap]
    constructor
    · rintro ⟨e, he, hm⟩
      rcases hty : e.2.ty with p | _ | _ | ⟨a, b⟩ | s | s <;> rw [hty] at hm <;> simp only [List.not_mem_nil] at hm
      obtain ⟨h1, h2⟩ := (needF_mem _ _ _).1 hm
      exact ⟨⟨e, he, s, hty, h1⟩, h2⟩
    · rintro ⟨⟨e, he, s, hty, h1⟩, h2⟩
      refine ⟨e, he, ?_⟩
      rw [hty]
      exact (needF_mem _ _ _).2 ⟨h1, h2⟩
  have own : ∀ m ∈ needUnit v, ∃ q g, Below fs v.path q ∧ fs q = .parsed g ∧ m ∈ declared g ∧ aget (owners us) m = some q ∧
      q ∈ (l1.filter fun w => !skipped w).map (·.path) := by
    intro m hm
    obtain ⟨⟨e, he, s, hty, X, hX, rfl⟩, h2⟩ := (need m).1 hm
    have hX' : X ∈ visitsT v.localTypes := visitsT_mem he (by rw [hty, visits_struct]; exact List.mem_append_left _ hX)
    obtain ⟨q, g, k1, k2, k3⟩ := declared_somewhere hpos hcv X hX'
    rcases k1.cases_head with e | hb
    · rw [← e, hf] at k2
      cases k2
      exact absurd (loc_of _ k3) h2
    · obtain ⟨w, hw, rfl⟩ := List.mem_map.1 (P.before hl hb)
      have hwu : w ∈ us := by rw [hl]; exact List.mem_append_left _ hw
      refine ⟨w.path, g, hb, k2, k3, P.owner hwu k2 k3, ?_⟩
      refine List.mem_map.2 ⟨w, List.mem_filter.2 ⟨hw, ?_⟩, rfl⟩
      rw [Bool.not_eq_true', ← Bool.not_eq_true]
      intro hsk
      have hnil := ((skipped_iff hpos (P.comp w hwu) k2).1 hsk).1
      rw [← declared_nil] at hnil
      rw [hnil] at k3
      cases k3
  obtain ⟨imps, i1, i2⟩ := importOf_some (gen := (l1.filter fun w => !skipped w).map (·.path) ++ [v.path]) (own := owners us) (needUnit v) (by
    intro m hm
    obtain ⟨q, g, -, -, -, k4, k5⟩ := own m hm
    exact ⟨q, List.mem_append_left _ k5, k4⟩)
  refine ⟨imps, i1, ?_, ?_⟩
  · intro q hq
    obtain ⟨m, hm, e⟩ := (i2 q).1 hq
    obtain ⟨q', g, k1, -, -, k4, -⟩ := own m hm
    rw [e] at k4
    cases k4
    exact k1
  · intro s hoc hs t hm
    have ht := mention_visits P hoc hv hf hs hm
    obtain ⟨q, g, k1, k2, k3⟩ := declared_somewhere hpos hcv t ht
    by_cases hq : q = v.path
    · subst hq
      rw [hf] at k2
      cases k2
      exact .inl k3
    · right
      have hnl : t.customName ∉ v.localNames.map (·.1) := fun hx => hq (of_loc _ q g k1 k2 k3 hx)
      obtain ⟨e, he, hte⟩ := List.mem_flatMap.1 ht
      -- the definition itself has a local name
      have hdef : e.2.ty.customName ∈ declared f ∧ ((∃ s, e.2.ty = .struct s) ∨ ∃ s, e.2.ty = .enum s) := by
        obtain ⟨f', hf', x, hx, e1, -, kk⟩ := hcv.local_def he
        rw [hf] at hf'
        cases hf'
        refine ⟨?_, ?_⟩
        · have hk := hcv.full.good.keyed.key e.1 e.2 ((hcv.full.good.locTypes e).1 he).1
          rw [hk, ← e1]
          refine List.mem_flatMap.2 ⟨x, hx, ?_⟩
          cases x with
          | struct d => obtain ⟨_, _, _, _, _⟩ := d; simp [TopA.defName, TopA.decls, StructA.decls, StructA.defName]
          | enum d => simp [TopA.defName, TopA.decls]
        · rcases kk with ⟨kk, -⟩ | ⟨kk, -⟩
          · exact .inl kk
          · exact .inr kk
      obtain ⟨hdef, hshape⟩ := hdef
      have hne : t ≠ e.2.ty := by
        rintro rfl
        exact hnl (loc_of _ hdef)
      have hneed : t.customName ∈ needUnit v := by
        rw [need]
        refine ⟨?_, hnl⟩
        rcases hshape with ⟨s', hs'⟩ | ⟨s', hs'⟩
        · refine ⟨e, he, s', hs', t, ?_, rfl⟩
          rw [hs', visits_struct] at hte
          rcases List.mem_append.1 hte with hte | hte
          · exact hte
          · rw [List.mem_singleton] at hte
            exact absurd (hte.trans hs'.symm) hne
        · rw [hs'] at hte
          simp only [visits, List.mem_singleton] at hte
          exact absurd (hte.trans hs'.symm) hne
      obtain ⟨q', g', -, k2', k3', k4', -⟩ := own _ hneed
      exact ⟨q', (i2 q').2 ⟨_, hneed, k4'⟩, g', k2', k3'⟩

/-! ### The hypotheses are met, and what is not true

The sample project: `a` imports `b` and `c`, which import `d`; the struct `A` of `a` has a field of type `Leaf` of `d`. -/

/-- The names of the first struct of the last unit and of the type of its first field -/
def probe : Option (List UnitD × Out (Option UnitD)) → Option (Str × Str)
  | some (us, .ok (some _)) =>
    match us.getLast? with
    | some v =>
      match v.localTypes with
      | (_, ⟨_, .struct (.mk n _ _ (.normal _ (.struct s) _ _ _ :: _))⟩) :: _ => some (n, s.name)
      | _ => none
    | none => none
  | _ => none

theorem probe_mention {r : Option (List UnitD × Out (Option UnitD))} {a b : Str} (h : probe r = some (a, b)) :
    ∃ us u s t, r = some (us, .ok (some u)) ∧ Occurs us s ∧ s.name = a ∧ Mentions s t ∧ t.customName = b := by
  unfold probe at h
  split at h
  · rename_i us u
    split at h
    · rename_i v hv
      split at h
      · rename_i n b' d x s bb ms os fs r hl
        cases h
        refine ⟨us, u, _, .struct s, rfl, ⟨v, List.mem_of_getLast? hv, _, by rw [hl]; exact List.mem_cons_self, Within.refl _⟩, rfl, ?_, rfl⟩
        exact ⟨_, _, _, _, _, List.mem_cons_self, Names.struct s⟩
      · cases h
    · cases h
  · cases h

theorem sample_probe : probe (compileFile sampleFS some 5 ['a']) = some (['A'], ['L', 'e', 'a', 'f']) := by decide +kernel

theorem sample_pos : ∀ q g, sampleFS q = .parsed g → (places g).Nodup := by
  intro q g h
  unfold sampleFS at h
  split at h
  · cases h; decide
  split at h
  · cases h; decide
  split at h
  · cases h; decide
  split at h
  · cases h; decide
  · cases h

example : ∃ us u, compileFile sampleFS some 5 ['a'] = some (us, .ok (some u)) ∧ ∃ s t, Occurs us s ∧ Mentions s t := by
  obtain ⟨us, u, s, t, h1, h2, -, h4, -⟩ := probe_mention sample_probe
  exact ⟨us, u, h1, s, t, h2, h4⟩

/-- For Java, C#, Kotlin and ESM the claim of `C56_transitive` is false: an accepted project in which a struct has a field of a type
that neither its own file nor a file named in an import statement of this file declares. -/
theorem C56_direct_fails : ∃ us u s t, compileFile sampleFS some 5 ['a'] = some (us, .ok (some u)) ∧ Occurs us s ∧
    (∃ f, sampleFS ['a'] = .parsed f ∧ s.name ∈ declared f) ∧ Mentions s t ∧
    ∀ q g, q = ['a'] ∨ Imports sampleFS ['a'] q → sampleFS q = .parsed g → t.customName ∉ declared g := by
  obtain ⟨us, u, s, t, h1, h2, h3, h4, h5⟩ := probe_mention sample_probe
  refine ⟨us, u, s, t, h1, h2, ⟨_, rfl, by rw [h3]; decide⟩, h4, ?_⟩
  rw [h5]
  intro q g hq hg
  have hq' : q = ['a'] ∨ q = ['b'] ∨ q = ['c'] := by
    rcases hq with rfl | ⟨f, hf, hi⟩
    · exact .inl rfl
    · have : f = ⟨[some ['b'], some ['c']], [['m', 'a']], [], [useTop 'A']⟩ := by
        have e : sampleFS ['a'] = .parsed ⟨[some ['b'], some ['c']], [['m', 'a']], [], [useTop 'A']⟩ := rfl
        rw [e] at hf
        cases hf
        rfl
      rw [this] at hi
      simp only [List.mem_cons, List.not_mem_nil, or_false, Option.some.injEq] at hi
      exact .inr hi
  rcases hq' with rfl | rfl | rfl
  · have e : sampleFS ['a'] = .parsed ⟨[some ['b'], some ['c']], [['m', 'a']], [], [useTop 'A']⟩ := rfl
    rw [e] at hg
    cases hg
    decide
  · have e : sampleFS ['b'] = .parsed ⟨[some ['d']], [['m', 'b']], [], [useTop 'B']⟩ := rfl
    rw [e] at hg
    cases hg
    decide
  · have e : sampleFS ['c'] = .parsed ⟨[some ['d'], some ['b']], [['m', 'c']], [], [useTop 'C']⟩ := rfl
    rw [e] at hg
    cases hg
    decide

/-- `a` imports `b` imports `d`; struct `A` has a field of type `B`, which has a field of type `Leaf`. -/
def chainFS : FS := fun p =>
  if p = ['a'] then .parsed ⟨[some ['b']], [['m', 'a']], [], [.struct (.mk 4 0 ['A'] none (.cons (.normal (.elem (.ident ['B'])) ['x'] none [] none) .nil))]⟩
  else if p = ['b'] then .parsed ⟨[some ['d']], [['m', 'b']], [], [useTop 'B']⟩
  else if p = ['d'] then .parsed ⟨[], [['m', 'd']], [], [leafTop]⟩
  else .missing

def goRun (fs : FS) : Option (List Str) :=
  match compileFile fs some 5 ['a'] with
  | some (us, .ok (some u)) => resolveImports (us.map (·.path)) (owners us) u
  | _ => none

/-- The Go output for `a` imports the one for `d` too, although `A` does not name a type of `d`: Go rejects unused imports. -/
theorem C56_go_unused : goRun chainFS = some [['d'], ['b']] := by decide +kernel

/-- `a` imports `b`, which declares nothing, says `omit_empty` and imports `d` -/
def omitFS : FS := fun p =>
  if p = ['a'] then .parsed ⟨[some ['b']], [['m', 'a']], [], [useTop 'A']⟩
  else if p = ['b'] then .parsed ⟨[some ['d']], [['m', 'b']], [⟨"omit_empty".toList, .bool true⟩], []⟩
  else if p = ['d'] then .parsed ⟨[], [['m', 'd']], [], [leafTop]⟩
  else .missing

/-- With a file left out, an output refers to one that does not exist. -/
theorem C56_omitted_fails : genRun omitFS true = some [(['d'], [['L', 'e', 'a', 'f']]), (['a'], [['A']])] ∧
    Imports omitFS ['a'] ['b'] := by
  refine ⟨by decide +kernel, _, rfl, ?_⟩
  simp

end Bubbler
