import Verif.Gen.Options

/-
C55: which types a generator writes, where and in which order.

`declared`, `places`, `Mentions`, `Within` (Verif/Gen/Spec.lean) are the specification: the types a source file declares, where
names are written in it, and which types a struct uses.
-/
namespace Bubbler
open Comp Gen

/-! ### Types in types -/

theorem names_visits {t r : CTy} (h : Names t r) : r ∈ visits t := by
  induction h with
  | struct s => rw [visits_struct]; simp
  | enum e => simp [visits]
  | array _ ih => unfold visits; exact ih

theorem visitsF_mem {fs : List FieldD} {n : Str} {ty : CTy} {b : Int} {ms : List (Str × List (Bool × Prim))} {os : List (Str × Lit)}
    (h : FieldD.normal n ty b ms os ∈ fs) {X : CTy} (hX : X ∈ visits ty) : X ∈ visitsF fs := by
  induction fs with
  | nil => cases h
  | cons f r ih =>
    rcases List.mem_cons.1 h with rfl | h'
    · unfold visitsF
      exact List.mem_append_left _ hX
    · cases f <;> unfold visitsF
      · exact List.mem_append_right _ (ih h')
      · exact ih h'
      · exact ih h'
      · exact ih h'

theorem mentions_visits {s : StructD} {t : CTy} (h : Mentions s t) : t ∈ visitsF s.fields := by
  obtain ⟨n, ty, b, ms, os, h1, h2⟩ := h
  exact visitsF_mem h1 (names_visits h2)

theorem within_visits {t r : CTy} (h : Within t r) (ht : t ∈ visits t) : r ∈ visits t := by
  induction h with
  | refl => exact ht
  | step _ m ih =>
    refine visits_trans _ _ ih _ ?_
    rw [visits_struct]
    exact List.mem_append_left _ (mentions_visits m)

theorem local_self {p : Str} {fs : FS} {u : UnitD} (h : Compiled fs p u) {e : Str × TypeDef} (he : e ∈ u.localTypes) : e.2.ty ∈ visits e.2.ty := by
  obtain ⟨f, -, t, -, -, -, k⟩ := h.local_def he
  rcases k with ⟨⟨s, e⟩, -⟩ | ⟨⟨s, e⟩, -⟩
  · rw [e, visits_struct]; simp
  · rw [e]; simp [visits]

theorem decls_ne_nil (t : TopA) : t.decls ≠ [] := by
  cases t with
  | struct d => obtain ⟨_, _, _, _, _⟩ := d; simp [TopA.decls, StructA.decls]
  | enum d => simp [TopA.decls]

theorem declared_nil {f : FileA} : declared f = [] ↔ f.tops = [] := by
  unfold declared
  cases h : f.tops with
  | nil => simp
  | cons t r => simp [decls_ne_nil]

/-- The types entered for a file are its definitions in order. -/
theorem local_names {fs : FS} (hpos : ∀ q g, fs q = .parsed g → (places g).Nodup) {p : Str} {v : UnitD} (hc : Compiled fs p v) {f : FileA}
    (hf : fs p = .parsed f) : v.localTypes.map (·.1) = f.tops.map TopA.defName := by
  have hnb := hc.not_below
  obtain ⟨f', u1, h1, g, h3, h4, h5, h6, h7, h8⟩ := hc.defs_full
  rw [hf] at h1
  cases h1
  have fi : ∀ q, Below fs p q → ∀ o, Compiled fs q o → FileInv fs q o := fun q _ o ho => Compiled.fileInv hpos ho
  have hu1 : UInv u1 := FileInv.start hc fi h5 h6 h8 g
  have hcl : Clean u1 (places f) := by
    intro e he p' _ e2
    obtain ⟨_, -, -, hb⟩ := h6 _ he
    rw [e2, h3] at hb
    exact hnb hb
  have := Defs.names_order h4 g hu1 hcl (hpos p f hf)
  rw [this, h7]
  rfl

/-! ### C55 -/

/-- A file is left out: it declares nothing and has the option `omit_empty = true`. -/
def Omitted (f : FileA) : Prop := f.tops = [] ∧ ∃ o ∈ f.opts, o.name = "omit_empty".toList ∧ litOf o.val = some (.bool true)

theorem skipped_iff {fs : FS} (hpos : ∀ q g, fs q = .parsed g → (places g).Nodup) {v : UnitD} {f : FileA} (hc : Compiled fs v.path v)
    (hf : fs v.path = .parsed f) : skipped v = true ↔ Omitted f := by
  have fi := Compiled.fileInv hpos hc
  have : v.localTypes = [] ↔ f.tops = [] := by
    constructor
    · intro h
      rw [← declared_nil]
      rcases hd : declared f with _ | ⟨n, r⟩
      · rfl
      · obtain ⟨X, hX, -⟩ := (fi.decls f hf).2.1 n (by rw [hd]; simp)
        rw [h] at hX
        simp [visitsT] at hX
    · intro h
      rcases hd : v.localTypes with _ | ⟨e, r⟩
      · rfl
      · obtain ⟨f', hf', t, ht, -⟩ := hc.local_def (e := e) (by rw [hd]; simp)
        rw [hf] at hf'
        cases hf'
        rw [h] at ht
        cases ht
  unfold skipped Omitted omitEmpty
  rw [Bool.and_eq_true, List.isEmpty_iff, this, decide_eq_true_iff, hc.option_iff hf]

theorem _root_.Bubbler.Gen.Project.not_skipped_iff {fs : FS} {us : List UnitD} {u v : UnitD} (P : Project fs us u) (hv : v ∈ us) :
    v.path ∈ (us.filter fun u => !skipped u).map (·.path) ↔ ¬ skipped v = true := by
  constructor
  · intro hx hs
    obtain ⟨w, hw, e⟩ := List.mem_map.1 hx
    obtain ⟨hw1, hw2⟩ := List.mem_filter.1 hw
    have := P.unique hw1 hv e
    subst this
    rw [hs] at hw2
    cases hw2
  · intro hs
    exact List.mem_map.2 ⟨v, List.mem_filter.2 ⟨hv, by simpa using hs⟩, rfl⟩

/-- C55: a successful run of a generator over an accepted project (for all targets but ESM and Kotlin):

* every type is written once;
* there is one output for every file of the project, in the order of compilation, except for the files that declare nothing and
  say `omit_empty`; it contains exactly the types the file declares, those declared inside other definitions included;
* a struct is written after every struct and enum that the types of its fields name. -/
theorem C55_types (fs : FS) (abs : Str → Option Str) (n : Nat) (file : Str) (us : List UnitD) (u : UnitD)
    (h : compileFile fs abs n file = some (us, .ok (some u))) (hpos : ∀ q g, fs q = .parsed g → (places g).Nodup)
    (cfg : GenCfg) (hd : cfg.deep = true) (out : List OutUnit) (hg : generate cfg us = some out) :
    (out.flatMap (·.types)).Nodup ∧
    (out.map (·.path)).Sublist (us.map (·.path)) ∧
    (∀ v ∈ us, ∃ f, fs v.path = .parsed f ∧ (v.path ∈ out.map (·.path) ↔ ¬ Omitted f)) ∧
    (∀ o ∈ out, ∃ f, fs o.path = .parsed f ∧ ∀ n, n ∈ o.types ↔ n ∈ declared f) ∧
    (∀ v ∈ us, ∀ e ∈ v.localTypes, ∀ s, Within e.2.ty (.struct s) → ∀ t, Mentions s t →
      ∃ pre post, out.flatMap (·.types) = pre ++ s.name :: post ∧ t.customName ∈ pre) := by
  have P := Project.of h hpos
  obtain ⟨r1, r2, r3, r4⟩ := genUnits_ran hd P.same us [] ⟨[], []⟩ out hg (fun v hv => P.visits_sub hv) rfl ⟨List.nodup_nil, by simp⟩
  simp only [List.nil_append] at r2
  refine ⟨r2.nodup, ?_, ?_, ?_, ?_⟩
  · rw [r1]
    exact List.filter_sublist.map _
  · intro v hv
    obtain ⟨f, hf⟩ := P.parsed hv
    refine ⟨f, hf, ?_⟩
    rw [← skipped_iff hpos (P.comp v hv) hf, r1]
    exact P.not_skipped_iff hv
  · intro o ho
    have hm : o.path ∈ out.map (·.path) := List.mem_map.2 ⟨o, ho, rfl⟩
    rw [r1] at hm
    obtain ⟨v, hv, e⟩ := List.mem_map.1 hm
    obtain ⟨hv, hs⟩ := List.mem_filter.1 hv
    obtain ⟨f, hf⟩ := P.parsed hv
    obtain ⟨l1, l2, hl⟩ := List.append_of_mem hv
    obtain ⟨o1, o', o2, ho', hp, -, ht⟩ := r4 l1 v l2 hl (by simpa using hs)
    -- the same output
    have houts : (out.map (·.path)).Nodup := by
      rw [r1]
      exact (List.filter_sublist.map _).nodup P.nodup
    have : o' = o := map_nodup_unique houts (by rw [ho']; simp) ho (hp.trans e)
    subst this
    refine ⟨f, by rw [← e]; exact hf, ?_⟩
    intro m
    rw [ht m, P.declared_iff hl hf m]
    simp
  · intro v hv e he s hw t hm
    have hX' : CTy.struct s ∈ visitsT v.localTypes := visitsT_mem he (within_visits hw (local_self (P.comp v hv) he))
    have hX := P.visits_sub hv _ hX'
    have hin : s.name ∈ out.flatMap (·.types) := (r3 s.name).2 (.inr ⟨v, hv, _, hX', rfl⟩)
    obtain ⟨pre, post, hout⟩ := List.append_of_mem hin
    refine ⟨pre, post, hout, ?_⟩
    exact r2.before (.struct s) hX pre post hout t (mentions_visits hm)

/-! The hypotheses are met: a project of two files, with a struct declared inside another one, one embedded, and an enum. -/

def outerTop : TopA := .struct (.mk 5 0 ['O'] none
  (.cons (.normal (.elem (.structDef (.mk 6 2 ['I'] none (.cons (.normal (.elem (.ident ['L', 'e', 'a', 'f'])) ['y'] none [] none) .nil)))) ['i'] none [] none)
  (.cons (.embedded (.elem (.structDef (.mk 7 2 ['G'] none (.cons (.normal (.elem (.structDef (.mk 7 9 ['H'] none
    (.cons (.normal (.elem (.basic .u8)) ['w'] none [] none) .nil)))) ['h'] none [] none) .nil)))) [])
  (.cons (.normal (.array (.ident ['E']) ['2']) ['z'] none [] none) .nil))))

def enumTop : TopA := .enum ⟨4, 0, ['E'], ⟨some ['1'], none⟩, [.value 4 8 ['Q'] none, .value 4 11 ['R'] none]⟩

def genFS : FS := fun p =>
  if p = ['a'] then .parsed ⟨[some ['d']], [['m', 'a']], [], [enumTop, outerTop]⟩
  else if p = ['d'] then .parsed ⟨[], [['m', 'd']], [], [leafTop]⟩
  else .missing

def genCfg (deep : Bool) : GenCfg := ⟨deep, fun _ => false, fun _ => none, fun _ _ => []⟩

def genRun (fs : FS) (deep : Bool) : Option (List (Str × List Str)) :=
  match compileFile fs some 5 ['a'] with
  | some (us, .ok (some _)) => (generate (genCfg deep) us).map fun o => o.map fun x => (x.path, x.types)
  | _ => none

theorem gen_pos : ∀ q g, genFS q = .parsed g → (places g).Nodup := by
  intro q g h
  unfold genFS at h
  split at h
  · cases h; decide
  split at h
  · cases h; decide
  · cases h

theorem gen_run : genRun genFS true = some [(['d'], [['L', 'e', 'a', 'f']]), (['a'], [['E'], ['I'], ['H'], ['O']])] := by decide +kernel

example : ∃ us u out, compileFile genFS some 5 ['a'] = some (us, .ok (some u)) ∧ generate (genCfg true) us = some out := by
  have h := gen_run
  unfold genRun at h
  rcases e : compileFile genFS some 5 ['a'] with _ | ⟨us, o⟩
  · rw [e] at h; cases h
  · rw [e] at h
    rcases o with (_ | u) | es | _
    · cases h
    · simp only at h
      rcases e2 : generate (genCfg true) us with _ | out
      · rw [e2] at h; cases h
      · exact ⟨us, u, out, rfl, e2⟩
    · cases h
    · cases h

/-! ### ESM and Kotlin -/

/-- The ESM and Kotlin generators write the types at the top level only. -/
theorem genTy_shallow {g : GenCfg} (hd : g.deep = false) (fs : List FieldD) (st : GenSt) : genFields g fs st = some st := by
  induction fs with
  | nil => rfl
  | cons f r ih => cases f <;> simp [genFields, hd, ih]

theorem genTop_shallow {g : GenCfg} (hd : g.deep = false) {t : CTy} (ht : (∃ s, t = .struct s) ∨ ∃ e, t = .enum e) {st st' : GenSt}
    (h : genTy g t st = some st') (hs : st.stack = []) (hn : t.customName ∉ st.done) : st' = ⟨st.done ++ [t.customName], []⟩ := by
  obtain ⟨done, stack⟩ := st
  simp only at hs hn
  subst hs
  have e1 : ∀ n : Str, n ∉ done → GenSt.finish n ⟨done, sput [] n⟩ = ⟨done ++ [n], []⟩ := by
    intro n hn
    simp [GenSt.finish, sput, hn]
  rcases ht with ⟨⟨n, b, d, fs⟩, rfl⟩ | ⟨e, rfl⟩
  · have hn' : n ∉ done := hn
    unfold genTy at h
    rw [if_neg hn', if_neg (by simp), genTy_shallow hd] at h
    simp only at h
    split at h
    · cases h
    · cases h
      exact e1 n hn'
  · have hn' : e.name ∉ done := hn
    unfold genTy at h
    rw [if_neg hn', if_neg (by simp)] at h
    split at h
    · cases h
    · cases h
      exact e1 _ hn'

theorem genTypes_shallow {g : GenCfg} (hd : g.deep = false) (ts : List (Str × TypeDef)) (st st' : GenSt) (h : genTypes g ts st = some st')
    (ht : ∀ e ∈ ts, ((∃ s, e.2.ty = .struct s) ∨ ∃ x, e.2.ty = .enum x) ∧ e.2.ty.customName = e.1) (hs : st.stack = [])
    (hn : (ts.map (·.1)).Nodup) (hno : ∀ n ∈ ts.map (·.1), n ∉ st.done) : st' = ⟨st.done ++ ts.map (·.1), []⟩ := by
  induction ts generalizing st with
  | nil =>
    unfold genTypes at h
    simp only [Option.some.injEq] at h
    subst h
    obtain ⟨done, stack⟩ := st
    simp only at hs
    simp [hs]
  | cons e r ih =>
    obtain ⟨n, td⟩ := e
    unfold genTypes at h
    rcases k : genTy g td.ty st with _ | st1
    · rw [k] at h; cases h
    rw [k] at h
    simp only at h
    obtain ⟨h1, h2⟩ := ht (n, td) (by simp)
    simp only at h1 h2
    have e1 := genTop_shallow hd h1 k hs (by rw [h2]; exact hno n (by simp))
    rw [h2] at e1
    rw [List.map_cons, List.nodup_cons] at hn
    have := ih st1 h (fun e he => ht e (List.mem_cons_of_mem _ he)) (by rw [e1]) hn.2 (by
      intro m hm
      rw [e1]
      simp only [List.mem_append, List.mem_singleton, not_or]
      refine ⟨hno m (List.mem_cons_of_mem _ hm), ?_⟩
      rintro rfl
      exact hn.1 hm)
    rw [this, e1]
    simp

theorem genUnit_shallow {g : GenCfg} (hd : g.deep = false) {u : UnitD} {keys keys' : List Str} {st st' : GenSt} {o : Option OutUnit}
    (h : genUnit g u keys st = some (keys', st', o)) (ht : ∀ e ∈ u.localTypes, ((∃ s, e.2.ty = .struct s) ∨ ∃ x, e.2.ty = .enum x) ∧ e.2.ty.customName = e.1)
    (hs : st.stack = []) (hn : (u.localTypes.map (·.1)).Nodup) (hno : ∀ n ∈ u.localTypes.map (·.1), n ∉ st.done) :
    st' = ⟨st.done ++ u.localTypes.map (·.1), []⟩ ∧ o = if skipped u then none else some ⟨u.path, u.localTypes.map (·.1), g.files u (u.localTypes.map (·.1))⟩ := by
  unfold genUnit at h
  by_cases hk : skipped u = true
  · rw [if_pos hk] at h
    cases h
    have : u.localTypes = [] := by
      unfold skipped at hk
      simp only [Bool.and_eq_true, List.isEmpty_iff] at hk
      exact hk.1
    obtain ⟨done, stack⟩ := st
    simp only at hs
    simp [this, hk, hs]
  · rw [if_neg hk] at h ⊢
    have key : ∀ st1, genTypes g u.localTypes st = some st1 → st1 = ⟨st.done ++ u.localTypes.map (·.1), []⟩ :=
      fun st1 k => genTypes_shallow hd _ _ _ k ht hs hn hno
    rcases hg : g.key u with _ | x
    · rw [hg] at h
      simp only at h
      rcases k : genTypes g u.localTypes st with _ | st1
      · rw [k] at h; cases h
      · rw [k] at h
        cases h
        rw [key _ k]
        simp
    · rw [hg] at h
      simp only at h
      split at h
      · cases h
      rcases k : genTypes g u.localTypes st with _ | st1
      · rw [k] at h; cases h
      · rw [k] at h
        cases h
        rw [key _ k]
        simp

theorem genUnits_shallow {g : GenCfg} (hd : g.deep = false) (us : List UnitD) (keys : List Str) (st : GenSt) (out : List OutUnit)
    (h : genUnits g us keys st = some out)
    (ht : ∀ u ∈ us, ∀ e ∈ u.localTypes, ((∃ s, e.2.ty = .struct s) ∨ ∃ x, e.2.ty = .enum x) ∧ e.2.ty.customName = e.1)
    (hs : st.stack = []) (hn : (us.flatMap fun u => u.localTypes.map (·.1)).Nodup)
    (hno : ∀ n ∈ us.flatMap fun u => u.localTypes.map (·.1), n ∉ st.done) :
    out = (us.filter fun u => !skipped u).map fun u => ⟨u.path, u.localTypes.map (·.1), g.files u (u.localTypes.map (·.1))⟩ := by
  induction us generalizing keys st out with
  | nil => unfold genUnits at h; cases h; rfl
  | cons u r ih =>
    unfold genUnits at h
    rcases k : genUnit g u keys st with _ | ⟨keys', st', o⟩
    · rw [k] at h; cases h
    rw [k] at h
    simp only at h
    rcases k2 : genUnits g r keys' st' with _ | os
    · rw [k2] at h; cases h
    rw [k2] at h
    simp only [Option.some.injEq] at h
    subst h
    rw [List.flatMap_cons, List.nodup_append] at hn
    obtain ⟨n1, n2, n3⟩ := hn
    obtain ⟨e1, e2⟩ := genUnit_shallow hd k (ht u (by simp)) hs n1 (fun n hn => hno n (by rw [List.flatMap_cons]; exact List.mem_append_left _ hn))
    have := ih keys' st' os k2 (fun v hv => ht v (List.mem_cons_of_mem _ hv)) (by rw [e1]) n2 (by
      intro n hn
      rw [e1]
      simp only [List.mem_append, not_or]
      exact ⟨hno n (by rw [List.flatMap_cons]; exact List.mem_append_right _ hn), fun hx => n3 n hx n hn rfl⟩)
    rw [this, e2]
    cases hk : skipped u <;> simp [hk]

/-- C55, the other half: what the ESM and Kotlin generators write for a file are its definitions at the top level, in the order of
the file.  By `C55_types` this is all a file declares only if it has no structs inside structs. -/
theorem C55_top_level (fs : FS) (abs : Str → Option Str) (n : Nat) (file : Str) (us : List UnitD) (u : UnitD)
    (h : compileFile fs abs n file = some (us, .ok (some u))) (hpos : ∀ q g, fs q = .parsed g → (places g).Nodup)
    (cfg : GenCfg) (hd : cfg.deep = false) (out : List OutUnit) (hg : generate cfg us = some out) :
    (out.flatMap (·.types)).Nodup ∧
    (out.map (·.path)).Sublist (us.map (·.path)) ∧
    (∀ v ∈ us, ∃ f, fs v.path = .parsed f ∧ (v.path ∈ out.map (·.path) ↔ ¬ Omitted f)) ∧
    ∀ o ∈ out, ∃ f, fs o.path = .parsed f ∧ o.types = f.tops.map TopA.defName := by
  have P := Project.of h hpos
  have hcomp := P.comp
  have hnd := P.nodup
  have hcu := hcomp u P.last
  have sub : ∀ v ∈ us, ∀ e ∈ v.localTypes, e ∈ u.globalTypes := fun v hv => P.types_sub hv
  have ht : ∀ v ∈ us, ∀ e ∈ v.localTypes, ((∃ s, e.2.ty = .struct s) ∨ ∃ x, e.2.ty = .enum x) ∧ e.2.ty.customName = e.1 := by
    intro v hv e he
    obtain ⟨f, -, t, -, k1, -, k⟩ := (hcomp v hv).local_def he
    refine ⟨?_, hcu.full.good.keyed.key e.1 e.2 (sub v hv e he)⟩
    rcases k with ⟨k, -⟩ | ⟨k, -⟩
    · exact .inl k
    · exact .inr k
  have hall : ∀ l : List UnitD, l.Sublist us → (l.flatMap fun u => u.localTypes.map (·.1)).Nodup := by
    intro l hl
    induction l with
    | nil => simp
    | cons v r ih =>
      have hv : v ∈ us := hl.subset (by simp)
      rw [List.flatMap_cons, List.nodup_append]
      refine ⟨(hcomp v hv).full.good.locNodup, ih ((List.sublist_cons_self v r).trans hl), ?_⟩
      rintro a ha b hb rfl
      obtain ⟨e, he, e1⟩ := List.mem_map.1 ha
      obtain ⟨w, hw, hb⟩ := List.mem_flatMap.1 hb
      obtain ⟨e', he', e2⟩ := List.mem_map.1 hb
      have hwu : w ∈ us := hl.subset (List.mem_cons_of_mem _ hw)
      have heq : e = e' := map_nodup_unique (C33_tables fs u.path u hcu).1 (sub v hv e he) (sub w hwu e' he') (e1.trans e2.symm)
      subst heq
      have p1 := (((hcomp v hv).full.good.locTypes e).1 he).2
      have p2 := (((hcomp w hwu).full.good.locTypes e).1 he').2
      have nd := (hl.map (·.path)).nodup hnd
      rw [List.map_cons, List.nodup_cons] at nd
      exact nd.1 (List.mem_map.2 ⟨w, hw, p2.symm.trans p1⟩)
  have r := genUnits_shallow hd us [] ⟨[], []⟩ out hg ht rfl (hall us (List.Sublist.refl _)) (by simp)
  have rp : out.map (·.path) = (us.filter fun u => !skipped u).map (·.path) := by
    rw [r, List.map_map]
    rfl
  refine ⟨?_, ?_, ?_, ?_⟩
  · rw [r, List.flatMap_map]
    exact hall _ List.filter_sublist
  · rw [rp]
    exact List.filter_sublist.map _
  · intro v hv
    obtain ⟨f, hf⟩ := P.parsed hv
    refine ⟨f, hf, ?_⟩
    rw [← skipped_iff hpos (hcomp v hv) hf, rp]
    exact P.not_skipped_iff hv
  · intro o ho
    rw [r] at ho
    obtain ⟨v, hv, rfl⟩ := List.mem_map.1 ho
    obtain ⟨hv, -⟩ := List.mem_filter.1 hv
    obtain ⟨f, hf⟩ := P.parsed hv
    exact ⟨f, hf, local_names hpos (hcomp v hv) hf⟩

/-- The struct `I` declared inside `O` and the struct `H` are used by the code for `O`, but not written. -/
theorem C55_shallow_misses : genRun genFS false = some [(['d'], [['L', 'e', 'a', 'f']]), (['a'], [['E'], ['O']])] := by decide +kernel

/-! ### When generation fails -/

mutual
  theorem genTy_some {g : GenCfg} (hf : ∀ n, g.fails n = false) : ∀ (t : CTy) (st : GenSt), ∃ st', genTy g t st = some st'
    | .basic _, st => ⟨st, by simp [genTy]⟩
    | .str, st => ⟨st, by simp [genTy]⟩
    | .bytes, st => ⟨st, by simp [genTy]⟩
    | .array e _, st => by
      unfold genTy
      exact genTy_some hf e st
    | .struct (.mk n _ _ fs), st => by
      unfold genTy
      split
      · exact ⟨_, rfl⟩
      split
      · exact ⟨_, rfl⟩
      obtain ⟨st', h⟩ := genFields_some hf fs ⟨st.done, sput st.stack n⟩
      rw [h]
      simp [hf]
    | .enum e, st => by
      unfold genTy
      split
      · exact ⟨_, rfl⟩
      split
      · exact ⟨_, rfl⟩
      simp [hf]
  theorem genFields_some {g : GenCfg} (hf : ∀ n, g.fails n = false) : ∀ (fs : List FieldD) (st : GenSt), ∃ st', genFields g fs st = some st'
    | [], st => ⟨st, by simp [genFields]⟩
    | .normal _ t _ _ _ :: r, st => by
      unfold genFields
      split
      · obtain ⟨st', h⟩ := genTy_some hf t st
        rw [h]
        exact genFields_some hf r st'
      · exact genFields_some hf r st
    | .void _ :: r, st => by
      unfold genFields
      exact genFields_some hf r st
    | .embedded _ _ :: r, st => by
      unfold genFields
      exact genFields_some hf r st
    | .const _ _ _ _ _ :: r, st => by
      unfold genFields
      exact genFields_some hf r st
end

theorem genTypes_some {g : GenCfg} (hf : ∀ n, g.fails n = false) (ts : List (Str × TypeDef)) (st : GenSt) : ∃ st', genTypes g ts st = some st' := by
  induction ts generalizing st with
  | nil => exact ⟨st, rfl⟩
  | cons e r ih =>
    obtain ⟨n, t⟩ := e
    obtain ⟨st', h⟩ := genTy_some hf t.ty st
    unfold genTypes
    rw [h]
    exact ih st'

/-- The keys by which the Go and Java generators tell their outputs apart -/
def outKeys (g : GenCfg) (us : List UnitD) : List Str := (us.filter fun u => !skipped u).filterMap g.key

theorem genUnits_some_iff {g : GenCfg} (hf : ∀ n, g.fails n = false) (us : List UnitD) (ks : List Str) (st : GenSt) :
    (∃ out, genUnits g us ks st = some out) ↔ (outKeys g us).Nodup ∧ ∀ k ∈ outKeys g us, k ∉ ks := by
  induction us generalizing ks st with
  | nil => simp [genUnits, outKeys]
  | cons u r ih =>
    unfold genUnits genUnit
    by_cases hk : skipped u = true
    · have e : outKeys g (u :: r) = outKeys g r := by simp [outKeys, hk]
      rw [if_pos hk, e, ← ih ks st]
      simp only
      constructor
      · rintro ⟨out, h⟩
        rcases k : genUnits g r ks st with _ | os
        · rw [k] at h; cases h
        · exact ⟨os, rfl⟩
      · rintro ⟨os, h⟩
        rw [h]
        exact ⟨_, rfl⟩
    · rw [if_neg hk]
      obtain ⟨st', h⟩ := genTypes_some hf u.localTypes st
      rcases hg : g.key u with _ | x
      · have e : outKeys g (u :: r) = outKeys g r := by simp [outKeys, hk, hg]
        rw [h, e, ← ih ks st']
        simp only
        constructor
        · rintro ⟨out, h⟩
          rcases k : genUnits g r ks st' with _ | os
          · rw [k] at h; cases h
          · exact ⟨os, rfl⟩
        · rintro ⟨os, h⟩
          rw [h]
          exact ⟨_, rfl⟩
      · have e : outKeys g (u :: r) = x :: outKeys g r := by simp [outKeys, hk, hg]
        rw [h, e]
        simp only
        by_cases hx : x ∈ ks
        · rw [if_pos hx]
          simp [hx]
        · rw [if_neg hx]
          simp only
          have := ih (ks ++ [x]) st'
          constructor
          · rintro ⟨out, h⟩
            rcases k : genUnits g r (ks ++ [x]) st' with _ | os
            · rw [k] at h; cases h
            · obtain ⟨a, b⟩ := this.1 ⟨os, k⟩
              refine ⟨List.nodup_cons.2 ⟨fun hm => b x hm (by simp), a⟩, ?_⟩
              intro y hy
              rcases List.mem_cons.1 hy with rfl | hy
              · exact hx
              · exact fun hm => b y hy (List.mem_append_left _ hm)
          · rintro ⟨a, b⟩
            rw [List.nodup_cons] at a
            obtain ⟨os, k⟩ := this.2 ⟨a.2, fun y hy hm => by
              rcases List.mem_append.1 hm with hm | hm
              · exact b y (List.mem_cons_of_mem _ hy) hm
              · rw [List.mem_singleton] at hm
                subst hm
                exact a.1 hy⟩
            rw [k]
            exact ⟨_, rfl⟩

/-- C55: if the text of every type can be produced, generation succeeds exactly when the units that are not left out have
different keys; targets without keys always succeed. -/
theorem C55_succeeds (g : GenCfg) (hf : ∀ n, g.fails n = false) (us : List UnitD) :
    (∃ out, generate g us = some out) ↔ (outKeys g us).Nodup := by
  unfold generate
  rw [genUnits_some_iff hf]
  simp

end Bubbler
