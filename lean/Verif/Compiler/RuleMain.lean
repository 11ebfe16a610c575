import Verif.Compiler.RuleDefs
import Verif.Compiler.ErrProofs
import Verif.Compiler.RuntimeSound

/-
C75: a project is accepted exactly if it obeys the rules.
-/
namespace Bubbler.Comp
open Front (FlatTy)
open Gen (keys Clean mem_keys places)

variable {fs : FS}

/-- The definitions of `p` and of the files it imports -/
def fullScope (fs : FS) (D : Str → List CTy) (p : Str) : Scope where
  type n t := ∃ q, Reach fs p q ∧ t ∈ D q ∧ n = t.ident
  val n v := ∃ q e, Reach fs p q ∧ .enum e ∈ D q ∧ (n, v) ∈ e.values

theorem foldl_type (ds : List CTy) (Γ : Scope) (n : Str) (t : CTy) :
    (ds.foldl Scope.add Γ).type n t ↔ Γ.type n t ∨ t ∈ ds ∧ n = t.ident := by
  induction ds generalizing Γ with
  | nil => simp
  | cons d r ih =>
    rw [List.foldl_cons, ih]
    simp only [Scope.add, List.mem_cons]
    constructor
    · rintro ((h | ⟨rfl, rfl⟩) | ⟨h1, h2⟩)
      · exact .inl h
      · exact .inr ⟨.inl rfl, rfl⟩
      · exact .inr ⟨.inr h1, h2⟩
    · rintro (h | ⟨rfl | h1, h2⟩)
      · exact .inl (.inl h)
      · exact .inl (.inr ⟨h2, rfl⟩)
      · exact .inr ⟨h1, h2⟩

theorem foldl_val (ds : List CTy) (Γ : Scope) (n : Str) (v : Int) :
    (ds.foldl Scope.add Γ).val n v ↔ Γ.val n v ∨ ∃ e, .enum e ∈ ds ∧ (n, v) ∈ e.values := by
  induction ds generalizing Γ with
  | nil => simp
  | cons d r ih =>
    rw [List.foldl_cons, ih]
    simp only [Scope.add, List.mem_cons]
    constructor
    · rintro ((h | ⟨e, rfl, h⟩) | ⟨e, h1, h2⟩)
      · exact .inl h
      · exact .inr ⟨e, .inl rfl, h⟩
      · exact .inr ⟨e, .inr h1, h2⟩
    · rintro (h | ⟨e, h1 | h1, h2⟩)
      · exact .inl (.inl h)
      · exact .inl (.inr ⟨e, h1.symm, h2⟩)
      · exact .inr ⟨e, h1, h2⟩

theorem reach_iff {p q : Str} : Reach fs p q ↔ p = q ∨ Below fs p q := by
  constructor
  · exact Reach.cases_head
  · rintro (rfl | h)
    · exact .refl
    · exact h.reach

theorem Match.congr {Γ Δ : Scope} {u : UnitD} (h : Match Γ u) (ht : ∀ n t, Δ.type n t ↔ Γ.type n t) (hv : ∀ n v, Δ.val n v ↔ Γ.val n v) :
    Match Δ u := ⟨fun n t => (ht n t).trans (h.type n t), fun n v => (hv n v).trans (h.val n v), fun n t k => h.flat n t ((ht n t).1 k)⟩

/-- The scope of a file and its own definitions -/
theorem Match.full {D : Str → List CTy} {p : Str} {u : UnitD} (h : Match ((D p).foldl Scope.add (scopeOf fs D p)) u) :
    Match (fullScope fs D p) u := by
  refine h.congr (fun n t => ?_) (fun n v => ?_)
  · rw [foldl_type]
    simp only [fullScope, scopeOf, reach_iff]
    constructor
    · rintro ⟨q, rfl | hq, h1, h2⟩
      · exact .inr ⟨h1, h2⟩
      · exact .inl ⟨q, hq, h1, h2⟩
    · rintro (⟨q, hq, h1, h2⟩ | ⟨h1, h2⟩)
      · exact ⟨q, .inr hq, h1, h2⟩
      · exact ⟨p, .inl rfl, h1, h2⟩
  · rw [foldl_val]
    simp only [fullScope, scopeOf, reach_iff]
    constructor
    · rintro ⟨q, e, rfl | hq, h1, h2⟩
      · exact .inr ⟨e, h1, h2⟩
      · exact .inl ⟨q, e, hq, h1, h2⟩
    · rintro (⟨q, e, hq, h1, h2⟩ | ⟨e, h1, h2⟩)
      · exact ⟨q, e, .inr hq, h1, h2⟩
      · exact ⟨p, e, .inl rfl, h1, h2⟩

/-- The unit `u` of the file `p` holds the definitions `D`. -/
structure Meets (fs : FS) (D : Str → List CTy) (p : Str) (u : UnitD) : Prop where
  scope : Match (fullScope fs D p) u
  types : u.localTypes.map (·.2.ty) = D p
  names : ∀ n, n ∈ u.localNames.map (·.1) ↔ n ∈ introduces fs p
  once : (introduces fs p).Nodup

theorem below_trans {p q r : Str} (h : Below fs p q) (k : Reach fs q r) : Below fs p r := by
  obtain ⟨x, h1, h2⟩ := h
  exact ⟨x, h1, h2.trans k⟩

theorem imports_list {p : Str} {f : FileA} {ps : List Str} (hf : fs p = .parsed f) (hi : f.imports = ps.map some) (q : Str) :
    q ∈ ps ↔ Imports fs p q := by
  constructor
  · intro hq
    exact ⟨f, hf, by rw [hi]; exact List.mem_map.2 ⟨q, hq, rfl⟩⟩
  · rintro ⟨f', hf', hq⟩
    rw [hf] at hf'
    cases hf'
    rw [hi] at hq
    obtain ⟨x, hx, e⟩ := List.mem_map.1 hq
    cases e
    exact hx

theorem below_list {p : Str} {ps : List Str} (hi : ∀ q, q ∈ ps ↔ Imports fs p q) (q : Str) :
    (∃ r ∈ ps, Reach fs r q) ↔ Below fs p q := by
  constructor
  · rintro ⟨r, hr, hq⟩; exact ⟨r, (hi r).1 hr, hq⟩
  · rintro ⟨r, hr, hq⟩; exact ⟨r, (hi r).2 hr, hq⟩

theorem part_good {p : Str} {ps : List Str} {u : UnitD} (h : Part fs p ps u) (hi : ∀ q, q ∈ ps ↔ Imports fs p q) (hno : ¬ Below fs p p) :
    Good u := by
  refine ⟨⟨h.keyed.names, by rw [h.localNames]; exact List.nodup_nil, ?_⟩, h.keyed, by rw [h.localTypes]; exact List.nodup_nil, ?_⟩
  · intro e
    rw [h.localNames]
    constructor
    · intro he; cases he
    · rintro ⟨he, hp⟩
      obtain ⟨o, -, -, hr⟩ := h.names e he
      rw [hp, h.path] at hr
      exact absurd ((below_list hi p).1 hr) hno
  · intro e
    rw [h.localTypes]
    constructor
    · intro he; cases he
    · rintro ⟨he, hp⟩
      obtain ⟨o, -, -, hr⟩ := h.types e he
      rw [hp, h.path] at hr
      exact absurd ((below_list hi p).1 hr) hno

/-- After the imports everything that is imported is in scope. -/
theorem part_match {D : Str → List CTy} {p : Str} {ps : List Str} {u : UnitD} (h : Part fs p ps u) (hi : ∀ q, q ∈ ps ↔ Imports fs p q)
    (hb : ∀ q, Below fs p q → ∃ o, Compiled fs q o ∧ Meets fs D q o) : Match (scopeOf fs D p) u := by
  have one : ∀ q o, Below fs p q → Compiled fs q o → Meets fs D q o := by
    intro q o hq ho
    obtain ⟨o', h1, h2⟩ := hb q hq
    rw [h1.det ho] at h2
    exact h2
  refine ⟨?_, ?_, ?_⟩
  · intro n t
    constructor
    · rintro ⟨q, hq, h1, h2⟩
      obtain ⟨o, ho, hm⟩ := hb q hq
      obtain ⟨d, k1, k2⟩ := (hm.scope.type n t).1 ⟨q, .refl, h1, h2⟩
      have := (h.closed q o ((h.imports q).2 ((below_list hi q).2 hq)) ho).1 _ (aget_mem k1)
      exact ⟨d, (aget_some_iff h.keyed.types).2 this, k2⟩
    · rintro ⟨d, k1, k2⟩
      obtain ⟨o, ho, hl, hr⟩ := h.types _ (aget_mem k1)
      have hq := (below_list hi _).1 hr
      have fo := ho.full
      have := ((fo.good.locTypes _).1 hl).1
      obtain ⟨q', r1, r2, r3⟩ := ((one _ o hq ho).scope.type n t).2 ⟨d, (aget_some_iff fo.good.keyed.types).2 this, k2⟩
      exact ⟨q', below_trans hq r1, r2, r3⟩
  · intro n v
    constructor
    · rintro ⟨q, e, hq, h1, h2⟩
      obtain ⟨o, ho, hm⟩ := hb q hq
      obtain ⟨d, k1, k2⟩ := (hm.scope.val n v).1 ⟨q, e, .refl, h1, h2⟩
      have := (h.closed q o ((h.imports q).2 ((below_list hi q).2 hq)) ho).2 _ (aget_mem k1)
      exact ⟨d, (aget_some_iff h.keyed.names).2 this, k2⟩
    · rintro ⟨d, k1, k2⟩
      obtain ⟨o, ho, hl, hr⟩ := h.names _ (aget_mem k1)
      have hq := (below_list hi _).1 hr
      have fo := ho.full
      have := ((fo.good.tab.localIff _).1 hl).1
      obtain ⟨q', e, r1, r2, r3⟩ := ((one _ o hq ho).scope.val n v).2 ⟨d, (aget_some_iff fo.good.keyed.names).2 this, k2⟩
      exact ⟨q', e, below_trans hq r1, r2, r3⟩
  · rintro n t ⟨q, hq, h1, h2⟩
    obtain ⟨o, ho, hm⟩ := hb q hq
    exact hm.scope.flat n t ⟨q, .refl, h1, h2⟩

theorem introduces_eq {p : Str} {f : FileA} (hf : fs p = .parsed f) : introduces fs p = f.tops.flatMap TopA.intro := by
  unfold introduces
  rw [hf]

/-- After the definitions -/
theorem meets_of {D : Str → List CTy} {p : Str} {f : FileA} {ps : List Str} {u u' : UnitD} (h : Part fs p ps u)
    (hi : ∀ q, q ∈ ps ↔ Imports fs p q) (hf : fs p = .parsed f) (hc : Compiled fs p u') (hd : Defs f.tops u u')
    (hin : DefsIn (scopeOf fs D p) f.tops (D p) u u') : Meets fs D p u' := by
  have fo := hc.full
  have hno := hc.not_below
  have pr := proto_visitProto f.tops [] u
  rw [visitProto_ok.2 hd] at pr
  obtain ⟨x, hx, hxf⟩ := pr.globalNames
  refine ⟨hin.scope.full, ?_, ?_, ?_⟩
  · rw [hin.types, h.localTypes]
    rfl
  · intro n
    rw [introduces_eq hf]
    constructor
    · intro hn
      obtain ⟨⟨m, d⟩, he, rfl⟩ := List.mem_map.1 hn
      obtain ⟨h1, h2⟩ := (fo.good.tab.localIff _).1 he
      have hk : m ∈ keys u' := mem_keys h1
      rw [hin.keys] at hk
      rcases List.mem_append.1 hk with hk | hk
      · exfalso
        obtain ⟨⟨m', d'⟩, he', rfl⟩ := List.mem_map.1 hk
        have : (m', d') ∈ u'.globalNames := by rw [hx]; exact List.mem_append_left _ he'
        have := nodup_unique fo.good.keyed.names this h1
        subst this
        obtain ⟨o, -, -, hr⟩ := h.names _ he'
        simp only at h2 hr
        rw [h2, fo.path] at hr
        exact hno ((below_list hi p).1 hr)
      · exact hk
    · intro hn
      have hk : n ∈ keys u' := by rw [hin.keys]; exact List.mem_append_right _ hn
      obtain ⟨e, he, rfl⟩ := List.mem_map.1 hk
      have he' := he
      rw [hx] at he
      rcases List.mem_append.1 he with he | he
      · exact absurd (mem_keys he) (hin.fresh.2 _ hn)
      · exact List.mem_map.2 ⟨e, (fo.good.tab.localIff e).2 ⟨he', by rw [hxf e he, pr.path]⟩, rfl⟩
  · rw [introduces_eq hf]
    exact hin.fresh.1

theorem part_clean {p : Str} {ps : List Str} {u : UnitD} (h : Part fs p ps u) (hi : ∀ q, q ∈ ps ↔ Imports fs p q) (hno : ¬ Below fs p p)
    (P : List (Nat × Nat)) : Clean u P := by
  intro e he q _ hpos
  obtain ⟨o, -, -, hr⟩ := h.names e he
  rw [hpos, h.path] at hr
  exact hno ((below_list hi p).1 hr)

/-! ### Accepted projects obey the rules -/

theorem head_of {f : FileA} {p : Str} {u : UnitD} {ps : List Str} (hi : f.imports = ps.map some)
    (h : visitInfo f (UnitD.new p) = (.ok (), u)) : HeadOk f := by
  obtain ⟨pk, lits, h1, h2, h3, h4, -⟩ := (C28_file_options _ _ _).1 h
  exact ⟨by rw [hi]; simp, ⟨pk, h1⟩, ⟨lits, h2, h3, h4⟩⟩

theorem compiled_rules {D : Str → List CTy} (hD : ∀ p u, Compiled fs p u → D p = u.localTypes.map (·.2.ty))
    (hpl : ∀ p f, fs p = .parsed f → (places f).Nodup) {p : Str} (hacc : _root_.Acc (fun q r => Imports fs r q) p) :
    ∀ q, Reach fs p q → ∀ o, Compiled fs q o →
      Meets fs D q o ∧ ∃ f, fs q = .parsed f ∧ HeadOk f ∧ DefsOk (scopeOf fs D q) f.tops (D q) := by
  induction hacc with
  | intro p _ ih =>
    intro q hr o ho
    rcases hr.cases_head with rfl | ⟨r, hr, hq⟩
    · have hco := ho
      cases ho with
      | mk _ f ps u0 u1 _ a b c d e =>
        have hi := imports_list a b
        have hp : Part fs p ps u1 := by
          have := Imported.part d (Part.start a c) (fun r o _ hco => hco.full)
          simpa using this
        have hno := hco.not_below
        have hb : ∀ q, Below fs p q → ∃ o, Compiled fs q o ∧ Meets fs D q o := by
          rintro q ⟨r, h1, h2⟩
          obtain ⟨o', ho'⟩ := hco.reach (.head h1 h2)
          exact ⟨o', ho', (ih r h1 q h2 o' ho').1⟩
        have hM := part_match hp hi hb
        have hdefs := visitProto_ok.1 e
        obtain ⟨ds, k1, k2⟩ := defs_sound hdefs hM (part_good hp hi hno) (part_clean hp hi hno _) (hpl p f a)
        have hds : D p = ds := by
          rw [hD p o hco, k2.types, hp.localTypes]
          rfl
        rw [← hds] at k1 k2
        exact ⟨meets_of hp hi a hco hdefs k2, f, a, head_of b c, k1⟩
    · exact ih r hr q hq o ho

open Classical in
/-- The definitions of the correct files -/
noncomputable def defsOf (fs : FS) (p : Str) : List CTy := if h : ∃ u, Compiled fs p u then h.choose.localTypes.map (·.2.ty) else []

theorem defsOf_eq (p : Str) (u : UnitD) (h : Compiled fs p u) : defsOf fs p = u.localTypes.map (·.2.ty) := by
  unfold defsOf
  have hex : ∃ u, Compiled fs p u := ⟨u, h⟩
  rw [dif_pos hex, hex.choose_spec.det h]

theorem rules_of_compiled (hpl : ∀ p f, fs p = .parsed f → (places f).Nodup) {entry : Str} {u : UnitD} (h : Compiled fs entry u)
    (hpk : ∀ p q, Reach fs entry p → Reach fs entry q → pkgOf fs p = pkgOf fs q → p = q) : ProjectOk fs entry (defsOf fs) := by
  have key := compiled_rules defsOf_eq hpl h.acc
  refine ⟨?_, ?_, hpk, ?_, ?_⟩
  · intro p hp
    obtain ⟨o, ho⟩ := h.reach hp
    exact (key p hp o ho).2
  · intro p hp
    obtain ⟨o, ho⟩ := h.reach hp
    exact ho.not_below
  · intro p hp
    obtain ⟨o, ho⟩ := h.reach hp
    exact (key p hp o ho).1.once
  · intro p q n hp hq h1 h2
    have fo := h.full
    have ent : ∀ p, Reach fs entry p → n ∈ introduces fs p → ∃ d : NameDef, (n, d) ∈ u.globalNames ∧ d.pos.file = p := by
      intro p hp h1
      obtain ⟨o, ho⟩ := h.reach hp
      obtain ⟨⟨m, d⟩, he, rfl⟩ := List.mem_map.1 (((key p hp o ho).1.names n).2 h1)
      have fp := ho.full
      obtain ⟨k1, k2⟩ := (fp.good.tab.localIff _).1 he
      rw [fp.path] at k2
      rcases reach_iff.1 hp with rfl | hb
      · rw [h.det ho]
        exact ⟨d, k1, k2⟩
      · exact ⟨d, (fo.closed p o hb ho).2 _ k1, k2⟩
    obtain ⟨d, k1, k2⟩ := ent p hp h1
    obtain ⟨d', k3, k4⟩ := ent q hq h2
    have := nodup_unique fo.good.keyed.names k1 k3
    subst this
    rw [← k2, k4]

/-! ### Projects that obey the rules are accepted -/

theorem addImport_fails {p q : Str} {S : List Str} {u o u' : UnitD} {e : CErr} (hp : Part fs p S u) (hS : ∀ r ∈ S, Imports fs p r)
    (hq : Imports fs p q) (ho : Compiled fs q o) (h : u.addImport o = (u', some e)) : ∃ n, TwoDefs fs p n := by
  have fo := ho.full
  have hu : ∀ e ∈ u.globalNames, Defined fs p e.1 e.2.pos := by
    intro e he
    obtain ⟨o1, h1, h2, r, hr, h3⟩ := hp.names e he
    exact ⟨o1, h1, ⟨r, hS r hr, h3⟩, e.2, h2, rfl⟩
  have hn : ∀ e ∈ o.globalNames, Defined fs p e.1 e.2.pos := by
    intro e he
    obtain ⟨o1, h1, h2, h3⟩ := fo.names e he
    exact ⟨o1, h1, ⟨q, hq, h3⟩, e.2, h2, rfl⟩
  have ht : ∀ e ∈ o.globalTypes, Defined fs p e.2.ty.customName e.2.pos := by
    rintro ⟨n, t⟩ he
    obtain ⟨d, hd, hpos⟩ := fo.good.keyed.bound n t he
    have := hn _ hd
    rw [fo.good.keyed.key n t he]
    rw [← hpos]
    exact this
  unfold UnitD.addImport at h
  split at h
  · simp at h
  · dsimp only at h
    split at h
    · rename_i hne
      obtain ⟨k1, k2⟩ := importNames_true p o.globalNames hn u [] hu (by simp)
      have k3 := importTypes_true p o.globalTypes ht _ _ k1 k2
      obtain ⟨x, hx⟩ := List.exists_mem_of_ne_nil _ hne
      obtain ⟨n, -, hn⟩ := k3 x hx
      exact ⟨n, hn⟩
    · simp at h

theorem imported_of {p : Str} (hno : ∀ n, ¬ TwoDefs fs p n) (rest : List Str) : ∀ (S : List Str) (u : UnitD), Part fs p S u →
    (∀ r ∈ S, Imports fs p r) → (∀ q ∈ rest, Imports fs p q ∧ ∃ o, Compiled fs q o) →
    ∃ u', Imported fs rest u u' ∧ Part fs p (S ++ rest) u' := by
  induction rest with
  | nil =>
    intro S u h _ _
    exact ⟨u, .nil u, by simpa using h⟩
  | cons q r ih =>
    intro S u h hS hr
    obtain ⟨hq, o, ho⟩ := hr q (by simp)
    rcases ha : u.addImport o with ⟨u1, e⟩
    cases e with
    | some e =>
      obtain ⟨n, hn⟩ := addImport_fails h hS hq ho ha
      exact absurd hn (hno n)
    | none =>
      have h1 := h.add ho ho.full (fun _ _ _ hc => ⟨hc.full.good.tab.localNodup, hc.full.good.locNodup⟩) ha
      obtain ⟨u', k1, k2⟩ := ih (S ++ [q]) u1 h1 (by
        intro x hx
        rcases List.mem_append.1 hx with hx | hx
        · exact hS x hx
        · rw [List.mem_singleton.1 hx]; exact hq) (fun x hx => hr x (by simp [hx]))
      exact ⟨u', .cons q r o u u1 u' ho ha k1, by simpa using k2⟩

theorem compiled_of {D : Str → List CTy} {entry : Str} (hok : ProjectOk fs entry D) {p : Str}
    (hacc : _root_.Acc (fun q r => Imports fs r q) p) :
    ∀ q, Reach fs p q → Reach fs entry q → ∃ o, Compiled fs q o ∧ Meets fs D q o := by
  induction hacc with
  | intro p _ ih =>
    intro q hr he
    rcases hr.cases_head with rfl | ⟨r, hr, hq⟩
    · obtain ⟨f, hf, hh, hd⟩ := hok.files p he
      obtain ⟨ps, hps⟩ : ∃ ps : List Str, f.imports = ps.map some := by
        have := hh.imports
        generalize f.imports = l at this
        clear hd hf hh
        induction l with
        | nil => exact ⟨[], rfl⟩
        | cons x r ih =>
          cases x with
          | none => simp at this
          | some x =>
            obtain ⟨ps, h⟩ := ih (fun h => this (List.mem_cons_of_mem _ h))
            exact ⟨x :: ps, by rw [h]; rfl⟩
      have hi := imports_list hf hps
      have hb : ∀ q, Below fs p q → ∃ o, Compiled fs q o ∧ Meets fs D q o := by
        rintro q ⟨r, h1, h2⟩
        exact ih r h1 q h2 (he.trans (.head h1 h2))
      obtain ⟨pk, hpk⟩ := hh.package
      obtain ⟨lits, o1, o2, o3⟩ := hh.options
      have hinfo := (C28_file_options f (UnitD.new p) _).2 ⟨pk, lits, hpk, o1, o2, o3, rfl⟩
      have hstart := Part.start hf hinfo
      have hno : ∀ n, ¬ TwoDefs fs p n := by
        rintro n ⟨q, q', o, o', hne, h1, h2, h3, h4, h5, h6⟩
        obtain ⟨x, hx, mx⟩ := hb q h1
        obtain ⟨y, hy, my⟩ := hb q' h2
        rw [← hx.det h3] at h5
        rw [← hy.det h4] at h6
        exact hne (hok.apart q q' n (he.trans h1.reach) (he.trans h2.reach) ((mx.names n).1 h5) ((my.names n).1 h6))
      obtain ⟨u1, k1, k2⟩ := imported_of hno ps [] _ hstart (by simp) (by
        intro q hq
        have := (hi q).1 hq
        obtain ⟨o, ho, -⟩ := hb q ⟨q, this, .refl⟩
        exact ⟨this, o, ho⟩)
      simp only [List.nil_append] at k2
      have hacy := hok.acyclic p he
      have hM := part_match k2 hi hb
      have hfresh : Fresh u1 (f.tops.flatMap TopA.intro) := by
        have h1 := hok.once p he
        rw [introduces_eq hf] at h1
        refine ⟨h1, fun n hn hk => ?_⟩
        obtain ⟨e, hee, rfl⟩ := List.mem_map.1 hk
        obtain ⟨o, ho, hl, hr⟩ := k2.names e hee
        have hbl := (below_list hi _).1 hr
        obtain ⟨o', ho', hm⟩ := hb _ hbl
        rw [ho.det ho'] at hl
        have h3 := (hm.names e.1).1 (List.mem_map.2 ⟨e, hl, rfl⟩)
        have h4 := hok.apart p e.2.pos.file e.1 he (he.trans hbl.reach) (by rw [introduces_eq hf]; exact hn) h3
        rw [← h4] at hbl
        exact hacy hbl
      obtain ⟨u2, d1, d2⟩ := defs_complete hd hM (part_good k2 hi hacy) hfresh
      have hc : Compiled fs p u2 := .mk p f ps _ u1 u2 hf hps hinfo k1 (visitProto_ok.2 d1)
      exact ⟨u2, hc, meets_of k2 hi hf hc d1 d2⟩
    · exact ih r hr q hq he

/-- A finite project without cycles has no infinite chain of imports. -/
theorem acc_of {entry : Str} (files : List Str) (hfin : ∀ p, Reach fs entry p → p ∈ files)
    (hac : ∀ p, Reach fs entry p → ¬ Below fs p p) : _root_.Acc (fun q r => Imports fs r q) entry := by
  have key : ∀ (n : Nat) (L : List Str), L.length ≤ n → ∀ p, Reach fs entry p → (∀ q, Below fs p q → q ∈ L) →
      _root_.Acc (fun q r => Imports fs r q) p := by
    intro n
    induction n with
    | zero =>
      intro L hL p hp hq
      refine ⟨p, fun r hr => ?_⟩
      have := hq r ⟨r, hr, .refl⟩
      rw [List.length_eq_zero_iff.1 (Nat.le_zero.1 hL)] at this
      cases this
    | succ n ih =>
      intro L hL p hp hq
      refine ⟨p, fun r hr => ?_⟩
      have hrL := hq r ⟨r, hr, .refl⟩
      refine ih (L.filter (· ≠ r)) ?_ r (hp.step hr) ?_
      · have : (L.filter (· ≠ r)).length < L.length := by
          have h1 := List.length_filter_lt_length_iff_exists (l := L) (p := fun x => decide (x ≠ r))
          rw [h1]
          exact ⟨r, hrL, by simp⟩
        omega
      · intro q hb
        refine List.mem_filter.2 ⟨hq q ⟨r, hr, hb.reach⟩, ?_⟩
        simp only [ne_eq, decide_eq_true_eq]
        rintro rfl
        exact hac q (hp.step hr) hb
  exact key files.length files (Nat.le_refl _) entry .refl (fun q hq => hfin q hq.reach)

end Bubbler.Comp
