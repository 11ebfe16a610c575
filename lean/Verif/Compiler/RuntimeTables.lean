import Verif.Compiler.RuntimeProofs

/-
The tables of the unit of a correct file: everything defined in the files it reaches.
-/
namespace Bubbler.Comp

variable {fs : FS}

theorem nodup_unique {α : Type} {m : List (Str × α)} (h : (m.map (·.1)).Nodup) {n : Str} {a b : α} (ha : (n, a) ∈ m)
    (hb : (n, b) ∈ m) : a = b := by
  have h1 := (aget_some_iff h).2 ha
  rw [(aget_some_iff h).2 hb] at h1
  exact (Option.some.inj h1).symm

/-- What the tables of a finished unit contain -/
structure Full (fs : FS) (p : Str) (u : UnitD) : Prop where
  path : u.path = p
  pkg : pkgOf fs p = some u.pkg
  good : Good u
  imports : ∀ q, q ∈ u.globalImports ↔ Below fs p q
  locals : ∀ q, q ∈ u.localImports ↔ Imports fs p q
  types : ∀ e ∈ u.globalTypes, ∃ o, Compiled fs e.2.pos.file o ∧ e ∈ o.localTypes ∧ Reach fs p e.2.pos.file
  names : ∀ e ∈ u.globalNames, ∃ o, Compiled fs e.2.pos.file o ∧ e ∈ o.localNames ∧ Reach fs p e.2.pos.file
  closed : ∀ q o, Below fs p q → Compiled fs q o →
    (∀ e ∈ o.globalTypes, e ∈ u.globalTypes) ∧ (∀ e ∈ o.globalNames, e ∈ u.globalNames)

/-- The same while the imports `S` have been added and nothing of the file itself -/
structure Part (fs : FS) (p : Str) (S : List Str) (u : UnitD) : Prop where
  path : u.path = p
  pkg : pkgOf fs p = some u.pkg
  localTypes : u.localTypes = []
  localNames : u.localNames = []
  keyed : Keyed u
  imports : ∀ q, q ∈ u.globalImports ↔ ∃ r ∈ S, Reach fs r q
  locals : ∀ q, q ∈ u.localImports ↔ q ∈ S
  types : ∀ e ∈ u.globalTypes, ∃ o, Compiled fs e.2.pos.file o ∧ e ∈ o.localTypes ∧ ∃ r ∈ S, Reach fs r e.2.pos.file
  names : ∀ e ∈ u.globalNames, ∃ o, Compiled fs e.2.pos.file o ∧ e ∈ o.localNames ∧ ∃ r ∈ S, Reach fs r e.2.pos.file
  closed : ∀ q o, q ∈ u.globalImports → Compiled fs q o →
    (∀ e ∈ o.globalTypes, e ∈ u.globalTypes) ∧ (∀ e ∈ o.globalNames, e ∈ u.globalNames)

theorem Part.add {p q : Str} {S : List Str} {u o u1 : UnitD} (h : Part fs p S u) (hq : Compiled fs q o) (ho : Full fs q o)
    (full : ∀ r o, (∃ s ∈ S, Reach fs s r) → Compiled fs r o → (o.localNames.map (·.1)).Nodup ∧ (o.localTypes.map (·.1)).Nodup)
    (ha : u.addImport o = (u1, none)) : Part fs p (S ++ [q]) u1 := by
  have loc : ∀ l : List Str, (∀ x, x ∈ l ↔ x ∈ S) → ∀ x, x ∈ sput l q ↔ x ∈ S ++ [q] := by
    intro l hl x
    rw [mem_sput, hl, List.mem_append, List.mem_singleton]
  have wkT : ∀ e : Str × TypeDef, (∃ o, Compiled fs e.2.pos.file o ∧ e ∈ o.localTypes ∧ ∃ r ∈ S, Reach fs r e.2.pos.file) →
      ∃ o, Compiled fs e.2.pos.file o ∧ e ∈ o.localTypes ∧ ∃ r ∈ S ++ [q], Reach fs r e.2.pos.file := by
    rintro e ⟨o, h1, h2, r, hr, h3⟩
    exact ⟨o, h1, h2, r, List.mem_append_left _ hr, h3⟩
  have wkN : ∀ e : Str × NameDef, (∃ o, Compiled fs e.2.pos.file o ∧ e ∈ o.localNames ∧ ∃ r ∈ S, Reach fs r e.2.pos.file) →
      ∃ o, Compiled fs e.2.pos.file o ∧ e ∈ o.localNames ∧ ∃ r ∈ S ++ [q], Reach fs r e.2.pos.file := by
    rintro e ⟨o, h1, h2, r, hr, h3⟩
    exact ⟨o, h1, h2, r, List.mem_append_left _ hr, h3⟩
  rcases addImport_ok ho.good.keyed ha with ⟨hin, rfl⟩ | ⟨hnot, hcompat, rfl⟩
  · rw [ho.path] at hin
    refine ⟨h.path, h.pkg, h.localTypes, h.localNames, ⟨h.keyed.1, h.keyed.2, h.keyed.3, h.keyed.4⟩, ?_, ?_,
      fun e he => wkT e (h.types e he), fun e he => wkN e (h.names e he), h.closed⟩
    · intro x
      rw [h.imports]
      constructor
      · rintro ⟨r, hr, hx⟩
        exact ⟨r, List.mem_append_left _ hr, hx⟩
      · rintro ⟨r, hr, hx⟩
        rcases List.mem_append.1 hr with hr | hr
        · exact ⟨r, hr, hx⟩
        · rw [List.mem_singleton] at hr
          subst hr
          obtain ⟨s, hs, k⟩ := (h.imports r).1 hin
          exact ⟨s, hs, k.trans hx⟩
    · simp only [ho.path]
      exact loc _ h.locals
  · rw [ho.path] at hnot
    -- entries of `o` end up in the new tables
    have subN : ∀ e ∈ o.globalNames, e ∈ putAll u.globalNames o.globalNames := by
      rintro ⟨n, d⟩ he
      obtain ⟨⟨m, d'⟩, hm, hk⟩ := List.mem_map.1 (putAll_key (m := u.globalNames) he)
      simp only at hk
      subst hk
      rcases putAll_mem hm with hm' | ⟨hm', -⟩
      · have hp := hcompat _ _ he d' ((aget_some_iff h.keyed.names).2 hm')
        obtain ⟨o1, c1, e1, f1⟩ := h.names _ hm'
        obtain ⟨o2, c2, e2, -⟩ := ho.names _ he
        simp only at c1 c2 e1 e2 f1
        rw [hp] at c1 f1
        have := c1.det c2
        subst this
        rw [nodup_unique (full _ _ f1 c1).1 e2 e1]
        exact hm
      · rw [nodup_unique ho.good.keyed.names he hm']
        exact hm
    have subT : ∀ e ∈ o.globalTypes, e ∈ putAll u.globalTypes o.globalTypes := by
      rintro ⟨n, t⟩ he
      obtain ⟨⟨m, t'⟩, hm, hk⟩ := List.mem_map.1 (putAll_key (m := u.globalTypes) he)
      simp only at hk
      subst hk
      rcases putAll_mem hm with hm' | ⟨hm', -⟩
      · obtain ⟨d, hd, hdt⟩ := ho.good.keyed.bound _ _ he
        obtain ⟨d', hd', hdt'⟩ := h.keyed.bound _ _ hm'
        have hp := hcompat _ _ hd d' ((aget_some_iff h.keyed.names).2 hd')
        rw [hdt, hdt'] at hp
        obtain ⟨o1, c1, e1, f1⟩ := h.types _ hm'
        obtain ⟨o2, c2, e2, -⟩ := ho.types _ he
        simp only at c1 c2 e1 e2 f1
        rw [hp] at c1 f1
        have := c1.det c2
        subst this
        rw [nodup_unique (full _ _ f1 c1).2 e2 e1]
        exact hm
      · rw [nodup_unique ho.good.keyed.types he hm']
        exact hm
    refine ⟨h.path, h.pkg, h.localTypes, h.localNames,
      ⟨putAll_nodup h.keyed.names, putAll_nodup h.keyed.types, ?_, ?_⟩, ?_, ?_, ?_, ?_, ?_⟩
    · intro n t hn
      rcases putAll_mem hn with hn | ⟨hn, -⟩
      · exact h.keyed.key n t hn
      · exact ho.good.keyed.key n t hn
    · intro n t hn
      rcases putAll_mem hn with hn | ⟨hn, -⟩
      · obtain ⟨d, hd, e⟩ := h.keyed.bound n t hn
        exact ⟨d, mem_putAll_left hd, e⟩
      · obtain ⟨d, hd, e⟩ := ho.good.keyed.bound n t hn
        exact ⟨d, subN _ hd, e⟩
    · intro x
      simp only [mem_foldl_sput, mem_sput, h.imports, ho.imports, ho.path]
      constructor
      · rintro ((⟨r, hr, hx⟩ | rfl) | hx)
        · exact ⟨r, List.mem_append_left _ hr, hx⟩
        · exact ⟨x, by simp, .refl⟩
        · exact ⟨q, by simp, hx.reach⟩
      · rintro ⟨r, hr, hx⟩
        rcases List.mem_append.1 hr with hr | hr
        · exact .inl (.inl ⟨r, hr, hx⟩)
        · rw [List.mem_singleton] at hr
          subst hr
          rcases hx.cases_head with rfl | hx
          · exact .inl (.inr rfl)
          · exact .inr hx
    · simp only [ho.path]
      exact loc _ h.locals
    · intro e he
      rcases putAll_mem he with he | ⟨he, -⟩
      · exact wkT e (h.types e he)
      · obtain ⟨o1, c1, e1, r1⟩ := ho.types e he
        exact ⟨o1, c1, e1, q, by simp, r1⟩
    · intro e he
      rcases putAll_mem he with he | ⟨he, -⟩
      · exact wkN e (h.names e he)
      · obtain ⟨o1, c1, e1, r1⟩ := ho.names e he
        exact ⟨o1, c1, e1, q, by simp, r1⟩
    · intro x ox hx hcx
      simp only [mem_foldl_sput, mem_sput] at hx
      rcases hx with (hx | hx) | hx
      · obtain ⟨k1, k2⟩ := h.closed x ox hx hcx
        exact ⟨fun e he => mem_putAll_left (k1 e he), fun e he => mem_putAll_left (k2 e he)⟩
      · rw [ho.path] at hx
        subst hx
        have := hcx.det hq
        subst this
        exact ⟨subT, subN⟩
      · obtain ⟨k1, k2⟩ := ho.closed x ox ((ho.imports x).1 hx) hcx
        exact ⟨fun e he => subT e (k1 e he), fun e he => subN e (k2 e he)⟩

/-- The start: nothing imported -/
theorem Part.start {p : Str} {f : FileA} {u : UnitD} (hf : fs p = .parsed f) (h : visitInfo f (UnitD.new p) = (.ok (), u)) :
    Part fs p [] u := by
  obtain ⟨pk, lits, h1, -, -, -, rfl⟩ := (C28_file_options _ _ _).1 h
  refine ⟨rfl, ?_, rfl, rfl, ⟨List.nodup_nil, List.nodup_nil, ?_, ?_⟩, ?_, ?_, ?_, ?_, ?_⟩ <;> simp [UnitD.new]
  simp [pkgOf, hf, h1]

/-- The end: the definitions of the file itself -/
theorem Part.finish {p : Str} {f : FileA} {ps : List Str} {u u' : UnitD} (h : Part fs p ps u) (hc : Compiled fs p u')
    (hf : fs p = .parsed f) (hi : f.imports = ps.map some) (hv : visitProto f.tops [] u = (.ok (), u')) : Full fs p u' := by
  have himp : ∀ q, q ∈ ps ↔ Imports fs p q := by
    intro q
    constructor
    · intro hq
      exact ⟨f, hf, by rw [hi]; exact List.mem_map.2 ⟨q, hq, rfl⟩⟩
    · rintro ⟨f', hf', hq⟩
      rw [hf] at hf'
      cases hf'
      rw [hi] at hq
      obtain ⟨x, hx, e⟩ := List.mem_map.1 hq
      cases e
      exact hx
  have hbel : ∀ q, (∃ r ∈ ps, Reach fs r q) ↔ Below fs p q := by
    intro q
    constructor
    · rintro ⟨r, hr, hq⟩; exact ⟨r, (himp r).1 hr, hq⟩
    · rintro ⟨r, hr, hq⟩; exact ⟨r, (himp r).2 hr, hq⟩
  have hno := hc.not_below
  have pr := proto_visitProto f.tops [] u
  rw [hv] at pr
  have hgood : Good u := by
    refine ⟨⟨h.keyed.names, by rw [h.localNames]; exact List.nodup_nil, ?_⟩, h.keyed, by rw [h.localTypes]; exact List.nodup_nil, ?_⟩
    · intro e
      rw [h.localNames]
      constructor
      · intro he; cases he
      · rintro ⟨he, hp⟩
        obtain ⟨o, -, -, hr⟩ := h.names e he
        rw [hp, h.path] at hr
        exact absurd ((hbel p).1 hr) hno
    · intro e
      rw [h.localTypes]
      constructor
      · intro he; cases he
      · rintro ⟨he, hp⟩
        obtain ⟨o, -, -, hr⟩ := h.types e he
        rw [hp, h.path] at hr
        exact absurd ((hbel p).1 hr) hno
  have g := pr.good hgood
  obtain ⟨x, hx, hxf⟩ := pr.globalTypes
  obtain ⟨y, hy, hyf⟩ := pr.globalNames
  refine ⟨pr.path.trans h.path, by rw [h.pkg, pr.pkg], g, ?_, ?_, ?_, ?_, ?_⟩
  · intro q
    rw [pr.globalImports, h.imports, hbel]
  · intro q
    rw [pr.localImports, h.locals, himp]
  · intro e he
    have he0 := he
    rw [hx] at he
    rcases List.mem_append.1 he with he | he
    · obtain ⟨o, c, m, r⟩ := h.types e he
      exact ⟨o, c, m, ((hbel _).1 r).reach⟩
    · have hp := hxf e he
      have hl := (g.locTypes e).2 ⟨he0, by rw [pr.path]; exact hp⟩
      rw [h.path] at hp
      exact ⟨u', by rw [hp]; exact hc, hl, by rw [hp]; exact .refl⟩
  · intro e he
    have he0 := he
    rw [hy] at he
    rcases List.mem_append.1 he with he | he
    · obtain ⟨o, c, m, r⟩ := h.names e he
      exact ⟨o, c, m, ((hbel _).1 r).reach⟩
    · have hp := hyf e he
      have hl := (g.tab.localIff e).2 ⟨he0, by rw [pr.path]; exact hp⟩
      rw [h.path] at hp
      exact ⟨u', by rw [hp]; exact hc, hl, by rw [hp]; exact .refl⟩
  · intro q o hq hco
    obtain ⟨k1, k2⟩ := h.closed q o ((h.imports q).2 ((hbel q).2 hq)) hco
    exact ⟨fun e he => by rw [hx]; exact List.mem_append_left _ (k1 e he),
      fun e he => by rw [hy]; exact List.mem_append_left _ (k2 e he)⟩

theorem Imported.part {p : Str} {ps : List Str} {u u' : UnitD} : Imported fs ps u u' → ∀ {S : List Str}, Part fs p S u →
    (∀ r o, (∃ s ∈ S ++ ps, Reach fs s r) → Compiled fs r o → Full fs r o) → Part fs p (S ++ ps) u'
  | .nil _, S, h, _ => by simpa using h
  | .cons q ps o _ u1 _ a b c, S, h, full => by
    have hq := full q o ⟨q, by simp, .refl⟩ a
    have h1 := h.add a hq (fun r o ⟨s, hs, hr⟩ hco =>
      let g := (full r o ⟨s, List.mem_append_left _ hs, hr⟩ hco).good
      ⟨g.tab.localNodup, g.locNodup⟩) b
    have h2 := Imported.part c h1 (by simpa using full)
    simpa using h2

theorem Compiled.full {p : Str} {u : UnitD} (h : Compiled fs p u) : Full fs p u := by
  have key : ∀ p, _root_.Acc (fun q r => Imports fs r q) p → ∀ q, Reach fs p q → ∀ o, Compiled fs q o → Full fs q o := by
    intro p hacc
    induction hacc with
    | intro p _ ih =>
      intro q hr o ho
      rcases hr.cases_head with rfl | ⟨r, hr, hq⟩
      · cases ho with
        | mk _ f ps u0 u1 _ a b c d e =>
          have hp := Imported.part d (Part.start a c) (by
            rintro r o ⟨s, hs, hr⟩ hco
            refine ih s ⟨f, a, ?_⟩ r hr o hco
            rw [b]
            exact List.mem_map.2 ⟨s, by simpa using hs, rfl⟩)
          exact hp.finish (.mk _ f ps u0 u1 _ a b c d e) a b e
      · exact ih r hr q hq o ho
  exact key p h.acc p .refl u h

end Bubbler.Comp
