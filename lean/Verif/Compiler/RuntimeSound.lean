import Verif.Compiler.RuntimeRun

namespace Bubbler.Comp

variable {fs : FS}

/-- Every unit comes after the files it imports. -/
def Topo (fs : FS) (units : List (Str × UnitD)) : Prop :=
  ∀ l1 e l2, units = l1 ++ e :: l2 → ∀ r, Imports fs e.1 r → r ∈ l1.map (·.1)

/-- What holds of the state as long as no error has occurred -/
structure Inv (fs : FS) (rt : RT) : Prop where
  nodup : (rt.units.map (·.1)).Nodup
  compiled : ∀ p u, (p, u) ∈ rt.units → Compiled fs p u
  topo : Topo fs rt.units
  pkgNodup : (rt.packages.map (·.1)).Nodup
  pkgs : ∀ k p, (k, p) ∈ rt.packages → pkgOf fs p = some k ∧ (p ∈ rt.units.map (·.1) ∨ p ∈ rt.stack)
  pkgsAll : ∀ p, p ∈ rt.units.map (·.1) ∨ p ∈ rt.stack → ∃ k, (k, p) ∈ rt.packages
  disjoint : ∀ p, p ∈ rt.units.map (·.1) → p ∉ rt.stack

theorem Inv.new : Inv fs RT.new := by
  refine ⟨List.nodup_nil, ?_, ?_, List.nodup_nil, ?_, ?_, ?_⟩
  · intro p u h; cases h
  · intro l1 e l2 h
    simp [RT.new] at h
  · intro k p h; cases h
  · rintro p (h | h) <;> cases h
  · intro p h; cases h

theorem Topo.snoc {l : List (Str × UnitD)} {e : Str × UnitD} (h : Topo fs l) (he : ∀ r, Imports fs e.1 r → r ∈ l.map (·.1)) :
    Topo fs (l ++ [e]) := by
  intro l1 x l2 hx r hr
  rcases List.eq_nil_or_concat l2 with rfl | ⟨l2, y, rfl⟩
  · have := List.append_inj' hx rfl
    obtain ⟨rfl, h2⟩ := this
    simp only [List.cons.injEq, and_true] at h2
    subst h2
    exact he r hr
  · have hx' : l ++ [e] = (l1 ++ x :: l2) ++ [y] := by rw [hx]; simp
    have := List.append_inj' hx' rfl
    exact h l1 x l2 this.1 r hr

theorem Inv.enter {rt : RT} {p k : Str} (h : Inv fs rt) (hp : p ∉ rt.stack) (hu : p ∉ rt.units.map (·.1))
    (hk : k ∉ rt.packages.map (·.1)) (hpk : pkgOf fs p = some k) : Inv fs (rt.enter k p) := by
  refine ⟨h.nodup, h.compiled, h.topo, ?_, ?_, ?_, ?_⟩
  · show ((rt.packages ++ [(k, p)]).map (·.1)).Nodup
    rw [List.map_append, List.nodup_append]
    refine ⟨h.pkgNodup, by simp, ?_⟩
    rintro a ha b hb rfl
    simp only [List.map_cons, List.map_nil, List.mem_singleton] at hb
    exact hk (hb ▸ ha)
  · intro k' q hq
    rcases List.mem_append.1 hq with hq | hq
    · obtain ⟨h1, h2⟩ := h.pkgs k' q hq
      exact ⟨h1, h2.imp_right fun h => List.mem_append_left _ h⟩
    · simp only [List.mem_singleton, Prod.mk.injEq] at hq
      obtain ⟨rfl, rfl⟩ := hq
      exact ⟨hpk, .inr (by simp [RT.enter])⟩
  · intro q hq
    have : (q ∈ rt.units.map (·.1) ∨ q ∈ rt.stack) ∨ q = p := by
      rcases hq with hq | hq
      · exact .inl (.inl hq)
      · rcases List.mem_append.1 hq with hq | hq
        · exact .inl (.inr hq)
        · exact .inr (by simpa using hq)
    rcases this with h1 | rfl
    · obtain ⟨k', hk'⟩ := h.pkgsAll q h1
      exact ⟨k', List.mem_append_left _ hk'⟩
    · exact ⟨k, by simp [RT.enter]⟩
  · intro q hq hs
    rcases List.mem_append.1 hs with hs | hs
    · exact h.disjoint q hq hs
    · rw [List.mem_singleton] at hs
      subst hs
      exact hu hq

theorem Inv.leave {rt : RT} {p : Str} {u : UnitD} (h : Inv fs rt) (hp : p ∈ rt.stack) (hc : Compiled fs p u)
    (hi : ∀ r, Imports fs p r → r ∈ rt.units.map (·.1)) :
    Inv fs (rt.leave p u) ∧ (rt.leave p u).units = rt.units ++ [(p, u)] := by
  have hn : p ∉ rt.units.map (·.1) := fun h' => h.disjoint p h' hp
  have hu : (rt.leave p u).units = rt.units ++ [(p, u)] := aput_new _ _ _ hn
  have hs : ∀ q, q ∈ (rt.leave p u).stack ↔ q ∈ rt.stack ∧ q ≠ p := by
    intro q
    simp [RT.leave, List.mem_filter]
  have hk : ∀ q, q ∈ (rt.leave p u).units.map (·.1) ↔ q ∈ rt.units.map (·.1) ∨ q = p := by
    intro q
    rw [hu]
    simp only [List.map_append, List.map_cons, List.map_nil, List.mem_append, List.mem_singleton]
  have hboth : ∀ q, (q ∈ (rt.leave p u).units.map (·.1) ∨ q ∈ (rt.leave p u).stack) ↔ (q ∈ rt.units.map (·.1) ∨ q ∈ rt.stack) := by
    intro q
    rw [hk, hs]
    by_cases hq : q = p
    · subst hq; simp [hp]
    · simp [hq]
  refine ⟨⟨?_, ?_, ?_, h.pkgNodup, ?_, ?_, ?_⟩, hu⟩
  · exact aput_nodup _ _ _ h.nodup
  · intro q v hq
    rw [hu, List.mem_append, List.mem_singleton] at hq
    rcases hq with hq | hq
    · exact h.compiled q v hq
    · cases hq; exact hc
  · rw [hu]
    exact h.topo.snoc hi
  · intro k q hq
    obtain ⟨h1, h2⟩ := h.pkgs k q hq
    exact ⟨h1, (hboth q).2 h2⟩
  · intro q hq
    exact h.pkgsAll q ((hboth q).1 hq)
  · intro q hq hq'
    rw [hs] at hq'
    rw [hk] at hq
    rcases hq with hq | hq
    · exact h.disjoint q hq hq'.1
    · exact hq'.2 hq

/-- What a successful call of `Compile` has done -/
structure Did (fs : FS) (p : Str) (u : UnitD) (rt rt' : RT) : Prop where
  inv : Inv fs rt'
  stack : rt'.stack = rt.stack
  compiled : Compiled fs p u
  units : ∃ new, rt'.units = rt.units ++ new ∧ ∀ e ∈ new, Reach fs p e.1
  mem : p ∈ rt'.units.map (·.1)
  last : p ∉ rt.units.map (·.1) → ∃ new, rt'.units = rt.units ++ new ++ [(p, u)]

theorem importLoop_sound {rec : Rec} (hrec : ∀ p u rt rt', rec p rt = some (rt', .ok u) → Inv fs rt → Did fs p u rt rt')
    {ps : List Str} {rt rt' : RT} {u u' : UnitD} (h : importLoop rec ps rt u [] = some (rt', .ok (u', []))) (hi : Inv fs rt) :
    Inv fs rt' ∧ rt'.stack = rt.stack ∧ Imported fs ps u u' ∧
      (∃ new, rt'.units = rt.units ++ new ∧ ∀ e ∈ new, ∃ q ∈ ps, Reach fs q e.1) ∧ ∀ q ∈ ps, q ∈ rt'.units.map (·.1) := by
  induction ps generalizing rt u with
  | nil =>
    obtain ⟨rfl, rfl⟩ := importLoop_nil.1 h
    exact ⟨hi, rfl, .nil u, ⟨[], by simp⟩, by simp⟩
  | cons p r ih =>
    obtain ⟨rt1, o, u1, h1, h2, h3⟩ := importLoop_cons.1 h
    have d := hrec _ _ _ _ h1 hi
    obtain ⟨i1, i2, i3, ⟨n2, i4, i5⟩, i6⟩ := ih h3 d.inv
    obtain ⟨n1, d1, d2⟩ := d.units
    refine ⟨i1, i2.trans d.stack, .cons p r o u u1 u' d.compiled h2 i3, ⟨n1 ++ n2, ?_, ?_⟩, ?_⟩
    · rw [i4, d1, List.append_assoc]
    · intro e he
      rcases List.mem_append.1 he with he | he
      · exact ⟨p, by simp, d2 e he⟩
      · obtain ⟨q, hq, hr⟩ := i5 e he
        exact ⟨q, by simp [hq], hr⟩
    · intro q hq
      rcases List.mem_cons.1 hq with rfl | hq
      · rw [i4, List.map_append]
        exact List.mem_append_left _ d.mem
      · exact i6 q hq

theorem filter_stack {l : List Str} {p : Str} (h : p ∉ l) : (l ++ [p]).filter (· ≠ p) = l := by
  rw [List.filter_append]
  have : l.filter (· ≠ p) = l := by
    rw [List.filter_eq_self]
    intro x hx
    have : x ≠ p := fun e => h (e ▸ hx)
    simpa using this
  rw [this]
  simp

theorem compile_sound {n : Nat} {p : Str} {u : UnitD} {rt rt' : RT} (h : compile fs n p rt = some (rt', .ok u))
    (hi : Inv fs rt) : Did fs p u rt rt' := by
  induction n generalizing p u rt rt' with
  | zero => simp [compile] at h
  | succ n ih =>
    obtain ⟨hs, ⟨-, hu, rfl⟩ | ⟨hu, f, hf, hc⟩⟩ := compile_ok.1 h
    · have hm := (aget_some_iff hi.nodup).1 hu
      have hm' : p ∈ rt'.units.map (·.1) := List.mem_map.2 ⟨_, hm, rfl⟩
      exact ⟨hi, rfl, hi.compiled _ _ hm, ⟨[], by simp⟩, hm', fun h => absurd hm' h⟩
    · have hu' := aget_none_iff.1 hu
      obtain ⟨ps, u0, rt1, u1, h1, h2, h3, h4, h5, rfl⟩ := compileParsed_ok.1 hc
      have hpk := (Part.start hf h2).pkg
      have he := hi.enter hs hu' h3 hpk
      obtain ⟨i1, i2, i3, ⟨new, i4, i5⟩, i6⟩ := importLoop_sound (fun p u rt rt' hx hi => ih hx hi) h4 he
      have hcomp : Compiled fs p u := .mk p f ps u0 u1 u hf h1 h2 i3 h5
      have himp : ∀ r, Imports fs p r → r ∈ ps := by
        rintro r ⟨f', hf', hr⟩
        rw [hf] at hf'
        cases hf'
        rw [h1] at hr
        obtain ⟨x, hx, e⟩ := List.mem_map.1 hr
        cases e
        exact hx
      have hps : ∀ r ∈ ps, Imports fs p r := fun r hr => ⟨f, hf, by rw [h1]; exact List.mem_map.2 ⟨r, hr, rfl⟩⟩
      obtain ⟨j1, j2⟩ := i1.leave (u := u) (p := p) (by rw [i2]; simp [RT.enter]) hcomp (fun r hr => i6 r (himp r hr))
      refine ⟨j1, ?_, hcomp, ⟨new ++ [(p, u)], ?_, ?_⟩, ?_, fun _ => ⟨new, ?_⟩⟩
      · show rt1.stack.filter (· ≠ p) = rt.stack
        rw [i2]
        exact filter_stack hs
      · rw [j2, i4]
        simp [RT.enter]
      · intro e he
        rcases List.mem_append.1 he with he | he
        · obtain ⟨q, hq, hr⟩ := i5 e he
          exact .head (hps q hq) hr
        · rw [List.mem_singleton] at he
          subst he
          exact .refl
      · rw [j2]; simp
      · rw [j2, i4]
        simp [RT.enter]

/-! ### Completeness -/

theorem importLoop_complete {rec : Rec} (hs : ∀ p u rt rt', rec p rt = some (rt', .ok u) → Inv fs rt → Did fs p u rt rt')
    (D : Str → Prop) {ps : List Str} {u u' : UnitD} (h : Imported fs ps u u')
    (hrec : ∀ p ∈ ps, ∀ u rt, Compiled fs p u → Inv fs rt → (∀ q ∈ rt.stack, ¬ Reach fs p q) →
      (∀ q, q ∈ rt.units.map (·.1) ∨ q ∈ rt.stack → D q) → (∀ q, Reach fs p q → D q) →
      rec p rt = none ∨ ∃ rt', rec p rt = some (rt', .ok u))
    {rt : RT} (hi : Inv fs rt) (hst : ∀ p ∈ ps, ∀ q ∈ rt.stack, ¬ Reach fs p q)
    (hD : ∀ q, q ∈ rt.units.map (·.1) ∨ q ∈ rt.stack → D q) (hDp : ∀ p ∈ ps, ∀ q, Reach fs p q → D q) :
    importLoop rec ps rt u [] = none ∨ ∃ rt', importLoop rec ps rt u [] = some (rt', .ok (u', [])) := by
  induction ps generalizing u rt with
  | nil =>
    cases h
    exact .inr ⟨rt, rfl⟩
  | cons p r ih =>
    obtain ⟨o, u1, a, b, c⟩ : ∃ o u1, Compiled fs p o ∧ u.addImport o = (u1, none) ∧ Imported fs r u1 u' := by
      cases h with
      | cons _ _ o _ u1 _ a b c => exact ⟨o, u1, a, b, c⟩
    rcases hrec p (by simp) o rt a hi (hst p (by simp)) hD (hDp p (by simp)) with hn | ⟨rt1, h1⟩
    · left
      unfold importLoop
      rw [hn]
    · have d := hs _ _ _ _ h1 hi
      have hD1 : ∀ q, q ∈ rt1.units.map (·.1) ∨ q ∈ rt1.stack → D q := by
        obtain ⟨new, hn, hr⟩ := d.units
        rintro q (hq | hq)
        · rw [hn, List.map_append] at hq
          rcases List.mem_append.1 hq with hq | hq
          · exact hD q (.inl hq)
          · obtain ⟨e, he, rfl⟩ := List.mem_map.1 hq
            exact hDp p (by simp) _ (hr e he)
        · rw [d.stack] at hq
          exact hD q (.inr hq)
      have := ih c (fun q hq => hrec q (by simp [hq])) d.inv (by rw [d.stack]; exact fun q hq => hst q (by simp [hq])) hD1
        (fun q hq => hDp q (by simp [hq]))
      rcases this with hn | ⟨rt', h2⟩
      · left
        unfold importLoop
        simp only [h1, b, hn]
      · exact .inr ⟨rt', importLoop_cons.2 ⟨rt1, o, u1, h1, b, h2⟩⟩

theorem compile_complete (D : Str → Prop) (hpk : ∀ p q, D p → D q → pkgOf fs p = pkgOf fs q → p = q) {n : Nat} {p : Str}
    {u : UnitD} {rt : RT} (hc : Compiled fs p u) (hi : Inv fs rt) (hst : ∀ q ∈ rt.stack, ¬ Reach fs p q)
    (hD : ∀ q, q ∈ rt.units.map (·.1) ∨ q ∈ rt.stack → D q) (hDp : ∀ q, Reach fs p q → D q) :
    compile fs n p rt = none ∨ ∃ rt', compile fs n p rt = some (rt', .ok u) := by
  induction n generalizing p u rt with
  | zero => exact .inl rfl
  | succ n ih =>
    have hp : p ∉ rt.stack := fun h => hst p h .refl
    obtain ⟨f, hf⟩ : ∃ f, fs p = .parsed f := by cases hc; exact ⟨_, by assumption⟩
    rcases ha : aget rt.units p with _ | v
    · have hn := aget_none_iff.1 ha
      have hfull := hc
      obtain ⟨_, f', ps, u0, u1, _, a, b, c, d, e⟩ := hc
      rw [hf] at a
      cases a
      have hpkg : u0.pkg ∉ rt.packages.map (·.1) := by
        intro hk
        obtain ⟨⟨k, q⟩, hq, hkq⟩ := List.mem_map.1 hk
        simp only at hkq
        subst hkq
        obtain ⟨h1, h2⟩ := hi.pkgs _ _ hq
        rw [← (Part.start hf c).pkg] at h1
        have := hpk q p (hD q h2) (hDp p .refl) h1
        subst this
        rcases h2 with h2 | h2
        · exact hn h2
        · exact hp h2
      have himp : ∀ r ∈ ps, Imports fs p r := fun r hr => ⟨f, hf, by rw [b]; exact List.mem_map.2 ⟨r, hr, rfl⟩⟩
      have hi1 := hi.enter hp hn hpkg (Part.start hf c).pkg
      have hl := importLoop_complete (fs := fs) (rec := compile fs n) (fun p u rt rt' hx hi => compile_sound hx hi) D d
        (fun q hq u rt c1 c2 c3 c4 c5 => ih c1 c2 c3 c4 c5) hi1 (by
          intro q hq x hx hr
          rcases List.mem_append.1 hx with hx | hx
          · exact hst x hx (.head (himp q hq) hr)
          · rw [List.mem_singleton] at hx
            subst hx
            exact hfull.not_below ⟨q, himp q hq, hr⟩) (by
          rintro q (hq | hq)
          · exact hD q (.inl hq)
          · rcases List.mem_append.1 hq with hq | hq
            · exact hD q (.inr hq)
            · rw [List.mem_singleton] at hq
              subst hq
              exact hDp q .refl) (fun q hq x hx => hDp x (.head (himp q hq) hx))
      rcases hl with hl | ⟨rt1, hl⟩
      · left
        rw [compile, hf]
        simp only [hp, if_false, ha]
        unfold compileParsed
        rw [b, imports_none, if_neg (by simp), c, filterMap_some]
        simp only
        rw [if_neg (by rw [aget_isSome]; exact hpkg)]
        unfold RT.enter at hl
        rw [hl]
      · exact .inr ⟨_, compile_ok.2 ⟨hp, .inr ⟨ha, f, hf, compileParsed_ok.2 ⟨ps, u0, rt1, u1, b, c, hpkg, hl, e, rfl⟩⟩⟩⟩
    · have hm := (aget_some_iff hi.nodup).1 ha
      have := (hi.compiled _ _ hm).det hc
      subst this
      exact .inr ⟨rt, compile_ok.2 ⟨hp, .inl ⟨.inr ⟨f, hf⟩, ha, rfl⟩⟩⟩

/-! ### Errors -/

theorem visitInfo_honest {f : FileA} {u u' : UnitD} {es : List CErr} (h : visitInfo f u = (.err es, u')) : es ≠ [] := by
  unfold visitInfo at h
  split at h
  · simp only [Prod.mk.injEq, Out.err.injEq] at h
    rw [← h.1]; simp
  · simp only at h
    split at h
    · simp at h
    · simp only [Prod.mk.injEq, Out.err.injEq] at h
      rw [← h.1]; assumption

theorem compile_honest {n : Nat} {p : Str} {rt rt' : RT} {es : List CErr} (h : compile fs n p rt = some (rt', .err es)) :
    es ≠ [] := by
  cases n with
  | zero => simp [compile] at h
  | succ n =>
    have triv : ∀ {rt1 : RT} {e : CErr}, (some (rt1, .err [e]) : Option (RT × Out UnitD)) = some (rt', .err es) → es ≠ [] := by
      intro rt1 e h
      simp only [Option.some.injEq, Prod.mk.injEq, Out.err.injEq] at h
      rw [← h.2]; simp
    rw [compile] at h
    rcases hf : fs p with _ | _ | _ | f
    · rw [hf] at h; exact triv h
    · rw [hf] at h; exact triv h
    · rw [hf] at h
      simp only at h
      split at h
      · exact triv h
      · split at h
        · simp at h
        · exact triv h
    · rw [hf] at h
      simp only at h
      split at h
      · exact triv h
      split at h
      · simp at h
      unfold compileParsed at h
      split at h
      · exact triv h
      rcases hv : visitInfo f (UnitD.new p) with ⟨o1, u0⟩
      rw [hv] at h
      cases o1 with
      | err es1 =>
        simp only [Option.some.injEq, Prod.mk.injEq, Out.err.injEq] at h
        rw [← h.2]
        exact visitInfo_honest hv
      | panic => simp at h
      | ok y =>
        simp only at h
        split at h
        · exact triv h
        split at h
        · simp at h
        · simp at h
        · rename_i hl
          exact (importLoop_not_err hl).elim
        · split at h
          · rename_i he
            simp only [Option.some.injEq, Prod.mk.injEq, Out.err.injEq] at h
            rw [← h.2]; exact he
          · rename_i u1 errs hl he
            rcases hpr : visitProto f.tops [] u1 with ⟨o2, u2⟩
            rw [hpr] at h
            cases o2 with
            | ok z => simp at h
            | panic => simp at h
            | err es2 =>
              simp only [Option.some.injEq, Prod.mk.injEq, Out.err.injEq] at h
              rw [← h.2]
              exact honest_visitProto _ _ _ _ _ hpr

end Bubbler.Comp
