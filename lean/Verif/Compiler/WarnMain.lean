import Verif.Compiler.WarnProofs

/-
The warnings of a whole run.
-/
namespace Bubbler.Comp

variable {fs : FS}

abbrev RecW := Str → RT → Option (RT × Out UnitD × List WTree)

/-! ### The other results are those of `compile` -/

/-- Forget the warnings. -/
def dropW {α : Type} (x : Option (RT × Out α × List WTree)) : Option (RT × Out α) := x.map fun y => (y.1, y.2.1)

theorem importLoopW_result {r1 : RecW} {r2 : Rec} (h : ∀ p rt, dropW (r1 p rt) = r2 p rt) (ps : List Str) (rt : RT) (u : UnitD)
    (errs : List CErr) (ws : List WTree) : dropW (importLoopW r1 ps rt u errs ws) = importLoop r2 ps rt u errs := by
  induction ps generalizing rt u errs ws with
  | nil => rfl
  | cons p r ih =>
    unfold importLoopW importLoop
    rw [← h p rt]
    rcases r1 p rt with _ | ⟨rt', o, ws'⟩
    · rfl
    · cases o with
      | panic => rfl
      | err es => exact ih _ _ _ _
      | ok o =>
        dsimp only [dropW, Option.map]
        rcases u.addImport o with ⟨u', e⟩
        cases e with
        | none => exact ih _ _ _ _
        | some e => exact ih _ _ _ _

theorem compileParsedW_result {r1 : RecW} {r2 : Rec} (h : ∀ p rt, dropW (r1 p rt) = r2 p rt) (p : Str) (f : FileA) (rt : RT) :
    dropW (compileParsedW r1 p f rt) = compileParsed r2 p f rt := by
  unfold compileParsedW compileParsed
  split
  · rfl
  · rcases visitInfo f (UnitD.new p) with ⟨o, u⟩
    cases o with
    | err es => rfl
    | panic => rfl
    | ok x =>
      dsimp only
      split
      · rfl
      · rw [← importLoopW_result h _ _ _ _ (u.warns.map .own)]
        rcases importLoopW r1 (f.imports.filterMap id)
          { rt with packages := rt.packages ++ [(u.pkg, p)], stack := rt.stack ++ [p] } u [] (u.warns.map .own)
          with _ | ⟨rt', o, ws⟩
        · rfl
        · cases o with
          | panic => rfl
          | err es => rfl
          | ok y =>
            obtain ⟨u', errs⟩ := y
            by_cases he : errs ≠ []
            · simp only [dropW, Option.map, if_pos he]
            · simp only [dropW, Option.map, if_neg he]
              rcases visitProto f.tops [] u' with ⟨o, u''⟩
              cases o <;> rfl

/-- Apart from the warnings, `compileW` is `compile`. -/
theorem compileW_result (n : Nat) (p : Str) (rt : RT) : dropW (compileW fs n p rt) = compile fs n p rt := by
  induction n generalizing p rt with
  | zero => rfl
  | succ n ih =>
    rw [compileW, compile]
    rcases fs p with _ | _ | _ | f
    · rfl
    · rfl
    · dsimp only
      split
      · rfl
      · rcases aget rt.units p with _ | u <;> rfl
    · dsimp only
      split
      · rfl
      · rcases aget rt.units p with _ | u
        · exact compileParsedW_result (fun p rt => ih p rt) p f rt
        · rfl

theorem compileW_compile {n : Nat} {p : Str} {rt rt' : RT} {o : Out UnitD} {ws : List WTree}
    (h : compileW fs n p rt = some (rt', o, ws)) : compile fs n p rt = some (rt', o) := by
  rw [← compileW_result, h]; rfl

/-! ### Every warning is true -/

theorem wrapW_mem {p : Str} {ws : List WTree} {t : WTree} (h : t ∈ wrapW p ws) : t = .importing p ws ∧ ws ≠ [] := by
  unfold wrapW at h
  split at h
  · cases h
  · exact ⟨List.mem_singleton.1 h, ‹_›⟩

theorem importLoopW_true {rec : RecW} {p : Str} (hrec : ∀ q rt rt' o ws, rec q rt = some (rt', o, ws) → ∀ t ∈ ws, t.Holds fs q)
    {ps : List Str} (hps : ∀ q ∈ ps, Imports fs p q) {rt rt' : RT} {u : UnitD} {o : Out (UnitD × List CErr)} {errs : List CErr}
    {ws ws' : List WTree} (h : importLoopW rec ps rt u errs ws = some (rt', o, ws')) (hw : ∀ t ∈ ws, t.Holds fs p) :
    ∀ t ∈ ws', t.Holds fs p := by
  induction ps generalizing rt u errs ws with
  | nil =>
    simp only [importLoopW, Option.some.injEq, Prod.mk.injEq] at h
    rw [← h.2.2]; exact hw
  | cons q r ih =>
    have hr : ∀ x ∈ r, Imports fs p x := fun x hx => hps x (by simp [hx])
    have step : ∀ {rt1 : RT} {o1 : Out UnitD} {ws1 : List WTree}, rec q rt = some (rt1, o1, ws1) →
        ∀ t ∈ ws ++ wrapW q ws1, t.Holds fs p := by
      intro rt1 o1 ws1 h1 t ht
      rcases List.mem_append.1 ht with ht | ht
      · exact hw t ht
      · obtain ⟨rfl, hne⟩ := wrapW_mem ht
        exact .importing (hps q (by simp)) hne (hrec _ _ _ _ _ h1)
    unfold importLoopW at h
    rcases hq : rec q rt with _ | ⟨rt1, o1, ws1⟩
    · rw [hq] at h; simp at h
    · rw [hq] at h
      cases o1 with
      | panic =>
        simp only [Option.some.injEq, Prod.mk.injEq] at h
        rw [← h.2.2]; simp
      | err es => exact ih hr h (step hq)
      | ok v =>
        dsimp only at h
        rcases ha : u.addImport v with ⟨u', e⟩
        rw [ha] at h
        cases e with
        | none => exact ih hr h (step hq)
        | some e => exact ih hr h (step hq)

theorem visitInfo_warns (f : FileA) (p : Str) :
    (visitInfo f (UnitD.new p)).2.warns.Sublist (headerW f) ∧
      ∀ u, visitInfo f (UnitD.new p) = (.ok (), u) → u.warns = headerW f := by
  unfold visitInfo
  rcases hp : f.pkgs with _ | ⟨k, ks⟩
  · exact ⟨List.nil_sublist _, fun u h => by simp at h⟩
  · dsimp only
    obtain ⟨ws, h1, h2, h3⟩ := visitFileOptions_warns f.opts [] (ks.map fun _ => CErr.packageStmtDuplicate)
      { UnitD.new p with pkg := k }
    rcases hv : visitFileOptions f.opts [] (ks.map fun _ => CErr.packageStmtDuplicate) { UnitD.new p with pkg := k }
      with ⟨os, es, u'⟩
    rw [hv] at h1 h3
    have h1 : u'.warns = ws := h1.trans (List.nil_append ws)
    dsimp only at h3 ⊢
    split
    · rename_i he
      refine ⟨by rw [show _ = ws from h1]; exact h2, fun u h => ?_⟩
      simp only [Prod.mk.injEq, true_and] at h
      rw [← h]
      exact h1.trans (h3 he).2
    · refine ⟨by rw [show _ = ws from h1]; exact h2, fun u h => by simp at h⟩

/-- What a visit of the definitions adds -/
theorem visitProto_added (l : List TopA) (u : UnitD) :
    ((visitProto l [] u).2.warns.drop u.warns.length).Sublist (l.flatMap topW) ∧
      ∀ u', visitProto l [] u = (.ok (), u') → u'.warns.drop u.warns.length = l.flatMap topW := by
  obtain ⟨ws, h1, h2, h3⟩ := (says_visitProto l []).1 u
  rw [h1]
  refine ⟨by simpa using h2, fun u' h => ?_⟩
  rw [h] at h1 h3
  rw [show u'.warns = _ from h1, List.drop_left]
  exact h3 _ rfl

theorem Holds.sub {p : Str} {f : FileA} {l : List Warn} (hf : fs p = .parsed f) (h : ∀ w ∈ l, w ∈ fileW f) :
    ∀ t ∈ l.map WTree.own, t.Holds fs p := by
  intro t ht
  obtain ⟨w, hw, rfl⟩ := List.mem_map.1 ht
  exact .own hf (h w hw)

theorem compileW_true {n : Nat} {p : Str} {rt rt' : RT} {o : Out UnitD} {ws : List WTree}
    (h : compileW fs n p rt = some (rt', o, ws)) : ∀ t ∈ ws, t.Holds fs p := by
  induction n generalizing p rt rt' o ws with
  | zero => simp [compileW] at h
  | succ n ih =>
    have triv : ∀ {rt1 : RT} {o1 : Out UnitD}, (some (rt1, o1, ([] : List WTree))) = some (rt', o, ws) → ∀ t ∈ ws, t.Holds fs p := by
      intro rt1 o1 h
      simp only [Option.some.injEq, Prod.mk.injEq] at h
      rw [← h.2.2]; simp
    rw [compileW] at h
    rcases hf : fs p with _ | _ | _ | f
    · rw [hf] at h; exact triv h
    · rw [hf] at h; exact triv h
    · rw [hf] at h
      simp only at h
      split at h
      · exact triv h
      · split at h <;> exact triv h
    · rw [hf] at h
      simp only at h
      split at h
      · exact triv h
      split at h
      · exact triv h
      unfold compileParsedW at h
      split at h
      · exact triv h
      have hi := (visitInfo_warns f p).1
      rcases hv : visitInfo f (UnitD.new p) with ⟨o1, u0⟩
      rw [hv] at h hi
      have h0 : ∀ t ∈ u0.warns.map WTree.own, t.Holds fs p :=
        Holds.sub hf fun w hw => List.mem_append_left _ (hi.subset hw)
      cases o1 with
      | err es1 =>
        simp only [Option.some.injEq, Prod.mk.injEq] at h
        rw [← h.2.2]; exact h0
      | panic => exact triv h
      | ok y =>
        simp only at h
        split at h
        · simp only [Option.some.injEq, Prod.mk.injEq] at h
          rw [← h.2.2]; exact h0
        rename_i hpk
        have hps : ∀ q ∈ f.imports.filterMap id, Imports fs p q := by
          intro q hq
          obtain ⟨x, hx, e⟩ := List.mem_filterMap.1 hq
          exact ⟨f, hf, by rw [show x = some q from e] at hx; exact hx⟩
        split at h
        · simp at h
        · exact triv h
        · exact triv h
        · rename_i rt1 u1 errs ws1 hl
          have hl := importLoopW_true (fun q rt rt' o ws h => ih h) hps hl h0
          split at h
          · simp only [Option.some.injEq, Prod.mk.injEq] at h
            rw [← h.2.2]; exact hl
          · have hp := (visitProto_added f.tops u1).1
            rcases hpr : visitProto f.tops [] u1 with ⟨o2, u2⟩
            rw [hpr] at h hp
            have hall : ∀ t ∈ ws1 ++ (u2.warns.drop u1.warns.length).map WTree.own, t.Holds fs p := by
              intro t ht
              rcases List.mem_append.1 ht with ht | ht
              · exact hl t ht
              · exact Holds.sub hf (fun w hw => List.mem_append_right _ (hp.subset hw)) t ht
            cases o2 with
            | ok z =>
              simp only [Option.some.injEq, Prod.mk.injEq] at h
              rw [← h.2.2]; exact hall
            | err es =>
              simp only [Option.some.injEq, Prod.mk.injEq] at h
              rw [← h.2.2]; exact hall
            | panic => exact triv h

/-! ### Every deserved warning is printed exactly once -/

/-- The warnings deserved by what is found under a path -/
def deserved (fs : FS) (q : Str) : List Warn :=
  match fs q with
  | .parsed f => fileW f
  | _ => []

theorem linesL_append (p : Str) (a b : List WTree) : linesL p (a ++ b) = linesL p a ++ linesL p b := by
  induction a with
  | nil => rfl
  | cons t r ih => rw [List.cons_append, linesL, linesL, ih, List.append_assoc]

theorem about_append (x p : Str) (a b : List WTree) : about x p (a ++ b) = about x p a ++ about x p b := by
  unfold about
  rw [linesL_append, List.filter_append, List.map_append]

theorem linesL_own (p : Str) (l : List Warn) : linesL p (l.map .own) = l.map fun w => (p, w) := by
  induction l with
  | nil => rfl
  | cons w r ih => rw [List.map_cons, linesL, ih, WTree.lines]; rfl

theorem about_own (x p : Str) (l : List Warn) : about x p (l.map .own) = if x = p then l else [] := by
  unfold about
  rw [linesL_own]
  by_cases h : x = p
  · subst h
    rw [if_pos rfl, List.filter_eq_self.2 (by simp), List.map_map]
    exact List.map_id l
  · rw [if_neg h, List.filter_eq_nil_iff.2 (by
      intro a ha
      obtain ⟨w, -, rfl⟩ := List.mem_map.1 ha
      simpa using Ne.symm h)]
    rfl

theorem about_wrap (x p q : Str) (ws : List WTree) : about x p (wrapW q ws) = about x q ws := by
  unfold wrapW
  split
  · rename_i h; subst h; rfl
  · unfold about
    rw [linesL, linesL, WTree.lines, List.append_nil]

/-- What a successful call has printed: the warnings of the files it has finished -/
def Said (fs : FS) (p : Str) (rt rt' : RT) (ws : List WTree) : Prop :=
  ∃ new, rt'.units = rt.units ++ new ∧ ∀ x, about x p ws = if x ∈ new.map (·.1) then deserved fs x else []

theorem importLoopW_cons {rec : RecW} {q : Str} {r : List Str} {rt rt' : RT} {u u' : UnitD} {ws ws' : List WTree}
    (h : importLoopW rec (q :: r) rt u [] ws = some (rt', .ok (u', []), ws')) :
    ∃ rt1 o u1 ws1, rec q rt = some (rt1, .ok o, ws1) ∧ u.addImport o = (u1, none) ∧
      importLoopW rec r rt1 u1 [] (ws ++ wrapW q ws1) = some (rt', .ok (u', []), ws') := by
  have errs : ∀ {es : List CErr} {rt1 : RT} {u1 : UnitD} {ws1 : List WTree}, es ≠ [] →
      importLoopW rec r rt1 u1 es ws1 = some (rt', .ok (u', []), ws') → False := by
    intro es rt1 u1 ws1 hne h
    have := importLoopW_result (r1 := rec) (r2 := fun p rt => dropW (rec p rt)) (fun _ _ => rfl) r rt1 u1 es ws1
    rw [h] at this
    obtain ⟨es', he⟩ := importLoop_errs this.symm
    exact hne (List.append_eq_nil_iff.1 he.symm).1
  unfold importLoopW at h
  rcases hr : rec q rt with _ | ⟨rt1, o, ws1⟩
  · rw [hr] at h; simp at h
  · rw [hr] at h
    cases o with
    | panic => simp at h
    | err es => exact (errs (by simp [wrapImport_ne]) h).elim
    | ok o =>
      dsimp only at h
      rcases ha : u.addImport o with ⟨u1, e⟩
      rw [ha] at h
      cases e with
      | none => exact ⟨rt1, o, u1, ws1, rfl, ha, h⟩
      | some e => exact (errs (by simp) h).elim

theorem importLoopW_said {rec : RecW} {p : Str}
    (hrec : ∀ q o rt rt' ws, rec q rt = some (rt', .ok o, ws) → Inv fs rt → Did fs q o rt rt' ∧ Said fs q rt rt' ws)
    {ps : List Str} {rt rt' : RT} {u u' : UnitD} {ws ws' : List WTree}
    (h : importLoopW rec ps rt u [] ws = some (rt', .ok (u', []), ws')) (hi : Inv fs rt) :
    Inv fs rt' ∧ ∃ kids : List (Str × List WTree), ws' = ws ++ kids.map (fun k => .importing k.1 k.2) ∧
      (kids.map (·.1)).Sublist ps ∧ Said fs p rt rt' (kids.map fun k => .importing k.1 k.2) := by
  induction ps generalizing rt u ws with
  | nil =>
    simp only [importLoopW, Option.some.injEq, Prod.mk.injEq] at h
    obtain ⟨rfl, -, rfl⟩ := h
    exact ⟨hi, [], by simp, .refl _, [], by simp, fun x => by simp [about, linesL]⟩
  | cons q r ih =>
    obtain ⟨rt1, o, u1, ws1, h1, -, h2⟩ := importLoopW_cons h
    obtain ⟨d, new1, n1, s1⟩ := hrec _ _ _ _ _ h1 hi
    obtain ⟨hi', kids, rfl, k2, new2, n2, s2⟩ := ih h2 d.inv
    refine ⟨hi', ?_⟩
    have hdis : ∀ x ∈ new1.map (·.1), x ∉ new2.map (·.1) := by
      intro x hx hx2
      have := hi'.nodup
      rw [n2, n1, List.map_append, List.map_append] at this
      exact (List.nodup_append.1 this).2.2 x (List.mem_append_right _ hx) x hx2 rfl
    have said : ∀ mid, (∀ x, about x p mid = about x q ws1) →
        Said fs p rt rt' (mid ++ kids.map fun k => .importing k.1 k.2) := by
      intro mid hm
      refine ⟨new1 ++ new2, by rw [n2, n1, List.append_assoc], fun x => ?_⟩
      rw [about_append, hm, s1, s2, List.map_append]
      by_cases a : x ∈ new1.map (·.1)
      · rw [if_pos a, if_neg (hdis x a), if_pos (List.mem_append_left _ a), List.append_nil]
      · rw [if_neg a, List.nil_append]
        by_cases b : x ∈ new2.map (·.1)
        · rw [if_pos b, if_pos (List.mem_append_right _ b)]
        · rw [if_neg b, if_neg (by rw [List.mem_append]; exact fun h => h.elim a b)]
    have sw := said (wrapW q ws1) fun x => about_wrap x p q ws1
    by_cases hw : ws1 = []
    · subst hw
      refine ⟨kids, by simp [wrapW], k2.cons _, ?_⟩
      simpa [wrapW] using sw
    · have e : wrapW q ws1 = [.importing q ws1] := if_neg hw
      refine ⟨(q, ws1) :: kids, by simp [e], by simpa using k2, ?_⟩
      rw [e] at sw
      exact sw

/-- The printed warnings of one file -/
structure Report (fs : FS) (p : Str) (f : FileA) (ws : List WTree) : Prop where
  shape : ∃ kids : List (Str × List WTree), ws = (headerW f).map .own ++ kids.map (fun k => .importing k.1 k.2) ++
      (topsW f).map .own ∧ ((kids.map (·.1)).map some).Sublist f.imports

theorem compileParsedW_ok {rec : RecW} {p : Str} {f : FileA} {rt rt' : RT} {u : UnitD} {ws : List WTree}
    (h : compileParsedW rec p f rt = some (rt', .ok u, ws)) :
    ∃ ps u0 rt1 u1 ws1, f.imports = ps.map some ∧ visitInfo f (UnitD.new p) = (.ok (), u0) ∧
      u0.pkg ∉ rt.packages.map (·.1) ∧
      importLoopW rec ps (rt.enter u0.pkg p) u0 [] (u0.warns.map .own) = some (rt1, .ok (u1, []), ws1) ∧
      visitProto f.tops [] u1 = (.ok (), u) ∧ rt' = rt1.leave p u ∧ ws = ws1 ++ (u.warns.drop u1.warns.length).map .own := by
  unfold compileParsedW at h
  split at h
  · simp at h
  rename_i hany
  have hps := imports_some (Bool.eq_false_iff.2 hany)
  rcases hv : visitInfo f (UnitD.new p) with ⟨o, u0⟩
  rw [hv] at h
  cases o with
  | err es => simp at h
  | panic => simp at h
  | ok x =>
    simp only at h
    split at h
    · simp at h
    rename_i hpk
    split at h
    · simp at h
    · simp at h
    · simp at h
    · rename_i rt1 u1 errs ws1 hl
      split at h
      · simp at h
      rename_i he
      have he : errs = [] := by simpa using he
      subst he
      rcases hp : visitProto f.tops [] u1 with ⟨o, u2⟩
      rw [hp] at h
      cases o with
      | err es => simp at h
      | panic => simp at h
      | ok y =>
        simp only [Option.some.injEq, Prod.mk.injEq, Out.ok.injEq] at h
        obtain ⟨rfl, rfl, rfl⟩ := h
        refine ⟨f.imports.filterMap id, u0, rt1, u1, ws1, hps, rfl, ?_, hl, hp, rfl, rfl⟩
        intro hm
        exact hpk ((aget_isSome _ _).2 hm)

theorem compileW_said {n : Nat} {p : Str} {u : UnitD} {rt rt' : RT} {ws : List WTree}
    (h : compileW fs n p rt = some (rt', .ok u, ws)) (hi : Inv fs rt) :
    Did fs p u rt rt' ∧ Said fs p rt rt' ws ∧ (p ∉ rt.units.map (·.1) → ∃ f, fs p = .parsed f ∧ Report fs p f ws) := by
  induction n generalizing p u rt rt' ws with
  | zero => simp [compileW] at h
  | succ n ih =>
    have hd := compile_sound (compileW_compile h) hi
    refine ⟨hd, ?_⟩
    obtain ⟨hs, ⟨hpf, hu, rfl⟩ | ⟨hu, f, hf, -⟩⟩ := compile_ok.1 (compileW_compile h)
    · have hm := (aget_some_iff hi.nodup).1 hu
      have hm' : p ∈ rt'.units.map (·.1) := List.mem_map.2 ⟨_, hm, rfl⟩
      have hws : ws = [] := by
        rw [compileW] at h
        rcases hpf with hf | ⟨f, hf⟩ <;> rw [hf] at h <;> simp only [if_neg hs, hu] at h <;>
          simp only [Option.some.injEq, Prod.mk.injEq] at h <;> exact h.2.2.symm
      subst hws
      exact ⟨⟨[], by simp, fun x => by simp [about, linesL]⟩, fun h => absurd hm' h⟩
    · rw [compileW, hf] at h
      simp only [if_neg hs, hu] at h
      obtain ⟨ps, u0, rt1, u1, ws1, h1, h2, h3, h4, h5, rfl, rfl⟩ := compileParsedW_ok h
      have hu' := aget_none_iff.1 hu
      have hpk := (Part.start hf h2).pkg
      have he := hi.enter hs hu' h3 hpk
      obtain ⟨hi1, kids, rfl, k1, new, n1, s1⟩ := importLoopW_said (p := p)
        (fun q o rt rt' ws h hi => ⟨(ih h hi).1, (ih h hi).2.1⟩) h4 he
      have hw0 := (visitInfo_warns f p).2 _ h2
      have hw1 := (visitProto_added f.tops u1).2 _ h5
      rw [hw1]
      refine ⟨?_, fun _ => ⟨f, hf, ⟨kids, by rw [hw0]; rfl, ?_⟩⟩⟩
      · obtain ⟨new', hn'⟩ := hd.last hu'
        have hn1 : rt1.units = rt.units ++ new := n1
        have hp1 : p ∉ rt1.units.map (·.1) := by
          intro hm
          obtain ⟨i1, i2, i3, -, i6⟩ := importLoop_sound (rec := compile fs n) (fun p u rt rt' hx hi => compile_sound hx hi)
            (by rw [← importLoopW_result (r1 := compileW fs n) (fun p rt => compileW_result n p rt), h4]; rfl) he
          exact i1.disjoint p hm (by rw [i2]; simp [RT.enter])
        have hu2 : (rt1.leave p u).units = rt.units ++ (new ++ [(p, u)]) := by
          show aput rt1.units p u = _
          rw [aput_new _ _ _ hp1, hn1, List.append_assoc]
        refine ⟨new ++ [(p, u)], hu2, fun x => ?_⟩
        rw [about_append, about_append, about_own, about_own, s1, hw0]
        by_cases hx : x = p
        · subst hx
          have : x ∉ new.map (·.1) := fun hm => hp1 (by rw [hn1, List.map_append]; exact List.mem_append_right _ hm)
          rw [if_pos rfl, if_neg this, if_pos rfl, if_pos (by simp), List.append_nil]
          unfold deserved
          rw [hf]; rfl
        · rw [if_neg hx, if_neg hx, List.nil_append, List.append_nil]
          by_cases hm : x ∈ new.map (·.1)
          · rw [if_pos hm, if_pos (by rw [List.map_append]; exact List.mem_append_left _ hm)]
          · rw [if_neg hm, if_neg (by
              rw [List.map_append, List.mem_append]
              rintro (h | h)
              · exact hm h
              · exact hx (by simpa using h))]
      · rw [h1]
        exact k1.map some

end Bubbler.Comp
