import Verif.Compiler.ErrProofs

/-
The errors of a run are true, continued: the traversal.
-/
namespace Bubbler.Comp

variable {fs : FS} {entry : Str}

/-- An error that is true of the file exists. -/
def Failed (fs : FS) (entry s : Str) : Prop := ∃ e, Claim fs entry s e

/-- The table of packages knows files of this run. -/
def PInv (fs : FS) (entry : Str) (rt : RT) : Prop :=
  ∀ k s, (k, s) ∈ rt.packages → pkgOf fs s = some k ∧ Reach fs entry s ∧ (s ∈ rt.units.map (·.1) ∨ s ∈ rt.stack)

/-- The stack while the imports of `p` are compiled: files on the way to `p` and files that failed -/
def LCtx (fs : FS) (entry p : Str) (stack : List Str) : Prop :=
  ∃ pre post, stack = pre ++ p :: post ∧ (∀ s ∈ pre, Reach fs s p ∨ Failed fs entry s) ∧ ∀ s ∈ post, Failed fs entry s

/-- The stack when `p` is about to be compiled -/
def Ctx (fs : FS) (entry p : Str) (stack : List Str) : Prop :=
  stack = [] ∨ ∃ c, Imports fs c p ∧ LCtx fs entry c stack

/-- What a run leaves behind -/
structure After (fs : FS) (entry p : Str) (rt rt' : RT) (o : Out UnitD) : Prop where
  pinv : PInv fs entry rt'
  stack : ∃ post, rt'.stack = rt.stack ++ post ∧ ∀ s ∈ post, Failed fs entry s
  claims : ∀ es, o = .err es → ∀ e ∈ es, Claim fs entry p e

theorem LCtx.append {p : Str} {st post : List Str} (h : LCtx fs entry p st) (hp : ∀ s ∈ post, Failed fs entry s) :
    LCtx fs entry p (st ++ post) := by
  obtain ⟨a, b, rfl, h1, h2⟩ := h
  refine ⟨a, b ++ post, by simp, h1, fun s hs => ?_⟩
  rcases List.mem_append.1 hs with hs | hs
  · exact h2 s hs
  · exact hp s hs

/-- The stack when `p` has been put on it -/
theorem Ctx.enter {p : Str} {st : List Str} (h : Ctx fs entry p st) : LCtx fs entry p (st ++ [p]) := by
  rcases h with rfl | ⟨c, hi, pre, post, rfl, h1, h2⟩
  · exact ⟨[], [], rfl, by simp, by simp⟩
  · refine ⟨pre ++ c :: post, [], by simp, fun s hs => ?_, by simp⟩
    rcases List.mem_append.1 hs with hs | hs
    · rcases h1 s hs with h | h
      · exact .inl (h.step hi)
      · exact .inr h
    · rcases List.mem_cons.1 hs with rfl | hs
      · exact .inl (.step .refl hi)
      · exact .inr (h2 s hs)

/-- A file found on the stack -/
theorem Ctx.found {p : Str} {st : List Str} (h : Ctx fs entry p st) (hp : p ∈ st) :
    Claim fs entry p (if st.getLast? = some p then .importSelf else .importCycle p) := by
  rcases h with rfl | ⟨c, hi, pre, post, rfl, h1, h2⟩
  · cases hp
  · have hf : ∀ q, Failed fs entry q → q = p → Claim fs entry p (if (pre ++ c :: post).getLast? = some p then .importSelf else .importCycle p) := by
      rintro q ⟨e, he⟩ rfl
      split
      · exact .staleSelf _ _ he
      · exact .staleCycle _ _ he
    by_cases hl : (pre ++ c :: post).getLast? = some p
    · rw [if_pos hl]
      rcases List.eq_nil_or_concat post with rfl | ⟨l, z, rfl⟩
      · have : c = p := by simpa using hl
        subst this
        exact .self _ hi
      · have hz : z = p := by
          rw [List.concat_eq_append, show pre ++ c :: (l ++ [z]) = (pre ++ c :: l) ++ [z] by simp, List.getLast?_concat] at hl
          exact Option.some.inj hl
        subst hz
        obtain ⟨e, he⟩ := h2 z (by simp)
        exact .staleSelf _ _ he
    · rw [if_neg hl]
      have hst : Failed fs entry p → Claim fs entry p (.importCycle p) := fun ⟨e, he⟩ => .staleCycle _ _ he
      rcases List.mem_append.1 hp with hp | hp
      · rcases h1 p hp with h | h
        · rcases (h.step hi).cases_head with _ | h'
          · refine .cycle _ ?_
            rcases h.cases_head with rfl | ⟨r, hr, hrc⟩
            · exact ⟨_, hi, .refl⟩
            · exact ⟨r, hr, hrc.step hi⟩
          · exact .cycle _ h'
        · exact hst h
      · rcases List.mem_cons.1 hp with rfl | hp
        · exact .cycle _ ⟨_, hi, .refl⟩
        · exact hst (h2 p hp)

theorem wrapImport_claim {p q : Str} {es : List CErr} (hi : Imports fs p q) (hne : es ≠ []) (h : ∀ e ∈ es, Claim fs entry q e) :
    ∀ e ∈ wrapImport q es, Claim fs entry p e := by
  unfold wrapImport
  split
  · rename_i e
    split
    · rename_i hp
      intro x hx
      rw [List.mem_singleton.1 hx]
      exact .located p q e hi hp (h e (by simp))
    · intro x hx
      rw [List.mem_singleton.1 hx]
      exact .importing p q _ hi hne h
  · intro x hx
    rw [List.mem_singleton.1 hx]
    exact .importing p q _ hi hne h

theorem importLoop_true {rec : Rec} {p : Str}
    (hrec : ∀ q rt rt' o, rec q rt = some (rt', o) → o ≠ .panic → Reach fs entry q → Ctx fs entry q rt.stack → PInv fs entry rt →
      After fs entry q rt rt' o ∧ ∀ es, o = .err es → es ≠ [])
    (hp : Reach fs entry p) {ps : List Str} (hps : ∀ q ∈ ps, Imports fs p q) {rt rt' : RT} {u u' : UnitD} {errs errs' : List CErr}
    (h : importLoop rec ps rt u errs = some (rt', .ok (u', errs'))) (hc : LCtx fs entry p rt.stack) (hi : PInv fs entry rt)
    (hu : u.path = p) (he : ∀ e ∈ errs, Claim fs entry p e) :
    PInv fs entry rt' ∧ (∃ post, rt'.stack = rt.stack ++ post ∧ ∀ s ∈ post, Failed fs entry s) ∧
      ∀ e ∈ errs', Claim fs entry p e := by
  induction ps generalizing rt u errs with
  | nil =>
    simp only [importLoop, Option.some.injEq, Prod.mk.injEq, Out.ok.injEq] at h
    obtain ⟨rfl, rfl, rfl⟩ := h
    exact ⟨hi, ⟨[], by simp⟩, he⟩
  | cons q r ih =>
    have hq : Imports fs p q := hps q (by simp)
    have hr : ∀ q ∈ r, Imports fs p q := fun x hx => hps x (by simp [hx])
    have cont : ∀ {rt1 : RT} {u1 : UnitD} {errs1 : List CErr}, importLoop rec r rt1 u1 errs1 = some (rt', .ok (u', errs')) →
        PInv fs entry rt1 → (∃ post, rt1.stack = rt.stack ++ post ∧ ∀ s ∈ post, Failed fs entry s) → u1.path = p →
        (∀ e ∈ errs1, Claim fs entry p e) →
        PInv fs entry rt' ∧ (∃ post, rt'.stack = rt.stack ++ post ∧ ∀ s ∈ post, Failed fs entry s) ∧
          ∀ e ∈ errs', Claim fs entry p e := by
      rintro rt1 u1 errs1 h ha ⟨post, hs, hf⟩ hu he
      obtain ⟨k1, ⟨post', hs', hf'⟩, k3⟩ := ih hr h (by rw [hs]; exact hc.append hf) ha hu he
      refine ⟨k1, ⟨post ++ post', by rw [hs', hs, List.append_assoc], fun s h => ?_⟩, k3⟩
      rcases List.mem_append.1 h with h | h
      · exact hf s h
      · exact hf' s h
    unfold importLoop at h
    rcases h1 : rec q rt with _ | ⟨rt1, o⟩
    · rw [h1] at h; simp at h
    · rw [h1] at h
      cases o with
      | panic => simp at h
      | err es =>
        obtain ⟨a, hne⟩ := hrec _ _ _ _ h1 (by simp) (hp.step hq) (.inr ⟨p, hq, hc⟩) hi
        refine cont h a.pinv a.stack hu fun e hx => ?_
        rcases List.mem_append.1 hx with hx | hx
        · exact he e hx
        · exact wrapImport_claim hq (hne es rfl) (a.claims es rfl) e hx
      | ok o =>
        obtain ⟨a, -⟩ := hrec _ _ _ _ h1 (by simp) (hp.step hq) (.inr ⟨p, hq, hc⟩) hi
        simp only at h
        rcases ha : u.addImport o with ⟨u1, e⟩
        rw [ha] at h
        have hu1 : u1.path = p := (addImport_path_err ha).trans hu
        cases e with
        | none => exact cont h a.pinv a.stack hu1 he
        | some e =>
          refine cont h a.pinv a.stack hu1 fun x hx => ?_
          rcases List.mem_append.1 hx with hx | hx
          · exact he x hx
          · obtain ⟨es, rfl, hne, hd⟩ := addImport_dup ha
            rw [List.mem_singleton.1 hx, hu]
            exact .clash p q es hq hne hd

theorem compile_true {n : Nat} {p : Str} {rt rt' : RT} {o : Out UnitD} (h : compile fs n p rt = some (rt', o)) (ho : o ≠ .panic)
    (hp : Reach fs entry p) (hc : Ctx fs entry p rt.stack) (hi : PInv fs entry rt) : After fs entry p rt rt' o := by
  induction n generalizing p rt rt' o with
  | zero => simp [compile] at h
  | succ n ih =>
    have one : ∀ {e : CErr}, Claim fs entry p e → some (rt, .err [e]) = some (rt', o) → After fs entry p rt rt' o := by
      intro e he h
      simp only [Option.some.injEq, Prod.mk.injEq] at h
      obtain ⟨rfl, rfl⟩ := h
      refine ⟨hi, ⟨[], by simp⟩, fun es h x hx => ?_⟩
      cases h
      rw [List.mem_singleton.1 hx]
      exact he
    have good : ∀ {u : UnitD}, some (rt, .ok u) = some (rt', o) → After fs entry p rt rt' o := by
      intro u h
      simp only [Option.some.injEq, Prod.mk.injEq] at h
      obtain ⟨rfl, rfl⟩ := h
      exact ⟨hi, ⟨[], by simp⟩, fun es h => by cases h⟩
    rw [compile] at h
    rcases hf : fs p with _ | _ | _ | f
    · rw [hf] at h; exact one (.missing p hf) h
    · rw [hf] at h; exact one (.unreadable p hf) h
    · rw [hf] at h
      simp only at h
      split at h
      · rename_i hs
        exact one (hc.found hs) h
      · split at h
        · exact good h
        · exact one (.garbage p hf) h
    · rw [hf] at h
      simp only at h
      split at h
      · rename_i hs
        exact one (hc.found hs) h
      rename_i hns
      split at h
      · exact good h
      rename_i hnu
      have hnu' := aget_none_iff.1 hnu
      unfold compileParsed at h
      split at h
      · exact one (.text p f _ hf rfl) h
      rename_i hlit
      rcases hv : visitInfo f (UnitD.new p) with ⟨o1, u0⟩
      rw [hv] at h
      cases o1 with
      | panic =>
        simp only [Option.some.injEq, Prod.mk.injEq] at h
        exact absurd h.2.symm ho
      | err es1 =>
        simp only [Option.some.injEq, Prod.mk.injEq] at h
        obtain ⟨rfl, rfl⟩ := h
        refine ⟨hi, ⟨[], by simp⟩, fun es h x hx => ?_⟩
        cases h
        exact (visitInfo_errs hf hv x hx).1
      | ok y =>
        have part := Part.start hf hv
        simp only at h
        split at h
        · rename_i hpk
          obtain ⟨q, hq⟩ := Option.isSome_iff_exists.1 hpk
          obtain ⟨k1, k2, k3⟩ := hi _ _ (aget_in hq)
          refine one (.samePackage p q _ part.pkg k1 ?_ k2) h
          rintro rfl
          exact k3.elim hnu' hns
        have himps := imports_some (l := f.imports) (Bool.eq_false_iff.2 hlit)
        have hps : ∀ q ∈ f.imports.filterMap id, Imports fs p q := by
          intro q hq
          refine ⟨f, hf, ?_⟩
          rw [himps]
          exact List.mem_map.2 ⟨q, hq, rfl⟩
        rcases hl : importLoop (compile fs n) (f.imports.filterMap id)
          { rt with packages := rt.packages ++ [(u0.pkg, p)], stack := rt.stack ++ [p] } u0 [] with _ | ⟨rt1, o1⟩
        · rw [hl] at h; simp at h
        rw [hl] at h
        cases o1 with
        | panic =>
          simp only [Option.some.injEq, Prod.mk.injEq] at h
          exact absurd h.2.symm ho
        | err es1 => exact (importLoop_not_err hl).elim
        | ok pr =>
          obtain ⟨u1, errs⟩ := pr
          simp only at h
          obtain ⟨k1, ⟨post, k2, k2'⟩, k3⟩ := importLoop_true (fs := fs) (entry := entry) (p := p)
            (fun q rt rt' o h ho hq hc hi => ⟨ih h ho hq hc hi, fun es e => by subst e; exact compile_honest h⟩) hp hps hl hc.enter
            (by
              intro k s hks
              rcases List.mem_append.1 hks with hks | hks
              · obtain ⟨a, b, c⟩ := hi k s hks
                exact ⟨a, b, c.imp_right fun h => List.mem_append_left _ h⟩
              · cases List.mem_singleton.1 hks
                exact ⟨part.pkg, hp, .inr (by simp)⟩)
            part.path (by simp)
          dsimp only at k2
          split at h
          · rename_i hne
            simp only [Option.some.injEq, Prod.mk.injEq] at h
            obtain ⟨rfl, rfl⟩ := h
            refine ⟨k1, ⟨p :: post, by rw [k2]; simp, fun s hs => ?_⟩, fun es h => by cases h; exact k3⟩
            rcases List.mem_cons.1 hs with rfl | hs
            · obtain ⟨e, l, hel⟩ := List.exists_cons_of_ne_nil hne
              exact ⟨e, k3 e (by rw [hel]; simp)⟩
            · exact k2' s hs
          · rcases hpr : visitProto f.tops [] u1 with ⟨o2, u2⟩
            rw [hpr] at h
            have inv2 : PInv fs entry { rt1 with stack := rt1.stack.filter (· ≠ p), units := aput rt1.units p u2 } := by
              intro k s hks
              obtain ⟨a, b, c⟩ := k1 k s hks
              refine ⟨a, b, ?_⟩
              by_cases hsp : s = p
              · subst hsp
                exact .inl (aput_key _ _ _)
              · rcases c with c | c
                · refine .inl ?_
                  obtain ⟨x, hx, e⟩ := List.mem_map.1 c
                  exact List.mem_map.2 ⟨x, mem_aput hx, e⟩
                · exact .inr (List.mem_filter.2 ⟨c, by simpa using hsp⟩)
            have st2 : ∃ post', rt1.stack.filter (· ≠ p) = rt.stack ++ post' ∧ ∀ s ∈ post', Failed fs entry s := by
              refine ⟨post.filter (· ≠ p), ?_, fun s hs => k2' s ((List.mem_filter.1 hs).1)⟩
              rw [k2, List.filter_append, filter_stack hns]
            cases o2 with
            | panic =>
              simp only [Option.some.injEq, Prod.mk.injEq] at h
              exact absurd h.2.symm ho
            | ok z =>
              simp only [Option.some.injEq, Prod.mk.injEq] at h
              obtain ⟨rfl, rfl⟩ := h
              exact ⟨inv2, st2, fun es h => by cases h⟩
            | err es2 =>
              simp only [Option.some.injEq, Prod.mk.injEq] at h
              obtain ⟨rfl, rfl⟩ := h
              refine ⟨inv2, st2, fun es h x hx => ?_⟩
              cases h
              exact .text p f x hf (own_visitProto _ _ (by simp) _ _ _ hpr x hx)

/-! ### The first error -/

/-- The stack as long as no error has occurred -/
def FCtx (fs : FS) (p : Str) (stack : List Str) : Prop :=
  stack = [] ∨ ∃ pre c, stack = pre ++ [c] ∧ Imports fs c p ∧ ∀ s ∈ pre, Reach fs s c

theorem importLoop_first {rec : Rec} {p : Str}
    (hs : ∀ q u rt rt', rec q rt = some (rt', .ok u) → Inv fs rt → Did fs q u rt rt')
    (he : ∀ q rt rt' es, rec q rt = some (rt', .err es) → Inv fs rt → FCtx fs q rt.stack → Reach fs entry q →
      (∀ s, s ∈ rt.units.map (·.1) ∨ s ∈ rt.stack → Reach fs entry s) → ∃ e l, es = e :: l ∧ FirstClaim fs entry q e)
    (hp : Reach fs entry p) {ps S : List Str} (hps : ∀ q ∈ ps, Imports fs p q) (hS : ∀ q ∈ S, Imports fs p q) {rt rt' : RT}
    {u u' : UnitD} {errs : List CErr} (h : importLoop rec ps rt u [] = some (rt', .ok (u', errs))) (hne : errs ≠ []) (hi : Inv fs rt)
    (hst : ∃ pre, rt.stack = pre ++ [p] ∧ ∀ s ∈ pre, Reach fs s p) (hpart : Part fs p S u)
    (hre : ∀ s, s ∈ rt.units.map (·.1) ∨ s ∈ rt.stack → Reach fs entry s) :
    ∃ e l, errs = e :: l ∧ FirstClaim fs entry p e := by
  induction ps generalizing rt u S with
  | nil =>
    simp only [importLoop, Option.some.injEq, Prod.mk.injEq, Out.ok.injEq] at h
    exact absurd h.2.2.symm hne
  | cons q r ih =>
    have hq : Imports fs p q := hps q (by simp)
    have hr : ∀ q ∈ r, Imports fs p q := fun x hx => hps x (by simp [hx])
    have fctx : FCtx fs q rt.stack := by
      obtain ⟨pre, h1, h2⟩ := hst
      exact .inr ⟨pre, p, h1, hq, h2⟩
    unfold importLoop at h
    rcases h1 : rec q rt with _ | ⟨rt1, o⟩
    · rw [h1] at h; simp at h
    · rw [h1] at h
      cases o with
      | panic => simp at h
      | err es =>
        obtain ⟨e, l, rfl, hfc⟩ := he _ _ _ _ h1 hi fctx (hp.step hq) hre
        simp only [List.nil_append] at h
        obtain ⟨l', hl'⟩ := importLoop_errs h
        have : ∃ x, wrapImport q (e :: l) = [x] ∧ FirstClaim fs entry p x := by
          cases l with
          | nil =>
            by_cases hpl : e.plain = true
            · exact ⟨_, if_pos hpl, .located p q e hq hpl hfc⟩
            · exact ⟨_, if_neg hpl, .importing p q e [] hq hfc⟩
          | cons a b => exact ⟨_, rfl, .importing p q e (a :: b) hq hfc⟩
        obtain ⟨x, hx, hc⟩ := this
        exact ⟨x, l', by rw [hl', hx]; rfl, hc⟩
      | ok o =>
        have d := hs _ _ _ _ h1 hi
        simp only at h
        rcases ha : u.addImport o with ⟨u1, e⟩
        rw [ha] at h
        cases e with
        | none =>
          refine ih hr (S := S ++ [q]) ?_ h d.inv (by rw [d.stack]; exact hst) (hpart.add d.compiled d.compiled.full ?_ ha) ?_
          · intro x hx
            rcases List.mem_append.1 hx with hx | hx
            · exact hS x hx
            · rw [List.mem_singleton.1 hx]; exact hq
          · intro r o _ hc
            exact ⟨hc.full.good.tab.localNodup, hc.full.good.locNodup⟩
          · rintro s (hs' | hs')
            · obtain ⟨new, hn, hn'⟩ := d.units
              rw [hn, List.map_append, List.mem_append] at hs'
              rcases hs' with hs' | hs'
              · exact hre s (.inl hs')
              · obtain ⟨x, hx, rfl⟩ := List.mem_map.1 hs'
                exact (hp.step hq).trans (hn' x hx)
            · rw [d.stack] at hs'
              exact hre s (.inr hs')
        | some e =>
          obtain ⟨l', hl'⟩ := importLoop_errs h
          exact ⟨e, l', by rw [hl']; rfl, addImport_true hpart hS hq d.compiled ha⟩

theorem compile_first {n : Nat} {p : Str} {rt rt' : RT} {es : List CErr} (h : compile fs n p rt = some (rt', .err es)) (hi : Inv fs rt)
    (hc : FCtx fs p rt.stack) (hp : Reach fs entry p) (hre : ∀ s, s ∈ rt.units.map (·.1) ∨ s ∈ rt.stack → Reach fs entry s) :
    ∃ e l, es = e :: l ∧ FirstClaim fs entry p e := by
  induction n generalizing p rt rt' es with
  | zero => simp [compile] at h
  | succ n ih =>
    have one : ∀ {e : CErr}, FirstClaim fs entry p e → some (rt, Out.err [e]) = some (rt', (Out.err es : Out UnitD)) →
        ∃ e l, es = e :: l ∧ FirstClaim fs entry p e := by
      intro e he h
      simp only [Option.some.injEq, Prod.mk.injEq, Out.err.injEq] at h
      exact ⟨e, [], h.2.symm, he⟩
    have found : p ∈ rt.stack → FirstClaim fs entry p (if rt.stack.getLast? = some p then .importSelf else .importCycle p) := by
      intro hs
      rcases hc with h0 | ⟨pre, c, h0, hcp, hpre⟩
      · rw [h0] at hs; cases hs
      · rw [h0, List.getLast?_concat]
        split
        · rename_i e
          cases e
          exact .self _ hcp
        · rename_i hne
          rw [h0] at hs
          rcases List.mem_append.1 hs with hs | hs
          · refine .cycle _ ?_
            rcases (hpre p hs).cases_head with rfl | ⟨r, hr, hrc⟩
            · exact ⟨_, hcp, .refl⟩
            · exact ⟨r, hr, hrc.step hcp⟩
          · exact absurd (by rw [List.mem_singleton.1 hs]) hne
    rw [compile] at h
    rcases hf : fs p with _ | _ | _ | f
    · rw [hf] at h; exact one (.missing p hf) h
    · rw [hf] at h; exact one (.unreadable p hf) h
    · rw [hf] at h
      simp only at h
      split at h
      · rename_i hs
        exact one (found hs) h
      · split at h
        · simp at h
        · exact one (.garbage p hf) h
    · rw [hf] at h
      simp only at h
      split at h
      · rename_i hs
        exact one (found hs) h
      rename_i hns
      split at h
      · simp at h
      rename_i hnu
      have hnu' := aget_none_iff.1 hnu
      unfold compileParsed at h
      split at h
      · exact one (.text p f _ hf rfl) h
      rename_i hlit
      rcases hv : visitInfo f (UnitD.new p) with ⟨o1, u0⟩
      rw [hv] at h
      cases o1 with
      | panic => simp at h
      | err es1 =>
        simp only [Option.some.injEq, Prod.mk.injEq, Out.err.injEq] at h
        obtain ⟨-, rfl⟩ := h
        obtain ⟨e, l, hel⟩ := List.exists_cons_of_ne_nil (visitInfo_honest hv)
        exact ⟨e, l, hel, (visitInfo_errs hf hv e (by rw [hel]; simp)).2⟩
      | ok y =>
        have part := Part.start hf hv
        simp only at h
        split at h
        · rename_i hpk
          obtain ⟨q, hq⟩ := Option.isSome_iff_exists.1 hpk
          obtain ⟨k1, k3⟩ := hi.pkgs _ _ (aget_in hq)
          refine one (.samePackage p q _ part.pkg k1 ?_ (hre q k3)) h
          rintro rfl
          exact k3.elim hnu' hns
        rename_i hpk
        have himps := imports_some (l := f.imports) (Bool.eq_false_iff.2 hlit)
        have hps : ∀ q ∈ f.imports.filterMap id, Imports fs p q := by
          intro q hq
          refine ⟨f, hf, ?_⟩
          rw [himps]
          exact List.mem_map.2 ⟨q, hq, rfl⟩
        have hent := hi.enter hns hnu' (k := u0.pkg) (aget_none_iff.1 (Option.not_isSome_iff_eq_none.1 hpk)) part.pkg
        rcases hl : importLoop (compile fs n) (f.imports.filterMap id)
          { rt with packages := rt.packages ++ [(u0.pkg, p)], stack := rt.stack ++ [p] } u0 [] with _ | ⟨rt1, o1⟩
        · rw [hl] at h; simp at h
        rw [hl] at h
        cases o1 with
        | panic => simp at h
        | err es1 => exact (importLoop_not_err hl).elim
        | ok pr =>
          obtain ⟨u1, errs⟩ := pr
          simp only at h
          split at h
          · rename_i hne
            simp only [Option.some.injEq, Prod.mk.injEq, Out.err.injEq] at h
            obtain ⟨-, rfl⟩ := h
            refine importLoop_first (fs := fs) (entry := entry) (p := p) (S := []) (fun q u rt rt' hx hi => compile_sound hx hi)
              (fun q rt rt' es hx h1 h2 h3 h4 => ih hx h1 h2 h3 h4) hp hps (by simp) hl hne hent ?_ part ?_
            · refine ⟨rt.stack, rfl, fun s hs => ?_⟩
              rcases hc with h0 | ⟨pre, c, h0, hcp, hpre⟩
              · rw [h0] at hs; cases hs
              · rw [h0] at hs
                rcases List.mem_append.1 hs with hs | hs
                · exact (hpre s hs).step hcp
                · rw [List.mem_singleton.1 hs]
                  exact .step .refl hcp
            · rintro s (hs | hs)
              · exact hre s (.inl hs)
              · rcases List.mem_append.1 hs with hs | hs
                · exact hre s (.inr hs)
                · rw [List.mem_singleton.1 hs]; exact hp
          · rcases hpr : visitProto f.tops [] u1 with ⟨o2, u2⟩
            rw [hpr] at h
            cases o2 with
            | panic => simp at h
            | ok z => simp at h
            | err es2 =>
              simp only [Option.some.injEq, Prod.mk.injEq, Out.err.injEq] at h
              obtain ⟨-, rfl⟩ := h
              obtain ⟨e, l, hel⟩ := List.exists_cons_of_ne_nil (honest_visitProto _ _ _ _ _ hpr)
              exact ⟨e, l, hel, .text p f e hf (own_visitProto _ _ (by simp) _ _ _ hpr e (by rw [hel]; simp))⟩

end Bubbler.Comp
