import Verif.Props.FieldProps

/-
C48: the custom methods of a field.
-/
namespace Bubbler
open Comp

/-- What a list of methods has to satisfy: every method has a name with a small initial and an expression without
invalid literals; two methods of the same name are a getter and a setter of the same type. -/
structure MethodsGood (l : List MethA) : Prop where
  each : ∀ m ∈ l, m.exprOk = true ∧ ∃ n, m.name = some n ∧ n ≠ [] ∧ Name.isUncapitalized n = true
  pairs : l.Pairwise fun a b => a.name = b.name → a.set ≠ b.set ∧ a.ty = b.ty

/-- The method table lists the methods in `done`. -/
structure TableOf (ms : List (Str × List (Bool × Prim))) (done : List (Bool × Str × Prim)) : Prop where
  keys : (ms.map (·.1)).Nodup
  ne : ∀ e ∈ ms, e.2 ≠ []
  kinds : ∀ e ∈ ms, (e.2.map (·.1)).Nodup
  mem : ∀ k n t, (∃ g, (n, g) ∈ ms ∧ (k, t) ∈ g) ↔ (k, n, t) ∈ done

theorem addMethod_ok {ms : List (Str × List (Bool × Prim))} {done : List (Bool × Str × Prim)} (hT : TableOf ms done)
    (hsame : ∀ a ∈ done, ∀ b ∈ done, a.2.1 = b.2.1 → a.2.2 = b.2.2) (k : Bool) (n : Str) (t : Prim) :
    (∀ ms', addMethod ms k n t = .ok ms' → TableOf ms' (done ++ [(k, n, t)]) ∧ ∀ a ∈ done, a.2.1 = n → a.1 ≠ k ∧ a.2.2 = t) ∧
    ((∀ a ∈ done, a.2.1 = n → a.1 ≠ k ∧ a.2.2 = t) → ∃ ms', addMethod ms k n t = .ok ms') := by
  unfold addMethod
  cases hg : aget ms n with
  | none =>
    have hn : n ∉ ms.map (·.1) := aget_none_iff.mp hg
    have hno : ∀ a ∈ done, a.2.1 ≠ n := by
      rintro ⟨k', n', t'⟩ ha rfl
      obtain ⟨g, h1, _⟩ := (hT.mem k' n' t').mpr ha
      exact hn (List.mem_map.mpr ⟨_, h1, rfl⟩)
    refine ⟨?_, fun _ => ⟨_, rfl⟩⟩
    intro ms' e
    simp only [Except.ok.injEq] at e
    subst e
    refine ⟨⟨?_, ?_, ?_, ?_⟩, fun a ha e => absurd e (hno a ha)⟩
    · rw [List.map_append, List.nodup_append]
      refine ⟨hT.keys, by simp, ?_⟩
      intro a ha b hb
      simp only [List.map_cons, List.map_nil, List.mem_singleton] at hb
      subst hb
      rintro rfl; exact hn ha
    · intro e he
      rcases List.mem_append.mp he with he | he
      · exact hT.ne e he
      · simp only [List.mem_singleton] at he; subst he; simp
    · intro e he
      rcases List.mem_append.mp he with he | he
      · exact hT.kinds e he
      · simp only [List.mem_singleton] at he; subst he; simp
    · intro k' n' t'
      rw [List.mem_append, ← hT.mem]
      constructor
      · rintro ⟨g, h1, h2⟩
        rcases List.mem_append.mp h1 with h1 | h1
        · exact .inl ⟨g, h1, h2⟩
        · simp only [List.mem_singleton, Prod.mk.injEq] at h1
          obtain ⟨rfl, rfl⟩ := h1
          simp only [List.mem_singleton, Prod.mk.injEq] at h2
          obtain ⟨rfl, rfl⟩ := h2
          exact .inr (by simp)
      · rintro (⟨g, h1, h2⟩ | h)
        · exact ⟨g, List.mem_append_left _ h1, h2⟩
        · simp only [List.mem_singleton, Prod.mk.injEq] at h
          obtain ⟨rfl, rfl, rfl⟩ := h
          exact ⟨[(k', t')], by simp, by simp⟩
  | some g =>
    have hgm : (n, g) ∈ ms := (aget_some_iff hT.keys).mp hg
    have hgd : ∀ k' t', (k', t') ∈ g ↔ (k', n, t') ∈ done := by
      intro k' t'
      rw [← hT.mem]
      constructor
      · intro h; exact ⟨g, hgm, h⟩
      · rintro ⟨g', h1, h2⟩
        have := (aget_some_iff hT.keys).mpr h1
        rw [hg] at this
        cases this
        exact h2
    have hcond : (∀ a ∈ done, a.2.1 = n → a.1 ≠ k ∧ a.2.2 = t) ↔
        (g.any (fun e => e.1 = k) = false ∧ g.head?.any (fun e => e.2 ≠ t) = false) := by
      constructor
      · intro h
        constructor
        · rw [List.any_eq_false]
          rintro ⟨k', t'⟩ he
          have := (h _ ((hgd k' t').mp he) rfl).1
          simpa using this
        · cases g with
          | nil => rfl
          | cons e r =>
            have := (h _ ((hgd e.1 e.2).mp (by simp)) rfl).2
            simpa using this
      · rintro ⟨h1, h2⟩ ⟨k', n', t'⟩ ha e
        simp only at e
        subst e
        have hm := (hgd k' t').mpr ha
        refine ⟨?_, ?_⟩
        · rw [List.any_eq_false] at h1
          have := h1 _ hm
          simpa using this
        · cases g with
          | nil => cases hm
          | cons e r =>
            have he : e.2 = t := by simpa using h2
            have := hsame _ ha _ ((hgd e.1 e.2).mp (by simp)) rfl
            simp only at this ⊢
            rw [this, he]
    constructor
    · intro ms' e
      simp only at e
      split at e
      · cases e
      · rename_i c1
        split at e
        · cases e
        · rename_i c2
          simp only [Except.ok.injEq] at e
          subst e
          have hc := hcond.mpr ⟨by rwa [Bool.not_eq_true] at c1, by rwa [Bool.not_eq_true] at c2⟩
          refine ⟨⟨?_, ?_, ?_, ?_⟩, hc⟩
          · have : (ms.map fun e => if e.1 = n then (e.1, e.2 ++ [(k, t)]) else e).map (·.1) = ms.map (·.1) := by
              rw [List.map_map]
              apply List.map_congr_left
              intro e _
              simp only [Function.comp]
              split <;> rfl
            rw [this]; exact hT.keys
          · intro e he
            obtain ⟨e', he', rfl⟩ := List.mem_map.mp he
            split
            · simp
            · exact hT.ne _ he'
          · intro e he
            obtain ⟨e', he', rfl⟩ := List.mem_map.mp he
            split
            · rename_i hen
              have hk := hT.kinds _ he'
              have hg' : e'.2 = g := by
                have := (aget_some_iff hT.keys).mpr (show (n, e'.2) ∈ ms by rw [← hen]; exact he')
                rw [hg] at this
                cases this; rfl
              rw [List.map_append, List.nodup_append]
              refine ⟨hk, by simp, ?_⟩
              intro a ha b hb
              simp only [List.map_cons, List.map_nil, List.mem_singleton] at hb
              subst hb
              rintro rfl
              obtain ⟨x, hx, rfl⟩ := List.mem_map.mp ha
              rw [hg'] at hx
              exact (hc _ ((hgd x.1 x.2).mp hx) rfl).1 rfl
            · exact hT.kinds _ he'
          · intro k' n' t'
            rw [List.mem_append, ← hT.mem]
            constructor
            · rintro ⟨g', h1, h2⟩
              obtain ⟨e', he', h⟩ := List.mem_map.mp h1
              split at h
              · rename_i hen
                simp only [Prod.mk.injEq] at h
                obtain ⟨rfl, rfl⟩ := h
                rcases List.mem_append.mp h2 with h2 | h2
                · exact .inl ⟨e'.2, he', h2⟩
                · simp only [List.mem_singleton, Prod.mk.injEq] at h2
                  obtain ⟨rfl, rfl⟩ := h2
                  refine .inr ?_
                  rw [hen]; simp
              · subst h
                exact .inl ⟨g', he', h2⟩
            · rintro (⟨g', h1, h2⟩ | h)
              · by_cases hn' : n' = n
                · subst hn'
                  exact ⟨g' ++ [(k, t)], List.mem_map.mpr ⟨_, h1, by simp⟩, List.mem_append_left _ h2⟩
                · exact ⟨g', List.mem_map.mpr ⟨_, h1, by simp [hn']⟩, h2⟩
              · simp only [List.mem_singleton, Prod.mk.injEq] at h
                obtain ⟨rfl, rfl, rfl⟩ := h
                exact ⟨g ++ [(k', t')], List.mem_map.mpr ⟨_, hgm, by simp⟩, by simp⟩
    · intro h
      obtain ⟨c1, c2⟩ := hcond.mp h
      simp only [c1, Bool.false_eq_true, if_false, c2]
      exact ⟨_, rfl⟩

theorem visitMethod_ok {m : MethA} {u u' : UnitD} {r : Bool × Str × Prim} :
    visitMethod m u = (.ok r, u') ↔ m.exprOk = true ∧ ∃ n, m.name = some n ∧ n ≠ [] ∧ Name.isUncapitalized n = true ∧
      r = (m.set, n, m.ty) ∧ u' = styleWarn Name.toSnake n u := by
  unfold visitMethod
  rw [bind_ok]
  cases hm : m.name with
  | none =>
    simp only [visitOptName, pure_ok]
    constructor
    · rintro ⟨a, u1, ⟨rfl, rfl⟩, h⟩
      simp [fail] at h
    · rintro ⟨_, n, h, _⟩; cases h
  | some n =>
    simp only [visitOptName, visitMethodName, visitName_ok]
    constructor
    · rintro ⟨a, u1, ⟨h1, rfl, rfl⟩, h⟩
      split at h
      · simp [fail] at h
      · rename_i hne
        split at h
        · simp [fail] at h
        · rename_i he
          obtain ⟨rfl, rfl⟩ := pure_ok.mp h
          exact ⟨by simpa using he, n, rfl, hne, h1, rfl, rfl⟩
    · rintro ⟨he, n', hn, hne, h1, rfl, rfl⟩
      simp only [Option.some.injEq] at hn
      subst hn
      refine ⟨n, _, ⟨h1, rfl, rfl⟩, ?_⟩
      rw [if_neg hne, he]
      exact pure_ok.mpr ⟨rfl, rfl⟩

/-- The methods as kind, name and type. -/
def methodTriples (l : List MethA) : List (Bool × Str × Prim) := l.filterMap fun m => m.name.map fun n => (m.set, n, m.ty)

theorem visitMethods_errs {l : List MethA} {ms r : List (Str × List (Bool × Prim))} {errs : List CErr} {u u' : UnitD} :
    visitMethods l ms errs u = (.ok r, u') → errs = [] := by
  induction l generalizing ms errs u with
  | nil =>
    intro h
    unfold visitMethods at h
    split at h
    · assumption
    · simp at h
  | cons m l ih =>
    intro h
    unfold visitMethods at h
    split at h
    · simp at h
    · have := ih h
      exact (List.append_eq_nil_iff.mp this).1
    · split at h
      · simp at h
      · exact ih h

theorem sameType_of_pairwise {done : List (Bool × Str × Prim)} (hd : done.Pairwise fun a b => a.2.1 = b.2.1 → a.1 ≠ b.1 ∧ a.2.2 = b.2.2) :
    ∀ a ∈ done, ∀ b ∈ done, a.2.1 = b.2.1 → a.2.2 = b.2.2 := by
  intro a ha b hb e
  rcases List.mem_iff_getElem.mp ha with ⟨i, hi, rfl⟩
  rcases List.mem_iff_getElem.mp hb with ⟨j, hj, rfl⟩
  rw [List.pairwise_iff_getElem] at hd
  rcases Nat.lt_trichotomy i j with hij | rfl | hij
  · exact (hd i j hi hj hij e).2
  · rfl
  · exact ((hd j i hj hi hij e.symm).2).symm

theorem visitMethods_sound {l : List MethA} {ms r : List (Str × List (Bool × Prim))} {u u' : UnitD} {done : List (Bool × Str × Prim)}
    (hT : TableOf ms done) (hd : done.Pairwise fun a b => a.2.1 = b.2.1 → a.1 ≠ b.1 ∧ a.2.2 = b.2.2)
    (h : visitMethods l ms [] u = (.ok r, u')) :
    TableOf r (done ++ methodTriples l) ∧ (∀ m ∈ l, m.exprOk = true ∧ ∃ n, m.name = some n ∧ n ≠ [] ∧ Name.isUncapitalized n = true) ∧
      (done ++ methodTriples l).Pairwise fun a b => a.2.1 = b.2.1 → a.1 ≠ b.1 ∧ a.2.2 = b.2.2 := by
  induction l generalizing ms u done with
  | nil =>
    unfold visitMethods at h
    rw [if_pos rfl] at h
    obtain ⟨rfl, rfl⟩ := pure_ok.mp h
    simp only [methodTriples, List.filterMap_nil, List.append_nil]
    exact ⟨hT, by simp, hd⟩
  | cons m l ih =>
    unfold visitMethods at h
    split at h
    · simp at h
    · rename_i es u1 hv
      have := visitMethods_errs h
      simp only [List.nil_append] at this
      subst this
      -- an error is never empty
      exfalso
      unfold visitMethod at hv
      change V.bind _ _ u = _ at hv
      unfold V.bind at hv
      cases hm : m.name with
      | none =>
        rw [hm] at hv
        simp [visitOptName, pure, V.pure, fail] at hv
      | some n =>
        rw [hm] at hv
        simp only [visitOptName, visitMethodName, visitName] at hv
        by_cases hc : Name.isUncapitalized n = true
        · simp only [hc, Bool.not_true, Bool.false_eq_true, if_false] at hv
          by_cases hst : n = Name.toSnake (Name.toSnake n)
          · rw [if_neg (by simpa using hst)] at hv
            simp only [pure, V.pure] at hv
            split at hv
            · simp [fail] at hv
            · split at hv
              · simp [fail] at hv
              · cases hv
          · rw [if_pos hst] at hv
            simp only [bind, V.bind, warn, pure, V.pure] at hv
            split at hv
            · simp [fail] at hv
            · split at hv
              · simp [fail] at hv
              · cases hv
        · simp [hc, fail] at hv
    · rename_i k n t u1 hv
      obtain ⟨he, n', hn, hne, hc, hr, rfl⟩ := visitMethod_ok.mp hv
      simp only [Prod.mk.injEq] at hr
      obtain ⟨rfl, rfl, rfl⟩ := hr
      split at h
      · simp at h
      · rename_i ms' ha
        have hsame := sameType_of_pairwise hd
        obtain ⟨hT', hcomp⟩ := (addMethod_ok hT hsame m.set n m.ty).1 ms' ha
        have hd' : (done ++ [(m.set, n, m.ty)]).Pairwise fun a b => a.2.1 = b.2.1 → a.1 ≠ b.1 ∧ a.2.2 = b.2.2 := by
          rw [List.pairwise_append]
          refine ⟨hd, by simp, ?_⟩
          intro a ha b hb
          simp only [List.mem_singleton] at hb
          subst hb
          intro e
          exact hcomp a ha e
        obtain ⟨r1, r2, r3⟩ := ih hT' hd' h
        have et : methodTriples (m :: l) = (m.set, n, m.ty) :: methodTriples l := by
          simp only [methodTriples, List.filterMap_cons, hn, Option.map_some]
        rw [et, ← List.singleton_append, ← List.append_assoc]
        refine ⟨r1, ?_, r3⟩
        intro m' hm'
        rcases List.mem_cons.mp hm' with rfl | hm'
        · exact ⟨he, n, hn, hne, hc⟩
        · exact r2 m' hm'

theorem visitMethods_complete {l : List MethA} {ms : List (Str × List (Bool × Prim))} {u : UnitD} {done : List (Bool × Str × Prim)}
    (hT : TableOf ms done)
    (he : ∀ m ∈ l, m.exprOk = true ∧ ∃ n, m.name = some n ∧ n ≠ [] ∧ Name.isUncapitalized n = true)
    (hp : (done ++ methodTriples l).Pairwise fun a b => a.2.1 = b.2.1 → a.1 ≠ b.1 ∧ a.2.2 = b.2.2) :
    ∃ r u', visitMethods l ms [] u = (.ok r, u') := by
  induction l generalizing ms u done with
  | nil => exact ⟨ms, u, by unfold visitMethods; rw [if_pos rfl]; exact pure_ok.mpr ⟨rfl, rfl⟩⟩
  | cons m l ih =>
    obtain ⟨e1, n, hn, hne, hc⟩ := he m (by simp)
    have et : methodTriples (m :: l) = (m.set, n, m.ty) :: methodTriples l := by
      simp only [methodTriples, List.filterMap_cons, hn, Option.map_some]
    rw [et] at hp
    have hp' := hp
    rw [List.pairwise_append] at hp
    have hadd := addMethod_ok hT (sameType_of_pairwise hp.1) m.set n m.ty
    obtain ⟨ms', ha⟩ := hadd.2 (fun a ha e => hp.2.2 a ha (m.set, n, m.ty) (by simp) e)
    have hv : visitMethod m u = (.ok (m.set, n, m.ty), styleWarn Name.toSnake n u) :=
      visitMethod_ok.mpr ⟨e1, n, hn, hne, hc, rfl, rfl⟩
    obtain ⟨r, u', h⟩ := ih (u := styleWarn Name.toSnake n u) (hadd.1 ms' ha).1 (fun m' hm' => he m' (List.mem_cons_of_mem _ hm'))
      (by rw [List.append_assoc, List.singleton_append]; exact hp')
    refine ⟨r, u', ?_⟩
    unfold visitMethods
    rw [hv]
    simp only [ha]
    exact h

theorem methodTriples_pairwise {l : List MethA} (h : ∀ m ∈ l, ∃ n, m.name = some n) :
    (methodTriples l).Pairwise (fun a b => a.2.1 = b.2.1 → a.1 ≠ b.1 ∧ a.2.2 = b.2.2) ↔
      l.Pairwise fun a b => a.name = b.name → a.set ≠ b.set ∧ a.ty = b.ty := by
  induction l with
  | nil => simp [methodTriples]
  | cons m l ih =>
    obtain ⟨n, hn⟩ := h m (by simp)
    have hl : ∀ m ∈ l, ∃ n, m.name = some n := fun m' hm' => h m' (List.mem_cons_of_mem _ hm')
    have et : methodTriples (m :: l) = (m.set, n, m.ty) :: methodTriples l := by
      simp only [methodTriples, List.filterMap_cons, hn, Option.map_some]
    rw [et, List.pairwise_cons, List.pairwise_cons, ih hl]
    refine and_congr_left fun _ => ?_
    constructor
    · intro H b hb e
      obtain ⟨n', hn'⟩ := hl b hb
      exact H (b.set, n', b.ty) (List.mem_filterMap.mpr ⟨b, hb, by rw [hn']; rfl⟩) (by rw [hn, hn'] at e; simpa using e)
    · intro H a ha
      obtain ⟨b, hb, hab⟩ := List.mem_filterMap.mp ha
      obtain ⟨n', hn'⟩ := hl b hb
      rw [hn'] at hab
      simp only [Option.map_some, Option.some.injEq] at hab
      subst hab
      intro e
      exact H b hb (by rw [hn, hn']; simpa using e)

theorem tableNil : TableOf [] [] := ⟨by simp, by simp, by simp, by simp⟩

/-- The field is accepted. -/
def Accepted (fd : FieldA) (u : UnitD) : Prop := ∃ f u', visitField fd u = (.ok (some f), u')

/-- **C48.** A field with methods is accepted exactly if it is accepted without them, its type is a basic type, and the methods are
good: named, with expressions free of invalid literals, and at most one getter and one setter of each name, of the same type. -/
theorem C48_accepted (t : TypeA) (name : Str) (size : Option SizeA) (opts : List OptA) (l : List MethA) (u : UnitD) :
    Accepted (.normal t name size opts (some l)) u ↔
      Accepted (.normal t name size opts none) u ∧ (∃ p u1, visitType t u = (.ok (.basic p), u1)) ∧ MethodsGood l := by
  unfold Accepted
  simp only [visitField_normal, visitNormalRest_ok]
  constructor
  · rintro ⟨f, u', ty, u1, f', h1, ⟨d, b, os, ms, u2, h2, h3, h4, h5, h6, h7⟩, _⟩
    rcases h6 with ⟨h, _⟩ | ⟨l', p, h, rfl, hm⟩
    · cases h
    · simp only [Option.some.injEq] at h
      subst h
      obtain ⟨_, s2, s3⟩ := visitMethods_sound tableNil .nil hm
      rw [List.nil_append] at s3
      refine ⟨⟨_, u2, .basic p, u1, _, h1, ⟨d, b, os, [], u2, h2, h3, h4, h5, .inl ⟨trivial, rfl, rfl⟩, rfl⟩, rfl⟩, ⟨p, u1, h1⟩, ⟨s2, ?_⟩⟩
      exact (methodTriples_pairwise (fun m hm => let ⟨_, n, hn, _⟩ := s2 m hm; ⟨n, hn⟩)).mp s3
  · rintro ⟨⟨f, u', ty, u1, f', h1, ⟨d, b, os, ms, u2, h2, h3, h4, h5, h6, h7⟩, _⟩, ⟨p, u1', hp⟩, hg⟩
    rw [h1] at hp
    simp only [Prod.mk.injEq, Out.ok.injEq] at hp
    obtain ⟨rfl, rfl⟩ := hp
    obtain ⟨r, u3, hm⟩ := visitMethods_complete (u := u2) tableNil hg.each
      (by rw [List.nil_append]; exact (methodTriples_pairwise (fun m hm => let ⟨_, n, hn, _⟩ := hg.each m hm; ⟨n, hn⟩)).mpr hg.pairs)
    exact ⟨_, u3, .basic p, u1, _, h1, ⟨d, b, os, r, u2, h2, h3, h4, h5, .inr ⟨l, p, rfl, rfl, hm⟩, rfl⟩, rfl⟩

/-- **C48.** The accepted field has exactly the methods written: one group for each name, in it one entry for each getter or setter of that
name with its type. -/
theorem C48_table (t : TypeA) (name : Str) (size : Option SizeA) (opts : List OptA) (l : List MethA) (u u' : UnitD) (f : FieldD)
    (h : visitField (.normal t name size opts (some l)) u = (.ok (some f), u')) :
    ∃ ty b ms os, f = .normal name ty b ms os ∧ (ms.map (·.1)).Nodup ∧ (∀ g ∈ ms, g.2 ≠ [] ∧ (g.2.map (·.1)).Nodup) ∧
      ∀ set n ty, (∃ g, (n, g) ∈ ms ∧ (set, ty) ∈ g) ↔ ∃ m ∈ l, m.set = set ∧ m.name = some n ∧ m.ty = ty := by
  obtain ⟨ty, u1, f', h1, h2, hf⟩ := visitField_normal.mp h
  obtain ⟨d, b, os, ms, u2, _, _, _, _, h6, rfl⟩ := visitNormalRest_ok.mp h2
  rcases h6 with ⟨h, _⟩ | ⟨l', p, h, rfl, hm⟩
  · cases h
  · simp only [Option.some.injEq] at h hf
    subst h
    obtain ⟨s1, s2, _⟩ := visitMethods_sound tableNil .nil hm
    rw [List.nil_append] at s1
    refine ⟨_, _, _, _, hf, s1.keys, fun g hg => ⟨s1.ne g hg, s1.kinds g hg⟩, ?_⟩
    intro set n ty
    rw [s1.mem]
    unfold methodTriples
    rw [List.mem_filterMap]
    constructor
    · rintro ⟨m, hm, e⟩
      simp only [Option.map_eq_some_iff, Prod.mk.injEq] at e
      obtain ⟨n', hn, rfl, rfl, rfl⟩ := e
      exact ⟨m, hm, rfl, hn, rfl⟩
    · rintro ⟨m, hm, rfl, hn, rfl⟩
      exact ⟨m, hm, by rw [hn]; rfl⟩

/-- A getter and a setter `celsius` of one type are accepted; two setters are not, nor different types. -/
example : MethodsGood [⟨false, some "celsius".toList, .f64, true⟩, ⟨true, some "celsius".toList, .f64, true⟩, ⟨false, some "raw".toList, .u8, true⟩] := by
  refine ⟨?_, ?_⟩
  · intro m hm
    simp only [List.mem_cons, List.not_mem_nil, or_false] at hm
    rcases hm with rfl | rfl | rfl
    · exact ⟨rfl, _, rfl, by decide +kernel, by decide +kernel⟩
    · exact ⟨rfl, _, rfl, by decide +kernel, by decide +kernel⟩
    · exact ⟨rfl, _, rfl, by decide +kernel, by decide +kernel⟩
  · simp
example : ¬ MethodsGood [⟨true, some "c".toList, .f64, true⟩, ⟨true, some "c".toList, .f64, true⟩] := fun h => by
  have := h.pairs; simp at this
example : ¬ MethodsGood [⟨false, some "c".toList, .f64, true⟩, ⟨true, some "c".toList, .u8, true⟩] := fun h => by
  have := h.pairs; simp at this

end Bubbler
