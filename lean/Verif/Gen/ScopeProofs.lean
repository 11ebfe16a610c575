import Verif.Gen.Scope
import Verif.Gen.Project

namespace Bubbler.Gen
open Comp

/-! ### Owners -/

/-- In the list `vs` of types, a type is known with everything in it. -/
def KnownClosed (m : Owners) (vs : List CTy) : Prop :=
  ∀ X ∈ vs, X.customName ∈ m.map (·.1) → ∀ Y ∈ visits X, Y.customName ∈ m.map (·.1)

/-- `x` was added to `m` for the types `vs`. -/
structure Took (p : Str) (m m' : Owners) (vs : List CTy) : Prop where
  ext : ∃ x, m' = m ++ x ∧ ∀ e ∈ x, e.2 = p
  keys : ∀ n, n ∈ m'.map (·.1) ↔ n ∈ m.map (·.1) ∨ ∃ X ∈ vs, X.customName = n

theorem Took.refl (p : Str) (m : Owners) : Took p m m [] := ⟨⟨[], by simp, by simp⟩, by simp⟩

theorem Took.trans {p : Str} {a b c : Owners} {v w : List CTy} (h : Took p a b v) (k : Took p b c w) : Took p a c (v ++ w) := by
  obtain ⟨x, hx, hx'⟩ := h.ext
  obtain ⟨y, hy, hy'⟩ := k.ext
  refine ⟨⟨x ++ y, by rw [hy, hx, List.append_assoc], ?_⟩, ?_⟩
  · intro e he
    rcases List.mem_append.1 he with he | he
    · exact hx' e he
    · exact hy' e he
  · intro n
    rw [k.keys, h.keys]
    constructor
    · rintro ((h1 | ⟨X, h1, h2⟩) | ⟨X, h1, h2⟩)
      · exact .inl h1
      · exact .inr ⟨X, List.mem_append_left _ h1, h2⟩
      · exact .inr ⟨X, List.mem_append_right _ h1, h2⟩
    · rintro (h1 | ⟨X, h1, h2⟩)
      · exact .inl (.inl h1)
      · rcases List.mem_append.1 h1 with h1 | h1
        · exact .inl (.inr ⟨X, h1, h2⟩)
        · exact .inr ⟨X, h1, h2⟩

/-- What comes next is still known with everything in it. -/
theorem KnownClosed.next {p : Str} {m m' : Owners} {vs ws : List CTy} (hc : KnownClosed m ws) (h : Took p m m' vs)
    (htr : ∀ X ∈ vs, ∀ Y ∈ visits X, Y ∈ vs) (hco : ∀ X ∈ vs, ∀ Y ∈ ws, X.customName = Y.customName → X = Y) : KnownClosed m' ws := by
  intro X hX hn Y hY
  rw [h.keys] at hn ⊢
  rcases hn with hn | ⟨Z, hZ, e⟩
  · exact .inl (hc X hX hn Y hY)
  · have := hco Z hZ X hX e
    subst this
    exact .inr ⟨Y, htr Z hZ Y hY, rfl⟩

mutual
  theorem belongTy_took {P : CTy → Prop} (hco : Coherent P) (p : Str) : ∀ (t : CTy) (m : Owners), (∀ X ∈ visits t, P X) →
      KnownClosed m (visits t) → Took p m (belongTy p t m) (visits t)
    | .basic _, m, _, _ => by unfold belongTy visits; exact Took.refl p m
    | .str, m, _, _ => by unfold belongTy visits; exact Took.refl p m
    | .bytes, m, _, _ => by unfold belongTy visits; exact Took.refl p m
    | .array e _, m, hP, hc => by
      unfold belongTy
      unfold visits at hP hc ⊢
      exact belongTy_took hco p e m hP hc
    | .struct (.mk n b d fs), m, hP, hc => by
      have hself : CTy.struct (.mk n b d fs) ∈ visits (.struct (.mk n b d fs)) := by rw [visits_struct]; simp
      unfold belongTy
      split
      · rename_i hn
        refine ⟨⟨[], by simp, by simp⟩, ?_⟩
        intro k
        constructor
        · exact .inl
        · rintro (h | ⟨X, hX, rfl⟩)
          · exact h
          · exact hc _ hself hn X hX
      · rename_i hn
        have hP' : ∀ X ∈ visitsF fs, P X := fun X hX => hP X (by rw [visits_struct]; exact List.mem_append_left _ hX)
        have k := belongF_took hco p fs (m ++ [(n, p)]) hP' (by
          intro X hX hx Y hY
          rw [List.map_append, List.mem_append] at hx ⊢
          rcases hx with hx | hx
          · exact .inl (hc X (by rw [visits_struct]; exact List.mem_append_left _ hX) hx Y hY)
          · simp only [List.map_cons, List.map_nil, List.mem_singleton] at hx
            have := hco X (.struct (.mk n b d fs)) (hP' X hX) (hP _ hself) hx
            exact absurd (this ▸ hX) (not_self (.mk n b d fs)))
        obtain ⟨x, hx, hx'⟩ := k.ext
        refine ⟨⟨(n, p) :: x, by rw [hx]; simp, ?_⟩, ?_⟩
        · intro e he
          rcases List.mem_cons.1 he with rfl | he
          · rfl
          · exact hx' e he
        · intro a
          rw [k.keys, visits_struct]
          simp only [List.map_append, List.map_cons, List.map_nil, List.mem_append, List.mem_singleton]
          constructor
          · rintro ((h | rfl) | ⟨X, hX, e⟩)
            · exact .inl h
            · exact .inr ⟨_, .inr rfl, rfl⟩
            · exact .inr ⟨X, .inl hX, e⟩
          · rintro (h | ⟨X, hX | rfl, e⟩)
            · exact .inl (.inl h)
            · exact .inr ⟨X, hX, e⟩
            · exact .inl (.inr e.symm)
    | .enum e, m, _, _ => by
      unfold belongTy visits
      split
      · rename_i hn
        refine ⟨⟨[], by simp, by simp⟩, ?_⟩
        intro k
        constructor
        · exact .inl
        · rintro (h | ⟨X, hX, rfl⟩)
          · exact h
          · rw [List.mem_singleton] at hX
            subst hX
            exact hn
      · refine ⟨⟨[(e.name, p)], rfl, by simp⟩, ?_⟩
        intro k
        simp [CTy.customName, eq_comm]
  theorem belongF_took {P : CTy → Prop} (hco : Coherent P) (p : Str) : ∀ (fs : List FieldD) (m : Owners), (∀ X ∈ visitsF fs, P X) →
      KnownClosed m (visitsF fs) → Took p m (belongF p fs m) (visitsF fs)
    | [], m, _, _ => by unfold belongF visitsF; exact Took.refl p m
    | .normal _ t _ _ _ :: r, m, hP, hc => by
      unfold belongF
      unfold visitsF at hP hc ⊢
      have k1 := belongTy_took hco p t m (fun X hX => hP X (List.mem_append_left _ hX)) (fun X hX => hc X (List.mem_append_left _ hX))
      have hc' : KnownClosed m (visitsF r) := fun X hX => hc X (List.mem_append_right _ hX)
      have k2 := belongF_took hco p r (belongTy p t m) (fun X hX => hP X (List.mem_append_right _ hX)) (hc'.next k1
        (fun X hX Y hY => visits_trans t X hX Y hY)
        (fun X hX Y hY e => hco X Y (hP X (List.mem_append_left _ hX)) (hP Y (List.mem_append_right _ hY)) e))
      exact k1.trans k2
    | .void _ :: r, m, hP, hc => by
      unfold belongF
      unfold visitsF at hP hc ⊢
      exact belongF_took hco p r m hP hc
    | .embedded _ _ :: r, m, hP, hc => by
      unfold belongF
      unfold visitsF at hP hc ⊢
      exact belongF_took hco p r m hP hc
    | .const _ _ _ _ _ :: r, m, hP, hc => by
      unfold belongF
      unfold visitsF at hP hc ⊢
      exact belongF_took hco p r m hP hc
end

theorem belongTypes_took {P : CTy → Prop} (hco : Coherent P) (p : Str) (ts : List (Str × TypeDef)) (m : Owners) (hP : ∀ X ∈ visitsT ts, P X)
    (hc : KnownClosed m (visitsT ts)) : Took p m (belongTypes p ts m) (visitsT ts) := by
  induction ts generalizing m with
  | nil => exact Took.refl p m
  | cons e r ih =>
    obtain ⟨n, t⟩ := e
    have e1 : visitsT ((n, t) :: r) = visits t.ty ++ visitsT r := by simp [visitsT]
    rw [e1] at hP hc ⊢
    unfold belongTypes
    have k1 := belongTy_took hco p t.ty m (fun X hX => hP X (List.mem_append_left _ hX)) (fun X hX => hc X (List.mem_append_left _ hX))
    have hc' : KnownClosed m (visitsT r) := fun X hX => hc X (List.mem_append_right _ hX)
    exact k1.trans (ih _ (fun X hX => hP X (List.mem_append_right _ hX)) (hc'.next k1 (fun X hX Y hY => visits_trans t.ty X hX Y hY)
        (fun X hX Y hY e => hco X Y (hP X (List.mem_append_left _ hX)) (hP Y (List.mem_append_right _ hY)) e)))

theorem aget_append_left {α : Type} {m x : List (Str × α)} {n : Str} (h : n ∈ m.map (·.1)) : aget (m ++ x) n = aget m n := by
  induction m with
  | nil => simp at h
  | cons e r ih =>
    obtain ⟨k, v⟩ := e
    by_cases hk : k = n
    · simp [aget, hk]
    · simp only [List.map_cons, List.mem_cons] at h
      rcases h with h | h
      · exact absurd h.symm hk
      · have := ih h
        simpa [aget, hk] using this

/-- The owner of a type is the first unit in which it occurs. -/
theorem ownersFrom_get {P : CTy → Prop} (hco : Coherent P) (us : List UnitD) (m : Owners) (hP : ∀ u ∈ us, ∀ X ∈ visitsT u.localTypes, P X)
    (hm : ∀ X, P X → X.customName ∈ m.map (·.1) → ∀ Y ∈ visits X, Y.customName ∈ m.map (·.1)) :
    (∃ x, ownersFrom us m = m ++ x) ∧
    ∀ l1 v l2, us = l1 ++ v :: l2 → ∀ n, (∃ X ∈ visitsT v.localTypes, X.customName = n) → n ∉ m.map (·.1) →
      (∀ w ∈ l1, ∀ X ∈ visitsT w.localTypes, X.customName ≠ n) → aget (ownersFrom us m) n = some v.path := by
  induction us generalizing m with
  | nil =>
    refine ⟨⟨[], by simp [ownersFrom]⟩, ?_⟩
    intro l1 v l2 e
    simp at e
  | cons u r ih =>
    have hPu := hP u (by simp)
    have k := belongTypes_took hco u.path u.localTypes m hPu (fun X hX h => hm X (hPu X hX) h)
    obtain ⟨x, hx, hx'⟩ := k.ext
    have hm' : ∀ X, P X → X.customName ∈ (belongTypes u.path u.localTypes m).map (·.1) → ∀ Y ∈ visits X,
        Y.customName ∈ (belongTypes u.path u.localTypes m).map (·.1) := by
      intro X hX hn Y hY
      rw [k.keys] at hn ⊢
      rcases hn with hn | ⟨Z, hZ, e⟩
      · exact .inl (hm X hX hn Y hY)
      · have := hco Z X (hPu Z hZ) hX e
        subst this
        exact .inr ⟨Y, visitsT_trans hZ Y hY, rfl⟩
    obtain ⟨⟨y, hy⟩, i2⟩ := ih (belongTypes u.path u.localTypes m) (fun v hv => hP v (List.mem_cons_of_mem _ hv)) hm'
    unfold ownersFrom
    refine ⟨⟨x ++ y, by rw [hy, hx, List.append_assoc]⟩, ?_⟩
    intro l1 v l2 e n hn hnm hno
    cases l1 with
    | nil =>
      simp only [List.nil_append, List.cons.injEq] at e
      obtain ⟨rfl, rfl⟩ := e
      have hin : n ∈ (belongTypes u.path u.localTypes m).map (·.1) := (k.keys n).2 (.inr hn)
      rw [hy, aget_append_left hin]
      rw [hx] at hin ⊢
      rcases ha : aget (m ++ x) n with _ | q
      · exact absurd hin (aget_none_iff.1 ha)
      · have := aget_mem ha
        rcases List.mem_append.1 this with h | h
        · exact absurd (List.mem_map.2 ⟨_, h, rfl⟩) hnm
        · rw [← hx' _ h]
    | cons a l1 =>
      simp only [List.cons_append, List.cons.injEq] at e
      obtain ⟨rfl, rfl⟩ := e
      refine i2 l1 v l2 rfl n hn ?_ (fun w hw => hno w (List.mem_cons_of_mem _ hw))
      rw [k.keys]
      rintro (h | ⟨X, hX, e⟩)
      · exact hnm h
      · exact hno u (by simp) X hX e

/-- C55 for owners: the owner of a type is the file that declares it. -/
theorem Project.owner {fs : FS} {us : List UnitD} {u : UnitD} (P : Project fs us u) {v : UnitD} (hv : v ∈ us) {f : FileA}
    (hf : fs v.path = .parsed f) {n : Str} (hn : n ∈ declared f) : aget (owners us) n = some v.path := by
  obtain ⟨l1, l2, hl⟩ := List.append_of_mem hv
  obtain ⟨h1, h2⟩ := (P.declared_iff hl hf n).1 hn
  exact (ownersFrom_get P.same us [] (fun w hw => P.visits_sub hw) (by simp)).2 l1 v l2 hl n h1 (by simp) h2

/-! ### Imports of the Go generator -/

mutual
  theorem needTy_mem (loc : List Str) : ∀ (t : CTy) (n : Str), n ∈ needTy loc t ↔ (∃ X ∈ visits t, X.customName = n) ∧ n ∉ loc
    | .basic _, n => by simp [needTy, visits]
    | .str, n => by simp [needTy, visits]
    | .bytes, n => by simp [needTy, visits]
    | .array e _, n => by
      unfold needTy visits
      exact needTy_mem loc e n
    | .struct (.mk m b d fs), n => by
      have ih := needF_mem loc fs n
      unfold needTy
      rw [visits_struct, List.mem_append, ih]
      simp only [StructD.fields, List.mem_append, List.mem_singleton]
      constructor
      · rintro (⟨⟨X, hX, e⟩, h⟩ | h)
        · exact ⟨⟨X, .inl hX, e⟩, h⟩
        · split at h
          · cases h
          · rename_i hm
            rw [List.mem_singleton] at h
            subst h
            exact ⟨⟨_, .inr rfl, rfl⟩, hm⟩
      · rintro ⟨⟨X, hX | rfl, e⟩, h⟩
        · exact .inl ⟨⟨X, hX, e⟩, h⟩
        · right
          have e' : m = n := e
          subst e'
          rw [if_neg h]
          simp
    | .enum e, n => by
      unfold needTy visits
      simp only [List.mem_singleton]
      constructor
      · intro h
        split at h
        · cases h
        · rename_i hm
          rw [List.mem_singleton] at h
          subst h
          exact ⟨⟨_, rfl, rfl⟩, hm⟩
      · rintro ⟨⟨X, rfl, e'⟩, h⟩
        have e' : e.name = n := e'
        subst e'
        rw [if_neg h]
        simp
  theorem needF_mem (loc : List Str) : ∀ (fs : List FieldD) (n : Str), n ∈ needF loc fs ↔ (∃ X ∈ visitsF fs, X.customName = n) ∧ n ∉ loc
    | [], n => by simp [needF, visitsF]
    | .normal _ t _ _ _ :: r, n => by
      have h1 := needTy_mem loc t n
      have h2 := needF_mem loc r n
      unfold needF visitsF
      rw [List.mem_append, h1, h2]
      constructor
      · rintro (⟨⟨X, hX, e⟩, h⟩ | ⟨⟨X, hX, e⟩, h⟩)
        · exact ⟨⟨X, List.mem_append_left _ hX, e⟩, h⟩
        · exact ⟨⟨X, List.mem_append_right _ hX, e⟩, h⟩
      · rintro ⟨⟨X, hX, e⟩, h⟩
        rcases List.mem_append.1 hX with hX | hX
        · exact .inl ⟨⟨X, hX, e⟩, h⟩
        · exact .inr ⟨⟨X, hX, e⟩, h⟩
    | .void _ :: r, n => by
      unfold needF visitsF
      exact needF_mem loc r n
    | .embedded _ _ :: r, n => by
      unfold needF visitsF
      exact needF_mem loc r n
    | .const _ _ _ _ _ :: r, n => by
      unfold needF visitsF
      exact needF_mem loc r n
end

theorem importOf_some {gen : List Str} {own : Owners} (l : List Str) (h : ∀ n ∈ l, ∃ p ∈ gen, aget own n = some p) :
    ∃ r, importOf gen own l = some r ∧ ∀ p, p ∈ r ↔ ∃ n ∈ l, aget own n = some p := by
  induction l with
  | nil => exact ⟨[], rfl, by simp⟩
  | cons n l ih =>
    obtain ⟨p, hp, e⟩ := h n (by simp)
    obtain ⟨r, hr, hr'⟩ := ih (fun m hm => h m (List.mem_cons_of_mem _ hm))
    refine ⟨p :: r, ?_, ?_⟩
    · unfold importOf
      rw [e]
      simp only [hp, if_true, hr]
    · intro q
      simp only [List.mem_cons, hr', exists_eq_or_imp, e, Option.some.injEq]
      constructor
      · rintro (rfl | h)
        · exact .inl rfl
        · exact .inr h
      · rintro (rfl | h)
        · exact .inl rfl
        · exact .inr h

end Bubbler.Gen
