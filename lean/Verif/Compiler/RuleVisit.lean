import Verif.Compiler.Rules
import Verif.Front.MeaningUniq
import Verif.Props.MethodProps
import Verif.Gen.OccTop

/-
C75: the visitors of definitions accept exactly what the rules allow.
-/
namespace Bubbler.Comp
open Front (WidthIs roomOf nextNum firsts FlatTy width_is sumBits_is flat_expand)
open Gen (keys Clean nodup_left nodup_right)

/-- The tables of `u` hold what is in scope. -/
structure Match (Γ : Scope) (u : UnitD) : Prop where
  type : ∀ n t, Γ.type n t ↔ ∃ d, aget u.globalTypes n = some d ∧ d.ty = t
  val : ∀ n v, Γ.val n v ↔ ∃ d, aget u.globalNames n = some d ∧ d.enumVal = some v
  flat : ∀ n t, Γ.type n t → FlatTy t

theorem aget_or {α : Type} (m l : List (Str × α)) (k : Str) : aget (m ++ l) k = (aget m k).or (aget l k) := by
  unfold aget
  rw [List.find?_append]
  cases m.find? (fun e => decide (e.1 = k)) <;> rfl

theorem Match.step {Γ : Scope} {u u' : UnitD} (h : Match Γ u) (s : Step u u') (v : ValStep u u') : Match Γ u' where
  type n t := by rw [s.globalTypes]; exact h.type n t
  flat := h.flat
  val n x := by
    rw [h.val]
    obtain ⟨l, hl, -⟩ := s.globalNames
    constructor
    · rintro ⟨d, h1, h2⟩
      exact ⟨d, by rw [hl, aget_or, h1]; rfl, h2⟩
    · rintro ⟨d, h1, h2⟩
      rcases v _ (aget_mem h1) with h3 | h3
      · rw [hl, aget_or] at h1
        rcases hg : aget u.globalNames n with _ | d'
        · exact absurd (List.mem_map.2 ⟨_, h3, rfl⟩) (aget_none_iff.1 hg)
        · rw [hg] at h1
          cases h1
          exact ⟨_, rfl, h2⟩
      · rw [h3] at h2
        cases h2

theorem Match.visit {α : Type} {Γ : Scope} {u u' : UnitD} {x : V α} {o : Out α} (h : Match Γ u) (s : Steps x) (v : Vals x)
    (e : x u = (o, u')) : Match Γ u' := h.step (s.ok e) (v.ok e)

/-! ### Options, sizes, values -/

theorem opts_iff {os : List OptA} {r : List (Str × Lit)} {u : UnitD} :
    OptsOk os r ↔ ∃ u', visitFieldOptions os [] u = (.ok r, u') := by
  unfold OptsOk
  constructor
  · rintro ⟨lits, h1, rfl, h3, h4⟩
    exact ⟨_, (visitFieldOptions_ok (by simp)).2 ⟨lits, h1, by simp, by simpa using h3, h4, rfl⟩⟩
  · rintro ⟨u', h⟩
    obtain ⟨lits, h1, h2, h3, h4, -⟩ := (visitFieldOptions_ok (by simp)).1 h
    exact ⟨lits, h1, by simpa using h2, by simpa using h3, by simpa [h2] using h4⟩

theorem annot_ne {s : SizeA} {b : Int} (h : annotSize (some s) = some b) : b ≠ 0 := by
  obtain ⟨n, -, h⟩ := Option.bind_eq_some_iff.1 h
  obtain ⟨m, -, h⟩ := Option.bind_eq_some_iff.1 h
  split at h
  · cases h
  · cases h
    assumption

theorem size_iff {t : CTy} {s : Option SizeA} {b : Int} {u : UnitD} :
    SizeOk t s b ↔ ∃ d, annotSize s = some d ∧ normalSize t d u = (.ok b, u) := by
  constructor
  · intro h
    cases h with
    | none h =>
      refine ⟨0, rfl, normalSize_ok.2 ⟨rfl, .inl ⟨rfl, ?_⟩⟩⟩
      exact h.det (width_is t)
    | @some s w _ h1 h2 h3 h4 h5 h6 =>
      have := h2.det (width_is t)
      subst this
      exact ⟨b, h1, normalSize_ok.2 ⟨rfl, .inr ⟨annot_ne h1, rfl, h3, h4, h5, h6⟩⟩⟩
  · rintro ⟨d, h1, h2⟩
    obtain ⟨-, h⟩ := normalSize_ok.1 h2
    cases s with
    | none =>
      cases h1
      rcases h with ⟨-, rfl⟩ | ⟨h, -⟩
      · exact .none (width_is t)
      · exact absurd rfl h
    | some s =>
      rcases h with ⟨rfl, -⟩ | ⟨-, rfl, h3, h4, h5, h6⟩
      · exact absurd rfl (annot_ne h1)
      · exact .some h1 (width_is t) h3 h4 h5 h6

theorem constSize_iff {p : Prim} {s : Option SizeA} {b : Int} {u : UnitD} :
    ConstSizeOk p s b ↔ ∃ d, annotSize s = some d ∧ constSize p d u = (.ok b, u) := by
  constructor
  · intro h
    cases h with
    | none => exact ⟨0, rfl, constSize_ok.2 ⟨rfl, .inl ⟨rfl, rfl⟩⟩⟩
    | some h1 h2 => exact ⟨b, h1, constSize_ok.2 ⟨rfl, .inr ⟨annot_ne h1, rfl, h2⟩⟩⟩
  · rintro ⟨d, h1, h2⟩
    obtain ⟨-, h⟩ := constSize_ok.1 h2
    cases s with
    | none =>
      cases h1
      rcases h with ⟨-, rfl⟩ | ⟨h, -⟩
      · exact .none
      · exact absurd rfl h
    | some s =>
      rcases h with ⟨rfl, -⟩ | ⟨-, rfl, h3⟩
      · exact absurd rfl (annot_ne h1)
      · exact .some h1 h3

theorem fits_iff {p : Prim} {l : Lit} : Fits p l ↔ literalMatches p l = true := by
  constructor
  · intro h
    cases h with
    | bool => rfl
    | @int _ v h1 h2 =>
      simp only [literalMatches, h1, Bool.true_and]
      rcases h2 with h2 | h2
      · have : ¬ v < 0 := Int.not_lt.2 h2
        simp [this]
      · simp [h2]
    | f32 => rfl
    | f64 => rfl
  · intro h
    cases l with
    | bool b => cases p <;> first | exact .bool | simp [literalMatches, Prim.isBool] at h
    | int v =>
      simp only [literalMatches, Bool.and_eq_true, Bool.not_eq_true', Bool.and_eq_false_iff, decide_eq_false_iff_not,
        Bool.not_eq_false'] at h
      refine .int h.1 ?_
      rcases h.2 with h2 | h2
      · exact .inl (Int.not_lt.1 h2)
      · exact .inr h2
    | float n t => cases p <;> first | exact .f32 | exact .f64 | simp [literalMatches, Prim.isFloat] at h
    | str s => simp [literalMatches] at h

theorem val_iff {Γ : Scope} {u : UnitD} (hM : Match Γ u) {v : ConstA ⊕ Str} {l : Lit} :
    ValOk Γ v l ↔ visitConstVal v u = (.ok l, u) := by
  cases v with
  | inl c =>
    simp only [visitConstVal, visitConstant_ok, and_true]
    exact ⟨fun h => by cases h; assumption, .lit⟩
  | inr n =>
    simp only [visitConstVal]
    constructor
    · intro h
      cases h with
      | name h =>
        obtain ⟨d, h1, h2⟩ := (hM.val _ _).1 h
        rw [h1]
        simp only [h2]
    · intro h
      split at h
      · simp at h
      · rename_i d h1
        split at h
        · rename_i v h2
          simp only [Prod.mk.injEq, Out.ok.injEq, and_true] at h
          subst h
          exact .name ((hM.val _ _).2 ⟨d, h1, h2⟩)
        · simp at h

/-! ### Methods -/

/-- The grouping half of `MethsOk` -/
structure Groups (l : List MethA) (gs : List (Str × List (Bool × Prim))) : Prop where
  names : gs.map (·.1) = firsts (l.filterMap (·.name))
  groups : ∀ g ∈ gs, g.2 = (l.filter fun m => m.name = some g.1).map fun m => (m.set, m.ty)

theorem groups_snoc {done : List MethA} {acc acc' : List (Str × List (Bool × Prim))} {m : MethA} {n : Str} (h : Groups done acc)
    (hn : m.name = some n) (ha : addMethod acc m.set n m.ty = .ok acc') : Groups (done ++ [m]) acc' := by
  have hnames : (done ++ [m]).filterMap (·.name) = done.filterMap (·.name) ++ [n] := by
    rw [List.filterMap_append, List.filterMap_cons, hn]
    rfl
  have hfilter : ∀ k, (done ++ [m]).filter (fun m => m.name = some k) =
      done.filter (fun m => m.name = some k) ++ if n = k then [m] else [] := by
    intro k
    rw [List.filter_append, List.filter_cons, hn, List.filter_nil]
    by_cases e : n = k
    · simp [e]
    · simp [e]
  unfold addMethod at ha
  cases hg : aget acc n with
  | some g =>
    rw [hg] at ha
    simp only at ha
    split at ha
    · exact nomatch ha
    · split at ha
      · exact nomatch ha
      · simp only [Except.ok.injEq] at ha
        subst ha
        refine ⟨?_, ?_⟩
        · rw [hnames, Front.firsts_snoc, ← h.names]
          have : n ∈ acc.map (·.1) := List.mem_map.2 ⟨_, aget_mem hg, rfl⟩
          rw [if_pos this, List.map_map]
          refine List.map_congr_left fun e _ => ?_
          simp only [Function.comp_apply]
          split <;> rfl
        · intro e he
          obtain ⟨e0, h0, rfl⟩ := List.mem_map.1 he
          have k := h.groups e0 h0
          by_cases hx : e0.1 = n
          · rw [if_pos hx]
            simp only
            rw [hfilter, if_pos hx.symm, List.map_append, ← k]
            rfl
          · rw [if_neg hx, hfilter, if_neg (fun e => hx e.symm), List.append_nil]
            exact k
  | none =>
    rw [hg] at ha
    simp only [Except.ok.injEq] at ha
    subst ha
    have hnot : n ∉ acc.map (·.1) := aget_none_iff.1 hg
    refine ⟨?_, ?_⟩
    · rw [hnames, Front.firsts_snoc, ← h.names, if_neg hnot]
      simp
    · intro e he
      rcases List.mem_append.1 he with he | he
      · have hx : ¬ n = e.1 := fun hx => hnot (List.mem_map.2 ⟨e, he, hx.symm⟩)
        rw [hfilter, if_neg hx, List.append_nil]
        exact h.groups e he
      · rw [List.mem_singleton.1 he]
        simp only
        rw [hfilter, if_pos rfl]
        have : done.filter (fun m => m.name = some n) = [] := by
          rw [List.filter_eq_nil_iff]
          intro x hx hxn
          apply hnot
          rw [h.names, Front.mem_firsts]
          exact List.mem_filterMap.2 ⟨x, hx, by simpa using hxn⟩
        rw [this]
        rfl

theorem visitMethods_groups {l done : List MethA} {acc gs : List (Str × List (Bool × Prim))} {u u' : UnitD} (h : Groups done acc)
    (hv : visitMethods l acc [] u = (.ok gs, u')) : Groups (done ++ l) gs := by
  induction l generalizing done acc u with
  | nil =>
    unfold visitMethods at hv
    rw [if_pos rfl] at hv
    obtain ⟨rfl, rfl⟩ := pure_ok.mp hv
    rw [List.append_nil]
    exact h
  | cons m r ih =>
    unfold visitMethods at hv
    split at hv
    · simp at hv
    · rename_i es u1 k
      have := visitMethods_errs hv
      simp only [List.nil_append] at this
      exact absurd this (honest_visitMethod _ _ _ _ k)
    · rename_i s n t u1 k
      obtain ⟨-, n', hn, -, -, hr, -⟩ := visitMethod_ok.mp k
      simp only [Prod.mk.injEq] at hr
      obtain ⟨rfl, rfl, rfl⟩ := hr
      split at hv
      · simp at hv
      · rename_i acc' ha
        have := ih (groups_snoc h hn ha) hv
        rwa [List.append_assoc] at this

theorem Groups.det {l : List MethA} {a b : List (Str × List (Bool × Prim))} (h : Groups l a) (k : Groups l b) : a = b := by
  have hn := h.names.trans k.names.symm
  have ha := h.groups
  have hb := k.groups
  clear h k
  induction a generalizing b with
  | nil =>
    cases b with
    | nil => rfl
    | cons y r => simp at hn
  | cons x r ih =>
    cases b with
    | nil => simp at hn
    | cons y r' =>
      simp only [List.map_cons, List.cons.injEq] at hn
      rw [ih hn.2 (fun g hg => ha g (List.mem_cons_of_mem _ hg)) (fun g hg => hb g (List.mem_cons_of_mem _ hg))]
      congr 1
      refine Prod.ext hn.1 ?_
      rw [ha x (by simp), hb y (by simp), hn.1]

theorem meths_iff {l : List MethA} {gs : List (Str × List (Bool × Prim))} {u : UnitD} :
    MethsOk l gs ↔ ∃ u', visitMethods l [] [] u = (.ok gs, u') := by
  have hT : TableOf [] [] := ⟨by simp, by simp, by simp, by simp⟩
  have hG : Groups [] [] := ⟨rfl, by simp⟩
  constructor
  · intro h
    have hne : ∀ m ∈ l, m.exprOk = true ∧ ∃ n, m.name = some n ∧ n ≠ [] ∧ Name.isUncapitalized n = true := by
      intro m hm
      obtain ⟨h1, n, h2, h3⟩ := h.each m hm
      refine ⟨h1, n, h2, ?_, h3⟩
      rintro rfl
      simp [Name.isUncapitalized] at h3
    have hp : (methodTriples l).Pairwise fun a b => a.2.1 = b.2.1 → a.1 ≠ b.1 ∧ a.2.2 = b.2.2 :=
      (methodTriples_pairwise fun m hm => let ⟨_, n, h2, _⟩ := hne m hm; ⟨n, h2⟩).2 h.pairs
    obtain ⟨r, u', hr⟩ := visitMethods_complete (u := u) hT hne (by simpa using hp)
    have := (visitMethods_groups hG hr).det ⟨h.names, h.groups⟩
    subst this
    exact ⟨u', hr⟩
  · rintro ⟨u', h⟩
    obtain ⟨-, h1, h2⟩ := visitMethods_sound hT (by simp) h
    have hg := visitMethods_groups hG h
    refine ⟨?_, ?_, hg.names, hg.groups⟩
    · intro m hm
      obtain ⟨k1, n, k2, -, k3⟩ := h1 m hm
      exact ⟨k1, n, k2, k3⟩
    · exact (methodTriples_pairwise fun m hm => let ⟨_, n, h2, _⟩ := h1 m hm; ⟨n, h2⟩).1 (by simpa using h2)

theorem normalRest_iff {t : CTy} {n : Str} {s : Option SizeA} {os : List OptA} {ms : Option (List MethA)} {u : UnitD} {f : FieldD} :
    (∃ u', visitNormalRest t n s os ms u = (.ok f, u')) ↔
      ∃ b r gs, Name.isUncapitalized n = true ∧ SizeOk t s b ∧ OptsOk os r ∧ FieldMethsOk t ms gs ∧ f = .normal n t b gs r := by
  constructor
  · rintro ⟨u', h⟩
    obtain ⟨d, b, r, gs, u2, h1, h2, h3, h4, h5, rfl⟩ := visitNormalRest_ok.1 h
    refine ⟨b, r, gs, (visitName_ok.1 h1).1, size_iff.2 ⟨d, h2, h3⟩, opts_iff.2 ⟨u2, h4⟩, ?_, rfl⟩
    rcases h5 with ⟨rfl, rfl, -⟩ | ⟨l, p, rfl, rfl, h5⟩
    · exact .none
    · exact .some rfl (meths_iff.2 ⟨u', h5⟩)
  · rintro ⟨b, r, gs, h1, h2, h3, h4, rfl⟩
    have e1 : visitFieldName n u = (.ok n, styleWarn Name.toSnake n u) := visitName_ok.2 ⟨h1, rfl, rfl⟩
    obtain ⟨d, k1, k2⟩ := (size_iff (u := styleWarn Name.toSnake n u)).1 h2
    obtain ⟨u2, k3⟩ := (opts_iff (u := styleWarn Name.toSnake n u)).1 h3
    cases h4 with
    | none => exact ⟨u2, visitNormalRest_ok.2 ⟨d, b, r, [], u2, e1, k1, k2, k3, .inl ⟨rfl, rfl, rfl⟩, rfl⟩⟩
    | @some l _ p e h =>
      obtain ⟨u3, k4⟩ := (meths_iff (u := u2)).1 h
      exact ⟨u3, visitNormalRest_ok.2 ⟨d, b, r, gs, u2, e1, k1, k2, k3, .inr ⟨l, p, rfl, e, k4⟩, rfl⟩⟩

/-! ### Layout -/

theorem offset_cons (f : FieldD) (r : List FieldD) (i : Nat) :
    offset (f :: r) (i + 1) = (if f.bits = -1 then 0 else f.bits) + offset r i := by
  simp [offset]

theorem bmod_mod8 (x : Int) : (x.bmod (2 ^ 64)) % 8 = x % 8 := by
  rw [Int.bmod_def]
  split <;> omega

theorem checkAlign_exact (fs : List FieldD) (start : Int) :
    checkAlign fs start = none ↔ ∀ (i : Nat) f, fs[i]? = some f → f.IsBytewise → (start + offset fs i) % 8 = 0 := by
  induction fs generalizing start with
  | nil => simp [checkAlign]
  | cons f r ih =>
    rw [checkAlign_cons]
    have hnext : ∀ i, ((if f.bits ≠ -1 then i64 (start + f.bits) else start) + offset r i) % 8 =
        (start + offset (f :: r) (i + 1)) % 8 := by
      intro i
      rw [offset_cons]
      by_cases h : f.bits = -1
      · simp [h]
      · rw [if_pos h, if_neg h, i64, Int.add_emod, bmod_mod8, ← Int.add_emod, Int.add_assoc]
    have h0 : offset (f :: r) 0 = 0 := by simp [offset]
    have tail : checkAlign r (if f.bits ≠ -1 then i64 (start + f.bits) else start) = none ↔
        ∀ (i : Nat) g, r[i]? = some g → g.IsBytewise → (start + offset (f :: r) (i + 1)) % 8 = 0 := by
      rw [ih]
      simp only [hnext]
    have tm : start.tmod 8 = 0 ↔ start % 8 = 0 := by
      rw [Int.tmod_eq_emod]
      split <;> omega
    have skip : ¬ f.IsBytewise → ((∀ (i : Nat) g, r[i]? = some g → g.IsBytewise → (start + offset (f :: r) (i + 1)) % 8 = 0) ↔
        ∀ (i : Nat) g, (f :: r)[i]? = some g → g.IsBytewise → (start + offset (f :: r) i) % 8 = 0) := by
      intro hf
      constructor
      · intro h i g hg hb
        cases i with
        | zero =>
          simp only [List.getElem?_cons_zero, Option.some.injEq] at hg
          subst hg
          exact absurd hb hf
        | succ i => exact h i g (by simpa using hg) hb
      · intro h i g hg hb
        exact h (i + 1) g (by simpa using hg) hb
    cases f with
    | normal n t b ms os =>
      by_cases hb : Bytewise t
      · have hm := (mustAlign_iff t).2 hb
        simp only [hm, Bool.true_and, decide_eq_true_eq]
        by_cases ha : start % 8 = 0
        · rw [if_neg (by rw [Decidable.not_not]; exact tm.2 ha), tail]
          constructor
          · intro h i g hg hgb
            cases i with
            | zero => rw [h0, Int.add_zero]; exact ha
            | succ i => exact h i g (by simpa using hg) hgb
          · intro h i g hg hgb
            exact h (i + 1) g (by simpa using hg) hgb
        · rw [if_pos (fun h => ha (tm.1 h))]
          simp only [reduceCtorEq, false_iff]
          intro h
          have := h 0 _ rfl (.mk _ _ _ _ _ hb)
          rw [h0, Int.add_zero] at this
          exact ha this
      · have hm : t.mustAlign = false := by
          rw [← Bool.not_eq_true, mustAlign_iff]; exact hb
        simp only [hm, Bool.false_and, Bool.false_eq_true, if_false]
        rw [tail]
        exact skip (fun h => by cases h; contradiction)
    | void b => rw [← skip (fun h => nomatch h)]; exact tail
    | embedded s b => rw [← skip (fun h => nomatch h)]; exact tail
    | const n p b l os => rw [← skip (fun h => nomatch h)]; exact tail

theorem aligned_iff (fs : List FieldD) : Aligned fs ↔ checkAlign fs 0 = none := by
  rw [checkAlign_exact]
  simp only [Int.zero_add]
  rfl

theorem sum_total (fs : List FieldD) : (fs.map fun f => (f.room : Int)).sum = (total fs : Int) := by
  induction fs with
  | nil => rfl
  | cons f r ih => rw [List.map_cons, List.sum_cons, ih, total_cons]; omega

theorem room_iff (fs : List FieldD) : total fs % 8 = 0 ↔ (sumBits fs 0).tmod 8 = 0 := by
  have h : (sumBits fs 0) % 8 = (total fs : Int) % 8 := by
    rw [sumBits_is, roomOf, bmod_mod8, sum_total]
  have tm : (sumBits fs 0).tmod 8 = 0 ↔ (sumBits fs 0) % 8 = 0 := by
    rw [Int.tmod_eq_emod]
    split <;> omega
  rw [tm, h]
  omega

theorem finish_iff {n : Str} {s : Option SizeA} {z : Int} {fs : List FieldD} {x : StructD} {u : UnitD} (hz : annotSize s = some z) :
    finishStruct n z fs u = (.ok x, u) ↔
      fs ≠ [] ∧ Aligned (fs.map setBelongs) ∧ total (fs.map setBelongs) % 8 = 0 ∧ DeclaredOk s (fs.map setBelongs) ∧
        ∃ dyn, (dyn = true ↔ ∃ f ∈ fs.map setBelongs, f.IsVar) ∧ x = .mk n (roomOf (fs.map setBelongs)) dyn (fs.map setBelongs) := by
  rw [finishStruct_ok, aligned_iff, room_iff, sumBits_is]
  have hd : DeclaredOk s (fs.map setBelongs) ↔ (z = 0 ∨ anyDyn (fs.map setBelongs) = false ∧ roomOf (fs.map setBelongs) = z) := by
    unfold DeclaredOk
    rw [← anyDyn_iff, hz, Bool.not_eq_true]
    cases s with
    | none =>
      cases hz
      simp
    | some s =>
      have := annot_ne hz
      simp only [reduceCtorEq, false_or, this, Option.some.injEq]
      exact and_congr_right fun _ => eq_comm
  rw [hd]
  constructor
  · rintro ⟨h1, h2, h3, h4, h5, -⟩
    exact ⟨h1, h2, h3, h4, _, anyDyn_iff _, h5⟩
  · rintro ⟨h1, h2, h3, h4, dyn, h5, rfl⟩
    refine ⟨h1, h2, h3, h4, ?_, rfl⟩
    congr 1
    rw [Bool.eq_iff_iff, h5, anyDyn_iff]

/-! ### Accepted definitions obey the rules -/

theorem styleWarn_types (conv : Str → Str) (n : Str) (u : UnitD) : (styleWarn conv n u).globalTypes = u.globalTypes := by
  unfold styleWarn
  split <;> rfl

theorem lookupStruct_iff {n : Str} {u : UnitD} {t : CTy} : (∃ u', lookupStruct n u = (.ok t, u')) ↔
    Name.isCapitalized n = true ∧ ∃ d s, aget u.globalTypes n = some d ∧ d.ty = .struct s ∧ t = .struct s := by
  constructor
  · rintro ⟨u', h⟩
    have h' := h
    unfold lookupStruct at h'
    obtain ⟨m, u1, h1, -⟩ := bind_ok.1 h'
    exact ⟨(visitName_ok.1 (nameOrPanic_ok.1 h1)).1, lookupStruct_ok h⟩
  · rintro ⟨hc, d, s, h1, h2, rfl⟩
    refine ⟨styleWarn Name.toPascal n u, ?_⟩
    unfold lookupStruct
    refine bind_ok.2 ⟨n, _, nameOrPanic_ok.2 (visitName_ok.2 ⟨hc, rfl, rfl⟩), bind_ok.2 ⟨d.ty, _, lookupType_ok.2 ⟨rfl, d, ?_, rfl⟩, ?_⟩⟩
    · rw [styleWarn_types]; exact h1
    · rw [h2]; exact pure_ok.2 ⟨rfl, rfl⟩

theorem lookupEnum_iff {n : Str} {u : UnitD} {t : CTy} : (∃ u', lookupEnum n u = (.ok t, u')) ↔
    Name.isCapitalized n = true ∧ ∃ d s, aget u.globalTypes n = some d ∧ d.ty = .enum s ∧ t = .enum s := by
  constructor
  · rintro ⟨u', h⟩
    have h' := h
    unfold lookupEnum at h'
    obtain ⟨m, u1, h1, -⟩ := bind_ok.1 h'
    exact ⟨(visitName_ok.1 (nameOrPanic_ok.1 h1)).1, lookupEnum_ok h⟩
  · rintro ⟨hc, d, s, h1, h2, rfl⟩
    refine ⟨styleWarn Name.toPascal n u, ?_⟩
    unfold lookupEnum
    refine bind_ok.2 ⟨n, _, nameOrPanic_ok.2 (visitName_ok.2 ⟨hc, rfl, rfl⟩), bind_ok.2 ⟨d.ty, _, lookupType_ok.2 ⟨rfl, d, ?_, rfl⟩, ?_⟩⟩
    · rw [styleWarn_types]; exact h1
    · rw [h2]; exact pure_ok.2 ⟨rfl, rfl⟩

theorem optName_iff {n : Option Str} {m : Str} {u : UnitD} : (∃ u', visitOptName visitFieldName n u = (.ok m, u')) ↔
    (∀ k, n = some k → Name.isUncapitalized k = true) ∧ m = n.getD [] := by
  cases n with
  | none =>
    simp only [visitOptName, pure_ok, reduceCtorEq, false_implies, implies_true, true_and, Option.getD_none]
    exact ⟨fun ⟨_, h, _⟩ => h.symm, fun h => ⟨u, h.symm, rfl⟩⟩
  | some k =>
    simp only [visitOptName, Option.some.injEq, Option.getD_some]
    constructor
    · rintro ⟨u', h⟩
      obtain ⟨h1, rfl, -⟩ := visitName_ok.1 h
      exact ⟨fun _ e => e ▸ h1, rfl⟩
    · rintro ⟨h, rfl⟩
      exact ⟨_, visitName_ok.2 ⟨h _ rfl, rfl, rfl⟩⟩

theorem flatNames_belongs (fs : List FieldD) : (fs.map setBelongs).flatMap FieldD.names = fs.flatMap FieldD.names := by
  induction fs with
  | nil => rfl
  | cons f r ih =>
    simp only [List.map_cons, List.flatMap_cons, ih]
    cases f <;> rfl

mutual
  theorem elem_sound {Γ : Scope} : ∀ (e : ElemA) (u u' : UnitD) (t : CTy), Match Γ u → visitElem e u = (.ok t, u') → ElemOk Γ e t ∧ FlatTy t
    | .basic b, u, u', t, hM, h => by
      unfold visitElem at h
      obtain ⟨rfl, -⟩ := pure_ok.1 h
      exact ⟨.basic, trivial⟩
    | .str, u, u', t, hM, h => by
      unfold visitElem at h
      obtain ⟨rfl, -⟩ := pure_ok.1 h
      exact ⟨.str, trivial⟩
    | .bytes, u, u', t, hM, h => by
      unfold visitElem at h
      obtain ⟨rfl, -⟩ := pure_ok.1 h
      exact ⟨.bytes, trivial⟩
    | .structName n, u, u', t, hM, h => by
      unfold visitElem at h
      obtain ⟨hc, d, s, h1, h2, rfl⟩ := lookupStruct_iff.1 ⟨u', h⟩
      have k := (hM.type n (.struct s)).2 ⟨d, h1, h2⟩
      exact ⟨.structName hc k, hM.flat _ _ k⟩
    | .structDef d, u, u', t, hM, h => by
      have ih := fun u' x => struct_sound d u u' x hM
      unfold visitElem at h
      obtain ⟨x, u1, h1, h2⟩ := bind_ok.1 h
      obtain ⟨rfl, -⟩ := pure_ok.1 h2
      obtain ⟨k1, k2⟩ := ih u1 x h1
      exact ⟨.structDef k1, k2⟩
    | .enumName n, u, u', t, hM, h => by
      unfold visitElem at h
      obtain ⟨hc, d, s, h1, h2, rfl⟩ := lookupEnum_iff.1 ⟨u', h⟩
      have k := (hM.type n (.enum s)).2 ⟨d, h1, h2⟩
      exact ⟨.enumName hc k, hM.flat _ _ k⟩
    | .ident n, u, u', t, hM, h => by
      unfold visitElem at h
      obtain ⟨-, d, h1, h2⟩ := lookupType_ok.1 h
      have k := (hM.type n t).2 ⟨d, h1, h2⟩
      exact ⟨.ident k, hM.flat _ _ k⟩
  theorem type_sound {Γ : Scope} : ∀ (e : TypeA) (u u' : UnitD) (t : CTy), Match Γ u → visitType e u = (.ok t, u') → TypeOk Γ e t ∧ FlatTy t
    | .elem e, u, u', t, hM, h => by
      have ih := elem_sound e u u' t hM
      unfold visitType at h
      obtain ⟨k1, k2⟩ := ih h
      exact ⟨.elem k1, k2⟩
    | .array e len, u, u', t, hM, h => by
      have ih := fun u' t => elem_sound e u u' t hM
      unfold visitType at h
      obtain ⟨x, u1, h1, h2⟩ := bind_ok.1 h
      obtain ⟨l, u2, h3, h4⟩ := bind_ok.1 h2
      obtain ⟨n, hn, rfl, -⟩ := visitIntLit_ok.1 h3
      split at h4
      · exact absurd h4 (by simp [fail])
      · rename_i hz
        obtain ⟨rfl, -⟩ := pure_ok.1 h4
        exact ⟨.array (ih u1 x h1).1 hn (by omega), trivial⟩
  theorem struct_sound {Γ : Scope} : ∀ (s : StructA) (u u' : UnitD) (x : StructD), Match Γ u → visitStruct s u = (.ok x, u') →
      StructOk Γ s x ∧ FlatTy (.struct x)
    | .mk l c n sz b, u, u', x, hM, h => by
      have ih := fun u u' fs => body_sound (Γ := Γ) b u u' fs
      obtain ⟨u1, u2, u3, z, fs, h1, h2, h3, h4, h5, h6⟩ := visitStruct_ok.1 h
      have e1 := hM.visit (steps_visitName _ _ _) (vals_visitName _ _ _) h1
      have e2 : Match Γ u2 := by
        have s2 := step_addLocalName u1 n ⟨⟨u1.path, l, c⟩, none⟩ rfl
        have v2 := val_addLocalName u1 n ⟨⟨u1.path, l, c⟩, none⟩ rfl
        rw [h2] at s2 v2
        exact e1.step s2 v2
      have e3 := e2.visit (steps_visitOptSize _) (vals_visitOptSize _) h3
      have kb := ih u3 u' fs e3 h4
      obtain ⟨hz, -⟩ := visitOptSize_ok.1 h3
      obtain ⟨f1, f2, f3, f4, dyn, f5, rfl⟩ := (finish_iff hz).1 h6
      refine ⟨.mk (visitName_ok.1 h1).1 kb (by simpa using f1) ?_ f2 f3 f4 f5, setBelongs_idem _⟩
      rw [flatNames_belongs]
      exact h5
  theorem body_sound {Γ : Scope} : ∀ (b : BodyA) (u u' : UnitD) (fs : List FieldD), Match Γ u → VisitAll b u fs u' →
      BodyOk Γ b ((expandAll fs).map setBelongs)
    | .nil, u, u', fs, hM, h => by
      simp only [VisitAll] at h
      obtain ⟨rfl, -⟩ := h
      simp only [expandAll, List.map_nil]
      exact .nil
    | .cons f r, u, u', fs, hM, h => by
      have ih1 := fun u' o => field_sound f u u' o hM
      have ih2 := fun u u' fs => body_sound (Γ := Γ) r u u' fs
      simp only [VisitAll] at h
      obtain ⟨o, u1, h1, fs', rfl, h2⟩ := h
      have e1 := hM.visit (steps_visitField _) (vals_visitField _) h1
      rw [expandAll_append, List.map_append]
      exact .cons (ih1 u1 o h1) (ih2 u1 u' fs' e1 h2)
  theorem field_sound {Γ : Scope} : ∀ (f : FieldA) (u u' : UnitD) (o : Option FieldD), Match Γ u → visitField f u = (.ok o, u') →
      FieldOk Γ f ((expandAll o.toList).map setBelongs)
    | .empty, u, u', o, hM, h => by
      unfold visitField at h
      obtain ⟨rfl, -⟩ := pure_ok.1 h
      simp only [Option.toList_none, expandAll, List.map_nil]
      exact .empty
    | .void sz os, u, u', o, hM, h => by
      obtain ⟨b, os', h1, h2, rfl⟩ := visitField_void.1 h
      simp only [Option.toList_some, expandAll, FieldD.expand, List.append_nil, List.map_cons, List.map_nil, setBelongs]
      exact .void h1 (opts_iff.2 ⟨_, h2⟩)
    | .const t n sz v os, u, u', o, hM, h => by
      obtain ⟨m, z, b, l, os', u1, h1, h2, h3, h4, h5, h6, rfl⟩ := visitField_const.1 h
      have e1 := hM.visit (steps_visitOptName _ _ fun _ => steps_visitName _ _ _) (vals_visitOptName _ _ fun _ => vals_visitName _ _ _) h1
      simp only [Option.toList_some, expandAll, FieldD.expand, List.append_nil, List.map_cons, List.map_nil, setBelongs]
      obtain ⟨k1, rfl⟩ := optName_iff.1 ⟨u1, h1⟩
      exact .const k1 (constSize_iff.2 ⟨z, h2, h3⟩) ((val_iff e1).2 h4) (fits_iff.2 h5) (opts_iff.2 ⟨_, h6⟩)
    | .embedded t os, u, u', o, hM, h => by
      have ih := fun u' x => type_sound t u u' x hM
      obtain ⟨x, u1, os', h1, h2, rfl⟩ := visitField_embedded.1 h
      obtain ⟨k1, k2⟩ := ih u1 _ h1
      simp only [Option.toList_some]
      rw [flat_expand k2]
      exact .embedded k1 (opts_iff.2 ⟨_, h2⟩)
    | .normal t n sz os ms, u, u', o, hM, h => by
      have ih := fun u' x => type_sound t u u' x hM
      obtain ⟨ty, u1, f, h1, h2, rfl⟩ := visitField_normal.1 h
      obtain ⟨k1, -⟩ := ih u1 _ h1
      obtain ⟨b, r, gs, g1, g2, g3, g4, rfl⟩ := normalRest_iff.1 ⟨u', h2⟩
      simp only [Option.toList_some, expandAll, FieldD.expand, List.append_nil, List.map_cons, List.map_nil, setBelongs]
      exact .normal k1 g1 g2 g3 g4
end

end Bubbler.Comp
