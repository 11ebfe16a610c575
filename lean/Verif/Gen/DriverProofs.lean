import Verif.Gen.Driver
import Verif.Compiler.UnitProofs
import Verif.Compiler.Layout

/-
What the driver generates, for types in which a name stands for one type.
-/
namespace Bubbler.Gen
open Comp

mutual
  /-- The structs and enums in a type, inner ones first, with repetitions -/
  def visits : CTy → List CTy
    | .basic _ => []
    | .str => []
    | .bytes => []
    | .array e _ => visits e
    | .struct (.mk n b d fs) => visitsF fs ++ [.struct (.mk n b d fs)]
    | .enum e => [.enum e]
  def visitsF : List FieldD → List CTy
    | [] => []
    | .normal _ t _ _ _ :: r => visits t ++ visitsF r
    | .void _ :: r => visitsF r
    | .embedded _ _ :: r => visitsF r
    | .const _ _ _ _ _ :: r => visitsF r
end

/-- The fields of a struct; other types have none -/
def fieldsOf : CTy → List FieldD
  | .struct s => s.fields
  | _ => []

theorem visits_struct (s : StructD) : visits (.struct s) = visitsF s.fields ++ [.struct s] := by
  cases s; rfl

mutual
  theorem visits_size : ∀ (t : CTy), ∀ X ∈ visits t, sizeOf X ≤ sizeOf t
    | .basic _ => by simp [visits]
    | .str => by simp [visits]
    | .bytes => by simp [visits]
    | .array e _ => by
      intro X h
      unfold visits at h
      have := visits_size e X h
      simp only [CTy.array.sizeOf_spec]
      omega
    | .struct (.mk n b d fs) => by
      intro X h
      unfold visits at h
      rcases List.mem_append.1 h with h | h
      · have := visitsF_size fs X h
        simp only [CTy.struct.sizeOf_spec, StructD.mk.sizeOf_spec]
        omega
      · rw [List.mem_singleton] at h
        subst h
        exact Nat.le_refl _
    | .enum e => by
      intro X h
      unfold visits at h
      rw [List.mem_singleton] at h
      subst h
      exact Nat.le_refl _
  theorem visitsF_size : ∀ (fs : List FieldD), ∀ X ∈ visitsF fs, sizeOf X < sizeOf fs
    | [] => by simp [visitsF]
    | .normal _ t _ _ _ :: r => by
      intro X h
      unfold visitsF at h
      simp only [List.cons.sizeOf_spec, FieldD.normal.sizeOf_spec]
      rcases List.mem_append.1 h with h | h
      · have := visits_size t X h
        omega
      · have := visitsF_size r X h
        omega
    | .void _ :: r => by
      intro X h
      unfold visitsF at h
      have := visitsF_size r X h
      simp only [List.cons.sizeOf_spec]
      omega
    | .embedded _ _ :: r => by
      intro X h
      unfold visitsF at h
      have := visitsF_size r X h
      simp only [List.cons.sizeOf_spec]
      omega
    | .const _ _ _ _ _ :: r => by
      intro X h
      unfold visitsF at h
      have := visitsF_size r X h
      simp only [List.cons.sizeOf_spec]
      omega
end

/-- A struct is not among the types of its own fields. -/
theorem not_self (s : StructD) : CTy.struct s ∉ visitsF s.fields := by
  intro h
  have := visitsF_size _ _ h
  cases s
  simp only [StructD.fields, CTy.struct.sizeOf_spec, StructD.mk.sizeOf_spec] at this
  omega

mutual
  theorem visits_trans : ∀ (t : CTy) (X : CTy), X ∈ visits t → ∀ Y ∈ visits X, Y ∈ visits t
    | .basic _, X, h, Y, hY => by simp [visits] at h
    | .str, X, h, Y, hY => by simp [visits] at h
    | .bytes, X, h, Y, hY => by simp [visits] at h
    | .array e _, X, h, Y, hY => by
      unfold visits at h ⊢
      exact visits_trans e X h Y hY
    | .struct (.mk n b d fs), X, h, Y, hY => by
      unfold visits at h
      rcases List.mem_append.1 h with h | h
      · have := visitsF_trans fs X h Y hY
        unfold visits
        exact List.mem_append_left _ this
      · rw [List.mem_singleton] at h
        subst h
        exact hY
    | .enum e, X, h, Y, hY => by
      unfold visits at h
      rw [List.mem_singleton] at h
      subst h
      exact hY
  theorem visitsF_trans : ∀ (fs : List FieldD) (X : CTy), X ∈ visitsF fs → ∀ Y ∈ visits X, Y ∈ visitsF fs
    | [], X, h, Y, hY => by simp [visitsF] at h
    | .normal _ t _ _ _ :: r, X, h, Y, hY => by
      unfold visitsF at h ⊢
      rcases List.mem_append.1 h with h | h
      · exact List.mem_append_left _ (visits_trans t X h Y hY)
      · exact List.mem_append_right _ (visitsF_trans r X h Y hY)
    | .void _ :: r, X, h, Y, hY => by
      unfold visitsF at h ⊢
      exact visitsF_trans r X h Y hY
    | .embedded _ _ :: r, X, h, Y, hY => by
      unfold visitsF at h ⊢
      exact visitsF_trans r X h Y hY
    | .const _ _ _ _ _ :: r, X, h, Y, hY => by
      unfold visitsF at h ⊢
      exact visitsF_trans r X h Y hY
end

/-- In the types `P` a name stands for one type. -/
def Coherent (P : CTy → Prop) : Prop := ∀ X Y, P X → P Y → X.customName = Y.customName → X = Y

/-- The types generated so far, in order: each once, each after the types in it. -/
structure Ordered (P : CTy → Prop) (done : List Str) : Prop where
  nodup : done.Nodup
  before : ∀ X, P X → ∀ pre post, done = pre ++ X.customName :: post → ∀ Y ∈ visitsF (fieldsOf X), Y.customName ∈ pre

theorem Ordered.closed {P : CTy → Prop} {done : List Str} (h : Ordered P done) {X : CTy} (hX : P X) (hm : X.customName ∈ done) :
    ∀ Y ∈ visitsF (fieldsOf X), Y.customName ∈ done := by
  intro Y hY
  obtain ⟨pre, post, e⟩ := List.append_of_mem hm
  have := h.before X hX pre post e Y hY
  rw [e]
  exact List.mem_append_left _ this

theorem split_snoc {l pre post : List Str} {n m : Str} (h : l ++ [n] = pre ++ m :: post) :
    (post = [] ∧ pre = l ∧ m = n) ∨ ∃ post', post = post' ++ [n] ∧ l = pre ++ m :: post' := by
  rcases List.eq_nil_or_concat post with rfl | ⟨post', x, rfl⟩
  · left
    obtain ⟨h1, h2⟩ := List.append_inj' h rfl
    simp only [List.cons.injEq, and_true] at h2
    exact ⟨rfl, h1.symm, h2.symm⟩
  · right
    rw [List.concat_eq_append] at h ⊢
    have h' : l ++ [n] = (pre ++ m :: post') ++ [x] := by simp [h]
    obtain ⟨h1, h2⟩ := List.append_inj' h' rfl
    simp only [List.cons.injEq, and_true] at h2
    exact ⟨post', by rw [h2], h1⟩

theorem Ordered.snoc {P : CTy → Prop} (hco : Coherent P) {done : List Str} (h : Ordered P done) {X : CTy} (hX : P X)
    (hn : X.customName ∉ done) (hb : ∀ Y ∈ visitsF (fieldsOf X), Y.customName ∈ done) :
    Ordered P (done ++ [X.customName]) := by
  refine ⟨nodup_snoc h.nodup hn, ?_⟩
  intro Z hZ pre post e Y hY
  rcases split_snoc e with ⟨-, rfl, e2⟩ | ⟨post', -, e⟩
  · have := hco Z X hZ hX e2
    subst this
    exact hb Y hY
  · exact h.before Z hZ pre post' e Y hY

/-- What a run of the driver does: it appends the names `ns` that were not there. -/
structure Ran (P : CTy → Prop) (st : GenSt) (ns : List Str) (st' : GenSt) : Prop where
  stack : st'.stack = st.stack
  ext : ∃ x, st'.done = st.done ++ x
  mem : ∀ n, n ∈ st'.done ↔ n ∈ st.done ∨ n ∈ ns
  ordered : Ordered P st'.done

theorem Ran.refl {P : CTy → Prop} {st : GenSt} (h : Ordered P st.done) : Ran P st [] st :=
  ⟨rfl, ⟨[], by simp⟩, by simp, h⟩

theorem Ran.trans {P : CTy → Prop} {a b c : GenSt} {m n : List Str} (h : Ran P a m b) (k : Ran P b n c) : Ran P a (m ++ n) c := by
  obtain ⟨x, hx⟩ := h.ext
  obtain ⟨y, hy⟩ := k.ext
  refine ⟨k.stack.trans h.stack, ⟨x ++ y, by rw [hy, hx, List.append_assoc]⟩, ?_, k.ordered⟩
  intro z
  rw [k.mem, h.mem, List.mem_append, or_assoc]

theorem filter_sput {l : List Str} {n : Str} (h : n ∉ l) : (sput l n).filter (· ≠ n) = l := by
  unfold sput
  rw [if_neg h, List.filter_append]
  have h1 : l.filter (· ≠ n) = l := by
    rw [List.filter_eq_self]
    intro a ha
    simp only [ne_eq, decide_not, Bool.not_eq_true', decide_eq_false_iff_not]
    rintro rfl
    exact h ha
  rw [h1]
  simp

mutual
  /-- Generating a type: everything in it is in the table afterwards. -/
  theorem genTy_ran {g : GenCfg} (hd : g.deep = true) {P : CTy → Prop} (hco : Coherent P) : ∀ (t : CTy) (st st' : GenSt),
      genTy g t st = some st' → (∀ X ∈ visits t, P X) → (∀ X ∈ visits t, X.customName ∉ st.stack) → Ordered P st.done →
      Ran P st ((visits t).map CTy.customName) st'
    | .basic _, st, st', h, hP, hs, ho => by
      unfold genTy at h
      cases h
      exact Ran.refl ho
    | .str, st, st', h, hP, hs, ho => by
      unfold genTy at h
      cases h
      exact Ran.refl ho
    | .bytes, st, st', h, hP, hs, ho => by
      unfold genTy at h
      cases h
      exact Ran.refl ho
    | .array e _, st, st', h, hP, hs, ho => by
      unfold genTy at h
      unfold visits at hP hs ⊢
      exact genTy_ran hd hco e st st' h hP hs ho
    | .struct (.mk n b d fs), st, st', h, hP, hs, ho => by
      have hself : CTy.struct (.mk n b d fs) ∈ visits (.struct (.mk n b d fs)) := by simp [visits]
      have hPs := hP _ hself
      have hstk : n ∉ st.stack := hs _ hself
      have hv : visits (.struct (.mk n b d fs)) = visitsF fs ++ [.struct (.mk n b d fs)] := rfl
      rw [hv] at hP hs ⊢
      unfold genTy at h
      by_cases hdn : n ∈ st.done
      · rw [if_pos hdn] at h
        cases h
        refine ⟨rfl, ⟨[], by simp⟩, ?_, ho⟩
        intro m
        constructor
        · exact .inl
        · rintro (hm | hm)
          · exact hm
          · rw [List.map_append, List.mem_append] at hm
            rcases hm with hm | hm
            · obtain ⟨Y, hY, rfl⟩ := List.mem_map.1 hm
              exact ho.closed hPs hdn Y hY
            · simp only [List.map_cons, List.map_nil, List.mem_singleton] at hm
              rw [hm]
              exact hdn
      · rw [if_neg hdn, if_neg hstk] at h
        rcases k : genFields g fs ⟨st.done, sput st.stack n⟩ with _ | st1
        · rw [k] at h
          cases h
        · rw [k] at h
          simp only at h
          split at h
          · cases h
          · cases h
            have hns : ∀ X ∈ visitsF fs, X.customName ≠ n := by
              intro X hX e
              have := hco X (.struct (.mk n b d fs)) (hP X (List.mem_append_left _ hX)) hPs e
              rw [this] at hX
              exact not_self (.mk n b d fs) hX
            have r := genFields_ran hd hco fs _ _ k (fun X hX => hP X (List.mem_append_left _ hX)) (by
              intro X hX
              simp only [mem_sput]
              rintro (hm | hm)
              · exact hs X (List.mem_append_left _ hX) hm
              · exact hns X hX hm) ho
            have hn1 : n ∉ st1.done := by
              rw [r.mem]
              rintro (hm | hm)
              · exact hdn hm
              · obtain ⟨Y, hY, e⟩ := List.mem_map.1 hm
                exact hns Y hY e
            obtain ⟨x, hx⟩ := r.ext
            simp only at hx
            have e1 : sput st1.done n = st1.done ++ [n] := by unfold sput; rw [if_neg hn1]
            refine ⟨?_, ⟨x ++ [n], ?_⟩, ?_, ?_⟩
            · simp only [GenSt.finish]
              rw [r.stack]
              exact filter_sput hstk
            · simp only [GenSt.finish]
              rw [e1, hx, List.append_assoc]
            · intro m
              simp only [GenSt.finish, mem_sput, r.mem, List.map_append, List.mem_append, List.map_cons, List.map_nil, List.mem_singleton,
                or_assoc]
              rfl
            · simp only [GenSt.finish]
              rw [e1]
              refine r.ordered.snoc hco (X := .struct (.mk n b d fs)) hPs hn1 ?_
              intro Y hY
              rw [r.mem]
              exact .inr (List.mem_map.2 ⟨Y, hY, rfl⟩)
    | .enum e, st, st', h, hP, hs, ho => by
      have hself : CTy.enum e ∈ visits (.enum e) := by simp [visits]
      have hPs := hP _ hself
      have hstk : e.name ∉ st.stack := hs _ hself
      unfold genTy at h
      by_cases hdn : e.name ∈ st.done
      · rw [if_pos hdn] at h
        cases h
        refine ⟨rfl, ⟨[], by simp⟩, ?_, ho⟩
        intro m
        constructor
        · exact .inl
        · rintro (hm | hm)
          · exact hm
          · simp only [visits, List.map_cons, List.map_nil, List.mem_singleton] at hm
            rw [hm]
            exact hdn
      · rw [if_neg hdn, if_neg hstk] at h
        split at h
        · cases h
        · cases h
          have e1 : sput st.done e.name = st.done ++ [e.name] := by unfold sput; rw [if_neg hdn]
          refine ⟨?_, ⟨[e.name], ?_⟩, ?_, ?_⟩
          · exact filter_sput hstk
          · exact e1
          · intro m
            simp only [GenSt.finish, mem_sput, visits, List.map_cons, List.map_nil, List.mem_singleton]
            rfl
          · simp only [GenSt.finish]
            rw [e1]
            exact ho.snoc hco (X := .enum e) hPs hdn (by intro Y hY; simp [fieldsOf, visitsF] at hY)
  theorem genFields_ran {g : GenCfg} (hd : g.deep = true) {P : CTy → Prop} (hco : Coherent P) : ∀ (fs : List FieldD) (st st' : GenSt),
      genFields g fs st = some st' → (∀ X ∈ visitsF fs, P X) → (∀ X ∈ visitsF fs, X.customName ∉ st.stack) → Ordered P st.done →
      Ran P st ((visitsF fs).map CTy.customName) st'
    | [], st, st', h, hP, hs, ho => by
      unfold genFields at h
      cases h
      exact Ran.refl ho
    | .normal _ t _ _ _ :: r, st, st', h, hP, hs, ho => by
      unfold genFields at h
      rw [if_pos hd] at h
      unfold visitsF at hP hs ⊢
      rcases k : genTy g t st with _ | st1
      · rw [k] at h
        cases h
      · rw [k] at h
        have r1 := genTy_ran hd hco t st st1 k (fun X hX => hP X (List.mem_append_left _ hX))
          (fun X hX => hs X (List.mem_append_left _ hX)) ho
        have r2 := genFields_ran hd hco r st1 st' h (fun X hX => hP X (List.mem_append_right _ hX)) (by
          rw [r1.stack]
          exact fun X hX => hs X (List.mem_append_right _ hX)) r1.ordered
        rw [List.map_append]
        exact r1.trans r2
    | .void _ :: r, st, st', h, hP, hs, ho => by
      unfold genFields at h
      unfold visitsF at hP hs ⊢
      exact genFields_ran hd hco r st st' h hP hs ho
    | .embedded _ _ :: r, st, st', h, hP, hs, ho => by
      unfold genFields at h
      unfold visitsF at hP hs ⊢
      exact genFields_ran hd hco r st st' h hP hs ho
    | .const _ _ _ _ _ :: r, st, st', h, hP, hs, ho => by
      unfold genFields at h
      unfold visitsF at hP hs ⊢
      exact genFields_ran hd hco r st st' h hP hs ho
end

/-- The structs and enums in a list of definitions -/
def visitsT (ts : List (Str × TypeDef)) : List CTy := ts.flatMap fun e => visits e.2.ty

theorem genTypes_ran {g : GenCfg} (hd : g.deep = true) {P : CTy → Prop} (hco : Coherent P) (ts : List (Str × TypeDef)) (st st' : GenSt)
    (h : genTypes g ts st = some st') (hP : ∀ X ∈ visitsT ts, P X) (hs : st.stack = []) (ho : Ordered P st.done) :
    Ran P st ((visitsT ts).map CTy.customName) st' := by
  induction ts generalizing st with
  | nil =>
    unfold genTypes at h
    cases h
    exact Ran.refl ho
  | cons e r ih =>
    obtain ⟨n, t⟩ := e
    unfold genTypes at h
    rcases k : genTy g t.ty st with _ | st1
    · rw [k] at h
      cases h
    · rw [k] at h
      have hv : visitsT ((n, t) :: r) = visits t.ty ++ visitsT r := by simp [visitsT]
      rw [hv] at hP ⊢
      have r1 := genTy_ran hd hco t.ty st st1 k (fun X hX => hP X (List.mem_append_left _ hX)) (by rw [hs]; simp) ho
      have r2 := ih st1 h (fun X hX => hP X (List.mem_append_right _ hX)) (by rw [r1.stack, hs]) r1.ordered
      rw [List.map_append]
      exact r1.trans r2

/-- A unit: the types it is given -/
theorem genUnit_ran {g : GenCfg} (hd : g.deep = true) {P : CTy → Prop} (hco : Coherent P) {u : UnitD} {keys keys' : List Str}
    {st st' : GenSt} {o : Option OutUnit} (h : genUnit g u keys st = some (keys', st', o)) (hP : ∀ X ∈ visitsT u.localTypes, P X)
    (hs : st.stack = []) (ho : Ordered P st.done) :
    Ran P st ((visitsT u.localTypes).map CTy.customName) st' ∧
      ((skipped u = true ∧ o = none ∧ st' = st) ∨
        (skipped u = false ∧ ∃ ns, o = some ⟨u.path, ns, g.files u ns⟩ ∧ st'.done = st.done ++ ns)) := by
  unfold genUnit at h
  have key : ∀ st1, genTypes g u.localTypes st = some st1 →
      Ran P st ((visitsT u.localTypes).map CTy.customName) st1 ∧ st1.done = st.done ++ st1.done.drop st.done.length := by
    intro st1 k
    have r := genTypes_ran hd hco _ _ _ k hP hs ho
    refine ⟨r, ?_⟩
    obtain ⟨x, hx⟩ := r.ext
    rw [hx, List.drop_left]
  by_cases hk : skipped u = true
  · rw [if_pos hk] at h
    cases h
    refine ⟨?_, .inl ⟨hk, rfl, rfl⟩⟩
    have : u.localTypes = [] := by
      unfold skipped at hk
      simp only [Bool.and_eq_true, List.isEmpty_iff] at hk
      exact hk.1
    rw [this]
    exact Ran.refl ho
  · rw [if_neg hk] at h
    have hk' := Bool.eq_false_iff.2 hk
    rcases hg : g.key u with _ | x
    · rw [hg] at h
      simp only at h
      rcases k : genTypes g u.localTypes st with _ | st1
      · rw [k] at h; cases h
      · rw [k] at h
        cases h
        obtain ⟨r, e⟩ := key _ k
        exact ⟨r, .inr ⟨hk', _, rfl, e⟩⟩
    · rw [hg] at h
      simp only at h
      split at h
      · cases h
      rcases k : genTypes g u.localTypes st with _ | st1
      · rw [k] at h; cases h
      · rw [k] at h
        cases h
        obtain ⟨r, e⟩ := key _ k
        exact ⟨r, .inr ⟨hk', _, rfl, e⟩⟩

/-- The driver on a list of units.  Each unit is given the names in its types that are not in earlier units. -/
theorem genUnits_ran {g : GenCfg} (hd : g.deep = true) {P : CTy → Prop} (hco : Coherent P) (us : List UnitD) (keys : List Str) (st : GenSt)
    (out : List OutUnit) (h : genUnits g us keys st = some out) (hP : ∀ u ∈ us, ∀ X ∈ visitsT u.localTypes, P X)
    (hs : st.stack = []) (ho : Ordered P st.done) :
    out.map (·.path) = (us.filter (fun u => !skipped u)).map (·.path) ∧
    Ordered P (st.done ++ out.flatMap (·.types)) ∧
    (∀ n, n ∈ st.done ++ out.flatMap (·.types) ↔ n ∈ st.done ∨ ∃ u ∈ us, ∃ X ∈ visitsT u.localTypes, X.customName = n) ∧
    ∀ l1 u l2, us = l1 ++ u :: l2 → skipped u = false → ∃ o1 o o2, out = o1 ++ o :: o2 ∧ o.path = u.path ∧
      o1.map (·.path) = (l1.filter (fun u => !skipped u)).map (·.path) ∧
      (∀ n, n ∈ o.types ↔ (∃ X ∈ visitsT u.localTypes, X.customName = n) ∧
        n ∉ st.done ∧ ∀ v ∈ l1, ∀ X ∈ visitsT v.localTypes, X.customName ≠ n) := by
  induction us generalizing keys st out with
  | nil =>
    unfold genUnits at h
    cases h
    refine ⟨rfl, by simpa using ho, by simp, ?_⟩
    intro l1 u l2 e
    simp at e
  | cons u r ih =>
    unfold genUnits at h
    rcases k : genUnit g u keys st with _ | ⟨keys', st', o⟩
    · rw [k] at h; cases h
    rw [k] at h
    simp only at h
    rcases k2 : genUnits g r keys' st' with _ | os
    · rw [k2] at h; cases h
    rw [k2] at h
    simp only [Option.some.injEq] at h
    subst h
    obtain ⟨ran, hcase⟩ := genUnit_ran hd hco k (hP u (by simp)) hs ho
    obtain ⟨i1, i2, i3, i4⟩ := ih keys' st' os k2 (fun v hv => hP v (by simp [hv])) (by rw [ran.stack, hs]) ran.ordered
    have hdone : st'.done = st.done ++ o.toList.flatMap (·.types) := by
      rcases hcase with ⟨-, rfl, rfl⟩ | ⟨-, ns, rfl, e⟩
      · simp
      · simpa using e
    have hall : st.done ++ (o.toList ++ os).flatMap (·.types) = st'.done ++ os.flatMap (·.types) := by
      rw [List.flatMap_append, ← List.append_assoc, ← hdone]
    have hp : (o.toList).map (·.path) = ([u].filter (fun u => !skipped u)).map (·.path) := by
      rcases hcase with ⟨hk, rfl, rfl⟩ | ⟨hk, ns, rfl, e⟩
      · simp [hk]
      · simp [hk]
    refine ⟨?_, ?_, ?_, ?_⟩
    · rw [List.map_append, hp, i1, ← List.map_append, ← List.filter_append, List.singleton_append]
    · rw [hall]; exact i2
    · intro n
      rw [hall, i3, ran.mem]
      constructor
      · rintro ((hn | hn) | ⟨v, hv, X, hX, e⟩)
        · exact .inl hn
        · obtain ⟨X, hX, e⟩ := List.mem_map.1 hn
          exact .inr ⟨u, by simp, X, hX, e⟩
        · exact .inr ⟨v, by simp [hv], X, hX, e⟩
      · rintro (hn | ⟨v, hv, X, hX, e⟩)
        · exact .inl (.inl hn)
        · rcases List.mem_cons.1 hv with rfl | hv
          · exact .inl (.inr (List.mem_map.2 ⟨X, hX, e⟩))
          · exact .inr ⟨v, hv, X, hX, e⟩
    · intro l1 v l2 e hv
      rcases l1 with _ | ⟨w, l1⟩
      · simp only [List.nil_append, List.cons.injEq] at e
        obtain ⟨rfl, rfl⟩ := e
        rcases hcase with ⟨hk, -, -⟩ | ⟨-, ns, rfl, e⟩
        · rw [hk] at hv; cases hv
        · refine ⟨[], ⟨u.path, ns, g.files u ns⟩, os, by simp, rfl, by simp, ?_⟩
          intro n
          have hm := ran.mem n
          have hnd := ran.ordered.nodup
          rw [e] at hm hnd
          rw [List.nodup_append] at hnd
          rw [List.mem_append] at hm
          simp only
          constructor
          · intro hn
            have hnd' : n ∉ st.done := fun h => hnd.2.2 n h n hn rfl
            refine ⟨?_, hnd', by simp⟩
            rcases hm.1 (.inr hn) with h | h
            · exact absurd h hnd'
            · obtain ⟨X, hX, e⟩ := List.mem_map.1 h
              exact ⟨X, hX, e⟩
          · rintro ⟨⟨X, hX, e⟩, hn, -⟩
            rcases hm.2 (.inr (List.mem_map.2 ⟨X, hX, e⟩)) with h | h
            · exact absurd h hn
            · exact h
      · simp only [List.cons_append, List.cons.injEq] at e
        obtain ⟨rfl, rfl⟩ := e
        obtain ⟨o1, x, o2, j1, j2, j3, j4⟩ := i4 l1 v l2 rfl hv
        refine ⟨o.toList ++ o1, x, o2, by rw [j1, List.append_assoc], j2, ?_, ?_⟩
        · rw [List.map_append, hp, j3, ← List.map_append, ← List.filter_append, List.singleton_append]
        · intro n
          rw [j4, ran.mem]
          constructor
          · rintro ⟨h1, h2, h3⟩
            refine ⟨h1, fun h => h2 (.inl h), ?_⟩
            intro w hw X hX e
            rcases List.mem_cons.1 hw with rfl | hw
            · exact h2 (.inr (List.mem_map.2 ⟨X, hX, e⟩))
            · exact h3 w hw X hX e
          · rintro ⟨h1, h2, h3⟩
            refine ⟨h1, ?_, fun w hw X hX => h3 w (by simp [hw]) X hX⟩
            rintro (h | h)
            · exact h2 h
            · obtain ⟨X, hX, e⟩ := List.mem_map.1 h
              exact h3 u (by simp) X hX e

end Bubbler.Gen
