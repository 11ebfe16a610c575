import Verif.Gen.Quiet
import Verif.Gen.Spec
import Verif.Gen.DriverProofs
import Verif.Compiler.Embed

/-
What visiting a definition does to the types that occur in the tables of a unit: a name stands for one type.
-/
namespace Bubbler.Gen
open Comp

def keys (u : UnitD) : List Str := u.globalNames.map (·.1)

/-- The embedded fields of a finished struct belong to it. -/
def Flat (X : CTy) : Prop := ∀ f ∈ fieldsOf X, setBelongs f = f

/-- The types in the tables: each under a visible name, a name for one type -/
structure UInv (u : UnitD) : Prop where
  bound : ∀ X ∈ visitsT u.globalTypes, X.customName ∈ keys u
  flat : ∀ X ∈ visitsT u.globalTypes, Flat X
  same : Coherent (· ∈ visitsT u.globalTypes)

/-- None of the places `P` of this file is known yet. -/
def Clean (u : UnitD) (P : List (Nat × Nat)) : Prop := ∀ e ∈ u.globalNames, ∀ p ∈ P, e.2.pos ≠ ⟨u.path, p.1, p.2⟩

/-- From `u` to `u'` names at the places `P` were registered, among them the new names `ds`; the types `vs` were made, of types in
`u` and of new ones, called `ds`. -/
structure New (u u' : UnitD) (P : List (Nat × Nat)) (ds : List Str) (vs : List CTy) : Prop where
  path : u'.path = u.path
  grow : ∀ e ∈ u.globalNames, e ∈ u'.globalNames
  adds : ∀ e ∈ u'.globalNames, e ∈ u.globalNames ∨ ∃ p ∈ P, e.2.pos = ⟨u.path, p.1, p.2⟩
  old : ∀ X ∈ vs, X ∈ visitsT u.globalTypes ∨ X.customName ∈ ds
  made : ∀ n ∈ ds, ∃ X ∈ vs, X.customName = n
  fresh : ∀ n ∈ ds, n ∉ keys u
  bound : ∀ n ∈ ds, n ∈ keys u'
  same : ∀ X ∈ vs, ∀ Y ∈ vs, X.customName = Y.customName → X = Y
  nodup : ds.Nodup
  flat : ∀ X ∈ vs, Flat X

theorem mem_keys {u : UnitD} {e : Str × NameDef} (h : e ∈ u.globalNames) : e.1 ∈ keys u := List.mem_map.2 ⟨e, h, rfl⟩

theorem New.keep {u u' : UnitD} {P : List (Nat × Nat)} {ds : List Str} {vs : List CTy} (h : New u u' P ds vs) {n : Str}
    (hn : n ∈ keys u) : n ∈ keys u' := by
  obtain ⟨e, he, rfl⟩ := List.mem_map.1 hn
  exact mem_keys (h.grow e he)

theorem UInv.step {u u' : UnitD} (h : UInv u) (s : Step u u') : UInv u' := by
  refine ⟨?_, ?_, ?_⟩
  · rw [s.globalTypes]
    intro X hX
    obtain ⟨e, he, h2⟩ := List.mem_map.1 (h.bound X hX)
    obtain ⟨x, hx, -⟩ := s.globalNames
    rw [← h2]
    exact mem_keys (by rw [hx]; exact List.mem_append_left _ he)
  · rw [s.globalTypes]; exact h.flat
  · rw [s.globalTypes]; exact h.same

/-- Nothing new -/
theorem New.quiet {u u' : UnitD} (s : Step u u') (q : SameNames u u') : New u u' [] [] [] := by
  unfold SameNames at q
  exact ⟨s.path, fun e h => by rw [q]; exact h, fun e h => by rw [q] at h; exact .inl h, by simp, by simp, by simp, by simp,
    by simp, by simp, by simp⟩

/-- Only old types -/
theorem New.olds {u u' : UnitD} (hu : UInv u) (s : Step u u') (q : SameNames u u') {vs : List CTy} (h : ∀ X ∈ vs, X ∈ visitsT u.globalTypes) :
    New u u' [] [] vs := by
  unfold SameNames at q
  exact ⟨s.path, fun e h => by rw [q]; exact h, fun e h => by rw [q] at h; exact .inl h, fun X hX => .inl (h X hX), by simp, by simp, by simp,
    fun X hX Y hY => hu.same X Y (h X hX) (h Y hY), by simp, fun X hX => hu.flat X (h X hX)⟩

/-- One after the other.  Between them the types `v1` may be entered in the table. -/
theorem New.comp {u u1 u1' u2 : UnitD} {P1 P2 : List (Nat × Nat)} {d1 d2 : List Str} {v1 v2 : List CTy} (hu : UInv u)
    (h : New u u1 P1 d1 v1) (hn : u1'.globalNames = u1.globalNames) (hp : u1'.path = u1.path)
    (ht : ∀ X ∈ visitsT u1'.globalTypes, X ∈ visitsT u.globalTypes ∨ X ∈ v1) (k : New u1' u2 P2 d2 v2) :
    New u u2 (P1 ++ P2) (d1 ++ d2) (v1 ++ v2) := by
  have hk : keys u1' = keys u1 := by unfold keys; rw [hn]
  have k2 : ∀ X ∈ v2, X ∈ visitsT u.globalTypes ∨ X ∈ v1 ∨ X.customName ∈ d2 := by
    intro X hX
    rcases k.old X hX with h1 | h1
    · rcases ht X h1 with h1 | h1
      · exact .inl h1
      · exact .inr (.inl h1)
    · exact .inr (.inr h1)
  have dis : ∀ n ∈ d1, n ∉ d2 := by
    intro n h1 h2
    refine k.fresh n h2 ?_
    rw [hk]
    exact h.bound n h1
  have dis0 : ∀ X ∈ visitsT u.globalTypes, X.customName ∉ d2 := by
    intro X hX h2
    refine k.fresh _ h2 ?_
    rw [hk]
    exact h.keep (hu.bound X hX)
  -- a type of `v1` and an old type or type of `v1`
  have cross : ∀ X ∈ v1, ∀ Y, Y ∈ visitsT u.globalTypes → X.customName = Y.customName → X = Y := by
    intro X hX Y hY e
    rcases h.old X hX with h1 | h1
    · exact hu.same X Y h1 hY e
    · exact absurd (hu.bound Y hY) (by rw [← e]; exact h.fresh _ h1)
  have v1d : ∀ X ∈ v1, X.customName ∉ d2 := by
    intro X hX
    rcases h.old X hX with h1 | h1
    · exact dis0 X h1
    · exact dis _ h1
  refine ⟨(k.path.trans hp).trans h.path, ?_, ?_, ?_, ?_, ?_, ?_, ?_, ?_, ?_⟩
  · intro e he
    exact k.grow e (by rw [hn]; exact h.grow e he)
  · intro e he
    rcases k.adds e he with h1 | ⟨p, hp1, h1⟩
    · rw [hn] at h1
      rcases h.adds e h1 with h1 | ⟨p, hp1, h1⟩
      · exact .inl h1
      · exact .inr ⟨p, List.mem_append_left _ hp1, h1⟩
    · rw [hp, h.path] at h1
      exact .inr ⟨p, List.mem_append_right _ hp1, h1⟩
  · intro X hX
    rcases List.mem_append.1 hX with hX | hX
    · rcases h.old X hX with h1 | h1
      · exact .inl h1
      · exact .inr (List.mem_append_left _ h1)
    · rcases k2 X hX with h1 | h1 | h1
      · exact .inl h1
      · rcases h.old X h1 with h1 | h1
        · exact .inl h1
        · exact .inr (List.mem_append_left _ h1)
      · exact .inr (List.mem_append_right _ h1)
  · intro n hn
    rcases List.mem_append.1 hn with hn | hn
    · obtain ⟨X, hX, e⟩ := h.made n hn
      exact ⟨X, List.mem_append_left _ hX, e⟩
    · obtain ⟨X, hX, e⟩ := k.made n hn
      exact ⟨X, List.mem_append_right _ hX, e⟩
  · intro n hn
    rcases List.mem_append.1 hn with hn | hn
    · exact h.fresh n hn
    · intro hx
      refine k.fresh n hn ?_
      rw [hk]
      exact h.keep hx
  · intro n hn'
    rcases List.mem_append.1 hn' with h1 | h1
    · exact k.keep (by rw [hk]; exact h.bound n h1)
    · exact k.bound n h1
  · have one : ∀ X ∈ v1, ∀ Y ∈ v2, X.customName = Y.customName → X = Y := by
      intro X hX Y hY e
      rcases k2 Y hY with h1 | h1 | h1
      · exact cross X hX Y h1 e
      · exact h.same X hX Y h1 e
      · exact absurd h1 (by rw [← e]; exact v1d X hX)
    intro X hX Y hY e
    rcases List.mem_append.1 hX with hX | hX <;> rcases List.mem_append.1 hY with hY | hY
    · exact h.same X hX Y hY e
    · exact one X hX Y hY e
    · exact (one Y hY X hX e.symm).symm
    · exact k.same X hX Y hY e
  · rw [List.nodup_append]
    exact ⟨h.nodup, k.nodup, fun a ha b hb e => dis a ha (e ▸ hb)⟩
  · intro X hX
    rcases List.mem_append.1 hX with hX | hX
    · exact h.flat X hX
    · exact k.flat X hX

theorem New.trans {u u1 u2 : UnitD} {P1 P2 : List (Nat × Nat)} {d1 d2 : List Str} {v1 v2 : List CTy} (hu : UInv u) (s : Step u u1)
    (h : New u u1 P1 d1 v1) (k : New u1 u2 P2 d2 v2) : New u u2 (P1 ++ P2) (d1 ++ d2) (v1 ++ v2) :=
  h.comp hu rfl rfl (fun X hX => by rw [s.globalTypes] at hX; exact .inl hX) k

theorem Clean.next {u u1 : UnitD} {P Q : List (Nat × Nat)} {ds : List Str} {vs : List CTy} (h : New u u1 P ds vs)
    (hc : Clean u (P ++ Q)) (hn : (P ++ Q).Nodup) : Clean u1 Q := by
  intro e he p hp
  rw [h.path]
  rcases h.adds e he with h1 | ⟨q, hq, h1⟩
  · exact hc e h1 p (List.mem_append_right _ hp)
  · rw [h1]
    intro e2
    rw [List.nodup_append] at hn
    simp only [Pos.mk.injEq, true_and] at e2
    exact hn.2.2 q hq p hp (Prod.ext e2.1 e2.2)

theorem Clean.left {u : UnitD} {P Q : List (Nat × Nat)} (h : Clean u (P ++ Q)) : Clean u P :=
  fun e he p hp => h e he p (List.mem_append_left _ hp)

theorem Clean.quiet {u u1 : UnitD} {P : List (Nat × Nat)} (s : Step u u1) (q : SameNames u u1) (h : Clean u P) : Clean u1 P := by
  unfold SameNames at q
  intro e he p hp
  rw [q] at he
  rw [s.path]
  exact h e he p hp

theorem nodup_left {α : Type} {a b : List α} (h : (a ++ b).Nodup) : a.Nodup := (List.nodup_append.1 h).1
theorem nodup_right {α : Type} {a b : List α} (h : (a ++ b).Nodup) : b.Nodup := (List.nodup_append.1 h).2.1

/-! ### Fields -/

theorem visitsF_append (a b : List FieldD) : visitsF (a ++ b) = visitsF a ++ visitsF b := by
  induction a with
  | nil => rfl
  | cons f r ih => cases f <;> simp [visitsF, ih]

theorem visitsF_belongs (fs : List FieldD) : visitsF (fs.map setBelongs) = visitsF fs := by
  induction fs with
  | nil => rfl
  | cons f r ih => cases f <;> simp [visitsF, setBelongs, ih]

theorem expandAll_flat {s : StructD} (h : Flat (.struct s)) : expandAll s.fields = s.fields := by
  have e : s.fields.map setBelongs = s.fields := by
    conv => rhs; rw [← List.map_id s.fields]
    exact List.map_congr_left h
  have := expandAll_belongs s.fields
  rwa [e] at this

theorem visitsT_mem {ts : List (Str × TypeDef)} {e : Str × TypeDef} (he : e ∈ ts) {X : CTy} (hX : X ∈ visits e.2.ty) : X ∈ visitsT ts :=
  List.mem_flatMap.2 ⟨e, he, hX⟩

theorem visitsT_trans {ts : List (Str × TypeDef)} {X : CTy} (hX : X ∈ visitsT ts) : ∀ Y ∈ visits X, Y ∈ visitsT ts := by
  intro Y hY
  obtain ⟨e, he, h⟩ := List.mem_flatMap.1 hX
  exact visitsT_mem he (visits_trans _ _ h Y hY)

/-- A type found in the table -/
theorem lookup_olds {n : Str} {u : UnitD} {d : TypeDef} (h : aget u.globalTypes n = some d) : ∀ X ∈ visits d.ty, X ∈ visitsT u.globalTypes :=
  fun _ hX => visitsT_mem (aget_mem h) hX

theorem addLocalName_new {n : Str} {l c : Nat} {o : Option Int} {u u' : UnitD} (h : addLocalName n ⟨⟨u.path, l, c⟩, o⟩ u = (.ok (), u'))
    (hc : Clean u [(l, c)]) : n ∉ keys u ∧ n ∈ keys u' ∧ New u u' [(l, c)] [] [] := by
  unfold addLocalName UnitD.addLocalName at h
  cases hcf : u.conflicts n ⟨u.path, l, c⟩ <;> simp only [hcf, Bool.false_eq_true, if_true, if_false, Prod.mk.injEq, reduceCtorEq, false_and,
    true_and] at h
  subst h
  have hfresh : n ∉ keys u := by
    intro hn
    rcases ha : aget u.globalNames n with _ | d
    · exact aget_none_iff.1 ha hn
    · exact hc _ (aget_mem ha) (l, c) (by simp) (conflicts_iff.1 hcf d ha)
  refine ⟨hfresh, ?_, rfl, ?_, ?_, by simp, by simp, by simp, by simp, by simp, by simp, by simp⟩
  · unfold keys
    rw [aput_new _ _ _ hfresh]
    simp
  · exact fun e he => mem_aput he
  · intro e he
    rcases aput_mem he with he | ⟨rfl, -⟩
    · exact .inl he
    · exact .inr ⟨(l, c), by simp, rfl⟩

/-- The struct itself, after its fields -/
theorem New.struct {u u1 u2 : UnitD} {P1 P2 : List (Nat × Nat)} {ds : List Str} {n : Str} {s : StructD} (hu : UInv u) (st : Step u u1)
    (hn : s.name = n) (h1 : n ∉ keys u) (h2 : n ∈ keys u1) (h : New u u1 P1 [] []) (k : New u1 u2 P2 ds (visitsF s.fields)) (hf : Flat (.struct s)) :
    New u u2 (P1 ++ P2) (ds ++ [n]) (visits (.struct s)) := by
  have c := h.trans hu st k
  rw [List.nil_append, List.nil_append] at c
  have hnd : n ∉ ds := fun hx => k.fresh n hx h2
  have no : ∀ X ∈ visitsF s.fields, X.customName ≠ n := by
    intro X hX e
    rcases c.old X hX with h3 | h3
    · exact h1 (e ▸ hu.bound X h3)
    · exact hnd (e ▸ h3)
  rw [visits_struct]
  refine ⟨c.path, c.grow, c.adds, ?_, ?_, ?_, ?_, ?_, nodup_snoc c.nodup hnd, ?_⟩
  · intro X hX
    rcases List.mem_append.1 hX with hX | hX
    · rcases c.old X hX with h3 | h3
      · exact .inl h3
      · exact .inr (List.mem_append_left _ h3)
    · rw [List.mem_singleton] at hX
      subst hX
      exact .inr (List.mem_append_right _ (by simp [CTy.customName, hn]))
  · intro m hm
    rcases List.mem_append.1 hm with hm | hm
    · obtain ⟨X, hX, e⟩ := c.made m hm
      exact ⟨X, List.mem_append_left _ hX, e⟩
    · rw [List.mem_singleton] at hm
      subst hm
      exact ⟨.struct s, List.mem_append_right _ (by simp), hn⟩
  · intro m hm
    rcases List.mem_append.1 hm with hm | hm
    · exact c.fresh m hm
    · rw [List.mem_singleton] at hm
      subst hm
      exact h1
  · intro m hm
    rcases List.mem_append.1 hm with hm | hm
    · exact c.bound m hm
    · rw [List.mem_singleton] at hm
      subst hm
      exact k.keep h2
  · intro X hX Y hY e
    rcases List.mem_append.1 hX with hX | hX <;> rcases List.mem_append.1 hY with hY | hY
    · exact c.same X hX Y hY e
    · rw [List.mem_singleton] at hY
      subst hY
      exact absurd (e.trans hn) (no X hX)
    · rw [List.mem_singleton] at hX
      subst hX
      exact absurd (e.symm.trans hn) (no Y hY)
    · rw [List.mem_singleton] at hX hY
      rw [hX, hY]
  · intro X hX
    rcases List.mem_append.1 hX with hX | hX
    · exact c.flat X hX
    · rw [List.mem_singleton] at hX
      subst hX
      exact hf

def _root_.Bubbler.Comp.StructA.inner : StructA → List Str
  | .mk _ _ _ _ b => b.decls

mutual
  theorem visitElem_new : ∀ (e : ElemA) (u u' : UnitD) (t : CTy), visitElem e u = (.ok t, u') → UInv u → Clean u e.places →
      e.places.Nodup → New u u' e.places e.decls (visits t)
    | .basic p, u, u', t, h, hu, hc, hn => by
      unfold visitElem at h
      obtain ⟨rfl, rfl⟩ := pure_ok.1 h
      exact New.quiet (Step.refl _) (SameNames.refl _)
    | .str, u, u', t, h, hu, hc, hn => by
      unfold visitElem at h
      obtain ⟨rfl, rfl⟩ := pure_ok.1 h
      exact New.quiet (Step.refl _) (SameNames.refl _)
    | .bytes, u, u', t, h, hu, hc, hn => by
      unfold visitElem at h
      obtain ⟨rfl, rfl⟩ := pure_ok.1 h
      exact New.quiet (Step.refl _) (SameNames.refl _)
    | .structName n, u, u', t, h, hu, hc, hn => by
      unfold visitElem at h
      obtain ⟨d, s, hd, hs, ht⟩ := lookupStruct_ok h
      refine New.olds hu ((steps_lookupStruct n).ok h) ((quiet_lookupStruct n).ok h) ?_
      rw [ht, ← hs]
      exact lookup_olds hd
    | .structDef d, u, u', t, h, hu, hc, hn => by
      unfold visitElem at h
      obtain ⟨s, u1, h1, h⟩ := bind_ok.1 h
      obtain ⟨rfl, rfl⟩ := pure_ok.1 h
      unfold ElemA.places at hc hn ⊢
      unfold ElemA.decls
      exact (visitStruct_new d u u1 s h1 hu hc hn).2
    | .enumName n, u, u', t, h, hu, hc, hn => by
      unfold visitElem at h
      obtain ⟨d, s, hd, hs, ht⟩ := lookupEnum_ok h
      refine New.olds hu ((steps_lookupEnum n).ok h) ((quiet_lookupEnum n).ok h) ?_
      rw [ht, ← hs]
      exact lookup_olds hd
    | .ident n, u, u', t, h, hu, hc, hn => by
      unfold visitElem at h
      refine New.olds hu ((steps_lookupType n).ok h) ((quiet_lookupType n).ok h) ?_
      obtain ⟨-, d, hd, rfl⟩ := lookupType_ok.1 h
      exact lookup_olds hd
  theorem visitType_new : ∀ (e : TypeA) (u u' : UnitD) (t : CTy), visitType e u = (.ok t, u') → UInv u → Clean u e.places →
      e.places.Nodup → New u u' e.places e.decls (visits t)
    | .elem e, u, u', t, h, hu, hc, hn => by
      unfold visitType at h
      unfold TypeA.places at hc hn ⊢
      unfold TypeA.decls
      exact visitElem_new e u u' t h hu hc hn
    | .array e len, u, u', t, h, hu, hc, hn => by
      unfold visitType at h
      unfold TypeA.places at hc hn ⊢
      unfold TypeA.decls
      obtain ⟨t', u1, h1, h⟩ := bind_ok.1 h
      obtain ⟨l, u2, h2, h⟩ := bind_ok.1 h
      have k := visitElem_new e u u1 t' h1 hu hc hn
      have s := (steps_visitElem e).ok h1
      split at h
      · exact absurd h (by simp [fail])
      · obtain ⟨rfl, rfl⟩ := pure_ok.1 h
        have := k.trans hu s (New.quiet ((steps_visitIntLit _).ok h2) ((quiet_visitIntLit _).ok h2))
        simpa [visits] using this
  theorem visitField_new : ∀ (f : FieldA) (u u' : UnitD) (o : Option FieldD), visitField f u = (.ok o, u') → UInv u → Clean u f.places →
      f.places.Nodup → New u u' f.places f.decls (visitsF (expandAll o.toList))
    | .empty, u, u', o, h, hu, hc, hn => by
      unfold visitField at h
      obtain ⟨rfl, rfl⟩ := pure_ok.1 h
      exact New.quiet (Step.refl _) (SameNames.refl _)
    | .void s os, u, u', o, h, hu, hc, hn => by
      have st := (steps_visitField _).ok h
      unfold visitField at h
      obtain ⟨sz, u1, h1, h⟩ := bind_ok.1 h
      obtain ⟨x, u2, h2, h⟩ := bind_ok.1 h
      obtain ⟨rfl, rfl⟩ := pure_ok.1 h
      exact New.quiet st (((quiet_visitSizeA _).ok h1).trans ((quiet_visitFieldOptions _ _).ok h2))
    | .const p n s v os, u, u', o, h, hu, hc, hn => by
      have st := (steps_visitField _).ok h
      unfold visitField at h
      obtain ⟨f, u1, h1, h⟩ := bind_ok.1 h
      obtain ⟨rfl, rfl⟩ := pure_ok.1 h
      have q := (quiet_visitConst _ _ _ _ _).ok h1
      have e : visitsF (expandAll (some f).toList) = [] := by
        unfold visitConst at h1
        obtain ⟨_, _, _, h1⟩ := bind_ok.1 h1
        obtain ⟨_, _, _, h1⟩ := bind_ok.1 h1
        obtain ⟨_, _, _, h1⟩ := bind_ok.1 h1
        obtain ⟨_, _, _, h1⟩ := bind_ok.1 h1
        split at h1
        · exact absurd h1 (by simp [fail])
        · obtain ⟨_, _, _, h1⟩ := bind_ok.1 h1
          obtain ⟨rfl, -⟩ := pure_ok.1 h1
          simp [expandAll, FieldD.expand, visitsF]
      rw [e]
      exact New.quiet st q
    | .embedded t os, u, u', o, h, hu, hc, hn => by
      unfold visitField at h
      obtain ⟨ty, u1, h1, h⟩ := bind_ok.1 h
      have s1 := (steps_visitType t).ok h1
      cases ty with
      | struct s =>
        simp only at h
        obtain ⟨x, u2, h2, h⟩ := bind_ok.1 h
        obtain ⟨rfl, rfl⟩ := pure_ok.1 h
        have q := New.quiet ((steps_visitFieldOptions _ _).ok h2) ((quiet_visitFieldOptions _ _).ok h2)
        have fin : ∀ {ds : List Str}, Flat (.struct s) → New u u1 t.places ds (visitsF s.fields) →
            New u u2 t.places ds (visitsF (expandAll (some (FieldD.embedded s false)).toList)) := by
          intro ds hf k
          have e : visitsF (expandAll (some (FieldD.embedded s false)).toList) = visitsF s.fields := by
            have ef := expandAll_flat hf
            obtain ⟨n, b, d, fs⟩ := s
            simp only [StructD.fields] at ef ⊢
            simp [expandAll, FieldD.expand, visitsF, ef]
          rw [e]
          have := k.trans hu s1 q
          simpa using this
        unfold FieldA.places at hc hn ⊢
        cases t with
        | array e len =>
          unfold visitType at h1
          obtain ⟨t', u3, -, h1⟩ := bind_ok.1 h1
          obtain ⟨l, u4, -, h1⟩ := bind_ok.1 h1
          split at h1
          · exact absurd h1 (by simp [fail])
          · obtain ⟨h1, -⟩ := pure_ok.1 h1
            cases h1
        | elem e =>
          cases e with
          | structDef d =>
            unfold visitType visitElem at h1
            obtain ⟨s', u3, h3, h1⟩ := bind_ok.1 h1
            obtain ⟨e1, rfl⟩ := pure_ok.1 h1
            cases e1
            unfold TypeA.places ElemA.places at hc hn
            obtain ⟨k1, k2⟩ := visitStruct_new d u u3 s h3 hu hc hn
            have hf := k2.flat (.struct s) (by rw [visits_struct]; simp)
            have := fin hf (ds := d.inner) (by unfold TypeA.places ElemA.places; exact k1)
            obtain ⟨_, _, _, _, _⟩ := d
            exact this
          | basic p =>
            unfold visitType visitElem at h1
            obtain ⟨e1, -⟩ := pure_ok.1 h1
            cases e1
          | str =>
            unfold visitType visitElem at h1
            obtain ⟨e1, -⟩ := pure_ok.1 h1
            cases e1
          | bytes =>
            unfold visitType visitElem at h1
            obtain ⟨e1, -⟩ := pure_ok.1 h1
            cases e1
          | structName n =>
            have k : visitElem (.structName n) u = (.ok (.struct s), u1) := h1
            have olds : ∀ X ∈ visits (.struct s), X ∈ visitsT u.globalTypes := by
              unfold visitElem at k
              obtain ⟨d, s', hd, hs, ht⟩ := lookupStruct_ok k
              rw [ht, ← hs]
              exact lookup_olds hd
            have hq : SameNames u u1 := by
              unfold visitElem at k
              exact (quiet_lookupStruct n).ok k
            exact fin (ds := []) (hu.flat _ (olds _ (by rw [visits_struct]; simp))) (New.olds hu s1 hq
              (fun X hX => olds X (by rw [visits_struct]; exact List.mem_append_left _ hX)))
          | enumName n =>
            have k : visitElem (.enumName n) u = (.ok (.struct s), u1) := h1
            unfold visitElem at k
            obtain ⟨d, s', hd, hs, ht⟩ := lookupEnum_ok k
            cases ht
          | ident n =>
            have k : visitElem (.ident n) u = (.ok (.struct s), u1) := h1
            have olds : ∀ X ∈ visits (.struct s), X ∈ visitsT u.globalTypes := by
              unfold visitElem at k
              obtain ⟨-, d, hd, hs⟩ := lookupType_ok.1 k
              rw [← hs]
              exact lookup_olds hd
            have hq : SameNames u u1 := by
              unfold visitElem at k
              exact (quiet_lookupType n).ok k
            exact fin (ds := []) (hu.flat _ (olds _ (by rw [visits_struct]; simp))) (New.olds hu s1 hq
              (fun X hX => olds X (by rw [visits_struct]; exact List.mem_append_left _ hX)))
      | basic p => exact absurd h (by simp [fail])
      | str => exact absurd h (by simp [fail])
      | bytes => exact absurd h (by simp [fail])
      | array e l => exact absurd h (by simp [fail])
      | enum e => exact absurd h (by simp [fail])
    | .normal t n s os ms, u, u', o, h, hu, hc, hn => by
      unfold visitField at h
      unfold FieldA.places at hc hn ⊢
      unfold FieldA.decls
      obtain ⟨ty, u1, h1, h⟩ := bind_ok.1 h
      obtain ⟨f, u2, h2, h⟩ := bind_ok.1 h
      obtain ⟨rfl, rfl⟩ := pure_ok.1 h
      have k := visitType_new t u u1 ty h1 hu hc hn
      have q := New.quiet ((steps_visitNormalRest _ _ _ _ _).ok h2) ((quiet_visitNormalRest _ _ _ _ _).ok h2)
      obtain ⟨_, _, _, _, _, _, _, _, _, _, rfl⟩ := visitNormalRest_ok.1 h2
      have := k.trans hu ((steps_visitType t).ok h1) q
      simpa [expandAll, FieldD.expand, visitsF] using this
  theorem visitBody_new : ∀ (b : BodyA) (u u' : UnitD) (fs : List FieldD), VisitAll b u fs u' → UInv u → Clean u b.places →
      b.places.Nodup → New u u' b.places b.decls (visitsF (expandAll fs))
    | .nil, u, u', fs, h, hu, hc, hn => by
      unfold VisitAll at h
      obtain ⟨rfl, rfl⟩ := h
      exact New.quiet (Step.refl _) (SameNames.refl _)
    | .cons f b, u, u', fs, h, hu, hc, hn => by
      unfold VisitAll at h
      obtain ⟨o, u1, h1, fs', rfl, h2⟩ := h
      unfold BodyA.places at hc hn ⊢
      unfold BodyA.decls
      have s := (steps_visitField f).ok h1
      have k1 := visitField_new f u u1 o h1 hu hc.left (nodup_left hn)
      have k2 := visitBody_new b u1 u' fs' h2 (hu.step s) (Clean.next k1 hc hn) (nodup_right hn)
      rw [expandAll_append, visitsF_append]
      exact k1.trans hu s k2
  theorem visitStruct_new : ∀ (d : StructA) (u u' : UnitD) (s : StructD), visitStruct d u = (.ok s, u') → UInv u → Clean u d.places →
      d.places.Nodup → New u u' d.places d.inner (visitsF s.fields) ∧ New u u' d.places d.decls (visits (.struct s))
    | .mk line col name size body, u, u', s, h, hu, hc, hn => by
      obtain ⟨u1, u2, u3, sz, fs, h1, h2, h3, h4, -, h6⟩ := visitStruct_ok.1 h
      obtain ⟨-, -, -, -, rfl, -⟩ := finishStruct_ok.1 h6
      unfold StructA.places at hc hn ⊢
      unfold StructA.decls StructA.inner
      have s1 := (steps_visitName _ _ _).ok h1
      have q1 : SameNames u u1 := (quiet_visitName _ _ _).ok h1
      have s2 : Step u1 u2 := by
        have := step_addLocalName u1 name ⟨⟨u1.path, line, col⟩, none⟩ rfl
        rw [h2] at this
        exact this
      have s3 := (steps_visitOptSize _).ok h3
      have q3 : SameNames u2 u3 := (quiet_visitOptSize _).ok h3
      have hc1 : Clean u1 ([(line, col)] ++ body.places) := Clean.quiet s1 q1 hc
      obtain ⟨f1, f2, f3⟩ := addLocalName_new h2 hc1.left
      have hc2 : Clean u2 body.places := Clean.next f3 hc1 hn
      have hc3 : Clean u3 body.places := Clean.quiet s3 q3 hc2
      have hu1 := hu.step s1
      have hu3 := (hu1.step s2).step s3
      have k := visitBody_new body u3 u' fs h4 hu3 hc3 (nodup_right (a := [(line, col)]) hn)
      have st := (s1.trans s2).trans s3
      have pre : New u u3 [(line, col)] [] [] := by
        have a := (New.quiet s1 q1).trans hu s1 f3
        have b := a.trans hu (s1.trans s2) (New.quiet s3 q3)
        simpa using b
      have e : visitsF ((expandAll fs).map setBelongs) = visitsF (expandAll fs) := visitsF_belongs _
      have k' : New u3 u' body.places body.decls (visitsF (StructD.mk name (sumBits ((expandAll fs).map setBelongs) 0)
          (anyDyn ((expandAll fs).map setBelongs)) ((expandAll fs).map setBelongs)).fields) := by
        simp only [StructD.fields]
        rw [e]
        exact k
      have n1 : name ∉ keys u := by
        have : keys u1 = keys u := by unfold keys; rw [q1]
        rw [← this]
        exact f1
      have n2 : name ∈ keys u3 := by
        have : keys u3 = keys u2 := by unfold keys; rw [q3]
        rw [this]
        exact f2
      refine ⟨?_, ?_⟩
      · have := pre.trans hu st k'
        simpa using this
      · refine New.struct (P1 := [(line, col)]) hu st rfl n1 n2 pre k' ?_
        intro f hf
        simp only [fieldsOf, StructD.fields] at hf
        obtain ⟨g, -, rfl⟩ := List.mem_map.1 hf
        cases g <;> rfl
end

end Bubbler.Gen
