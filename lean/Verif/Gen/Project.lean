import Verif.Gen.OccFile

/-
An accepted project: its units in order and the types they declare.
-/
namespace Bubbler.Gen
open Comp

variable {fs : FS}

theorem map_nodup_unique {α β : Type} {f : α → β} {l : List α} (h : (l.map f).Nodup) {a b : α} (ha : a ∈ l) (hb : b ∈ l) (e : f a = f b) : a = b := by
  induction l with
  | nil => cases ha
  | cons x r ih =>
    rw [List.map_cons, List.nodup_cons] at h
    rcases List.mem_cons.1 ha with rfl | ha' <;> rcases List.mem_cons.1 hb with rfl | hb'
    · rfl
    · exact absurd (List.mem_map.2 ⟨b, hb', e.symm⟩) h.1
    · exact absurd (List.mem_map.2 ⟨a, ha', e⟩) h.1
    · exact ih h.2 ha' hb'

/-- What `C30_units` says of the result of the compiler, and that nothing is written twice at the same place -/
structure Project (fs : FS) (us : List UnitD) (u : UnitD) : Prop where
  last : u ∈ us
  nodup : (us.map (·.path)).Nodup
  reach : ∀ q, q ∈ us.map (·.path) ↔ Reach fs u.path q
  topo : ∀ l1 v l2, us = l1 ++ v :: l2 → ∀ q, Imports fs v.path q → q ∈ l1.map (·.path)
  comp : ∀ v ∈ us, Compiled fs v.path v
  pos : ∀ q g, fs q = .parsed g → (places g).Nodup

theorem Project.of {abs : Str → Option Str} {n : Nat} {file : Str} {us : List UnitD} {u : UnitD}
    (h : compileFile fs abs n file = some (us, .ok (some u))) (hpos : ∀ q g, fs q = .parsed g → (places g).Nodup) : Project fs us u := by
  obtain ⟨entry, -, rfl, hlast, hnd, hreach, htopo, hcomp⟩ := C30_units fs abs n file us u h
  exact ⟨List.mem_of_getLast? hlast, hnd, hreach, htopo, hcomp, hpos⟩

namespace Project
variable {us : List UnitD} {u : UnitD}

theorem fileInv (P : Project fs us u) {v : UnitD} (hv : v ∈ us) : FileInv fs v.path v := Compiled.fileInv P.pos (P.comp v hv)

theorem parsed (P : Project fs us u) {v : UnitD} (hv : v ∈ us) : ∃ f, fs v.path = .parsed f := by
  obtain ⟨f, -, hf, -⟩ := (P.comp v hv).defs
  exact ⟨f, hf⟩

theorem reach_of (P : Project fs us u) {v : UnitD} (hv : v ∈ us) : Reach fs u.path v.path := (P.reach _).1 (List.mem_map.2 ⟨v, hv, rfl⟩)

theorem unique (P : Project fs us u) {v w : UnitD} (hv : v ∈ us) (hw : w ∈ us) (e : v.path = w.path) : v = w :=
  map_nodup_unique P.nodup hv hw e

theorem unit_of (P : Project fs us u) {q : Str} {o : UnitD} (h : Reach fs u.path q) (ho : Compiled fs q o) : o ∈ us ∧ o.path = q := by
  obtain ⟨w, hw, e⟩ := List.mem_map.1 ((P.reach q).2 h)
  have hc := P.comp w hw
  rw [e] at hc
  have := hc.det ho
  subst this
  exact ⟨hw, e⟩

/-- The types and names of all units are in the tables of the last one. -/
theorem types_sub (P : Project fs us u) {v : UnitD} (hv : v ∈ us) : ∀ e ∈ v.localTypes, e ∈ u.globalTypes := by
  intro e he
  exact ((C33_tables fs u.path u (P.comp u P.last)).2.2.1 e.1 e.2).2 ⟨v.path, v, P.reach_of hv, P.comp v hv, he⟩

theorem names_sub (P : Project fs us u) {v : UnitD} (hv : v ∈ us) : ∀ e ∈ v.globalNames, e ∈ u.globalNames := by
  intro y hy
  obtain ⟨q, z, k1, k2, k3⟩ := ((C33_tables fs v.path v (P.comp v hv)).2.2.2.1 y.1 y.2).1 hy
  exact ((C33_tables fs u.path u (P.comp u P.last)).2.2.2.1 y.1 y.2).2 ⟨q, z, (P.reach_of hv).trans k1, k2, k3⟩

theorem visits_sub (P : Project fs us u) {v : UnitD} (hv : v ∈ us) : ∀ X ∈ visitsT v.localTypes, X ∈ visitsT u.globalTypes := by
  intro X hX
  obtain ⟨e, he, hX⟩ := List.mem_flatMap.1 hX
  exact visitsT_mem (P.types_sub hv e he) hX

theorem same (P : Project fs us u) : Coherent (· ∈ visitsT u.globalTypes) := (P.fileInv P.last).inv.same

/-- What a file needs comes before it. -/
theorem before (P : Project fs us u) {l1 l2 : List UnitD} {v : UnitD} (e : us = l1 ++ v :: l2) {q : Str} (hb : Below fs v.path q) :
    q ∈ l1.map (·.path) := by
  obtain ⟨r, hr, hq⟩ := hb
  have h0 := P.topo l1 v l2 e r hr
  induction hq with
  | refl => exact h0
  | step _ i ih =>
    obtain ⟨w, hw, rfl⟩ := List.mem_map.1 ih
    obtain ⟨a, b, hab⟩ := List.append_of_mem hw
    have := P.topo a w (b ++ v :: l2) (by rw [e, hab]; simp) _ i
    rw [hab, List.map_append]
    exact List.mem_append_left _ this

/-- A name a file declares is bound to a place in this file in every table of the project. -/
theorem declared_entry (P : Project fs us u) {v : UnitD} (hv : v ∈ us) {f : FileA} (hf : fs v.path = .parsed f) {n : Str} (hn : n ∈ declared f)
    {w : UnitD} (hw : w ∈ us) {d : NameDef} (hd : (n, d) ∈ w.globalNames) : d.pos.file = v.path := by
  obtain ⟨d', h1, h2⟩ := ((P.fileInv hv).decls f hf).2.2.1 n hn
  have := keyed_unique (C33_tables fs u.path u (P.comp u P.last)).2.1 (P.names_sub hw _ hd) (P.names_sub hv _ h1)
  rw [this, h2]

/-- A file declares exactly the types in its definitions that no earlier file has. -/
theorem declared_iff (P : Project fs us u) {l1 l2 : List UnitD} {v : UnitD} (hl : us = l1 ++ v :: l2) {f : FileA} (hf : fs v.path = .parsed f)
    (m : Str) : m ∈ declared f ↔ (∃ X ∈ visitsT v.localTypes, X.customName = m) ∧ ∀ w ∈ l1, ∀ X ∈ visitsT w.localTypes, X.customName ≠ m := by
  have hv : v ∈ us := by rw [hl]; simp
  obtain ⟨-, d2, d3, d4⟩ := (P.fileInv hv).decls f hf
  constructor
  · intro hm
    refine ⟨d2 m hm, ?_⟩
    intro w hw X hX e'
    have hwu : w ∈ us := by rw [hl]; exact List.mem_append_left _ hw
    have hcw := P.comp w hwu
    obtain ⟨⟨m', d⟩, hmd, e''⟩ := List.mem_map.1 ((P.fileInv hwu).inv.bound X (locals_global hcw X hX))
    simp only at e''
    rw [e'] at e''
    subst e''
    have hd2 := P.declared_entry hv hf hm hwu hmd
    obtain ⟨-, -, -, hr⟩ := hcw.full.names _ hmd
    simp only [hd2] at hr
    obtain ⟨a, b, hab⟩ := List.append_of_mem hw
    have nd := P.nodup
    rw [hl, List.map_append, List.map_cons, List.nodup_append] at nd
    rcases hr.cases_head with heq | hr
    · exact nd.2.2 w.path (List.mem_map.2 ⟨w, hw, rfl⟩) v.path (by simp) heq
    · have := P.before (l1 := a) (v := w) (l2 := b ++ v :: l2) (by rw [hl, hab]; simp) hr
      refine nd.2.2 v.path ?_ v.path (by simp) rfl
      rw [hab, List.map_append]
      exact List.mem_append_left _ this
  · rintro ⟨⟨X, hX, rfl⟩, hno⟩
    rcases d4 X hX with h1 | ⟨q, w, h1, h2, h3⟩
    · exact h1
    · obtain ⟨w', hw', e'⟩ := List.mem_map.1 (P.before hl h1)
      have hw'' := P.comp w' (by rw [hl]; exact List.mem_append_left _ hw')
      rw [e'] at hw''
      have := hw''.det h2
      subst this
      exact absurd rfl (hno w' hw' X h3)

end Project

/-- A type in the tables of a file is declared in this file or in one it imports, directly or not. -/
theorem declared_somewhere (hpos : ∀ q g, fs q = .parsed g → (places g).Nodup) {p : Str} {u : UnitD} (h : Compiled fs p u) :
    ∀ X ∈ visitsT u.localTypes, ∃ q g, Reach fs p q ∧ fs q = .parsed g ∧ X.customName ∈ declared g := by
  have key : ∀ p, _root_.Acc (fun q r => Imports fs r q) p → ∀ q, Reach fs p q → ∀ o, Compiled fs q o →
      ∀ X ∈ visitsT o.localTypes, ∃ r g, Reach fs q r ∧ fs r = .parsed g ∧ X.customName ∈ declared g := by
    intro p hacc
    induction hacc with
    | intro p _ ih =>
      intro q hr o ho X hX
      rcases hr.cases_head with rfl | ⟨r, hr, hq⟩
      · obtain ⟨f, -, hf, -⟩ := ho.defs
        rcases ((Compiled.fileInv hpos ho).decls f hf).2.2.2 X hX with h1 | ⟨q', o', ⟨r, h1, h2⟩, h3, h4⟩
        · exact ⟨_, f, .refl, hf, h1⟩
        · obtain ⟨r', g, k1, k2, k3⟩ := ih r h1 q' h2 o' h3 X h4
          exact ⟨r', g, Reach.head h1 (h2.trans k1), k2, k3⟩
      · exact ih r hr q hq o ho X hX
  exact key p h.acc p .refl u h

end Bubbler.Gen
