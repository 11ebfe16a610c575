import Verif.Gen.OccTop
import Verif.Props.DeclProps

/-
The types of a whole project: a name stands for one type, also across files.
-/
namespace Bubbler.Gen
open Comp

variable {fs : FS}

/-- A type in the tables of `u` is known in the file in which its name is written. -/
def Owned (fs : FS) (u : UnitD) : Prop :=
  ∀ X ∈ visitsT u.globalTypes, ∀ d, (X.customName, d) ∈ u.globalNames → ∃ w, Compiled fs d.pos.file w ∧ X ∈ visitsT w.globalTypes

/-- What the definitions of a file add -/
structure FileInv (fs : FS) (p : Str) (u : UnitD) : Prop where
  inv : UInv u
  owned : Owned fs u
  /-- What the file itself declares -/
  decls : ∀ f, fs p = .parsed f → (declared f).Nodup ∧
    (∀ n ∈ declared f, ∃ X ∈ visitsT u.localTypes, X.customName = n) ∧
    (∀ n ∈ declared f, ∃ d, (n, d) ∈ u.globalNames ∧ d.pos.file = p) ∧
    (∀ X ∈ visitsT u.localTypes, X.customName ∈ declared f ∨
      ∃ q o, Below fs p q ∧ Compiled fs q o ∧ X ∈ visitsT o.localTypes)

theorem locals_global {p : Str} {u : UnitD} (h : Compiled fs p u) : ∀ X ∈ visitsT u.localTypes, X ∈ visitsT u.globalTypes := by
  intro X hX
  obtain ⟨e, he, h1⟩ := List.mem_flatMap.1 hX
  exact visitsT_mem ((h.full.good.locTypes e).1 he).1 h1

theorem keyed_unique {u : UnitD} (h : (u.globalNames.map (·.1)).Nodup) {n : Str} {d d' : NameDef} (h1 : (n, d) ∈ u.globalNames)
    (h2 : (n, d') ∈ u.globalNames) : d = d' := by
  have a := (aget_some_iff h).2 h1
  have b := (aget_some_iff h).2 h2
  rw [a] at b
  cases b
  rfl

/-- Before the definitions of a file are visited -/
theorem FileInv.start {p : Str} {u u1 : UnitD} (_h : Compiled fs p u)
    (ih : ∀ q, Below fs p q → ∀ o, Compiled fs q o → FileInv fs q o)
    (h5 : ∀ e ∈ u1.globalTypes, ∃ o, Compiled fs e.2.pos.file o ∧ e ∈ o.localTypes ∧ Below fs p e.2.pos.file)
    (h6 : ∀ e ∈ u1.globalNames, ∃ o, Compiled fs e.2.pos.file o ∧ e ∈ o.localNames ∧ Below fs p e.2.pos.file)
    (h8 : ∀ q o, Below fs p q → Compiled fs q o → ∀ e ∈ o.globalNames, e ∈ u1.globalNames) (g : Good u1) : UInv u1 := by
  have up : ∀ X ∈ visitsT u1.globalTypes, ∃ q o, Below fs p q ∧ Compiled fs q o ∧ X ∈ visitsT o.localTypes := by
    intro X hX
    obtain ⟨e, he, hX⟩ := List.mem_flatMap.1 hX
    obtain ⟨o, k1, k2, k3⟩ := h5 e he
    exact ⟨_, o, k3, k1, visitsT_mem k2 hX⟩
  have own1 : Owned fs u1 := by
    intro X hX d hd
    obtain ⟨q, o, k1, k2, k3⟩ := up X hX
    have fi := ih q k1 o k2
    have hb := fi.inv.bound X (locals_global k2 X k3)
    obtain ⟨⟨n, d'⟩, he, e⟩ := List.mem_map.1 hb
    simp only at e
    subst e
    have := keyed_unique g.keyed.names hd (h8 q o k1 k2 _ he)
    subst this
    exact fi.owned X (locals_global k2 X k3) d he
  refine ⟨?_, ?_, ?_⟩
  · intro X hX
    obtain ⟨q, o, k1, k2, k3⟩ := up X hX
    obtain ⟨e, he, h⟩ := List.mem_map.1 ((ih q k1 o k2).inv.bound X (locals_global k2 X k3))
    rw [← h]
    exact mem_keys (h8 q o k1 k2 e he)
  · intro X hX
    obtain ⟨q, o, k1, k2, k3⟩ := up X hX
    exact (ih q k1 o k2).inv.flat X (locals_global k2 X k3)
  · intro X Y hX hY e
    obtain ⟨q, o, k1, k2, k3⟩ := up X hX
    obtain ⟨⟨n, d⟩, he, h⟩ := List.mem_map.1 ((ih q k1 o k2).inv.bound X (locals_global k2 X k3))
    simp only at h
    subst h
    have hd := h8 q o k1 k2 _ he
    obtain ⟨w, hw, hX'⟩ := own1 X hX d hd
    obtain ⟨w', hw', hY'⟩ := own1 Y hY d (by rw [← e]; exact hd)
    have := hw.det hw'
    subst this
    obtain ⟨_, -, -, hb⟩ := h6 _ hd
    exact (ih _ hb w hw).inv.same X Y hX' hY' e

theorem FileInv.make (hpos : ∀ q g, fs q = .parsed g → (places g).Nodup) {p : Str} {u : UnitD} (h : Compiled fs p u)
    (ih : ∀ q, Below fs p q → ∀ o, Compiled fs q o → FileInv fs q o) : FileInv fs p u := by
  have hnb := h.not_below
  obtain ⟨f, u1, h1, g, h3, h4, h5, h6, h7, h8⟩ := h.defs_full
  have up : ∀ X ∈ visitsT u1.globalTypes, ∃ q o, Below fs p q ∧ Compiled fs q o ∧ X ∈ visitsT o.localTypes := by
    intro X hX
    obtain ⟨e, he, hX⟩ := List.mem_flatMap.1 hX
    obtain ⟨o, k1, k2, k3⟩ := h5 e he
    exact ⟨_, o, k3, k1, visitsT_mem k2 hX⟩
  have own1 : Owned fs u1 := by
    intro X hX d hd
    obtain ⟨q, o, k1, k2, k3⟩ := up X hX
    have fi := ih q k1 o k2
    have hb := fi.inv.bound X (locals_global k2 X k3)
    obtain ⟨⟨n, d'⟩, he, e⟩ := List.mem_map.1 hb
    simp only at e
    subst e
    have := keyed_unique g.keyed.names hd (h8 q o k1 k2 _ he)
    subst this
    exact fi.owned X (locals_global k2 X k3) d he
  have hu1 : UInv u1 := FileInv.start h ih h5 h6 h8 g
  have hc : Clean u1 (places f) := by
    intro e he p' _ e2
    obtain ⟨_, -, -, hb⟩ := h6 _ he
    rw [e2, h3] at hb
    exact hnb hb
  obtain ⟨hu, L, e1, e2, k⟩ := Defs.news h4 g hu1 hc (hpos p f h1)
  rw [h7, List.nil_append] at e1
  have entry : ∀ n ∈ declared f, ∃ d, (n, d) ∈ u.globalNames ∧ d.pos.file = p := by
    intro n hn
    obtain ⟨⟨n', d⟩, he, e⟩ := List.mem_map.1 (k.bound n hn)
    simp only at e
    subst e
    refine ⟨d, he, ?_⟩
    rcases k.adds _ he with h | ⟨p', -, h⟩
    · exact absurd (mem_keys h) (k.fresh _ hn)
    · simp only at h
      rw [h, h3]
  refine ⟨hu, ?_, ?_⟩
  · intro X hX d hd
    rw [e2, visitsT_append] at hX
    have old : X ∈ visitsT u1.globalTypes → ∃ w, Compiled fs d.pos.file w ∧ X ∈ visitsT w.globalTypes := by
      intro hX
      refine own1 X hX d ?_
      obtain ⟨⟨n, d'⟩, he, h'⟩ := List.mem_map.1 (hu1.bound X hX)
      simp only at h'
      subst h'
      have := keyed_unique h.full.good.keyed.names hd (k.grow _ he)
      subst this
      exact he
    rcases List.mem_append.1 hX with hX' | hX'
    · exact old hX'
    · rcases k.old X hX' with hX' | hX'
      · exact old hX'
      · obtain ⟨d', hd', hf⟩ := entry _ hX'
        have := keyed_unique h.full.good.keyed.names hd hd'
        subst this
        rw [hf]
        refine ⟨u, h, ?_⟩
        rw [e2, visitsT_append]
        exact hX
  · intro f' hf'
    rw [h1] at hf'
    cases hf'
    refine ⟨k.nodup, ?_, entry, ?_⟩
    · rw [e1]; exact k.made
    · intro X hX
      rw [e1] at hX
      rcases k.old X hX with h | h
      · exact .inr (up X h)
      · exact .inl h

theorem Compiled.fileInv (hpos : ∀ q g, fs q = .parsed g → (places g).Nodup) {p : Str} {u : UnitD} (h : Compiled fs p u) : FileInv fs p u := by
  have key : ∀ p, _root_.Acc (fun q r => Imports fs r q) p → ∀ q, Reach fs p q → ∀ o, Compiled fs q o → FileInv fs q o := by
    intro p hacc
    induction hacc with
    | intro p _ ih =>
      intro q hr o ho
      rcases hr.cases_head with rfl | ⟨r, hr, hq⟩
      · exact FileInv.make hpos ho (fun q' ⟨r, hr, hq⟩ o' ho' => ih r hr q' hq o' ho')
      · exact ih r hr q hq o ho
  exact key p h.acc p .refl u h

end Bubbler.Gen
