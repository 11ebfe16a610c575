import Verif.Compiler.ValRefs
import Verif.Props.RuntimeProps

/-
C26: types are declared before they are used.

`TopA.refs` (Verif/Compiler/Refs.lean) are the type names written in a definition, with the keyword written before them.
-/
namespace Bubbler
open Comp

/-- The tables when the definitions of a file are visited, and after -/
theorem Comp.Compiled.defs_full {fs : FS} {p : Str} {u : UnitD} (h : Compiled fs p u) :
    ∃ f u1, fs p = .parsed f ∧ Good u1 ∧ u1.path = p ∧ Defs f.tops u1 u ∧
      (∀ e ∈ u1.globalTypes, ∃ o, Compiled fs e.2.pos.file o ∧ e ∈ o.localTypes ∧ Below fs p e.2.pos.file) ∧
      (∀ e ∈ u1.globalNames, ∃ o, Compiled fs e.2.pos.file o ∧ e ∈ o.localNames ∧ Below fs p e.2.pos.file) ∧
      u1.localTypes = [] ∧ (∀ q o, Below fs p q → Compiled fs q o → ∀ e ∈ o.globalNames, e ∈ u1.globalNames) := by
  have hnb := h.not_below
  have hreach : ∀ r o, Reach fs p r → Compiled fs r o → Full fs r o := fun r o _ ho => ho.full
  cases h with
  | mk _ f ps u0 u1 _ h1 h2 h3 h4 h5 =>
    have hp := h4.part (Part.start h1 h3) (fun r o _ ho => ho.full)
    rw [List.nil_append] at hp
    have hb : ∀ q, (∃ r ∈ ps, Reach fs r q) → Below fs p q := by
      rintro q ⟨r, hr, hq⟩
      exact ⟨r, ⟨f, h1, by rw [h2]; exact List.mem_map.2 ⟨r, hr, rfl⟩⟩, hq⟩
    refine ⟨f, u1, h1, ⟨⟨hp.keyed.names, by simp [hp.localNames], ?_⟩, hp.keyed, by simp [hp.localTypes], ?_⟩, hp.path,
      visitProto_ok.1 h5, ?_, ?_, hp.localTypes, ?_⟩
    · intro e
      rw [hp.localNames, hp.path]
      constructor
      · simp
      · rintro ⟨he, hf⟩
        obtain ⟨-, -, -, hr⟩ := hp.names e he
        rw [hf] at hr
        exact absurd (hb _ hr) hnb
    · intro e
      rw [hp.localTypes, hp.path]
      constructor
      · simp
      · rintro ⟨he, hf⟩
        obtain ⟨-, -, -, hr⟩ := hp.types e he
        rw [hf] at hr
        exact absurd (hb _ hr) hnb
    · intro e he
      obtain ⟨o, k1, k2, k3⟩ := hp.types e he
      exact ⟨o, k1, k2, hb _ k3⟩
    · intro e he
      obtain ⟨o, k1, k2, k3⟩ := hp.names e he
      exact ⟨o, k1, k2, hb _ k3⟩
    · rintro q o ⟨r, ⟨f', hf', hr⟩, hq⟩ ho
      rw [h1] at hf'
      cases hf'
      rw [h2] at hr
      obtain ⟨r', hr', e⟩ := List.mem_map.1 hr
      cases e
      exact (hp.closed q o ((hp.imports q).2 ⟨r, hr', hq⟩) ho).2

theorem Comp.Compiled.defs {fs : FS} {p : Str} {u : UnitD} (h : Compiled fs p u) :
    ∃ f u1, fs p = .parsed f ∧ Good u1 ∧ u1.path = p ∧ Defs f.tops u1 u ∧
      (∀ e ∈ u1.globalTypes, ∃ o, Compiled fs e.2.pos.file o ∧ e ∈ o.localTypes ∧ Below fs p e.2.pos.file) ∧
      (∀ e ∈ u1.globalNames, ∃ o, Compiled fs e.2.pos.file o ∧ e ∈ o.localNames ∧ Below fs p e.2.pos.file) := by
  obtain ⟨f, u1, h1, h2, h3, h4, h5, h6, -⟩ := h.defs_full
  exact ⟨f, u1, h1, h2, h3, h4, h5, h6⟩

def isErr {α : Type} : Out α → Bool
  | .err _ => true
  | _ => false

def isPanic {α : Type} : Out α → Bool
  | .panic => true
  | _ => false

theorem fitsTop_of {k : RefKind} {ty : CTy} {t : TopA}
    (h : (∃ s, ty = .struct s) ∧ (∃ d, t = .struct d) ∨ (∃ s, ty = .enum s) ∧ (∃ d, t = .enum d)) (hk : k.fits ty) :
    k.fitsTop t := by
  rcases h with ⟨⟨s, rfl⟩, d, rfl⟩ | ⟨⟨s, rfl⟩, d, rfl⟩
  · cases k with
    | struct => exact ⟨d, rfl⟩
    | enum => obtain ⟨_, h⟩ := hk; cases h
    | any => trivial
  · cases k with
    | enum => exact ⟨d, rfl⟩
    | struct => obtain ⟨_, h⟩ := hk; cases h
    | any => trivial

/-- An entry of the table of a file's own types is one of its definitions. -/
theorem Comp.Compiled.local_def {fs : FS} {p : Str} {u : UnitD} (h : Compiled fs p u) {e : Str × TypeDef}
    (he : e ∈ u.localTypes) : ∃ f, fs p = .parsed f ∧ ∃ t ∈ f.tops, t.defName = e.1 ∧ e.2.pos = ⟨p, t.at.1, t.at.2⟩ ∧
      ((∃ s, e.2.ty = .struct s) ∧ (∃ d, t = .struct d) ∨ (∃ s, e.2.ty = .enum s) ∧ (∃ d, t = .enum d)) := by
  have hnb := h.not_below
  obtain ⟨f, u1, h1, h2, h3, h4, h5, -⟩ := h.defs
  obtain ⟨he1, he2⟩ := (h.full.good.locTypes e).1 he
  rw [h.full.path] at he2
  rcases h4.types.2.2 e he1 with hx | ⟨t, ht, k1, k2, k3⟩
  · obtain ⟨o, -, -, hb⟩ := h5 e hx
    rw [he2] at hb
    exact absurd hb hnb
  · rw [h3] at k2
    exact ⟨f, h1, t, ht, k1, k2, k3⟩

/-- C26: when a project is accepted, every type name written in a definition - also deep inside inline structs and array
types - is the name of a definition written before it in the same file, or of a definition of a file imported (directly
or not); and it is a struct or an enum if the reference says so. -/
theorem C26_declared_before (fs : FS) (n : Nat) (entry p : Str) (rt : RT) (u : UnitD) (f : FileA) (pre post : List TopA) (t : TopA)
    (k : RefKind) (name : Str) (hc : compile fs n entry RT.new = some (rt, .ok u)) (hr : Reach fs entry p)
    (hf : fs p = .parsed f) (htops : f.tops = pre ++ t :: post) (href : (k, name) ∈ t.refs) :
    (∃ d ∈ pre, d.defName = name ∧ k.fitsTop d) ∨
    ∃ q g, Below fs p q ∧ fs q = .parsed g ∧ ∃ d ∈ g.tops, d.defName = name ∧ k.fitsTop d := by
  obtain ⟨o, ho⟩ := (compile_sound hc Inv.new).compiled.reach hr
  obtain ⟨f', u1, h1, h2, h3, h4, h5, -⟩ := ho.defs
  rw [hf] at h1
  cases h1
  rw [htops] at h4
  obtain ⟨u2, k1, k2⟩ := Defs.append.1 h4
  cases k2 with
  | cons _ _ td _ u3 _ h6 h7 =>
    obtain ⟨td, ht, hfit⟩ := visitTop_refs h6 _ href
    have g2 := Good.defs k1 h2
    have hm := (aget_some_iff g2.keyed.types).1 ht
    rcases k1.types.2.2 _ hm with hx | ⟨d, hd, e1, e2, e3⟩
    · right
      obtain ⟨o', c1, c2, c3⟩ := h5 _ hx
      obtain ⟨g, hg, d, hd, e1, e2, e3⟩ := c1.local_def c2
      exact ⟨_, g, c3, hg, d, hd, e1, fitsTop_of e3 hfit⟩
    · left
      exact ⟨d, hd, e1, fitsTop_of e3 hfit⟩

/-- The sample project: the definition in `b` refers to `Leaf`. -/
example : (∃ rt u, compile sampleFS 5 ['a'] RT.new = some (rt, .ok u)) ∧ Reach sampleFS ['a'] ['b'] ∧
    sampleFS ['b'] = .parsed ⟨[some ['d']], [['m', 'b']], [], [useTop 'B']⟩ ∧ (RefKind.any, ['L', 'e', 'a', 'f']) ∈ (useTop 'B').refs :=
  ⟨sample_ok, Reach.refl.step ⟨_, rfl, by simp⟩, rfl, by simp [useTop, TopA.refs, StructA.refs, BodyA.refs, FieldA.refs, TypeA.refs, ElemA.refs]⟩

/-- Definition `b` is used by definition `a`; a definition is a file and an index.  `a` refers to the name of `b`, and `b` is in the
same file or in a file that `a`'s file imports, directly or not. -/
def DefUses (fs : FS) (a b : Str × Nat) : Prop :=
  ∃ f g t d k, fs a.1 = .parsed f ∧ fs b.1 = .parsed g ∧ f.tops[a.2]? = some t ∧ g.tops[b.2]? = some d ∧
    (k, d.defName) ∈ t.refs ∧ (b.1 = a.1 ∨ Below fs a.1 b.1)

/-- In an accepted file two definitions at different places have different names. -/
theorem Comp.Defs.later_name {ts : List TopA} {u u' : UnitD} (h : Defs ts u u') (g : Good u) {i : Nat} {t : TopA}
    (ht : ts[i]? = some t) {n : Str} {d : NameDef} (hn : (n, d) ∈ u.globalNames) (he : t.defName = n) :
    d.pos = ⟨u.path, t.at.1, t.at.2⟩ := by
  have hi : i < ts.length := (List.getElem?_eq_some_iff.1 ht).1
  have hs : ts = ts.take i ++ t :: ts.drop (i + 1) := by
    have e : ts[i] = t := (List.getElem?_eq_some_iff.1 ht).2
    rw [← e, List.getElem_cons_drop, List.take_append_drop]
  rw [hs] at h
  obtain ⟨u2, k1, k2⟩ := Defs.append.1 h
  cases k2 with
  | cons _ _ td _ u3 _ h6 h7 =>
    obtain ⟨d1, -, -, d4⟩ := visitTop_def h6
    have hm := k1.types.2.1 _ hn
    have := conflicts_iff.1 d4 d (by rw [he]; exact (aget_some_iff (Good.defs k1 g).tab.1).2 hm)
    rw [this, d1, k1.types.1]

/-- C26: definitions are never recursive: in an accepted project the relation "uses" has no infinite descent, in
particular no cycles.  (Definitions of a file are at different places, which the parser guarantees.) -/
theorem C26_not_recursive (fs : FS) (n : Nat) (entry p : Str) (rt : RT) (u : UnitD)
    (hc : compile fs n entry RT.new = some (rt, .ok u)) (hr : Reach fs entry p)
    (hpos : ∀ q g, fs q = .parsed g → (g.tops.map TopA.at).Nodup) (i : Nat) :
    _root_.Acc (fun b a => DefUses fs a b) (p, i) := by
  obtain ⟨o, ho⟩ := (compile_sound hc Inv.new).compiled.reach hr
  clear hc hr
  have hacc := ho.acc
  -- all files below `p`, then the indices of `p`
  have key : ∀ p, _root_.Acc (fun q r => Imports fs r q) p → ∀ o, Compiled fs p o →
      ∀ q, Reach fs p q → ∀ i, _root_.Acc (fun b a => DefUses fs a b) (q, i) := by
    intro p hacc
    induction hacc with
    | intro p _ ih =>
      intro o ho
      have below : ∀ q, Below fs p q → ∀ i, _root_.Acc (fun b a => DefUses fs a b) (q, i) := by
        rintro q ⟨r, hr, hq⟩ i
        obtain ⟨o', ho'⟩ := ho.import_ok hr
        exact ih r hr o' ho' q hq i
      intro q hq i
      rcases hq.cases_head with rfl | hq
      · induction i using Nat.strongRecOn with
        | _ i ihi =>
          refine _root_.Acc.intro _ ?_
          rintro ⟨q, j⟩ ⟨f, g, t, d, k, hf, hg, ht, hd, href, hb⟩
          simp only at hf hg ht hd hb
          rcases hb with rfl | hb
          · rw [hf] at hg
            cases hg
            refine ihi j ?_
            -- `t` finds the name in the table of the definitions before it
            obtain ⟨f', u1, h1, h2, h3, h4, h5, h5n⟩ := ho.defs
            rw [hf] at h1
            cases h1
            rcases Nat.lt_or_ge j i with hlt | hge
            · exact hlt
            exfalso
            have hi : i < f.tops.length := (List.getElem?_eq_some_iff.1 ht).1
            have e : f.tops[i] = t := (List.getElem?_eq_some_iff.1 ht).2
            have hs : f.tops = f.tops.take i ++ t :: f.tops.drop (i + 1) := by
              rw [← e, List.getElem_cons_drop, List.take_append_drop]
            have h4' := h4
            rw [hs] at h4
            obtain ⟨u2, k1, k2⟩ := Defs.append.1 h4
            have g2 := Good.defs k1 h2
            have href' : Bound u2 (k, d.defName) := by
              cases k2 with
              | cons _ _ td _ u3 _ h6 h7 => exact visitTop_refs h6 _ href
            obtain ⟨td, htd, hfit⟩ := href'
            have hm := (aget_some_iff g2.keyed.types).1 htd
            obtain ⟨nd, hnd, hndp⟩ := g2.keyed.bound _ _ hm
            -- the later definition `d` has that name, so it is at the same place
            have hd' : (t :: f.tops.drop (i + 1))[j - i]? = some d := by
              rw [← hd]
              conv => rhs; rw [hs]
              rw [List.getElem?_append_right (by rw [List.length_take]; omega), List.length_take, Nat.min_eq_left (by omega)]
            have hsame := k2.later_name g2 hd' hnd rfl
            rw [hndp] at hsame
            rcases k1.types.2.2 _ hm with hx | ⟨d0, hd0, e1, e2, e3⟩
            · obtain ⟨o', c1, c2, c3⟩ := h5 _ hx
              simp only [hsame, k1.types.1, h3] at c3
              exact ho.not_below c3
            · simp only [hsame, k1.types.1] at e2
              have hat : d.at = d0.at := by
                simp only [Pos.mk.injEq, true_and] at e2
                exact Prod.ext e2.1 e2.2
              have hnd := hpos _ f hf
              rw [hs, List.map_append, List.nodup_append] at hnd
              refine hnd.2.2 _ (List.mem_map.2 ⟨d0, hd0, rfl⟩) _ (List.mem_map.2 ⟨d, List.mem_of_getElem? hd', rfl⟩) hat.symm
          · exact below q hb j
      · exact below q hq i
  exact key p hacc o ho p .refl i

example : ∀ q g, sampleFS q = .parsed g → (g.tops.map TopA.at).Nodup := by
  intro q g h
  unfold sampleFS at h
  split at h
  · cases h; decide
  · split at h
    · cases h; decide
    · split at h
      · cases h; decide
      · split at h
        · cases h; decide
        · cases h

/-- C26, consequence: a definition does not refer to itself, and two definitions do not refer to each other. -/
theorem C26_no_cycle (fs : FS) (n : Nat) (entry p : Str) (rt : RT) (u : UnitD)
    (hc : compile fs n entry RT.new = some (rt, .ok u)) (hr : Reach fs entry p)
    (hpos : ∀ q g, fs q = .parsed g → (g.tops.map TopA.at).Nodup) (i : Nat) (b : Str × Nat) :
    ¬ DefUses fs (p, i) (p, i) ∧ ¬ (DefUses fs (p, i) b ∧ DefUses fs b (p, i)) := by
  have h := C26_not_recursive fs n entry p rt u hc hr hpos i
  generalize (p, i) = a at h
  induction h generalizing b with
  | intro a _ ih =>
    refine ⟨fun h => (ih a h a).1 h, ?_⟩
    rintro ⟨h1, h2⟩
    exact (ih b h1 a).2 ⟨h2, h1⟩

/-- C26 for constants: a name written as a constant - in a struct or as the number of an enum value - is the name of an enum value
of an enum written before in the same file (not of the same enum), or of an enum of an imported file. -/
theorem C26_values_declared_before (fs : FS) (n : Nat) (entry p : Str) (rt : RT) (u : UnitD) (f : FileA) (pre post : List TopA) (t : TopA)
    (name : Str) (hc : compile fs n entry RT.new = some (rt, .ok u)) (hr : Reach fs entry p)
    (hf : fs p = .parsed f) (htops : f.tops = pre ++ t :: post) (href : name ∈ t.vals) :
    (∃ d ∈ pre, name ∈ d.valNames) ∨ ∃ q g, Below fs p q ∧ fs q = .parsed g ∧ ∃ d ∈ g.tops, name ∈ d.valNames := by
  obtain ⟨o, ho⟩ := (compile_sound hc Inv.new).compiled.reach hr
  obtain ⟨f', u1, h1, h2, h3, h4, -, h5⟩ := ho.defs
  rw [hf] at h1
  cases h1
  rw [htops] at h4
  obtain ⟨u2, k1, k2⟩ := Defs.append.1 h4
  cases k2 with
  | cons _ _ td _ u3 _ h6 h7 =>
    obtain ⟨nd, v, hm, hv⟩ := visitTop_vals h6 _ href
    rcases k1.names _ hm with hx | hx | ⟨d, hd, hx⟩
    · right
      obtain ⟨o', c1, c2, c3⟩ := h5 _ hx
      obtain ⟨g, w1, d1, d2, d3, d4, -, d6⟩ := c1.defs
      have hl := (c1.full.good.tab.localIff _).1 c2
      rcases d4.names _ hl.1 with hy | hy | ⟨d, hd, hy⟩
      · obtain ⟨-, -, -, hb⟩ := d6 _ hy
        exact absurd hb c1.not_below
      · simp only at hy
        rw [hy] at hv
        cases hv
      · exact ⟨_, g, c3, d1, d, hd, hy⟩
    · simp only at hx
      rw [hx] at hv
      cases hv
    · exact .inl ⟨d, hd, hx⟩

/-- `enum Kind[1] { RED; } struct A { uint8 k = RED; }` is accepted -/
def kindTop : TopA := .enum ⟨1, 0, ['K'], ⟨some ['1'], none⟩, [.value 1 9 ['R'] none]⟩
def constTop : TopA := .struct (.mk 2 0 ['A'] none (.cons (.const .u8 (some ['k']) none (.inr ['R']) []) .nil))

def valFS : FS := fun p => if p = ['a'] then .parsed ⟨[], [['m']], [], [kindTop, constTop]⟩ else .missing

example : (runPaths (compile valFS 5 ['a'] RT.new)).isSome = true ∧ ['R'] ∈ constTop.vals ∧ ['R'] ∈ kindTop.valNames :=
  ⟨by decide +kernel, by simp [constTop, TopA.vals, StructA.vals, BodyA.vals, FieldA.vals],
    by simp [kindTop, TopA.valNames, enumElems]⟩

/-- An enum cannot use its own values: `enum Kind[1] { RED; BLUE = RED; }` is refused. -/
theorem C26_own_values_example : isErr (visitProto [.enum ⟨1, 0, ['K'], ⟨some ['1'], none⟩,
    [.value 1 9 ['R'] none, .value 1 12 ['B'] (some (.inr ['R']))]⟩] [] Sample.u0).1 = true := by decide +kernel

/-- Finding: a struct type with a lower-case name after the keyword `struct` is not an error message but a panic:
`struct A { struct b x; }`. -/
theorem C26_panic_counterexample : isPanic (visitProto [.struct (.mk 3 0 ['A'] none
    (.cons (.normal (.elem (.structName ['b'])) ['x'] none [] none) .nil))] [] Sample.u0).1 = true := by decide +kernel

/-- Finding: an inline struct definition cannot be referred to afterwards, although its name is taken:
`struct A { struct B { uint8 v; } x; B y; }`. -/
theorem C26_inline_counterexample : isErr (visitProto [.struct (.mk 3 0 ['A'] none
    (.cons (.normal (.elem (.structDef (.mk 3 11 ['B'] none (.cons (.normal (.elem (.basic .u8)) ['v'] none [] none) .nil)))) ['x'] none [] none)
    (.cons (.normal (.elem (.ident ['B'])) ['y'] none [] none) .nil)))] [] Sample.u0).1 = true := by decide +kernel

/-- A file whose only definition refers to itself is refused: `struct A { A x; }` -/
def selfTop : TopA := .struct (.mk 3 0 ['A'] none (.cons (.normal (.elem (.ident ['A'])) ['x'] none [] none) .nil))

theorem C26_self_example : visitProto [selfTop] [] Sample.u0 = (.err [.notFound ['A']], (visitProto [selfTop] [] Sample.u0).2) := by
  have : (visitProto [selfTop] [] Sample.u0).1 = .err [.notFound ['A']] := by
    unfold selfTop visitProto
    rfl
  rw [← this]

end Bubbler
