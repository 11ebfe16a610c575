import Verif.Compiler.RuntimeSpec
import Verif.Compiler.UnitProofs
import Verif.Props.FieldProps

/-
Proofs about the compilation of a file and its imports.
-/
namespace Bubbler.Comp

variable {fs : FS}

theorem Reach.trans {p q r : Str} (h : Reach fs p q) (k : Reach fs q r) : Reach fs p r := by
  induction k with
  | refl => exact h
  | step _ i ih => exact ih.step i

theorem Reach.head {p q r : Str} (h : Imports fs p q) (k : Reach fs q r) : Reach fs p r :=
  (Reach.refl.step h).trans k

theorem Reach.cases_head {p r : Str} (h : Reach fs p r) : p = r ∨ Below fs p r := by
  induction h with
  | refl => exact .inl rfl
  | step _ i ih =>
    rcases ih with rfl | ⟨x, hx, hr⟩
    · exact .inr ⟨_, i, .refl⟩
    · exact .inr ⟨x, hx, hr.step i⟩

theorem Below.reach {p q : Str} (h : Below fs p q) : Reach fs p q := by
  obtain ⟨r, h, k⟩ := h
  exact .head h k

theorem map_some_inj {a b : List Str} (h : a.map some = b.map some) : a = b := by
  have := congrArg (List.filterMap id) h
  simpa [List.filterMap_map] using this

/-! ### The unit of a correct file is unique -/

mutual
  theorem Compiled.det {p : Str} {u u' : UnitD} : Compiled fs p u → Compiled fs p u' → u = u'
    | .mk _ f ps u0 u1 _ a b c d e, .mk _ f' ps' u0' u1' _ a' b' c' d' e' => by
      rw [a] at a'
      cases a'
      rw [b] at b'
      have hps := map_some_inj b'
      subst hps
      rw [c] at c'
      cases c'
      have hd := Imported.det d d'
      subst hd
      rw [e] at e'
      cases e'
      rfl
  theorem Imported.det {ps : List Str} {u v v' : UnitD} : Imported fs ps u v → Imported fs ps u v' → v = v'
    | .nil _, .nil _ => rfl
    | .cons p ps o _ u1 _ a b c, .cons _ _ o' _ u1' _ a' b' c' => by
      have h1 := Compiled.det a a'
      subst h1
      rw [b] at b'
      cases b'
      exact Imported.det c c'
end

/-! ### Correct files are not in a cycle -/

theorem Compiled.imports {p q : Str} {u : UnitD} (h : Compiled fs p u) (hi : Imports fs p q) :
    ∃ f ps u0 u1, fs p = .parsed f ∧ f.imports = ps.map some ∧ q ∈ ps ∧ visitInfo f (UnitD.new p) = (.ok (), u0) ∧
      Imported fs ps u0 u1 := by
  obtain ⟨_, f, ps, u0, u1, _, a, b, c, d, e⟩ := h
  obtain ⟨f', a', hq⟩ := hi
  rw [a] at a'
  cases a'
  rw [b] at hq
  obtain ⟨x, hx, hxq⟩ := List.mem_map.1 hq
  cases hxq
  exact ⟨f, ps, u0, u1, a, b, hx, c, d⟩

theorem Imported.mem {ps : List Str} {u u' : UnitD} : Imported fs ps u u' → ∀ q ∈ ps, ∃ o, Compiled fs q o
  | .nil _, q, hq => by cases hq
  | .cons p ps o _ u1 _ a b c, q, hq => by
    rcases List.mem_cons.1 hq with rfl | hq
    · exact ⟨o, a⟩
    · exact Imported.mem c q hq

theorem Compiled.import_ok {p q : Str} {u : UnitD} (h : Compiled fs p u) (hi : Imports fs p q) : ∃ o, Compiled fs q o := by
  obtain ⟨f, ps, u0, u1, -, -, hq, -, d⟩ := h.imports hi
  exact d.mem q hq

theorem Compiled.reach {p q : Str} {u : UnitD} (h : Compiled fs p u) (hr : Reach fs p q) : ∃ o, Compiled fs q o := by
  induction hr with
  | refl => exact ⟨u, h⟩
  | step _ i ih =>
    obtain ⟨o, ho⟩ := ih
    exact ho.import_ok i

mutual
  theorem Compiled.acc {p : Str} {u : UnitD} : Compiled fs p u →  _root_.Acc (fun q r => Imports fs r q) p
    | .mk _ f ps u0 u1 _ a b c d e => by
      have hd := Imported.acc d
      refine _root_.Acc.intro _ fun q hq => ?_
      obtain ⟨f', a', hq⟩ := hq
      rw [a] at a'
      cases a'
      rw [b] at hq
      obtain ⟨x, hx, hxq⟩ := List.mem_map.1 hq
      cases hxq
      exact hd q hx
  theorem Imported.acc {ps : List Str} {u v : UnitD} : Imported fs ps u v → ∀ q ∈ ps,  _root_.Acc (fun q r => Imports fs r q) q
    | .nil _, q, hq => by cases hq
    | .cons p ps o _ u1 _ a b c, q, hq => by
      have h1 := Compiled.acc a
      have h2 := Imported.acc c
      rcases List.mem_cons.1 hq with rfl | hq
      · exact h1
      · exact h2 q hq
end

theorem acc_not_below {p : Str} (h :  _root_.Acc (fun q r => Imports fs r q) p) : ¬ Below fs p p := by
  induction h with
  | intro p _ ih =>
    rintro ⟨r, h, k⟩
    refine ih r h ?_
    rcases k.cases_head with rfl | ⟨x, hx, hr⟩
    · exact ⟨r, h, .refl⟩
    · exact ⟨x, hx, hr.step h⟩

theorem Compiled.not_below {p : Str} {u : UnitD} (h : Compiled fs p u) : ¬ Below fs p p := acc_not_below h.acc

end Bubbler.Comp
