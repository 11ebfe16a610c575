import Verif.Compiler.Samples

/-
When the visitors of fields, names, options, methods and constants succeed, and with what.
-/
namespace Bubbler.Comp

/-- The unit after a name has been checked -/
def styleWarn (conv : Str → Str) (n : Str) (u : UnitD) : UnitD :=
  if n ≠ conv (conv n) then { u with warns := u.warns ++ [.nameStyle n (conv (conv n))] } else u

theorem visitName_ok {check : Str → Bool} {conv : Str → Str} {n m : Str} {u u' : UnitD} :
    visitName check conv n u = (.ok m, u') ↔ check n = true ∧ n = m ∧ styleWarn conv n u = u' := by
  unfold visitName styleWarn
  by_cases hc : check n = true
  · simp only [hc, Bool.not_true, Bool.false_eq_true, if_false, true_and]
    split
    · simp only [bind_ok, warn_ok, pure_ok]
      constructor
      · rintro ⟨_, _, rfl, rfl, rfl⟩; exact ⟨rfl, rfl⟩
      · rintro ⟨rfl, rfl⟩; exact ⟨(), _, rfl, rfl, rfl⟩
    · exact pure_ok
  · simp [hc, fail]

theorem normalSize_ok {t : CTy} {d b : Int} {u u' : UnitD} :
    normalSize t d u = (.ok b, u') ↔
      u = u' ∧ ((d = 0 ∧ b = t.bits) ∨
        (d ≠ 0 ∧ b = d ∧ t.bits ≠ -1 ∧ d ≤ t.bits ∧ (∀ e len, t = .array e len → d.tmod len = 0) ∧
          (∀ s, t = .struct s → d = t.bits))) := by
  unfold normalSize
  by_cases h0 : d = 0
  · simp only [h0, if_true, pure_ok, true_and, ne_eq, not_true_eq_false, false_and, or_false]
    constructor
    · rintro ⟨rfl, rfl⟩; exact ⟨rfl, rfl⟩
    · rintro ⟨rfl, rfl⟩; exact ⟨rfl, rfl⟩
  · simp only [h0, if_false, false_and, false_or, ne_eq, not_false_iff, true_and]
    by_cases h1 : t.bits = -1
    · simp [h1, fail]
    · simp only [h1, if_false, not_false_iff, true_and]
      by_cases h2 : d > t.bits
      · rw [if_pos h2, fail_ok]
        constructor
        · exact False.elim
        · rintro ⟨-, -, h, -⟩
          omega
      · rw [if_neg h2]
        have h2' : d ≤ t.bits := by omega
        simp only [h2', true_and]
        cases t with
        | array e len =>
          dsimp only
          by_cases h3 : d.tmod len = 0
          · simp only [h3, not_true_eq_false, if_false, pure_ok, CTy.array.injEq, reduceCtorEq, false_implies, implies_true, and_true]
            constructor
            · rintro ⟨rfl, rfl⟩; exact ⟨rfl, rfl, by rintro _ _ ⟨rfl, rfl⟩; exact h3⟩
            · rintro ⟨rfl, rfl, -⟩; exact ⟨rfl, rfl⟩
          · simp only [h3, not_false_iff, if_true, fail_ok, false_iff, not_and]
            intro _ _ h
            exact absurd (h e len rfl) h3
        | struct s =>
          dsimp only
          by_cases h3 : d = (CTy.struct s).bits
          · simp only [← h3, not_true_eq_false, if_false, pure_ok, CTy.struct.injEq, reduceCtorEq, false_implies, implies_true, true_and, and_true]
            constructor
            · rintro ⟨rfl, rfl⟩; exact ⟨rfl, rfl⟩
            · rintro ⟨rfl, rfl⟩; exact ⟨rfl, rfl⟩
          · simp only [h3, not_false_iff, if_true, fail_ok, false_iff, not_and]
            intro _ _ _ h
            exact h s rfl
        | _ =>
          dsimp only
          simp only [pure_ok, reduceCtorEq, false_implies, implies_true, and_true]
          constructor
          · rintro ⟨rfl, rfl⟩; exact ⟨rfl, rfl⟩
          · rintro ⟨rfl, rfl⟩; exact ⟨rfl, rfl⟩

theorem visitNormalRest_ok {t : CTy} {name : Str} {size : Option SizeA} {opts : List OptA} {meths : Option (List MethA)}
    {u u' : UnitD} {f : FieldD} :
    visitNormalRest t name size opts meths u = (.ok f, u') ↔
      ∃ d b os ms u2, visitFieldName name u = (.ok name, styleWarn Name.toSnake name u) ∧ annotSize size = some d ∧
        normalSize t d (styleWarn Name.toSnake name u) = (.ok b, styleWarn Name.toSnake name u) ∧
        visitFieldOptions opts [] (styleWarn Name.toSnake name u) = (.ok os, u2) ∧
        ((meths = none ∧ ms = [] ∧ u2 = u') ∨
          ∃ l p, meths = some l ∧ t = .basic p ∧ visitMethods l [] [] u2 = (.ok ms, u')) ∧
        f = .normal name t b ms os := by
  unfold visitNormalRest
  simp only [bind_ok, visitOptSize_ok]
  constructor
  · rintro ⟨n, u1, h1, d, _, ⟨h2, rfl⟩, b, _, h3, os, u2, h4, h5⟩
    obtain ⟨k1, rfl, rfl⟩ := visitName_ok.1 h1
    obtain ⟨rfl, -⟩ := normalSize_ok.1 h3
    cases meths with
    | none =>
      obtain ⟨rfl, rfl⟩ := pure_ok.1 h5
      exact ⟨d, b, os, [], u2, h1, h2, h3, h4, .inl ⟨rfl, rfl, rfl⟩, rfl⟩
    | some l =>
      cases t with
      | basic p =>
        obtain ⟨ms, u3, k2, k3⟩ := bind_ok.1 h5
        obtain ⟨rfl, rfl⟩ := pure_ok.1 k3
        exact ⟨d, b, os, ms, u2, h1, h2, h3, h4, .inr ⟨l, p, rfl, rfl, k2⟩, rfl⟩
      | _ => exact absurd h5 (by simp [fail])
  · rintro ⟨d, b, os, ms, u2, h1, h2, h3, h4, h5, rfl⟩
    refine ⟨name, _, h1, d, _, ⟨h2, rfl⟩, b, _, h3, os, u2, h4, ?_⟩
    rcases h5 with ⟨rfl, rfl, rfl⟩ | ⟨l, p, rfl, rfl, h5⟩
    · exact pure_ok.2 ⟨rfl, rfl⟩
    · exact bind_ok.2 ⟨ms, u', h5, pure_ok.2 ⟨rfl, rfl⟩⟩

theorem visitField_normal {t : TypeA} {name : Str} {size : Option SizeA} {opts : List OptA} {meths : Option (List MethA)}
    {u u' : UnitD} {o : Option FieldD} :
    visitField (.normal t name size opts meths) u = (.ok o, u') ↔
      ∃ ty u1 f, visitType t u = (.ok ty, u1) ∧ visitNormalRest ty name size opts meths u1 = (.ok f, u') ∧ o = some f := by
  unfold visitField
  simp only [bind_ok, pure_ok]
  constructor
  · rintro ⟨ty, u1, h1, f, _, h2, rfl, rfl⟩; exact ⟨ty, u1, f, h1, h2, rfl⟩
  · rintro ⟨ty, u1, f, h1, h2, rfl⟩; exact ⟨ty, u1, h1, f, u', h2, rfl, rfl⟩

theorem visitField_void {s : SizeA} {opts : List OptA} {u u' : UnitD} {o : Option FieldD} :
    visitField (.void s opts) u = (.ok o, u') ↔
      ∃ d os, annotSize (some s) = some d ∧ visitFieldOptions opts [] u = (.ok os, u') ∧ o = some (.void d) := by
  unfold visitField
  simp only [bind_ok, pure_ok]
  have key : ∀ d u1, visitSizeA s u = (.ok d, u1) ↔ annotSize (some s) = some d ∧ u = u1 := fun d u1 =>
    visitOptSize_ok (s := some s)
  simp only [key]
  constructor
  · rintro ⟨d, _, ⟨h1, rfl⟩, os, _, h2, rfl, rfl⟩; exact ⟨d, os, h1, h2, rfl⟩
  · rintro ⟨d, os, h1, h2, rfl⟩; exact ⟨d, u, ⟨h1, rfl⟩, os, u', h2, rfl, rfl⟩

theorem visitField_embedded {t : TypeA} {opts : List OptA} {u u' : UnitD} {o : Option FieldD} :
    visitField (.embedded t opts) u = (.ok o, u') ↔
      ∃ s u1 os, visitType t u = (.ok (.struct s), u1) ∧ visitFieldOptions opts [] u1 = (.ok os, u') ∧
        o = some (.embedded s false) := by
  unfold visitField
  simp only [bind_ok]
  constructor
  · rintro ⟨ty, u1, h1, h2⟩
    cases ty with
    | struct s =>
      obtain ⟨os, u2, k1, k2⟩ := bind_ok.1 h2
      obtain ⟨rfl, rfl⟩ := pure_ok.1 k2
      exact ⟨s, u1, os, h1, k1, rfl⟩
    | _ => exact absurd h2 (by simp [fail])
  · rintro ⟨s, u1, os, h1, h2, rfl⟩
    exact ⟨.struct s, u1, h1, bind_ok.2 ⟨os, u', h2, pure_ok.2 ⟨rfl, rfl⟩⟩⟩

theorem constSize_ok {p : Prim} {d b : Int} {u u' : UnitD} :
    constSize p d u = (.ok b, u') ↔ u = u' ∧ ((d = 0 ∧ b = p.width) ∨ (d ≠ 0 ∧ b = d ∧ d ≤ p.width)) := by
  unfold constSize
  by_cases h0 : d = 0
  · simp only [h0, if_true, pure_ok, true_and, ne_eq, not_true_eq_false, false_and, or_false]
    constructor
    · rintro ⟨rfl, rfl⟩; exact ⟨rfl, rfl⟩
    · rintro ⟨rfl, rfl⟩; exact ⟨rfl, rfl⟩
  · simp only [h0, if_false, false_and, false_or, ne_eq, not_false_iff, true_and]
    by_cases h2 : d > p.width
    · rw [if_pos h2, fail_ok]
      constructor
      · exact False.elim
      · rintro ⟨-, -, h⟩
        omega
    · rw [if_neg h2, pure_ok]
      constructor
      · rintro ⟨rfl, rfl⟩; exact ⟨rfl, rfl, by omega⟩
      · rintro ⟨rfl, rfl, -⟩; exact ⟨rfl, rfl⟩

theorem visitField_const {p : Prim} {name : Option Str} {size : Option SizeA} {val : ConstA ⊕ Str} {opts : List OptA}
    {u u' : UnitD} {o : Option FieldD} :
    visitField (.const p name size val opts) u = (.ok o, u') ↔
      ∃ n d b lit os u1, visitOptName visitFieldName name u = (.ok n, u1) ∧ annotSize size = some d ∧
        constSize p d u1 = (.ok b, u1) ∧ visitConstVal val u1 = (.ok lit, u1) ∧ literalMatches p lit = true ∧
        visitFieldOptions opts [] u1 = (.ok os, u') ∧ o = some (.const n p b lit os) := by
  have hpure : ∀ c u u' l, visitConstVal c u = (.ok l, u') → u = u' := by
    intro c u u' l h
    cases c with
    | inl c =>
      unfold visitConstVal visitConstant at h
      cases c with
      | int neg t =>
        obtain ⟨v, u1, k1, k2⟩ := bind_ok.1 h
        obtain ⟨n, -, -, rfl⟩ := visitIntLit_ok.1 k1
        exact (pure_ok.1 k2).2
      | float ok neg t =>
        simp only at h
        split at h
        · exact (pure_ok.1 h).2
        · exact absurd h (by simp [fail])
      | str v =>
        cases v with
        | none => exact absurd h (by simp [fail])
        | some s => exact (pure_ok.1 h).2
      | bool b => exact (pure_ok.1 h).2
    | inr n =>
      unfold visitConstVal at h
      simp only at h
      split at h
      · simp at h
      · split at h
        · simp only [Prod.mk.injEq] at h; exact h.2
        · simp at h
  unfold visitField visitConst
  simp only [bind_ok, visitOptSize_ok, pure_ok]
  constructor
  · rintro ⟨f, u4, ⟨n, u1, h1, d, _, ⟨h2, rfl⟩, b, _, h3, lit, u3, h4, h5⟩, rfl, rfl⟩
    obtain ⟨rfl, -⟩ := constSize_ok.1 h3
    obtain rfl := hpure _ _ _ _ h4
    by_cases hm : literalMatches p lit = true
    · simp only [hm, Bool.not_true, Bool.false_eq_true, if_false] at h5
      obtain ⟨os, u5, k1, k2⟩ := bind_ok.1 h5
      obtain ⟨rfl, rfl⟩ := pure_ok.1 k2
      exact ⟨n, d, b, lit, os, u1, h1, h2, h3, h4, hm, k1, rfl⟩
    · simp [hm, fail] at h5
  · rintro ⟨n, d, b, lit, os, u1, h1, h2, h3, h4, hm, h5, rfl⟩
    refine ⟨_, u', ⟨n, u1, h1, d, _, ⟨h2, rfl⟩, b, _, h3, lit, u1, h4, ?_⟩, rfl, rfl⟩
    simp only [hm, Bool.not_true, Bool.false_eq_true, if_false]
    exact bind_ok.2 ⟨os, u', h5, pure_ok.2 ⟨rfl, rfl⟩⟩

end Bubbler.Comp
