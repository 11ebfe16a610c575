import Verif.Expr.Source
import Verif.Expr.SourceSpec
import Verif.Front.FloatProofs
import Verif.Front.ExprProofs

/-
From the tree of the parser to the tree the visitor is given.
-/
namespace Bubbler.Front
open Ex (Tree intTree ExprA ConstE intValue)

theorem readExpr_iff (s : Str) (e : Expr) : readExpr s = some e ↔ ReadsExpr s e := by
  unfold readExpr ReadsExpr
  cases h : lex s with
  | none =>
    constructor
    · intro h; exact nomatch h
    · rintro ⟨ts, h, _⟩; exact nomatch h
  | some ts =>
    simp only [Option.some.injEq]
    constructor
    · intro h1
      cases h2 : exprP (3 * ts.length + 1) 0 (ts.map mkTok) with
      | none => rw [h2] at h1; exact nomatch h1
      | some p =>
        obtain ⟨e', r⟩ := p
        rw [h2] at h1
        cases r with
        | cons a r => exact nomatch h1
        | nil =>
          have h3 : e' = e := Option.some.inj h1
          subst h3
          have h4 := (expr_sound _).2.1 0 _ _ _ (by decide) h2
          exact ⟨ts, rfl, h4.2.1, by simpa using h4.1.symm⟩
    · rintro ⟨ts', rfl, hw, ht⟩
      have h5 := exprP_toks hw (n := 3 * ts.length + 1) (r := []) rfl (by rw [ht, List.length_map]; exact Nat.le_refl _)
      rw [List.append_nil, ht] at h5
      rw [h5]

theorem baseOf_hex {t : Str} {n : Nat} (h : IntMeans t n) (hb : Ex.baseOf t ≠ .dec) : ∃ x cs, t = '0' :: x :: cs ∧ (x = 'x' ∨ x = 'X') := by
  rcases h with ⟨c, cs, rfl, hc, -, -⟩ | ⟨cs, rfl, hcs, -⟩ | ⟨x, cs, rfl, hx, -, -, -⟩
  · exfalso
    apply hb
    unfold Ex.baseOf
    split
    · rename_i heq
      obtain ⟨rfl, -⟩ := List.cons.inj heq
      exact absurd hc.1 (by decide)
    · rfl
  · exfalso
    apply hb
    cases cs with
    | nil => rfl
    | cons c cs =>
      have := hcs c (List.mem_cons_self ..)
      unfold Ex.baseOf
      simp only
      rw [if_neg, if_neg]
      · rintro (rfl | rfl) <;> exact absurd this (by decide)
      · rintro (rfl | rfl) <;> exact absurd this (by decide)
  · exact ⟨x, cs, rfl, hx⟩

theorem intMeans_head {t : Str} {n : Nat} (h : IntMeans t n) : t.head? ≠ some '-' ∧ t.head? ≠ some '+' := by
  rcases h with ⟨c, cs, rfl, hc, -, -⟩ | ⟨cs, rfl, hcs, -⟩ | ⟨x, cs, rfl, hx, -, -, -⟩
  · simp only [List.head?_cons, Option.some.injEq, ne_eq]
    constructor
    · rintro rfl; exact absurd hc.1 (by decide)
    · rintro rfl; exact absurd hc.1 (by decide)
  all_goals exact ⟨fun h => absurd (Option.some.inj h) (by decide), fun h => absurd (Option.some.inj h) (by decide)⟩

theorem limit_cast : ((floatLimit : Nat) : Rat) = 2 ^ 1024 - 2 ^ 970 := by
  set_option exponentiation.threshold 2000 in decide +kernel

theorem isDec_digit {c : Char} (h : isDec c = true) : c.isDigit = true := by
  unfold isDec at h
  unfold Char.isDigit
  simp only [Bool.and_eq_true, decide_eq_true_eq] at h ⊢
  exact h

/-- Constants. -/
theorem Const.fine_ex {c : Const} (h : c.Fine) (val : Tree) (tn : Prim → Str) (ct : ExprA → Option Str) (ct' : Expr → Option Str) (wide : Bool) :
    ∃ x, c.ex = some x ∧ x.good = true ∧ Kept val tn ct' wide (.const c) ((ExprA.const x).tree val tn ct wide) ∧
      ((ExprA.const x).negConst = true ↔ (Expr.const c).minusLit) := by
  cases c with
  | int sg t =>
    obtain ⟨n, hn, hlt, hhex⟩ := h
    have hp := parseNat_means hn
    have hv : (intValue (sg == some true) t).getD 0 = (if sg = some true then -(n : Int) else n) := by
      unfold intValue
      rw [hp]
      by_cases hs : sg = some true
      · simp [hs]
      · simp [hs]
    refine ⟨_, rfl, ?_, ?_, ?_⟩
    · have hh := intMeans_head hn
      unfold ConstE.good
      simp only [hp, Bool.and_eq_true, decide_eq_true_eq, Bool.or_eq_true, Bool.not_eq_true']
      refine ⟨⟨⟨hlt, hh.1⟩, hh.2⟩, ?_⟩
      by_cases hs : sg = some true
      · rcases hhex hs with h0 | h0
        · exact Or.inl (Or.inr h0)
        · refine Or.inr ?_
          by_cases hb : Ex.baseOf t = .dec
          · exact hb
          · exact absurd (baseOf_hex hn hb) h0
      · left; left; simpa using hs
    · show Kept val tn ct' wide _ (intTree wide _)
      rw [hv]
      exact .int hn
    · show decide ((intValue (sg == some true) t).getD 0 < 0) = true ↔ _
      rw [hv, decide_eq_true_eq]
      constructor
      · intro h1
        by_cases hs : sg = some true
        · rw [if_pos hs] at h1; exact ⟨hs, n, hn, by omega⟩
        · rw [if_neg hs] at h1; omega
      · rintro ⟨hs, m, hm, h0⟩
        have : m = n := by
          have := parseNat_means hm; rw [hp] at this; exact (Option.some.inj this).symm
        rw [if_pos hs]; omega
  | float sg t =>
    obtain ⟨x, hx, hlim⟩ := h
    rw [← limit_cast] at hlim
    obtain ⟨h1, h2⟩ := floatOk_value hx
    have h3 := floatNum_value hx
    have h0 := floatValue_nonneg hx
    have hne := float64_nearest h0 hlim
    have hy : 0 ≤ float64 x := by
      obtain ⟨m, e, -, -, -, h⟩ := hne.1
      rw [h]; exact Rat.mul_nonneg Rat.natCast_nonneg (Rat.le_of_lt two_pos)
    have hf := fmtF_nearest hy
    refine ⟨.float (sg == some true) (fmtF (float64 x)).1 (fmtF (float64 x)).2, ?_, ?_, ?_, ?_⟩
    · unfold Const.ex
      simp only [if_neg h2, if_pos (h1.mpr hlim), h3]
    · unfold ConstE.good
      simp only [Bool.and_eq_true, Bool.not_eq_true', List.all_eq_true]
      refine ⟨⟨?_, fun c hc => isDec_digit (hf.1 c hc)⟩, fun c hc => isDec_digit (hf.2.1 c hc)⟩
      cases hl : (fmtF (float64 x)).1 with
      | nil => exact absurd hl hf.2.2.1
      | cons _ _ => rfl
    · have : (ExprA.const (.float (sg == some true) (fmtF (float64 x)).1 (fmtF (float64 x)).2)).tree val tn ct wide =
          signed sg (.flt (fmtF (float64 x)).1 (fmtF (float64 x)).2) := by
        show (if (sg == some true) = true then _ else _) = _
        unfold signed
        by_cases hs : sg = some true
        · rw [if_pos hs, if_pos (by simp [hs])]
        · rw [if_neg hs, if_neg (by simpa using hs)]
      rw [this]
      exact .float hx hne hf
    · show (sg == some true) = true ↔ sg = some true
      simp
  | bool b =>
    refine ⟨_, rfl, rfl, .bool, ?_⟩
    show false = true ↔ False
    simp
  | str t => exact h.elim

theorem Const.ex_type {c : Const} {x : ConstE} (h : c.ex = some x) (ty : Prim) : (ExprA.const x).type ty = (Expr.const c).type ty := by
  cases c with
  | int sg t => cases h; rfl
  | float sg t =>
    unfold Const.ex at h
    simp only at h
    split at h
    · cases h
    · split at h
      · cases h; rfl
      · cases h
  | bool b => cases h; rfl
  | str t => cases h

theorem Expr.ex_type (ty : Prim) : ∀ {e : Expr} {x : ExprA}, e.ex = some x → x.type ty = e.type ty
  | .value, _, h => by cases h; rfl
  | .const c, _, h => by
    simp only [Expr.ex, Option.map_eq_some_iff] at h
    obtain ⟨y, hy, rfl⟩ := h
    exact Const.ex_type hy ty
  | .parens e, _, h => by
    simp only [Expr.ex, Option.map_eq_some_iff] at h
    obtain ⟨y, hy, rfl⟩ := h
    have ih := Expr.ex_type ty hy
    exact ih
  | .unary op e, _, h => by
    simp only [Expr.ex, Option.map_eq_some_iff] at h
    obtain ⟨y, hy, rfl⟩ := h
    rfl
  | .cast p e, _, h => by
    simp only [Expr.ex, Option.map_eq_some_iff] at h
    obtain ⟨y, hy, rfl⟩ := h
    rfl
  | .binary op a b, _, h => by
    simp only [Expr.ex] at h
    split at h
    · cases h; rfl
    · cases h
  | .ternary c a b, _, h => by
    simp only [Expr.ex] at h
    split at h
    · rename_i h1 h2 h3
      cases h
      have ih := Expr.ex_type ty h2
      exact ih
    · cases h

/-- All in one: the tree, its meaning, and the conditions of C47. -/
theorem Expr.fine_ex (w : Weak) (val : Tree) (tn : Prim → Str) (ct : ExprA → Option Str) (ct' : Expr → Option Str) (wide : Bool)
    (hct : ∀ e x, Expr.ex e = some x → ct x = ct' e) :
    ∀ {e : Expr}, e.Fine w → ∃ x, e.ex = some x ∧ Kept val tn ct' wide e (x.tree val tn ct wide) ∧
      (x.negConst = true ↔ e.minusLit) ∧ (x.compound = true ↔ e.compound) ∧
      (w.minus = true → x.plain = true) ∧ (w.minus = true → w.power = true → x.jsPlain = true) ∧ (w.bang = true → w.power = true → x.pyPlain = true)
  | .value, _ => ⟨_, rfl, .value, by simp [ExprA.negConst, minusLit], by simp [ExprA.compound, compound], fun _ => rfl, fun _ _ => rfl, fun _ _ => rfl⟩
  | .const c, h => by
    obtain ⟨x, h1, h2, h3, h4⟩ := Const.fine_ex h val tn ct ct' wide
    refine ⟨.const x, by rw [Expr.ex, h1]; rfl, h3, h4, ?_, fun _ => h2, fun _ _ => h2, fun _ _ => h2⟩
    simp [ExprA.compound, compound]
  | .parens e, h => by
    obtain ⟨x, h1, h2, h3⟩ := Expr.fine_ex w val tn ct ct' wide hct (e := e) h
    exact ⟨.parens x, by rw [Expr.ex, h1]; rfl, .parens h2, h3⟩
  | .unary op e, h => by
    obtain ⟨x, h1, h2, h3, h4, h5, h6, h7⟩ := Expr.fine_ex w val tn ct ct' wide hct (e := e) h.1
    have hm : w.minus = true → (!(decide (op = .SUB) && x.negConst)) = true := by
      intro hw
      have := h.2.1 hw
      by_cases ho : op = .SUB
      · have := mt h3.mp (this ho)
        simp [ho, this]
      · simp [ho]
    refine ⟨.unary op x, by rw [Expr.ex, h1]; rfl, .unary h2, by simp [ExprA.negConst, minusLit], by simp [ExprA.compound, compound],
      fun a => ?_, fun a b => ?_, fun a b => ?_⟩
    · simp only [ExprA.plain, h5 a, hm a, Bool.and_self]
    · simp only [ExprA.jsPlain, h6 a b, hm a, Bool.and_self]
    · simp only [ExprA.pyPlain, h7 a b, Bool.true_and]
      by_cases ho : op = .NOT
      · rcases h.2.2 a ho with hc | hc
        · simp [h4.mpr hc]
        · simp [h3.mpr hc]
      · simp [ho]
  | .cast p e, h => by
    obtain ⟨x, h1, h2, h3, h4, h5, h6, h7⟩ := Expr.fine_ex w val tn ct ct' wide hct (e := e) h
    exact ⟨.cast p x, by rw [Expr.ex, h1]; rfl, .cast h2, by simp [ExprA.negConst, minusLit], by simp [ExprA.compound, compound], h5, h6, h7⟩
  | .binary op a b, h => by
    obtain ⟨x, h1, h2, h3, h4, h5, h6, h7⟩ := Expr.fine_ex w val tn ct ct' wide hct (e := a) h.1
    obtain ⟨y, g1, g2, g3, g4, g5, g6, g7⟩ := Expr.fine_ex w val tn ct ct' wide hct (e := b) h.2.1
    have hm : w.power = true → (!(decide (op = .POW) && x.negConst)) = true := by
      intro hw
      have := h.2.2 hw
      by_cases ho : op = .POW
      · have := mt h3.mp (this ho)
        simp [ho, this]
      · simp [ho]
    refine ⟨.binary op x y, by rw [Expr.ex, h1, g1], .binary h2 g2, by simp [ExprA.negConst, minusLit], by simp [ExprA.compound, compound],
      fun a => ?_, fun a b => ?_, fun a b => ?_⟩
    · simp only [ExprA.plain, h5 a, g5 a, Bool.and_self]
    · simp only [ExprA.jsPlain, h6 a b, g6 a b, hm b, Bool.and_self]
    · simp only [ExprA.pyPlain, h7 a b, g7 a b, hm b, Bool.and_self]
  | .ternary c a b, h => by
    obtain ⟨x, h1, h2, h3, h4, h5, h6, h7⟩ := Expr.fine_ex w val tn ct ct' wide hct (e := c) h.1
    obtain ⟨y, g1, g2, g3, g4, g5, g6, g7⟩ := Expr.fine_ex w val tn ct ct' wide hct (e := a) h.2.1
    obtain ⟨z, k1, k2, k3, k4, k5, k6, k7⟩ := Expr.fine_ex w val tn ct ct' wide hct (e := b) h.2.2
    refine ⟨.ternary x y z, by rw [Expr.ex, h1, g1, k1], ?_, by simp [ExprA.negConst, minusLit], by simp [ExprA.compound, compound],
      fun a => ?_, fun a b => ?_, fun a b => ?_⟩
    · show Kept val tn ct' wide _ (.cond (ct y) _ _ _)
      rw [hct a y g1]
      exact .ternary h2 g2 k2
    · simp only [ExprA.plain, h5 a, g5 a, k5 a, Bool.and_self]
    · simp only [ExprA.jsPlain, h6 a b, g6 a b, k6 a b, Bool.and_self]
    · simp only [ExprA.pyPlain, h7 a b, g7 a b, k7 a b, Bool.and_self]

theorem constOk_iff {c : Const} (h : c.Token) : constOk c = true ↔ c.HasValue := by
  cases c with
  | int sg t =>
    obtain ⟨n, hn⟩ := intMeans_of h
    show (match Num.parseNat t with | some n => decide (n < 2 ^ 63) | none => false) = true ↔ ∃ n, IntMeans t n ∧ n < 2 ^ 63
    rw [parseNat_means hn]
    simp only [decide_eq_true_eq]
    constructor
    · intro h; exact ⟨n, hn, h⟩
    · rintro ⟨m, hm, hlt⟩
      have := parseNat_means hm
      rw [parseNat_means hn] at this
      rw [Option.some.inj this]; exact hlt
  | float sg t =>
    show floatOk t = true ↔ ∀ x, FloatValue t x → x < 2 ^ 1024 - 2 ^ 970
    rw [← limit_cast]
    by_cases hw : t = "inf".toList ∨ t = "nan".toList
    · constructor
      · intro _ x hx; exact absurd hw (floatOk_value hx).2
      · intro _; unfold floatOk; rw [if_pos hw]
    · have h : ∃ x, FloatValue t x := by
        rcases h with h | h | h
        · exact absurd (.inl h) hw
        · exact absurd (.inr h) hw
        · exact h
      obtain ⟨x, hx⟩ := h
      rw [(floatOk_value hx).1]
      constructor
      · intro h y hy; rw [← floatNum_value hy, floatNum_value hx]; exact h
      · intro h; exact h x hx
  | bool b => exact ⟨fun _ => trivial, fun _ => rfl⟩
  | str t =>
    obtain ⟨q, b, hq, rfl, -⟩ := h
    show (visitStr (q :: (b ++ [q]))).isSome = true ↔ ∃ q' b' v, q :: (b ++ [q]) = q' :: (b' ++ [q']) ∧ Means b' v
    rw [Option.isSome_iff_exists]
    constructor
    · rintro ⟨v, hv⟩; exact ⟨q, b, v, rfl, (visitStr_iff hq b v).1 hv⟩
    · rintro ⟨q', b', v, he, hv⟩
      obtain ⟨rfl, h2⟩ := List.cons.inj he
      have := (List.append_inj' h2 rfl).1
      subst this
      exact ⟨v, (visitStr_iff hq b v).2 hv⟩

theorem exprOk_iff : ∀ {e : Expr}, (∀ c ∈ e.consts, c.Token) → (exprOk e = true ↔ ∀ c ∈ e.consts, c.HasValue)
  | .value, _ => ⟨(fun _ _ h => nomatch h), (fun _ => rfl)⟩
  | .const c, h => by
    rw [exprOk, constOk_iff (h c (List.mem_cons_self ..))]
    simp [Expr.consts]
  | .parens e, h => by
    have ih := exprOk_iff (e := e) h
    exact ih
  | .unary op e, h => by
    have ih := exprOk_iff (e := e) h
    exact ih
  | .cast p e, h => by
    have ih := exprOk_iff (e := e) h
    exact ih
  | .binary op a b, h => by
    have i1 := exprOk_iff (e := a) (fun c hc => h c (List.mem_append_left _ hc))
    have i2 := exprOk_iff (e := b) (fun c hc => h c (List.mem_append_right _ hc))
    simp only [exprOk, Bool.and_eq_true, i1, i2, Expr.consts, List.mem_append]
    exact ⟨fun hh c hc => hc.elim (hh.1 c) (hh.2 c), fun hh => ⟨fun c hc => hh c (.inl hc), fun c hc => hh c (.inr hc)⟩⟩
  | .ternary c a b, h => by
    have i0 := exprOk_iff (e := c) (fun x hc => h x (List.mem_append_left _ hc))
    have i1 := exprOk_iff (e := a) (fun x hc => h x (List.mem_append_right _ (List.mem_append_left _ hc)))
    have i2 := exprOk_iff (e := b) (fun x hc => h x (List.mem_append_right _ (List.mem_append_right _ hc)))
    simp only [exprOk, Bool.and_eq_true, i0, i1, i2, Expr.consts, List.mem_append]
    exact ⟨fun hh c hc => hc.elim (hh.1 c) fun hc => hc.elim (hh.2.1 c) (hh.2.2 c),
      fun hh => ⟨fun c hc => hh c (.inl hc), fun c hc => hh c (.inr (.inl hc)), fun c hc => hh c (.inr (.inr hc))⟩⟩

theorem Expr.ex_typed (ty : Prim) : ∀ {e : Expr} {x : ExprA}, e.ex = some x → (x.goTyped ty = true ↔ e.Typed ty)
  | .value, _, h => by cases h; simp [ExprA.goTyped, Typed]
  | .const c, _, h => by
    simp only [Expr.ex, Option.map_eq_some_iff] at h
    obtain ⟨y, hy, rfl⟩ := h
    simp [ExprA.goTyped, Typed]
  | .parens e, _, h => by
    simp only [Expr.ex, Option.map_eq_some_iff] at h
    obtain ⟨y, hy, rfl⟩ := h
    have ih := Expr.ex_typed ty hy
    exact ih
  | .unary op e, _, h => by
    simp only [Expr.ex, Option.map_eq_some_iff] at h
    obtain ⟨y, hy, rfl⟩ := h
    have ih := Expr.ex_typed ty hy
    exact ih
  | .cast p e, _, h => by
    simp only [Expr.ex, Option.map_eq_some_iff] at h
    obtain ⟨y, hy, rfl⟩ := h
    have ih := Expr.ex_typed ty hy
    exact ih
  | .binary op a b, _, h => by
    simp only [Expr.ex] at h
    split at h
    · rename_i h1 h2
      cases h
      have a1 := Expr.ex_typed ty h1
      have a2 := Expr.ex_typed ty h2
      simp only [ExprA.goTyped, Bool.and_eq_true, a1, a2, Typed]
    · cases h
  | .ternary c a b, _, h => by
    simp only [Expr.ex] at h
    split at h
    · rename_i h1 h2 h3
      cases h
      have a1 := Expr.ex_typed ty h1
      have a2 := Expr.ex_typed ty h2
      have a3 := Expr.ex_typed ty h3
      simp only [ExprA.goTyped, Bool.and_eq_true, a1, a2, a3, Typed, Expr.ex_type ty h2, Expr.ex_type ty h3, decide_eq_true_eq]
      constructor
      · rintro ⟨⟨⟨⟨b1, b2⟩, b3⟩, b4⟩, b5⟩
        obtain ⟨p, hp⟩ := Option.isSome_iff_exists.mp b4
        exact ⟨b1, b2, b3, p, hp, b5 ▸ hp⟩
      · rintro ⟨b1, b2, b3, p, hp, hq⟩
        exact ⟨⟨⟨⟨b1, b2⟩, b3⟩, by rw [hp]; rfl⟩, by rw [hp, hq]⟩
    · cases h

end Bubbler.Front
