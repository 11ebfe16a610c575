import Verif.Expr.AtomProofs

/-
The printed expression is read as the written one.
-/
namespace Bubbler.Ex
open Num

section
variable {P : Target} {L : Lang} {tight : Nat}

/-- The type a conditional carries in the target. -/
def condType (P : Target) (ty : Prim) (a : ExprA) : Option Str :=
  match P.cond with
  | .go => (a.type ty).map primName
  | _ => none

theorem visitBinOp_pow {op : BinTk} (h : visitBinOp op = .POW) : op = .POW := by cases op <;> simp_all [visitBinOp]

theorem ExprA.main (F : Fits P L tight) (ty : Prim) {val : Str} {vt : List Tok} {vtree : Tree} (hval : Good L tight false val vt vtree)
    (htn : P.cond = .go → P.typeName = primName)
    (ok : ExprA → Prop)
    (okc : ∀ c, ok (.const c) → c.good = true)
    (okp : ∀ e, ok (.parens e) → ok e)
    (oku : ∀ op e, ok (.unary op e) → ok e ∧ ∀ s toks t, P.method val ty e = some s → Good L tight e.negConst s toks t →
      ∀ c, s.head? = some c → sep L (P.opStr (visitUnOp op)) c = true)
    (oka : ∀ p e, ok (.cast p e) → ok e)
    (okb : ∀ op a b, ok (.binary op a b) → ok a ∧ ok b ∧ (op = .POW → P.pow = none → a.negConst = false))
    (okt : ∀ c a b, ok (.ternary c a b) → ok c ∧ ok a ∧ ok b ∧ (P.cond = .go → ∃ p, a.type ty = some p ∧ b.type ty = some p))
    (e : ExprA) (h : ok e) :
    ∃ x s toks, visitExpr ty e = some x ∧ x.type = e.type ty ∧ P.expr val x = some s ∧
      Good L tight e.negConst s toks (e.tree vtree P.typeName (condType P ty) P.suffix.isSome) := by
  induction e with
  | value => exact ⟨_, _, _, rfl, rfl, rfl, hval⟩
  | const c =>
    obtain ⟨l, h1, h2, toks, h3⟩ := goodConst F (okc c h) vtree (condType P ty)
    refine ⟨.const l, _, toks, by simp only [visitExpr, h1, Option.map_some], ?_, rfl, h3⟩
    rw [h2]; cases c <;> rfl
  | parens e ih =>
    obtain ⟨x, s, toks, h1, h2, h3, h4⟩ := ih (okp e h)
    exact ⟨x, s, toks, h1, h2, h3, h4⟩
  | unary op e ih =>
    obtain ⟨ho, hs⟩ := oku op e h
    obtain ⟨x, s, toks, h1, h2, h3, h4⟩ := ih ho
    have hm : P.method val ty e = some s := by unfold Target.method; rw [h1]; exact h3
    obtain ⟨ts, hg⟩ := goodUn F (op := op) h4 (hs s toks _ hm h4)
    refine ⟨.un (visitUnOp op) x, _, ts, ?_, rfl, ?_, hg⟩
    · simp only [visitExpr, h1, Option.map_some]
    · simp only [Target.expr, h3, Option.map_some]
  | cast p e ih =>
    obtain ⟨x, s, toks, h1, h2, h3, h4⟩ := ih (oka p e h)
    obtain ⟨ts, hg⟩ := goodCast F p h4
    refine ⟨.cast p x, _, ts, ?_, rfl, ?_, hg⟩
    · simp only [visitExpr, h1, Option.map_some]
    · simp only [Target.expr, h3, Option.map_some]
  | binary op a b iha ihb =>
    obtain ⟨ha, hb, hneg⟩ := okb op a b h
    obtain ⟨x, s, toks, h1, h2, h3, h4⟩ := iha ha
    obtain ⟨x', s', toks', h1', h2', h3', h4'⟩ := ihb hb
    have hg : ∃ ts, Good L tight false (P.binText (visitBinOp op) s s') ts
        (.bin op (a.tree vtree P.typeName (condType P ty) P.suffix.isSome) (b.tree vtree P.typeName (condType P ty) P.suffix.isSome)) := by
      by_cases hop : op = .POW
      · cases hpw : P.pow with
        | some f => subst hop; exact goodPow F hpw h4 h4'
        | none =>
          refine goodBin F (fun _ => hpw) h4 h4' ?_
          rintro ⟨hp, hn⟩
          rw [hneg hp hpw] at hn; cases hn
      · exact goodBin F (fun e => absurd e hop) h4 h4' (fun e => hop e.1)
    obtain ⟨ts, hg⟩ := hg
    refine ⟨.bin (visitBinOp op) x x', _, ts, ?_, rfl, ?_, hg⟩
    · simp only [visitExpr, h1, h1', Option.map_some]
    · simp only [Target.expr, h3, h3', Option.map_some]
  | ternary c a b ihc iha ihb =>
    obtain ⟨hc, ha, hb, hgo⟩ := okt c a b h
    obtain ⟨x, s, toks, h1, h2, h3, h4⟩ := ihc hc
    obtain ⟨y, u, toks', h1', h2', h3', h4'⟩ := iha ha
    obtain ⟨z, v, toks'', h1'', h2'', h3'', h4''⟩ := ihb hb
    have hg : ∃ r ts, P.condText y.type z.type s u v = some r ∧ Good L tight false r ts
        (.cond (condType P ty a) (c.tree vtree P.typeName (condType P ty) P.suffix.isSome) (a.tree vtree P.typeName (condType P ty) P.suffix.isSome)
          (b.tree vtree P.typeName (condType P ty) P.suffix.isSome)) := by
      cases hcond : P.cond with
      | c =>
        obtain ⟨ts, hg⟩ := goodCondC F (by rw [← F.cond.1]; exact hcond) h4 h4' h4''
        refine ⟨_, ts, by simp only [Target.condText, hcond]; rfl, ?_⟩
        simp only [condType, hcond]
        exact hg
      | py =>
        obtain ⟨ts, hg⟩ := goodCondPy F (by rw [← F.cond.1]; exact hcond) h4 h4' h4''
        refine ⟨_, ts, by simp only [Target.condText, hcond]; rfl, ?_⟩
        simp only [condType, hcond]
        exact hg
      | go =>
        obtain ⟨p, hp1, hp2⟩ := hgo hcond
        have hT := F.types p
        unfold typeFit at hT
        rw [htn hcond] at hT
        simp only [Bool.and_eq_true, Bool.not_eq_true', List.isEmpty_eq_false_iff, decide_eq_true_eq] at hT
        obtain ⟨ts, hg⟩ := goodCondGo F (by rw [← F.cond.1]; exact hcond) hT.1.1.2 hT.1.1.1.1 hT.1.1.1.2 h4 h4' h4''
        refine ⟨_, ts, by simp only [Target.condText, hcond, h2', h2'', hp1, hp2, if_true]; rfl, ?_⟩
        rw [show condType P ty a = some (primName p) from by simp only [condType, hcond, hp1, Option.map_some]]
        exact hg
    obtain ⟨r, ts, hr, hg⟩ := hg
    refine ⟨.tern x y z, r, ts, ?_, h2', ?_, hg⟩
    · simp only [visitExpr, h1, h1', h1'', Option.map_some]
    · simp only [Target.expr, h3, h3', h3'']
      exact hr

end
end Bubbler.Ex
