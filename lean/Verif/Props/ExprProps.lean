import Verif.Expr.MainProofs

/-
C47: the expression of a custom get or set method keeps its structure in the generated code.

What is claimed: the text the Go, C, C++, C#, Python, Java and JavaScript targets write for an expression is read by these languages
(`Lang.Reads`: their tokens, their precedences) as the expression the user wrote (`ExprA.tree`: the same operators applied to
the same operands, the same literals, conversions to the target's name of the same type).
-/
namespace Bubbler
open Num Ex

/-! ### The tables fit -/

theorem goFits : Fits goTarget goLang 6 where
  syms := by decide +kernel
  closed := by decide +kernel
  marks := by intro h; cases h
  prePar := by decide +kernel
  clos := by decide +kernel
  bin := by intro op hop; cases op <;> first | (exact absurd (hop rfl) (by decide +kernel)) | decide +kernel
  un := by intro op; cases op <;> decide +kernel
  sub := by decide +kernel
  types := by intro p; cases p <;> decide +kernel
  words := by decide +kernel
  bools := by decide +kernel
  castP := by refine ⟨rfl, fun q h => ?_⟩; cases h
  pow := by decide +kernel
  cond := by decide +kernel
  suffix := by decide +kernel

theorem cFits : Fits cTarget cLang 11 where
  syms := by decide +kernel
  closed := by decide +kernel
  marks := by decide +kernel
  prePar := by decide +kernel
  clos := by decide +kernel
  bin := by intro op hop; cases op <;> first | (exact absurd (hop rfl) (by decide +kernel)) | decide +kernel
  un := by intro op; cases op <;> decide +kernel
  sub := by decide +kernel
  types := by intro p; cases p <;> decide +kernel
  words := by decide +kernel
  bools := by decide +kernel
  castP := by refine ⟨rfl, fun q h => ?_⟩; cases h; rfl
  pow := by decide +kernel
  cond := by decide +kernel
  suffix := by decide +kernel

theorem cppFits : Fits cTarget cppLang 11 where
  syms := by decide +kernel
  closed := by decide +kernel
  marks := by decide +kernel
  prePar := by decide +kernel
  clos := by decide +kernel
  bin := by intro op hop; cases op <;> first | (exact absurd (hop rfl) (by decide +kernel)) | decide +kernel
  un := by intro op; cases op <;> decide +kernel
  sub := by decide +kernel
  types := by intro p; cases p <;> decide +kernel
  words := by decide +kernel
  bools := by decide +kernel
  castP := by refine ⟨rfl, fun q h => ?_⟩; cases h; rfl
  pow := by decide +kernel
  cond := by decide +kernel
  suffix := by decide +kernel

theorem csFits : Fits csTarget csLang 11 where
  syms := by decide +kernel
  closed := by decide +kernel
  marks := by decide +kernel
  prePar := by decide +kernel
  clos := by decide +kernel
  bin := by intro op hop; cases op <;> first | (exact absurd (hop rfl) (by decide +kernel)) | decide +kernel
  un := by intro op; cases op <;> decide +kernel
  sub := by decide +kernel
  types := by intro p; cases p <;> decide +kernel
  words := by decide +kernel
  bools := by decide +kernel
  castP := by refine ⟨rfl, fun q h => ?_⟩; cases h; rfl
  pow := by decide +kernel
  cond := by decide +kernel
  suffix := by decide +kernel

theorem pyFits : Fits pyTarget pyLang 11 where
  syms := by decide +kernel
  closed := by decide +kernel
  marks := by intro h; cases h
  prePar := by decide +kernel
  clos := by decide +kernel
  bin := by intro op _; cases op <;> decide +kernel
  un := by intro op; cases op <;> decide +kernel
  sub := by decide +kernel
  types := by intro p; cases p <;> decide +kernel
  words := by decide +kernel
  bools := by decide +kernel
  castP := by refine ⟨rfl, fun q h => ?_⟩; cases h
  pow := by decide +kernel
  cond := by decide +kernel
  suffix := by decide +kernel

theorem javaFits : Fits javaTarget javaLang 11 where
  syms := by decide +kernel
  closed := by decide +kernel
  marks := by decide +kernel
  prePar := by decide +kernel
  clos := by decide +kernel
  bin := by intro op hop; cases op <;> first | (exact absurd (hop rfl) (by decide +kernel)) | decide +kernel
  un := by intro op; cases op <;> decide +kernel
  sub := by decide +kernel
  types := by intro p; cases p <;> decide +kernel
  words := by decide +kernel
  bools := by decide +kernel
  castP := by refine ⟨rfl, fun q h => ?_⟩; cases h; rfl
  pow := by decide +kernel
  cond := by decide +kernel
  suffix := by decide +kernel

theorem jsFits : Fits jsTarget jsLang 13 where
  syms := by decide +kernel
  closed := by decide +kernel
  marks := by decide +kernel
  prePar := by decide +kernel
  clos := by decide +kernel
  bin := by intro op _; cases op <;> decide +kernel
  un := by intro op; cases op <;> decide +kernel
  sub := by decide +kernel
  types := by intro p; cases p <;> decide +kernel
  words := by decide +kernel
  bools := by decide +kernel
  castP := by refine ⟨rfl, fun q h => ?_⟩; cases h
  pow := by decide +kernel
  cond := by decide +kernel
  suffix := by decide +kernel

/-- **C47, types.** The names of types in the trees of the theorems below stand for the types the user named; Python has only `int` and
`float`, Java no unsigned integers, JavaScript only `Number` and `BigInt`. -/
theorem C47_types (p : Prim) :
    goKind (String.ofList (primName p)) = some (primKind p) ∧ cKind (String.ofList (cTypeName p)) = some (primKind p) ∧
    csKind (String.ofList (csTypeName p)) = some (primKind p) ∧ pyKind (String.ofList (pyTypeName p)) = some (primKind p).widest ∧
    javaKind (String.ofList (javaTypeName p)) = some (primKind p).signed ∧ jsKind (String.ofList (jsTypeName p)) = some (primKind p).jsNumber := by
  cases p <;> decide +kernel

/-! ### Reading -/

/-- A text has at most one reading. -/
theorem Ex.Lang.Reads.unique {L : Lang} (hs : symsOk L.syms = true) {s : Str} {t t' : Tree} (h : L.Reads s t) (h' : L.Reads s t') : t = t' := by
  obtain ⟨-, ts, h1, N, h2⟩ := h
  obtain ⟨-, ts', h1', N', h2'⟩ := h'
  have e := Lexes.unique hs h1 h1'
  subst e
  have a := h2 (N + N') (by omega)
  have b := h2' (N + N') (by omega)
  rw [a] at b
  simp only [Option.some.injEq, Prod.mk.injEq, and_true] at b
  exact b

theorem Ex.Good.reads {L : Lang} {tight : Nat} {neg : Bool} {s : Str} {toks : List Tok} {t : Tree} (h : Good L tight neg s toks t)
    (hl : L.legal t = true) : L.Reads s t := by
  refine ⟨hl, toks, ?_, ?_⟩
  · have := h.lex [] [] (by intro c e; cases e) .nil
    simpa using this
  · obtain ⟨N, hN⟩ := h.expr
    refine ⟨N, fun n hn => ?_⟩
    have := hN n hn [] (by intro t e; cases e)
    simpa using this

/-- `value`, and members `this.f`, `self._f`: words that are no keywords. -/
theorem Ex.nameGood {L : Lang} {tight : Nat} {val : Str} (h0 : val ≠ []) (h1 : val.all isWord = true)
    (h2 : ∃ c s, val = c :: s ∧ c.isDigit = false) (h3 : L.pre (.word val) = none)
    (h4 : val ∉ L.tru :: L.fls :: (L.reserved ++ L.types)) : Good L tight false val [.word val] (.name val) := by
  refine goodWord h0 h1 h3 ?_
  unfold Lang.atom
  simp only [List.mem_cons, List.mem_append, not_or] at h4
  rw [if_neg h4.1, if_neg h4.2.1, if_neg (by simp [h4.2.2.1, h4.2.2.2])]
  obtain ⟨c, s, rfl, hc⟩ := h2
  simp only [hc, Bool.false_eq_true, if_false]

/-- No keyword and no prefix operator has a point. -/
def noDots (L : Lang) : Bool :=
  (L.tru :: L.fls :: (L.reserved ++ L.types)).all (fun s => !s.contains '.') &&
  L.pres.all (fun x => match x.1 with | .word s => !s.contains '.' | .op _ => true)

theorem Ex.memberGood {L : Lang} {tight : Nat} {pre f : Str} (hd : noDots L = true) (hp : pre.all isWord = true) (hdot : pre.contains '.' = true)
    (hdig : ∃ c s, pre = c :: s ∧ c.isDigit = false) (hf : f.all isWord = true) :
    Good L tight false (pre ++ f) [.word (pre ++ f)] (.name (pre ++ f)) := by
  unfold noDots at hd
  simp only [Bool.and_eq_true, List.all_eq_true, Bool.not_eq_true'] at hd
  have hc : (pre ++ f).contains '.' = true := by
    rw [List.contains_iff_mem] at hdot ⊢
    exact List.mem_append_left _ hdot
  obtain ⟨c, s, rfl, hcd⟩ := hdig
  refine nameGood (by simp) ?_ ⟨c, s ++ f, rfl, hcd⟩ ?_ ?_
  · rw [List.all_append, hp, hf]; rfl
  · unfold Lang.pre
    cases hfi : L.pres.find? (fun x => x.1 == .word (c :: s ++ f)) with
    | none => rfl
    | some x =>
      have h1 := List.find?_some hfi
      have h2 := List.mem_of_find?_eq_some hfi
      have := hd.2 x h2
      rw [beq_iff_eq] at h1
      rw [h1] at this
      simp only [hc, Bool.not_eq_true'] at this
      cases this
  · intro hm
    have := hd.1 _ hm
    rw [hc] at this; cases this

/-- A prefix operator that is a symbol, before an operand that is not a negative literal or if it cannot run into its sign. -/
theorem Ex.sepSym {P : Target} {L : Lang} {tight : Nat} {op : UnTk} {s : Str} {toks : List Tok} {t : Tree} {neg : Bool}
    (hs : symsOk L.syms = true) (hg : Good L tight neg s toks t) (hw : (P.opStr (visitUnOp op)).all isWord = false)
    (hp : canExt L.syms (P.opStr (visitUnOp op)) '(' = false)
    (hn : neg = true → canExt L.syms (P.opStr (visitUnOp op)) '-' = false) :
    ∀ c, s.head? = some c → sep L (P.opStr (visitUnOp op)) c = true := by
  intro c hc
  obtain ⟨c', s', rfl, h⟩ := hg.head
  simp only [List.head?_cons, Option.some.injEq] at hc
  subst hc
  unfold sep
  rw [hw]
  simp only [Bool.false_eq_true, if_false, Bool.not_eq_true']
  rcases h with ⟨_, h | rfl⟩ | ⟨h, rfl⟩
  · exact canExt_word hs _ h
  · exact hp
  · exact hn h

/-! ### Go -/

theorem goTyped_of_prints (ty : Prim) (val : Str) : ∀ (e : ExprA) (x : Expr) (s : Str), visitExpr ty e = some x → goTarget.expr val x = some s →
    e.goTyped ty = true ∧ x.type = e.type ty := by
  intro e
  induction e with
  | value => intro x s h1 _; cases h1; exact ⟨rfl, rfl⟩
  | const c =>
    intro x s h1 _
    refine ⟨rfl, ?_⟩
    simp only [visitExpr, Option.map_eq_some_iff] at h1
    obtain ⟨l, hl, rfl⟩ := h1
    cases c with
    | int neg text =>
      simp only [visitConst] at hl
      split at hl
      · cases hl
      · cases hl; rfl
    | float neg ip fp => cases hl; rfl
    | bool b => cases hl; rfl
  | parens e ih => exact ih
  | unary op e ih =>
    intro x s h1 h2
    simp only [visitExpr, Option.map_eq_some_iff] at h1
    obtain ⟨y, hy, rfl⟩ := h1
    simp only [Target.expr, Option.map_eq_some_iff] at h2
    obtain ⟨u, hu, rfl⟩ := h2
    exact ⟨(ih y u hy hu).1, rfl⟩
  | cast p e ih =>
    intro x s h1 h2
    simp only [visitExpr, Option.map_eq_some_iff] at h1
    obtain ⟨y, hy, rfl⟩ := h1
    simp only [Target.expr, Option.map_eq_some_iff] at h2
    obtain ⟨u, hu, rfl⟩ := h2
    exact ⟨(ih y u hy hu).1, rfl⟩
  | binary op a b iha ihb =>
    intro x s h1 h2
    simp only [visitExpr] at h1
    cases ha : visitExpr ty a with
    | none => rw [ha] at h1; cases h1
    | some y =>
      rw [ha] at h1
      simp only [Option.map_eq_some_iff] at h1
      obtain ⟨z, hz, rfl⟩ := h1
      simp only [Target.expr] at h2
      cases hy : goTarget.expr val y with
      | none => rw [hy] at h2; cases h2
      | some u =>
        rw [hy] at h2
        simp only [Option.map_eq_some_iff] at h2
        obtain ⟨v, hv, rfl⟩ := h2
        refine ⟨?_, rfl⟩
        simp only [ExprA.goTyped, (iha y u ha hy).1, (ihb z v hz hv).1, Bool.and_self]
  | ternary c a b ihc iha ihb =>
    intro x s h1 h2
    simp only [visitExpr] at h1
    cases hc : visitExpr ty c with
    | none => rw [hc] at h1; cases h1
    | some w =>
      rw [hc] at h1
      cases ha : visitExpr ty a with
      | none => rw [ha] at h1; cases h1
      | some y =>
        rw [ha] at h1
        simp only [Option.map_eq_some_iff] at h1
        obtain ⟨z, hz, rfl⟩ := h1
        simp only [Target.expr] at h2
        cases hw : goTarget.expr val w with
        | none => rw [hw] at h2; cases h2
        | some r =>
          rw [hw] at h2
          cases hy : goTarget.expr val y with
          | none => rw [hy] at h2; cases h2
          | some u =>
            rw [hy] at h2
            cases hzz : goTarget.expr val z with
            | none => rw [hzz] at h2; cases h2
            | some v =>
              rw [hzz] at h2
              simp only at h2
              have i1 := ihc w r hc hw
              have i2 := iha y u ha hy
              have i3 := ihb z v hz hzz
              refine ⟨?_, i2.2⟩
              simp only [ExprA.goTyped, i1.1, i2.1, i3.1, Bool.and_self, Bool.true_and, Bool.and_eq_true, decide_eq_true_eq]
              simp only [Target.condText, goTarget] at h2
              rw [← i2.2, ← i3.2]
              cases hyt : y.type with
              | none => rw [hyt] at h2; cases h2
              | some p =>
                rw [hyt] at h2
                cases hzt : z.type with
                | none => rw [hzt] at h2; cases h2
                | some q =>
                  rw [hzt] at h2
                  simp only at h2
                  split at h2
                  · rename_i hpq
                    refine ⟨rfl, ?_⟩
                    have : p = q := by
                      revert hpq
                      cases p <;> cases q <;> decide +kernel
                    rw [this]
                  · cases h2

/-- **C47 (Go).** For an expression with good literals and no minus sign directly before a negative literal: the target refuses it
exactly if the branches of some conditional have no explicit type or different ones; otherwise Go reads the text as the written
expression, and in no other way.  `val` is the parameter of a setter or the member a getter reads. -/
theorem C47_go (ty : Prim) (e : ExprA) (hp : e.plain = true) (val : Str)
    (hval : val = "value".toList ∨ ∃ f, f.all isWord = true ∧ val = "this.".toList ++ f) :
    ((goTarget.method val ty e).isSome = e.goTyped ty) ∧
    ∀ s, goTarget.method val ty e = some s →
      ∀ t, goLang.Reads s t ↔ t = e.tree (.name val) primName (fun a => (a.type ty).map primName) := by
  have hv : Good goLang 6 false val [.word val] (.name val) := by
    rcases hval with rfl | ⟨f, hf, rfl⟩
    · exact nameGood (by decide +kernel) (by decide +kernel) ⟨'v', "alue".toList, by decide +kernel, by decide⟩ (by decide +kernel) (by decide +kernel)
    · exact memberGood (by decide +kernel) (by decide +kernel) (by decide +kernel) ⟨'t', "his.".toList, by decide +kernel, by decide⟩ hf
  have main : ∀ e : ExprA, e.plain = true → e.goTyped ty = true → ∃ x s toks, visitExpr ty e = some x ∧ x.type = e.type ty ∧ goTarget.expr val x = some s ∧
      Good goLang 6 e.negConst s toks (e.tree (.name val) primName (fun a => (a.type ty).map primName)) := by
    intro e h1 h2
    refine ExprA.main goFits ty hv (fun _ => rfl) (fun e => e.plain = true ∧ e.goTyped ty = true) ?_ ?_ ?_ ?_ ?_ ?_ e ⟨h1, h2⟩
    · intro c h; exact h.1
    · intro e h; exact h
    · intro op e h
      simp only [ExprA.plain, ExprA.goTyped, Bool.and_eq_true] at h
      refine ⟨⟨h.1.1, h.2⟩, fun s toks t _ hg => ?_⟩
      refine sepSym goFits.syms hg ?_ ?_ ?_
      · cases op <;> decide +kernel
      · cases op <;> decide +kernel
      · intro hn
        rw [hn] at h
        cases op with
        | SUB => simp at h
        | _ => decide +kernel
    · intro p e h; exact h
    · intro op a b h
      simp only [ExprA.plain, ExprA.goTyped, Bool.and_eq_true] at h
      exact ⟨⟨h.1.1, h.2.1⟩, ⟨h.1.2, h.2.2⟩, fun _ hpw => by cases hpw⟩
    · intro c a b h
      simp only [ExprA.plain, ExprA.goTyped, Bool.and_eq_true, decide_eq_true_eq] at h
      obtain ⟨⟨⟨p1, p2⟩, p3⟩, ⟨⟨⟨g1, g2⟩, g3⟩, g4⟩, g5⟩ := h
      refine ⟨⟨p1, g1⟩, ⟨p2, g2⟩, ⟨p3, g3⟩, fun _ => ?_⟩
      obtain ⟨p, hp⟩ := Option.isSome_iff_exists.mp g4
      exact ⟨p, hp, by rw [← g5]; exact hp⟩
  constructor
  · rw [Bool.eq_iff_iff]
    constructor
    · intro h
      obtain ⟨s, hs⟩ := Option.isSome_iff_exists.mp h
      unfold Target.method at hs
      cases hx : visitExpr ty e with
      | none => rw [hx] at hs; cases hs
      | some x => rw [hx] at hs; exact (goTyped_of_prints ty val e x s hx hs).1
    · intro h
      obtain ⟨x, s, toks, h1, _, h3, _⟩ := main e hp h
      unfold Target.method
      rw [h1]
      show (goTarget.expr val x).isSome = true
      rw [h3]; rfl
  · intro s hs
    unfold Target.method at hs
    cases hx : visitExpr ty e with
    | none => rw [hx] at hs; cases hs
    | some x =>
      rw [hx] at hs
      have hgt := (goTyped_of_prints ty val e x s hx hs).1
      obtain ⟨x', s', toks, h1, _, h3, h4⟩ := main e hp hgt
      rw [hx] at h1
      cases h1
      have hs : goTarget.expr val x = some s := hs
      rw [hs] at h3
      cases h3
      intro t
      refine ⟨fun h => h.unique goFits.syms (h4.reads rfl), ?_⟩
      rintro rfl
      exact h4.reads rfl

/-! ### C, C++, C# -/

/-- Targets with `(T)e` and `c ? a : b`. -/
theorem cFamily {P : Target} {L : Lang} (F : Fits P L 11) (hcond : P.cond = .c) (hpow : P.pow ≠ none)
    (hw : ∀ op, (P.opStr (visitUnOp op)).all isWord = false)
    (hpar : ∀ op, canExt L.syms (P.opStr (visitUnOp op)) '(' = false)
    (hdash : ∀ op, op ≠ .SUB → canExt L.syms (P.opStr (visitUnOp op)) '-' = false)
    (ty : Prim) {val : Str} {vt : List Tok} {vtree : Tree} (hv : Good L 11 false val vt vtree) (e : ExprA) (hp : e.plain = true)
    (hl : L.legal (e.tree vtree P.typeName (fun _ => none) P.suffix.isSome) = true) :
    ∃ s, P.method val ty e = some s ∧ ∀ t, L.Reads s t ↔ t = e.tree vtree P.typeName (fun _ => none) P.suffix.isSome := by
  have hct : condType P ty = fun _ => none := by funext a; simp only [condType, hcond]
  obtain ⟨x, s, toks, h1, _, h3, h4⟩ := ExprA.main F ty hv (fun h => by rw [hcond] at h; cases h) (fun e => e.plain = true)
    (fun c h => h) (fun e h => h)
    (by
      intro op e h
      simp only [ExprA.plain, Bool.and_eq_true] at h
      refine ⟨h.1, fun s toks t _ hg => sepSym F.syms hg (hw op) (hpar op) (fun hn => hdash op ?_)⟩
      rintro rfl
      rw [hn] at h
      simp at h)
    (fun p e h => h)
    (by
      intro op a b h
      simp only [ExprA.plain, Bool.and_eq_true] at h
      exact ⟨h.1, h.2, fun _ hpw => absurd hpw hpow⟩)
    (by
      intro c a b h
      simp only [ExprA.plain, Bool.and_eq_true] at h
      exact ⟨h.1.1, h.1.2, h.2, fun hc => by rw [hcond] at hc; cases hc⟩) e hp
  rw [hct] at h4
  refine ⟨s, ?_, fun t => ⟨fun h => h.unique F.syms (h4.reads hl), ?_⟩⟩
  · unfold Target.method; rw [h1]; exact h3
  · rintro rfl; exact h4.reads hl

/-- **C47 (C, setter).** -/
theorem C47_c_setter (ty : Prim) (e : ExprA) (hp : e.plain = true) :
    ∃ s, cTarget.method "value".toList ty e = some s ∧
      ∀ t, cLang.Reads s t ↔ t = e.tree (.name "value".toList) cTypeName (fun _ => none) :=
  cFamily cFits rfl (by decide) (by intro op; cases op <;> decide +kernel) (by intro op; cases op <;> decide +kernel)
    (by intro op h; cases op <;> first | exact absurd rfl h | decide +kernel) ty
    (nameGood (by decide +kernel) (by decide +kernel) ⟨'v', "alue".toList, by decide +kernel, by decide⟩ (by decide +kernel) (by decide +kernel)) e hp rfl

/-- **C47 (C, getter).** The value is `ptr->f`. -/
theorem C47_c_getter (ty : Prim) (e : ExprA) (hp : e.plain = true) (f : Str) (hf0 : f ≠ []) (hf : f.all isWord = true) :
    ∃ s, cTarget.method ("ptr->".toList ++ f) ty e = some s ∧
      ∀ t, cLang.Reads s t ↔ t = e.tree (.arrow "ptr".toList f) cTypeName (fun _ => none) := by
  rw [show "ptr->".toList ++ f = "ptr".toList ++ '-' :: '>' :: f from by
    rw [show "ptr->".toList = "ptr".toList ++ ['-', '>'] from by decide +kernel, List.append_assoc]; rfl]
  exact cFamily cFits rfl (by decide) (by intro op; cases op <;> decide +kernel) (by intro op; cases op <;> decide +kernel)
    (by intro op h; cases op <;> first | exact absurd rfl h | decide +kernel) ty
    (goodArrow cFits.syms (q := 11) rfl (by decide +kernel) (by decide +kernel) (by decide +kernel) (by decide +kernel) hf0 hf) e hp rfl

/-- **C47 (C++).** The value is the parameter of a setter or, in a getter, `this->f`. -/
theorem C47_cpp (ty : Prim) (e : ExprA) (hp : e.plain = true) (f : Str) (hf0 : f ≠ []) (hf : f.all isWord = true) :
    (∃ s, cTarget.method "value".toList ty e = some s ∧
      ∀ t, cppLang.Reads s t ↔ t = e.tree (.name "value".toList) cTypeName (fun _ => none)) ∧
    (∃ s, cTarget.method ("this->".toList ++ f) ty e = some s ∧
      ∀ t, cppLang.Reads s t ↔ t = e.tree (.arrow "this".toList f) cTypeName (fun _ => none)) := by
  rw [show "this->".toList ++ f = "this".toList ++ '-' :: '>' :: f from by
    rw [show "this->".toList = "this".toList ++ ['-', '>'] from by decide +kernel, List.append_assoc]; rfl]
  constructor
  · exact cFamily cppFits rfl (by decide) (by intro op; cases op <;> decide +kernel) (by intro op; cases op <;> decide +kernel)
      (by intro op h; cases op <;> first | exact absurd rfl h | decide +kernel) ty
      (nameGood (by decide +kernel) (by decide +kernel) ⟨'v', "alue".toList, by decide +kernel, by decide⟩ (by decide +kernel) (by decide +kernel)) e hp rfl
  · exact cFamily cppFits rfl (by decide) (by intro op; cases op <;> decide +kernel) (by intro op; cases op <;> decide +kernel)
      (by intro op h; cases op <;> first | exact absurd rfl h | decide +kernel) ty
      (goodArrow cppFits.syms (q := 11) rfl (by decide +kernel) (by decide +kernel) (by decide +kernel) (by decide +kernel) hf0 hf) e hp rfl

/-- **C47 (C#).** The value is the parameter of a setter or, in a getter, `this.f`. -/
theorem C47_csharp (ty : Prim) (e : ExprA) (hp : e.plain = true) (val : Str)
    (hval : val = "value".toList ∨ ∃ f, f.all isWord = true ∧ val = "this.".toList ++ f) :
    ∃ s, csTarget.method val ty e = some s ∧ ∀ t, csLang.Reads s t ↔ t = e.tree (.name val) csTypeName (fun _ => none) := by
  refine cFamily csFits rfl (by decide) (by intro op; cases op <;> decide +kernel) (by intro op; cases op <;> decide +kernel)
    (by intro op h; cases op <;> first | exact absurd rfl h | decide +kernel) ty (vt := [.word val]) ?_ e hp rfl
  rcases hval with rfl | ⟨f, hf, rfl⟩
  · exact nameGood (by decide +kernel) (by decide +kernel) ⟨'v', "alue".toList, by decide +kernel, by decide⟩ (by decide +kernel) (by decide +kernel)
  · exact memberGood (by decide +kernel) (by decide +kernel) (by decide +kernel) ⟨'t', "his.".toList, by decide +kernel, by decide⟩ hf

/-! ### Java -/

theorem javaLegal_un (op : UnTk) (t : Tree) (h : javaLegal t = true) : javaLegal (.un op t) = true := by
  unfold javaLegal
  split <;> simp_all [javaLegal] <;> omega

theorem javaLegal_int {v : Int} (h1 : -2 ^ 63 ≤ v) (h2 : v < 2 ^ 63) : javaLegal (intTree true v) = true := by
  unfold intTree
  by_cases hw : v < -2 ^ 31 ∨ 2 ^ 31 ≤ v
  · simp only [hw, and_self, if_true]
    split <;> simp only [javaLegal, decide_eq_true_eq] <;> omega
  · simp only [hw, and_false, if_false]
    split <;> simp only [javaLegal, decide_eq_true_eq] <;> omega

theorem javaLegal_tree {val : Tree} (hval : javaLegal val = true) (tn : Prim → Str) (ct : ExprA → Option Str) (e : ExprA) (hp : e.plain = true) :
    javaLegal (e.tree val tn ct true) = true := by
  induction e with
  | value => exact hval
  | const c =>
    cases c with
    | int neg text =>
      simp only [ExprA.plain, ConstE.good] at hp
      cases hn : parseNat text with
      | none => rw [hn] at hp; cases hp
      | some n =>
        rw [hn] at hp
        simp only [Bool.and_eq_true, decide_eq_true_eq] at hp
        have h1 := hp.1.1.1
        refine javaLegal_int ?_ ?_ <;> simp only [intValue, hn, Option.map_some, Option.getD_some] <;> split <;> omega
    | float neg ip fp => cases neg <;> rfl
    | bool b => rfl
  | parens e ih => exact ih hp
  | unary op e ih =>
    simp only [ExprA.plain, Bool.and_eq_true] at hp
    exact javaLegal_un _ _ (ih hp.1)
  | cast p e ih => exact ih hp
  | binary op a b iha ihb =>
    simp only [ExprA.plain, Bool.and_eq_true] at hp
    simp only [ExprA.tree, javaLegal, iha hp.1, ihb hp.2, Bool.and_self]
  | ternary c a b ihc iha ihb =>
    simp only [ExprA.plain, Bool.and_eq_true] at hp
    simp only [ExprA.tree, javaLegal, ihc hp.1.1, iha hp.1.2, ihb hp.2, Bool.and_self]

/-- **C47 (Java).** The value is the parameter of a setter or, in a getter, `this.f`.  Integers that do not fit into 32 bits are `long` literals, no
numeral is too large. -/
theorem C47_java (ty : Prim) (e : ExprA) (hp : e.plain = true) (val : Str)
    (hval : val = "value".toList ∨ ∃ f, f.all isWord = true ∧ val = "this.".toList ++ f) :
    ∃ s, javaTarget.method val ty e = some s ∧ ∀ t, javaLang.Reads s t ↔ t = e.tree (.name val) javaTypeName (fun _ => none) (wide := true) := by
  refine cFamily javaFits rfl (by decide) (by intro op; cases op <;> decide +kernel) (by intro op; cases op <;> decide +kernel)
    (by intro op h; cases op <;> first | exact absurd rfl h | decide +kernel) ty (vt := [.word val]) ?_ e hp (javaLegal_tree rfl _ _ e hp)
  rcases hval with rfl | ⟨f, hf, rfl⟩
  · exact nameGood (by decide +kernel) (by decide +kernel) ⟨'v', "alue".toList, by decide +kernel, by decide⟩ (by decide +kernel) (by decide +kernel)
  · exact memberGood (by decide +kernel) (by decide +kernel) (by decide +kernel) ⟨'t', "his.".toList, by decide +kernel, by decide⟩ hf

/-! ### JavaScript -/

/-- **C47 (JavaScript).** The value is the parameter of a setter or, in a getter, `this.f`.  Integers that do not fit into 32 bits are `BigInt`
literals. -/
theorem C47_js (ty : Prim) (e : ExprA) (hp : e.jsPlain = true) (val : Str)
    (hval : val = "value".toList ∨ ∃ f, f.all isWord = true ∧ val = "this.".toList ++ f) :
    ∃ s, jsTarget.method val ty e = some s ∧ ∀ t, jsLang.Reads s t ↔ t = e.tree (.name val) jsTypeName (fun _ => none) (wide := true) := by
  have hv : Good jsLang 13 false val [.word val] (.name val) := by
    rcases hval with rfl | ⟨f, hf, rfl⟩
    · exact nameGood (by decide +kernel) (by decide +kernel) ⟨'v', "alue".toList, by decide +kernel, by decide⟩ (by decide +kernel) (by decide +kernel)
    · exact memberGood (by decide +kernel) (by decide +kernel) (by decide +kernel) ⟨'t', "his.".toList, by decide +kernel, by decide⟩ hf
  have hct : condType jsTarget ty = fun _ => none := by funext a; rfl
  obtain ⟨x, s, toks, h1, _, h3, h4⟩ := ExprA.main jsFits ty hv (fun h => by cases h) (fun e => e.jsPlain = true)
    (fun c h => h) (fun e h => h)
    (by
      intro op e h
      simp only [ExprA.jsPlain, Bool.and_eq_true] at h
      refine ⟨h.1, fun s toks t _ hg => sepSym jsFits.syms hg ?_ ?_ (fun hn => ?_)⟩
      · cases op <;> decide +kernel
      · cases op <;> decide +kernel
      · rw [hn] at h
        cases op with
        | SUB => simp at h
        | _ => decide +kernel)
    (fun p e h => h)
    (by
      intro op a b h
      simp only [ExprA.jsPlain, Bool.and_eq_true, Bool.not_eq_true'] at h
      refine ⟨h.1.1, h.1.2, fun hop _ => ?_⟩
      have := h.2
      subst hop
      simpa using this)
    (by
      intro c a b h
      simp only [ExprA.jsPlain, Bool.and_eq_true] at h
      exact ⟨h.1.1, h.1.2, h.2, fun hc => by cases hc⟩) e hp
  rw [hct] at h4
  refine ⟨s, ?_, fun t => ⟨fun h => h.unique jsFits.syms (h4.reads rfl), ?_⟩⟩
  · unfold Target.method; rw [h1]; exact h3
  · rintro rfl; exact h4.reads rfl

/-! ### Python -/

theorem pyCompound_head (ty : Prim) (val : Str) : ∀ (e : ExprA) (s : Str), e.compound = true → pyTarget.method val ty e = some s →
    ∃ s', s = '(' :: s' := by
  intro e
  induction e with
  | value => intro s h; cases h
  | const c => intro s h; cases h
  | parens e ih => intro s h h'; exact ih s h h'
  | unary op e _ =>
    intro s _ h
    unfold Target.method at h
    simp only [visitExpr] at h
    cases hx : visitExpr ty e with
    | none => rw [hx] at h; cases h
    | some x =>
      rw [hx] at h
      simp only [Option.map_some, Option.bind_some, Target.expr, Option.map_eq_some_iff] at h
      obtain ⟨u, _, rfl⟩ := h
      exact ⟨_, rfl⟩
  | cast p e _ => intro s h; cases h
  | binary op a b _ _ =>
    intro s _ h
    unfold Target.method at h
    simp only [visitExpr] at h
    cases hx : visitExpr ty a with
    | none => rw [hx] at h; cases h
    | some x =>
      rw [hx] at h
      cases hy : visitExpr ty b with
      | none => rw [hy] at h; cases h
      | some y =>
        rw [hy] at h
        simp only [Option.map_some, Option.bind_some, Target.expr] at h
        cases hu : pyTarget.expr val x with
        | none => rw [hu] at h; cases h
        | some u =>
          rw [hu] at h
          simp only [Option.map_eq_some_iff] at h
          obtain ⟨v, _, rfl⟩ := h
          unfold Target.binText
          split
          · rename_i heq; cases heq
          · exact ⟨_, rfl⟩
  | ternary c a b _ _ _ =>
    intro s _ h
    unfold Target.method at h
    cases hx : visitExpr ty (.ternary c a b) with
    | none => rw [hx] at h; cases h
    | some x =>
      rw [hx] at h
      simp only [Option.bind_some] at h
      simp only [visitExpr] at hx
      cases hc : visitExpr ty c with
      | none => rw [hc] at hx; cases hx
      | some w =>
        rw [hc] at hx
        cases ha : visitExpr ty a with
        | none => rw [ha] at hx; cases hx
        | some y =>
          rw [ha] at hx
          simp only [Option.map_eq_some_iff] at hx
          obtain ⟨z, _, rfl⟩ := hx
          simp only [Target.expr] at h
          cases hw : pyTarget.expr val w with
          | none => rw [hw] at h; cases h
          | some r =>
            rw [hw] at h
            cases hy : pyTarget.expr val y with
            | none => rw [hy] at h; cases h
            | some u =>
              rw [hy] at h
              cases hz : pyTarget.expr val z with
              | none => rw [hz] at h; cases h
              | some v =>
                rw [hz] at h
                simp only [Target.condText, pyTarget, Option.some.injEq] at h
                subst h
                exact ⟨_, rfl⟩

/-- **C47 (Python).** The value is the parameter of a setter or, in a getter, `self._f`. -/
theorem C47_python (ty : Prim) (e : ExprA) (hp : e.pyPlain = true) (val : Str)
    (hval : val = "value".toList ∨ ∃ f, f.all isWord = true ∧ val = "self._".toList ++ f) :
    ∃ s, pyTarget.method val ty e = some s ∧ ∀ t, pyLang.Reads s t ↔ t = e.tree (.name val) pyTypeName (fun _ => none) := by
  have hv : Good pyLang 11 false val [.word val] (.name val) := by
    rcases hval with rfl | ⟨f, hf, rfl⟩
    · exact nameGood (by decide +kernel) (by decide +kernel) ⟨'v', "alue".toList, by decide +kernel, by decide⟩ (by decide +kernel) (by decide +kernel)
    · exact memberGood (by decide +kernel) (by decide +kernel) (by decide +kernel) ⟨'s', "elf._".toList, by decide +kernel, by decide⟩ hf
  have hct : condType pyTarget ty = fun _ => none := by funext a; rfl
  obtain ⟨x, s, toks, h1, _, h3, h4⟩ := ExprA.main pyFits ty hv (fun h => by cases h) (fun e => e.pyPlain = true)
    (fun c h => h) (fun e h => h)
    (by
      intro op e h
      simp only [ExprA.pyPlain, Bool.and_eq_true, Bool.or_eq_true, Bool.not_eq_true', decide_eq_false_iff_not] at h
      refine ⟨h.1, fun s toks t hm hg => ?_⟩
      by_cases hop : op = .NOT
      · subst hop
        intro c hc
        have hnw : isWord c = false := by
          rcases h.2 with (h2 | h2) | h2
          · exact absurd rfl h2
          · obtain ⟨s', rfl⟩ := pyCompound_head ty val e s h2 hm
            simp only [List.head?_cons, Option.some.injEq] at hc
            subst hc; decide
          · obtain ⟨c', s', rfl, h⟩ := hg.head
            simp only [List.head?_cons, Option.some.injEq] at hc
            subst hc
            rcases h with ⟨h, _⟩ | ⟨_, rfl⟩
            · rw [h2] at h; cases h
            · decide
        unfold sep
        rw [if_pos (by decide +kernel), hnw]
        rfl
      · refine sepSym pyFits.syms hg ?_ ?_ ?_
        · cases op <;> first | exact absurd rfl hop | decide +kernel
        · cases op <;> first | exact absurd rfl hop | decide +kernel
        · intro _; cases op <;> first | exact absurd rfl hop | decide +kernel)
    (fun p e h => h)
    (by
      intro op a b h
      simp only [ExprA.pyPlain, Bool.and_eq_true, Bool.not_eq_true'] at h
      refine ⟨h.1.1, h.1.2, fun hop _ => ?_⟩
      have := h.2
      subst hop
      simpa using this)
    (by
      intro c a b h
      simp only [ExprA.pyPlain, Bool.and_eq_true] at h
      exact ⟨h.1.1, h.1.2, h.2, fun hc => by cases hc⟩) e hp
  rw [hct] at h4
  refine ⟨s, ?_, fun t => ⟨fun h => h.unique pyFits.syms (h4.reads rfl), ?_⟩⟩
  · unfold Target.method; rw [h1]; exact h3
  · rintro rfl; exact h4.reads rfl

/-! ### A case, and the exceptions -/

/-- `(value * 9 / 5 + 32 > 0x64) ? uint8(value << 2) : uint8(-value)` -/
def sampleExpr : ExprA :=
  .ternary (.parens (.binary .GT (.binary .ADD (.binary .DIV (.binary .MUL .value (.const (.int false "9".toList))) (.const (.int false "5".toList)))
      (.const (.int false "32".toList))) (.const (.int false "0x64".toList))))
    (.cast .u8 (.binary .SHL .value (.const (.int false "2".toList)))) (.cast .u8 (.unary .SUB .value))

example : sampleExpr.plain = true ∧ sampleExpr.pyPlain = true ∧ sampleExpr.goTyped .u8 = true := by decide +kernel
example : (goTarget.method "this.T".toList .u8 sampleExpr) = some
    "func() uint8 { if ((((this.T * 9) / 5) + 32) > 0x64) { return uint8((this.T << 2)) } else { return uint8((-this.T)) } }()".toList := by
  decide +kernel
example : (cTarget.method "ptr->t".toList .u8 sampleExpr) = some
    "(((((ptr->t * 9) / 5) + 32) > 0x64) ? (uint8_t)(ptr->t << 2) : (uint8_t)(-ptr->t))".toList := by decide +kernel
example : (pyTarget.method "self._t".toList .u8 sampleExpr) = some
    "(int((self._t << 2)) if ((((self._t * 9) / 5) + 32) > 0x64) else int((-self._t)))".toList := by decide +kernel
example : (javaTarget.method "this.t".toList .u8 sampleExpr) = some
    "(((((this.t * 9) / 5) + 32) > 0x64) ? (byte)(this.t << 2) : (byte)(-this.t))".toList := by decide +kernel
/-- Wide literals, and a power: `value ** 2 > 5000000000 || value == -2147483648` -/
def wideExpr : ExprA :=
  .binary .OR (.binary .GT (.binary .POW .value (.const (.int false "2".toList))) (.const (.int false "5000000000".toList)))
    (.binary .EQ .value (.const (.int true "2147483648".toList)))
example : wideExpr.plain = true ∧ wideExpr.jsPlain = true ∧ sampleExpr.jsPlain = true := by decide +kernel
example : (javaTarget.method "this.t".toList .i64 wideExpr) = some
    "((Math.pow(this.t, 2) > 5000000000L) || (this.t == -2147483648))".toList := by decide +kernel
example : (jsTarget.method "this.t".toList .i64 wideExpr) = some
    "(((this.t ** 2) > 5000000000n) || (this.t == -2147483648))".toList := by decide +kernel
example : wideExpr.tree (.name "this.t".toList) javaTypeName (fun _ => none) (wide := true) =
    .bin .OR (.bin .GT (.bin .POW (.name "this.t".toList) (.num 2)) (.lnum 5000000000)) (.bin .EQ (.name "this.t".toList) (.un .SUB (.num 2147483648))) := by
  decide +kernel
example : ((sampleExpr.tree (.name "this.T".toList) primName (fun a => (a.type .u8).map primName))) =
    .cond (some "uint8".toList)
      (.bin .GT (.bin .ADD (.bin .DIV (.bin .MUL (.name "this.T".toList) (.num 9)) (.num 5)) (.num 32)) (.num 100))
      (.conv "uint8".toList (.bin .SHL (.name "this.T".toList) (.num 2))) (.conv "uint8".toList (.un .SUB (.name "this.T".toList))) := by
  decide +kernel

/-- Without types the Go target refuses a conditional: `value > 0 ? 1 : 2`. -/
example : goTarget.method "value".toList .u8
    (.ternary (.binary .GT .value (.const (.int false "0".toList))) (.const (.int false "1".toList)) (.const (.int false "2".toList))) = none := by
  decide +kernel

/-- A minus sign before a negative literal: `-(-5)` is written `(--5)`, which C (and Go, Java, JavaScript) cut into `--` and `5` and refuse. -/
theorem C47_minus_counterexample : cTarget.method "value".toList .i8 (.unary .SUB (.parens (.const (.int true "5".toList)))) = some "(--5)".toList ∧
    goTarget.method "value".toList .i8 (.unary .SUB (.parens (.const (.int true "5".toList)))) = some "(--5)".toList ∧
    javaTarget.method "value".toList .i8 (.unary .SUB (.parens (.const (.int true "5".toList)))) = some "(--5)".toList ∧
    jsTarget.method "value".toList .i8 (.unary .SUB (.parens (.const (.int true "5".toList)))) = some "(--5)".toList ∧
    (∀ t, ¬ cLang.Reads "(--5)".toList t) ∧ (∀ t, ¬ goLang.Reads "(--5)".toList t) ∧ (∀ t, ¬ javaLang.Reads "(--5)".toList t) ∧
    (∀ t, ¬ jsLang.Reads "(--5)".toList t) := by
  have key : ∀ (L : Lang), symsOk L.syms = true → closedSym L.syms ['('] = true → closedSym L.syms [')'] = true → closedSym L.syms ['-', '-'] = true →
      L.pre (.op ['(']) = none → L.pre (.op ['-', '-']) = none → ∀ t, ¬ L.Reads "(--5)".toList t := by
    intro L h1 h2 h3 h4 h5 h6 t h
    obtain ⟨-, ts, hl, N, hN⟩ := h
    have hl' : Lexes L.syms "(--5)".toList [.op ['('], .op ['-', '-'], .word ['5'], .op [')']] := by
      rw [show "(--5)".toList = ['('] ++ (['-', '-'] ++ (['5'] ++ ([')'] ++ []))) from by decide +kernel]
      exact Lexes.closed h2 (Lexes.closed h4 (Lexes.word' (by decide) (by decide) (nonword (by decide)) (Lexes.closed h3 .nil)))
    have e := Lexes.unique h1 hl hl'
    subst e
    have hp := hN (N + 6) (by omega)
    rw [parse, parse, parse, h5] at hp
    simp only [if_true] at hp
    rw [show L.castHead [Tok.op ['-', '-'], Tok.word ['5'], Tok.op [')']] = none from rfl] at hp
    simp only at hp
    rw [parse, parse, parse, h6] at hp
    simp at hp
  refine ⟨by decide +kernel, by decide +kernel, by decide +kernel, by decide +kernel, ?_, ?_, ?_, ?_⟩
  · exact key cLang (by decide +kernel) (by decide +kernel) (by decide +kernel) (by decide +kernel) (by decide +kernel) (by decide +kernel)
  · exact key goLang (by decide +kernel) (by decide +kernel) (by decide +kernel) (by decide +kernel) (by decide +kernel) (by decide +kernel)
  · exact key javaLang (by decide +kernel) (by decide +kernel) (by decide +kernel) (by decide +kernel) (by decide +kernel) (by decide +kernel)
  · exact key jsLang (by decide +kernel) (by decide +kernel) (by decide +kernel) (by decide +kernel) (by decide +kernel) (by decide +kernel)

/-- Python: `!value` is written without a space and read as one name. -/
theorem C47_python_not_counterexample : pyTarget.method "self._x".toList .bool (.unary .NOT .value) = some "(notself._x)".toList ∧
    pyLang.Reads "(notself._x)".toList (.name "notself._x".toList) := by
  refine ⟨by decide +kernel, ?_⟩
  have hg : Good pyLang 11 false "notself._x".toList [.word "notself._x".toList] (.name "notself._x".toList) :=
    memberGood (f := "_x".toList) (pre := "notself.".toList) (by decide +kernel) (by decide +kernel) (by decide +kernel)
      ⟨'n', "otself.".toList, by decide +kernel, by decide⟩ (by decide +kernel)
  have := goodParen pyFits (inner := "notself._x".toList) (ti := [.word "notself._x".toList]) (t := .name "notself._x".toList)
    (fun r ts hr => hg.lex _ _ (nonword (by decide)) (pyFits.lexClose hr)) (fun r => rfl)
    (by obtain ⟨N, hN⟩ := hg.expr; exact ⟨N, fun n hn r => hN n hn _ (pyFits.endsClose r)⟩)
  have hr := this.reads rfl
  rwa [show '(' :: "notself._x".toList ++ [')'] = "(notself._x)".toList from by decide +kernel] at hr

/-- Python: `(-5) ** 2` is written `(-5 ** 2)`, which Python reads as `-(5 ** 2)`. -/
theorem C47_python_power_counterexample :
    pyTarget.method "self._x".toList .i8 (.binary .POW (.parens (.const (.int true "5".toList))) (.const (.int false "2".toList))) = some "(-5 ** 2)".toList ∧
    pyLang.Reads "(-5 ** 2)".toList (.un .SUB (.bin .POW (.num 5) (.num 2))) := by
  refine ⟨by decide +kernel, rfl, [.op ['('], .op ['-'], .word ['5'], .op ['*', '*'], .word ['2'], .op [')']], ?_, 12, ?_⟩
  · rw [show "(-5 ** 2)".toList = ['('] ++ (['-'] ++ (['5'] ++ (' ' :: (['*', '*'] ++ (' ' :: (['2'] ++ ([')'] ++ []))))))) from by decide +kernel]
    refine Lexes.closed (by decide +kernel) (Lexes.sym' (by decide +kernel) (fun c hc => ?_) (Lexes.word' (by decide) (by decide) (nonword (by decide))
      (Lexes.space (Lexes.sym' (by decide +kernel) (fun c hc => ?_) (Lexes.space (Lexes.word' (by decide) (by decide) (nonword (by decide))
        (Lexes.closed (by decide +kernel) .nil)))))))
    · simp only [List.cons_append, List.nil_append, List.head?_cons, Option.some.injEq] at hc
      subst hc; decide +kernel
    · simp only [List.head?_cons, Option.some.injEq] at hc
      subst hc; decide +kernel
  · intro n hn
    obtain ⟨n, rfl⟩ : ∃ m, n = m + 12 := ⟨n - 12, by omega⟩
    rfl

/-- JavaScript: `(-5) ** 2` is written `(-5 ** 2)`, which is a syntax error. -/
theorem C47_js_power_counterexample :
    jsTarget.method "this.x".toList .i8 (.binary .POW (.parens (.const (.int true "5".toList))) (.const (.int false "2".toList))) = some "(-5 ** 2)".toList ∧
    ∀ t, ¬ jsLang.Reads "(-5 ** 2)".toList t := by
  refine ⟨by decide +kernel, ?_⟩
  rintro t ⟨-, ts, hl, N, hN⟩
  have hl' : Lexes jsLang.syms "(-5 ** 2)".toList [.op ['('], .op ['-'], .word ['5'], .op ['*', '*'], .word ['2'], .op [')']] := by
    rw [show "(-5 ** 2)".toList = ['('] ++ (['-'] ++ (['5'] ++ (' ' :: (['*', '*'] ++ (' ' :: (['2'] ++ ([')'] ++ []))))))) from by decide +kernel]
    refine Lexes.closed (by decide +kernel) (Lexes.sym' (by decide +kernel) (fun c hc => ?_) (Lexes.word' (by decide) (by decide) (nonword (by decide))
      (Lexes.space (Lexes.sym' (by decide +kernel) (fun c hc => ?_) (Lexes.space (Lexes.word' (by decide) (by decide) (nonword (by decide))
        (Lexes.closed (by decide +kernel) .nil)))))))
    · simp only [List.cons_append, List.nil_append, List.head?_cons, Option.some.injEq] at hc
      subst hc; decide +kernel
    · simp only [List.head?_cons, Option.some.injEq] at hc
      subst hc; decide +kernel
  have e := Lexes.unique (by decide +kernel) hl hl'
  subst e
  have hp := hN (N + 12) (by omega)
  have : ∀ n, parse jsLang (n + 12) .expr [.op ['('], .op ['-'], .word ['5'], .op ['*', '*'], .word ['2'], .op [')']] = none := fun n => rfl
  rw [this] at hp
  cases hp

end Bubbler
