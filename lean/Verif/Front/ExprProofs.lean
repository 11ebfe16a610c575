import Verif.Front.Parse

/-
The parser of expressions reads a tree exactly from its own tokens.
-/
namespace Bubbler.Front
open Ex (BinTk UnTk)

/-! ### Constants and operators -/

theorem constP_sound {ts r : List Tok} {c : Const} (h : constP ts = some (c, r)) : ts = c.toks ++ r := by
  unfold constP at h
  split at h <;> simp only [Option.some.injEq, Prod.mk.injEq, reduceCtorEq] at h <;> obtain ⟨rfl, rfl⟩ := h <;> rfl

theorem constP_toks (c : Const) (r : List Tok) : constP (c.toks ++ r) = some (c, r) := by
  cases c with
  | int sg t => cases sg with
    | none => rfl
    | some b => cases b <;> rfl
  | float sg t => cases sg with
    | none => rfl
    | some b => cases b <;> rfl
  | str t => rfl
  | bool b => rfl

theorem primTok_some {t : Tok} {p : Prim} (h : primTok t = some p) : t = kwT (primKw p) := by
  unfold primTok at h
  split at h <;> simp only [Option.some.injEq, reduceCtorEq] at h <;> subst h <;> rfl

theorem primTok_kw (p : Prim) : primTok (kwT (primKw p)) = some p := by cases p <;> rfl

theorem unTk_some {s : Sym} {op : UnTk} (h : unTk s = some op) : s = unSym op := by
  unfold unTk at h
  split at h <;> simp only [Option.some.injEq, reduceCtorEq] at h <;> subst h <;> rfl

theorem unTk_sym (op : UnTk) : unTk (unSym op) = some op := by cases op <;> rfl

theorem binTk_some {s : Sym} {op : BinTk} (h : binTk s = some op) : s = binSym op := by
  unfold binTk at h
  split at h <;> simp only [Option.some.injEq, reduceCtorEq] at h <;> subst h <;> rfl

theorem binTk_sym (op : BinTk) : binTk (binSym op) = some op := by cases op <;> rfl

theorem castHead_sound {ts r : List Tok} {p : Prim} (h : castHead ts = some (p, r)) :
    ts = symT .LP :: kwT (primKw p) :: symT .RP :: r := by
  unfold castHead at h
  split at h
  · rename_i t r'
    split at h
    · rename_i q hq
      simp only [Option.some.injEq, Prod.mk.injEq] at h
      obtain ⟨rfl, rfl⟩ := h
      rw [primTok_some hq]
    · cases h
  · cases h

theorem castHead_toks (p : Prim) (r : List Tok) :
    castHead (symT .LP :: kwT (primKw p) :: symT .RP :: r) = some (p, r) := by
  simp only [castHead, primTok_kw]

/-! ### What follows an expression -/

/-- The precedence of the operator the tokens begin with, if they do with one. -/
def nextPrec : List Tok → Option Nat
  | symT s :: _ => if s = .QUESTION then some 1 else (binTk s).map prec
  | _ => none

theorem nextPrec_bin (op : BinTk) (r : List Tok) : nextPrec (symT (binSym op) :: r) = some (prec op) := by
  cases op <;> rfl

theorem prec_ge (op : BinTk) : 2 ≤ prec op := by cases op <;> decide
theorem prec_le (op : BinTk) : prec op ≤ 14 := by cases op <;> decide

/-- An operator that follows `e` does not belong to it. -/
def Closed (e : Expr) (r : List Tok) : Prop := ∀ q, nextPrec r = some q → e.takes q = false

theorem toks_ne (e : Expr) : e.toks ≠ [] := by
  cases e with
  | const c => cases c with
    | int sg t => intro h; simp [Expr.toks, Const.toks] at h
    | float sg t => intro h; simp [Expr.toks, Const.toks] at h
    | str t => intro h; cases h
    | bool b => intro h; cases h
  | binary op a b => intro h; simp [Expr.toks] at h
  | ternary c a b => intro h; simp [Expr.toks] at h
  | value => intro h; cases h
  | parens e => intro h; cases h
  | unary op e => intro h; cases h
  | cast p e => intro h; cases h

theorem toks_pos (e : Expr) : 1 ≤ e.toks.length := by
  have := toks_ne e
  cases h : e.toks with
  | nil => exact absurd h this
  | cons a l => simp

theorem numHead_append {l r : List Tok} (h : l ≠ []) : numHead (l ++ r) = numHead l := by
  cases l with
  | nil => exact absurd rfl h
  | cons a l => cases a with
    | tk t => cases t <;> rfl
    | _ => rfl

theorem constP_sign (s : Sym) (hs : s = .ADD ∨ s = .SUB) (r : List Tok) :
    (constP (symT s :: r)).isSome = numHead r := by
  rcases hs with rfl | rfl <;> cases r with
  | nil => rfl
  | cons t r => cases t with
    | tk t => cases t <;> rfl
    | _ => rfl

/-! ### Soundness -/

/-- What `primP` promises. -/
def PrimOk (ts : List Tok) (e : Expr) (r : List Tok) : Prop :=
  ts = e.toks ++ r ∧ e.WF ∧ e.top = 16 ∧ Closed e r

/-- What `exprP` promises. -/
def ExprOk (p : Nat) (ts : List Tok) (e : Expr) (r : List Tok) : Prop :=
  ts = e.toks ++ r ∧ e.WF ∧ p ≤ e.top ∧ Closed e r ∧ ∀ q, nextPrec r = some q → q < p

theorem expr_sound : ∀ n,
    (∀ ts e r, primP n ts = some (e, r) → PrimOk ts e r) ∧
    (∀ p ts e r, p ≤ 16 → exprP n p ts = some (e, r) → ExprOk p ts e r) ∧
    (∀ p e₀ ts e r, e₀.WF → p ≤ e₀.top → Closed e₀ ts → loopP n p e₀ ts = some (e, r) →
      ExprOk p (e₀.toks ++ ts) e r)
  | 0 => ⟨fun _ _ _ h => by simp [primP] at h, fun _ _ _ _ _ h => by simp [exprP] at h,
      fun _ _ _ _ _ _ _ _ h => by simp [loopP] at h⟩
  | n + 1 => by
    obtain ⟨ihp, ihe, ihl⟩ := expr_sound n
    refine ⟨?_, ?_, ?_⟩
    · intro ts e r h
      simp only [primP] at h; unfold primStep at h
      split at h
      · rename_i c r' hc
        simp only [Option.some.injEq, Prod.mk.injEq] at h
        obtain ⟨rfl, rfl⟩ := h
        exact ⟨constP_sound hc, trivial, rfl, fun q _ => rfl⟩
      · rename_i hc
        split at h
        · rename_i p r' hp
          split at h
          · rename_i e' r'' he
            simp only [Option.some.injEq, Prod.mk.injEq] at h
            obtain ⟨rfl, rfl⟩ := h
            obtain ⟨h1, h2, h3, h4, h5⟩ := ihe 12 _ _ _ (by decide) he
            refine ⟨?_, ⟨h2, h3⟩, rfl, ?_⟩
            · rw [castHead_sound hp, h1]; rfl
            · intro q hq
              simp only [Expr.takes, h4 q hq, Bool.or_false, decide_eq_false_iff_not]
              have := h5 q hq
              omega
          · cases h
        · split at h
          · simp only [Option.some.injEq, Prod.mk.injEq] at h
            obtain ⟨rfl, rfl⟩ := h
            exact ⟨rfl, trivial, rfl, fun q _ => rfl⟩
          · split at h
            · rename_i r' _ e' r'' he
              simp only [Option.some.injEq, Prod.mk.injEq] at h
              obtain ⟨rfl, rfl⟩ := h
              obtain ⟨h1, h2, h3, h4, h5⟩ := ihe 0 _ _ _ (by decide) he
              refine ⟨?_, h2, rfl, fun q _ => rfl⟩
              rw [h1]; simp [Expr.toks]
            · cases h
          · rename_i s r' _ _
            split at h
            · rename_i op hop
              split at h
              · rename_i e' r'' he
                simp only [Option.some.injEq, Prod.mk.injEq] at h
                obtain ⟨rfl, rfl⟩ := h
                obtain ⟨h1, h2, h3, h4, h5⟩ := ihe 13 _ _ _ (by decide) he
                refine ⟨?_, ⟨h2, h3, ?_⟩, rfl, ?_⟩
                · rw [unTk_some hop, h1]; rfl
                · intro hs
                  have hs' : s = .ADD ∨ s = .SUB := by
                    rw [unTk_some hop]; rcases hs with rfl | rfl
                    · exact Or.inl rfl
                    · exact Or.inr rfl
                  have := constP_sign s hs' r'
                  rw [hc, h1, numHead_append (toks_ne _)] at this
                  exact this.symm
                · intro q hq
                  simp only [Expr.takes, h4 q hq, Bool.or_false, decide_eq_false_iff_not]
                  have := h5 q hq
                  omega
              · cases h
            · cases h
          · cases h
    · intro p ts e r hp h
      rw [exprP] at h
      split at h
      · rename_i e' r' he
        obtain ⟨h1, h2, h3, h4⟩ := ihp _ _ _ he
        rw [h1]
        exact ihl p _ _ _ _ h2 (by omega) h4 h
      · cases h
    · intro p e₀ ts e r hwf htop hcl h
      simp only [loopP] at h; unfold loopStep at h
      split at h
      · rename_i s r'
        split at h
        · rename_i hs
          subst hs
          split at h
          · rename_i hp
            split at h
            · rename_i a r1 ha
              split at h
              · rename_i b r2 hb
                obtain ⟨a1, a2, a3, a4, a5⟩ := ihe 0 _ _ _ (by decide) ha
                obtain ⟨b1, b2, b3, b4, b5⟩ := ihe 2 _ _ _ (by decide) hb
                have := ihl p (.ternary e₀ a b) _ _ _ ⟨hwf, a2, b2, hcl 1 rfl, b3⟩ hp (fun q hq => by
                  simp only [Expr.takes, b4 q hq, Bool.or_false, decide_eq_false_iff_not]
                  have := b5 q hq
                  omega) h
                rw [a1, b1]
                simpa [Expr.toks] using this
              · cases h
            · cases h
          · rename_i hp
            simp only [Option.some.injEq, Prod.mk.injEq] at h
            obtain ⟨rfl, rfl⟩ := h
            refine ⟨rfl, hwf, htop, hcl, fun q hq => ?_⟩
            simp only [nextPrec, if_pos] at hq
            simp only [Option.some.injEq] at hq
            omega
        · rename_i hs
          split at h
          · rename_i op hop
            have hso := binTk_some hop
            subst hso
            split at h
            · rename_i hp
              split at h
              · rename_i b r1 hb
                have hle := prec_le op
                obtain ⟨b1, b2, b3, b4, b5⟩ := ihe (prec op + 1) _ _ _ (by omega) hb
                have := ihl p (.binary op e₀ b) _ _ _
                  ⟨hwf, b2, hcl _ (nextPrec_bin op _), by omega⟩ hp (fun q hq => by
                    simp only [Expr.takes, b4 q hq, Bool.or_false, decide_eq_false_iff_not]
                    have := b5 q hq
                    omega) h
                rw [b1]
                simpa [Expr.toks] using this
              · cases h
            · rename_i hp
              simp only [Option.some.injEq, Prod.mk.injEq] at h
              obtain ⟨rfl, rfl⟩ := h
              refine ⟨rfl, hwf, htop, hcl, fun q hq => ?_⟩
              rw [nextPrec_bin] at hq
              simp only [Option.some.injEq] at hq
              omega
          · rename_i hop
            simp only [Option.some.injEq, Prod.mk.injEq] at h
            obtain ⟨rfl, rfl⟩ := h
            refine ⟨rfl, hwf, htop, hcl, fun q hq => ?_⟩
            simp only [nextPrec, if_neg hs, hop, Option.map_none] at hq
            cases hq
      · rename_i hne
        simp only [Option.some.injEq, Prod.mk.injEq] at h
        obtain ⟨rfl, rfl⟩ := h
        refine ⟨rfl, hwf, htop, hcl, fun q hq => ?_⟩
        unfold nextPrec at hq
        split at hq
        · rename_i s r'
          exact absurd rfl (hne s r')
        · cases hq

/-! ### Completeness -/

theorem expr_mono : ∀ n,
    (∀ ts x, primP n ts = some x → primP (n + 1) ts = some x) ∧
    (∀ p ts x, exprP n p ts = some x → exprP (n + 1) p ts = some x) ∧
    (∀ p e ts x, loopP n p e ts = some x → loopP (n + 1) p e ts = some x)
  | 0 => ⟨fun _ _ h => by simp [primP] at h, fun _ _ _ h => by simp [exprP] at h,
      fun _ _ _ _ h => by simp [loopP] at h⟩
  | n + 1 => by
    obtain ⟨ihp, ihe, ihl⟩ := expr_mono n
    refine ⟨?_, ?_, ?_⟩
    · intro ts x h
      change primStep (exprP n) ts = some x at h
      change primStep (exprP (n + 1)) ts = some x
      unfold primStep at h ⊢
      split at h
      · exact h
      · split at h
        · split at h
          · rename_i he
            rw [ihe _ _ _ he]; exact h
          · cases h
        · split at h
          · exact h
          · split at h
            · rename_i he
              simp only [ihe _ _ _ he]; exact h
            · cases h
          · split at h
            · rename_i op hop
              split at h
              · rename_i he
                simp only [ihe _ _ _ he]; exact h
              · cases h
            · cases h
          · cases h
    · intro p ts x h
      rw [exprP] at h ⊢
      split at h
      · rename_i he
        rw [ihp _ _ he]; exact ihl _ _ _ _ h
      · cases h
    · intro p e ts x h
      change loopStep (exprP n) (loopP n p) p e ts = some x at h
      change loopStep (exprP (n + 1)) (loopP (n + 1) p) p e ts = some x
      unfold loopStep at h ⊢
      split at h
      · split at h
        · rename_i hs
          simp only [if_pos hs]
          split at h
          · rename_i hp
            simp only [if_pos hp]
            split at h
            · rename_i ha
              split at h
              · rename_i hb
                simp only [ihe _ _ _ ha, ihe _ _ _ hb]
                exact ihl _ _ _ _ h
              · cases h
            · cases h
          · rename_i hp
            simp only [if_neg hp]; exact h
        · rename_i hs
          simp only [if_neg hs]
          split at h
          · rename_i op hop
            split at h
            · rename_i hp
              simp only [if_pos hp]
              split at h
              · rename_i hb
                simp only [ihe _ _ _ hb]
                exact ihl _ _ _ _ h
              · cases h
            · rename_i hp
              simp only [if_neg hp]; exact h
          · rename_i hop
            exact h
      · exact h

theorem loopP_mono {n m p : Nat} {e : Expr} {ts : List Tok} {x} (h : loopP n p e ts = some x) (hm : n ≤ m) :
    loopP m p e ts = some x := by
  induction hm with
  | refl => exact h
  | step _ ih => exact (expr_mono _).2.2 _ _ _ _ ih

/-- The loop ends where no operator of its precedence follows. -/
theorem loopP_stop {n p : Nat} {e : Expr} {r : List Tok} (h : ∀ q, nextPrec r = some q → q < p) :
    loopP (n + 1) p e r = some (e, r) := by
  rw [loopP]; unfold loopStep
  split
  · rename_i s r'
    split
    · rename_i hs
      subst hs
      have := h 1 rfl
      rw [if_neg (by omega)]
    · rename_i hs
      split
      · rename_i op hop
        have := h (prec op) (by simp only [nextPrec, if_neg hs, hop, Option.map_some])
        rw [if_neg (by omega)]
      · rfl
  · rfl

theorem castHead_none_of {ts : List Tok} (h : ∀ t r, ts = symT .LP :: t :: symT .RP :: r → primTok t = none) :
    castHead ts = none := by
  unfold castHead
  split
  · rename_i t r
    rw [h t r rfl]
  · rfl

/-- The tokens of an expression do not begin with a type. -/
theorem toks_prim (e : Expr) : ∀ t l, e.toks = t :: l → primTok t = none := by
  induction e with
  | value => intro t l h; cases h; rfl
  | const c =>
    intro t l h
    cases c with
    | int sg t => cases sg with
      | none => cases h; rfl
      | some b => cases b <;> (cases h; rfl)
    | float sg t => cases sg with
      | none => cases h; rfl
      | some b => cases b <;> (cases h; rfl)
    | str t => cases h; rfl
    | bool b => cases h; rfl
  | parens e ih => intro t l h; cases h; rfl
  | unary op e ih => intro t l h; cases h; rfl
  | cast p e ih => intro t l h; cases h; rfl
  | binary op a b iha ihb =>
    intro t l h
    cases ha : a.toks with
    | nil => exact absurd ha (toks_ne a)
    | cons t' l' =>
      simp only [Expr.toks, ha, List.cons_append, List.cons.injEq] at h
      exact h.1 ▸ iha _ _ ha
  | ternary c a b ihc iha ihb =>
    intro t l h
    cases ha : c.toks with
    | nil => exact absurd ha (toks_ne c)
    | cons t' l' =>
      simp only [Expr.toks, ha, List.cons_append, List.cons.injEq] at h
      exact h.1 ▸ ihc _ _ ha

/-- Operands and prefix operators with their operands. -/
theorem primP_of {n m p : Nat} {e : Expr} {r : List Tok} {x} (hl : loopP m p e r = some x)
    (hp : primP n (e.toks ++ r) = some (e, r)) (hm : m ≤ n) : exprP (n + 1) p (e.toks ++ r) = some x := by
  rw [exprP, hp]
  exact loopP_mono hl hm

theorem expr_complete : ∀ (e : Expr), e.WF → ∀ (p n m : Nat) (r : List Tok) x, p ≤ e.top → Closed e r →
    loopP m p e r = some x → m + 3 * e.toks.length ≤ n → exprP n p (e.toks ++ r) = some x
  | .value, _, p, n, m, r, x, _, _, hl, hn => by
    simp only [Expr.toks, List.length_cons, List.length_nil] at hn
    obtain ⟨k, rfl⟩ : ∃ k, n = k + 2 := ⟨n - 2, by omega⟩
    exact primP_of hl (by rfl) (by omega)
  | .const c, _, p, n, m, r, x, _, _, hl, hn => by
    have := toks_pos (.const c)
    obtain ⟨k, rfl⟩ : ∃ k, n = k + 2 := ⟨n - 2, by omega⟩
    refine primP_of hl ?_ (by omega)
    rw [primP]; unfold primStep; rw [show (Expr.const c).toks = c.toks from rfl, constP_toks]
  | .parens e, hwf, p, n, m, r, x, _, _, hl, hn => by
    simp only [Expr.toks, List.length_cons, List.length_append, List.length_nil] at hn
    obtain ⟨k, rfl⟩ : ∃ k, n = k + 2 := ⟨n - 2, by omega⟩
    refine primP_of hl ?_ (by omega)
    have he := expr_complete e hwf 0 k 1 (symT .RP :: r) (e, symT .RP :: r) (by omega)
      (fun q hq => by cases hq) (loopP_stop (fun q hq => by cases hq)) (by omega)
    have hc : castHead (symT .LP :: (e.toks ++ symT .RP :: r)) = none := castHead_none_of fun t l h => by
      cases ht : e.toks with
      | nil => exact absurd ht (toks_ne e)
      | cons t' l' =>
        rw [ht] at h
        simp only [List.cons_append, List.cons.injEq, true_and] at h
        exact h.1 ▸ toks_prim e _ _ ht
    have ht : (Expr.parens e).toks ++ r = symT .LP :: (e.toks ++ symT .RP :: r) := by simp [Expr.toks]
    rw [ht, primP]; unfold primStep; rw [show constP (symT .LP :: (e.toks ++ symT .RP :: r)) = none from rfl]
    simp only [hc, he]
  | .unary op e, hwf, p, n, m, r, x, _, hcl, hl, hn => by
    simp only [Expr.toks, List.length_cons] at hn
    obtain ⟨k, rfl⟩ : ∃ k, n = k + 2 := ⟨n - 2, by omega⟩
    refine primP_of hl ?_ (by omega)
    have hcl' : ∀ q, nextPrec r = some q → q < 13 ∧ e.takes q = false := fun q hq => by
      have := hcl q hq
      simp only [Expr.takes, Bool.or_eq_false_iff, decide_eq_false_iff_not] at this
      exact ⟨by omega, this.2⟩
    have he := expr_complete e hwf.1 13 k 1 r (e, r) hwf.2.1 (fun q hq => (hcl' q hq).2)
      (loopP_stop fun q hq => (hcl' q hq).1) (by omega)
    have ht : (Expr.unary op e).toks ++ r = symT (unSym op) :: (e.toks ++ r) := by simp [Expr.toks]
    have hc : constP (symT (unSym op) :: (e.toks ++ r)) = none := by
      by_cases ho : op = .ADD ∨ op = .SUB
      · have hs := constP_sign (unSym op) (by rcases ho with rfl | rfl <;> decide) (e.toks ++ r)
        rw [numHead_append (toks_ne e), hwf.2.2 ho] at hs
        cases hcc : constP (symT (unSym op) :: (e.toks ++ r)) with
        | none => rfl
        | some v => rw [hcc] at hs; cases hs
      · cases op with
        | ADD => exact absurd (Or.inl rfl) ho
        | SUB => exact absurd (Or.inr rfl) ho
        | BNOT => rfl
        | NOT => rfl
    have hh : castHead (symT (unSym op) :: (e.toks ++ r)) = none := castHead_none_of fun t l h => by
      cases op <;> cases h
    rw [ht, primP]; unfold primStep; rw [hc, hh]
    cases op <;> simp only [unSym, unTk, he]
  | .cast q e, hwf, p, n, m, r, x, _, hcl, hl, hn => by
    simp only [Expr.toks, List.length_cons] at hn
    obtain ⟨k, rfl⟩ : ∃ k, n = k + 2 := ⟨n - 2, by omega⟩
    refine primP_of hl ?_ (by omega)
    have hcl' : ∀ q, nextPrec r = some q → q < 12 ∧ e.takes q = false := fun q hq => by
      have := hcl q hq
      simp only [Expr.takes, Bool.or_eq_false_iff, decide_eq_false_iff_not] at this
      exact ⟨by omega, this.2⟩
    have he := expr_complete e hwf.1 12 k 1 r (e, r) hwf.2 (fun q hq => (hcl' q hq).2)
      (loopP_stop fun q hq => (hcl' q hq).1) (by omega)
    have ht : (Expr.cast q e).toks ++ r = symT .LP :: kwT (primKw q) :: symT .RP :: (e.toks ++ r) := by
      simp [Expr.toks]
    rw [ht, primP]; unfold primStep; rw [show constP (symT .LP :: kwT (primKw q) :: symT .RP :: (e.toks ++ r)) = none from rfl, castHead_toks]
    simp only [he]
  | .binary op a b, hwf, p, n, m, r, x, htop, hcl, hl, hn => by
    simp only [Expr.toks, List.length_cons, List.length_append] at hn
    have hcl' : ∀ q, nextPrec r = some q → q < prec op + 1 ∧ b.takes q = false := fun q hq => by
      have := hcl q hq
      simp only [Expr.takes, Bool.or_eq_false_iff, decide_eq_false_iff_not] at this
      exact ⟨by omega, this.2⟩
    have hpb := toks_pos b
    have hb := expr_complete b hwf.2.1 (prec op + 1) (m + 3 * b.toks.length + 1) 1 r (b, r) hwf.2.2.2
      (fun q hq => (hcl' q hq).2) (loopP_stop fun q hq => (hcl' q hq).1) (by omega)
    have ht : (Expr.binary op a b).toks ++ r = a.toks ++ (symT (binSym op) :: (b.toks ++ r)) := by simp [Expr.toks]
    have hatop : p ≤ a.top := by
      have h1 := hwf.2.2.1
      have h2 := prec_ge op
      have h3 := prec_le op
      have h4 : p ≤ prec op := htop
      cases a with
      | binary op' a' b' =>
        simp only [Expr.takes, Bool.or_eq_false_iff, decide_eq_false_iff_not] at h1
        simp only [Expr.top]; omega
      | ternary c' a' b' =>
        simp only [Expr.takes, Bool.or_eq_false_iff, decide_eq_false_iff_not] at h1
        omega
      | _ => simp only [Expr.top]; omega
    rw [ht]
    refine expr_complete a hwf.1 p n (m + 3 * b.toks.length + 2) _ x hatop ?_ ?_ (by omega)
    · intro q hq
      rw [nextPrec_bin] at hq
      simp only [Option.some.injEq] at hq
      subst hq
      exact hwf.2.2.1
    · rw [loopP]; unfold loopStep
      have hs : binSym op ≠ .QUESTION := by cases op <;> decide
      simp only [if_neg hs, binTk_sym, if_pos (show p ≤ prec op from htop), hb]
      exact loopP_mono hl (by omega)
  | .ternary c a b, hwf, p, n, m, r, x, htop, hcl, hl, hn => by
    simp only [Expr.toks, List.length_cons, List.length_append] at hn
    have hcl' : ∀ q, nextPrec r = some q → q < 2 ∧ b.takes q = false := fun q hq => by
      have := hcl q hq
      simp only [Expr.takes, Bool.or_eq_false_iff, decide_eq_false_iff_not] at this
      exact ⟨by omega, this.2⟩
    have hpb := toks_pos b
    have hpa := toks_pos a
    have hb := expr_complete b hwf.2.2.1 2 (m + 3 * b.toks.length + 3 * a.toks.length) 1 r (b, r)
      hwf.2.2.2.2 (fun q hq => (hcl' q hq).2) (loopP_stop fun q hq => (hcl' q hq).1) (by omega)
    have ha := expr_complete a hwf.2.1 0 (m + 3 * b.toks.length + 3 * a.toks.length) 1
      (symT .COLON :: (b.toks ++ r)) (a, symT .COLON :: (b.toks ++ r)) (by omega)
      (fun q hq => by cases hq) (loopP_stop (fun q hq => by cases hq)) (by omega)
    have ht : (Expr.ternary c a b).toks ++ r =
        c.toks ++ (symT .QUESTION :: (a.toks ++ symT .COLON :: (b.toks ++ r))) := by simp [Expr.toks]
    have hctop : p ≤ c.top := by
      have h4 : p ≤ 1 := htop
      cases c with
      | binary op' a' b' => have := prec_ge op'; simp only [Expr.top]; omega
      | ternary c' a' b' => simp only [Expr.top]; omega
      | _ => simp only [Expr.top]; omega
    rw [ht]
    refine expr_complete c hwf.1 p n (m + 3 * b.toks.length + 3 * a.toks.length + 1) _ x hctop ?_ ?_ (by omega)
    · intro q hq
      simp only [nextPrec, if_pos, Option.some.injEq] at hq
      subst hq
      exact hwf.2.2.2.1
    · rw [loopP]; unfold loopStep
      simp only [if_pos, if_pos (show p ≤ 1 from htop), ha, hb]
      exact loopP_mono hl (by omega)

/-- An expression before a token that is no operator. -/
theorem exprP_toks {e : Expr} (h : e.WF) {n : Nat} {r : List Tok} (hr : nextPrec r = none)
    (hn : 3 * e.toks.length + 1 ≤ n) : exprP n 0 (e.toks ++ r) = some (e, r) :=
  expr_complete e h 0 n 1 r (e, r) (by omega) (fun q hq => by rw [hr] at hq; cases hq)
    (loopP_stop fun q hq => by rw [hr] at hq; cases hq) (by omega)

end Bubbler.Front
