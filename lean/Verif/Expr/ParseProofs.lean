import Verif.Expr.LexProofs

/-
The printed text of an expression is read back as the expression: the general argument, for any target and language
whose tables fit (`Fits`).
-/
namespace Bubbler.Ex
open Num

/-- The token a text without spaces, all word characters or none, is cut into. -/
def tokOf (s : Str) : Tok := if s.all isWord then .word s else .op s

/-- Can `s` be directly before `c`? -/
def sep (L : Lang) (s : Str) (c : Char) : Bool := if s.all isWord then !isWord c else !canExt L.syms s c

/-- `s` is a word or a symbol. -/
def oneTok (L : Lang) (s : Str) : Bool := !s.isEmpty && (s.all isWord || decide (s ∈ L.syms))

theorem lexTok {L : Lang} {s r : Str} {ts : List Tok} (h : oneTok L s = true) (hs : ∀ c, r.head? = some c → sep L s c = true)
    (hr : Lexes L.syms r ts) : Lexes L.syms (s ++ r) (tokOf s :: ts) := by
  simp only [oneTok, Bool.and_eq_true, Bool.not_eq_true', List.isEmpty_eq_false_iff, Bool.or_eq_true, decide_eq_true_eq] at h
  unfold tokOf
  unfold sep at hs
  cases hw : s.all isWord with
  | true =>
    simp only [hw, if_true, Bool.not_eq_true'] at hs ⊢
    exact Lexes.word' h.1 hw hs hr
  | false =>
    simp only [hw, Bool.false_eq_true, if_false, Bool.not_eq_true', false_or] at hs h ⊢
    exact Lexes.sym' h.2 hs hr

/-- Every token an operand may be followed by, except operators. -/
def closers : List Tok := [.op [')'], .op [','], .op ['?'], .op [':'], .op ['{'], .op ['}'], .word ['i', 'f'], .word ['e', 'l', 's', 'e']]

def binFit (P : Target) (L : Lang) (tight : Nat) (op : BinTk) : Bool :=
  let s := P.opStr (visitBinOp op)
  oneTok L s && sep L s ' ' &&
  decide (tokOf s ≠ .op ['(']) && decide (tokOf s ≠ .op ['-', '>']) && decide (tokOf s ≠ .op [')']) &&
  match L.bin (tokOf s) with
  | some (op', p, q) => decide (op' = op) && decide (q ≤ tight) && ((decide (p < tight) && decide (op ∉ L.noPre)) || (decide (op = .POW) && L.castPrefix.isNone))
  | none => false

def unFit (P : Target) (L : Lang) (tight : Nat) (op : UnTk) : Bool :=
  let s := P.opStr (visitUnOp op)
  oneTok L s && (L.castPrefix.isNone || !s.all isWord) &&
  match L.pre (tokOf s) with
  | some (op', q) => decide (op' = op) && decide (q ≤ tight)
  | none => false

def typeFit (P : Target) (L : Lang) (p : Prim) : Bool :=
  let s := P.typeName p
  !s.isEmpty && s.all isWord && decide (s ∈ L.types) && (L.pre (.word s)).isNone && decide (L.pow ≠ some s)

/-- The words of the language that stand for something else do not begin with a digit. -/
def wordsFit (L : Lang) : Bool :=
  (L.tru :: L.fls :: (L.reserved ++ L.types ++ L.pow.toList)).all (fun s => !(s.head?.any Char.isDigit)) &&
  L.pres.all (fun x => match x.1 with | .word s => !(s.head?.any Char.isDigit) | .op _ => true)

def boolFit (P : Target) (L : Lang) : Bool :=
  decide (P.boolStr true = L.tru) && decide (P.boolStr false = L.fls) && decide (L.tru ≠ L.fls) &&
  [L.tru, L.fls].all fun s => !s.isEmpty && s.all isWord && (L.pre (.word s)).isNone

def powFit (L : Lang) : Bool :=
  match L.pow with
  | none => true
  | some s => !s.isEmpty && s.all isWord && (L.pre (.word s)).isNone

def condFit (L : Lang) : Bool :=
  match L.cond with
  | .go => L.castPrefix.isNone && (L.pre (.word "func".toList)).isNone && decide (L.pow ≠ some "func".toList) &&
      decide ("func".toList ∉ L.types)
  | .c => true
  | .py => true

/-- The suffix of wide integers is a letter that is no digit. -/
def suffixFit (L : Lang) : Bool :=
  match L.suffix with
  | none => true
  | some c => isWord c && decide (c ≠ '.') && (List.range 16).all fun d => decide (digitChar d ≠ c)

/-- The tables of the printer and of the language fit together. -/
structure Fits (P : Target) (L : Lang) (tight : Nat) : Prop where
  syms : symsOk L.syms = true
  closed : ∀ s ∈ [['('], [')'], [','], ['{'], ['}']], closedSym L.syms s = true
  marks : L.cond = .c → ['?'] ∈ L.syms ∧ [':'] ∈ L.syms
  prePar : L.pre (.op ['(']) = none
  clos : ∀ t ∈ closers, L.bin t = none ∧ t ∉ L.chains
  bin : ∀ op, (op = .POW → P.pow = none) → binFit P L tight op = true
  un : ∀ op, unFit P L tight op = true
  sub : ['-'] ∈ L.syms ∧ L.pre (.op ['-']) = some (.SUB, tight)
  types : ∀ p, typeFit P L p = true
  words : wordsFit L = true
  bools : boolFit P L = true
  castP : P.castPrefix = L.castPrefix.isSome ∧ ∀ q, L.castPrefix = some q → q = tight
  pow : P.pow = L.pow ∧ powFit L = true
  cond : P.cond = L.cond ∧ condFit L = true
  suffix : P.suffix = L.suffix ∧ suffixFit L = true


theorem o_par : o "(" = .op ['('] := by decide +kernel
theorem o_close : o ")" = .op [')'] := by decide +kernel
theorem o_comma : o "," = .op [','] := by decide +kernel
theorem o_quest : o "?" = .op ['?'] := by decide +kernel
theorem o_colon : o ":" = .op [':'] := by decide +kernel
theorem o_open : o "{" = .op ['{'] := by decide +kernel
theorem o_shut : o "}" = .op ['}'] := by decide +kernel
theorem o_arrow : o "->" = .op ['-', '>'] := by decide +kernel
theorem w_if : w "if" = .word ['i', 'f'] := by decide +kernel
theorem w_else : w "else" = .word ['e', 'l', 's', 'e'] := by decide +kernel

/-- What may follow an operand: not a call, not a member. -/
def Stop (rest : List Tok) : Prop := rest.head? ≠ some (.op ['(']) ∧ rest.head? ≠ some (.op ['-', '>'])

/-- An operator that follows binds weaker than a prefix operator, and may follow one. -/
def Weak (L : Lang) (tight : Nat) (rest : List Tok) : Prop :=
  ∀ t op p q, rest.head? = some t → L.bin t = some (op, p, q) → p < tight ∧ op ∉ L.noPre

theorem Weak.barred {L : Lang} {tight : Nat} {rest : List Tok} (h : Weak L tight rest) : L.barred rest = false := by
  cases rest with
  | nil => rfl
  | cons t r =>
    unfold Lang.barred
    simp only
    cases hb : L.bin t with
    | none => rfl
    | some x =>
      obtain ⟨op, p, q⟩ := x
      simpa using (h t op p q rfl hb).2

theorem expect_ne {t : Tok} {rest : List Tok} (h : rest.head? ≠ some t) : expect [t] rest = none := by
  cases rest with
  | nil => rfl
  | cons t' r =>
    simp only [List.head?_cons, ne_eq, Option.some.injEq] at h
    simp only [expect, h, if_false]

theorem expect_eq (t : Tok) (r : List Tok) : expect [t] (t :: r) = some r := by simp only [expect, if_true]

/-- The text `s` is an operand: it is cut into `toks`, and they are read as `t`. -/
structure Good (L : Lang) (tight : Nat) (neg : Bool) (s : Str) (toks : List Tok) (t : Tree) : Prop where
  lex : ∀ r ts, (∀ c, r.head? = some c → isWord c = false) → Lexes L.syms r ts → Lexes L.syms (s ++ r) (toks ++ ts)
  head : ∃ c s', s = c :: s' ∧ ((neg = false ∧ (isWord c = true ∨ c = '(')) ∨ (neg = true ∧ c = '-'))
  nocast : ∀ rest, rest.head? ≠ some (.op [')']) → L.castHead (toks ++ rest) = none
  parse : ∃ N, ∀ n, N ≤ n → ∀ min, min ≤ tight → ∀ rest, Stop rest →
    (neg = true ∨ L.castPrefix.isSome = true → Weak L tight rest) →
    parse L n (.unary min) (toks ++ rest) = some (t, rest)

/-- Operands as operands of operators. -/
theorem Good.bin {L : Lang} {tight : Nat} {neg : Bool} {s : Str} {toks : List Tok} {t : Tree} (h : Good L tight neg s toks t) :
    ∃ N, ∀ n, N ≤ n → ∀ min, min ≤ tight → ∀ rest, Stop rest → (∀ t, rest.head? = some t → L.bin t = none) →
      Ex.parse L n (.bin min) (toks ++ rest) = some (t, rest) := by
  obtain ⟨N, hN⟩ := h.parse
  refine ⟨N + 2, fun n hn min hmin rest hs hb => ?_⟩
  obtain ⟨n, rfl⟩ : ∃ m, n = m + 2 := ⟨n - 2, by omega⟩
  have hw : Weak L tight rest := fun t op p q ht hq => by rw [hb t ht] at hq; cases hq
  rw [Ex.parse, hN (n + 1) (by omega) min hmin rest hs (fun _ => hw)]
  show Ex.parse L (n + 1) (.loop min t) rest = _
  cases rest with
  | nil => rw [Ex.parse]
  | cons t' r => rw [Ex.parse, hb t' rfl]

/-- The next token ends an expression. -/
def Ends (L : Lang) (rest : List Tok) : Prop :=
  ∀ t, rest.head? = some t → L.bin t = none ∧ t ≠ .op ['('] ∧ t ≠ .op ['-', '>'] ∧ (L.cond = .c → t ≠ .op ['?']) ∧ (L.cond = .py → t ≠ .word ['i', 'f'])

theorem Ends.stop {L : Lang} {rest : List Tok} (h : Ends L rest) : Stop rest :=
  ⟨fun e => (h _ e).2.1 rfl, fun e => (h _ e).2.2.1 rfl⟩

theorem Ends.barred {L : Lang} {rest : List Tok} (h : Ends L rest) : L.barred rest = false := by
  cases rest with
  | nil => rfl
  | cons t r =>
    unfold Lang.barred
    simp only [(h t rfl).1]

/-- After the first operand of an expression, if nothing follows. -/
theorem parse_expr_of_bin {L : Lang} {n : Nat} {ts rest : List Tok} {t : Tree} (h : parse L n (.bin 0) ts = some (t, rest))
    (he : Ends L rest) : parse L (n + 1) .expr ts = some (t, rest) := by
  rw [parse, h]
  show (match L.cond with | .go => _ | .c => _ | .py => _) = _
  cases hc : L.cond with
  | go => rfl
  | c =>
    simp only
    rw [o_quest, expect_ne (fun e => (he _ e).2.2.2.1 hc rfl)]
    rfl
  | py =>
    simp only
    rw [w_if, expect_ne (fun e => (he _ e).2.2.2.2 hc rfl)]
    rfl

theorem Good.expr {L : Lang} {tight : Nat} {neg : Bool} {s : Str} {toks : List Tok} {t : Tree} (h : Good L tight neg s toks t) :
    ∃ N, ∀ n, N ≤ n → ∀ rest, Ends L rest → Ex.parse L n .expr (toks ++ rest) = some (t, rest) := by
  obtain ⟨N, hN⟩ := h.bin
  refine ⟨N + 1, fun n hn rest he => ?_⟩
  obtain ⟨n, rfl⟩ : ∃ m, n = m + 1 := ⟨n - 1, by omega⟩
  exact parse_expr_of_bin (hN n (by omega) 0 (by omega) rest he.stop (fun t ht => (he t ht).1)) he


section
variable {P : Target} {L : Lang} {tight : Nat}

theorem Fits.ends (F : Fits P L tight) {t : Tok} {r : List Tok} (ht : t ∈ closers) (h1 : t ≠ .op ['?']) (h2 : t ≠ .word ['i', 'f']) :
    Ends L (t :: r) := by
  intro t' e
  simp only [List.head?_cons, Option.some.injEq] at e
  subst e
  refine ⟨(F.clos t ht).1, ?_, ?_, fun _ => h1, fun _ => h2⟩
  · rintro rfl; revert ht; decide
  · rintro rfl; revert ht; decide

theorem Fits.endsClose (F : Fits P L tight) (r : List Tok) : Ends L (.op [')'] :: r) :=
  F.ends (by decide) (by decide) (by decide)

theorem Fits.lexPar (F : Fits P L tight) {r : Str} {ts : List Tok} (h : Lexes L.syms r ts) :
    Lexes L.syms ('(' :: r) (.op ['('] :: ts) := Lexes.closed (o := ['(']) (F.closed _ (by decide)) h
theorem Fits.lexClose (F : Fits P L tight) {r : Str} {ts : List Tok} (h : Lexes L.syms r ts) :
    Lexes L.syms (')' :: r) (.op [')'] :: ts) := Lexes.closed (o := [')']) (F.closed _ (by decide)) h
theorem Fits.lexComma (F : Fits P L tight) {r : Str} {ts : List Tok} (h : Lexes L.syms r ts) :
    Lexes L.syms (',' :: r) (.op [','] :: ts) := Lexes.closed (o := [',']) (F.closed _ (by decide)) h
theorem Fits.lexOpen (F : Fits P L tight) {r : Str} {ts : List Tok} (h : Lexes L.syms r ts) :
    Lexes L.syms ('{' :: r) (.op ['{'] :: ts) := Lexes.closed (o := ['{']) (F.closed _ (by decide)) h
theorem Fits.lexShut (F : Fits P L tight) {r : Str} {ts : List Tok} (h : Lexes L.syms r ts) :
    Lexes L.syms ('}' :: r) (.op ['}'] :: ts) := Lexes.closed (o := ['}']) (F.closed _ (by decide)) h

theorem nonword {c : Char} {r : Str} (hc : isWord c = false) : ∀ c', (c :: r).head? = some c' → isWord c' = false := by
  intro c' e
  simp only [List.head?_cons, Option.some.injEq] at e
  subst e; exact hc

/-- An expression in parentheses. -/
theorem goodParen (F : Fits P L tight) {inner : Str} {ti : List Tok} {t : Tree}
    (hlex : ∀ r ts, Lexes L.syms r ts → Lexes L.syms (inner ++ ')' :: r) (ti ++ .op [')'] :: ts))
    (hcast : ∀ r, L.castHead (ti ++ .op [')'] :: r) = none)
    (hparse : ∃ N, ∀ n, N ≤ n → ∀ r, parse L n .expr (ti ++ .op [')'] :: r) = some (t, .op [')'] :: r)) :
    Good L tight false ('(' :: inner ++ [')']) (.op ['('] :: ti ++ [.op [')']]) t := by
  refine ⟨?_, ⟨_, _, rfl, .inl ⟨rfl, .inr rfl⟩⟩, ?_, ?_⟩
  · intro r ts _ hr
    have := F.lexPar (hlex r ts hr)
    simpa using this
  · intro rest _
    simp only [List.cons_append]
    cases h : ti ++ [Tok.op [')']] ++ rest <;> rfl
  · obtain ⟨N, hN⟩ := hparse
    refine ⟨N + 1, fun n hn min _ rest _ _ => ?_⟩
    obtain ⟨n, rfl⟩ : ∃ m, n = m + 1 := ⟨n - 1, by omega⟩
    have e : Tok.op ['('] :: ti ++ [.op [')']] ++ rest = .op ['('] :: (ti ++ .op [')'] :: rest) := by simp
    rw [e, parse, F.prePar]
    simp only [if_true, hcast rest]
    rw [hN n (by omega) rest]
    simp only [o_close, Option.bind_eq_bind, Option.bind_some, expect_eq]
    rfl

/-- The text of a binary operator application. -/
theorem goodBin (F : Fits P L tight) {op : BinTk} (hop : op = .POW → P.pow = none) {na nb : Bool} {a b : Str} {ta tb : List Tok} {x y : Tree}
    (ha : Good L tight na a ta x) (hb : Good L tight nb b tb y) (hneg : ¬ (op = .POW ∧ na = true)) :
    ∃ ts, Good L tight false (P.binText (visitBinOp op) a b) ts (.bin op x y) := by
  have hF := F.bin op hop
  unfold binFit at hF
  simp only [Bool.and_eq_true, decide_eq_true_eq] at hF
  obtain ⟨⟨⟨⟨⟨h1, h2⟩, h3⟩, h4⟩, h5⟩, h6⟩ := hF
  cases hL : L.bin (tokOf (P.opStr (visitBinOp op))) with
  | none => rw [hL] at h6; cases h6
  | some x =>
    obtain ⟨op', p, q⟩ := x
    rw [hL] at h6
    simp only [Bool.and_eq_true, Bool.or_eq_true, decide_eq_true_eq, Option.isNone_iff_eq_none] at h6
    obtain ⟨⟨rfl, hq⟩, hp⟩ := h6
    have etext : P.binText (visitBinOp op') a b = '(' :: (a ++ ' ' :: P.opStr (visitBinOp op') ++ ' ' :: b) ++ [')'] := by
      unfold Target.binText
      split
      · rename_i heq hpow
        have : op' = .POW := by cases op' <;> simp_all [visitBinOp]
        rw [hop this] at hpow; cases hpow
      · simp
    rw [etext]
    refine ⟨_, goodParen F (ti := ta ++ tokOf (P.opStr (visitBinOp op')) :: tb) ?_ ?_ ?_⟩
    · intro r ts hr
      have l1 := hb.lex (')' :: r) _ (nonword (by decide)) (F.lexClose hr)
      have l2 := lexTok h1 (r := ' ' :: (b ++ ')' :: r)) (fun c e => by
        simp only [List.head?_cons, Option.some.injEq] at e; subst e; exact h2) (Lexes.space l1)
      have l3 := ha.lex (' ' :: (P.opStr (visitBinOp op') ++ ' ' :: (b ++ ')' :: r))) _ (nonword (by decide)) (Lexes.space l2)
      simpa using l3
    · intro r
      have := ha.nocast (tokOf (P.opStr (visitBinOp op')) :: tb ++ .op [')'] :: r) (by
        simp only [List.cons_append, List.head?_cons, ne_eq, Option.some.injEq]; exact h5)
      simpa using this
    · obtain ⟨Na, hNa⟩ := ha.parse
      obtain ⟨Nb, hNb⟩ := hb.bin
      refine ⟨Na + Nb + 4, fun n hn r => ?_⟩
      obtain ⟨n, rfl⟩ : ∃ m, n = m + 3 := ⟨n - 3, by omega⟩
      have e : ta ++ tokOf (P.opStr (visitBinOp op')) :: tb ++ .op [')'] :: r =
          ta ++ (tokOf (P.opStr (visitBinOp op')) :: (tb ++ .op [')'] :: r)) := by simp
      have hE := F.endsClose r
      refine parse_expr_of_bin ?_ hE
      rw [e, parse, hNa (n + 1) (by omega) 0 (by omega) _ ⟨by simpa using h3, by simpa using h4⟩ ?_]
      · show parse L (n + 1) (.loop 0 _) _ = _
        rw [parse, hL]
        simp only [Nat.zero_le, if_true]
        rw [hNb n (by omega) q hq (.op [')'] :: r) hE.stop (fun t ht => (hE t ht).1)]
        simp only [Option.bind_eq_bind, Option.bind_some]
        split
        · rename_i h
          obtain ⟨_, t', h, e⟩ := h
          simp only [List.head?_cons, Option.some.injEq] at e
          subst e
          exact absurd h (F.clos (.op [')']) (by decide)).2
        · obtain ⟨n, rfl⟩ : ∃ m, n = m + 1 := ⟨n - 1, by omega⟩
          rw [parse, (F.clos _ (by decide)).1]
      · intro hn' t op p' q' ht hb'
        simp only [List.head?_cons, Option.some.injEq] at ht
        subst ht
        rw [hL] at hb'
        simp only [Option.some.injEq, Prod.mk.injEq] at hb'
        obtain ⟨rfl, rfl, rfl⟩ := hb'
        rcases hp with hp | ⟨rfl, hcn⟩
        · exact hp
        · rcases hn' with hn' | hn'
          · exact absurd ⟨rfl, hn'⟩ hneg
          · rw [hcn] at hn'; cases hn'

theorem parse_pre {t : Tok} {op : UnTk} {q n min : Nat} {r r' : List Tok} {x : Tree} (h : L.pre t = some (op, q)) (hmin : min ≤ q)
    (hp : parse L n (.bin q) r = some (x, r')) (hbar : L.barred r' = false) : parse L (n + 1) (.unary min) (t :: r) = some (.un op x, r') := by
  cases t <;> (rw [parse, h]; simp only [hmin, if_true, hp, Option.bind_eq_bind, Option.bind_some, hbar]; rfl)

/-- The text of a prefix operator application. -/
theorem goodUn (F : Fits P L tight) {op : UnTk} {na : Bool} {a : Str} {ta : List Tok} {x : Tree}
    (ha : Good L tight na a ta x) (hsep : ∀ c, a.head? = some c → sep L (P.opStr (visitUnOp op)) c = true) :
    ∃ ts, Good L tight false (P.unText (visitUnOp op) a) ts (.un op x) := by
  have hF := F.un op
  unfold unFit at hF
  simp only [Bool.and_eq_true, Bool.or_eq_true] at hF
  obtain ⟨⟨h1, h2⟩, h6⟩ := hF
  cases hL : L.pre (tokOf (P.opStr (visitUnOp op))) with
  | none => rw [hL] at h6; cases h6
  | some y' =>
    obtain ⟨op', q⟩ := y'
    rw [hL] at h6
    simp only [Bool.and_eq_true, decide_eq_true_eq] at h6
    obtain ⟨rfl, hq⟩ := h6
    have etext : P.unText (visitUnOp op') a = '(' :: (P.opStr (visitUnOp op') ++ a) ++ [')'] := by
      unfold Target.unText; simp
    rw [etext]
    refine ⟨_, goodParen F (ti := tokOf (P.opStr (visitUnOp op')) :: ta) ?_ ?_ ?_⟩
    · intro r ts hr
      have l1 := ha.lex (')' :: r) _ (nonword (by decide)) (F.lexClose hr)
      have l2 := lexTok h1 (r := a ++ ')' :: r) (fun c e => by
        apply hsep
        cases a with
        | nil => obtain ⟨c, s', e, _⟩ := ha.head; cases e
        | cons => simpa using e) l1
      simpa using l2
    · intro r
      rcases h2 with h2 | h2
      · rw [Option.isNone_iff_eq_none] at h2
        unfold Lang.castHead
        split
        · rw [h2]
        · rfl
      · have : tokOf (P.opStr (visitUnOp op')) = .op (P.opStr (visitUnOp op')) := by
          unfold tokOf; rw [Bool.not_eq_true'] at h2; rw [h2]; rfl
        rw [this]; rfl
    · obtain ⟨Na, hNa⟩ := ha.bin
      refine ⟨Na + 4, fun n hn r => ?_⟩
      obtain ⟨n, rfl⟩ : ∃ m, n = m + 4 := ⟨n - 4, by omega⟩
      have hE := F.endsClose r
      refine parse_expr_of_bin ?_ hE
      have e : tokOf (P.opStr (visitUnOp op')) :: ta ++ .op [')'] :: r =
          tokOf (P.opStr (visitUnOp op')) :: (ta ++ .op [')'] :: r) := by simp
      have hu : parse L (n + 2) (.unary 0) (tokOf (P.opStr (visitUnOp op')) :: (ta ++ .op [')'] :: r)) =
          some (.un op' x, .op [')'] :: r) := by
        exact parse_pre hL (Nat.zero_le _) (hNa (n + 1) (by omega) q hq (.op [')'] :: r) hE.stop (fun t ht => (hE t ht).1)) hE.barred
      rw [e, parse, hu]
      show parse L (n + 2) (.loop 0 _) _ = _
      rw [parse, (F.clos _ (by decide)).1]

theorem wordHead {f : Str} (h1 : f ≠ []) (h2 : f.all isWord = true) (r : Str) :
    ∃ c s', f ++ r = c :: s' ∧ ((false = false ∧ (isWord c = true ∨ c = '(')) ∨ (false = true ∧ c = '-')) := by
  cases f with
  | nil => exact absurd rfl h1
  | cons c f => exact ⟨c, f ++ r, rfl, .inl ⟨rfl, .inl (List.all_eq_true.mp h2 c (by simp))⟩⟩

/-- A word followed by a parenthesis is no cast. -/
theorem castHead_call (L : Lang) (s : Str) (r : List Tok) : L.castHead (.word s :: .op ['('] :: r) = none := by
  unfold Lang.castHead
  split
  · rename_i h; simp only [List.cons.injEq] at h; exact absurd h.2.1 (by simp)
  · rfl

/-- The power function. -/
theorem goodPow (F : Fits P L tight) {f : Str} (hf : P.pow = some f) {na nb : Bool} {a b : Str} {ta tb : List Tok} {x y : Tree}
    (ha : Good L tight na a ta x) (hb : Good L tight nb b tb y) :
    ∃ ts, Good L tight false (P.binText .POW a b) ts (.bin .POW x y) := by
  have etext : P.binText .POW a b = f ++ '(' :: (a ++ ',' :: ' ' :: (b ++ [')'])) := by
    unfold Target.binText; rw [hf]; simp
  rw [etext]
  have hLf : L.pow = some f := by rw [← F.pow.1]; exact hf
  have hpf := F.pow.2
  unfold powFit at hpf
  rw [hLf] at hpf
  simp only [Bool.and_eq_true, Bool.not_eq_true', List.isEmpty_eq_false_iff, Option.isNone_iff_eq_none] at hpf
  obtain ⟨⟨h1, h2⟩, h3⟩ := hpf
  refine ⟨.word f :: .op ['('] :: (ta ++ .op [','] :: (tb ++ [.op [')']])), ⟨?_, wordHead h1 h2 _, ?_, ?_⟩⟩
  · intro r ts _ hr
    have l1 := hb.lex (')' :: r) _ (nonword (by decide)) (F.lexClose hr)
    have l2 := ha.lex (',' :: ' ' :: (b ++ ')' :: r)) _ (nonword (by decide)) (F.lexComma (Lexes.space l1))
    have l3 := Lexes.word' h1 h2 (nonword (by decide)) (F.lexPar l2)
    simpa using l3
  · intro rest _
    exact castHead_call _ _ _
  · obtain ⟨Na, hNa⟩ := ha.expr
    obtain ⟨Nb, hNb⟩ := hb.expr
    refine ⟨Na + Nb + 1, fun n hn min _ rest _ _ => ?_⟩
    obtain ⟨n, rfl⟩ : ∃ m, n = m + 1 := ⟨n - 1, by omega⟩
    have e : Tok.word f :: .op ['('] :: (ta ++ .op [','] :: (tb ++ [.op [')']])) ++ rest =
        .word f :: .op ['('] :: (ta ++ .op [','] :: (tb ++ .op [')'] :: rest)) := by simp
    rw [e, parse, h3]
    simp only [o_par, o_comma, o_close, expect_eq, hLf, if_true]
    rw [hNa n (by omega) _ (F.ends (by decide) (by decide) (by decide))]
    simp only [Option.bind_eq_bind, Option.bind_some, expect_eq]
    rw [hNb n (by omega) _ (F.endsClose _)]
    simp only [Option.bind_some, expect_eq]
    rfl

/-- A conversion. -/
theorem goodCast (F : Fits P L tight) (p : Prim) {na : Bool} {a : Str} {ta : List Tok} {x : Tree}
    (ha : Good L tight na a ta x) :
    ∃ ts, Good L tight false (P.castText p a) ts (.conv (P.typeName p) x) := by
  have hF := F.types p
  unfold typeFit at hF
  simp only [Bool.and_eq_true, Bool.not_eq_true', List.isEmpty_eq_false_iff, Option.isNone_iff_eq_none, decide_eq_true_eq] at hF
  obtain ⟨⟨⟨⟨h1, h2⟩, h3⟩, h4⟩, h5⟩ := hF
  unfold Target.castText
  rw [F.castP.1]
  cases hc : L.castPrefix with
  | none =>
    simp only [Option.isSome_none, Bool.false_eq_true, if_false]
    refine ⟨.word (P.typeName p) :: .op ['('] :: (ta ++ [.op [')']]), ⟨?_, by rw [List.append_assoc]; exact wordHead h1 h2 _, ?_, ?_⟩⟩
    · intro r ts _ hr
      have l1 := ha.lex (')' :: r) _ (nonword (by decide)) (F.lexClose hr)
      have l3 := Lexes.word' h1 h2 (nonword (by decide)) (F.lexPar l1)
      simpa using l3
    · intro rest _
      exact castHead_call _ _ _
    · obtain ⟨Na, hNa⟩ := ha.expr
      refine ⟨Na + 1, fun n hn min _ rest _ _ => ?_⟩
      obtain ⟨n, rfl⟩ : ∃ m, n = m + 1 := ⟨n - 1, by omega⟩
      have e : Tok.word (P.typeName p) :: .op ['('] :: (ta ++ [.op [')']]) ++ rest =
          .word (P.typeName p) :: .op ['('] :: (ta ++ .op [')'] :: rest) := by simp
      rw [e, parse, h4]
      simp only [o_par, o_close, expect_eq, h5, if_false, h3, hc, and_self, if_true]
      rw [hNa n (by omega) _ (F.endsClose _)]
      simp only [Option.bind_eq_bind, Option.bind_some, expect_eq]
      rfl
  | some q =>
    have hq := F.castP.2 q hc
    subst hq
    simp only [Option.isSome_some, if_true]
    refine ⟨.op ['('] :: .word (P.typeName p) :: .op [')'] :: ta, ⟨?_, ⟨_, _, rfl, .inl ⟨rfl, .inr rfl⟩⟩, ?_, ?_⟩⟩
    · intro r ts hr0 hr
      have l1 := ha.lex r _ hr0 hr
      have l3 := F.lexPar (Lexes.word' h1 h2 (nonword (by decide)) (F.lexClose l1))
      simpa using l3
    · intro rest _
      rfl
    · obtain ⟨Na, hNa⟩ := ha.parse
      refine ⟨Na + 3, fun n hn min hmin rest hs hw => ?_⟩
      obtain ⟨n, rfl⟩ : ∃ m, n = m + 3 := ⟨n - 3, by omega⟩
      have hw := hw (.inr (by rw [hc]; rfl))
      simp only [List.cons_append]
      rw [parse, F.prePar]
      have hch : L.castHead (.word (P.typeName p) :: .op [')'] :: (ta ++ rest)) = some (q, P.typeName p, ta ++ rest) := by
        simp only [Lang.castHead, hc, h3, if_true]
      simp only [if_true, hch, hmin]
      rw [parse, hNa (n + 1) (by omega) q (Nat.le_refl _) rest hs (fun _ => hw)]
      have hl : parse L (n + 1) (.loop q x) rest = some (x, rest) := by
        cases rest with
        | nil => rw [parse]
        | cons t r =>
          rw [parse]
          cases hb : L.bin t with
          | none => rfl
          | some y =>
            obtain ⟨op, p, q'⟩ := y
            have := hw t op p q' rfl hb
            simp only
            rw [if_neg (by omega)]
      show ((parse L (n + 1) (.loop q x) rest).bind _) = _
      rw [hl]; rfl

/-- `c ? a : b` of C and C#. -/
theorem goodCondC (F : Fits P L tight) (hc : L.cond = .c) {nc na nb : Bool} {c a b : Str} {tc ta tb : List Tok} {z x y : Tree}
    (gc : Good L tight nc c tc z) (ga : Good L tight na a ta x) (gb : Good L tight nb b tb y) :
    ∃ ts, Good L tight false ('(' :: c ++ ' ' :: '?' :: ' ' :: a ++ ' ' :: ':' :: ' ' :: b ++ [')']) ts (.cond none z x y) := by
  have e : '(' :: c ++ ' ' :: '?' :: ' ' :: a ++ ' ' :: ':' :: ' ' :: b ++ [')'] =
      '(' :: (c ++ ' ' :: '?' :: ' ' :: (a ++ ' ' :: ':' :: ' ' :: b)) ++ [')'] := by simp
  rw [e]
  have hsp : ∀ (o : Str) (r : Str) c, (' ' :: r).head? = some c → canExt L.syms o c = false := by
    intro o r c e
    simp only [List.head?_cons, Option.some.injEq] at e
    subst e; exact canExt_space F.syms o
  refine ⟨_, goodParen F (ti := tc ++ .op ['?'] :: (ta ++ .op [':'] :: tb)) ?_ ?_ ?_⟩
  · intro r ts hr
    have l1 := gb.lex (')' :: r) _ (nonword (by decide)) (F.lexClose hr)
    have l2 := Lexes.sym' (o := [':']) (F.marks hc).2 (hsp _ _) (Lexes.space l1)
    have l3 := ga.lex (' ' :: ([':'] ++ ' ' :: (b ++ ')' :: r))) _ (nonword (by decide)) (Lexes.space l2)
    have l4 := Lexes.sym' (o := ['?']) (F.marks hc).1 (hsp _ _) (Lexes.space l3)
    have l5 := gc.lex (' ' :: (['?'] ++ ' ' :: (a ++ ' ' :: ([':'] ++ ' ' :: (b ++ ')' :: r))))) _ (nonword (by decide)) (Lexes.space l4)
    simpa using l5
  · intro r
    have := gc.nocast (.op ['?'] :: (ta ++ .op [':'] :: tb) ++ .op [')'] :: r) (by simp)
    simpa using this
  · obtain ⟨Nc, hNc⟩ := gc.bin
    obtain ⟨Na, hNa⟩ := ga.expr
    obtain ⟨Nb, hNb⟩ := gb.expr
    refine ⟨Nc + Na + Nb + 1, fun n hn r => ?_⟩
    obtain ⟨n, rfl⟩ : ∃ m, n = m + 1 := ⟨n - 1, by omega⟩
    have e : tc ++ .op ['?'] :: (ta ++ .op [':'] :: tb) ++ .op [')'] :: r =
        tc ++ (.op ['?'] :: (ta ++ (.op [':'] :: (tb ++ (.op [')'] :: r))))) := by simp
    rw [e, parse, hNc n (by omega) 0 (by omega) _ ⟨by simp, by simp⟩ (by
      intro t ht
      simp only [List.head?_cons, Option.some.injEq] at ht
      subst ht; exact (F.clos _ (by decide)).1)]
    simp only [Option.bind_eq_bind, Option.bind_some, hc, o_quest, o_colon, expect_eq]
    rw [hNa n (by omega) _ (F.ends (by decide) (by decide) (by decide))]
    simp only [Option.bind_some, expect_eq]
    rw [hNb n (by omega) _ (F.endsClose _)]
    rfl

/-- `a if c else b` of Python. -/
theorem goodCondPy (F : Fits P L tight) (hc : L.cond = .py) {nc na nb : Bool} {c a b : Str} {tc ta tb : List Tok} {z x y : Tree}
    (gc : Good L tight nc c tc z) (ga : Good L tight na a ta x) (gb : Good L tight nb b tb y) :
    ∃ ts, Good L tight false ('(' :: a ++ " if ".toList ++ c ++ " else ".toList ++ b ++ [')']) ts (.cond none z x y) := by
  have e : '(' :: a ++ " if ".toList ++ c ++ " else ".toList ++ b ++ [')'] =
      '(' :: (a ++ ' ' :: (['i', 'f'] ++ ' ' :: (c ++ ' ' :: (['e', 'l', 's', 'e'] ++ ' ' :: b)))) ++ [')'] := by
    rw [show " if ".toList = [' ', 'i', 'f', ' '] from by decide +kernel,
      show " else ".toList = [' ', 'e', 'l', 's', 'e', ' '] from by decide +kernel]
    simp
  rw [e]
  refine ⟨_, goodParen F (ti := ta ++ .word ['i', 'f'] :: (tc ++ .word ['e', 'l', 's', 'e'] :: tb)) ?_ ?_ ?_⟩
  · intro r ts hr
    have l1 := gb.lex (')' :: r) _ (nonword (by decide)) (F.lexClose hr)
    have l2 := Lexes.word' (w := ['e', 'l', 's', 'e']) (by decide) (by decide) (nonword (r := b ++ ')' :: r) (by decide)) (Lexes.space l1)
    have l3 := gc.lex (' ' :: (['e', 'l', 's', 'e'] ++ ' ' :: (b ++ ')' :: r))) _ (nonword (by decide)) (Lexes.space l2)
    have l4 := Lexes.word' (w := ['i', 'f']) (by decide) (by decide) (nonword (by decide)) (Lexes.space l3)
    have l5 := ga.lex (' ' :: (['i', 'f'] ++ ' ' :: (c ++ ' ' :: (['e', 'l', 's', 'e'] ++ ' ' :: (b ++ ')' :: r))))) _ (nonword (by decide)) (Lexes.space l4)
    simpa using l5
  · intro r
    have := ga.nocast (.word ['i', 'f'] :: (tc ++ .word ['e', 'l', 's', 'e'] :: tb) ++ .op [')'] :: r) (by simp)
    simpa using this
  · obtain ⟨Nc, hNc⟩ := gc.bin
    obtain ⟨Na, hNa⟩ := ga.bin
    obtain ⟨Nb, hNb⟩ := gb.expr
    refine ⟨Nc + Na + Nb + 1, fun n hn r => ?_⟩
    obtain ⟨n, rfl⟩ : ∃ m, n = m + 1 := ⟨n - 1, by omega⟩
    have e : ta ++ .word ['i', 'f'] :: (tc ++ .word ['e', 'l', 's', 'e'] :: tb) ++ .op [')'] :: r =
        ta ++ (.word ['i', 'f'] :: (tc ++ (.word ['e', 'l', 's', 'e'] :: (tb ++ (.op [')'] :: r))))) := by simp
    rw [e, parse, hNa n (by omega) 0 (by omega) _ ⟨by simp, by simp⟩ (by
      intro t ht
      simp only [List.head?_cons, Option.some.injEq] at ht
      subst ht; exact (F.clos _ (by decide)).1)]
    simp only [Option.bind_eq_bind, Option.bind_some, hc, w_if, w_else, expect_eq]
    rw [hNc n (by omega) 0 (by omega) _ ⟨by simp, by simp⟩ (by
      intro t ht
      simp only [List.head?_cons, Option.some.injEq] at ht
      subst ht; exact (F.clos _ (by decide)).1)]
    simp only [Option.bind_some, expect_eq]
    rw [hNb n (by omega) _ (F.endsClose _)]
    rfl

theorem w_return : w "return" = .word "return".toList := rfl

/-- Go's function literal. -/
theorem goodCondGo (F : Fits P L tight) (hc : L.cond = .go) {T : Str} (hT : T ∈ L.types) (hT1 : T ≠ []) (hT2 : T.all isWord = true)
    {nc na nb : Bool} {c a b : Str} {tc ta tb : List Tok} {z x y : Tree}
    (gc : Good L tight nc c tc z) (ga : Good L tight na a ta x) (gb : Good L tight nb b tb y) :
    ∃ ts, Good L tight false ("func() ".toList ++ T ++ " { if ".toList ++ c ++ " { return ".toList ++ a ++
          " } else { return ".toList ++ b ++ " } }()".toList) ts (.cond (some T) z x y) := by
  have hF := F.cond.2
  unfold condFit at hF
  rw [hc] at hF
  simp only [Bool.and_eq_true, decide_eq_true_eq, Option.isNone_iff_eq_none] at hF
  obtain ⟨⟨⟨hf1, hf2⟩, hf3⟩, hf4⟩ := hF
  have e : "func() ".toList ++ T ++ " { if ".toList ++ c ++ " { return ".toList ++ a ++
          " } else { return ".toList ++ b ++ " } }()".toList =
      "func".toList ++ '(' :: ')' :: ' ' :: (T ++ ' ' :: '{' :: ' ' :: (['i', 'f'] ++ ' ' :: (c ++ ' ' :: '{' :: ' ' :: ("return".toList ++ ' ' :: (a ++
        ' ' :: '}' :: ' ' :: (['e', 'l', 's', 'e'] ++ ' ' :: '{' :: ' ' :: ("return".toList ++ ' ' :: (b ++ " } }()".toList)))))))) := by
    rw [show "func() ".toList = "func".toList ++ ['(', ')', ' '] from by decide +kernel,
      show " { if ".toList = [' ', '{', ' ', 'i', 'f', ' '] from by decide +kernel,
      show " { return ".toList = [' ', '{', ' '] ++ "return".toList ++ [' '] from by decide +kernel,
      show " } else { return ".toList = [' ', '}', ' ', 'e', 'l', 's', 'e', ' ', '{', ' '] ++ "return".toList ++ [' '] from by decide +kernel]
    simp only [List.append_assoc, List.cons_append, List.nil_append]
  rw [e, show " } }()".toList = [' ', '}', ' ', '}', '(', ')'] from by decide +kernel]
  have fw : "func".toList ≠ [] ∧ "func".toList.all isWord = true := by decide +kernel
  have rw' : "return".toList ≠ [] ∧ "return".toList.all isWord = true := by decide +kernel
  refine ⟨.word "func".toList :: .op ['('] :: .op [')'] :: .word T :: .op ['{'] :: .word ['i', 'f'] :: (tc ++ .op ['{'] :: .word "return".toList :: (ta ++
    .op ['}'] :: .word ['e', 'l', 's', 'e'] :: .op ['{'] :: .word "return".toList :: (tb ++ [.op ['}'], .op ['}'], .op ['('], .op [')']]))), ⟨?_, wordHead fw.1 fw.2 _, ?_, ?_⟩⟩
  · intro r ts _ hr
    have k1 := Lexes.space (F.lexShut (Lexes.space (F.lexShut (F.lexPar (F.lexClose hr)))))
    have k2 := gb.lex _ _ (nonword (by decide)) k1
    have k3 := Lexes.word' rw'.1 rw'.2 (nonword (by decide)) (Lexes.space k2)
    have k4 := Lexes.space (F.lexOpen (Lexes.space k3))
    have k5 := Lexes.word' (w := ['e', 'l', 's', 'e']) (by decide) (by decide) (nonword (by decide)) k4
    have k6 := Lexes.space (F.lexShut (Lexes.space k5))
    have k7 := ga.lex _ _ (nonword (by decide)) k6
    have k8 := Lexes.word' rw'.1 rw'.2 (nonword (by decide)) (Lexes.space k7)
    have k9 := Lexes.space (F.lexOpen (Lexes.space k8))
    have k10 := gc.lex _ _ (nonword (by decide)) k9
    have k11 := Lexes.word' (w := ['i', 'f']) (by decide) (by decide) (nonword (by decide)) (Lexes.space k10)
    have k12 := Lexes.space (F.lexOpen (Lexes.space k11))
    have k13 := Lexes.word' hT1 hT2 (nonword (by decide)) k12
    have k14 := F.lexPar (F.lexClose (Lexes.space k13))
    have k15 := Lexes.word' fw.1 fw.2 (nonword (by decide)) k14
    simp only [List.append_assoc, List.cons_append, List.nil_append] at k15 ⊢
    exact k15
  · intro rest _
    exact castHead_call _ _ _
  · obtain ⟨Nc, hNc⟩ := gc.expr
    obtain ⟨Na, hNa⟩ := ga.expr
    obtain ⟨Nb, hNb⟩ := gb.expr
    refine ⟨Nc + Na + Nb + 1, fun n hn min _ rest _ _ => ?_⟩
    obtain ⟨n, rfl⟩ : ∃ m, n = m + 1 := ⟨n - 1, by omega⟩
    simp only [List.append_assoc, List.cons_append, List.nil_append]
    rw [parse, hf2]
    simp only [o_par, o_close, o_open, o_shut, w_if, w_else, w_return, expect_eq, hf3, if_false, hf4, false_and, hc, and_self, if_true, hT]
    simp only [expect, if_true, Option.bind_eq_bind, Option.bind_some]
    rw [hNc n (by omega) _ (F.ends (by decide) (by decide) (by decide))]
    simp only [expect, if_true, Option.bind_some]
    rw [hNa n (by omega) _ (F.ends (by decide) (by decide) (by decide))]
    simp only [expect, if_true, Option.bind_some]
    rw [hNb n (by omega) _ (F.ends (by decide) (by decide) (by decide))]
    simp only [expect, if_true, Option.bind_some]
    rfl

end
end Bubbler.Ex
