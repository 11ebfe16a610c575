import Verif.Expr.Kotlin
import Verif.Expr.AtomProofs

/-
The printed expression of the Kotlin target is read as the written one.
-/
namespace Bubbler.Ex
open Num

theorem ktSymsOk : symsOk ktSyms = true := by decide +kernel

theorem ktLexPar {r : Str} {ts : List Tok} (h : Lexes ktSyms r ts) : Lexes ktSyms ('(' :: r) (.op ['('] :: ts) :=
  Lexes.closed (o := ['(']) (by decide +kernel) h
theorem ktLexClose {r : Str} {ts : List Tok} (h : Lexes ktSyms r ts) : Lexes ktSyms (')' :: r) (.op [')'] :: ts) :=
  Lexes.closed (o := [')']) (by decide +kernel) h

/-- What may follow an operand: not a call. -/
def KStop (rest : List Tok) : Prop :=
  rest.head? ≠ some (.op ['(']) ∧ ∀ s, rest.head? = some (.word s) → s.head? ≠ some '.'

/-- The text is an operand: it is cut into `toks`, and they are read as `t`. -/
structure KGood (neg : Bool) (s : Str) (toks : List Tok) (t : Tree) : Prop where
  lex : ∀ r ts, (∀ c, r.head? = some c → isWord c = false) → Lexes ktSyms r ts → Lexes ktSyms (s ++ r) (toks ++ ts)
  head : ∃ c s', s = c :: s' ∧ ((neg = false ∧ (isWord c = true ∨ c = '(')) ∨ (neg = true ∧ c = '-'))
  parse : ∃ N, ∀ n, N ≤ n → ∀ rest, KStop rest → ktParse n .unary (toks ++ rest) = some (t, rest)

/-- The text is an expression before a closing parenthesis. -/
structure KInner (s : Str) (toks : List Tok) (t : Tree) : Prop where
  lex : ∀ r ts, Lexes ktSyms r ts → Lexes ktSyms (s ++ ')' :: r) (toks ++ .op [')'] :: ts)
  parse : ∃ N, ∀ n, N ≤ n → ∀ r, ktParse n (.bin 0) (toks ++ .op [')'] :: r) = some (t, .op [')'] :: r)

/-- The text is a chain of calls. -/
structure KPost (s : Str) (toks : List Tok) (f : Tree → Tree) : Prop where
  lex : ∀ r ts, (∀ c, r.head? = some c → isWord c = false) → Lexes ktSyms r ts → Lexes ktSyms (s ++ r) (toks ++ ts)
  parse : ∃ N, ∀ n, N ≤ n → ∀ t rest, KStop rest → ktParse n (.post t) (toks ++ rest) = some (f t, rest)

theorem kstop_nil : KStop [] := ⟨by simp, by simp⟩
theorem kstop_op {s : Str} {r : List Tok} (h : s ≠ ['(']) : KStop (.op s :: r) := ⟨by simpa using h, by simp⟩
theorem kstop_word {s : Str} {r : List Tok} (h : s.head? ≠ some '.') : KStop (.word s :: r) :=
  ⟨by simp, by intro s' e; simp only [List.head?_cons, Option.some.injEq, Tok.word.injEq] at e; subst e; exact h⟩

/-- Operands where no operator follows. -/
theorem KGood.bin {neg : Bool} {s : Str} {toks : List Tok} {t : Tree} (h : KGood neg s toks t) :
    ∃ N, ∀ n, N ≤ n → ∀ min rest, KStop rest → (∀ u, rest.head? = some u → ktBinOp u = none) →
      ktParse n (.bin min) (toks ++ rest) = some (t, rest) := by
  obtain ⟨N, hN⟩ := h.parse
  refine ⟨N + 2, fun n hn min rest hs hb => ?_⟩
  obtain ⟨n, rfl⟩ : ∃ m, n = m + 2 := ⟨n - 2, by omega⟩
  rw [ktParse, hN (n + 1) (by omega) rest hs]
  show ktParse (n + 1) (.loop min t) rest = _
  cases rest with
  | nil => rw [ktParse]
  | cons u r => rw [ktParse, hb u rfl]

theorem ktClose_none : ktBinOp (.op [')']) = none := by decide +kernel

/-- An operand, before a parenthesis. -/
theorem KGood.inner {neg : Bool} {s : Str} {toks : List Tok} {t : Tree} (h : KGood neg s toks t) : KInner s toks t := by
  refine ⟨fun r ts hr => h.lex _ _ (nonword (by decide)) (ktLexClose hr), ?_⟩
  obtain ⟨N, hN⟩ := h.bin
  refine ⟨N, fun n hn r => hN n hn 0 _ (kstop_op (by decide)) ?_⟩
  intro u hu
  simp only [List.head?_cons, Option.some.injEq] at hu
  subst hu; exact ktClose_none

/-! Chains of calls -/

theorem KPost.nil : KPost [] [] id := by
  refine ⟨fun r ts _ hr => hr, 1, fun n hn t rest hs => ?_⟩
  obtain ⟨n, rfl⟩ : ∃ m, n = m + 1 := ⟨n - 1, by omega⟩
  cases rest with
  | nil => rw [List.nil_append, ktParse]; rfl
  | cons u r =>
    cases u with
    | op s =>
      have : s ≠ ['('] := fun e => hs.1 (by rw [e]; rfl)
      simp only [List.nil_append, ktParse, if_neg this, id]
    | word s =>
      have := hs.2 s rfl
      simp only [List.nil_append, ktParse, if_neg this, id]

/-- A method without arguments. -/
theorem KPost.call {m : Str} {s : Str} {toks : List Tok} {g f : Tree → Tree} (hm : m.all isWord = true) (hd : m.head? = some '.')
    (hc : ∀ t, ktCall m t = some (g t)) (h : KPost s toks f) :
    KPost (m ++ '(' :: ')' :: s) (.word m :: .op ['('] :: .op [')'] :: toks) (fun t => f (g t)) := by
  constructor
  · intro r ts hr0 hr
    have l := Lexes.word' (w := m) (by rintro rfl; cases hd) hm (nonword (by decide)) (ktLexPar (ktLexClose (h.lex r ts hr0 hr)))
    simpa using l
  · obtain ⟨N, hN⟩ := h.parse
    refine ⟨N + 1, fun n hn t rest hs => ?_⟩
    obtain ⟨n, rfl⟩ : ∃ m, n = m + 1 := ⟨n - 1, by omega⟩
    simp only [List.cons_append]
    rw [ktParse]
    simp only [hd, if_true, o_par, o_close, expect_eq, Option.bind_eq_bind, Option.bind_some, hc]
    exact hN n (by omega) _ rest hs

/-- An operand and the calls that follow it. -/
theorem KInner.paren {inner s : Str} {ti toks : List Tok} {t : Tree} {f : Tree → Tree} (h : KInner inner ti t) (hp : KPost s toks f) :
    KGood false ('(' :: inner ++ ')' :: s) (.op ['('] :: ti ++ .op [')'] :: toks) (f t) := by
  refine ⟨?_, ⟨_, _, rfl, .inl ⟨rfl, .inr rfl⟩⟩, ?_⟩
  · intro r ts hr0 hr
    have := ktLexPar (h.lex _ _ (hp.lex r ts hr0 hr))
    simpa using this
  · obtain ⟨N, hN⟩ := h.parse
    obtain ⟨M, hM⟩ := hp.parse
    refine ⟨N + M + 1, fun n hn rest hs => ?_⟩
    obtain ⟨n, rfl⟩ : ∃ m, n = m + 1 := ⟨n - 1, by omega⟩
    have e : Tok.op ['('] :: ti ++ .op [')'] :: toks ++ rest = .op ['('] :: (ti ++ .op [')'] :: (toks ++ rest)) := by simp
    rw [e, ktParse, show ktPre (.op ['(']) = none from by decide +kernel]
    simp only [if_true]
    rw [hN n (by omega)]
    simp only [o_close, Option.bind_eq_bind, Option.bind_some, expect_eq]
    exact hM n (by omega) _ _ hs

/-- The power method. -/
theorem KPost.pow {b : Str} {tb : List Tok} {y : Tree} (hb : KInner b tb y) :
    KPost (".pow".toList ++ '(' :: (b ++ [')'])) (.word ".pow".toList :: .op ['('] :: (tb ++ [.op [')']])) (fun t => .bin .POW t y) := by
  constructor
  · intro r ts hr0 hr
    have l := Lexes.word' (w := ".pow".toList) (by decide +kernel) (by decide +kernel) (nonword (by decide)) (ktLexPar (hb.lex r ts hr))
    simpa using l
  · obtain ⟨N, hN⟩ := hb.parse
    obtain ⟨M, hM⟩ := KPost.nil.parse
    refine ⟨N + M + 1, fun n hn t rest hs => ?_⟩
    obtain ⟨n, rfl⟩ : ∃ m, n = m + 1 := ⟨n - 1, by omega⟩
    have e : Tok.word ".pow".toList :: .op ['('] :: (tb ++ [.op [')']]) ++ rest = .word ".pow".toList :: .op ['('] :: (tb ++ .op [')'] :: rest) := by simp
    rw [e, ktParse]
    have hne : expect [o ")"] (tb ++ .op [')'] :: rest) = none := by
      cases tb with
      | nil =>
        exfalso
        have := hN (N + 3) (by omega) []
        rw [List.nil_append, ktParse, ktParse, show ktPre (.op [')']) = none from by decide +kernel] at this
        simp only [show ([')'] : Str) ≠ ['('] from by decide, if_false, Option.bind_eq_bind, Option.bind_none] at this
        cases this
      | cons u tb =>
        apply expect_ne
        rw [List.cons_append, List.head?_cons, o_close]
        intro e
        simp only [Option.some.injEq] at e
        subst e
        have := hN (N + 3) (by omega) []
        rw [List.cons_append, ktParse, ktParse, show ktPre (.op [')']) = none from by decide +kernel] at this
        simp only [show ([')'] : Str) ≠ ['('] from by decide, if_false, Option.bind_eq_bind, Option.bind_none] at this
        cases this
    rw [if_pos (by decide +kernel)]
    simp only [o_par, expect_eq, Option.bind_eq_bind, Option.bind_some, hne, if_true]
    rw [hN n (by omega)]
    simp only [o_close, Option.bind_some, expect_eq]
    have := hM n (by omega) (.bin .POW t y) rest hs
    simpa using this

/-! Insides of parentheses -/

/-- Two operands and an operator. -/
theorem kBin {op : BinTk} {p : Nat} {s : Str} (h1 : (s.all isWord = true ∧ s ≠ [] ∧ s.head? ≠ some '.') ∨ (s.all isWord = false ∧ s ∈ ktSyms ∧ s ≠ ['(']))
    (h2 : ktBinOp (tokOf s) = some (op, p))
    {na nb : Bool} {a b : Str} {ta tb : List Tok} {x y : Tree} (ha : KGood na a ta x) (hb : KGood nb b tb y) :
    KInner (a ++ ' ' :: s ++ ' ' :: b) (ta ++ tokOf s :: tb) (.bin op x y) := by
  constructor
  · intro r ts hr
    have l1 := hb.lex (')' :: r) _ (nonword (by decide)) (ktLexClose hr)
    have l2 : Lexes ktSyms (s ++ ' ' :: (b ++ ')' :: r)) (tokOf s :: (tb ++ .op [')'] :: ts)) := by
      unfold tokOf
      rcases h1 with h1 | h1
      · rw [if_pos h1.1]
        exact Lexes.word' h1.2.1 h1.1 (nonword (by decide)) (Lexes.space l1)
      · rw [h1.1]
        refine Lexes.sym' h1.2.1 (fun c e => ?_) (Lexes.space l1)
        simp only [List.head?_cons, Option.some.injEq] at e
        subst e; exact canExt_space ktSymsOk _
    have l3 := ha.lex (' ' :: (s ++ ' ' :: (b ++ ')' :: r))) _ (nonword (by decide)) (Lexes.space l2)
    simpa using l3
  · obtain ⟨Na, hNa⟩ := ha.parse
    obtain ⟨Nb, hNb⟩ := hb.bin
    refine ⟨Na + Nb + 3, fun n hn r => ?_⟩
    obtain ⟨n, rfl⟩ : ∃ m, n = m + 3 := ⟨n - 3, by omega⟩
    have e : ta ++ tokOf s :: tb ++ .op [')'] :: r = ta ++ (tokOf s :: (tb ++ .op [')'] :: r)) := by simp
    rw [e, ktParse, hNa (n + 2) (by omega) _ ?_]
    · show ktParse (n + 2) (.loop 0 _) _ = _
      rw [ktParse, h2]
      simp only [Nat.zero_le, if_true]
      rw [hNb (n + 1) (by omega) (p + 1) _ (kstop_op (by decide)) (by
        intro u hu
        simp only [List.head?_cons, Option.some.injEq] at hu
        subst hu; exact ktClose_none)]
      simp only [Option.bind_eq_bind, Option.bind_some]
      rw [ktParse, ktClose_none]
    · unfold tokOf
      rcases h1 with h1 | h1
      · rw [if_pos h1.1]; exact kstop_word h1.2.2
      · rw [h1.1]; exact kstop_op h1.2.2

/-- A prefix operator. -/
theorem kUn {op : UnTk} {s : Str} (h1 : s.all isWord = false ∧ s ∈ ktSyms) (h2 : ktPre (.op s) = some op) {na : Bool} {a : Str} {ta : List Tok} {x : Tree}
    (ha : KGood na a ta x) (hp : canExt ktSyms s '(' = false) (hn : na = true → canExt ktSyms s '-' = false) :
    KInner (s ++ a) (.op s :: ta) (.un op x) := by
  constructor
  · intro r ts hr
    have l1 := ha.lex (')' :: r) _ (nonword (by decide)) (ktLexClose hr)
    have l2 := Lexes.sym' h1.2 (s := a ++ ')' :: r) (fun c e => by
      obtain ⟨c', s', rfl, h⟩ := ha.head
      simp only [List.cons_append, List.head?_cons, Option.some.injEq] at e
      subst e
      rcases h with ⟨_, h | rfl⟩ | ⟨h, rfl⟩
      · exact canExt_word ktSymsOk _ h
      · exact hp
      · exact hn h) l1
    simpa using l2
  · obtain ⟨Na, hNa⟩ := ha.parse
    refine ⟨Na + 3, fun n hn r => ?_⟩
    obtain ⟨n, rfl⟩ : ∃ m, n = m + 3 := ⟨n - 3, by omega⟩
    simp only [List.cons_append]
    rw [ktParse, ktParse, h2]
    simp only
    rw [hNa (n + 1) (by omega) _ (kstop_op (by decide))]
    simp only [Option.bind_eq_bind, Option.bind_some]
    show ktParse (n + 2) (.loop 0 _) _ = _
    rw [ktParse, ktClose_none]

theorem ktElse_none : ktBinOp (.word ['e', 'l', 's', 'e']) = none := by decide +kernel

/-- A conditional. -/
theorem kCond {nc na nb : Bool} {c a b : Str} {tc ta tb : List Tok} {z x y : Tree} (gc : KGood nc c tc z) (ga : KGood na a ta x) (gb : KGood nb b tb y) :
    KInner (['i', 'f'] ++ ' ' :: '(' :: (c ++ ')' :: ' ' :: (a ++ ' ' :: (['e', 'l', 's', 'e'] ++ ' ' :: b))))
      (.word ['i', 'f'] :: .op ['('] :: (tc ++ .op [')'] :: (ta ++ .word ['e', 'l', 's', 'e'] :: tb))) (.cond none z x y) := by
  constructor
  · intro r ts hr
    have l1 := gb.lex (')' :: r) _ (nonword (by decide)) (ktLexClose hr)
    have l2 := Lexes.word' (w := ['e', 'l', 's', 'e']) (by decide) (by decide) (nonword (r := b ++ ')' :: r) (by decide)) (Lexes.space l1)
    have l3 := ga.lex (' ' :: (['e', 'l', 's', 'e'] ++ ' ' :: (b ++ ')' :: r))) _ (nonword (by decide)) (Lexes.space l2)
    have l4 := gc.lex _ _ (nonword (by decide)) (ktLexClose (Lexes.space l3))
    have l5 := Lexes.word' (w := ['i', 'f']) (by decide) (by decide) (nonword (by decide)) (Lexes.space (ktLexPar l4))
    simpa using l5
  · obtain ⟨Nc, hNc⟩ := gc.inner.parse
    obtain ⟨Na, hNa⟩ := ga.bin
    obtain ⟨Nb, hNb⟩ := gb.inner.parse
    refine ⟨Nc + Na + Nb + 2, fun n hn r => ?_⟩
    obtain ⟨n, rfl⟩ : ∃ m, n = m + 2 := ⟨n - 2, by omega⟩
    have e : Tok.word ['i', 'f'] :: .op ['('] :: (tc ++ .op [')'] :: (ta ++ .word ['e', 'l', 's', 'e'] :: tb)) ++ .op [')'] :: r =
        .word ['i', 'f'] :: .op ['('] :: (tc ++ .op [')'] :: (ta ++ .word ['e', 'l', 's', 'e'] :: (tb ++ .op [')'] :: r))) := by simp
    have hu : ktParse (n + 1) .unary (.word ['i', 'f'] :: .op ['('] :: (tc ++ .op [')'] :: (ta ++ .word ['e', 'l', 's', 'e'] :: (tb ++ .op [')'] :: r)))) =
        some (.cond none z x y, .op [')'] :: r) := by
      rw [ktParse, show ktPre (.word ['i', 'f']) = none from by decide +kernel]
      simp only
      rw [if_pos (by decide +kernel)]
      simp only [o_par, o_close, w_else, Option.bind_eq_bind, expect_eq, Option.bind_some]
      rw [hNc n (by omega)]
      simp only [Option.bind_some, expect_eq]
      rw [hNa n (by omega) 0 _ (kstop_word (by decide)) (by
        intro u hu
        simp only [List.head?_cons, Option.some.injEq] at hu
        subst hu; exact ktElse_none)]
      simp only [Option.bind_some, expect_eq]
      rw [hNb n (by omega)]
      rfl
    rw [e, ktParse, hu]
    show ktParse (n + 1) (.loop 0 _) _ = _
    rw [ktParse, ktClose_none]

/-! Words and literals -/

theorem kWord {s : Str} {t : Tree} (h2 : s.all isWord = true) (h3 : s ≠ "if".toList) (h4 : ktAtom s = some t) : KGood false s [.word s] t := by
  have h1 : s ≠ [] := by
    rintro rfl
    rw [show ktAtom [] = none from by decide +kernel] at h4; cases h4
  refine ⟨?_, by have := wordHead h1 h2 []; rwa [List.append_nil] at this, ?_⟩
  · intro r ts hr0 hr
    exact Lexes.word' h1 h2 hr0 hr
  · obtain ⟨M, hM⟩ := KPost.nil.parse
    refine ⟨M + 1, fun n hn rest hs => ?_⟩
    obtain ⟨n, rfl⟩ : ∃ m, n = m + 1 := ⟨n - 1, by omega⟩
    show ktParse (n + 1) .unary (.word s :: rest) = _
    have hp : ktPre (.word s) = none := by
      unfold ktPre
      rw [if_neg (by rw [show o "+" = .op ['+'] from by decide +kernel]; simp), if_neg (by rw [show o "-" = .op ['-'] from by decide +kernel]; simp),
        if_neg (by rw [show o "!" = .op ['!'] from by decide +kernel]; simp)]
    rw [ktParse, hp]
    simp only [if_neg h3, h4]
    have := hM n (by omega) t rest hs
    simpa using this

theorem kNeg {s : Str} {t : Tree} (hg : KGood false s [.word s] t) (hs : s ≠ []) (hw : s.all isWord = true) :
    KGood true ('-' :: s) [.op ['-'], .word s] (.un .SUB t) := by
  refine ⟨?_, ⟨_, _, rfl, .inr ⟨rfl, rfl⟩⟩, ?_⟩
  · intro r ts hr0 hr
    have l1 := hg.lex r ts hr0 hr
    refine Lexes.sym' (o := ['-']) (by decide +kernel) (fun c hc => canExt_word ktSymsOk _ ?_) l1
    cases s with
    | nil => exact absurd rfl hs
    | cons d f =>
      have : d = c := by simpa using hc
      subst this
      exact List.all_eq_true.mp hw d (by simp)
  · obtain ⟨N, hN⟩ := hg.parse
    refine ⟨N + 1, fun n hn rest hs => ?_⟩
    obtain ⟨n, rfl⟩ : ∃ m, n = m + 1 := ⟨n - 1, by omega⟩
    have := hN n (by omega) rest hs
    rw [List.cons_append, List.nil_append] at this
    show ktParse (n + 1) .unary (.op ['-'] :: .word s :: rest) = _
    rw [ktParse, show ktPre (.op ['-']) = some .SUB from by decide +kernel]
    simp only [this, Option.bind_eq_bind, Option.bind_some]
    rfl

/-- No word with a meaning of its own begins with a digit. -/
theorem kDigit {c : Char} {s : Str} (hc : c.isDigit = true) : c :: s ≠ "true".toList ∧ c :: s ≠ "false".toList ∧ c :: s ∉ ktReserved ∧ c :: s ≠ "if".toList ∧ c ≠ '.' := by
  have key : ∀ s' ∈ "true".toList :: "false".toList :: "if".toList :: ktReserved, c :: s ≠ s' := by
    rintro s' h rfl
    have := List.all_eq_true.mp (show (("true".toList :: "false".toList :: "if".toList :: ktReserved).all (fun s => !(s.head?.any Char.isDigit))) = true from by decide +kernel) _ h
    simp [hc] at this
  refine ⟨key _ (by simp), key _ (by simp), fun h => key _ (by simp [h]) rfl, key _ (by simp), ?_⟩
  rintro rfl; revert hc; decide

theorem kNum {s : Str} {n : Nat} (hd : ∃ c s', s = c :: s' ∧ c.isDigit = true ∧ (c = '0' → s' = [] ∨ s'.head? = some 'x' ∨ s'.head? = some 'b'))
    (hw : s.all isWord = true) (hdot : '.' ∉ s) (hn : parseNat s = some n) : KGood false s [.word s] (.num n) := by
  obtain ⟨c, s', rfl, hc, h0⟩ := hd
  obtain ⟨a1, a2, a3, a4, a5⟩ := kDigit (s := s') hc
  refine kWord hw a4 ?_
  unfold ktAtom
  rw [if_neg a1, if_neg a2, if_neg a3]
  simp only [hc, if_true, hdot, if_false, a5, hn, Option.map_some]
  rw [if_neg]
  rintro ⟨e, h1, h2, h3⟩
  rcases h0 e with h | h | h
  · exact h1 h
  · exact h2 h
  · exact h3 h

theorem kFlt {ip fp : Str} (h0 : ip ≠ []) (h1 : ip.all Char.isDigit = true) (h2 : fp.all Char.isDigit = true) :
    KGood false (ip ++ '.' :: fp) [.word (ip ++ '.' :: fp)] (.flt ip fp) ∧ (ip ++ '.' :: fp).all isWord = true := by
  rw [List.all_eq_true] at h1 h2
  cases ip with
  | nil => exact absurd rfl h0
  | cons c s' =>
    have hc := h1 c (by simp)
    obtain ⟨a1, a2, a3, a4, a5⟩ := kDigit (s := s' ++ '.' :: fp) hc
    have hdot : '.' ∉ c :: s' := fun h => by have := h1 _ h; revert this; decide
    have hw : (c :: s' ++ '.' :: fp).all isWord = true := by
      rw [List.all_eq_true]
      intro d hd
      rcases List.mem_append.mp hd with hd | hd
      · exact isDigit_isWord (h1 d hd)
      · rcases List.mem_cons.mp hd with rfl | hd
        · decide
        · exact isDigit_isWord (h2 d hd)
    refine ⟨kWord hw a4 ?_, hw⟩
    unfold ktAtom
    simp only [List.cons_append]
    rw [if_neg a1, if_neg a2, if_neg a3]
    have hm : '.' ∈ c :: (s' ++ '.' :: fp) := by simp
    simp only [hc, if_true, hm, a5, if_false]
    have := takeWhile_dot (fp := fp) hdot
    rw [List.cons_append] at this
    rw [this.1, this.2]

end Bubbler.Ex
