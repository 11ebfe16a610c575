import Verif.Util.Calc

/-
Specification of the template calculator: expressions, their text, their value; and the proof that `calculate` computes it.
-/
namespace Bubbler.Calc

variable {O : FOps}

/-- The binary operators -/
inductive Op
  | lor | lor' | land | land' | bor | xor | band | eq | ne | lt | gt | le | ge | shl | shr | add | sub | mul | div | mod
deriving DecidableEq, Repr

def Op.text : Op → Str
  | .lor => ['|', '|'] | .lor' => ['o', 'r'] | .land => ['&', '&'] | .land' => ['a', 'n', 'd']
  | .bor => ['|'] | .xor => ['^'] | .band => ['&'] | .eq => ['=', '='] | .ne => ['!', '=']
  | .lt => ['<'] | .gt => ['>'] | .le => ['<', '='] | .ge => ['>', '='] | .shl => ['<', '<'] | .shr => ['>', '>']
  | .add => ['+'] | .sub => ['-'] | .mul => ['*'] | .div => ['/'] | .mod => ['%']

/-- How tightly the operator binds: 0 (`||`) to 9 (`*`) -/
def Op.level : Op → Nat
  | .lor | .lor' => 0
  | .land | .land' => 1
  | .bor => 2
  | .xor => 3
  | .band => 4
  | .eq | .ne => 5
  | .lt | .gt | .le | .ge => 6
  | .shl | .shr => 7
  | .add | .sub => 8
  | .mul | .div | .mod => 9

/-- What an operator does to two values; `none` = panic.  For integers see `C43_integers`. -/
def Op.apply : Op → V O → V O → Option (V O)
  | .lor | .lor' => fun a b => (toBool a).bind fun x => if x then some (.bool true) else (toBool b).map .bool
  | .land | .land' => fun a b => (toBool a).bind fun x => if x then (toBool b).map .bool else some (.bool false)
  | .bor => intOp (bitOp (· ||| ·))
  | .xor => intOp (bitOp (· ^^^ ·))
  | .band => intOp (bitOp (· &&& ·))
  | .eq => fun a b => some (.bool (goEq a b))
  | .ne => fun a b => some (.bool (!goEq a b))
  | .lt => compare (fun x y => decide (x < y)) O.lt
  | .gt => compare (fun x y => decide (y < x)) (fun x y => O.lt y x)
  | .le => compare (fun x y => decide (x ≤ y)) O.le
  | .ge => compare (fun x y => decide (y ≤ x)) (fun x y => O.le y x)
  | .shl => intOp goShl
  | .shr => intOp goShr
  | .add => arith (fun x y => some (x + y)) O.add
  | .sub => arith (fun x y => some (x - y)) O.sub
  | .mul => arith (fun x y => some (x * y)) O.mul
  | .div => arith goDiv O.div
  | .mod => intOp goMod

inductive Un | pos | neg | compl | not
deriving DecidableEq, Repr

def Un.text : Un → Str
  | .pos => ['+'] | .neg => ['-'] | .compl => ['~'] | .not => ['!']

/-- Expressions -/
inductive E (O : FOps)
  | atom (v : V O)
  | paren (e : E O)
  | un (o : Un) (e : E O)
  | bin (o : Op) (a b : E O)
  | cond (a b c : E O)

/-- The arguments of `calc` that stand for the expression -/
def E.toks : E O → List (V O)
  | .atom v => [v]
  | .paren e => .str ['('] :: (e.toks ++ [.str [')']])
  | .un o e => .str o.text :: e.toks
  | .bin o a b => a.toks ++ .str o.text :: b.toks
  | .cond a b c => a.toks ++ .str ['?'] :: (b.toks ++ .str [':'] :: c.toks)

/-- Binding strength: `?:` 0, binary operators 1 to 10, the rest 11 -/
def E.prec : E O → Nat
  | .cond .. => 0
  | .bin o _ _ => o.level + 1
  | _ => 11

/-- Is the string the text of a unary operator or an opening parenthesis? -/
def special : V O → Bool
  | .str s => s == ['+'] || s == ['-'] || s == ['~'] || s == ['!'] || s == ['(']
  | _ => false

/-- Expressions that need no further parentheses: operators of the same strength group to the right. -/
def E.wf : E O → Bool
  | .atom v => !special v
  | .paren e => e.wf
  | .un _ e => e.wf && e.prec == 11
  | .bin o a b => a.wf && b.wf && decide (o.level + 1 < a.prec) && decide (o.level + 1 ≤ b.prec)
  | .cond a b c => a.wf && b.wf && c.wf && decide (1 ≤ a.prec)

/-- A literal floating point number -/
def E.isFloatAtom : E O → Bool
  | .atom v => isFloat v
  | _ => false

/-- The value of an expression; `none` = panic.  All parts are evaluated. -/
def E.eval : E O → Option (V O)
  | .atom v => some v
  | .paren e => e.eval
  | .un .pos e => e.eval
  | .un .neg e => e.eval.bind fun x =>
      if e.isFloatAtom then (toFloat x).map fun y => .f64 (O.neg y) else (toInt64 x).map fun y => .int .int64 (w64 (-y))
  | .un .compl e => e.eval.bind fun x => (toInt64 x).map fun y => .int .int64 (w64 (-y - 1))
  | .un .not e => e.eval.bind fun x => (toBool x).map fun y => .bool (!y)
  | .bin o a b => a.eval.bind fun x => b.eval.bind fun y => o.apply x y
  | .cond a b c => a.eval.bind fun x => b.eval.bind fun y => c.eval.bind fun z => (toBool x).map fun t => if t then y else z

/-! ### Proof -/

theorem binop_self (o : Op) : binop (O := O) o.level o.text = some o.apply := by
  cases o <;> rfl

theorem binop_other (o : Op) (l : Nat) (hl : l < 10) (h : l ≠ o.level) : binop (O := O) l o.text = none := by
  cases o <;> (rcases l with _ | _ | _ | _ | _ | _ | _ | _ | _ | _ | l <;> first | rfl | exact absurd rfl h | omega)

theorem binop_none (s : Str) (hs : ∀ o : Op, s ≠ o.text) (l : Nat) : binop (O := O) l s = none := by
  have h := fun o => hs o
  rcases l with _ | _ | _ | _ | _ | _ | _ | _ | _ | _ | l
  · have h1 := h .lor; have h2 := h .lor'; simp only [Op.text] at h1 h2; simp [binop, h1, h2]
  · have h1 := h .land; have h2 := h .land'; simp only [Op.text] at h1 h2; simp [binop, h1, h2]
  · have h1 := h .bor; simp only [Op.text] at h1; simp [binop, h1]
  · have h1 := h .xor; simp only [Op.text] at h1; simp [binop, h1]
  · have h1 := h .band; simp only [Op.text] at h1; simp [binop, h1]
  · have h1 := h .eq; have h2 := h .ne; simp only [Op.text] at h1 h2; simp [binop, h1, h2]
  · have h1 := h .lt; have h2 := h .gt; have h3 := h .le; have h4 := h .ge
    simp only [Op.text] at h1 h2 h3 h4; simp [binop, h1, h2, h3, h4]
  · have h1 := h .shl; have h2 := h .shr; simp only [Op.text] at h1 h2; simp [binop, h1, h2]
  · have h1 := h .add; have h2 := h .sub; simp only [Op.text] at h1 h2; simp [binop, h1, h2]
  · have h1 := h .mul; have h2 := h .div; have h3 := h .mod
    simp only [Op.text] at h1 h2 h3; simp [binop, h1, h2, h3]
  · rfl

/-- Forget the length bound. -/
def run {a : List (V O)} (x : R O a) : Option (V O × List (V O)) := x.map fun p => (p.1, p.2.1)

theorem run_bin (l : Nat) (hl : l < 10) (a : List (V O)) :
    run (calcBin l a) = (run (calcBin (l + 1) a)).bind fun p =>
      match peekOp l p.2 with
      | none => some p
      | some op => (run (calcBin l p.2.tail)).bind fun q => (op p.1 q.1).map fun z => (z, q.2) := by
  conv => lhs; unfold calcBin
  rw [dif_pos hl]
  cases h : calcBin (l + 1) a with
  | none => rfl
  | some p =>
    obtain ⟨x, r, hr⟩ := p
    simp only [run, Option.map_some, Option.bind_some]
    split
    · rename_i h1; simp only [h1]; rfl
    · rename_i op h1
      simp only [h1]
      cases h2 : calcBin l r.tail with
      | none => rfl
      | some q =>
        obtain ⟨y, r2, hr2⟩ := q
        simp only [Option.map_some, Option.bind_some]
        cases op x y <;> rfl

theorem run_bin_end (a : List (V O)) : run (calcBin 10 a) = run (calcUnary a) := by
  conv => lhs; unfold calcBin
  rw [dif_neg (by omega)]

theorem run_tern (a : List (V O)) :
    run (calcTern a) = (run (calcBin 0 a)).bind fun p =>
      match p.2 with
      | .str ['?'] :: r1 => (run (calcTern r1)).bind fun q => (run (calcTern q.2.tail)).bind fun s =>
          (toBool p.1).map fun t => (if t then q.1 else s.1, s.2)
      | _ => some p := by
  conv => lhs; unfold calcTern
  cases h : calcBin 0 a with
  | none => rfl
  | some p =>
    obtain ⟨x, r, hr⟩ := p
    simp only [run, Option.map_some, Option.bind_some]
    split
    · rename_i r1 hr1 
      cases h2 : calcTern r1 with
      | none => simp only [h2, Option.map_none, Option.bind_none]
      | some q =>
        obtain ⟨y, r2, hr2⟩ := q
        simp only [h2, Option.map_some, Option.bind_some]
        cases h3 : calcTern r2.tail with
        | none => simp only [Option.map_none, Option.bind_none]
        | some s =>
          obtain ⟨z, r3, hr3⟩ := s
          simp only [Option.map_some, Option.bind_some]
          cases toBool x <;> rfl
    · rename_i h1
      split
      · rename_i r1; exact (h1 r1 hr rfl HEq.rfl).elim
      · rfl

/-- The calculator at a given strength -/
def parse (l : Nat) (a : List (V O)) : Option (V O × List (V O)) :=
  if l = 0 then run (calcTern a) else run (calcBin (l - 1) a)

/-- No operator of strength `l` or more follows. -/
def Stops (l : Nat) (r : List (V O)) : Prop :=
  (∀ k, k < 10 → l ≤ k + 1 → peekOp k r = none) ∧ (l = 0 → ∀ r', r ≠ .str ['?'] :: r')

theorem parse_down {a r : List (V O)} {v : Option (V O)} (l : Nat) (hl : l < 11) (h : parse (l + 1) a = v.map fun x => (x, r)) (hs : Stops l r) :
    parse l a = v.map fun x => (x, r) := by
  unfold parse at h ⊢
  simp only [Nat.add_eq_zero_iff, Nat.succ_ne_self, and_false, if_false, Nat.add_sub_cancel] at h
  by_cases h0 : l = 0
  · subst h0
    rw [if_pos rfl, run_tern, h]
    cases v with
    | none => rfl
    | some x =>
      simp only [Option.map_some, Option.bind_some]
      split
      · exact absurd rfl (hs.2 rfl _)
      · rfl
  · rw [if_neg h0, run_bin _ (by omega), show l - 1 + 1 = l from by omega, h]
    cases v with
    | none => rfl
    | some x =>
      simp only [Option.map_some, Option.bind_some, hs.1 (l - 1) (by omega) (by omega)]

theorem Stops.mono {l m : Nat} {r : List (V O)} (h : Stops l r) (hm : l ≤ m) : Stops m r :=
  ⟨fun k hk h' => h.1 k hk (by omega), fun h0 => h.2 (by omega)⟩

theorem parse_downs {a r : List (V O)} {v : Option (V O)} (d l : Nat) (hl : l + d ≤ 11) (h : parse (l + d) a = v.map fun x => (x, r))
    (hs : Stops l r) : parse l a = v.map fun x => (x, r) := by
  induction d with
  | zero => exact h
  | succ d ih =>
    exact ih (by omega) (parse_down (l + d) (by omega) h (hs.mono (by omega)))

theorem stops_str (s : Str) (hs : ∀ o : Op, s ≠ o.text) (hq : s ≠ ['?']) (l : Nat) (r : List (V O)) : Stops l (.str s :: r) := by
  refine ⟨fun k _ _ => binop_none s hs k, fun _ r' h => ?_⟩
  simp only [List.cons.injEq, V.str.injEq] at h
  exact hq h.1

theorem stops_op (o : Op) (l : Nat) (hl : o.level + 1 < l) (r : List (V O)) : Stops l (.str o.text :: r) := by
  refine ⟨fun k hk h => binop_other o k hk (by omega), fun h => by omega⟩

theorem stops_q (l : Nat) (hl : l ≠ 0) (r : List (V O)) : Stops l (.str ['?'] :: r) :=
  ⟨fun k _ _ => binop_none _ (by intro o; cases o <;> simp [Op.text]) k, fun h => absurd h hl⟩

theorem parse_unary (a : List (V O)) : parse 11 a = run (calcUnary a) := by
  unfold parse; simp [run_bin_end]

theorem head_float {e : E O} (he : e.prec = 11) (r : List (V O)) : (e.toks ++ r).head?.any isFloat = e.isFloatAtom := by
  cases e with
  | atom v => simp [E.toks, E.isFloatAtom]
  | paren e => simp [E.toks, E.isFloatAtom, isFloat]
  | un o e => simp [E.toks, E.isFloatAtom, isFloat]
  | bin o a b => cases o <;> simp [E.prec, Op.level] at he
  | cond a b c => simp [E.prec] at he

theorem unary_atom (v : V O) (h : special v = false) (r : List (V O)) : run (calcUnary (v :: r)) = some (v, r) := by
  have key : ∀ a, a = v :: r → run (calcUnary a) = some (v, r) := by
    intro a ha
    unfold calcUnary
    split <;> cases ha
    all_goals (try (simp [special] at h; done))
    rfl
  exact key _ rfl

theorem unary_un (o : Un) (r : List (V O)) : run (calcUnary (.str o.text :: r)) =
    (run (calcUnary r)).bind fun p =>
      (match o with
        | .pos => some p.1
        | .neg => if r.head?.any isFloat then (toFloat p.1).map fun y => .f64 (O.neg y) else (toInt64 p.1).map fun y => .int .int64 (w64 (-y))
        | .compl => (toInt64 p.1).map fun y => .int .int64 (w64 (-y - 1))
        | .not => (toBool p.1).map fun y => .bool (!y)).map fun x => (x, p.2) := by
  cases o
  all_goals
    conv => lhs; unfold calcUnary
    simp only [Un.text]
    cases h : calcUnary r with
    | none => rfl
    | some p =>
      obtain ⟨x, r2, hr2⟩ := p
      simp only [run, Option.map_some, Option.bind_some]
      try split
      all_goals
        first
          | rfl
          | (cases toFloat x <;> rfl)
          | (cases toInt64 x <;> rfl)
          | (cases toBool x <;> rfl)

theorem unary_paren (r : List (V O)) : run (calcUnary (.str ['('] :: r)) =
    (run (calcTern r)).bind fun p =>
      match p.2 with
      | .str [')'] :: r3 => some (p.1, r3)
      | _ => none := by
  conv => lhs; unfold calcUnary
  simp only
  cases h : calcTern r with
  | none => rfl
  | some p =>
    obtain ⟨x, r2, hr2⟩ := p
    simp only [run, Option.map_some, Option.bind_some]
    split
    · rfl
    · rename_i h1
      split
      · rename_i r3; exact (h1 r3 hr2 rfl HEq.rfl).elim
      · rfl

theorem parse_toks : ∀ (e : E O), e.wf = true → ∀ (l : Nat), l ≤ e.prec → ∀ r, Stops l r →
    parse l (e.toks ++ r) = e.eval.map fun x => (x, r) := by
  intro e
  induction e with
  | atom v =>
    intro hw l hl r hs
    simp only [E.wf, Bool.not_eq_true'] at hw
    refine parse_downs (11 - l) l (by simp only [E.prec] at hl; omega) ?_ hs
    rw [show l + (11 - l) = 11 from by simp only [E.prec] at hl; omega, parse_unary]
    exact unary_atom v hw r
  | paren e ih =>
    intro hw l hl r hs
    refine parse_downs (11 - l) l (by simp only [E.prec] at hl; omega) ?_ hs
    rw [show l + (11 - l) = 11 from by simp only [E.prec] at hl; omega, parse_unary]
    have h := ih (by simpa [E.wf] using hw) 0 (Nat.zero_le _) (.str [')'] :: r)
      (stops_str _ (by intro o; cases o <;> simp [Op.text]) (by decide) _ _)
    simp only [parse, if_true] at h
    rw [show (E.paren e).toks ++ r = .str ['('] :: (e.toks ++ .str [')'] :: r) from by simp [E.toks], unary_paren, h]
    simp only [E.eval]
    cases e.eval <;> rfl
  | un o e ih =>
    intro hw l hl r hs
    refine parse_downs (11 - l) l (by simp only [E.prec] at hl; omega) ?_ hs
    rw [show l + (11 - l) = 11 from by simp only [E.prec] at hl; omega, parse_unary]
    simp only [E.wf, Bool.and_eq_true, beq_iff_eq] at hw
    have hs11 : Stops 11 r := hs.mono (by simp only [E.prec] at hl; omega)
    have h := ih hw.1 11 (by omega) r hs11
    rw [parse_unary] at h
    have hf := head_float hw.2 r
    simp only [E.toks, List.cons_append]
    rw [unary_un, h, hf]
    cases o <;> simp only [E.eval] <;> cases e.eval <;> rfl
  | bin o a b iha ihb =>
    intro hw l hl r hs
    simp only [E.wf, Bool.and_eq_true, decide_eq_true_eq] at hw
    obtain ⟨⟨⟨wa, wb⟩, la⟩, lb⟩ := hw
    simp only [E.prec] at hl
    have ho : o.level < 10 := by cases o <;> decide
    refine parse_downs (o.level + 1 - l) l (by omega) ?_ hs
    rw [show l + (o.level + 1 - l) = o.level + 1 from by omega]
    have h1 := iha wa (o.level + 2) (by omega) (.str o.text :: (b.toks ++ r)) (stops_op o _ (by omega) _)
    have h2 := ihb wb (o.level + 1) lb r (hs.mono (by omega))
    simp only [parse, Nat.add_eq_zero_iff, Nat.succ_ne_self, and_false, if_false, Nat.add_sub_cancel, Nat.reduceAdd,
      show o.level + 2 - 1 = o.level + 1 from rfl, reduceCtorEq] at h1 h2 ⊢
    rw [show (E.bin o a b).toks ++ r = a.toks ++ .str o.text :: (b.toks ++ r) from by simp [E.toks], run_bin _ ho, h1]
    simp only [E.eval]
    cases ha : a.eval with
    | none => rfl
    | some x =>
      simp only [Option.map_some, Option.bind_some, peekOp, binop_self, List.tail_cons, h2]
      cases hb : b.eval with
      | none => rfl
      | some y =>
        simp only [Option.map_some, Option.bind_some]
  | cond a b c iha ihb ihc =>
    intro hw l hl r hs
    simp only [E.wf, Bool.and_eq_true, decide_eq_true_eq] at hw
    obtain ⟨⟨⟨wa, wb⟩, wc⟩, la⟩ := hw
    simp only [E.prec, Nat.le_zero] at hl
    subst hl
    have h1 := iha wa 1 la (.str ['?'] :: (b.toks ++ .str [':'] :: (c.toks ++ r))) (stops_q _ (by omega) _)
    have h2 := ihb wb 0 (Nat.zero_le _) (.str [':'] :: (c.toks ++ r)) (stops_str _ (by intro o; cases o <;> simp [Op.text]) (by decide) _ _)
    have h3 := ihc wc 0 (Nat.zero_le _) r hs
    simp only [parse, if_true, Nat.reduceSub, Nat.one_ne_zero, if_false] at h1 h2 h3 ⊢
    rw [show (E.cond a b c).toks ++ r = a.toks ++ .str ['?'] :: (b.toks ++ .str [':'] :: (c.toks ++ r)) from by simp [E.toks], run_tern, h1]
    simp only [E.eval]
    cases a.eval with
    | none => rfl
    | some x =>
      simp only [Option.map_some, Option.bind_some, h2]
      cases b.eval with
      | none => rfl
      | some y =>
        simp only [Option.map_some, Option.bind_some, List.tail_cons, h3]
        cases c.eval with
        | none => rfl
        | some z =>
          simp only [Option.map_some, Option.bind_some]
          cases toBool x <;> rfl

theorem calculate_toks (e : E O) (hw : e.wf = true) (r : List (V O)) (hr : Stops 0 r) : calculate (e.toks ++ r) = e.eval := by
  have h := parse_toks e hw 0 (Nat.zero_le _) r hr
  simp only [parse, if_true, run] at h
  unfold calculate
  cases hc : calcTern (e.toks ++ r) with
  | none => rw [hc] at h; cases he : e.eval <;> simp [he] at h ⊢
  | some p =>
    rw [hc] at h
    cases he : e.eval with
    | none => simp [he] at h
    | some y =>
      simp only [he, Option.map_some, Option.some.injEq, Prod.mk.injEq] at h
      simp [h.1]

end Bubbler.Calc
