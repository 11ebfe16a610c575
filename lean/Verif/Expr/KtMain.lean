import Verif.Expr.KtProofs

/-
The printed expression of the Kotlin target is read as the written one: the induction.
-/
namespace Bubbler.Ex
open Num

theorem digits10_head0 (n : Nat) : ∃ c s', digits 10 n = c :: s' ∧ c.isDigit = true ∧ (c = '0' → s' = [] ∨ s'.head? = some 'x' ∨ s'.head? = some 'b') := by
  obtain ⟨c, s', h, hc⟩ := digits10_head n
  refine ⟨c, s', h, hc, fun e => ?_⟩
  by_cases hn : n = 0
  · subst hn
    rw [digits_lt (by omega)] at h
    simp only [List.cons.injEq] at h
    exact .inl h.2.symm
  · obtain ⟨d, r, h', hd, hd'⟩ := digits_head (b := 10) (by omega) n (by omega)
    rw [h] at h'
    simp only [List.cons.injEq] at h'
    obtain ⟨rfl, _⟩ := h'
    exact absurd e (digitChar_ne_zero d (by omega) hd)

/-- A good integer literal. -/
theorem kInt (decnum : Bool) {neg : Bool} {text : Str} (h : (ConstE.int neg text).good = true) :
    ∃ l, visitConst (.int neg text) = some (.int l) ∧
      ∃ toks, KGood (ExprA.const (.int neg text)).negConst (ktLit decnum (.int l)) toks (intTree false ((intValue neg text).getD 0)) := by
  simp only [ConstE.good] at h
  cases hp : parseNat text with
  | none => rw [hp] at h; cases h
  | some n =>
    rw [hp] at h
    simp only [Bool.and_eq_true, Bool.or_eq_true, Bool.not_eq_true', decide_eq_true_eq] at h
    obtain ⟨⟨⟨h1, h2⟩, h3⟩, h4⟩ := h
    have hpi := parseInt_of_nat hp h1 ⟨h2, h3⟩
    simp only [visitConst, hpi, ExprA.negConst, intValue, hp, Option.map_some, Option.getD_some]
    refine ⟨_, rfl, ?_⟩
    generalize hv : (if neg = true then -(n : Int) else (n : Int)) = v
    have hv1 : -2 ^ 63 ≤ v ∧ v < 2 ^ 63 := by rw [← hv]; split <;> omega
    have hbv := ofInt_toInt hv1.1 hv1.2
    have hbase : baseOf text ≠ .auto := by
      unfold baseOf
      split
      · split
        · simp
        · split <;> simp
      · simp
    have dec : ∀ m, KGood false (digits 10 m) [.word (digits 10 m)] (.num m) := fun m =>
      kNum (digits10_head0 m) (digits_word (by omega) (by omega) m).1 (digits_word (by omega) (by omega) m).2 (parseNat_digits10 m)
    simp only [ktLit, formatInt, Bool.false_eq_true, if_false, hbv, hbase, false_or]
    by_cases hlt : v < 0
    · have hneg : neg = true := by
        cases neg with
        | true => rfl
        | false => simp at hv; omega
      have hn0 : n ≠ 0 := by rintro rfl; rw [hneg] at hv; simp at hv; omega
      have hdec : (if decnum = true then Base.dec else baseOf text) = .dec := by
        rcases h4 with (h4 | h4) | h4
        · rw [hneg] at h4; cases h4
        · exact absurd h4 hn0
        · rw [h4]; split <;> rfl
      rw [hdec]
      simp only [intDigits, hlt, if_true, intTree, decide_true, Bool.false_eq_true, false_and, if_false]
      exact ⟨_, kNeg (dec _) digits_ne_nil (digits_word (by omega) (by omega) _).1⟩
    · simp only [intDigits, hlt, if_false, intTree, decide_false, Bool.false_eq_true, false_and]
      by_cases hd : decnum = true
      · rw [if_pos hd]; exact ⟨_, dec _⟩
      · rw [if_neg hd]
        cases hb : baseOf text with
        | auto => exact absurd hb hbase
        | dec => exact ⟨_, dec _⟩
        | hex =>
          obtain ⟨w1, w2⟩ := digits_word (b := 16) (by omega) (by omega) v.natAbs
          refine ⟨_, kNum (s := '0' :: 'x' :: digits 16 v.natAbs) ⟨'0', _, rfl, by decide, fun _ => .inr (.inl rfl)⟩ ?_ ?_ (parseNat_hex _)⟩
          · simp only [List.all_cons, w1, Bool.and_true]; decide
          · simp only [List.mem_cons, w2, or_false]; decide
        | bin =>
          obtain ⟨w1, w2⟩ := digits_word (b := 2) (by omega) (by omega) v.natAbs
          refine ⟨_, kNum (s := '0' :: 'b' :: digits 2 v.natAbs) ⟨'0', _, rfl, by decide, fun _ => .inr (.inr rfl)⟩ ?_ ?_ (parseNat_bin _)⟩
          · simp only [List.all_cons, w1, Bool.and_true]; decide
          · simp only [List.mem_cons, w2, or_false]; decide

/-- Good literals. -/
theorem kConst (decnum : Bool) {c : ConstE} (h : c.good = true) (val : Tree) :
    ∃ l, visitConst c = some l ∧ ∃ toks, KGood (ExprA.const c).negConst (ktLit decnum l) toks ((ExprA.const c).ktTree val) := by
  cases c with
  | int neg text =>
    obtain ⟨l, h1, toks, h2⟩ := kInt decnum h
    exact ⟨_, h1, toks, h2⟩
  | float neg ip fp =>
    simp only [ConstE.good, Bool.and_eq_true, Bool.not_eq_true', List.isEmpty_eq_false_iff] at h
    refine ⟨_, rfl, ?_⟩
    obtain ⟨g, hw⟩ := kFlt h.1.1 h.1.2 h.2
    cases neg with
    | false => exact ⟨_, g⟩
    | true => exact ⟨_, kNeg g (by simp) hw⟩
  | bool b =>
    cases b
    · exact ⟨_, rfl, _, kWord (s := lowerBool false) (t := .bool false) (by decide +kernel) (by decide +kernel) (by decide +kernel)⟩
    · exact ⟨_, rfl, _, kWord (s := lowerBool true) (t := .bool true) (by decide +kernel) (by decide +kernel) (by decide +kernel)⟩

/-- Casts. -/
theorem kCast (p : Prim) {na : Bool} {a : Str} {ta : List Tok} {x : Tree} (ha : KGood na a ta x) :
    ∃ toks, KGood false (ktCast p a) toks (ktConv p x) := by
  have conv1 : ∀ m : Str, m.all isWord = true → m.head? = some '.' → ∀ T, (∀ t, ktCall m t = some (.conv T t)) →
      ∃ toks, KGood false ('(' :: a ++ ')' :: (m ++ ['(', ')'])) toks (.conv T x) := by
    intro m h1 h2 T h3
    exact ⟨_, ha.inner.paren (KPost.call (g := .conv T) h1 h2 h3 KPost.nil)⟩
  have conv2 : ∀ m m' : Str, m.all isWord = true → m.head? = some '.' → m'.all isWord = true → m'.head? = some '.' → ∀ T T', (∀ t, ktCall m t = some (.conv T t)) →
      (∀ t, ktCall m' t = some (.conv T' t)) →
      ∃ toks, KGood false ('(' :: a ++ ')' :: (m ++ '(' :: ')' :: (m' ++ ['(', ')']))) toks (.conv T' (.conv T x)) := by
    intro m m' h1 h2 h1' h2' T T' h3 h3'
    exact ⟨_, ha.inner.paren (KPost.call (g := .conv T) h1 h2 h3 (KPost.call (g := .conv T') h1' h2' h3' KPost.nil))⟩
  have e1 : ∀ T : Str, '(' :: a ++ ").to".toList ++ T ++ "()".toList = '(' :: a ++ ')' :: ((".to".toList ++ T) ++ ['(', ')']) := by
    intro T
    rw [show ").to".toList = ')' :: ".to".toList from by decide +kernel, show "()".toList = ['(', ')'] from by decide +kernel]
    simp
  have e2 : ∀ T : Str, '(' :: a ++ ").toUInt().to".toList ++ T ++ "()".toList =
      '(' :: a ++ ')' :: (".toUInt".toList ++ '(' :: ')' :: ((".to".toList ++ T) ++ ['(', ')'])) := by
    intro T
    rw [show ").toUInt().to".toList = ')' :: (".toUInt".toList ++ '(' :: ')' :: ".to".toList) from by decide +kernel, show "()".toList = ['(', ')'] from by decide +kernel]
    simp
  have e3 : ∀ T : Str, '(' :: a ++ ").toInt().to".toList ++ T ++ "()".toList =
      '(' :: a ++ ')' :: (".toInt".toList ++ '(' :: ')' :: ((".to".toList ++ T) ++ ['(', ')'])) := by
    intro T
    rw [show ").toInt().to".toList = ')' :: (".toInt".toList ++ '(' :: ')' :: ".to".toList) from by decide +kernel, show "()".toList = ['(', ')'] from by decide +kernel]
    simp
  have callTo : ∀ T : Str, ".to".toList ++ T ≠ ".inv".toList → T ∈ ktNumTypes → ∀ t, ktCall (".to".toList ++ T) t = some (.conv T t) := by
    intro T h1 h2 t
    have e1 : (".to".toList ++ T).take 3 = ".to".toList := rfl
    have e2 : (".to".toList ++ T).drop 3 = T := rfl
    unfold ktCall
    rw [if_neg h1, e1, e2, if_pos ⟨rfl, h2⟩]
  cases p with
  | bool =>
    have hz : KGood false ['0'] [.word ['0']] (.num 0) := kNum ⟨'0', [], rfl, by decide, fun _ => .inl rfl⟩ (by decide) (by decide) (by decide +kernel)
    have := (kBin (op := .NE) (p := 3) (s := ['!', '=']) (.inr (by decide +kernel)) (by decide +kernel) ha hz).paren KPost.nil
    unfold ktCast
    rw [show " != 0)".toList = [' ', '!', '=', ' ', '0', ')'] from by decide +kernel]
    simp only [List.append_assoc, List.cons_append, List.nil_append] at this ⊢
    exact ⟨_, this⟩
  | u8 => unfold ktCast; rw [e2]; exact conv2 _ _ (by decide +kernel) (by decide +kernel) (by decide +kernel) (by decide +kernel) _ _ (callTo "UInt".toList (by decide +kernel) (by decide +kernel)) (callTo _ (by decide +kernel) (by decide +kernel))
  | u16 => unfold ktCast; rw [e2]; exact conv2 _ _ (by decide +kernel) (by decide +kernel) (by decide +kernel) (by decide +kernel) _ _ (callTo "UInt".toList (by decide +kernel) (by decide +kernel)) (callTo _ (by decide +kernel) (by decide +kernel))
  | i8 => unfold ktCast; rw [e3]; exact conv2 _ _ (by decide +kernel) (by decide +kernel) (by decide +kernel) (by decide +kernel) _ _ (callTo "Int".toList (by decide +kernel) (by decide +kernel)) (callTo _ (by decide +kernel) (by decide +kernel))
  | i16 => unfold ktCast; rw [e3]; exact conv2 _ _ (by decide +kernel) (by decide +kernel) (by decide +kernel) (by decide +kernel) _ _ (callTo "Int".toList (by decide +kernel) (by decide +kernel)) (callTo _ (by decide +kernel) (by decide +kernel))
  | u32 => unfold ktCast; rw [e1]; exact conv1 _ (by decide +kernel) (by decide +kernel) _ (callTo _ (by decide +kernel) (by decide +kernel))
  | u64 => unfold ktCast; rw [e1]; exact conv1 _ (by decide +kernel) (by decide +kernel) _ (callTo _ (by decide +kernel) (by decide +kernel))
  | i32 => unfold ktCast; rw [e1]; exact conv1 _ (by decide +kernel) (by decide +kernel) _ (callTo _ (by decide +kernel) (by decide +kernel))
  | i64 => unfold ktCast; rw [e1]; exact conv1 _ (by decide +kernel) (by decide +kernel) _ (callTo _ (by decide +kernel) (by decide +kernel))
  | f32 => unfold ktCast; rw [e1]; exact conv1 _ (by decide +kernel) (by decide +kernel) _ (callTo _ (by decide +kernel) (by decide +kernel))
  | f64 => unfold ktCast; rw [e1]; exact conv1 _ (by decide +kernel) (by decide +kernel) _ (callTo _ (by decide +kernel) (by decide +kernel))

theorem callDouble (t : Tree) : ktCall ".toDouble".toList t = some (.conv "Double".toList t) := by
  unfold ktCall
  rw [if_neg (by decide +kernel), if_pos (by decide +kernel)]
  rw [show ".toDouble".toList.drop 3 = "Double".toList from by decide +kernel]
theorem callInt (t : Tree) : ktCall ".toInt".toList t = some (.conv "Int".toList t) := by
  unfold ktCall
  rw [if_neg (by decide +kernel), if_pos (by decide +kernel)]
  rw [show ".toInt".toList.drop 3 = "Int".toList from by decide +kernel]
theorem callInv (t : Tree) : ktCall ".inv".toList t = some (.un .BNOT t) := by
  unfold ktCall
  rw [if_pos rfl]

/-- Prefix operators. -/
theorem kUnop (op : UnTk) {na : Bool} {a : Str} {ta : List Tok} {x : Tree} (ha : KGood na a ta x) (hn : op = .SUB → na = false) :
    ∃ toks, KGood false (ktUn (visitUnOp op) a) toks (.un op x) := by
  by_cases hop : op = .BNOT
  · subst hop
    unfold ktUn
    rw [if_pos (show visitUnOp UnTk.BNOT = ExprOp.BNOT from rfl), show ").inv()".toList = ')' :: (".inv".toList ++ ['(', ')']) from by decide +kernel]
    exact ⟨_, ha.inner.paren (KPost.call (g := .un .BNOT) (by decide +kernel) (by decide +kernel) callInv KPost.nil)⟩
  · have key : ∃ toks, KInner (cOpStr (visitUnOp op) ++ a) toks (.un op x) := by
      refine ⟨_, kUn (op := op) ?_ ?_ ha ?_ ?_⟩
      · cases op <;> first | exact absurd rfl hop | decide +kernel
      · cases op <;> first | exact absurd rfl hop | decide +kernel
      · cases op <;> first | exact absurd rfl hop | decide +kernel
      · intro h
        cases op with
        | SUB => rw [hn rfl] at h; cases h
        | BNOT => exact absurd rfl hop
        | _ => decide +kernel
    obtain ⟨toks, hk⟩ := key
    have := hk.paren KPost.nil
    unfold ktUn
    rw [if_neg (by cases op <;> first | exact absurd rfl hop | decide +kernel)]
    exact ⟨_, this⟩

/-- Binary operators. -/
theorem kBinop (op : BinTk) {na nb : Bool} {a b : Str} {ta tb : List Tok} {x y : Tree} (ha : KGood na a ta x) (hb : KGood nb b tb y) :
    ∃ toks, KGood false (ktBin (visitBinOp op) a b) toks
      (if op = .POW then .bin .POW (.conv "Double".toList x) (.conv "Double".toList y)
        else if op = .SHL ∨ op = .SHR then .bin op x (.conv "Int".toList y) else .bin op x y) := by
  have plain : ∀ (s : Str) (op : BinTk) (p : Nat), ((s.all isWord = true ∧ s ≠ [] ∧ s.head? ≠ some '.') ∨ (s.all isWord = false ∧ s ∈ ktSyms ∧ s ≠ ['('])) →
      ktBinOp (tokOf s) = some (op, p) → ∃ toks, KGood false ('(' :: a ++ ' ' :: s ++ ' ' :: b ++ [')']) toks (.bin op x y) := by
    intro s op p h1 h2
    have := (kBin h1 h2 ha hb).paren KPost.nil
    simp only [List.append_assoc, List.cons_append] at this ⊢
    exact ⟨_, this⟩
  have shift : ∀ (s : Str) (op : BinTk) (p : Nat), (s.all isWord = true ∧ s ≠ [] ∧ s.head? ≠ some '.') →
      ktBinOp (tokOf s) = some (op, p) → ∃ toks, KGood false ('(' :: a ++ ' ' :: s ++ ' ' :: '(' :: b ++ ")).toInt())".toList.drop 1) toks (.bin op x (.conv "Int".toList y)) := by
    intro s op p h1 h2
    have hb' := hb.inner.paren (KPost.call (g := .conv "Int".toList) (by decide +kernel) (by decide +kernel) callInt KPost.nil)
    have := (kBin (.inl h1) h2 ha hb').paren KPost.nil
    rw [show ")).toInt())".toList.drop 1 = ')' :: (".toInt".toList ++ ['(', ')', ')']) from by decide +kernel]
    simp only [List.append_assoc, List.cons_append, List.nil_append] at this ⊢
    exact ⟨_, this⟩
  cases op with
  | POW =>
    have hb' := hb.inner.paren (KPost.call (g := .conv "Double".toList) (by decide +kernel) (by decide +kernel) callDouble KPost.nil)
    have := ha.inner.paren (KPost.call (g := .conv "Double".toList) (by decide +kernel) (by decide +kernel) callDouble (KPost.pow hb'.inner))
    simp only [visitBinOp, ktBin, if_true]
    rw [show ").toDouble().pow((".toList = ')' :: (".toDouble".toList ++ '(' :: ')' :: (".pow".toList ++ ['(', '('])) from by decide +kernel,
      show ").toDouble())".toList = ')' :: (".toDouble".toList ++ ['(', ')', ')']) from by decide +kernel]
    simp only [List.append_assoc, List.cons_append, List.nil_append] at this ⊢
    exact ⟨_, this⟩
  | SHL =>
    simp only [visitBinOp, ktBin]
    obtain ⟨toks, h⟩ := shift ['s', 'h', 'l'] .SHL 5 (by decide +kernel) (by decide +kernel)
    refine ⟨toks, ?_⟩
    rw [show " shl (".toList = [' ', 's', 'h', 'l', ' ', '('] from by decide +kernel, show ").toInt())".toList = ")).toInt())".toList.drop 1 from by decide +kernel]
    simp only [List.append_assoc, List.cons_append, List.nil_append] at h ⊢
    exact h
  | SHR =>
    simp only [visitBinOp, ktBin]
    obtain ⟨toks, h⟩ := shift ['s', 'h', 'r'] .SHR 5 (by decide +kernel) (by decide +kernel)
    refine ⟨toks, ?_⟩
    rw [show " shr (".toList = [' ', 's', 'h', 'r', ' ', '('] from by decide +kernel, show ").toInt())".toList = ")).toInt())".toList.drop 1 from by decide +kernel]
    simp only [List.append_assoc, List.cons_append, List.nil_append] at h ⊢
    exact h
  | BAND =>
    simp only [visitBinOp, ktBin]
    obtain ⟨toks, h⟩ := plain ['a', 'n', 'd'] .BAND 5 (.inl (by decide +kernel)) (by decide +kernel)
    refine ⟨toks, ?_⟩
    rw [show " and ".toList = [' ', 'a', 'n', 'd', ' '] from by decide +kernel]
    simp only [List.append_assoc, List.cons_append, List.nil_append] at h ⊢
    exact h
  | BOR =>
    simp only [visitBinOp, ktBin]
    obtain ⟨toks, h⟩ := plain ['o', 'r'] .BOR 5 (.inl (by decide +kernel)) (by decide +kernel)
    refine ⟨toks, ?_⟩
    rw [show " or ".toList = [' ', 'o', 'r', ' '] from by decide +kernel]
    simp only [List.append_assoc, List.cons_append, List.nil_append] at h ⊢
    exact h
  | BXOR =>
    simp only [visitBinOp, ktBin]
    obtain ⟨toks, h⟩ := plain ['x', 'o', 'r'] .BXOR 5 (.inl (by decide +kernel)) (by decide +kernel)
    refine ⟨toks, ?_⟩
    rw [show " xor ".toList = [' ', 'x', 'o', 'r', ' '] from by decide +kernel]
    simp only [List.append_assoc, List.cons_append, List.nil_append] at h ⊢
    exact h
  | MUL => exact plain _ .MUL 7 (.inr (by decide +kernel)) (by decide +kernel)
  | DIV => exact plain _ .DIV 7 (.inr (by decide +kernel)) (by decide +kernel)
  | MOD => exact plain _ .MOD 7 (.inr (by decide +kernel)) (by decide +kernel)
  | ADD => exact plain _ .ADD 6 (.inr (by decide +kernel)) (by decide +kernel)
  | SUB => exact plain _ .SUB 6 (.inr (by decide +kernel)) (by decide +kernel)
  | LT => exact plain _ .LT 4 (.inr (by decide +kernel)) (by decide +kernel)
  | LE => exact plain _ .LE 4 (.inr (by decide +kernel)) (by decide +kernel)
  | GT => exact plain _ .GT 4 (.inr (by decide +kernel)) (by decide +kernel)
  | GE => exact plain _ .GE 4 (.inr (by decide +kernel)) (by decide +kernel)
  | EQ => exact plain _ .EQ 3 (.inr (by decide +kernel)) (by decide +kernel)
  | NE => exact plain _ .NE 3 (.inr (by decide +kernel)) (by decide +kernel)
  | AND => exact plain _ .AND 2 (.inr (by decide +kernel)) (by decide +kernel)
  | OR => exact plain _ .OR 1 (.inr (by decide +kernel)) (by decide +kernel)

theorem ExprA.ktMain (decnum : Bool) (ty : Prim) {val : Str} {vt : List Tok} {vtree : Tree} (hval : KGood false val vt vtree) (e : ExprA) (h : e.plain = true) :
    ∃ x toks, visitExpr ty e = some x ∧ KGood e.negConst (ktExpr decnum val x) toks (e.ktTree vtree) := by
  induction e with
  | value => exact ⟨_, _, rfl, hval⟩
  | const c =>
    obtain ⟨l, h1, toks, h3⟩ := kConst decnum (c := c) h vtree
    exact ⟨.const l, toks, by simp only [visitExpr, h1, Option.map_some], h3⟩
  | parens e ih => exact ih h
  | unary op e ih =>
    simp only [ExprA.plain, Bool.and_eq_true, Bool.not_eq_true'] at h
    obtain ⟨x, toks, h1, h2⟩ := ih h.1
    obtain ⟨ts, hg⟩ := kUnop op h2 (by
      rintro rfl
      have := h.2
      simpa using this)
    exact ⟨.un (visitUnOp op) x, ts, by simp only [visitExpr, h1, Option.map_some], hg⟩
  | cast p e ih =>
    obtain ⟨x, toks, h1, h2⟩ := ih h
    obtain ⟨ts, hg⟩ := kCast p h2
    exact ⟨.cast p x, ts, by simp only [visitExpr, h1, Option.map_some], hg⟩
  | binary op a b iha ihb =>
    simp only [ExprA.plain, Bool.and_eq_true] at h
    obtain ⟨x, toks, h1, h2⟩ := iha h.1
    obtain ⟨y, toks', h1', h2'⟩ := ihb h.2
    obtain ⟨ts, hg⟩ := kBinop op h2 h2'
    exact ⟨.bin (visitBinOp op) x y, ts, by simp only [visitExpr, h1, h1', Option.map_some], hg⟩
  | ternary c a b ihc iha ihb =>
    simp only [ExprA.plain, Bool.and_eq_true] at h
    obtain ⟨x, toks, h1, h2⟩ := ihc h.1.1
    obtain ⟨y, toks', h1', h2'⟩ := iha h.1.2
    obtain ⟨z, toks'', h1'', h2''⟩ := ihb h.2
    have hg := (kCond h2 h2' h2'').paren KPost.nil
    suffices hs : ∃ toks, KGood false (ktCond (ktExpr decnum val x) (ktExpr decnum val y) (ktExpr decnum val z)) toks ((ExprA.ternary c a b).ktTree vtree) by
      obtain ⟨toks, hs⟩ := hs
      exact ⟨.tern x y z, toks, by simp only [visitExpr, h1, h1', h1'', Option.map_some], hs⟩
    unfold ktCond
    rw [show "(if (".toList = ['(', 'i', 'f', ' ', '('] from by decide +kernel, show ") ".toList = [')', ' '] from by decide +kernel,
      show " else ".toList = [' ', 'e', 'l', 's', 'e', ' '] from by decide +kernel]
    simp only [List.append_assoc, List.cons_append, List.nil_append] at hg ⊢
    exact ⟨_, hg⟩

end Bubbler.Ex
