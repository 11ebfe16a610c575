import Verif.Front.LexConv
import Verif.Front.LitProofs
import Verif.Front.Relocate

/-
C60: tokens.  C61: trees.  C62: literals.  C63: layout does not matter.
-/
namespace Bubbler
open Front
open Comp (UnitD Out Lit visitConstant compileFile CErr Pos)
open Ex (BinTk UnTk)

/-! ### C60: tokens -/

/-- **C60, laid out sources.** Tokens with blanks and comments between them are read as these tokens, at the places they
stand at, if no token touches a character that could belong to it. -/
theorem C60_layout (items : List (Gap × Tk)) (t : Tail) (ht : t.Ok)
    (hi : ∀ i ∈ items, (∀ b ∈ i.1, b.Ok) ∧ i.2.Valid) (ha : Apart items t) :
    lex (source items t) = some (placed ⟨1, 0⟩ items) :=
  lexAt_source ⟨1, 0⟩ ht hi ha

/-- **C60, every source.** A text has the tokens `ts` exactly if it is a sequence of these tokens, blanks and comments in
which every token is the longest one that begins at its place. -/
theorem C60_exact (s : Str) (ts : List (Tk × At)) :
    lex s = some ts ↔ ∃ items t, s = source items t ∧ t.Ok ∧ (∀ i ∈ items, (∀ b ∈ i.1, b.Ok) ∧ i.2.Valid) ∧
      Munch items t ∧ ts = placed ⟨1, 0⟩ items := by
  constructor
  · intro h; exact lexAt_reads (a := ⟨1, 0⟩) h
  · rintro ⟨items, t, rfl, ht, hi, hm, rfl⟩
    exact lexAt_munch ⟨1, 0⟩ ht hi hm

/-- Line (from 1) and column (from 0) of the character after the text `pre`. -/
def placeAfter (pre : Str) : At := ⟨1 + pre.count '\n', (pre.reverse.takeWhile (· ≠ '\n')).length⟩

theorem over_place (pre s : Str) : (placeAfter pre).over s = placeAfter (pre ++ s) := by
  induction s generalizing pre with
  | nil => rw [List.append_nil]; rfl
  | cons c s ih =>
    rw [show pre ++ c :: s = (pre ++ [c]) ++ s by simp, ← ih]
    show ((placeAfter pre).after c).over s = _
    congr 1
    unfold placeAfter At.after
    by_cases hc : c = '\n'
    · subst hc
      rw [if_pos rfl]
      simp
      omega
    · rw [if_neg hc]
      simp [hc]

theorem placed_places (pre : Str) (items : List (Gap × Tk)) (t : Tail) :
    ∀ x ∈ placed (placeAfter pre) items, ∃ before after, pre ++ source items t = before ++ (x.1.text ++ after) ∧
      x.2 = placeAfter before := by
  induction items generalizing pre with
  | nil => intro x hx; exact nomatch hx
  | cons i r ih =>
    obtain ⟨g, k⟩ := i
    intro x hx
    simp only [placed, over_place] at hx
    rcases List.mem_cons.1 hx with rfl | hx
    · exact ⟨pre ++ g.text, source r t, by simp [source], rfl⟩
    · obtain ⟨b, a, h1, h2⟩ := ih _ x hx
      exact ⟨b, a, by rw [← h1]; simp [source], h2⟩

/-- **C60, places.** Every token is found in the text at its place: its line is one more than the number of newlines before
it, its column the number of characters after the last of them.  Different tokens have different places. -/
theorem C60_places {s : Str} {ts : List (Tk × At)} (h : lex s = some ts) :
    (∀ x ∈ ts, ∃ before after, s = before ++ (x.1.text ++ after) ∧ x.2 = placeAfter before) ∧ (ts.map (·.2)).Nodup := by
  refine ⟨?_, lex_places h⟩
  obtain ⟨items, t, rfl, _, _, _, rfl⟩ := (C60_exact s ts).1 h
  exact placed_places [] items t

/-- **C60, errors.** A text without tokens contains a string that is not closed on its line (or has a malformed escape), or
a character that no token begins with. -/
theorem C60_error {s : Str} (h : lex s = none) : ∃ before c after, s = before ++ c :: after ∧
    (((c = '\'' ∨ c = '"') ∧ ∀ w, w <+: c :: after → ¬ IsStr w) ∨
     (isLetter c = false ∧ isDec c = false ∧ c ∉ [' ', '\t', '\r', '\n', '\x0c'] ∧
       c ∉ "#;=?()[]{}<>.,:+-*/%&|^~!'\"".toList)) := by
  obtain ⟨p, c, u, h1, h2⟩ := lexAt_none (a := ⟨1, 0⟩) h
  refine ⟨p, c, u, h1, ?_⟩
  rcases best_none_first h2 with h3 | ⟨h3, h4, h5, h6⟩
  · exact .inl h3
  · refine .inr ⟨h3, h4, ?_, h6⟩
    intro hm
    simp only [List.mem_cons, List.not_mem_nil, or_false] at hm
    rcases hm with rfl | rfl | rfl | rfl | rfl <;> exact absurd h5 (by decide)

/-- Non-vacuity. -/
example : lex "struct A{uint8 x;// c\n /* y */ get y(int8):value<<0x1F;}".toList = some
    [(.kw .STRUCT, ⟨1, 0⟩), (.ident "A".toList, ⟨1, 7⟩), (.sym .LC, ⟨1, 8⟩), (.kw .UINT8, ⟨1, 9⟩), (.ident "x".toList, ⟨1, 15⟩),
     (.sym .SEMI, ⟨1, 16⟩), (.kw .GET, ⟨2, 9⟩), (.ident "y".toList, ⟨2, 13⟩), (.sym .LP, ⟨2, 14⟩), (.kw .INT8, ⟨2, 15⟩),
     (.sym .RP, ⟨2, 19⟩), (.sym .COLON, ⟨2, 20⟩), (.kw .VALUE, ⟨2, 21⟩), (.sym .SHL, ⟨2, 26⟩), (.int "0x1F".toList, ⟨2, 28⟩),
     (.sym .SEMI, ⟨2, 32⟩), (.sym .RC, ⟨2, 33⟩)] := by decide +kernel
example : lex "uint8 a = 'x;\n".toList = none := by decide +kernel
example : lex "uint8 $;".toList = none := by decide +kernel
/-- Leading zeros are octal: `08` is two tokens; so is `0b1`; an unclosed comment is two operators. -/
example : (lex "08 0b1 /*".toList).map (·.map (·.1)) =
    some [.int "0".toList, .int "8".toList, .int "0".toList, .ident "b1".toList, .sym .DIV, .sym .MUL] := by decide +kernel

/-! ### C61: trees -/

/-- **C61.** A text is read as the tree `f` exactly if its tokens are those of `f` and the expressions in `f` are grouped as
the precedences say. -/
theorem C61_exact (s : Str) (f : List Stmt) :
    Front.read s = some f ↔ ∃ ts, lex s = some ts ∧ WFfile f ∧ protoToks f = ts.map mkTok := by
  unfold Front.read
  cases h : lex s with
  | none =>
    constructor
    · intro h; exact nomatch h
    · rintro ⟨ts, h, _⟩; exact nomatch h
  | some ts =>
    simp only [parse_iff]
    constructor
    · rintro ⟨h1, h2⟩; exact ⟨ts, rfl, h1, h2⟩
    · rintro ⟨ts', h1, h2, h3⟩
      simp only [Option.some.injEq] at h1
      subst h1
      exact ⟨h2, h3⟩

/-- **C61, one reading.** No two trees have the same tokens. -/
theorem C61_unambiguous {f f' : List Stmt} (h : WFfile f) (h' : WFfile f') (e : protoToks f = protoToks f') : f = f' := by
  have h1 := (parse_iff (protoToks f') f).2 ⟨h, e⟩
  have h2 := (parse_iff (protoToks f') f').2 ⟨h', rfl⟩
  rw [h1] at h2
  exact Option.some.inj h2

/-- The same for expressions. -/
theorem C61_expr {e e' : Expr} (h : e.WF) (h' : e'.WF) (he : e.toks = e'.toks) : e = e' := by
  have h1 := exprP_toks h (n := 3 * e.toks.length + 1) (r := []) rfl (Nat.le_refl _)
  have h2 := exprP_toks h' (n := 3 * e.toks.length + 1) (r := []) rfl (by rw [he]; exact Nat.le_refl _)
  rw [he] at h1 h2
  rw [h1] at h2
  exact congrArg Prod.fst (Option.some.inj h2)

/-- The operators in groups, the tightest first. -/
def opGroups : List (List BinTk) :=
  [[.POW], [.MUL, .DIV, .MOD], [.ADD, .SUB], [.SHL, .SHR], [.LT, .LE, .GT, .GE], [.EQ, .NE], [.BAND], [.BXOR], [.BOR], [.AND],
   [.OR]]

/-- The number of the group. -/
def opGroup (op : BinTk) : Nat := opGroups.findIdx (op ∈ ·)

/-- `e` is `value`, a constant or in parentheses. -/
def atomic : Expr → Bool
  | .value | .const _ | .parens _ => true
  | _ => false

theorem atomic_top {e : Expr} (h : atomic e = true) : e.top = 16 := by
  cases e <;> first | rfl | exact absurd h Bool.false_ne_true
theorem atomic_takes {e : Expr} (h : atomic e = true) (q : Nat) : e.takes q = false := by
  cases e <;> first | rfl | exact absurd h Bool.false_ne_true

theorem prec_groups (o p : BinTk) : opGroup o ≤ opGroup p ↔ prec p ≤ prec o := by
  cases o <;> cases p <;> decide

/-- **C61, grouping.** `a o b p c` means `(a o b) p c` if `o` binds at least as tightly as `p`, and `a o (b p c)` otherwise; in
particular every operator is left associative, `**` too. -/
theorem C61_groups {a b c : Expr} (ha : a.WF) (hb : b.WF) (hc : c.WF) (aa : atomic a = true) (ab : atomic b = true)
    (ac : atomic c = true) (o p : BinTk) {e : Expr} (he : e.WF)
    (ht : e.toks = a.toks ++ symT (binSym o) :: (b.toks ++ symT (binSym p) :: c.toks)) :
    e = if opGroup o ≤ opGroup p then .binary p (.binary o a b) c else .binary o a (.binary p b c) := by
  have hp16 : ∀ x : BinTk, prec x < 16 := fun x => by cases x <;> decide
  split
  · rename_i hle
    rw [prec_groups] at hle
    refine C61_expr he ⟨⟨ha, hb, atomic_takes aa _, ?_⟩, hc, ?_, ?_⟩ (by rw [ht]; simp [Expr.toks])
    · rw [atomic_top ab]; exact hp16 o
    · simp only [Expr.takes, atomic_takes ab, Bool.or_false, decide_eq_false_iff_not]; omega
    · rw [atomic_top ac]; exact hp16 p
  · rename_i hle
    rw [prec_groups] at hle
    refine C61_expr he ⟨ha, ⟨hb, hc, atomic_takes ab _, ?_⟩, atomic_takes aa _, ?_⟩ (by rw [ht]; simp [Expr.toks])
    · rw [atomic_top ac]; exact hp16 p
    · show prec o < prec p; omega

/-- **C61, conditionals.** `c ? a : b ? d : e` means `(c ? a : b) ? d : e`; every binary operator binds more tightly than `? :`. -/
theorem C61_ternary {c a b d x : Expr} (hc : c.WF) (ha : a.WF) (hb : b.WF) (hd : d.WF) (hx : x.WF) (ac : atomic c = true)
    (ab : atomic b = true) (ax : atomic x = true) {e : Expr} (he : e.WF)
    (ht : e.toks = c.toks ++ symT .QUESTION :: (a.toks ++ symT .COLON :: (b.toks ++ symT .QUESTION ::
      (d.toks ++ symT .COLON :: x.toks)))) :
    e = .ternary (.ternary c a b) d x := by
  refine C61_expr he ⟨⟨hc, ha, hb, atomic_takes ac _, ?_⟩, hd, hx, ?_, ?_⟩ (by rw [ht]; simp [Expr.toks])
  · rw [atomic_top ab]; decide
  · simp only [Expr.takes, atomic_takes ab, Bool.or_false]; decide
  · rw [atomic_top ax]; decide

/-- **C61, prefix operators.** `~a ** b` is `~(a ** b)`, but `~a * b` is `(~a) * b`; a sign before a number belongs to the number. -/
theorem C61_prefix {a b : Expr} (ha : a.WF) (hb : b.WF) (aa : atomic a = true) (ab : atomic b = true) (u : UnTk) (o : BinTk)
    {e : Expr} (he : e.WF) (hn : (u = .ADD ∨ u = .SUB) → numHead a.toks = false)
    (ht : e.toks = symT (unSym u) :: (a.toks ++ symT (binSym o) :: b.toks)) :
    e = if o = .POW then .unary u (.binary o a b) else .binary o (.unary u a) b := by
  have hp16 : ∀ x : BinTk, prec x < 16 := fun x => by cases x <;> decide
  have hnum : ∀ ts, numHead (a.toks ++ ts) = numHead a.toks := by
    intro ts
    cases a with
    | const c => cases c with
      | int sg t => cases sg with
        | none => rfl
        | some b => cases b <;> rfl
      | float sg t => cases sg with
        | none => rfl
        | some b => cases b <;> rfl
      | str t => rfl
      | bool b => rfl
    | value => rfl
    | parens e => rfl
    | _ => exact absurd aa Bool.false_ne_true
  split
  · rename_i ho
    subst ho
    refine C61_expr he ⟨⟨ha, hb, atomic_takes aa _, ?_⟩, (by decide : 13 ≤ 14), ?_⟩ (by rw [ht]; rfl)
    · rw [atomic_top ab]; decide
    · intro hu
      exact (hnum _).trans (hn hu)
  · rename_i ho
    refine C61_expr he ⟨⟨ha, ?_, hn⟩, hb, ?_, ?_⟩ (by rw [ht]; rfl)
    · rw [atomic_top aa]; decide
    · simp only [Expr.takes, atomic_takes aa, Bool.or_false, decide_eq_false_iff_not]
      cases o <;> first | exact absurd rfl ho | decide
    · rw [atomic_top ab]; exact hp16 o

/-- Non-vacuity: a file and its tree. -/
example : Front.read "package a.b; struct S[4] { uint8 x; struct T t; }".toList = some
    [.package ⟨⟨1, 8⟩, "a".toList⟩ [⟨⟨1, 10⟩, "b".toList⟩],
     .struct (.mk ⟨1, 13⟩ ⟨⟨1, 20⟩, "S".toList⟩ (some (.bytes "4".toList))
       (.cons (.normal (.elem (.basic .u8)) ⟨⟨1, 33⟩, "x".toList⟩ none [] none)
         (.cons (.normal (.elem (.structName ⟨1, 36⟩ ⟨⟨1, 43⟩, "T".toList⟩)) ⟨⟨1, 45⟩, "t".toList⟩ none [] none) .nil)))] := by
  rw [C61_exact]
  refine ⟨_, (by decide +kernel : lex _ = some
    [(.kw .PACKAGE, ⟨1, 0⟩), (.ident "a".toList, ⟨1, 8⟩), (.sym .DOT, ⟨1, 9⟩), (.ident "b".toList, ⟨1, 10⟩), (.sym .SEMI, ⟨1, 11⟩),
     (.kw .STRUCT, ⟨1, 13⟩), (.ident "S".toList, ⟨1, 20⟩), (.sym .LB, ⟨1, 21⟩), (.int "4".toList, ⟨1, 22⟩), (.sym .RB, ⟨1, 23⟩),
     (.sym .LC, ⟨1, 25⟩), (.kw .UINT8, ⟨1, 27⟩), (.ident "x".toList, ⟨1, 33⟩), (.sym .SEMI, ⟨1, 34⟩), (.kw .STRUCT, ⟨1, 36⟩),
     (.ident "T".toList, ⟨1, 43⟩), (.ident "t".toList, ⟨1, 45⟩), (.sym .SEMI, ⟨1, 46⟩), (.sym .RC, ⟨1, 48⟩)]), ?_, ?_⟩
  · intro s hs
    simp only [List.mem_cons, List.not_mem_nil, or_false] at hs
    rcases hs with rfl | rfl
    · trivial
    · exact ⟨⟨trivial, fun _ h => nomatch h⟩, ⟨trivial, fun _ h => nomatch h⟩, trivial⟩
  · decide +kernel
example : (Expr.binary .ADD .value (.binary .MUL (.const (.int (some true) "2".toList)) .value)).WF :=
  ⟨trivial, ⟨trivial, trivial, rfl, by decide⟩, rfl, by decide⟩

/-! ### How the language is written -/

/-- The symbols. -/
def symText : Sym → String
  | .HASH => "#" | .SEMI => ";" | .ASSIGN => "=" | .QUESTION => "?" | .LP => "(" | .RP => ")" | .LB => "[" | .RB => "]" | .LC => "{"
  | .RC => "}" | .LT => "<" | .LE => "<=" | .GT => ">" | .GE => ">=" | .EQ => "==" | .NE => "!=" | .DOT => "." | .COMMA => ","
  | .COLON => ":" | .ADD => "+" | .SUB => "-" | .MUL => "*" | .DIV => "/" | .MOD => "%" | .POW => "**" | .SHL => "<<" | .SHR => ">>"
  | .BAND => "&" | .BOR => "|" | .BXOR => "^" | .BNOT => "~" | .AND => "&&" | .OR => "||" | .NOT => "!"

/-- The keywords. -/
def kwText : Kw → String
  | .SYNTAX => "syntax" | .IMPORT => "import" | .GET => "get" | .SET => "set" | .VALUE => "value" | .PACKAGE => "package"
  | .OPTION => "option" | .VOID => "void" | .INT8 => "int8" | .INT16 => "int16" | .INT32 => "int32" | .INT64 => "int64" | .UINT8 => "uint8"
  | .UINT16 => "uint16" | .UINT32 => "uint32" | .UINT64 => "uint64" | .FLOAT32 => "float32" | .FLOAT64 => "float64" | .BOOL => "bool"
  | .STRING => "string" | .BYTES => "bytes" | .ENUM => "enum" | .STRUCT => "struct"

/-- The binary operators. -/
def binText : BinTk → String
  | .POW => "**" | .MUL => "*" | .DIV => "/" | .MOD => "%" | .ADD => "+" | .SUB => "-" | .SHL => "<<" | .SHR => ">>" | .LT => "<"
  | .LE => "<=" | .GT => ">" | .GE => ">=" | .EQ => "==" | .NE => "!=" | .BAND => "&" | .BXOR => "^" | .BOR => "|" | .AND => "&&"
  | .OR => "||"

/-- The prefix operators. -/
def unText : UnTk → String
  | .ADD => "+" | .SUB => "-" | .BNOT => "~" | .NOT => "!"

/-- The basic types. -/
def primText : Prim → String
  | .bool => "bool" | .u8 => "uint8" | .u16 => "uint16" | .u32 => "uint32" | .u64 => "uint64" | .i8 => "int8" | .i16 => "int16"
  | .i32 => "int32" | .i64 => "int64" | .f32 => "float32" | .f64 => "float64"

/-- **C60, symbols and keywords.** Every symbol and keyword is written as the language defines it. -/
theorem C60_written : (∀ k, (Tk.sym k).text = (symText k).toList) ∧ ∀ k, (Tk.kw k).text = (kwText k).toList := by
  constructor <;> intro k <;> cases k <;> decide +kernel

/-- **C61, operators and types.** The operators and types of trees are written as the language defines them. -/
theorem C61_written : (∀ o, (Tk.sym (binSym o)).text = (binText o).toList) ∧ (∀ o, (Tk.sym (unSym o)).text = (unText o).toList) ∧
    ∀ p, (Tk.kw (primKw p)).text = (primText p).toList := by
  refine ⟨?_, ?_, ?_⟩ <;> intro k <;> cases k <;> decide +kernel

/-! ### C62: literals -/

/-- **C62, strings.** A string constant between single or double quotes has the value `v` exactly if the text between the
quotes means `v`; otherwise it is an error. -/
theorem C62_string {q : Char} (hq : q = '\'' ∨ q = '"') (b : Str) (u : UnitD) :
    (∀ v, Means b v → visitConstant (toConst (.str (q :: (b ++ [q])))) u = (.ok (.str v), u)) ∧
    ((¬ ∃ v, Means b v) → visitConstant (toConst (.str (q :: (b ++ [q])))) u = (.err [.invalidLiteral], u)) := by
  have h := visitStr_iff hq b
  constructor
  · intro v hv
    rw [← h] at hv
    simp only [toConst, hv]
    rfl
  · intro hn
    have : visitStr (q :: (b ++ [q])) = none := by
      cases hv : visitStr (q :: (b ++ [q])) with
      | none => rfl
      | some v => exact absurd ⟨v, (h v).1 hv⟩ hn
    simp only [toConst, this]
    rfl

/-- **C62, text.** A text without quotes, backslashes and newlines means its UTF-8 bytes. -/
theorem C62_text (s : Str) (h : ∀ c ∈ s, c ≠ '"' ∧ c ≠ '\\' ∧ c ≠ '\n') : Means s (goStr s) := by
  induction s with
  | nil => exact .nil
  | cons c s ih =>
    obtain ⟨h1, h2, h3⟩ := h c (by simp)
    exact .plain h1 h2 h3 (ih fun c hc => h c (by simp [hc]))

/-- **C62, imports.** The name in an import statement is what the text between double quotes means.  Single quotes are another
matter: a name of two or more characters between them is refused. -/
theorem C62_import (resolve : Str → Option Str) (b : Str) :
    (∀ v, Means b v → (toFile resolve [.imp ('"' :: (b ++ ['"']))]).imports = [resolve v]) ∧
    ((¬ ∃ v, Means b v) → (toFile resolve [.imp ('"' :: (b ++ ['"']))]).imports = [none]) ∧
    ((∀ c ∈ b, c ≠ '\'' ∧ c ≠ '\\') → 2 ≤ b.length → (toFile resolve [.imp ('\'' :: (b ++ ['\'']))]).imports = [none]) := by
  have h := unquote_dq b
  refine ⟨?_, ?_, ?_⟩
  · intro v hv
    rw [← h] at hv
    simp [toFile, hv]
  · intro hn
    have : unquote ('"' :: (b ++ ['"'])) = none := by
      cases hv : unquote ('"' :: (b ++ ['"'])) with
      | none => rfl
      | some v => exact absurd ⟨v, (h v).1 hv⟩ hn
    simp [toFile, this]
  · intro hc hl
    have : unquote ('\'' :: (b ++ ['\''])) = none := by
      cases b with
      | nil => exact absurd hl (by decide)
      | cons c b =>
        cases b with
        | nil => exact absurd hl (by simp)
        | cons c' b =>
          obtain ⟨h1, h2⟩ := hc c (by simp)
          simp [unquote, unquoteChar, h1, h2]
    simp [toFile, this]

def hexDigit (n : Nat) : Char := "0123456789abcdef".toList.getD n '0'
/-- Every byte as `\xHH`. -/
def hexText (v : Str) : Str := v.flatMap fun c => ['\\', 'x', hexDigit (c.toNat / 16), hexDigit (c.toNat % 16)]

theorem hexDigit_ok : ∀ n, n < 16 → isHex (hexDigit n) = true ∧ hexVal (hexDigit n) = n := by decide

theorem byteChar_toNat {c : Char} (h : c.toNat < 256) : byteChar c.toNat = c := by
  unfold byteChar
  rw [Nat.mod_eq_of_lt h, Char.ofNat_toNat]

/-- **C62, every string.** Every sequence of bytes can be written as a string, in both kinds of quotes. -/
theorem C62_every (v : Str) (hv : ∀ c ∈ v, c.toNat < 256) :
    Means (hexText v) v ∧ StrBody '"' (hexText v) ∧ StrBody '\'' (hexText v) := by
  induction v with
  | nil => exact ⟨.nil, .nil, .nil⟩
  | cons c v ih =>
    obtain ⟨h1, h2, h3⟩ := ih fun c hc => hv c (by simp [hc])
    have hc := hv c (by simp)
    obtain ⟨a1, a2⟩ := hexDigit_ok (c.toNat / 16) (by omega)
    obtain ⟨b1, b2⟩ := hexDigit_ok (c.toNat % 16) (by omega)
    refine ⟨?_, .hex (.inl rfl) a1 b1 h2, .hex (.inl rfl) a1 b1 h3⟩
    have := Means.hex a1 b1 h1
    rw [a2, b2, Nat.div_add_mod, byteChar_toNat hc] at this
    exact this

/-- **C62, integers.** Every integer token has one value (decimal, octal after `0`, hexadecimal after `0x`).  As a constant it
is this value with its sign if it is below 2⁶³, otherwise an error. -/
theorem C62_int {t : Str} (ht : IsInt t) : ∃ n, IntMeans t n ∧ (∀ m, IntMeans t m → m = n) ∧
    ∀ (sg : Option Bool) (u : UnitD), visitConstant (toConst (.int sg t)) u =
      if n < 2 ^ 63 then (.ok (.int (if sg = some true then -n else n)), u) else (.err [.invalidLiteral], u) := by
  obtain ⟨n, hn⟩ := intMeans_of ht
  refine ⟨n, hn, ?_, ?_⟩
  · intro m hm
    have h1 := parseNat_means hn
    have h2 := parseNat_means hm
    rw [h1] at h2
    exact (Option.some.inj h2).symm
  · intro sg u
    have h1 := parseNat_means hn
    have key : visitConstant (toConst (.int sg t)) u =
        Comp.V.bind (Comp.visitIntLit t) (fun v => Comp.V.pure (.int (if (sg == some true) = true then Comp.i64 (-v) else v))) u := rfl
    rw [key]
    unfold Comp.visitIntLit
    rw [h1]
    simp only
    by_cases hlt : n < 2 ^ 63
    · rw [if_pos hlt, if_pos hlt]
      change (Out.ok (Lit.int _), u) = _
      congr 3
      by_cases hs : sg = some true
      · subst hs
        rw [if_pos rfl]
        change Comp.i64 (-(n : Int)) = _
        unfold Comp.i64
        rw [Int.bmod_eq_of_le (by omega) (by omega)]
      · have : (sg == some true) = false := by simpa using hs
        rw [this, if_neg hs]
        rfl
    · rw [if_neg hlt, if_neg hlt]
      rfl

set_option exponentiation.threshold 2000 in
/-- **C62, floats.** A float constant `m · 10^up / 10^down` is accepted exactly if it is less than 2¹⁰²⁴ - 2⁹⁷⁰, the least number a
float64 rounds to infinity. -/
theorem C62_float {t : Str} {m up down : Nat} (h : FloatMeans t m up down) (hu : up < 100000) (hd : down < 100000)
    (sg : Option Bool) (u : UnitD) : visitConstant (toConst (.float sg t)) u =
      if m * 10 ^ up < (2 ^ 1024 - 2 ^ 970) * 10 ^ down then (.ok (.float (sg == some true) t), u)
      else (.err [.invalidLiteral], u) := by
  have hk := floatOk_means h hu hd
  rcases Classical.em (m * 10 ^ up < (2 ^ 1024 - 2 ^ 970) * 10 ^ down) with hc | hc
  · rw [if_pos hc]
    have := hk.2 hc
    simp only [toConst, this]
    rfl
  · rw [if_neg hc]
    have : floatOk t = false := by
      cases hf : floatOk t with
      | false => rfl
      | true => exact absurd (hk.1 hf) hc
    simp only [toConst, this]
    rfl

theorem of_all {p : Char → Bool} {s : Str} (h : s.all p = true) : AllC p s := List.all_eq_true.1 h

/-- Non-vacuity. -/
example : Means "a\\n\\x41\\101é".toList ("a\nAAÃ©".toList) := by
  rw [← visitStr_iff (q := '"') (.inr rfl)]; decide +kernel
/-- An apostrophe cannot be escaped, whatever the quotes. -/
example : ¬ ∃ v, Means "it\\'s".toList v := by
  rintro ⟨v, h⟩
  rw [← visitStr_iff (q := '\'') (.inl rfl), (by decide +kernel : visitStr _ = none)] at h
  exact nomatch h
example : IntMeans "0x1F".toList 31 ∧ IntMeans "017".toList 15 ∧ IntMeans "90".toList 90 :=
  ⟨.inr (.inr ⟨'x', "1F".toList, by decide +kernel, .inl rfl, by decide, of_all (by decide +kernel), by decide +kernel⟩),
   .inr (.inl ⟨"17".toList, by decide +kernel, of_all (by decide +kernel), by decide +kernel⟩),
   .inl ⟨'9', "0".toList, by decide +kernel, by decide +kernel, of_all (by decide +kernel), by decide +kernel⟩⟩
example : FloatMeans "1.25e-3".toList 125 0 5 :=
  ⟨"1".toList, "25".toList, "e-3".toList, 3, of_all (by decide +kernel), of_all (by decide +kernel), .inl (by decide +kernel),
   .inr ⟨'e', "3".toList, .inl rfl, by decide +kernel, of_all (by decide +kernel), .inr (.inr ⟨by decide +kernel, rfl, by decide +kernel⟩)⟩,
   .inl (by decide +kernel), by decide +kernel, by decide +kernel⟩

/-! ### C63: layout does not matter -/

/-- The unit without lines and columns. -/
def unplaced (u : UnitD) : UnitD := u.move fun p => ⟨p.file, 0, 0⟩

/-- The result of a run without lines and columns. -/
def unplacedRun (r : List UnitD × Out (Option UnitD)) : List UnitD × Out (Option UnitD) :=
  (r.1.map unplaced, r.2.map (Option.map unplaced))

theorem unplaced_move {π : Pos → Pos} (h : Comp.Moves π) (u : UnitD) : unplaced (u.move π) = unplaced u := by
  unfold unplaced UnitD.move Comp.tmap Comp.nmap
  simp only [List.map_map]
  congr 1
  all_goals
    apply List.map_congr_left
    intro e _
    simp only [Function.comp_apply, Comp.TypeDef.move, Comp.NameDef.move, h.file]

/-- **C63.** Two directories whose files have the same tokens (or are both missing, or both unreadable) are compiled to the same
units, warnings and errors, but for the places of the definitions: these are changed in each file, different places to
different places. -/
theorem C63_layout (resolve : Str → Str → Option Str) {d d' : Str → Src} (h : ∀ p, SameTokens (d p) (d' p)) :
    (∃ π, Comp.Moves π ∧ ∀ abs fuel file, compileFile (srcFS resolve d') abs fuel file =
      (compileFile (srcFS resolve d) abs fuel file).map fun r => (r.1.map (·.move π), r.2.map (Option.map (·.move π)))) ∧
    ∀ abs fuel file, (compileFile (srcFS resolve d') abs fuel file).map unplacedRun =
      (compileFile (srcFS resolve d) abs fuel file).map unplacedRun := by
  obtain ⟨π, hπ, he⟩ := srcFS_move resolve h
  have key : ∀ abs fuel file, compileFile (srcFS resolve d') abs fuel file =
      (compileFile (srcFS resolve d) abs fuel file).map fun r => (r.1.map (·.move π), r.2.map (Option.map (·.move π))) := by
    intro abs fuel file
    rw [he]
    exact Comp.compileFile_move hπ _ abs fuel file
  refine ⟨⟨π, hπ, key⟩, ?_⟩
  intro abs fuel file
  rw [key, Option.map_map]
  congr 1
  funext r
  obtain ⟨us, o⟩ := r
  simp only [Function.comp_apply, unplacedRun, List.map_map]
  have e1 : us.map (unplaced ∘ fun x => x.move π) = us.map unplaced :=
    List.map_congr_left fun u _ => unplaced_move hπ u
  rw [e1]
  cases o with
  | err es => rfl
  | panic => rfl
  | ok u =>
    cases u with
    | none => rfl
    | some u => simp only [Out.map, Option.map_some, unplaced_move hπ]

/-- **C63, comments and blanks.** In particular the blanks and comments between the tokens of a file may be changed. -/
theorem C63_blanks {items items' : List (Gap × Tk)} {t t' : Tail} (ht : t.Ok) (ht' : t'.Ok)
    (hi : ∀ i ∈ items, (∀ b ∈ i.1, b.Ok) ∧ i.2.Valid) (hi' : ∀ i ∈ items', (∀ b ∈ i.1, b.Ok) ∧ i.2.Valid)
    (ha : Apart items t) (ha' : Apart items' t') (h : items.map (·.2) = items'.map (·.2)) :
    SameTokens (.text (source items t)) (.text (source items' t')) := by
  have hp : ∀ (l : List (Gap × Tk)) (a : At), (placed a l).map Prod.fst = l.map (·.2) := by
    intro l
    induction l with
    | nil => intro a; rfl
    | cons i r ih => intro a; obtain ⟨g, k⟩ := i; simp [placed, ih]
  show kinds _ = kinds _
  unfold kinds
  rw [C60_layout items t ht hi ha, C60_layout items' t' ht' hi' ha']
  simp only [Option.map_some, hp, h]

/-- Non-vacuity: two writings of a file. -/
example : SameTokens (.text "package a; struct S { uint8 x; }".toList)
    (.text "package a;\n\n// the message\nstruct S {\n\tuint8 x;\n}\n".toList) := by
  show kinds _ = kinds _
  decide +kernel
/-- They compile, to different places. -/
example : (compileFile (srcFS (fun _ _ => none) fun _ => .text "package a; struct S { uint8 x; }".toList) some 3 ['f']).map
    (fun r => r.1.map fun u => u.localTypes.map fun e => (e.1, e.2.pos)) = some [[("S".toList, ⟨['f'], 1, 11⟩)]] := by
  decide +kernel

end Bubbler
