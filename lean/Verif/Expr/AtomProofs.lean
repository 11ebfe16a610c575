import Verif.Expr.ParseProofs

/-
Operands that are single words, members and literals.
-/
namespace Bubbler.Ex
open Num

section
variable {P : Target} {L : Lang} {tight : Nat}

/-- A word. -/
theorem goodWord {s : Str} {t : Tree} (h1 : s ≠ []) (h2 : s.all isWord = true) (h3 : L.pre (.word s) = none)
    (h4 : L.atom s = some t) : Good L tight false s [.word s] t := by
  refine ⟨?_, by have := wordHead h1 h2 []; rwa [List.append_nil] at this, ?_, ⟨1, ?_⟩⟩
  · intro r ts hr0 hr
    exact Lexes.word' h1 h2 hr0 hr
  · intro rest hrest
    cases rest with
    | nil => rfl
    | cons t r =>
      show L.castHead (.word s :: t :: r) = none
      unfold Lang.castHead
      split
      · rename_i h
        simp only [List.cons.injEq] at h
        exact absurd (by rw [List.head?_cons, h.2.1]) hrest
      · rfl
  · intro n hn min _ rest hs _
    obtain ⟨n, rfl⟩ : ∃ m, n = m + 1 := ⟨n - 1, by omega⟩
    show parse L (n + 1) (.unary min) (.word s :: rest) = _
    rw [parse, h3]
    simp only [o_par, o_arrow, expect_ne hs.1, expect_ne hs.2, h4, Option.map_some]

/-- `s->f`. -/
theorem goodArrow (hsyms : symsOk L.syms = true) {q : Nat} (hq : L.castPrefix = some q) (harr : ['-', '>'] ∈ L.syms)
    {s f : Str} (h1 : s ≠ []) (h2 : s.all isWord = true) (h3 : L.pre (.word s) = none)
    (f1 : f ≠ []) (f2 : f.all isWord = true) :
    Good L tight false (s ++ '-' :: '>' :: f) [.word s, .op ['-', '>'], .word f] (.arrow s f) := by
  refine ⟨?_, wordHead h1 h2 _, ?_, ⟨1, ?_⟩⟩
  · intro r ts hr0 hr
    have l1 := Lexes.word' f1 f2 hr0 hr
    have l2 := Lexes.sym' harr (fun c hc => canExt_word hsyms _ (by
      cases f with
      | nil => exact absurd rfl f1
      | cons d f =>
        simp only [List.cons_append, List.head?_cons, Option.some.injEq] at hc
        subst hc
        exact List.all_eq_true.mp f2 d (by simp))) l1
    have l3 := Lexes.word' h1 h2 (nonword (c := '-') (r := '>' :: (f ++ r)) (by decide)) l2
    simpa using l3
  · intro rest _
    show L.castHead (.word s :: .op ['-', '>'] :: _) = none
    unfold Lang.castHead
    split
    · rename_i h; simp at h
    · rfl
  · intro n hn min _ rest hs _
    obtain ⟨n, rfl⟩ : ∃ m, n = m + 1 := ⟨n - 1, by omega⟩
    show parse L (n + 1) (.unary min) (.word s :: .op ['-', '>'] :: .word f :: rest) = _
    rw [parse, h3]
    simp only [o_par, o_arrow]
    rw [expect_ne (by simp)]
    simp only [hq, expect_eq]

/-- A minus sign and a number. -/
theorem goodNeg (F : Fits P L tight) {s : Str} {t : Tree} (hg : Good L tight false s [.word s] t) (hs : s ≠ []) (hw : s.all isWord = true) :
    Good L tight true ('-' :: s) [.op ['-'], .word s] (.un .SUB t) := by
  refine ⟨?_, ⟨_, _, rfl, .inr ⟨rfl, rfl⟩⟩, ?_, ?_⟩
  · intro r ts hr0 hr
    have l1 := hg.lex r ts hr0 hr
    refine Lexes.sym' (o := ['-']) F.sub.1 (fun c hc => canExt_word F.syms _ ?_) l1
    cases s with
    | nil => exact absurd rfl hs
    | cons d f =>
      have : d = c := by simpa using hc
      subst this
      exact List.all_eq_true.mp hw d (by simp)
  · intro rest _
    rfl
  · obtain ⟨N, hN⟩ := hg.parse
    refine ⟨N + 3, fun n hn min hmin rest hs hwk => ?_⟩
    obtain ⟨n, rfl⟩ : ∃ m, n = m + 3 := ⟨n - 3, by omega⟩
    have hwk := hwk (.inl rfl)
    refine parse_pre F.sub.2 hmin ?_ hwk.barred
    rw [parse]
    have := hN (n + 1) (by omega) tight (Nat.le_refl _) rest hs (fun _ => hwk)
    rw [List.cons_append, List.nil_append] at this
    show ((parse L (n + 1) (.unary tight) (.word s :: rest)).bind _) = _
    rw [this]
    show parse L (n + 1) (.loop tight t) rest = _
    cases rest with
    | nil => rw [parse]
    | cons t' r =>
      rw [parse]
      cases hb : L.bin t' with
      | none => rfl
      | some y =>
        obtain ⟨op, p, q'⟩ := y
        have := (hwk t' op p q' rfl hb).1
        simp only
        rw [if_neg (by omega)]

theorem wordsFit_head (h : wordsFit L = true) {c : Char} {s : Str} (hc : c.isDigit = true) :
    c :: s ≠ L.tru ∧ c :: s ≠ L.fls ∧ ¬ (c :: s ∈ L.reserved ∨ c :: s ∈ L.types) ∧ L.pre (.word (c :: s)) = none := by
  unfold wordsFit at h
  simp only [Bool.and_eq_true, List.all_eq_true, Bool.not_eq_true'] at h
  have hne : ∀ s' ∈ L.tru :: L.fls :: (L.reserved ++ L.types ++ L.pow.toList), c :: s ≠ s' := by
    rintro s' h' rfl
    have := h.1 _ h'
    simp [hc] at this
  refine ⟨hne _ (by simp), hne _ (by simp), ?_, ?_⟩
  · rintro (h' | h') <;> exact hne _ (by simp [h']) rfl
  · unfold Lang.pre
    cases hf : L.pres.find? (fun x => x.1 == .word (c :: s)) with
    | none => rfl
    | some x =>
      have h1 := List.find?_some hf
      have h2 := List.mem_of_find?_eq_some hf
      have := h.2 x h2
      rw [beq_iff_eq] at h1
      rw [h1] at this
      simp [hc] at this

/-- A numeral. -/
theorem goodNum (F : Fits P L tight) {s : Str} {n : Nat} (hd : ∃ c s', s = c :: s' ∧ c.isDigit = true)
    (hw : s.all isWord = true) (hdot : '.' ∉ s) (hlast : s.getLast? ≠ L.suffix) (hn : parseNat s = some n) :
    Good L tight false s [.word s] (.num n) := by
  obtain ⟨c, s', rfl, hc⟩ := hd
  obtain ⟨a1, a2, a3, a4⟩ := wordsFit_head F.words (s := s') hc
  refine goodWord (by simp) hw a4 ?_
  unfold Lang.atom
  rw [if_neg a1, if_neg a2, if_neg a3]
  simp only [hc, if_true, hdot, if_false, hlast, hn, Option.map_some]

/-- A numeral with a suffix. -/
theorem goodLnum (F : Fits P L tight) {s : Str} {n : Nat} {x : Char} (hx : L.suffix = some x) (hd : ∃ c s', s = c :: s' ∧ c.isDigit = true)
    (hw : s.all isWord = true) (hdot : '.' ∉ s) (hn : parseNat s = some n) : Good L tight false (s ++ [x]) [.word (s ++ [x])] (.lnum n) := by
  obtain ⟨c, s', rfl, hc⟩ := hd
  obtain ⟨a1, a2, a3, a4⟩ := wordsFit_head F.words (s := s' ++ [x]) hc
  have hf := F.suffix.2
  unfold suffixFit at hf
  rw [hx] at hf
  simp only [Bool.and_eq_true, decide_eq_true_eq] at hf
  refine goodWord (by simp) (by rw [List.all_append, hw]; simp [hf.1.1]) a4 ?_
  have hdot' : '.' ∉ c :: s' ++ [x] := by
    rw [List.mem_append, not_or]
    exact ⟨hdot, by simpa using fun e => hf.1.2 e.symm⟩
  unfold Lang.atom
  simp only [List.cons_append] at *
  rw [if_neg a1, if_neg a2, if_neg a3]
  have e1 : (c :: (s' ++ [x])).getLast? = L.suffix := by
    rw [hx, ← List.cons_append, List.getLast?_append]; rfl
  have e2 : (c :: (s' ++ [x])).dropLast = c :: s' := by rw [← List.cons_append, List.dropLast_concat]
  simp only [hc, if_true, hdot', if_false, e1, e2, hn, Option.map_some]

theorem takeWhile_dot {ip fp : Str} (h : '.' ∉ ip) : (ip ++ '.' :: fp).takeWhile (· != '.') = ip ∧ ((ip ++ '.' :: fp).dropWhile (· != '.')).drop 1 = fp := by
  induction ip with
  | nil => simp
  | cons c ip ih =>
    simp only [List.mem_cons, not_or] at h
    have := ih h.2
    have hc : (c != '.') = true := by simp only [bne_iff_ne, ne_eq]; exact fun e => h.1 e.symm
    simp only [List.cons_append, List.takeWhile_cons, hc, if_true, this.1, List.dropWhile_cons, this.2, and_self]

theorem isDigit_isWord {c : Char} (h : c.isDigit = true) : isWord c = true := by
  unfold isWord Char.isAlphanum
  rw [h]; simp

/-- A number with a point. -/
theorem goodFlt (F : Fits P L tight) {ip fp : Str} (h0 : ip ≠ []) (h1 : ip.all Char.isDigit = true) (h2 : fp.all Char.isDigit = true)
    : Good L tight false (ip ++ '.' :: fp) [.word (ip ++ '.' :: fp)] (.flt ip fp) := by
  rw [List.all_eq_true] at h1 h2
  cases ip with
  | nil => exact absurd rfl h0
  | cons c s' =>
    have hc := h1 c (by simp)
    obtain ⟨a1, a2, a3, a4⟩ := wordsFit_head F.words (s := s' ++ '.' :: fp) hc
    have hdot : '.' ∉ c :: s' := fun h => by have := h1 _ h; revert this; decide
    refine goodWord (by simp) ?_ a4 ?_
    · rw [List.all_eq_true]
      intro d hd
      rcases List.mem_append.mp (show d ∈ (c :: s') ++ '.' :: fp from hd) with hd | hd
      · exact isDigit_isWord (h1 d hd)
      · rcases List.mem_cons.mp hd with rfl | hd
        · decide
        · exact isDigit_isWord (h2 d hd)
    · unfold Lang.atom
      simp only [List.cons_append]
      rw [if_neg a1, if_neg a2, if_neg a3]
      have hm : '.' ∈ c :: (s' ++ '.' :: fp) := by simp
      simp only [hc, if_true, hm]
      have := takeWhile_dot (fp := fp) hdot
      rw [List.cons_append] at this
      rw [this.1, this.2]

/-- `true` and `false`. -/
theorem goodBool (F : Fits P L tight) (b : Bool) :
    Good L tight false (P.boolStr b) [.word (P.boolStr b)] (.bool b) := by
  have h := F.bools
  unfold boolFit at h
  simp only [Bool.and_eq_true, decide_eq_true_eq, List.all_cons, List.all_nil, Bool.not_eq_true', List.isEmpty_eq_false_iff,
    Option.isNone_iff_eq_none, and_true] at h
  obtain ⟨⟨⟨h1, h2⟩, h3⟩, ⟨⟨h4, h5⟩, h6⟩, ⟨⟨h7, h8⟩, h9⟩⟩ := h
  cases b
  · rw [h2]
    refine goodWord h7 h8 h9 ?_
    unfold Lang.atom
    rw [if_neg (fun e => h3 e.symm), if_pos rfl]
  · rw [h1]
    refine goodWord h4 h5 h6 ?_
    unfold Lang.atom
    rw [if_pos rfl]

/-! Integers -/

theorem digitChar_word : ∀ d, d < 16 → isWord (digitChar d) = true ∧ digitChar d ≠ '.' := by decide
theorem digitChar_digit : ∀ d, d < 10 → (digitChar d).isDigit = true := by decide

theorem digits_word {b : Nat} (hb : 2 ≤ b) (hb16 : b ≤ 16) (n : Nat) : (digits b n).all isWord = true ∧ '.' ∉ digits b n := by
  constructor
  · rw [List.all_eq_true]
    intro c hc
    obtain ⟨d, hd, rfl⟩ := digits_chars hb hb16 n c hc
    exact (digitChar_word d (by omega)).1
  · intro hc
    obtain ⟨d, hd, e⟩ := digits_chars hb hb16 n _ hc
    exact (digitChar_word d (by omega)).2 e.symm

theorem digits10_head (n : Nat) : ∃ c s', digits 10 n = c :: s' ∧ c.isDigit = true := by
  cases h : digits 10 n with
  | nil => exact absurd h digits_ne_nil
  | cons c s' =>
    obtain ⟨d, hd, rfl⟩ := digits_chars (b := 10) (by omega) (by omega) n c (by rw [h]; simp)
    exact ⟨_, _, rfl, digitChar_digit d hd⟩

theorem ofInt_toInt {v : Int} (h1 : -2 ^ 63 ≤ v) (h2 : v < 2 ^ 63) : (BitVec.ofInt 64 v).toInt = v := by
  rw [BitVec.toInt_ofInt]
  exact Int.bmod_eq_of_le (by omega) (by omega)


theorem digits_last {b : Nat} (hb : 2 ≤ b) (hb16 : b ≤ 16) (F : Fits P L tight) (pre : Str) (n : Nat) : (pre ++ digits b n).getLast? ≠ L.suffix := by
  have hf := F.suffix.2
  unfold suffixFit at hf
  cases hx : L.suffix with
  | none =>
    intro e
    rw [List.getLast?_eq_none_iff, List.append_eq_nil_iff] at e
    exact digits_ne_nil e.2
  | some x =>
    rw [hx] at hf
    simp only [Bool.and_eq_true, List.all_eq_true, decide_eq_true_eq, List.mem_range] at hf
    intro e
    rw [List.getLast?_append] at e
    rcases e' : (digits b n).getLast? with _ | y
    · rw [List.getLast?_eq_none_iff] at e'
      exact digits_ne_nil e'
    · rw [e'] at e
      simp only [Option.some_or, Option.some.injEq] at e
      subst e
      obtain ⟨d, hd, e⟩ := digits_chars hb hb16 n y (List.mem_of_getLast? e')
      exact hf.2 d (by omega) e.symm

/-- A numeral, with the suffix if it is wide. -/
theorem goodNumeral (F : Fits P L tight) {s : Str} {n : Nat} (wide : Bool) (hd : ∃ c s', s = c :: s' ∧ c.isDigit = true)
    (hw : s.all isWord = true) (hdot : '.' ∉ s) (hlast : s.getLast? ≠ L.suffix) (hn : parseNat s = some n) :
    let s' := s ++ if wide then P.suffix.toList else []
    Good L tight false s' [.word s'] (if P.suffix.isSome ∧ wide then .lnum n else .num n) ∧ s' ≠ [] ∧ s'.all isWord = true := by
  have hs0 : s ≠ [] := by obtain ⟨c, s', rfl, -⟩ := hd; simp
  cases wide with
  | false =>
    simp only [Bool.false_eq_true, if_false, List.append_nil, and_false]
    exact ⟨goodNum F hd hw hdot hlast hn, hs0, hw⟩
  | true =>
    cases hx : P.suffix with
    | none =>
      simp only [if_true, Option.toList_none, List.append_nil, Option.isSome_none, Bool.false_eq_true, false_and, if_false]
      exact ⟨goodNum F hd hw hdot hlast hn, hs0, hw⟩
    | some x =>
      simp only [if_true, Option.toList_some, Option.isSome_some, and_self]
      have hx' : L.suffix = some x := by rw [← F.suffix.1]; exact hx
      have hf := F.suffix.2
      unfold suffixFit at hf
      rw [hx'] at hf
      simp only [Bool.and_eq_true, decide_eq_true_eq] at hf
      exact ⟨goodLnum F hx' hd hw hdot hn, by simp, by rw [List.all_append, hw]; simp [hf.1.1]⟩

/-- A good integer literal is printed as a numeral, with a minus sign if it is negative. -/
theorem goodInt (F : Fits P L tight) {neg : Bool} {text : Str} (h : (ConstE.int neg text).good = true) :
    ∃ l, visitConst (.int neg text) = some (.int l) ∧
      ∃ toks, Good L tight (ExprA.const (.int neg text)).negConst (P.lit (.int l)) toks (intTree P.suffix.isSome ((intValue neg text).getD 0)) := by
  simp only [ConstE.good] at h
  cases hp : parseNat text with
  | none => rw [hp] at h; cases h
  | some n =>
    rw [hp] at h
    simp only [Bool.and_eq_true, Bool.or_eq_true, Bool.not_eq_true', decide_eq_true_eq] at h
    obtain ⟨⟨⟨h1, h2⟩, h3⟩, h4⟩ := h
    have hpi := parseInt_of_nat hp h1 ⟨h2, h3⟩
    simp only [visitConst, hpi, ExprA.negConst, intValue, hp, Option.map_some, Option.getD_some]
    refine ⟨_, rfl, ?_⟩
    generalize hv : (if neg = true then -(n : Int) else (n : Int)) = v
    have hv1 : -2 ^ 63 ≤ v ∧ v < 2 ^ 63 := by rw [← hv]; split <;> omega
    have hbv := ofInt_toInt hv1.1 hv1.2
    have hwide : wideInt ⟨BitVec.ofInt 64 v, false, baseOf text⟩ = decide (v < -2 ^ 31 ∨ 2 ^ 31 ≤ v) := by
      unfold wideInt
      simp only [hbv, Bool.false_and, Bool.or_false]
      rw [Bool.eq_iff_iff]
      simp only [Bool.or_eq_true, decide_eq_true_eq]
      omega
    simp only [Target.lit, formatInt, Bool.false_eq_true, if_false, or_false, hbv, hwide]
    have hbase : baseOf text ≠ .auto := by
      unfold baseOf
      split
      · split
        · simp
        · split <;> simp
      · simp
    simp only [hbase, if_false]
    have et : ∀ n : Nat, (if P.suffix.isSome = true ∧ decide (v < -2 ^ 31 ∨ 2 ^ 31 ≤ v) = true then Tree.lnum n else .num n) =
        if P.suffix.isSome = true ∧ (v < -2 ^ 31 ∨ 2 ^ 31 ≤ v) then .lnum n else .num n := by
      intro n; simp only [decide_eq_true_eq]
    have num : ∀ s, (∃ c s', s = c :: s' ∧ c.isDigit = true) → s.all isWord = true → '.' ∉ s → s.getLast? ≠ L.suffix → parseNat s = some v.natAbs →
        Good L tight false (s ++ if decide (v < -2 ^ 31 ∨ 2 ^ 31 ≤ v) = true then P.suffix.toList else [])
          [.word (s ++ if decide (v < -2 ^ 31 ∨ 2 ^ 31 ≤ v) = true then P.suffix.toList else [])]
          (if P.suffix.isSome = true ∧ (v < -2 ^ 31 ∨ 2 ^ 31 ≤ v) then .lnum v.natAbs else .num v.natAbs) ∧
        (s ++ if decide (v < -2 ^ 31 ∨ 2 ^ 31 ≤ v) = true then P.suffix.toList else []) ≠ [] ∧
        (s ++ if decide (v < -2 ^ 31 ∨ 2 ^ 31 ≤ v) = true then P.suffix.toList else []).all isWord = true := by
      intro s a b c d e
      have := goodNumeral F (decide (v < -2 ^ 31 ∨ 2 ^ 31 ≤ v)) a b c d e
      rw [et] at this
      exact this
    by_cases hlt : v < 0
    · have hneg : neg = true := by
        cases neg with
        | true => rfl
        | false => simp at hv; omega
      have hn0 : n ≠ 0 := by rintro rfl; rw [hneg] at hv; simp at hv; omega
      have hdec : baseOf text = .dec := by
        rcases h4 with (h4 | h4) | h4
        · rw [hneg] at h4; cases h4
        · exact absurd h4 hn0
        · exact h4
      rw [hdec]
      simp only [intDigits, hlt, if_true, intTree, decide_true]
      obtain ⟨w1, w2⟩ := digits_word (b := 10) (by omega) (by omega) v.natAbs
      obtain ⟨g1, g2, g3⟩ := num _ (digits10_head _) w1 w2 (digits_last (by omega) (by omega) F [] _) (parseNat_digits10 _)
      exact ⟨_, goodNeg F g1 g2 g3⟩
    · simp only [intDigits, hlt, if_false, intTree, decide_false]
      cases hb : baseOf text with
      | auto => exact absurd hb hbase
      | dec =>
        obtain ⟨w1, w2⟩ := digits_word (b := 10) (by omega) (by omega) v.natAbs
        exact ⟨_, (num _ (digits10_head _) w1 w2 (digits_last (by omega) (by omega) F [] _) (parseNat_digits10 _)).1⟩
      | hex =>
        obtain ⟨w1, w2⟩ := digits_word (b := 16) (by omega) (by omega) v.natAbs
        refine ⟨_, (num ('0' :: 'x' :: digits 16 v.natAbs) ⟨'0', _, rfl, by decide⟩ ?_ ?_ (digits_last (by omega) (by omega) F ['0', 'x'] _) (parseNat_hex _)).1⟩
        · simp only [List.all_cons, w1, Bool.and_true]; decide
        · simp only [List.mem_cons, w2, or_false]; decide
      | bin =>
        obtain ⟨w1, w2⟩ := digits_word (b := 2) (by omega) (by omega) v.natAbs
        refine ⟨_, (num ('0' :: 'b' :: digits 2 v.natAbs) ⟨'0', _, rfl, by decide⟩ ?_ ?_ (digits_last (by omega) (by omega) F ['0', 'b'] _) (parseNat_bin _)).1⟩
        · simp only [List.all_cons, w1, Bool.and_true]; decide
        · simp only [List.mem_cons, w2, or_false]; decide

/-- Good literals. -/
theorem goodConst (F : Fits P L tight) {c : ConstE} (h : c.good = true) (val : Tree) (ct : ExprA → Option Str) :
    ∃ l, visitConst c = some l ∧ (Expr.const l).type = (ExprA.const c).type .bool ∧
      ∃ toks, Good L tight (ExprA.const c).negConst (P.lit l) toks ((ExprA.const c).tree val P.typeName ct P.suffix.isSome) := by
  cases c with
  | int neg text =>
    obtain ⟨l, h1, toks, h2⟩ := goodInt F h
    exact ⟨_, h1, rfl, toks, h2⟩
  | float neg ip fp =>
    simp only [ConstE.good, Bool.and_eq_true, Bool.not_eq_true', List.isEmpty_eq_false_iff] at h
    refine ⟨_, rfl, rfl, ?_⟩
    have g := goodFlt F h.1.1 h.1.2 h.2
    cases neg with
    | false => exact ⟨_, g⟩
    | true =>
      refine ⟨_, goodNeg F g (by simp) ?_⟩
      have h1 := List.all_eq_true.mp h.1.2
      have h2 := List.all_eq_true.mp h.2
      rw [List.all_eq_true]
      intro d hd
      rcases List.mem_append.mp hd with hd | hd
      · exact isDigit_isWord (h1 d hd)
      · rcases List.mem_cons.mp hd with rfl | hd
        · decide
        · exact isDigit_isWord (h2 d hd)
  | bool b => exact ⟨_, rfl, rfl, _, goodBool F b⟩

end
end Bubbler.Ex
