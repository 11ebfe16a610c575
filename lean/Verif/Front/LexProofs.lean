import Verif.Front.RuleProofs

/-
A token followed by nothing that could belong to it is what the lexer takes.
-/
namespace Bubbler.Front
open Re

/-! ### Characters -/

/-- Characters of words. -/
def wordC (c : Char) : Bool := isLetter c || isDec c

theorem Char.le_iff (a b : Char) : a ≤ b ↔ a.toNat ≤ b.toNat := Iff.rfl

theorem isLetter_iff (c : Char) : isLetter c = true ↔
    (65 ≤ c.toNat ∧ c.toNat ≤ 90) ∨ (97 ≤ c.toNat ∧ c.toNat ≤ 122) ∨ c.toNat = 95 := by
  have : c = '_' ↔ c.toNat = 95 := ⟨fun h => by rw [h]; rfl, fun h => Char.ext (UInt32.toNat_inj.mp h)⟩
  simp only [isLetter, Bool.or_eq_true, Bool.and_eq_true, decide_eq_true_eq, beq_iff_eq, this, Char.le_iff, or_assoc]
  exact Iff.rfl

theorem isDec_iff (c : Char) : isDec c = true ↔ 48 ≤ c.toNat ∧ c.toNat ≤ 57 := by
  simp only [isDec, Bool.and_eq_true, decide_eq_true_eq, Char.le_iff]; exact Iff.rfl

theorem isOct_iff (c : Char) : isOct c = true ↔ 48 ≤ c.toNat ∧ c.toNat ≤ 55 := by
  simp only [isOct, Bool.and_eq_true, decide_eq_true_eq, Char.le_iff]; exact Iff.rfl

theorem isHex_iff (c : Char) : isHex c = true ↔
    (48 ≤ c.toNat ∧ c.toNat ≤ 57) ∨ (65 ≤ c.toNat ∧ c.toNat ≤ 70) ∨ (97 ≤ c.toNat ∧ c.toNat ≤ 102) := by
  simp only [isHex, Bool.or_eq_true, Bool.and_eq_true, decide_eq_true_eq, Char.le_iff, or_assoc]; exact Iff.rfl

theorem oct_dec {c : Char} (h : isOct c = true) : isDec c = true := by
  rw [isOct_iff] at h; rw [isDec_iff]; omega

theorem hex_word {c : Char} (h : isHex c = true) : wordC c = true := by
  rw [isHex_iff] at h; simp only [wordC, Bool.or_eq_true, isLetter_iff, isDec_iff]; omega

theorem letter_not_dec {c : Char} (h : isLetter c = true) : isDec c = false := by
  rw [isLetter_iff] at h; rw [← Bool.not_eq_true, isDec_iff]; omega

theorem dec_wordC {c : Char} (h : isDec c = true) : wordC c = true := by simp [wordC, h]

theorem nz_dec {c : Char} (h : '1' ≤ c ∧ c ≤ '9') : isDec c = true := by
  rw [isDec_iff]; rw [Char.le_iff, Char.le_iff] at h
  have h1 : 49 ≤ c.toNat := h.1
  have h2 : c.toNat ≤ 57 := h.2
  omega

theorem isWord_all {w : Str} (h : IsWord w) : ∀ c ∈ w, wordC c = true := by
  obtain ⟨c, cs, rfl, hc, hcs⟩ := h
  intro x hx
  simp only [wordC, Bool.or_eq_true]
  rcases List.mem_cons.mp hx with rfl | hx
  · exact .inl hc
  · exact hcs x hx

/-! ### First characters -/

def wordB : Str → Bool
  | [] => false
  | c :: cs => isLetter c && cs.all fun x => isLetter x || isDec x

theorem wordB_isWord {w : Str} (h : wordB w = true) : IsWord w := by
  cases w with
  | nil => cases h
  | cons c cs =>
    simp only [wordB, Bool.and_eq_true, List.all_eq_true, Bool.or_eq_true] at h
    exact ⟨c, cs, rfl, h.1, h.2⟩

theorem kws_word {k : Kw × String} (hk : k ∈ kws) : IsWord k.2.toList := by
  have : kws.all (fun k => wordB k.2.toList) = true := by decide +kernel
  exact wordB_isWord (List.all_eq_true.mp this k hk)

theorem true_word : IsWord "true".toList := wordB_isWord (by decide +kernel)
theorem false_word : IsWord "false".toList := wordB_isWord (by decide +kernel)
theorem inf_word : IsWord "inf".toList := wordB_isWord (by decide +kernel)
theorem nan_word : IsWord "nan".toList := wordB_isWord (by decide +kernel)

theorem word_first {c : Char} {cs : Str} (h : IsWord (c :: cs)) : isLetter c = true := by
  obtain ⟨d, ds, e, hd, _⟩ := h; cases e; exact hd

theorem word_ne {w : Str} (h : IsWord w) : w ≠ [] := by
  obtain ⟨d, ds, rfl, hd, _⟩ := h; simp

/-- Characters of symbols. -/
def symC (c : Char) : Bool := !isLetter c && !isDec c && c != '\'' && c != '"' && !isBlank c

theorem syms_chars {k : Sym × String} (hk : k ∈ syms) : k.2.toList ≠ [] ∧ ∀ c ∈ k.2.toList, symC c = true := by
  have : syms.all (fun k => !k.2.toList.isEmpty && k.2.toList.all symC) = true := by decide +kernel
  have := List.all_eq_true.mp this k hk
  simp only [Bool.and_eq_true, Bool.not_eq_true', List.isEmpty_eq_false_iff, List.all_eq_true] at this
  exact this

theorem isInt_first {w : Str} (h : IsInt w) : ∃ c cs, w = c :: cs ∧ isDec c = true := by
  rcases h with ⟨c, cs, rfl, hc, _⟩ | ⟨cs, rfl, _⟩ | ⟨x, cs, rfl, _⟩
  · exact ⟨c, cs, rfl, nz_dec hc⟩
  · exact ⟨'0', cs, rfl, by decide⟩
  · exact ⟨'0', _, rfl, by decide⟩

/-- A number with a point or an exponent: digits and points, then perhaps an exponent. -/
def Num (w : Str) : Prop :=
  ∃ m ex, w = m ++ ex ∧ m ≠ [] ∧ (∀ c ∈ m, isDec c = true ∨ c = '.') ∧ (ex = [] ∨ IsExp ex) ∧
    (ex ≠ [] ∨ '.' ∈ m)

theorem isFloat_num {w : Str} (h : IsFloat w) : Num w ∨ w = "inf".toList ∨ w = "nan".toList := by
  rcases h with ⟨ip, fp, ex, rfl, hi, hf, hn, he⟩ | ⟨ip, ex, rfl, hi, hn, he⟩ | h
  · refine .inl ⟨ip ++ '.' :: fp, ex, by simp, by simp, ?_, he, .inr (by simp)⟩
    intro c hc
    simp only [List.mem_append, List.mem_cons] at hc
    rcases hc with hc | hc | hc
    · exact .inl (hi c hc)
    · exact .inr hc
    · exact .inl (hf c hc)
  · refine .inl ⟨ip, ex, rfl, hn, fun c hc => .inl (hi c hc), .inr he, .inl ?_⟩
    obtain ⟨x, sg, ds, rfl, _⟩ := he; simp
  · exact .inr h

theorem num_first {w : Str} (h : Num w) : ∃ c cs, w = c :: cs ∧ (isDec c = true ∨ c = '.') := by
  obtain ⟨m, ex, rfl, hm, hc, _⟩ := h
  cases m with
  | nil => exact absurd rfl hm
  | cons c m => exact ⟨c, m ++ ex, rfl, hc c (by simp)⟩

theorem isFloat_first {w : Str} (h : IsFloat w) : ∃ c cs, w = c :: cs ∧ (isDec c = true ∨ c = '.' ∨ isLetter c = true) := by
  rcases isFloat_num h with h | rfl | rfl
  · obtain ⟨c, cs, e, h⟩ := num_first h; exact ⟨c, cs, e, h.elim .inl (fun h => .inr (.inl h))⟩
  · exact ⟨'i', _, rfl, .inr (.inr (by decide))⟩
  · exact ⟨'n', _, rfl, .inr (.inr (by decide))⟩

/-- A match that begins with a letter is a word. -/
theorem kinds_letter {q : Rule} {c : Char} {cs : Str} (h : Kinds q (c :: cs)) (hc : isLetter c = true) : IsWord (c :: cs) := by
  generalize hw : c :: cs = w at h
  have key : ∀ d ds, w = d :: ds → d = c := by rintro d ds rfl; exact (List.cons.inj hw).1.symm
  cases h with
  | kw hk => exact kws_word hk
  | sym hk =>
    have := (syms_chars hk).2 c (by rw [← hw]; simp)
    simp [symC, hc] at this
  | @str q b hq hb =>
    rw [← key _ _ rfl] at hc
    rcases hq with rfl | rfl <;> exact absurd hc (by decide)
  | bool h => rcases h with rfl | rfl; exact true_word; exact false_word
  | float h =>
    rcases isFloat_num h with h | rfl | rfl
    · obtain ⟨d, ds, e, hd⟩ := num_first h
      rw [key d ds e] at hd
      rcases hd with hd | rfl
      · rw [letter_not_dec hc] at hd; cases hd
      · exact absurd hc (by decide)
    · exact inf_word
    · exact nan_word
  | int h =>
    obtain ⟨d, ds, e, hd⟩ := isInt_first h
    rw [key d ds e, letter_not_dec hc] at hd; cases hd
  | ident h => exact h
  | ws hn h =>
    have := h c (by rw [← hw]; simp)
    simp only [isBlank, Bool.or_eq_true, beq_iff_eq] at this
    rcases this with (((rfl | rfl) | rfl) | rfl) | rfl <;> exact absurd hc (by decide)
  | line h => rw [← key _ _ rfl] at hc; exact absurd hc (by decide)
  | comment => rw [← key _ _ rfl] at hc; exact absurd hc (by decide)

/-- A match that begins with a digit is a number. -/
theorem kinds_dec {q : Rule} {c : Char} {cs : Str} (h : Kinds q (c :: cs)) (hc : isDec c = true) :
    Num (c :: cs) ∨ IsInt (c :: cs) := by
  have notL : isLetter c = false := by
    rw [← Bool.not_eq_true]; intro hl; rw [letter_not_dec hl] at hc; cases hc
  generalize hw : c :: cs = w at h
  have key : ∀ d ds, w = d :: ds → d = c := by rintro d ds rfl; exact (List.cons.inj hw).1.symm
  have word : ¬ IsWord w := by rw [← hw]; intro h; rw [word_first h] at notL; cases notL
  cases h with
  | kw hk => exact absurd (kws_word hk) word
  | sym hk =>
    have := (syms_chars hk).2 c (by rw [← hw]; simp)
    simp [symC, hc] at this
  | @str q b hq hb =>
    rw [← key _ _ rfl] at hc
    rcases hq with rfl | rfl <;> exact absurd hc (by decide)
  | bool h => rcases h with rfl | rfl; exact absurd true_word word; exact absurd false_word word
  | float h =>
    rcases isFloat_num h with h | rfl | rfl
    · exact .inl h
    · exact absurd inf_word word
    · exact absurd nan_word word
  | int h => exact .inr h
  | ident h => exact absurd h word
  | ws hn h =>
    have := h c (by rw [← hw]; simp)
    simp only [isBlank, Bool.or_eq_true, beq_iff_eq] at this
    rcases this with (((rfl | rfl) | rfl) | rfl) | rfl <;> exact absurd hc (by decide)
  | line h => rw [← key _ _ rfl] at hc; exact absurd hc (by decide)
  | comment => rw [← key _ _ rfl] at hc; exact absurd hc (by decide)

/-- A match that begins with a quote is a string. -/
theorem kinds_quote {q : Rule} {c : Char} {cs : Str} (h : Kinds q (c :: cs)) (hc : c = '\'' ∨ c = '"') : q = strRule := by
  have notL : isLetter c = false := by rcases hc with rfl | rfl <;> decide
  have notD : isDec c = false := by rcases hc with rfl | rfl <;> decide
  generalize hw : c :: cs = w at h
  have key : ∀ d ds, w = d :: ds → d = c := by rintro d ds rfl; exact (List.cons.inj hw).1.symm
  have word : ¬ IsWord w := by rw [← hw]; intro h; rw [word_first h] at notL; cases notL
  cases h with
  | kw hk => exact absurd (kws_word hk) word
  | sym hk =>
    have := (syms_chars hk).2 c (by rw [← hw]; simp)
    rcases hc with rfl | rfl <;> exact absurd this (by decide)
  | @str q b hq hb => rfl
  | bool h => rcases h with rfl | rfl; exact absurd true_word word; exact absurd false_word word
  | float h =>
    obtain ⟨d, ds, e, hd⟩ := isFloat_first h
    rw [key d ds e, notD, notL] at hd
    rcases hd with hd | hd | hd
    · cases hd
    · rcases hc with rfl | rfl <;> exact absurd hd (by decide)
    · cases hd
  | int h =>
    obtain ⟨d, ds, e, hd⟩ := isInt_first h
    rw [key d ds e, notD] at hd; cases hd
  | ident h => exact absurd h word
  | ws hn h =>
    have := h c (by rw [← hw]; simp)
    rcases hc with rfl | rfl <;> exact absurd this (by decide)
  | line h => rcases hc with rfl | rfl <;> (have := key _ _ rfl; exact absurd this (by decide))
  | comment => rcases hc with rfl | rfl <;> (have := key _ _ rfl; exact absurd this (by decide))

/-- A match that begins with a blank consists of blanks. -/
theorem kinds_blank {q : Rule} {c : Char} {cs : Str} (h : Kinds q (c :: cs)) (hc : isBlank c = true) :
    q = wsRule ∧ AllC isBlank (c :: cs) := by
  have hc' : c = ' ' ∨ c = '\t' ∨ c = '\r' ∨ c = '\n' ∨ c = '\x0c' := by
    simpa only [isBlank, Bool.or_eq_true, beq_iff_eq, or_assoc] using hc
  have notL : isLetter c = false := by rcases hc' with rfl | rfl | rfl | rfl | rfl <;> decide
  have notD : isDec c = false := by rcases hc' with rfl | rfl | rfl | rfl | rfl <;> decide
  have notO : c ≠ '.' ∧ c ≠ '/' ∧ c ≠ '\'' ∧ c ≠ '"' := by rcases hc' with rfl | rfl | rfl | rfl | rfl <;> decide
  generalize hw : c :: cs = w at h
  have key : ∀ d ds, w = d :: ds → d = c := by rintro d ds rfl; exact (List.cons.inj hw).1.symm
  have word : ¬ IsWord w := by rw [← hw]; intro h; rw [word_first h] at notL; cases notL
  cases h with
  | kw hk => exact absurd (kws_word hk) word
  | sym hk =>
    have := (syms_chars hk).2 c (by rw [← hw]; simp)
    simp [symC, hc] at this
  | @str q b hq hb =>
    have := key _ _ rfl
    rcases hq with rfl | rfl
    · exact absurd this.symm notO.2.2.1
    · exact absurd this.symm notO.2.2.2
  | bool h => rcases h with rfl | rfl; exact absurd true_word word; exact absurd false_word word
  | float h =>
    obtain ⟨d, ds, e, hd⟩ := isFloat_first h
    rw [key d ds e, notD, notL] at hd
    rcases hd with hd | hd | hd
    · cases hd
    · exact absurd hd notO.1
    · cases hd
  | int h =>
    obtain ⟨d, ds, e, hd⟩ := isInt_first h
    rw [key d ds e, notD] at hd; cases hd
  | ident h => exact absurd h word
  | ws hn h => exact ⟨rfl, h⟩
  | line h => exact absurd (key _ _ rfl).symm notO.2.1
  | comment => exact absurd (key _ _ rfl).symm notO.2.1

/-- A match that begins with another character: a symbol, a number that begins with a point, or a comment. -/
theorem kinds_sym {q : Rule} {c : Char} {cs : Str} (h : Kinds q (c :: cs)) (hc : symC c = true) :
    (∃ k ∈ syms, c :: cs = k.2.toList) ∨ (c = '.' ∧ IsFloat (c :: cs)) ∨
      (c = '/' ∧ ∃ d ds, cs = d :: ds ∧ (d = '/' ∨ d = '*')) := by
  have hc' := hc
  simp only [symC, Bool.and_eq_true, Bool.not_eq_true', bne_iff_ne] at hc'
  obtain ⟨⟨⟨⟨notL, notD⟩, nq⟩, nq'⟩, notB⟩ := hc'
  generalize hw : c :: cs = w at h
  have key : ∀ d ds, w = d :: ds → d = c := by rintro d ds rfl; exact (List.cons.inj hw).1.symm
  have word : ¬ IsWord w := by rw [← hw]; intro h; rw [word_first h] at notL; cases notL
  cases h with
  | kw hk => exact absurd (kws_word hk) word
  | sym hk => exact .inl ⟨_, hk, rfl⟩
  | @str q b hq hb =>
    have := key _ _ rfl
    rcases hq with rfl | rfl
    · exact absurd this.symm nq
    · exact absurd this.symm nq'
  | bool h => rcases h with rfl | rfl; exact absurd true_word word; exact absurd false_word word
  | float h =>
    obtain ⟨d, ds, e, hd⟩ := isFloat_first h
    rw [key d ds e, notD, notL] at hd
    exact .inr (.inl ⟨by simpa using hd, h⟩)
  | int h =>
    obtain ⟨d, ds, e, hd⟩ := isInt_first h
    rw [key d ds e, notD] at hd; cases hd
  | ident h => exact absurd h word
  | ws hn h =>
    have := h c (by rw [← hw]; simp)
    rw [notB] at this; cases this
  | line h => exact .inr (.inr ⟨(key _ _ rfl).symm, '/', _, (List.cons.inj hw).2, .inl rfl⟩)
  | comment => exact .inr (.inr ⟨(key _ _ rfl).symm, '*', _, (List.cons.inj hw).2, .inr rfl⟩)

/-! ### Longest matches -/

theorem prefix_longer {w x rest : Str} (hp : w <+: x ++ rest) (hl : x.length < w.length) :
    ∃ c r v, rest = c :: r ∧ w = x ++ c :: v := by
  obtain ⟨u, hu⟩ := hp
  rcases List.append_eq_append_iff.mp hu with ⟨a, ha, _⟩ | ⟨a, ha, hb⟩
  · rw [ha] at hl; simp only [List.length_append] at hl; omega
  · cases a with
    | nil => rw [ha] at hl; simp at hl
    | cons c a => exact ⟨c, a ++ u, a, by rw [hb]; rfl, ha⟩

theorem prefix_first {w rest : Str} {c : Char} {cs : Str} (hp : w <+: c :: cs ++ rest) (hw : w ≠ []) : ∃ v, w = c :: v := by
  cases w with
  | nil => exact absurd rfl hw
  | cons d w =>
    obtain ⟨u, hu⟩ := hp
    simp only [List.cons_append, List.cons.injEq] at hu
    rw [hu.1]; exact ⟨w, rfl⟩

theorem Kinds.ne {q : Rule} {w : Str} (h : Kinds q w) : w ≠ [] := by
  cases h with
  | kw hk => exact word_ne (kws_word hk)
  | sym hk => exact (syms_chars hk).1
  | str _ _ => simp
  | bool h => rcases h with rfl | rfl <;> decide
  | float h => obtain ⟨c, cs, rfl, _⟩ := isFloat_first h; simp
  | int h => obtain ⟨c, cs, rfl, _⟩ := isInt_first h; simp
  | ident h => exact word_ne h
  | ws h _ => exact h
  | line _ => simp
  | comment => simp

/-- After a word. -/
theorem bound_word {x rest : Str} (hx : IsWord x) (hr : ∀ c, rest.head? = some c → wordC c = false) {q : Rule} {w : Str}
    (hk : Kinds q w) (hp : w <+: x ++ rest) : w.length ≤ x.length := by
  apply Nat.le_of_not_lt; intro hl
  obtain ⟨c, r, v, rfl, rfl⟩ := prefix_longer hp hl
  have hx' := hx
  obtain ⟨d, ds, rfl, hd, _⟩ := hx'
  have := isWord_all (kinds_letter hk hd) c (by simp)
  rw [hr c rfl] at this; cases this

theorem isInt_all {w : Str} (h : IsInt w) : ∀ c ∈ w, wordC c = true := by
  intro x hx
  rcases h with ⟨c, cs, rfl, hc, hcs⟩ | ⟨cs, rfl, hcs⟩ | ⟨y, cs, rfl, hy, _, hcs⟩
  · rcases List.mem_cons.mp hx with rfl | hx
    · exact dec_wordC (nz_dec hc)
    · exact dec_wordC (hcs x hx)
  · rcases List.mem_cons.mp hx with rfl | hx
    · decide
    · exact dec_wordC (oct_dec (hcs x hx))
  · simp only [List.mem_cons] at hx
    rcases hx with rfl | rfl | hx
    · decide
    · rcases hy with rfl | rfl <;> decide
    · exact hex_word (hcs x hx)

theorem isExp_chars {w : Str} (h : IsExp w) : ∀ c ∈ w, wordC c = true ∨ c = '+' ∨ c = '-' := by
  obtain ⟨x, sg, ds, rfl, hx, hs, _, hd⟩ := h
  intro c hc
  simp only [List.mem_cons, List.mem_append] at hc
  rcases hc with rfl | hc | hc
  · left; rcases hx with rfl | rfl <;> decide
  · right; rcases hs with rfl | rfl | rfl
    · cases hc
    · simp at hc; exact .inl hc
    · simp at hc; exact .inr hc
  · exact .inl (dec_wordC (hd c hc))

theorem num_chars {w : Str} (h : Num w) : ∀ c ∈ w, wordC c = true ∨ c = '.' ∨ c = '+' ∨ c = '-' := by
  obtain ⟨m, ex, rfl, _, hm, he, _⟩ := h
  intro c hc
  rcases List.mem_append.mp hc with hc | hc
  · rcases hm c hc with h | h
    · exact .inl (dec_wordC h)
    · exact .inr (.inl h)
  · rcases he with rfl | he
    · cases hc
    · rcases isExp_chars he c hc with h | h
      · exact .inl h
      · exact .inr (.inr h)

/-- Before the sign of an exponent there is nothing but digits, points and the `e`. -/
theorem num_sign {x v : Str} {c : Char} (h : Num (x ++ c :: v)) (hc : c = '+' ∨ c = '-') :
    ∃ m e, x = m ++ [e] ∧ (e = 'e' ∨ e = 'E') ∧ m ≠ [] ∧ ∀ y ∈ m, isDec y = true ∨ y = '.' := by
  obtain ⟨m, ex, hw, hne, hm, he, _⟩ := h
  have hcm : ¬ (isDec c = true ∨ c = '.') := by rcases hc with rfl | rfl <;> decide
  rcases List.append_eq_append_iff.mp hw with ⟨a, ha, hb⟩ | ⟨a, ha, hb⟩
  · -- `m = x ++ a`
    cases a with
    | nil =>
      simp only [List.append_nil] at ha
      simp only [List.nil_append] at hb
      rcases he with rfl | ⟨y, sg, ds, rfl, hy, _⟩
      · cases hb
      · have := (List.cons.inj hb).1; subst this
        rcases hy with rfl | rfl <;> rcases hc with h | h <;> exact absurd h (by decide)
    | cons d a =>
      simp only [List.cons_append, List.cons.injEq] at hb
      exact absurd (hm c (by rw [ha, hb.1]; simp)) hcm
  · -- `x = m ++ a`
    rcases he with rfl | ⟨y, sg, ds, rfl, hy, hs, _, hd⟩
    · exact absurd hb (by simp)
    · cases a with
      | nil =>
        simp only [List.nil_append] at hb
        have := (List.cons.inj hb).1
        subst this
        rcases hy with rfl | rfl <;> rcases hc with h | h <;> exact absurd h (by decide)
      | cons d a =>
        simp only [List.cons_append, List.cons.injEq] at hb
        obtain ⟨rfl, hb⟩ := hb
        have hcd : ¬ c ∈ ds := fun h => hcm (.inl (hd c h))
        have ha' : a = [] := by
          cases a with
          | nil => rfl
          | cons s a =>
            exfalso
            rcases hs with rfl | rfl | rfl
            · exact hcd (by rw [show ds = s :: a ++ c :: v from hb]; simp)
            · simp only [List.cons_append, List.nil_append, List.cons.injEq] at hb
              exact hcd (by rw [hb.2]; simp)
            · simp only [List.cons_append, List.nil_append, List.cons.injEq] at hb
              exact hcd (by rw [hb.2]; simp)
        subst ha'
        exact ⟨m, y, ha, hy, hne, hm⟩

theorem isInt_no_e {m : Str} {e : Char} (he : e = 'e' ∨ e = 'E') (hne : m ≠ [])
    (hm : ∀ y ∈ m, isDec y = true ∨ y = '.') : ¬ IsInt (m ++ [e]) := by
  have hed : isDec e = false := by rcases he with rfl | rfl <;> decide
  cases m with
  | nil => exact absurd rfl hne
  | cons d m =>
    rintro (⟨c, cs, hw, hc, hcs⟩ | ⟨cs, hw, hcs⟩ | ⟨y, cs, hw, hy, hn, hcs⟩)
    · simp only [List.cons_append, List.cons.injEq] at hw
      have := hcs e (by rw [← hw.2]; simp)
      rw [hed] at this; cases this
    · simp only [List.cons_append, List.cons.injEq] at hw
      have := oct_dec (hcs e (by rw [← hw.2]; simp))
      rw [hed] at this; cases this
    · simp only [List.cons_append, List.cons.injEq] at hw
      cases m with
      | nil =>
        simp only [List.nil_append, List.cons.injEq] at hw
        exact hn hw.2.2.symm
      | cons z m =>
        simp only [List.cons_append, List.cons.injEq] at hw
        have := hm z (by simp)
        rw [hw.2.1] at this
        rcases hy with rfl | rfl <;> exact absurd this (by decide)

theorem last_of_append {m : Str} {e : Char} {a : Str} {l : Char} (h : m ++ [e] = a ++ [l]) : e = l := by
  have := congrArg List.getLast? h
  simpa using this

theorem num_no_e {m : Str} {e : Char} (he : e = 'e' ∨ e = 'E') : ¬ Num (m ++ [e]) := by
  have hed : isDec e = false := by rcases he with rfl | rfl <;> decide
  rintro ⟨m', ex, hw, _, hm, hx, _⟩
  rcases hx with rfl | ⟨y, sg, ds, rfl, _, _, hn, hd⟩
  · rw [List.append_nil] at hw
    have := hm e (by rw [← hw]; simp)
    rcases this with h | rfl
    · rw [hed] at h; cases h
    · exact absurd he (by decide)
  · obtain ⟨ds', l, rfl⟩ : ∃ ds' l, ds = ds' ++ [l] := by
      exact ⟨ds.dropLast, ds.getLast hn, (List.dropLast_concat_getLast hn).symm⟩
    have e1 : m ++ [e] = (m' ++ y :: (sg ++ ds')) ++ [l] := by rw [hw]; simp
    have := hd l (by simp)
    rw [← last_of_append e1, hed] at this; cases this

/-- After a number. -/
theorem bound_num {x rest : Str} (hx : IsInt x ∨ Num x)
    (hr : ∀ c, rest.head? = some c → wordC c = false ∧ c ≠ '.') {q : Rule} {w : Str}
    (hk : Kinds q w) (hp : w <+: x ++ rest) : w.length ≤ x.length := by
  apply Nat.le_of_not_lt; intro hl
  obtain ⟨c, r, v, rfl, rfl⟩ := prefix_longer hp hl
  obtain ⟨hcw, hcd⟩ := hr c rfl
  have hnum : Num (x ++ c :: v) → False := by
    intro hn
    rcases num_chars hn c (by simp) with h | h | h
    · rw [hcw] at h; cases h
    · exact hcd h
    · obtain ⟨m, e, rfl, he, hne, hm⟩ := num_sign hn h
      rcases hx with hx | hx
      · exact isInt_no_e he hne hm hx
      · exact num_no_e he hx
  have hfirst : ∃ d ds, x = d :: ds ∧ (isDec d = true ∨ d = '.') := by
    rcases hx with hx | hx
    · obtain ⟨d, ds, e, h⟩ := isInt_first hx; exact ⟨d, ds, e, .inl h⟩
    · exact num_first hx
  obtain ⟨d, ds, rfl, hd | rfl⟩ := hfirst
  · rcases kinds_dec (cs := ds ++ c :: v) hk hd with h | h
    · exact hnum h
    · have := isInt_all h c (by simp)
      rw [hcw] at this; cases this
  · rcases kinds_sym (cs := ds ++ c :: v) hk (by decide) with ⟨k, hk, h⟩ | ⟨_, h⟩ | ⟨h, _⟩
    · have : syms.all (fun k => k.2.toList.head? != some '.' || k.2.toList.length == 1) = true := by decide +kernel
      have := List.all_eq_true.mp this k hk
      rw [← h] at this
      simp at this
    · rcases isFloat_num h with h | h | h
      · exact hnum h
      · exact absurd (List.cons.inj h).1 (by decide)
      · exact absurd (List.cons.inj h).1 (by decide)
    · exact absurd h (by decide)

theorem float_dot {c : Char} {v : Str} (h : IsFloat ('.' :: c :: v)) : isDec c = true := by
  have dig : ∀ i, '.' = i → isDec i = true → isDec c = true := by
    rintro i rfl hi; exact absurd hi (by decide)
  rcases h with ⟨ip, fp, ex, hw, hi, hf, hn, hx⟩ | ⟨ip, ex, hw, hi, hn, hx⟩ | h | h
  · cases ip with
    | nil =>
      simp only [List.nil_append, List.cons.injEq, true_and] at hw
      cases fp with
      | nil => exact absurd rfl (hn.resolve_left (fun h => h rfl))
      | cons f fp =>
        simp only [List.cons_append, List.cons.injEq] at hw
        rw [hw.1]; exact hf f (by simp)
    | cons i ip =>
      simp only [List.cons_append, List.cons.injEq] at hw
      exact dig i hw.1 (hi i (by simp))
  · cases ip with
    | nil => exact absurd rfl hn
    | cons i ip =>
      simp only [List.cons_append, List.cons.injEq] at hw
      exact dig i hw.1 (hi i (by simp))
  · exact absurd (List.cons.inj h).1 (by decide)
  · exact absurd (List.cons.inj h).1 (by decide)

/-- After a symbol. -/
theorem bound_sym {k : Sym × String} (hk : k ∈ syms) {rest : Str}
    (hr : ∀ c, rest.head? = some c → (∀ o ∈ syms, ¬ k.2.toList ++ [c] <+: o.2.toList) ∧
      (k.2.toList = ['/'] → c ≠ '/' ∧ c ≠ '*') ∧ (k.2.toList = ['.'] → isDec c = false)) {q : Rule} {w : Str}
    (hq : Kinds q w) (hp : w <+: k.2.toList ++ rest) : w.length ≤ k.2.toList.length := by
  apply Nat.le_of_not_lt; intro hl
  obtain ⟨c, r, v, rfl, rfl⟩ := prefix_longer hp hl
  obtain ⟨h1, h2, h3⟩ := hr c rfl
  obtain ⟨hne, hch⟩ := syms_chars hk
  have hone : syms.all (fun k => (k.2.toList.head? != some '.' && k.2.toList.head? != some '/') || k.2.toList.length == 1) = true := by
    decide +kernel
  have hone := List.all_eq_true.mp hone k hk
  cases hx : k.2.toList with
  | nil => exact absurd hx hne
  | cons d ds =>
    rw [hx] at hch hone hq h1 h2 h3
    have single : d = '.' ∨ d = '/' → ds = [] := by
      intro h
      simp only [List.head?_cons, Bool.or_eq_true, Bool.and_eq_true, bne_iff_ne, ne_eq, Option.some.injEq,
        List.length_cons, beq_iff_eq] at hone
      rcases hone with hone | hone
      · rcases h with rfl | rfl
        · exact absurd rfl hone.1
        · exact absurd rfl hone.2
      · exact List.length_eq_zero_iff.mp (by omega)
    rcases kinds_sym (cs := ds ++ c :: v) hq (hch d (by simp)) with ⟨o, ho, h⟩ | ⟨rfl, h⟩ | ⟨rfl, e, es, h, he⟩
    · exact h1 o ho ⟨v, by rw [← h]; simp⟩
    · have := single (.inl rfl); subst this
      have hcd := h3 rfl
      rw [float_dot h] at hcd; cases hcd
    · have := single (.inr rfl); subst this
      have := h2 rfl
      simp only [List.nil_append, List.cons.injEq] at h
      rw [h.1] at this
      rcases he with rfl | rfl
      · exact this.1 rfl
      · exact this.2 rfl

end Bubbler.Front
