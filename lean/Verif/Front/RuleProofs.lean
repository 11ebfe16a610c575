import Verif.Front.ReProofs
import Verif.Front.TokSpec

/-
The regular expressions of the lexer rules say what the token specification says.
-/
namespace Bubbler.Front
open Re

theorem matches_lit (s w : Str) : (lit s).Matches w ↔ w = s := by
  induction s generalizing w with
  | nil => exact matches_eps w
  | cons c s ih =>
    simp only [lit, matches_seq, chr, matches_cls, ih]
    constructor
    · rintro ⟨u, v, rfl, ⟨d, rfl, hd⟩, rfl⟩
      rw [eq_of_beq hd]; rfl
    · rintro rfl; exact ⟨[c], s, rfl, ⟨c, rfl, beq_self_eq_true c⟩, rfl⟩

theorem matches_chr (c : Char) (w : Str) : (chr c).Matches w ↔ w = [c] := by
  simp only [chr, matches_cls]
  constructor
  · rintro ⟨d, rfl, hd⟩; rw [eq_of_beq hd]
  · rintro rfl; exact ⟨c, rfl, beq_self_eq_true c⟩

theorem matches_starCls (p : Char → Bool) (w : Str) : (Re.star (.cls p)).Matches w ↔ AllC p w := by
  constructor
  · intro h
    induction w with
    | nil => intro c hc; cases hc
    | cons c w ih =>
      obtain ⟨u, v, rfl, h1, h2⟩ := star_cons h
      obtain ⟨d, e, hd⟩ := (matches_cls _ _).mp h1
      simp only [List.cons.injEq] at e
      obtain ⟨rfl, rfl⟩ := e
      intro x hx
      rcases List.mem_cons.mp hx with rfl | hx
      · exact hd
      · exact ih h2 x hx
  · intro h
    induction w with
    | nil => exact .starNil
    | cons c w ih =>
      exact Matches.starCons (u := [c]) ((matches_cls _ _).mpr ⟨c, rfl, h c (by simp)⟩) (ih fun x hx => h x (by simp [hx]))

theorem matches_plusCls (p : Char → Bool) (w : Str) : (plus (.cls p)).Matches w ↔ w ≠ [] ∧ AllC p w := by
  simp only [plus, matches_seq, matches_cls, matches_starCls]
  constructor
  · rintro ⟨u, v, rfl, ⟨c, rfl, hc⟩, hv⟩
    refine ⟨by simp, ?_⟩
    intro x hx
    rcases List.mem_cons.mp hx with rfl | hx
    · exact hc
    · exact hv x hx
  · rintro ⟨hw, h⟩
    cases w with
    | nil => exact absurd rfl hw
    | cons c w => exact ⟨[c], w, rfl, ⟨c, rfl, h c (by simp)⟩, fun x hx => h x (by simp [hx])⟩

theorem matches_opt (r : Re) (w : Str) : (opt r).Matches w ↔ w = [] ∨ r.Matches w := by
  simp only [opt, matches_alt, matches_eps]

theorem matches_identifier (w : Str) : identifier.Matches w ↔ IsWord w := by
  simp only [identifier, matches_seq, matches_cls, matches_starCls, IsWord, AllC, Bool.or_eq_true]
  constructor
  · rintro ⟨u, v, rfl, ⟨c, rfl, hc⟩, hv⟩; exact ⟨c, v, rfl, hc, hv⟩
  · rintro ⟨c, cs, rfl, hc, hv⟩; exact ⟨[c], cs, rfl, ⟨c, rfl, hc⟩, hv⟩

theorem matches_intLit (w : Str) : intLit.Matches w ↔ IsInt w := by
  simp only [intLit, matches_alt, matches_seq, matches_cls, matches_chr, matches_starCls, matches_plusCls, IsInt,
    Bool.and_eq_true, Bool.or_eq_true, decide_eq_true_eq, beq_iff_eq]
  constructor
  · rintro (⟨u, v, rfl, ⟨c, rfl, hc⟩, hv⟩ | ⟨u, v, rfl, rfl, hv⟩ | ⟨u, v, rfl, rfl, u', v', rfl, ⟨x, rfl, hx⟩, hn, hv⟩)
    · exact .inl ⟨c, v, rfl, hc, hv⟩
    · exact .inr (.inl ⟨v, rfl, hv⟩)
    · exact .inr (.inr ⟨x, v', rfl, hx, hn, hv⟩)
  · rintro (⟨c, cs, rfl, hc, hv⟩ | ⟨cs, rfl, hv⟩ | ⟨x, cs, rfl, hx, hn, hv⟩)
    · exact .inl ⟨[c], cs, rfl, ⟨c, rfl, hc⟩, hv⟩
    · exact .inr (.inl ⟨['0'], cs, rfl, rfl, hv⟩)
    · exact .inr (.inr ⟨['0'], x :: cs, rfl, rfl, [x], cs, rfl, ⟨x, rfl, hx⟩, hn, hv⟩)

theorem matches_exponent (w : Str) : exponent.Matches w ↔ IsExp w := by
  simp only [exponent, decimals, matches_alt, matches_seq, matches_cls, matches_chr, matches_opt, matches_plusCls, IsExp,
    Bool.or_eq_true, beq_iff_eq]
  constructor
  · rintro ⟨u, v, rfl, ⟨x, rfl, hx⟩, sg, ds, rfl, hs, hd⟩; exact ⟨x, sg, ds, rfl, hx, hs, hd⟩
  · rintro ⟨x, sg, ds, rfl, hx, hs, hd⟩; exact ⟨[x], sg ++ ds, rfl, ⟨x, rfl, hx⟩, sg, ds, rfl, hs, hd⟩

theorem allC_nil (p : Char → Bool) : AllC p [] := fun _ h => nomatch h

theorem matches_floatLit (w : Str) : floatLit.Matches w ↔ IsFloat w := by
  simp only [floatLit, matches_alt, matches_seq, matches_chr, matches_opt, matches_lit, matches_exponent, decimals,
    matches_plusCls, IsFloat]
  constructor
  · rintro ((⟨ip, _, rfl, ⟨hn, hi⟩, _, _, rfl, rfl, fp, ex, rfl, hf, he⟩ | ⟨ip, ex, rfl, ⟨hn, hi⟩, he⟩ |
      ⟨_, _, rfl, rfl, fp, ex, rfl, ⟨hn, hf⟩, he⟩) | h | h)
    · refine .inl ⟨ip, fp, ex, rfl, hi, ?_, .inl hn, he⟩
      rcases hf with rfl | hf
      · exact allC_nil _
      · exact hf.2
    · exact .inr (.inl ⟨ip, ex, rfl, hi, hn, he⟩)
    · exact .inl ⟨[], fp, ex, rfl, allC_nil _, hf, .inr hn, he⟩
    · exact .inr (.inr (.inl h))
    · exact .inr (.inr (.inr h))
  · rintro (⟨ip, fp, ex, rfl, hi, hf, hn, he⟩ | ⟨ip, ex, rfl, hi, hn, he⟩ | h | h)
    · by_cases hip : ip = []
      · subst hip
        exact .inl (.inr (.inr ⟨['.'], fp ++ ex, rfl, rfl, fp, ex, rfl, ⟨hn.resolve_left (fun h => h rfl), hf⟩, he⟩))
      · refine .inl (.inl ⟨ip, '.' :: (fp ++ ex), rfl, ⟨hip, hi⟩, ['.'], fp ++ ex, rfl, rfl, fp, ex, rfl, ?_, he⟩)
        by_cases hfp : fp = []
        · exact .inl hfp
        · exact .inr ⟨hfp, hf⟩
    · exact .inl (.inr (.inl ⟨ip, ex, rfl, ⟨hn, hi⟩, he⟩))
    · exact .inr (.inl h)
    · exact .inr (.inr h)

/-- A character or escape of a string, whatever the quotes. -/
inductive CharSeq : Str → Prop
  | nil : CharSeq []
  | cons {u v} : charValue.Matches u → CharSeq v → CharSeq (u ++ v)

theorem matches_starCharValue (w : Str) : (Re.star charValue).Matches w ↔ CharSeq w := by
  constructor
  · intro h
    generalize hr : Re.star charValue = r at h
    induction h with
    | starNil => exact .nil
    | starCons h _ _ ih => cases hr; exact .cons h (ih rfl)
    | _ => cases hr
  · intro h
    induction h with
    | nil => exact .starNil
    | cons h _ ih => exact .starCons h ih

/-- The forms of `CHAR_VALUE`. -/
theorem matches_charValue (w : Str) : charValue.Matches w ↔
    (∃ x a b, w = ['\\', x, a, b] ∧ (x = 'x' ∨ x = 'X') ∧ isHex a = true ∧ isHex b = true) ∨
    (∃ a b c, w = ['\\', a, b, c] ∧ isOct a = true ∧ isOct b = true ∧ isOct c = true) ∨
    (∃ c, w = ['\\', c] ∧ c ∈ ['a', 'b', 'f', 'n', 'r', 't', 'v', '\\', '\'', '"']) ∨
    (∃ c, w = [c] ∧ c ≠ '\x00' ∧ c ≠ '\n' ∧ c ≠ '\\') := by
  have hl : "abfnrtv\\'\"".toList = ['a', 'b', 'f', 'n', 'r', 't', 'v', '\\', '\'', '"'] := by decide
  simp only [charValue, hexEscape, octEscape, charEscape, matches_alt, matches_seq, matches_cls, matches_chr,
    Bool.or_eq_true, Bool.and_eq_true, beq_iff_eq, bne_iff_ne, hl, List.contains_iff_mem]
  constructor
  · rintro (⟨_, _, rfl, rfl, _, _, rfl, ⟨x, rfl, hx⟩, _, _, rfl, ⟨a, rfl, ha⟩, ⟨b, rfl, hb⟩⟩ |
      ⟨_, _, rfl, rfl, _, _, rfl, ⟨a, rfl, ha⟩, _, _, rfl, ⟨b, rfl, hb⟩, ⟨c, rfl, hc⟩⟩ |
      ⟨_, _, rfl, rfl, c, rfl, hc⟩ | ⟨c, rfl, hc⟩)
    · exact .inl ⟨x, a, b, rfl, hx, ha, hb⟩
    · exact .inr (.inl ⟨a, b, c, rfl, ha, hb, hc⟩)
    · exact .inr (.inr (.inl ⟨c, rfl, hc⟩))
    · exact .inr (.inr (.inr ⟨c, rfl, hc.1.1, hc.1.2, hc.2⟩))
  · rintro (⟨x, a, b, rfl, hx, ha, hb⟩ | ⟨a, b, c, rfl, ha, hb, hc⟩ | ⟨c, rfl, hc⟩ | ⟨c, rfl, h1, h2, h3⟩)
    · exact .inl ⟨['\\'], _, rfl, rfl, [x], _, rfl, ⟨x, rfl, hx⟩, [a], [b], rfl, ⟨a, rfl, ha⟩, ⟨b, rfl, hb⟩⟩
    · exact .inr (.inl ⟨['\\'], _, rfl, rfl, [a], _, rfl, ⟨a, rfl, ha⟩, [b], [c], rfl, ⟨b, rfl, hb⟩, ⟨c, rfl, hc⟩⟩)
    · exact .inr (.inr (.inl ⟨['\\'], [c], rfl, rfl, c, rfl, hc⟩))
    · exact .inr (.inr (.inr ⟨c, rfl, ⟨h1, h2⟩, h3⟩))

theorem matches_strLit (w : Str) : strLit.Matches w ↔ ∃ q b, (q = '\'' ∨ q = '"') ∧ w = q :: (b ++ [q]) ∧ CharSeq b := by
  simp only [strLit, matches_alt, matches_seq, matches_chr, matches_starCharValue]
  constructor
  · rintro (⟨_, _, rfl, rfl, b, _, rfl, hb, rfl⟩ | ⟨_, _, rfl, rfl, b, _, rfl, hb, rfl⟩)
    · exact ⟨'\'', b, .inl rfl, rfl, hb⟩
    · exact ⟨'"', b, .inr rfl, rfl, hb⟩
  · rintro ⟨q, b, hq, rfl, hb⟩
    rcases hq with rfl | rfl
    · exact .inl ⟨['\''], b ++ ['\''], rfl, rfl, b, ['\''], rfl, hb, rfl⟩
    · exact .inr ⟨['"'], b ++ ['"'], rfl, rfl, b, ['"'], rfl, hb, rfl⟩

theorem matches_boolLit (w : Str) : boolLit.Matches w ↔ w = "true".toList ∨ w = "false".toList := by
  simp only [boolLit, matches_alt, matches_lit]

theorem matches_ws (w : Str) : ws.Matches w ↔ w ≠ [] ∧ AllC isBlank w := matches_plusCls _ _

theorem matches_lineComment (w : Str) : lineComment.Matches w ↔ ∃ b, w = '/' :: '/' :: b ∧ ∀ c ∈ b, c ≠ '\r' ∧ c ≠ '\n' := by
  simp only [lineComment, matches_seq, matches_lit, matches_starCls, AllC, Bool.and_eq_true, bne_iff_ne]
  constructor
  · rintro ⟨_, b, rfl, rfl, hb⟩; exact ⟨b, rfl, hb⟩
  · rintro ⟨b, rfl, hb⟩; exact ⟨_, b, rfl, rfl, hb⟩

theorem matches_comment (w : Str) : comment.Matches w ↔ ∃ b, w = '/' :: '*' :: (b ++ ['*', '/']) := by
  simp only [comment, matches_seq, matches_lit, matches_starCls]
  constructor
  · rintro ⟨_, _, rfl, rfl, b, _, rfl, hb, rfl⟩; exact ⟨b, rfl⟩
  · rintro ⟨b, rfl⟩; exact ⟨_, _, rfl, rfl, b, _, rfl, fun _ _ => rfl, rfl⟩

/-- What a match of a rule looks like. -/
inductive Kinds : Rule → Str → Prop
  | kw {k} : k ∈ kws → Kinds (kwRule k) k.2.toList
  | sym {k} : k ∈ syms → Kinds (symRule k) k.2.toList
  | str {q b} : (q = '\'' ∨ q = '"') → CharSeq b → Kinds strRule (q :: (b ++ [q]))
  | bool {w} : w = "true".toList ∨ w = "false".toList → Kinds boolRule w
  | float {w} : IsFloat w → Kinds floatRule w
  | int {w} : IsInt w → Kinds intRule w
  | ident {w} : IsWord w → Kinds identRule w
  | ws {w} : w ≠ [] → AllC isBlank w → Kinds wsRule w
  | line {b} : (∀ c ∈ b, c ≠ '\r' ∧ c ≠ '\n') → Kinds lineRule ('/' :: '/' :: b)
  | comment {b} : Kinds commentRule ('/' :: '*' :: (b ++ ['*', '/']))

theorem kinds_of {q : Rule} (hq : q ∈ rules) {w : Str} (hm : q.re.Matches w) : Kinds q w := by
  rcases List.mem_append.mp hq with hq | hq
  · obtain ⟨k, hk, rfl⟩ := List.mem_map.mp hq
    rw [(matches_lit _ w).mp hm]; exact .kw hk
  rcases List.mem_append.mp hq with hq | hq
  · obtain ⟨k, hk, rfl⟩ := List.mem_map.mp hq
    rw [(matches_lit _ w).mp hm]; exact .sym hk
  simp only [List.mem_cons, List.not_mem_nil, or_false] at hq
  rcases hq with rfl | rfl | rfl | rfl | rfl | rfl | rfl | rfl
  · obtain ⟨q, b, h, rfl, hb⟩ := (matches_strLit w).mp hm; exact .str h hb
  · exact .bool ((matches_boolLit w).mp hm)
  · exact .float ((matches_floatLit w).mp hm)
  · exact .int ((matches_intLit w).mp hm)
  · exact .ident ((matches_identifier w).mp hm)
  · exact .ws ((matches_ws w).mp hm).1 ((matches_ws w).mp hm).2
  · obtain ⟨b, rfl, hb⟩ := (matches_lineComment w).mp hm; exact .line hb
  · obtain ⟨b, rfl⟩ := (matches_comment w).mp hm; exact .comment

theorem Kinds.matches {q : Rule} {w : Str} (h : Kinds q w) : q.re.Matches w := by
  cases h with
  | kw hk => exact (matches_lit _ _).mpr rfl
  | sym hk => exact (matches_lit _ _).mpr rfl
  | str h hb => exact (matches_strLit _).mpr ⟨_, _, h, rfl, hb⟩
  | bool h => exact (matches_boolLit _).mpr h
  | float h => exact (matches_floatLit _).mpr h
  | int h => exact (matches_intLit _).mpr h
  | ident h => exact (matches_identifier _).mpr h
  | ws h h' => exact (matches_ws _).mpr ⟨h, h'⟩
  | line h => exact (matches_lineComment _).mpr ⟨_, rfl, h⟩
  | comment => exact (matches_comment _).mpr ⟨_, rfl⟩

end Bubbler.Front
