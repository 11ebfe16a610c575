import Verif.Util.TextProofs

set_option linter.unusedSimpArgs false
/-
C36 (relative package paths), C37 (normalisation of generated files), C38 (-rmpath).
-/
namespace Bubbler
open Text

/-! ### C37 -/

theorem splitOn_append_gen (sep : Char) : ∀ (a b : Str), splitOn sep (a ++ sep :: b) = splitOn sep a ++ splitOn sep b
  | [], b => by simp [splitOn]
  | c :: cs, b => by
    have ih := splitOn_append_gen sep cs b
    simp only [List.cons_append, splitOn]
    split
    · rw [ih]; rfl
    · cases h : splitOn sep cs with
      | nil => exact absurd h (splitOn_ne_nil sep cs)
      | cons l ls => rw [ih, h]; rfl

theorem splitOn_snoc (sep : Char) : ∀ (a : Str) (c : Char), c ≠ sep →
    ∃ ls l, splitOn sep (a ++ [c]) = ls ++ [l ++ [c]]
  | [], c, h => ⟨[], [], by simp [splitOn, h]⟩
  | x :: xs, c, h => by
    obtain ⟨ls, l, e⟩ := splitOn_snoc sep xs c h
    simp only [List.cons_append, splitOn, e]
    split
    · exact ⟨[] :: ls, l, rfl⟩
    · cases ls with
      | nil => exact ⟨[], x :: l, rfl⟩
      | cons y ys => exact ⟨(x :: y) :: ys, l, rfl⟩

theorem normalize_lines_ok (text : Str) : Ok 0 (splitOn '\n' (normalize text)) := by
  rw [split_normalize]
  split
  · simp [Ok]
  · rename_i e
    obtain ⟨i, x, ex⟩ := exists_snoc (bodyLines text) e
    have hx := (dropBlank_spec (squeeze 0 (splitOn '\n' (untab (crlf text))))).1 i x ex
    rw [ex]
    exact Ok_snoc_nil i x 0 hx (by rw [← ex]; exact bodyLines_ok text)

theorem normalize_lines (text : Str) (l : Str) (hl : l ∈ splitOn '\n' (normalize text)) : l = [] ∨ l ∈ bodyLines text := by
  rw [split_normalize] at hl
  split at hl
  · left; simpa using hl
  · rcases List.mem_append.mp hl with h | h
    · exact .inr h
    · left; simpa using h

/-- **C37.** A generated file contains no tab. -/
theorem C37_no_tab (text : Str) : '\t' ∉ normalize text := by
  intro h
  have : ∃ l ∈ splitOn '\n' (normalize text), '\t' ∈ l := by
    have hj := join_split '\n' (normalize text)
    rw [← hj] at h
    generalize splitOn '\n' (normalize text) = ls at h
    clear hj
    induction ls with
    | nil => simp [joinOn] at h
    | cons x xs ih =>
      cases xs with
      | nil => exact ⟨x, by simp, by simpa [joinOn] using h⟩
      | cons y ys =>
        simp only [joinOn] at h
        rcases List.mem_append.mp h with hc | hc
        · exact ⟨x, by simp, hc⟩
        · rcases List.mem_cons.mp hc with hc | hc
          · exact absurd hc (by decide)
          · obtain ⟨l, h1, h2⟩ := ih hc; exact ⟨l, by simp [h1], h2⟩
  obtain ⟨l, hl, hm⟩ := this
  rcases normalize_lines text l hl with e | hl
  · subst e; simp at hm
  · exact (bodyLines_chars text l hl _ hm).2.1 rfl

/-- **C37.** No line of a generated file ends in a blank. -/
theorem C37_no_trailing_blank (text : Str) : ¬ [' ', '\n'] <:+: normalize text := by
  rintro ⟨a, b, e⟩
  have e' : normalize text = (a ++ [' ']) ++ '\n' :: b := by rw [← e]; simp
  obtain ⟨ls, l, hs⟩ := splitOn_snoc '\n' a ' ' (by decide)
  have h : l ++ [' '] ∈ splitOn '\n' (normalize text) := by
    rw [e', splitOn_append_gen, hs]; simp
  rcases normalize_lines text _ h with h | h
  · simp at h
  · exact bodyLines_trim text _ h l ' ' rfl rfl

/-- **C37.** There are never three blank lines in a row, neither inside nor at the start. -/
theorem C37_blank_lines (text : Str) :
    ¬ ['\n', '\n', '\n', '\n'] <:+: normalize text ∧ ¬ ['\n', '\n', '\n'] <+: normalize text := by
  have ok := Ok_no_three _ (normalize_lines_ok text)
  constructor
  · rintro ⟨a, b, e⟩
    apply ok
    have e' : normalize text = a ++ '\n' :: ([] ++ '\n' :: ([] ++ '\n' :: ([] ++ '\n' :: b))) := by rw [← e]; simp
    rw [e', splitOn_append_gen, splitOn_append_gen, splitOn_append_gen, splitOn_append_gen]
    exact ⟨splitOn '\n' a, splitOn '\n' b, by simp [splitOn]⟩
  · rintro ⟨b, e⟩
    apply ok
    have e' : normalize text = [] ++ '\n' :: ([] ++ '\n' :: ([] ++ '\n' :: b)) := by rw [← e]; simp
    rw [e', splitOn_append_gen, splitOn_append_gen, splitOn_append_gen]
    exact ⟨[], splitOn '\n' b, by simp [splitOn]⟩

/-- **C37.** A generated file ends in exactly one newline. -/
theorem C37_final_newline (text : Str) : ∃ s, normalize text = s ++ ['\n'] ∧ ∀ i, s ≠ i ++ ['\n'] := by
  refine ⟨_, rfl, ?_⟩
  intro i h
  have := (trimRight_spec (fun c => c = '\n') _).1 i '\n' h
  simp at this

/-! Independent specification of the content: lines end at a line feed or at a carriage return followed by
a line feed, a tab stands for four blanks, blanks at the end of a line do not count. -/

/-- The lines of a text. -/
def TextSpec.lines : Str → List Str
  | [] => [[]]
  | '\r' :: '\n' :: cs => [] :: TextSpec.lines cs
  | '\n' :: cs => [] :: TextSpec.lines cs
  | c :: cs =>
    match TextSpec.lines cs with
    | [] => [[c]]
    | l :: ls => (c :: l) :: ls

/-- Every tab of a line replaced by four blanks. -/
def TextSpec.expand : Str → Str
  | [] => []
  | '\t' :: cs => ' ' :: ' ' :: ' ' :: ' ' :: TextSpec.expand cs
  | c :: cs => c :: TextSpec.expand cs

/-- A line without the blanks at its end. -/
def TextSpec.rstrip : Str → Str
  | [] => []
  | c :: cs => if c = ' ' ∧ TextSpec.rstrip cs = [] then [] else c :: TextSpec.rstrip cs

example : (TextSpec.lines "a\tb \r\n c".toList).map (fun l => TextSpec.rstrip (TextSpec.expand l)) =
    ["a    b".toList, " c".toList] := by decide +kernel

theorem untab_cons (c : Char) (cs : Str) :
    untab (c :: cs) = (if c = '\t' then [' ', ' ', ' ', ' '] else [c]) ++ untab cs := by
  simp [untab]

theorem TextSpec.expand_eq : ∀ l : Str, TextSpec.expand l = untab l
  | [] => rfl
  | c :: cs => by
    by_cases h : c = '\t'
    · subst h; rw [untab_cons, TextSpec.expand, TextSpec.expand_eq cs]; rfl
    · rw [untab_cons, if_neg h, TextSpec.expand, TextSpec.expand_eq cs]; rfl
      exact fun e => h e

theorem TextSpec.rstrip_eq : ∀ l : Str, '\t' ∉ l →
    TextSpec.rstrip l = trimRight (fun c => c = ' ' || c = '\t') l
  | [], _ => rfl
  | c :: cs, h => by
    have ih := TextSpec.rstrip_eq cs (fun hm => h (by simp [hm]))
    have hc : c ≠ '\t' := fun e => h (by simp [e])
    simp only [TextSpec.rstrip, ih, trimRight, List.reverse_cons]
    rw [List.dropWhile_append]
    cases hd : List.dropWhile (fun c => decide (c = ' ') || decide (c = '\t')) cs.reverse with
    | nil =>
      by_cases hb : c = ' '
      · simp [hb]
      · simp [hb, hc]
    | cons x xs => simp

theorem untab_no_tab (s : Str) : '\t' ∉ untab s := by
  intro h
  obtain ⟨c, _, hc⟩ := List.mem_flatMap.mp h
  split at hc
  · exact absurd hc (by decide)
  · rename_i hn; simp at hc; exact hn hc.symm

theorem splitOn_pieces (a b : Str) (h : '\n' ∉ a) :
    splitOn '\n' (a ++ b) =
      match splitOn '\n' b with
      | [] => [a]
      | l :: ls => (a ++ l) :: ls := by
  induction a with
  | nil =>
    cases hs : splitOn '\n' b with
    | nil => exact absurd hs (splitOn_ne_nil _ b)
    | cons l ls => simp [hs]
  | cons c cs ih =>
    have hc : c ≠ '\n' := fun e => h (by simp [e])
    simp only [List.cons_append, splitOn]
    rw [if_neg hc, ih (fun hm => h (by simp [hm]))]
    cases hs : splitOn '\n' b with
    | nil => exact absurd hs (splitOn_ne_nil _ b)
    | cons l ls => rfl

theorem TextSpec.lines_ne_nil : ∀ t : Str, TextSpec.lines t ≠ [] := by
  intro t
  fun_induction TextSpec.lines t <;> simp

theorem TextSpec.lines_eq (t : Str) :
    splitOn '\n' (untab (crlf t)) = (TextSpec.lines t).map TextSpec.expand := by
  fun_induction TextSpec.lines t with
  | case1 => simp [crlf, untab, splitOn, TextSpec.expand]
  | case2 cs ih =>
    rw [crlf, untab_cons]
    simp [splitOn, TextSpec.expand, ih]
  | case3 cs ih =>
    rw [crlf, untab_cons]
    · simp [splitOn, TextSpec.expand, ih]
    · simp
  | case4 c cs h1 h2 h3 =>
    exact absurd h3 (TextSpec.lines_ne_nil cs)
  | case5 c cs h1 h2 l ls h3 ih =>
    rw [crlf, untab_cons]
    · rw [splitOn_pieces _ _ (by split <;> simp_all [eq_comm]), ih, h3]
      simp only [List.map_cons]
      congr 1
      rw [TextSpec.expand_eq, TextSpec.expand_eq, untab_cons]
    · exact h1

/-- **C37.** The non-blank lines are those of the input, in the same order: line ends become line feeds,
tabs are expanded to four blanks and trailing blanks cut, nothing else changes. -/
theorem C37_content (text : Str) :
    (splitOn '\n' (normalize text)).filter (· ≠ []) =
      ((TextSpec.lines text).map (fun l => TextSpec.rstrip (TextSpec.expand l))).filter (· ≠ []) := by
  have hr : (TextSpec.lines text).map (fun l => TextSpec.rstrip (TextSpec.expand l)) =
      (splitOn '\n' (untab (crlf text))).map (trimRight (fun c => c = ' ' || c = '\t')) := by
    rw [TextSpec.lines_eq, List.map_map]
    apply List.map_congr_left
    intro l _
    rw [Function.comp, TextSpec.expand_eq, TextSpec.rstrip_eq _ (untab_no_tab l)]
  rw [hr, ← squeeze_nonblank _ 0, split_normalize]
  obtain ⟨_, t, e, ht⟩ := dropBlank_spec (squeeze 0 (splitOn '\n' (untab (crlf text))))
  have hb : (squeeze 0 (splitOn '\n' (untab (crlf text)))).filter (· ≠ []) = (bodyLines text).filter (· ≠ []) := by
    conv => lhs; rw [e]
    rw [List.filter_append]
    have : t.filter (· ≠ []) = [] := by
      rw [List.filter_eq_nil_iff]; intro x hx; simp [ht x hx]
    rw [this, List.append_nil]; rfl
  rw [hb]
  split
  · rename_i h; rw [h]; rfl
  · rw [List.filter_append]; simp

theorem Ok_of_no_three : ∀ (ls : List Str) (k : Nat), k ≤ 2 →
    ¬ [[], [], []] <:+: List.replicate k ([] : Str) ++ ls → Ok k ls
  | [], _, _, _ => trivial
  | l :: ls, k, hk, h => by
    simp only [Ok]
    have hrep : List.replicate k ([] : Str) ++ [] :: ls = List.replicate (k + 1) [] ++ ls := by
      rw [List.replicate_succ', List.append_assoc]; rfl
    split
    · rename_i e
      subst e
      rw [hrep] at h
      by_cases hk2 : k = 2
      · subst hk2
        exact absurd ⟨[], ls, rfl⟩ h
      · exact ⟨by omega, Ok_of_no_three ls (k + 1) (by omega) h⟩
    · apply Ok_of_no_three ls 0 (by omega)
      rintro ⟨a, b, e⟩
      exact h ⟨List.replicate k [] ++ [l] ++ a, b, by rw [show List.replicate 0 ([] : Str) ++ ls = ls from rfl] at e; rw [← e]; simp⟩

/-- **C37.** A text that is already in normal form (no tab, carriage return or trailing blank, no three blank
lines in a row, not empty, no blank line at the end) is not changed. -/
theorem C37_unchanged (ls : List Str) (hne : ls ≠ [])
    (hc : ∀ l ∈ ls, '\n' ∉ l ∧ '\t' ∉ l ∧ '\r' ∉ l) (ht : ∀ l ∈ ls, ∀ i, l ≠ i ++ [' '])
    (h3 : ¬ [[], [], []] <:+: ls) (hlast : ∀ i, ls ≠ i ++ [[]]) :
    normalize (joinOn '\n' ls ++ ['\n']) = joinOn '\n' ls ++ ['\n'] := by
  have hmem : ∀ ls : List Str, ∀ c, c ∈ joinOn '\n' ls → c = '\n' ∨ ∃ l ∈ ls, c ∈ l := by
    intro ls c
    induction ls with
    | nil => simp [joinOn]
    | cons x xs ih =>
      cases xs with
      | nil => intro h; exact .inr ⟨x, by simp, by simpa [joinOn] using h⟩
      | cons y ys =>
        intro h
        simp only [joinOn] at h
        rcases List.mem_append.mp h with h | h
        · exact .inr ⟨x, by simp, h⟩
        · rcases List.mem_cons.mp h with h | h
          · exact .inl h
          · rcases ih h with h | ⟨l, h1, h2⟩
            · exact .inl h
            · exact .inr ⟨l, by simp [h1], h2⟩
  have hr : '\r' ∉ joinOn '\n' ls ++ ['\n'] := by
    intro h
    rcases List.mem_append.mp h with h | h
    · rcases hmem ls _ h with h | ⟨l, h1, h2⟩
      · exact absurd h (by decide)
      · exact (hc l h1).2.2 h2
    · simp at h
  have htab : '\t' ∉ joinOn '\n' ls ++ ['\n'] := by
    intro h
    rcases List.mem_append.mp h with h | h
    · rcases hmem ls _ h with h | ⟨l, h1, h2⟩
      · exact absurd h (by decide)
      · exact (hc l h1).2.1 h2
    · simp at h
  have hjoin : joinOn '\n' ls ++ ['\n'] = joinOn '\n' (ls ++ [[]]) := by
    rw [joinOn_append _ _ _ hne (by simp)]; rfl
  obtain ⟨i, x, ex⟩ := exists_snoc ls hne
  have hx : x ≠ [] := fun e => hlast i (by rw [ex, e])
  have hok : Ok 0 (ls ++ [[]]) := by
    rw [ex]
    exact Ok_snoc_nil i x 0 hx (by rw [← ex]; exact Ok_of_no_three ls 0 (by omega) h3)
  have hsq : squeeze 0 (splitOn '\n' (joinOn '\n' ls ++ ['\n'])) = ls ++ [[]] := by
    rw [hjoin, split_join _ _ (by simp) (by
      intro l hl
      rcases List.mem_append.mp hl with h | h
      · exact (hc l h).1
      · simp at h; simp [h])]
    apply squeeze_fix _ _ hok
    intro l hl
    rcases List.mem_append.mp hl with h | h
    · apply trimRight_id
      intro j y e
      have h1 := (hc l h).2.1
      have h2 := ht l h j
      simp only [Bool.or_eq_false_iff, decide_eq_false_iff_not]
      refine ⟨fun ey => h2 (by rw [e, ey]), fun ey => h1 (by rw [e, ey]; simp)⟩
    · simp at h; subst h; rfl
  have : bodyLines (joinOn '\n' ls ++ ['\n']) = ls := by
    unfold bodyLines
    rw [crlf_id _ hr, untab_id _ htab, hsq, dropBlank_snoc_nil, ex, dropBlank_snoc _ _ hx]
  rw [normalize_eq, this]

example : normalize (joinOn '\n' ["a".toList, [], [], " b".toList] ++ ['\n']) =
    joinOn '\n' ["a".toList, [], [], " b".toList] ++ ['\n'] :=
  C37_unchanged _ (by simp) (by decide +kernel) (by
    intro l hl i e
    simp only [List.mem_cons, List.not_mem_nil, or_false] at hl
    have : l.getLast? = some ' ' := by rw [e]; simp
    rcases hl with h | h | h | h <;> subst h <;> revert this <;> decide +kernel) (by decide +kernel) (by
    intro i e
    have : (["a".toList, [], [], " b".toList] : List Text.Str).getLast? = some [] := by rw [e]; simp
    revert this; decide +kernel)

/-- **C37.** Normalising twice is normalising once (text without carriage returns). -/
theorem C37_idempotent (text : Str) (h : '\r' ∉ text) : normalize (normalize text) = normalize text :=
  normalize_idem text h

example : normalize "a\t\n\n\n\n\nb  \r\n\n".toList = "a\n\n\nb\n".toList := by decide +kernel

/-- With a stray carriage return before a CRLF a second pass changes the text again. -/
theorem C37_cr_counterexample :
    normalize "a\r\r\n".toList = "a\r\n".toList ∧ normalize "a\r\n".toList = "a\n".toList := by
  constructor <;> decide +kernel

/-! ### C38 -/

/-- **C38.** No listed prefix matches: the path is unchanged. -/
theorem C38_no_match (ps : List Str) (file : Str) (h : ∀ p ∈ ps, ¬ p <+: file) : rmPath ps file = file := by
  induction ps with
  | nil => rfl
  | cons p ps ih =>
    simp only [rmPath]
    rw [if_neg, ih (fun q hq => h q (by simp [hq]))]
    rw [List.isPrefixOf_iff_prefix]; exact h p (by simp)

/-- **C38.** The first listed prefix that matches is removed, together with the slashes that follow it. -/
theorem C38_first_match (ps qs : List Str) (p rest : Str) (h : ∀ q ∈ ps, ¬ q <+: p ++ rest) :
    ∃ slashes, (∀ c ∈ slashes, c = '/') ∧ rest = slashes ++ rmPath (ps ++ p :: qs) (p ++ rest) ∧
      ¬ ['/'] <+: rmPath (ps ++ p :: qs) (p ++ rest) := by
  have e : rmPath (ps ++ p :: qs) (p ++ rest) = stripSlashes rest := by
    induction ps with
    | nil =>
      simp only [List.nil_append, rmPath]
      rw [if_pos (by rw [List.isPrefixOf_iff_prefix]; exact ⟨rest, rfl⟩), List.drop_left]
    | cons q ps ih =>
      simp only [List.cons_append, rmPath]
      rw [if_neg (by rw [List.isPrefixOf_iff_prefix]; exact h q (by simp))]
      exact ih (fun q hq => h q (by simp [hq]))
  rw [e]
  refine ⟨rest.takeWhile (· = '/'), ?_, ?_, ?_⟩
  · intro c hc
    have : ∀ (l : Str), c ∈ l.takeWhile (fun x => decide (x = '/')) → c = '/' := by
      intro l
      induction l with
      | nil => simp
      | cons a as ih =>
        rw [List.takeWhile_cons]
        split
        · rename_i ha
          intro hm
          rcases List.mem_cons.mp hm with e | hm
          · subst e; simpa using ha
          · exact ih hm
        · simp
    exact this rest hc
  · exact (List.takeWhile_append_dropWhile).symm
  · rintro ⟨t, ht⟩
    unfold stripSlashes at ht
    have hne : List.dropWhile (fun x => decide (x = '/')) rest ≠ [] := by rw [← ht]; simp
    have h2 := List.head_dropWhile_not (fun x => decide (x = '/')) hne
    simp only [← ht, List.singleton_append, List.head_cons, decide_true, Bool.not_true] at h2
    exact absurd h2 (by simp)

/-- **C38.** In every case what remains is a final part of the path. -/
theorem C38_suffix (ps : List Str) (file : Str) : rmPath ps file <:+ file := by
  induction ps with
  | nil => exact List.suffix_rfl
  | cons p ps ih =>
    simp only [rmPath]
    split
    · exact (List.dropWhile_suffix _).trans (List.drop_suffix _ _)
    · exact ih

theorem cleanStep_foldl (rooted : Bool) (comps : List Str) (stack : List Str) (h : ['.', '.'] ∉ comps) :
    comps.foldl (cleanStep rooted) stack = stack ++ comps.filter (fun c => ¬ (c = [] ∨ c = ['.'])) := by
  induction comps generalizing stack with
  | nil => simp
  | cons c cs ih =>
    simp only [List.mem_cons, not_or] at h
    rw [List.foldl_cons, ih _ h.2, List.filter_cons]
    unfold cleanStep
    by_cases hc : c = [] ∨ c = ['.']
    · rw [if_pos hc, if_neg (by simp [hc])]
    · rw [if_neg hc, if_neg (fun e => h.1 e.symm), if_pos (by simpa using hc)]
      simp

/-- **C38.** If the path of the generated file has no `..` component then, whatever prefixes are removed,
the file is written at the output directory followed by components of the path: it stays below the
output directory. -/
theorem C38_below_output (rooted : Bool) (out : Str) (ps : List Str) (file : Str)
    (h : ¬ ['.', '.'] <:+: file) :
    joinPath rooted out (rmPath ps file) =
      clean rooted (splitOn '/' out) ++ (splitOn '/' (rmPath ps file)).filter (fun c => ¬ (c = [] ∨ c = ['.'])) := by
  unfold joinPath clean
  rw [List.foldl_append, cleanStep_foldl]
  intro hm
  apply h
  have hi : ['.', '.'] <:+: rmPath ps file := by
    have : ∀ (ls : List Str), ['.', '.'] ∈ ls → ['.', '.'] <:+: joinOn '/' ls := by
      intro ls
      induction ls with
      | nil => simp
      | cons x xs ih =>
        intro hx
        cases xs with
        | nil => simp only [List.mem_singleton] at hx; rw [← hx]; exact List.infix_rfl
        | cons y ys =>
          simp only [joinOn]
          rcases List.mem_cons.mp hx with e | hx
          · exact ⟨[], '/' :: joinOn '/' (y :: ys), by rw [← e]; simp⟩
          · exact (ih hx).trans ⟨x ++ ['/'], [], by simp⟩
    have := this _ hm
    rwa [join_split] at this
  exact hi.trans (C38_suffix ps file).isInfix

/-- **C38.** The option: every listed prefix is used without its trailing slashes. -/
theorem C38_option (path : Str) : ∀ p ∈ parseRmPath path,
    (¬ ∃ i, p = i ++ ['/']) ∧ ',' ∉ p ∧ ∃ q ∈ splitOn ',' path, ∃ t, q = p ++ t ∧ ∀ c ∈ t, c = '/' := by
  intro p hp
  unfold parseRmPath at hp
  obtain ⟨q, hq, e⟩ := List.mem_map.mp hp
  obtain ⟨h1, t, h2, h3⟩ := trimRight_spec (· = '/') q
  subst e
  refine ⟨?_, fun hm => split_no_sep ',' path q hq (trimRight_mem hm), q, hq, t, h2, fun c hc => by simpa using h3 c hc⟩
  rintro ⟨i, hi⟩
  have := h1 i '/' hi
  simp at this

example : rmPath (parseRmPath "foo,github.com/x/".toList) "github.com/x/a/b.go".toList = "a/b.go".toList := by decide +kernel
example : joinPath false "out/gen".toList "a/b.go".toList = ["out".toList, "gen".toList, "a".toList, "b.go".toList] := by
  decide +kernel

/-- The prefix is matched as text, not by path components: `a/bc` loses `a/b`. -/
theorem C38_textual_counterexample : rmPath ["a/b".toList] "a/bc/d.go".toList = "c/d.go".toList := by decide +kernel

/-! ### C36 -/

/-- Walk from a directory along the components of a relative path. -/
def walk : List Str → List Str → List Str
  | dir, [] => dir
  | dir, c :: cs =>
    if c = ['.', '.'] then walk dir.dropLast cs
    else if c = ['.'] then walk dir cs
    else walk (dir ++ [c]) cs

/-- Path components as the grammar allows them: no dots, no slashes, not empty. -/
def PlainName (s : Str) : Prop := s ≠ [] ∧ '.' ∉ s ∧ '/' ∉ s

theorem walk_append (dir : List Str) (a b : List Str) : walk dir (a ++ b) = walk (walk dir a) b := by
  induction a generalizing dir with
  | nil => rfl
  | cons c cs ih =>
    simp only [List.cons_append, walk]
    repeat' split
    all_goals exact ih _

theorem walk_plain (dir : List Str) (cs : List Str) (h : ∀ c ∈ cs, PlainName c) : walk dir cs = dir ++ cs := by
  induction cs generalizing dir with
  | nil => simp [walk]
  | cons c cs ih =>
    have hc := (h c (by simp)).2.1
    simp only [walk]
    rw [if_neg (by intro e; subst e; simp at hc), if_neg (by intro e; subst e; simp at hc), ih _ (fun x hx => h x (by simp [hx]))]
    simp

theorem walk_up (dir tl : List Str) : walk (dir ++ tl) (tl.map fun _ => ['.', '.']) = dir := by
  induction tl using snoc_induction with
  | h0 => simp [walk]
  | h1 l x ih =>
    have : (l ++ [x]).map (fun _ => ['.', '.']) = ['.', '.'] :: l.map (fun _ => ['.', '.']) := by
      have : ∀ (l : List Str), l.map (fun _ => ['.', '.']) ++ [['.', '.']] = ['.', '.'] :: l.map (fun _ => ['.', '.']) := by
        intro l
        induction l with
        | nil => rfl
        | cons a as ih => simp only [List.map_cons, List.cons_append, ih]
      rw [List.map_append]; exact this l
    rw [this]
    simp only [walk, if_true]
    rw [← List.append_assoc, List.dropLast_concat]
    exact ih

theorem walk_differencePaths (pre p q : List Str) (hq : ∀ c ∈ q, PlainName c) :
    walk (pre ++ p) (differencePaths p q) = pre ++ q := by
  induction p generalizing pre q with
  | nil =>
    have : differencePaths [] q = q := by cases q <;> simp [differencePaths]
    rw [this, List.append_nil, walk_plain _ _ hq]
  | cons a as ih =>
    cases q with
    | nil =>
      simp only [differencePaths, List.append_nil]
      exact walk_up pre (a :: as)
    | cons b bs =>
      simp only [differencePaths]
      split
      · rename_i e; subst e
        have := ih (pre ++ [a]) bs (fun c hc => hq c (by simp [hc]))
        simpa using this
      · rw [walk_append, walk_up, walk_plain _ _ hq]

theorem walk_difference (p q : Pkg) (hq : ∀ c ∈ q.full, PlainName c) : walk p.path (p.difference q) = q.full := by
  unfold Pkg.difference
  have h1 : ∀ c ∈ q.path, PlainName c := fun c hc => hq c (by simp [Pkg.full, hc])
  have h2 : PlainName q.name := hq q.name (by simp [Pkg.full])
  rw [walk_append]
  have := walk_differencePaths [] p.path q.path h1
  simp only [List.nil_append] at this
  rw [this, walk_plain _ _ (fun c hc => by simp only [List.mem_singleton] at hc; subst hc; exact h2)]
  rfl

theorem difference_mem (p q : List Str) : ∀ c ∈ differencePaths p q, c = ['.', '.'] ∨ c ∈ q := by
  induction p generalizing q with
  | nil =>
    have : differencePaths [] q = q := by cases q <;> simp [differencePaths]
    rw [this]; exact fun c hc => .inr hc
  | cons a as ih =>
    cases q with
    | nil =>
      simp only [differencePaths, List.append_nil, List.mem_map]
      rintro c ⟨_, _, e⟩; exact .inl e.symm
    | cons b bs =>
      simp only [differencePaths]
      split
      · intro c hc
        rcases ih bs c hc with h | h
        · exact .inl h
        · exact .inr (by simp [h])
      · intro c hc
        rcases List.mem_append.mp hc with hc | hc
        · obtain ⟨_, _, e⟩ := List.mem_map.mp hc; exact .inl e.symm
        · exact .inr hc

theorem joinOn_snoc_ext (sep : Char) (ls : List Str) (l ext : Str) : joinOn sep (ls ++ [l]) ++ ext = joinOn sep (ls ++ [l ++ ext]) := by
  by_cases h : ls = []
  · subst h; rfl
  · rw [joinOn_append sep ls [l] h (by simp), joinOn_append sep ls [l ++ ext] h (by simp)]
    simp [joinOn]

/-- **C36.** Resolving the relative path from the directory of the first package gives the file of the
second one (`ext` is the file extension, without slashes). -/
theorem C36_relative_path (p q : Pkg) (ext : Str) (hq : ∀ c ∈ q.full, PlainName c)
    (hext : '/' ∉ ext) :
    walk p.path (splitOn '/' (p.toRelativePath q ext)) = splitOn '/' (q.toFilePath ext) := by
  have hq1 : ∀ c ∈ q.path, PlainName c := fun c hc => hq c (by simp [Pkg.full, hc])
  have hqn : PlainName q.name := hq q.name (by simp [Pkg.full])
  have hsl : ∀ l ∈ differencePaths p.path q.path ++ [q.name ++ ext], '/' ∉ l := by
    intro l hl
    rcases List.mem_append.mp hl with hl | hl
    · rcases difference_mem _ _ l hl with e | h
      · subst e; decide
      · exact (hq1 l h).2.2
    · simp only [List.mem_singleton] at hl; subst hl
      rw [List.mem_append, not_or]; exact ⟨hqn.2.2, hext⟩
  have hsl2 : ∀ l ∈ q.path ++ [q.name ++ ext], '/' ∉ l := by
    intro l hl
    rcases List.mem_append.mp hl with hl | hl
    · exact (hq1 l hl).2.2
    · simp only [List.mem_singleton] at hl; subst hl
      rw [List.mem_append, not_or]; exact ⟨hqn.2.2, hext⟩
  unfold Pkg.toRelativePath Pkg.toFilePath Pkg.difference Pkg.full
  rw [joinOn_snoc_ext, joinOn_snoc_ext, split_join _ _ (by simp) hsl, split_join _ _ (by simp) hsl2, walk_append]
  have := walk_differencePaths [] p.path q.path hq1
  simp only [List.nil_append] at this
  rw [this]
  simp only [walk]
  obtain ⟨c, cs, ec⟩ : ∃ c cs, q.name = c :: cs := by
    cases h : q.name with
    | nil => exact absurd h hqn.1
    | cons c cs => exact ⟨c, cs, rfl⟩
  have hc : c ≠ '.' := by intro e; apply hqn.2.1; rw [ec, e]; simp
  rw [if_neg (by rw [ec]; simp [hc]), if_neg (by rw [ec]; simp [hc])]

/-- **C36.** The strict form (always starting with `./` or `../`) leads to the same file. -/
theorem C36_relative_path_strict (p q : Pkg) (ext : Str) (hq : ∀ c ∈ q.full, PlainName c) (hext : '/' ∉ ext) :
    walk p.path (splitOn '/' (p.toRelativePathStrict q ext)) = splitOn '/' (q.toFilePath ext) ∧
    (['.', '/'] <+: p.toRelativePathStrict q ext ∨ ['.', '.', '/'] <+: p.toRelativePathStrict q ext) := by
  unfold Pkg.toRelativePathStrict
  simp only
  split
  · rename_i h
    refine ⟨C36_relative_path p q ext hq hext, .inr ?_⟩
    rw [List.isPrefixOf_iff_prefix] at h
    -- the path begins with "..": the first component is ".."
    have hd : ∃ rest, p.difference q = ['.', '.'] :: rest ∧ rest ≠ [] := by
      unfold Pkg.difference
      cases hdp : differencePaths p.path q.path with
      | nil =>
        exfalso
        unfold Pkg.toRelativePath Pkg.difference at h
        rw [hdp] at h
        obtain ⟨t, ht⟩ := h
        have hqn : PlainName q.name := hq q.name (by simp [Pkg.full])
        simp only [List.nil_append, joinOn] at ht
        cases hn : q.name with
        | nil => exact hqn.1 hn
        | cons c cs =>
          rw [hn] at ht
          simp only [List.cons_append, List.cons.injEq] at ht
          apply hqn.2.1; rw [hn, ← ht.1]; simp
      | cons c cs =>
        refine ⟨cs ++ [q.name], ?_, by simp⟩
        rcases difference_mem p.path q.path c (by rw [hdp]; simp) with e | hc
        · rw [e]; rfl
        · exfalso
          have hpc : PlainName c := hq c (by simp [Pkg.full, hc])
          unfold Pkg.toRelativePath Pkg.difference at h
          rw [hdp] at h
          obtain ⟨t, ht⟩ := h
          rw [joinOn_append '/' (c :: cs) [q.name] (by simp) (by simp)] at ht
          cases hn : c with
          | nil => exact hpc.1 hn
          | cons x xs =>
            have : ∃ t', joinOn '/' (c :: cs) = x :: t' := by
              rw [hn]; cases cs <;> simp [joinOn]
            obtain ⟨t', et⟩ := this
            rw [et] at ht
            simp only [List.cons_append, List.cons.injEq] at ht
            apply hpc.2.1; rw [hn, ← ht.1]; simp
    obtain ⟨rest, e, hr⟩ := hd
    unfold Pkg.toRelativePath
    rw [e]
    cases rest with
    | nil => exact absurd rfl hr
    | cons y ys => simp [joinOn]
  · rename_i h
    refine ⟨?_, .inl ⟨_, rfl⟩⟩
    have : splitOn '/' ('.' :: '/' :: p.toRelativePath q ext) = ['.'] :: splitOn '/' (p.toRelativePath q ext) :=
      splitOn_append '/' ['.'] _ (by decide)
    rw [this]
    simp only [walk]
    rw [if_neg (by decide), if_true]
    exact C36_relative_path p q ext hq hext

theorem differencePaths_shape (p q : List Str) : ∃ k, k ≤ p.length ∧ p.take k = q.take k ∧
    differencePaths p q = List.replicate (p.length - k) ['.', '.'] ++ q.drop k := by
  induction p generalizing q with
  | nil => exact ⟨0, by simp, by simp, by cases q <;> simp [differencePaths]⟩
  | cons a as ih =>
    cases q with
    | nil => exact ⟨0, by simp, by simp, by simp [differencePaths, List.replicate_succ, List.map_const']⟩
    | cons b bs =>
      simp only [differencePaths]
      split
      · rename_i e; subst e
        obtain ⟨k, h1, h2, h3⟩ := ih bs
        refine ⟨k + 1, by simpa using h1, by simp [h2], ?_⟩
        rw [h3]; simp
      · exact ⟨0, by simp, by simp, by simp [List.replicate_succ, List.map_const']⟩

/-- **C36, Python.** The relative import is `1 + n` dots followed by names, where going `n` packages up from
the first package's own package and then down the names leads to the second package. -/
theorem C36_python (p q : Pkg) (ext : Str) (hq : ∀ c ∈ q.full, PlainName c) :
    ∃ n names, p.toPyRelativePath q ext = List.replicate (n + 1) '.' ++ joinOn '.' names ++ ext ∧
      n ≤ p.path.length ∧ p.path.take (p.path.length - n) ++ names = q.full ∧ names ≠ [] := by
  obtain ⟨k, h1, h2, h3⟩ := differencePaths_shape p.path q.path
  have hplain : ∀ c ∈ q.path.drop k ++ [q.name], c ≠ ['.', '.'] := by
    intro c hc e
    have : c ∈ q.full := by
      rcases List.mem_append.mp hc with hc | hc
      · simp [Pkg.full, List.mem_of_mem_drop hc]
      · simp only [List.mem_singleton] at hc; simp [Pkg.full, hc]
    have := (hq c this).2.1
    subst e; simp at this
  refine ⟨p.path.length - k, q.path.drop k ++ [q.name], ?_, by omega, ?_, by simp⟩
  · unfold Pkg.toPyRelativePath Pkg.difference
    rw [h3]
    simp only [List.append_assoc (List.replicate (p.path.length - k) ['.', '.']) (List.drop k q.path) [q.name]]
    generalize hr : q.path.drop k ++ [q.name] = r at hplain
    have htw : ∀ m, (List.replicate m ['.', '.'] ++ r).takeWhile (fun x => decide (x = ['.', '.'])) = List.replicate m (['.', '.'] : Str) := by
      intro m
      induction m with
      | zero =>
        cases r with
        | nil => rfl
        | cons x xs => simp [List.takeWhile_cons, hplain x (by simp)]
      | succ m ih => rw [List.replicate_succ, List.cons_append, List.takeWhile_cons]; simp [ih]
    have hh := htw (p.path.length - k)
    simp only [hh, List.length_replicate]
    rw [List.drop_left' (by simp)]
    simp [List.replicate_succ]
  · rw [show p.path.length - (p.path.length - k) = k by omega, h2, ← List.append_assoc, List.take_append_drop]
    rfl

/-- **C36.** Two packages are equal exactly when all components are. -/
theorem C36_equals (p q : Pkg) : p.equals q = true ↔ p.full = q.full := by
  unfold Pkg.equals
  have : ∀ a b : List Str, a.length = b.length → (pkgEqLoop a b = true ↔ a = b) := by
    intro a
    induction a with
    | nil => intro b hb; cases b with
      | nil => simp [pkgEqLoop]
      | cons => simp at hb
    | cons x xs ih =>
      intro b hb
      cases b with
      | nil => simp at hb
      | cons y ys =>
        simp only [pkgEqLoop]
        by_cases e : x = y
        · rw [if_neg (by simpa using e)]
          simp only [e, List.cons.injEq, true_and]
          exact ih ys (by simpa using hb)
        · rw [if_pos e]; simp [e]
  split
  · rename_i h; simp; intro e; exact h (by rw [e])
  · rename_i h; exact this _ _ (by simpa using h)

def pkgA : Pkg := ⟨["com".toList, "ex".toList, "app".toList], "p".toList⟩
def pkgB : Pkg := ⟨["com".toList, "ex2".toList], "q".toList⟩
example : pkgA.toRelativePathStrict pkgB ".bb.h".toList = "../../ex2/q.bb.h".toList := by decide +kernel
example : pkgA.toPyRelativePath pkgB "_bb".toList = "...ex2.q_bb".toList := by decide +kernel
example : ∀ c ∈ pkgB.full, PlainName c := by
  intro c hc
  simp only [pkgB, Pkg.full, List.cons_append, List.nil_append, List.mem_cons, List.not_mem_nil, or_false] at hc
  rcases hc with rfl | rfl | rfl <;> (refine ⟨?_, ?_, ?_⟩ <;> decide)

/-- The documentation of `Difference` gives ["subpkg", "abc"] for a package nested below the first one; the
function answers with the path from the directory of the first package, which contains its name again. -/
theorem C36_nested_example :
    (Pkg.mk ["a".toList] "p".toList).difference ⟨["a".toList, "p".toList, "subpkg".toList], "abc".toList⟩
      = ["p".toList, "subpkg".toList, "abc".toList] := by decide +kernel

/-! ### C38: where the file is written -/

/-- The non-empty components of a path. -/
def pathComps (s : Str) : List Str := (splitOn '/' s).filter (· ≠ [])

/-- Cleaned components: no empty one, no `.`; `..` only at the beginning, and not at all in a rooted path. -/
def CleanForm (rooted : Bool) (cs : List Str) : Prop :=
  ∃ n names, cs = List.replicate n ['.', '.'] ++ names ∧ (∀ c ∈ names, c ≠ [] ∧ c ≠ ['.'] ∧ c ≠ ['.', '.']) ∧
    (rooted = true → n = 0)

theorem walk_names (names : List Str) (h : ∀ c ∈ names, c ≠ [] ∧ c ≠ ['.'] ∧ c ≠ ['.', '.']) :
    ∀ dir, walk dir names = dir ++ names := by
  induction names with
  | nil => intro dir; simp [walk]
  | cons c names ih =>
    intro dir
    have hc := h c (by simp)
    simp only [walk, if_neg hc.2.2, if_neg hc.2.1]
    rw [ih (fun x hx => h x (by simp [hx]))]; simp

theorem cleanStep_form {rooted : Bool} {stack : List Str} (h : CleanForm rooted stack) (c : Str) :
    CleanForm rooted (cleanStep rooted stack c) := by
  obtain ⟨n, names, rfl, hn, hr⟩ := h
  unfold cleanStep
  split
  · exact ⟨n, names, rfl, hn, hr⟩
  · rename_i h1
    simp only [not_or] at h1
    split
    · rename_i h2
      subst h2
      rcases List.eq_nil_or_concat names with rfl | ⟨ns, x, rfl⟩
      · simp only [List.append_nil]
        cases n with
        | zero =>
          simp only [List.replicate_zero, List.getLast?_nil]
          split
          · exact ⟨0, [], rfl, by simp, fun _ => rfl⟩
          · rename_i hrt
            exact ⟨1, [], rfl, by simp, fun e => absurd e hrt⟩
        | succ n =>
          have hr' : rooted = false := by
            cases rooted with
            | false => rfl
            | true => exact absurd (hr rfl) (by omega)
          rw [List.replicate_succ', List.getLast?_concat]
          simp only [if_true]
          refine ⟨n + 2, [], ?_, by simp, fun e => by rw [hr'] at e; cases e⟩
          rw [List.replicate_succ', List.replicate_succ', List.append_nil]
      · have hx := hn x (by simp)
        rw [List.concat_eq_append, ← List.append_assoc, List.getLast?_concat]
        simp only [if_neg hx.2.2, List.dropLast_concat]
        exact ⟨n, ns, rfl, fun c hc => hn c (by simp [hc]), hr⟩
    · rename_i h2
      refine ⟨n, names ++ [c], by rw [List.append_assoc], ?_, hr⟩
      intro d hd
      rcases List.mem_append.mp hd with hd | hd
      · exact hn d hd
      · simp only [List.mem_singleton] at hd; subst hd; exact ⟨h1.1, h1.2, h2⟩

theorem cleanStep_walk {rooted : Bool} {stack : List Str} (h : CleanForm rooted stack) (c : Str) (dir : List Str)
    (hd : rooted = true → dir = []) :
    walk dir (cleanStep rooted stack c) = walk (walk dir stack) ([c].filter (· ≠ [])) := by
  obtain ⟨n, names, rfl, hn, hr⟩ := h
  unfold cleanStep
  by_cases hc0 : c = []
  · subst hc0; rfl
  have hf : [c].filter (· ≠ []) = [c] := by simp [hc0]
  rw [hf]
  by_cases hc1 : c = ['.']
  · subst hc1
    rw [if_pos (Or.inr rfl)]; simp [walk]
  rw [if_neg (by simp [hc0, hc1])]
  split
  · rename_i h2
    subst h2
    rcases List.eq_nil_or_concat names with rfl | ⟨ns, x, rfl⟩
    · simp only [List.append_nil]
      cases n with
      | zero =>
        simp only [List.replicate_zero, List.getLast?_nil]
        split
        · rename_i hrt
          rw [hd hrt]; simp [walk]
        · simp [walk]
      | succ n =>
        rw [List.replicate_succ', List.getLast?_concat]
        simp only [if_true]
        rw [walk_append]
    · have hx := hn x (by simp)
      rw [List.concat_eq_append, ← List.append_assoc, List.getLast?_concat]
      simp only [if_neg hx.2.2, List.dropLast_concat]
      rw [walk_append dir (List.replicate n ['.', '.'] ++ ns) [x], walk_names [x] (by simpa using hx)]
      simp [walk]
  · rw [walk_append]

theorem clean_foldl {rooted : Bool} (comps : List Str) : ∀ {stack : List Str}, CleanForm rooted stack →
    CleanForm rooted (comps.foldl (cleanStep rooted) stack) ∧
    ∀ dir, (rooted = true → dir = []) →
      walk dir (comps.foldl (cleanStep rooted) stack) = walk (walk dir stack) (comps.filter (· ≠ [])) := by
  induction comps with
  | nil => intro stack h; exact ⟨h, fun _ _ => rfl⟩
  | cons c cs ih =>
    intro stack h
    obtain ⟨h1, h2⟩ := ih (cleanStep_form h c)
    refine ⟨h1, fun dir hd => ?_⟩
    rw [List.foldl_cons, h2 dir hd, cleanStep_walk h c dir hd, ← walk_append, ← List.filter_append]
    rfl

/-- **C38.** The file is written where walking from the output directory along the remaining path leads, whatever `.`,
`..` and double slashes the two contain: from the root if the output directory is rooted, else from any current
directory `dir`; and the path used is in the simplest form. -/
theorem C38_written_at (rooted : Bool) (out file : Str) (dir : List Str) (hd : rooted = true → dir = []) :
    walk dir (joinPath rooted out file) = walk (walk dir (pathComps out)) (pathComps file) ∧
    CleanForm rooted (joinPath rooted out file) := by
  unfold joinPath clean
  obtain ⟨h1, h2⟩ := clean_foldl (rooted := rooted) (splitOn '/' out ++ splitOn '/' file) (stack := []) ⟨0, [], rfl, by simp, fun _ => rfl⟩
  refine ⟨?_, h1⟩
  rw [h2 dir hd, List.filter_append, walk_append]
  rfl

example : joinPath true "/srv/../gen".toList "../../x/./a.go".toList = ["x".toList, "a.go".toList] ∧
    walk (walk [] (pathComps "/srv/../gen".toList)) (pathComps "../../x/./a.go".toList) = ["x".toList, "a.go".toList] := by
  decide +kernel

end Bubbler
