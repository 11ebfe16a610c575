import Verif.Util.IndentProofs
import Verif.Props.TextProps

/-
C72: indentation of generated code (util/indent.go) and the template helpers `iterate` and `slice`.
-/
namespace Bubbler
open Text

/-- What indenting may do to a line that is followed by another one: the blanks are put in front; of an
empty line they may be left out. -/
def IndentLine (pad l out : Str) : Prop := out = pad ++ l ∨ (l = [] ∧ out = [])

/-- The same for a list of lines, one by one and in order. -/
inductive IndentLines (pad : Str) : List Str → List Str → Prop
  | nil : IndentLines pad [] []
  | cons {l out : Str} {ls outs : List Str} : IndentLine pad l out → IndentLines pad ls outs →
      IndentLines pad (l :: ls) (out :: outs)

theorem unblank_lines (pad : Str) : ∀ (a : Str) (ls : List Str) (last : Str),
    ∃ outs, unblank pad (a :: (ls.map (pad ++ ·) ++ [last])) = a :: (outs ++ [last]) ∧ IndentLines pad ls outs
  | a, [], last => ⟨[], by simp [unblank], .nil⟩
  | a, [l], last => by
    simp only [List.map_cons, List.map_nil, List.cons_append, List.nil_append]
    rw [unblank]
    split
    · rename_i e
      exact ⟨[[]], by simp [unblank], .cons (.inr ⟨by simpa using e, rfl⟩) .nil⟩
    · exact ⟨[pad ++ l], by simp [unblank], .cons (.inl rfl) .nil⟩
  | a, l :: l2 :: ls, last => by
    have ih1 := unblank_lines pad (pad ++ l2) ls last
    have ih2 := unblank_lines pad (pad ++ l) (l2 :: ls) last
    simp only [List.map_cons, List.cons_append] at ih1 ih2 ⊢
    rw [unblank]
    split
    · rename_i e
      obtain ⟨outs, e1, h⟩ := ih1
      rw [e1]
      exact ⟨[] :: (pad ++ l2) :: outs, rfl, .cons (.inr ⟨by simpa using e, rfl⟩) (.cons (.inl rfl) h)⟩
    · obtain ⟨outs, e1, h⟩ := ih2
      rw [e1]
      exact ⟨(pad ++ l) :: outs, rfl, .cons (.inl rfl) h⟩

/-- **C72.** `IndentSpace(v, n)` and `IndentTab(v, n)` (`b` is the blank): the result has the lines of `v`,
each with `n` blanks in front; an empty line may stay empty, and blanks at the end of the last line are cut. -/
theorem C72_lines (b : Char) (hb : b ≠ '\n') (n : Nat) (v : Str) (init : List Str) (last : Str)
    (hv : splitOn '\n' v = init ++ [last]) :
    ∃ outs, splitOn '\n' (indentBy b n true v) =
        outs ++ [trimRight (· = b) (List.replicate n b ++ last)] ∧
      IndentLines (List.replicate n b) init outs := by
  cases init with
  | nil =>
    refine ⟨[], ?_, .nil⟩
    rw [indentBy_eq b n true v hb last [] [] (List.replicate n b ++ last) hv rfl]
    simp [unblank]
  | cons l ls =>
    rw [indentBy_eq b n true v hb l (ls ++ [last]) ((List.replicate n b ++ l) :: ls.map (List.replicate n b ++ ·))
      (List.replicate n b ++ last) hv (by simp [padded])]
    obtain ⟨outs, e, h⟩ := unblank_lines (List.replicate n b) (List.replicate n b ++ l) ls
      (trimRight (fun c => decide (c = b)) (List.replicate n b ++ last))
    rw [List.cons_append, e]
    exact ⟨(List.replicate n b ++ l) :: outs, rfl, .cons (.inl rfl) h⟩

/-- **C72.** `IndentSpaceNoFirst(v, n)`: the same, but the first line is left as it is. -/
theorem C72_lines_no_first (n : Nat) (v : Str) (first : Str) (init : List Str) (last : Str)
    (hv : splitOn '\n' v = first :: (init ++ [last])) :
    ∃ outs, splitOn '\n' (indentSpaceNoFirst v n) =
        first :: (outs ++ [trimRight (· = ' ') (List.replicate n ' ' ++ last)]) ∧
      IndentLines (List.replicate n ' ') init outs := by
  simp only [indentSpaceNoFirst]
  rw [indentBy_eq ' ' n false v (by decide) first (init ++ [last]) (first :: init.map (List.replicate n ' ' ++ ·))
    (List.replicate n ' ' ++ last) hv (by simp [padded])]
  obtain ⟨outs, e, h⟩ := unblank_lines (List.replicate n ' ') first init
    (trimRight (fun c => decide (c = ' ')) (List.replicate n ' ' ++ last))
  rw [List.cons_append, e]
  exact ⟨outs, rfl, h⟩

/-- One line: only its trailing blanks are cut. -/
theorem C72_single_no_first (n : Nat) (v : Str) (hv : '\n' ∉ v) :
    indentSpaceNoFirst v n = trimRight (· = ' ') v := by
  have h := indentBy_eq ' ' n false v (by decide) v [] [] v (splitOn_single '\n' v hv) rfl
  have hj := join_split '\n' (indentSpaceNoFirst v n)
  simp only [indentSpaceNoFirst] at hj ⊢
  rw [← hj, h]
  simp [unblank, joinOn]

/-! The lines that are not blank -/

/-- The lines of a text that are not blank, without the blanks at their ends. -/
def codeLines (b : Char) (v : Str) : List Str := ((splitOn '\n' v).map (trimRight (· = b))).filter (· ≠ [])

theorem trimRight_eq_nil {p : Char → Bool} {s : Str} : trimRight p s = [] ↔ ∀ c ∈ s, p c = true := by
  constructor
  · intro h c hc
    obtain ⟨_, t, e, ht⟩ := trimRight_spec p s
    rw [h] at e
    exact ht c (by rw [e] at hc; simpa using hc)
  · intro h
    obtain ⟨h1, _⟩ := trimRight_spec p s
    by_cases e : trimRight p s = []
    · exact e
    · obtain ⟨i, x, ex⟩ := exists_snoc _ e
      have := h x (trimRight_mem (p := p) (by rw [ex]; simp))
      rw [h1 i x ex] at this
      cases this

theorem trimRight_append {p : Char → Bool} (a s : Str) (h : trimRight p s ≠ []) :
    trimRight p (a ++ s) = a ++ trimRight p s := by
  induction s using snoc_induction with
  | h0 => exact absurd trimRight_nil h
  | h1 s x ih =>
    rw [← List.append_assoc]
    cases hx : p x
    · rw [trimRight_append_neg _ _ hx, trimRight_append_neg _ _ hx]; simp
    · rw [trimRight_append_pos _ _ hx] at h ⊢
      rw [trimRight_append_pos _ _ hx, ih h]

theorem trimRight_pad (b : Char) (n : Nat) (l : Str) : trimRight (· = b) (List.replicate n b ++ l) =
    if trimRight (· = b) l = [] then [] else List.replicate n b ++ trimRight (· = b) l := by
  split
  · rename_i h
    rw [trimRight_eq_nil] at h ⊢
    intro c hc
    rcases List.mem_append.mp hc with hc | hc
    · simpa using (List.eq_of_mem_replicate hc)
    · exact h c hc
  · rename_i h
    exact trimRight_append _ _ h

theorem trimRight_twice (p : Char → Bool) (s : Str) : trimRight p (trimRight p s) = trimRight p s :=
  trimRight_id (trimRight_spec p s).1

/-- **C72.** The lines that are not blank keep their text and their indentation relative to each other: each
gets exactly `n` blanks in front. -/
theorem C72_content (b : Char) (hb : b ≠ '\n') (n : Nat) (v : Str) :
    codeLines b (indentBy b n true v) = (codeLines b v).map (List.replicate n b ++ ·) := by
  obtain ⟨init, last, e⟩ := exists_snoc _ (splitOn_ne_nil '\n' v)
  obtain ⟨outs, e1, h⟩ := C72_lines b hb n v init last e
  have one : ∀ l out : Str, (out = List.replicate n b ++ l ∨ (l = [] ∧ out = []) ∨ out = trimRight (· = b) (List.replicate n b ++ l)) →
      ([out].map (trimRight (· = b))).filter (· ≠ []) =
        (([l].map (trimRight (· = b))).filter (· ≠ [])).map (List.replicate n b ++ ·) := by
    rintro l out (rfl | ⟨rfl, rfl⟩ | rfl)
    · simp only [List.map_cons, List.map_nil, trimRight_pad]
      by_cases h : trimRight (· = b) l = []
      · simp [h]
      · simp [h]
    · simp [trimRight_nil]
    · rw [List.map_cons, List.map_nil, trimRight_twice, trimRight_pad]
      by_cases h : trimRight (· = b) l = []
      · simp [h]
      · simp [h]
  simp only [codeLines, e, e1, List.map_append, List.filter_append]
  rw [one last _ (.inr (.inr rfl))]
  congr 1
  clear e e1
  induction h with
  | nil => rfl
  | @cons l out ls outs hx _ ih =>
    have := one l out (by rcases hx with hx | hx; exact .inl hx; exact .inr (.inl hx))
    rw [show l :: ls = [l] ++ ls from rfl, show out :: outs = [out] ++ outs from rfl]
    simp only [List.map_append, List.filter_append, this, ih]

/-- **C72.** Indenting twice indents by the sum. -/
theorem C72_nested (m n : Nat) (v : Str) :
    codeLines ' ' (indentSpace (indentSpace v n) m) = codeLines ' ' (indentSpace v (m + n)) := by
  simp only [indentSpace]
  rw [C72_content _ (by decide), C72_content _ (by decide), C72_content _ (by decide), List.map_map]
  apply List.map_congr_left
  intro l _
  simp [Function.comp, List.replicate_append_replicate, ← List.append_assoc]

/-! Indented code in a written file -/

theorem TextSpec.lines_split : ∀ v : Str, '\r' ∉ v → TextSpec.lines v = splitOn '\n' v := by
  intro v
  fun_induction TextSpec.lines v with
  | case1 => intro _; rfl
  | case2 cs ih => intro h; simp at h
  | case3 cs ih => intro h; simp only [List.mem_cons, not_or] at h; simp [splitOn, ih h.2]
  | case4 c cs h1 h2 h3 => intro h; exact absurd h3 (TextSpec.lines_ne_nil cs)
  | case5 c cs h1 h2 l ls h3 ih =>
    intro h
    simp only [List.mem_cons, not_or] at h
    have hc : c ≠ '\n' := by
      intro e; exact h2 e
    have := ih h.2
    rw [h3] at this
    simp [splitOn, hc, ← this]

theorem rstrip_trim : ∀ l : Str, TextSpec.rstrip l = trimRight (· = ' ') l
  | [] => rfl
  | c :: cs => by
    have ih := rstrip_trim cs
    simp only [TextSpec.rstrip, ih]
    by_cases hn : trimRight (· = ' ') cs = []
    · by_cases hc : c = ' '
      · rw [if_pos ⟨hc, hn⟩]
        exact (trimRight_eq_nil.2 (by
          intro x hx
          rcases List.mem_cons.mp hx with rfl | hx
          · simpa using hc
          · exact trimRight_eq_nil.1 hn x hx)).symm
      · rw [if_neg (by simp [hc]), hn]
        obtain ⟨_, t, e, ht⟩ := trimRight_spec (fun c => decide (c = ' ')) (c :: cs)
        have hne : trimRight (fun c => decide (c = ' ')) (c :: cs) ≠ [] := by
          intro h0
          have := trimRight_eq_nil.1 h0 c (by simp)
          exact hc (by simpa using this)
        cases ht' : trimRight (fun c => decide (c = ' ')) (c :: cs) with
        | nil => exact absurd ht' hne
        | cons x xs =>
          rw [ht'] at e
          obtain ⟨rfl, e'⟩ := List.cons.inj e
          cases xs with
          | nil => rfl
          | cons y ys =>
            exfalso
            obtain ⟨i, z, ez⟩ := exists_snoc (y :: ys) (by simp)
            have h1 := (trimRight_spec (fun c => decide (c = ' ')) (c :: cs)).1 (c :: i) z (by rw [ht', ez]; rfl)
            have h2 := trimRight_eq_nil.1 hn z (by rw [e', ez]; simp)
            rw [h1] at h2
            cases h2
    · rw [if_neg (by simp [hn])]
      exact (trimRight_append [c] cs hn).symm

theorem expand_id (l : Str) (h : '\t' ∉ l) : TextSpec.expand l = l := by
  rw [TextSpec.expand_eq, untab_id l h]

/-- **C72.** In a written file: the lines that are not blank of generated code that was indented by `n` are
those of the code with `n` blanks in front. -/
theorem C72_file (n : Nat) (v : Str) (hr : '\r' ∉ v) (ht : '\t' ∉ v) :
    (splitOn '\n' (normalize (indentSpace v n))).filter (· ≠ []) =
      (codeLines ' ' v).map (List.replicate n ' ' ++ ·) := by
  have hmem : ∀ c, c ∈ indentSpace v n → c = ' ' ∨ c = '\n' ∨ c ∈ v := by
    intro c hc
    by_cases hn : c = '\n'
    · exact .inr (.inl hn)
    · have hj := join_split '\n' (indentSpace v n)
      rw [← hj] at hc
      have hin : ∃ l ∈ splitOn '\n' (indentSpace v n), c ∈ l := by
        generalize splitOn '\n' (indentSpace v n) = ls at hc
        clear hj
        induction ls with
        | nil => simp [joinOn] at hc
        | cons x xs ih =>
          cases xs with
          | nil => exact ⟨x, by simp, by simpa [joinOn] using hc⟩
          | cons y ys =>
            simp only [joinOn, List.mem_append, List.mem_cons] at hc
            rcases hc with hc | hc | hc
            · exact ⟨x, by simp, hc⟩
            · exact absurd hc hn
            · obtain ⟨l, hl, hcl⟩ := ih (by simpa [joinOn] using hc)
              exact ⟨l, by simp [hl], hcl⟩
      obtain ⟨l, hl, hcl⟩ := hin
      obtain ⟨init, last, e⟩ := exists_snoc _ (splitOn_ne_nil '\n' v)
      obtain ⟨outs, e1, h⟩ := C72_lines ' ' (by decide) n v init last e
      have hv : ∀ x ∈ init ++ [last], ∀ c ∈ x, c ∈ v := fun x hx c hc => split_mem '\n' (by rw [e]; exact hx) hc
      simp only [indentSpace] at hl
      rw [e1] at hl
      rcases List.mem_append.mp hl with hl | hl
      · have key : ∀ {ls outs : List Str}, IndentLines (List.replicate n ' ') ls outs → ∀ o ∈ outs, ∀ c ∈ o, c = ' ' ∨ ∃ x ∈ ls, c ∈ x := by
          intro ls outs h
          induction h with
          | nil => simp
          | @cons a o ls outs ho _ ih =>
            intro o' ho' c hc
            rcases List.mem_cons.mp ho' with rfl | ho'
            · rcases ho with rfl | ⟨_, rfl⟩
              · rcases List.mem_append.mp hc with hc | hc
                · exact .inl (List.eq_of_mem_replicate hc)
                · exact .inr ⟨a, by simp, hc⟩
              · simp at hc
            · rcases ih o' ho' c hc with h | ⟨x, hx, hc⟩
              · exact .inl h
              · exact .inr ⟨x, by simp [hx], hc⟩
        rcases key h l hl c hcl with h | ⟨x, hx, hc⟩
        · exact .inl h
        · exact .inr (.inr (hv x (by simp [hx]) c hc))
      · rw [List.mem_singleton] at hl
        subst hl
        rcases List.mem_append.mp (trimRight_mem hcl) with hc | hc
        · exact .inl (List.eq_of_mem_replicate hc)
        · exact .inr (.inr (hv last (by simp) c hc))
  have hr' : '\r' ∉ indentSpace v n := by
    intro h
    rcases hmem _ h with h | h | h
    · revert h; decide
    · revert h; decide
    · exact hr h
  have ht' : '\t' ∉ indentSpace v n := by
    intro h
    rcases hmem _ h with h | h | h
    · revert h; decide
    · revert h; decide
    · exact ht h
  rw [C37_content, TextSpec.lines_split _ hr', ← C72_content ' ' (by decide)]
  simp only [codeLines]
  congr 1
  apply List.map_congr_left
  intro l hl
  rw [expand_id l (fun h => ht' (split_mem '\n' hl h)), rstrip_trim]

/-- **C72.** Taking back two levels is exact: if every line but the first has eight blanks in front (an empty
line too), these are what is removed. -/
theorem C72_dedent (first : Str) (ls : List Str) (hf : '\n' ∉ first) (hl : ∀ l ∈ ls, '\n' ∉ l) :
    dedent8 (joinOn '\n' (first :: ls.map (List.replicate 8 ' ' ++ ·))) = joinOn '\n' (first :: ls) := by
  simp only [dedent8, replaceAll]
  induction ls generalizing first with
  | nil => exact replaceGo_copy_end '\n' _ _ first hf
  | cons x xs ih =>
    simp only [List.map_cons]
    rw [show joinOn '\n' (first :: (List.replicate 8 ' ' ++ x) :: xs.map (List.replicate 8 ' ' ++ ·)) =
      first ++ '\n' :: joinOn '\n' ((List.replicate 8 ' ' ++ x) :: xs.map (List.replicate 8 ' ' ++ ·)) from rfl,
      replaceGo_copy '\n' _ _ first _ hf]
    have e : '\n' :: joinOn '\n' ((List.replicate 8 ' ' ++ x) :: xs.map (List.replicate 8 ' ' ++ ·)) =
        '\n' :: List.replicate 8 ' ' ++ joinOn '\n' (x :: xs.map (List.replicate 8 ' ' ++ ·)) := by
      cases xs <;> simp [joinOn]
    rw [e, replaceGo_hit, ih x (hl x (by simp)) (fun l h => hl l (by simp [h]))]
    rfl

/-! Template helpers -/

theorem iterateGo_eq (stop : BitVec 64) : ∀ (fuel : Nat) (i : BitVec 64),
    (stop.toInt - i.toInt).toNat < fuel →
    (iterateGo stop fuel i).map BitVec.toInt = (List.range (stop.toInt - i.toInt).toNat).map (fun (k : Nat) => i.toInt + k)
  | 0, _, h => by omega
  | fuel + 1, i, h => by
    have ih := iterateGo_eq stop fuel (i + 1)
    rw [iterateGo]
    split
    · rename_i hlt
      rw [BitVec.slt_iff_toInt_lt] at hlt
      have b1 := stop.toInt_lt
      have b2 := i.le_toInt
      have hi : (i + 1).toInt = i.toInt + 1 := by
        rw [BitVec.toInt_add]
        have : BitVec.toInt (1 : BitVec 64) = 1 := by decide
        rw [this]
        apply Int.bmod_eq_of_le <;> omega
      rw [hi] at ih
      rw [List.map_cons, ih (by omega)]
      have : (stop.toInt - i.toInt).toNat = (stop.toInt - (i.toInt + 1)).toNat + 1 := by omega
      rw [this, List.range_succ_eq_map]
      simp only [List.map_cons, List.map_map]
      congr 1
      · simp
      · apply List.map_congr_left
        intro k _
        simp [Function.comp]
        omega
    · rename_i hlt
      rw [BitVec.slt_iff_toInt_lt] at hlt
      have : (stop.toInt - i.toInt).toNat = 0 := by omega
      simp [this]

/-- **C72.** `iterate a b` in a template runs over a, a+1, ..., b-1, in this order: over nothing if b ≤ a. -/
theorem C72_iterate (start stop : BitVec 64) :
    (iterate start stop).map BitVec.toInt =
      (List.range (stop.toInt - start.toInt).toNat).map (fun (k : Nat) => start.toInt + k) :=
  iterateGo_eq stop _ start (by omega)

/-- **C72.** `slice x 1 -1` of the text of a string option gives the string without its quotes, also if it is empty. -/
theorem C72_unquote (s : Str) : slice ('"' :: s ++ ['"']) [1, -1] = some s := by
  simp only [slice, List.length_cons, List.length_append, List.length_nil, List.cons_append]
  rw [if_neg (by simp)]
  simp only [show ¬ ((1 : Int) < 0) by decide, if_false, show ((-1 : Int) ≤ 0) by decide, if_true]
  rw [if_pos (by omega)]
  have : (((s.length + (0 + 1) + 1 : Nat) : Int) + -1).toNat = s.length + 1 := by omega
  rw [this]
  simp

/-! Concrete cases -/

/-- Two of three empty lines in a row keep no blanks, the second does. -/
example : indentSpace "if x:\n    y\n\nz".toList 4 = "    if x:\n        y\n\n    z".toList ∧
    indentSpace "a\n\n\n\nb  ".toList 2 = "  a\n\n  \n\n  b".toList ∧
    indentSpaceNoFirst "a\nb\n".toList 4 = "a\n    b\n".toList ∧
    indentTab "a\n\nb".toList 1 = "\ta\n\n\tb".toList := by decide +kernel

example : codeLines ' ' (indentSpace "if x:\n    y\n\nz".toList 4) =
    ["    if x:".toList, "        y".toList, "    z".toList] := by
  rw [indentSpace, C72_content ' ' (by decide)]; decide +kernel

example : dedent8 "a\n        b\n            c".toList = "a\nb\n    c".toList :=
  C72_dedent "a".toList ["b".toList, "    c".toList] (by decide) (by decide)

example : (iterate 0#64 3#64).map BitVec.toInt = [0, 1, 2] := by rw [C72_iterate]; decide +kernel

/-- Blanks that were meant to vanish stay in every second of several empty lines. -/
theorem C72_blank_counterexample :
    ∃ v : Str, (∀ l ∈ splitOn '\n' v, ∀ i, l ≠ i ++ [' ']) ∧ [' ', '\n'] <:+: indentSpace v 4 :=
  ⟨"a\n\n\nb".toList, by
    constructor
    · intro l hl i e
      have : ∀ l ∈ splitOn '\n' "a\n\n\nb".toList, l.getLast? ≠ some ' ' := by decide +kernel
      exact this l hl (by rw [e]; simp)
    · exact ⟨"    a\n\n   ".toList, "    b".toList, by decide +kernel⟩⟩

end Bubbler
