import Verif.Util.Text

set_option linter.unusedSimpArgs false
namespace Bubbler.Text

theorem splitOn_ne_nil (sep : Char) : ∀ s, splitOn sep s ≠ []
  | [] => by simp [splitOn]
  | c :: cs => by
    simp only [splitOn]
    split
    · simp
    · cases h : splitOn sep cs <;> simp

theorem join_split (sep : Char) : ∀ s, joinOn sep (splitOn sep s) = s
  | [] => rfl
  | c :: cs => by
    have ih := join_split sep cs
    simp only [splitOn]
    split
    · rename_i h; subst h
      cases hs : splitOn c cs with
      | nil => exact absurd hs (splitOn_ne_nil c cs)
      | cons l ls => rw [hs] at ih; simp only [joinOn, List.nil_append, ih]
    · cases hs : splitOn sep cs with
      | nil => exact absurd hs (splitOn_ne_nil sep cs)
      | cons l ls =>
        rw [hs] at ih
        cases ls with
        | nil => simp only [joinOn] at ih ⊢; rw [ih]
        | cons l2 ls => simp only [joinOn, List.cons_append] at ih ⊢; rw [ih]

theorem split_no_sep (sep : Char) : ∀ s, ∀ l ∈ splitOn sep s, sep ∉ l
  | [] => by simp [splitOn]
  | c :: cs => by
    have ih := split_no_sep sep cs
    simp only [splitOn]
    split
    · intro l hl
      rcases List.mem_cons.mp hl with e | hl
      · subst e; simp
      · exact ih l hl
    · rename_i hc
      cases hs : splitOn sep cs with
      | nil => exact absurd hs (splitOn_ne_nil sep cs)
      | cons l ls =>
        rw [hs] at ih
        intro l' hl'
        rcases List.mem_cons.mp hl' with e | hl'
        · subst e
          simp only [List.mem_cons, not_or]
          exact ⟨fun e => hc e.symm, ih l (by simp)⟩
        · exact ih l' (by simp [hl'])

theorem splitOn_append (sep : Char) : ∀ (l : Str) (s : Str), sep ∉ l → splitOn sep (l ++ sep :: s) = l :: splitOn sep s
  | [], s, _ => by simp [splitOn]
  | c :: cs, s, h => by
    simp only [List.mem_cons, not_or] at h
    simp only [List.cons_append, splitOn]
    rw [if_neg (fun e => h.1 e.symm), splitOn_append sep cs s h.2]

theorem splitOn_single (sep : Char) : ∀ (l : Str), sep ∉ l → splitOn sep l = [l]
  | [], _ => rfl
  | c :: cs, h => by
    simp only [List.mem_cons, not_or] at h
    simp only [splitOn]
    rw [if_neg (fun e => h.1 e.symm), splitOn_single sep cs h.2]

theorem split_join (sep : Char) : ∀ (ls : List Str), ls ≠ [] → (∀ l ∈ ls, sep ∉ l) → splitOn sep (joinOn sep ls) = ls
  | [], h, _ => absurd rfl h
  | [l], _, h => by simp only [joinOn]; exact splitOn_single sep l (h l (by simp))
  | l :: l2 :: ls, _, h => by
    simp only [joinOn]
    rw [splitOn_append sep l _ (h l (by simp)), split_join sep (l2 :: ls) (by simp) (fun x hx => h x (by simp [hx]))]

theorem joinOn_append (sep : Char) : ∀ (a b : List Str), a ≠ [] → b ≠ [] → joinOn sep (a ++ b) = joinOn sep a ++ sep :: joinOn sep b
  | [], _, h, _ => absurd rfl h
  | [l], b, _, hb => by
    cases b with
    | nil => exact absurd rfl hb
    | cons x xs => simp [joinOn]
  | l :: l2 :: ls, b, _, hb => by
    have := joinOn_append sep (l2 :: ls) b (by simp) hb
    simp only [List.cons_append] at this
    simp only [List.cons_append, joinOn, this, List.append_assoc]

/-! ### trimRight -/

theorem trimRight_append_pos {p : Char → Bool} (s : Str) (c : Char) (h : p c = true) : trimRight p (s ++ [c]) = trimRight p s := by
  simp [trimRight, h]
theorem trimRight_append_neg {p : Char → Bool} (s : Str) (c : Char) (h : p c = false) : trimRight p (s ++ [c]) = s ++ [c] := by
  simp [trimRight, h]
theorem trimRight_nil {p : Char → Bool} : trimRight p [] = [] := rfl

theorem exists_snoc {α : Type} (l : List α) (h : l ≠ []) : ∃ i x, l = i ++ [x] :=
  ⟨l.dropLast, l.getLast h, (List.dropLast_concat_getLast h).symm⟩

theorem snoc_induction {α : Type} {P : List α → Prop} (h0 : P []) (h1 : ∀ l x, P l → P (l ++ [x])) (l : List α) : P l := by
  have : ∀ n, ∀ l : List α, l.length = n → P l := by
    intro n
    induction n with
    | zero => intro l hl; rw [List.length_eq_zero_iff] at hl; subst hl; exact h0
    | succ n ih =>
      intro l hl
      obtain ⟨i, x, e⟩ := exists_snoc l (by intro e; subst e; simp at hl)
      subst e
      exact h1 i x (ih i (by simpa using hl))
  exact this l.length l rfl

/-- A trimmed string does not end in a trimmed character; it is a prefix, and only such characters are cut. -/
theorem trimRight_spec (p : Char → Bool) (s : Str) :
    (∀ i x, trimRight p s = i ++ [x] → p x = false) ∧ ∃ t, s = trimRight p s ++ t ∧ ∀ c ∈ t, p c = true := by
  induction s using snoc_induction with
  | h0 => exact ⟨by intro i x h; rw [trimRight_nil] at h; simp at h, [], by simp [trimRight_nil]⟩
  | h1 l x ih =>
    cases hx : p x
    · rw [trimRight_append_neg l x hx]
      refine ⟨fun i y h => ?_, [], by simp⟩
      have := List.append_inj' h rfl
      simp only [List.cons.injEq, and_true] at this
      rw [← this.2]; exact hx
    · rw [trimRight_append_pos l x hx]
      obtain ⟨h1, t, e, h2⟩ := ih
      refine ⟨h1, t ++ [x], by rw [← List.append_assoc, ← e], ?_⟩
      intro c hc
      rcases List.mem_append.mp hc with hc | hc
      · exact h2 c hc
      · simp only [List.mem_singleton] at hc; subst hc; exact hx

theorem trimRight_id {p : Char → Bool} {s : Str} (h : ∀ i x, s = i ++ [x] → p x = false) : trimRight p s = s := by
  by_cases hs : s = []
  · subst hs; rfl
  · obtain ⟨i, x, e⟩ := exists_snoc s hs
    rw [e]; exact trimRight_append_neg i x (h i x e)

theorem trimRight_mem {p : Char → Bool} {s : Str} {c : Char} (h : c ∈ trimRight p s) : c ∈ s := by
  obtain ⟨_, t, e, _⟩ := trimRight_spec p s
  rw [e]; exact List.mem_append_left _ h

/-- Cutting trailing separators of a joined text is dropping trailing empty parts. -/
def dropBlank (ls : List Str) : List Str := (ls.reverse.dropWhile (· = [])).reverse

theorem dropBlank_snoc_nil (ls : List Str) : dropBlank (ls ++ [[]]) = dropBlank ls := by simp [dropBlank]
theorem dropBlank_snoc (ls : List Str) (l : Str) (h : l ≠ []) : dropBlank (ls ++ [l]) = ls ++ [l] := by simp [dropBlank, h]

theorem dropBlank_spec (ls : List Str) : (∀ i x, dropBlank ls = i ++ [x] → x ≠ []) ∧
    ∃ t, ls = dropBlank ls ++ t ∧ ∀ l ∈ t, l = [] := by
  induction ls using snoc_induction with
  | h0 => exact ⟨by intro i x h; simp [dropBlank] at h, [], by simp [dropBlank]⟩
  | h1 l x ih =>
    by_cases hx : x = []
    · subst hx
      rw [dropBlank_snoc_nil]
      obtain ⟨h1, t, e, h2⟩ := ih
      refine ⟨h1, t ++ [[]], by rw [← List.append_assoc, ← e], ?_⟩
      intro c hc
      rcases List.mem_append.mp hc with hc | hc
      · exact h2 c hc
      · simpa using hc
    · rw [dropBlank_snoc l x hx]
      refine ⟨fun i y h => ?_, [], by simp⟩
      have := List.append_inj' h rfl
      simp only [List.cons.injEq, and_true] at this
      rw [← this.2]; exact hx

theorem trim_join (sep : Char) (ls : List Str) (h : ∀ l ∈ ls, sep ∉ l) :
    trimRight (fun c => c = sep) (joinOn sep ls) = joinOn sep (dropBlank ls) := by
  induction ls using snoc_induction with
  | h0 => rfl
  | h1 l x ih =>
    have ih := ih (fun a ha => h a (by simp [ha]))
    by_cases hx : x = []
    · subst hx
      rw [dropBlank_snoc_nil, ← ih]
      by_cases hl : l = []
      · subst hl; rfl
      · rw [joinOn_append sep l [[]] hl (by simp)]
        exact trimRight_append_pos _ _ (by simp)
    · rw [dropBlank_snoc l x hx]
      apply trimRight_id
      intro i c e
      obtain ⟨xi, xc, ex⟩ := exists_snoc x hx
      have hlast : ∃ j, joinOn sep (l ++ [x]) = j ++ [xc] := by
        by_cases hl : l = []
        · subst hl; exact ⟨xi, by simp [joinOn, ex]⟩
        · rw [joinOn_append sep l [x] hl (by simp)]
          exact ⟨joinOn sep l ++ sep :: xi, by simp [joinOn, ex]⟩
      obtain ⟨j, hj⟩ := hlast
      rw [hj] at e
      have := List.append_inj' e rfl
      simp only [List.cons.injEq, and_true] at this
      have hc : sep ∉ x := h x (by simp)
      simp only [decide_eq_false_iff_not]
      rw [← this.2]
      intro e2
      apply hc; rw [ex, ← e2]; simp

/-! ### squeeze -/

def isPad (c : Char) : Bool := c = ' ' || c = '\t'

/-- At most two blank lines in a row, when `k` blank lines come before. -/
def Ok : Nat → List Str → Prop
  | _, [] => True
  | k, l :: ls => if l = [] then k + 1 ≤ 2 ∧ Ok (k + 1) ls else Ok 0 ls

theorem Ok_mono : ∀ {ls : List Str} {k k' : Nat}, k' ≤ k → Ok k ls → Ok k' ls
  | [], _, _, _, _ => trivial
  | l :: ls, k, k', hk, h => by
    simp only [Ok] at h ⊢
    split
    · rename_i e; rw [if_pos e] at h; exact ⟨by omega, Ok_mono (by omega) h.2⟩
    · rename_i e; rw [if_neg e] at h; exact h

theorem squeeze_ok : ∀ (ls : List Str) (k : Nat), Ok k (squeeze k ls)
  | [], _ => trivial
  | l :: ls, k => by
    simp only [squeeze]
    split
    · split
      · exact Ok_mono (by omega) (squeeze_ok ls (k + 1))
      · rename_i e _
        simp only [Ok]; rw [if_pos e]
        exact ⟨by omega, squeeze_ok ls (k + 1)⟩
    · rename_i e
      simp only [Ok]; rw [if_neg e]
      exact squeeze_ok ls 0

theorem squeeze_fix : ∀ (ls : List Str) (k : Nat), Ok k ls → (∀ l ∈ ls, trimRight (fun c => c = ' ' || c = '\t') l = l) →
    squeeze k ls = ls
  | [], _, _, _ => rfl
  | l :: ls, k, h, ht => by
    simp only [squeeze]
    rw [ht l (by simp)]
    simp only [Ok] at h
    have ht' : ∀ x ∈ ls, trimRight (fun c => c = ' ' || c = '\t') x = x := fun x hx => ht x (by simp [hx])
    split
    · rename_i e; rw [if_pos e] at h
      rw [if_neg (by omega), squeeze_fix ls _ h.2 ht']
    · rename_i e; rw [if_neg e] at h
      rw [squeeze_fix ls _ h ht']

theorem squeeze_mem : ∀ (ls : List Str) (k : Nat) (l : Str), l ∈ squeeze k ls → ∃ l0 ∈ ls, l = trimRight (fun c => c = ' ' || c = '\t') l0
  | [], _, _, h => by simp [squeeze] at h
  | x :: xs, k, l, h => by
    simp only [squeeze] at h
    have key : ∀ k', l ∈ squeeze k' xs → ∃ l0 ∈ x :: xs, l = trimRight (fun c => c = ' ' || c = '\t') l0 := by
      intro k' h
      obtain ⟨l0, h1, h2⟩ := squeeze_mem xs k' l h
      exact ⟨l0, by simp [h1], h2⟩
    split at h
    · split at h
      · exact key _ h
      · rcases List.mem_cons.mp h with e | h
        · exact ⟨x, by simp, e⟩
        · exact key _ h
    · rcases List.mem_cons.mp h with e | h
      · exact ⟨x, by simp, e⟩
      · exact key _ h

/-- The non-blank lines are exactly the trimmed non-blank lines of the input, in order. -/
theorem squeeze_nonblank : ∀ (ls : List Str) (k : Nat),
    (squeeze k ls).filter (· ≠ []) = (ls.map (trimRight (fun c => c = ' ' || c = '\t'))).filter (· ≠ [])
  | [], _ => rfl
  | x :: xs, k => by
    simp only [squeeze, List.map_cons]
    split
    · rename_i e
      rw [List.filter_cons_of_neg (by simp [e])]
      split
      · exact squeeze_nonblank xs _
      · rw [List.filter_cons_of_neg (by simp [e])]; exact squeeze_nonblank xs _
    · rename_i e
      rw [List.filter_cons_of_pos (by simp [e]), List.filter_cons_of_pos (by simp [e]), squeeze_nonblank xs 0]

theorem Ok_append_left : ∀ (a b : List Str) (k : Nat), Ok k (a ++ b) → Ok k a
  | [], _, _, _ => trivial
  | l :: ls, b, k, h => by
    simp only [List.cons_append, Ok] at h ⊢
    split
    · rename_i e; rw [if_pos e] at h; exact ⟨h.1, Ok_append_left ls b _ h.2⟩
    · rename_i e; rw [if_neg e] at h; exact Ok_append_left ls b _ h

theorem Ok_append_right : ∀ (a b : List Str) (k : Nat), Ok k (a ++ b) → Ok 0 b
  | [], b, k, h => Ok_mono (Nat.zero_le k) h
  | l :: ls, b, k, h => by
    simp only [List.cons_append, Ok] at h
    split at h
    · exact Ok_append_right ls b _ h.2
    · exact Ok_append_right ls b _ h

theorem Ok_no_three (ls : List Str) (h : Ok 0 ls) : ¬ [[], [], []] <:+: ls := by
  rintro ⟨s, t, e⟩
  rw [← e, List.append_assoc] at h
  have := Ok_append_right _ _ _ h
  simp [Ok] at this

/-- A list ending in a non-blank line can take one more blank line. -/
theorem Ok_snoc_nil : ∀ (ls : List Str) (l : Str) (k : Nat), l ≠ [] → Ok k (ls ++ [l]) → Ok k (ls ++ [l] ++ [[]])
  | [], l, k, hl, _ => by simp [Ok, hl]
  | x :: xs, l, k, hl, h => by
    simp only [List.cons_append, Ok] at h ⊢
    split
    · rename_i e; rw [if_pos e] at h; exact ⟨h.1, Ok_snoc_nil xs l _ hl h.2⟩
    · rename_i e; rw [if_neg e] at h; exact Ok_snoc_nil xs l _ hl h

theorem crlf_id (s : Str) (h : '\r' ∉ s) : crlf s = s := by
  induction s using crlf.induct with
  | case1 => rfl
  | case2 cs ih => simp at h
  | case3 c cs hne ih =>
    simp only [List.mem_cons, not_or] at h
    rw [crlf, ih h.2]
    exact hne

theorem crlf_mem (s : Str) (c : Char) (h : c ∈ crlf s) : c ∈ s := by
  induction s using crlf.induct with
  | case1 => simp [crlf] at h
  | case2 cs ih =>
    rw [crlf] at h
    rcases List.mem_cons.mp h with e | h
    · simp [e]
    · have := ih h; simp [this]
  | case3 c0 cs hne ih =>
    rw [crlf] at h
    · rcases List.mem_cons.mp h with e | h
      · simp [e]
      · have := ih h; simp [this]
    · exact hne

theorem untab_no_tab (s : Str) : '\t' ∉ untab s := by
  unfold untab
  intro h
  obtain ⟨c, _, hc⟩ := List.mem_flatMap.mp h
  split at hc
  · simp at hc
  · rename_i hne; simp only [List.mem_singleton] at hc; exact hne hc.symm

theorem untab_id : ∀ (s : Str), '\t' ∉ s → untab s = s
  | [], _ => rfl
  | c :: cs, h => by
    simp only [List.mem_cons, not_or] at h
    have := untab_id cs h.2
    unfold untab at this ⊢
    rw [List.flatMap_cons, this, if_neg (fun e => h.1 e.symm)]; rfl

theorem untab_mem {s : Str} {c : Char} (h : c ∈ untab s) : c ∈ s ∨ c = ' ' := by
  unfold untab at h
  obtain ⟨x, hx, hc⟩ := List.mem_flatMap.mp h
  split at hc
  · right; simpa using hc
  · left; simp only [List.mem_singleton] at hc; subst hc; exact hx

/-- The lines a text is normalised to (before the final newline). -/
def bodyLines (text : Str) : List Str := dropBlank (squeeze 0 (splitOn '\n' (untab (crlf text))))

theorem squeeze_no_nl (text : Str) : ∀ l ∈ squeeze 0 (splitOn '\n' text), '\n' ∉ l := by
  intro l hl
  obtain ⟨l0, h1, h2⟩ := squeeze_mem _ _ _ hl
  subst h2
  exact fun hm => split_no_sep '\n' _ l0 h1 (trimRight_mem hm)

theorem normalize_eq (text : Str) : normalize text = joinOn '\n' (bodyLines text) ++ ['\n'] := by
  unfold normalize bodyLines
  simp only
  rw [trim_join '\n' _ (squeeze_no_nl _)]

theorem bodyLines_sub (text : Str) : ∀ l ∈ bodyLines text, l ∈ squeeze 0 (splitOn '\n' (untab (crlf text))) := by
  intro l hl
  obtain ⟨_, t, e, _⟩ := dropBlank_spec (squeeze 0 (splitOn '\n' (untab (crlf text))))
  rw [e]; exact List.mem_append_left _ hl

theorem bodyLines_ok (text : Str) : Ok 0 (bodyLines text) := by
  obtain ⟨_, t, e, _⟩ := dropBlank_spec (squeeze 0 (splitOn '\n' (untab (crlf text))))
  have := squeeze_ok (splitOn '\n' (untab (crlf text))) 0
  rw [e] at this
  exact Ok_append_left _ _ _ this

theorem split_mem (sep : Char) {s : Str} {l : Str} {c : Char} (hl : l ∈ splitOn sep s) (hc : c ∈ l) : c ∈ s := by
  have : ∀ (ls : List Str), l ∈ ls → c ∈ joinOn sep ls := by
    intro ls
    induction ls with
    | nil => simp
    | cons x xs ih =>
      intro h
      cases xs with
      | nil => simp only [List.mem_singleton] at h; subst h; simpa [joinOn] using hc
      | cons y ys =>
        simp only [joinOn]
        rcases List.mem_cons.mp h with e | h
        · subst e; exact List.mem_append_left _ hc
        · exact List.mem_append_right _ (List.mem_cons_of_mem _ (ih h))
  rw [← join_split sep s]
  exact this _ hl

theorem bodyLines_chars (text : Str) : ∀ l ∈ bodyLines text, ∀ c ∈ l, c ≠ '\n' ∧ c ≠ '\t' ∧ (c ∈ text ∨ c = ' ') := by
  intro l hl c hc
  have h0 := bodyLines_sub text l hl
  obtain ⟨l0, h1, h2⟩ := squeeze_mem _ _ _ h0
  have hc0 : c ∈ l0 := by subst h2; exact trimRight_mem hc
  refine ⟨fun e => ?_, fun e => ?_, ?_⟩
  · subst e; exact squeeze_no_nl _ l h0 hc
  · subst e; exact untab_no_tab _ (split_mem '\n' h1 hc0)
  · rcases untab_mem (split_mem '\n' h1 hc0) with h | h
    · exact .inl (crlf_mem _ _ h)
    · exact .inr h

theorem bodyLines_trim (text : Str) : ∀ l ∈ bodyLines text, ∀ i x, l = i ++ [x] → x ≠ ' ' := by
  intro l hl i x e
  obtain ⟨l0, _, h2⟩ := squeeze_mem _ _ _ (bodyLines_sub text l hl)
  have := (trimRight_spec (fun c => c = ' ' || c = '\t') l0).1 i x (by rw [← h2]; exact e)
  intro hx; subst hx; simp at this

theorem split_normalize (text : Str) : splitOn '\n' (normalize text) =
    if bodyLines text = [] then [[], []] else bodyLines text ++ [[]] := by
  rw [normalize_eq]
  split
  · rename_i h; rw [h]; rfl
  · rename_i h
    have : joinOn '\n' (bodyLines text) ++ ['\n'] = joinOn '\n' (bodyLines text ++ [[]]) := by
      rw [joinOn_append '\n' _ [[]] h (by simp)]; rfl
    rw [this, split_join]
    · simp
    · intro l hl
      rcases List.mem_append.mp hl with hl | hl
      · exact fun hm => (bodyLines_chars text l hl _ hm).1 rfl
      · simp only [List.mem_singleton] at hl; subst hl; simp

theorem normalize_idem (text : Str) (h : '\r' ∉ text) : normalize (normalize text) = normalize text := by
  have hmem : ∀ c ∈ normalize text, c = '\n' ∨ (c ≠ '\t' ∧ (c ∈ text ∨ c = ' ')) := by
    intro c hc
    by_cases e : c = '\n'
    · exact .inl e
    · right
      have : ∃ l ∈ splitOn '\n' (normalize text), c ∈ l := by
        have hj := join_split '\n' (normalize text)
        rw [← hj] at hc
        generalize splitOn '\n' (normalize text) = ls at hc
        clear hj
        induction ls with
        | nil => simp [joinOn] at hc
        | cons x xs ih =>
          cases xs with
          | nil => exact ⟨x, by simp, by simpa [joinOn] using hc⟩
          | cons y ys =>
            simp only [joinOn] at hc
            rcases List.mem_append.mp hc with hc | hc
            · exact ⟨x, by simp, hc⟩
            · rcases List.mem_cons.mp hc with hc | hc
              · exact absurd hc e
              · obtain ⟨l, h1, h2⟩ := ih hc; exact ⟨l, by simp [h1], h2⟩
      obtain ⟨l, hl, hcl⟩ := this
      rw [split_normalize] at hl
      split at hl
      · simp at hl; subst hl; simp at hcl
      · rcases List.mem_append.mp hl with hl | hl
        · exact (bodyLines_chars text l hl c hcl).2
        · simp only [List.mem_singleton] at hl; subst hl; simp at hcl
  have h1 : '\r' ∉ normalize text := by
    intro hm
    rcases hmem _ hm with e | ⟨_, e | e⟩
    · exact absurd e (by decide)
    · exact h e
    · exact absurd e (by decide)
  have h2 : '\t' ∉ normalize text := by
    intro hm
    rcases hmem _ hm with e | ⟨e, _⟩
    · exact absurd e (by decide)
    · exact e rfl
  rw [normalize_eq (normalize text)]
  have : bodyLines (normalize text) = bodyLines text := by
    conv => lhs; unfold bodyLines
    rw [crlf_id _ h1, untab_id _ h2, split_normalize]
    split
    · rename_i e; rw [e]; decide
    · rename_i e
      have hd := dropBlank_spec (squeeze 0 (splitOn '\n' (untab (crlf text))))
      have hlast : ∀ i x, bodyLines text = i ++ [x] → x ≠ [] := hd.1
      obtain ⟨i, x, ex⟩ := exists_snoc (bodyLines text) e
      have hx := hlast i x ex
      rw [squeeze_fix]
      · rw [dropBlank_snoc_nil, ex, dropBlank_snoc i x hx]
      · rw [ex]
        exact Ok_snoc_nil i x 0 hx (by rw [← ex]; exact bodyLines_ok text)
      · intro l hl
        apply trimRight_id
        intro i c ec
        rcases List.mem_append.mp hl with hl | hl
        · have a1 := bodyLines_trim text l hl i c ec
          have a2 := (bodyLines_chars text l hl c (by rw [ec]; simp)).2.1
          simp [a1, a2]
        · simp only [List.mem_singleton] at hl; subst hl; simp at ec
  rw [this, ← normalize_eq]

end Bubbler.Text
