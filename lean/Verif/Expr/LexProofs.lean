import Verif.Expr.Read

/-
Cutting into tokens is unambiguous, and the texts the printers write are cut where they should be.
-/
namespace Bubbler.Ex
open Num

/-- Every symbol is nonempty and has neither word characters nor spaces. -/
def symsOk (syms : List Str) : Bool :=
  syms.all fun o => !o.isEmpty && o.all fun c => !isWord c && c != ' '

theorem symsOk_mem {syms : List Str} (h : symsOk syms = true) {o : Str} (ho : o ∈ syms) :
    o ≠ [] ∧ ∀ c ∈ o, isWord c = false ∧ c ≠ ' ' := by
  have := List.all_eq_true.mp h o ho
  simp only [Bool.and_eq_true, Bool.not_eq_true', List.isEmpty_eq_false_iff, List.all_eq_true, bne_iff_ne, ne_eq] at this
  exact ⟨this.1, fun c hc => this.2 c hc⟩

theorem append_word_unique {w w' s s' : Str} (hw : ∀ c ∈ w, isWord c = true) (hw' : ∀ c ∈ w', isWord c = true)
    (hs : ∀ c, s.head? = some c → isWord c = false) (hs' : ∀ c, s'.head? = some c → isWord c = false)
    (h : w ++ s = w' ++ s') : w = w' ∧ s = s' := by
  induction w generalizing w' with
  | nil =>
    cases w' with
    | nil => exact ⟨rfl, by simpa using h⟩
    | cons c w' =>
      simp only [List.nil_append, List.cons_append] at h
      have := hs c (by rw [h]; rfl)
      rw [hw' c (by simp)] at this; cases this
  | cons c w ih =>
    cases w' with
    | nil =>
      simp only [List.nil_append, List.cons_append] at h
      have := hs' c (by rw [← h]; rfl)
      rw [hw c (by simp)] at this; cases this
    | cons c' w' =>
      simp only [List.cons_append, List.cons.injEq] at h
      obtain ⟨rfl, h⟩ := h
      obtain ⟨rfl, rfl⟩ := ih (fun c hc => hw c (by simp [hc])) (fun c hc => hw' c (by simp [hc])) h
      exact ⟨rfl, rfl⟩

/-- A text can be cut in only one way. -/
theorem Lexes.unique {syms : List Str} (hs : symsOk syms = true) {s : Str} {ts ts' : List Tok}
    (h : Lexes syms s ts) (h' : Lexes syms s ts') : ts = ts' := by
  induction h generalizing ts' with
  | nil =>
    generalize hg : ([] : Str) = s at h'
    cases h' with
    | nil => rfl
    | space => cases hg
    | word a => exact absurd (List.append_eq_nil_iff.mp hg.symm).1 a
    | sym a => exact absurd (List.append_eq_nil_iff.mp hg.symm).1 (symsOk_mem hs a).1
  | @space s ts h ih =>
    generalize hg : ' ' :: s = s' at h'
    cases h' with
    | nil => cases hg
    | space h' => cases hg; exact ih h'
    | @word w _ _ a b =>
      cases w with
      | nil => exact absurd rfl a
      | cons c w => cases hg; exact absurd (b ' ' (by simp)) (by decide)
    | @sym o _ _ a =>
      cases o with
      | nil => exact absurd rfl (symsOk_mem hs a).1
      | cons c w => cases hg; exact absurd rfl ((symsOk_mem hs a).2 ' ' (by simp)).2
  | @word w s ts a b c h ih =>
    generalize hg : w ++ s = s' at h'
    cases h' with
    | nil => exact absurd (List.append_eq_nil_iff.mp hg).1 a
    | space h' =>
      cases w with
      | nil => exact absurd rfl a
      | cons c w => cases hg; exact absurd (b ' ' (by simp)) (by decide)
    | word a' b' c' h' =>
      obtain ⟨rfl, rfl⟩ := append_word_unique b b' c c' hg
      rw [ih h']
    | @sym o _ _ a' =>
      cases w with
      | nil => exact absurd rfl a
      | cons c w =>
        cases o with
        | nil => exact absurd rfl (symsOk_mem hs a').1
        | cons c' o =>
          simp only [List.cons_append, List.cons.injEq] at hg
          obtain ⟨rfl, _⟩ := hg
          have := ((symsOk_mem hs a').2 c (by simp)).1
          rw [b c (by simp)] at this; cases this
  | @sym o s ts a b h ih =>
    generalize hg : o ++ s = s' at h'
    cases h' with
    | nil => exact absurd (List.append_eq_nil_iff.mp hg).1 (symsOk_mem hs a).1
    | space h' =>
      cases o with
      | nil => exact absurd rfl (symsOk_mem hs a).1
      | cons c w => cases hg; exact absurd rfl ((symsOk_mem hs a).2 ' ' (by simp)).2
    | @word w _ _ a' b' =>
      cases o with
      | nil => exact absurd rfl (symsOk_mem hs a).1
      | cons c o =>
        cases w with
        | nil => exact absurd rfl a'
        | cons c' w =>
          simp only [List.cons_append, List.cons.injEq] at hg
          obtain ⟨rfl, _⟩ := hg
          have := ((symsOk_mem hs a).2 c (by simp)).1
          rw [b' c (by simp)] at this; cases this
    | @sym o' s' _ a' b' h' =>
      have l1 := b o' a' (by rw [hg]; exact List.prefix_append _ _)
      have l2 := b' o a (by rw [← hg]; exact List.prefix_append _ _)
      have hl : o.length = o'.length := by omega
      obtain ⟨rfl, rfl⟩ := List.append_inj hg hl
      rw [ih h']

/-- Some symbol goes on after `o` with the character `c`. -/
def canExt (syms : List Str) (o : Str) (c : Char) : Bool := syms.any fun o' => (o ++ [c]).isPrefixOf o'

theorem Lexes.sym' {syms : List Str} {o s : Str} {ts : List Tok} (ho : o ∈ syms)
    (hc : ∀ c, s.head? = some c → canExt syms o c = false) (h : Lexes syms s ts) : Lexes syms (o ++ s) (.op o :: ts) := by
  refine .sym ho (fun o' ho' hp => ?_) h
  cases Nat.lt_or_ge o.length o'.length with
  | inr h => exact h
  | inl hlt =>
    exfalso
    obtain ⟨t, ht⟩ := hp
    have hp2 : o <+: o' := List.prefix_of_prefix_length_le (l₃ := o ++ s) (List.prefix_append _ _) ⟨t, ht⟩ (by omega)
    obtain ⟨u, rfl⟩ := hp2
    cases u with
    | nil => simp at hlt
    | cons c u =>
      have hs : s = c :: (u ++ t) := by
        rw [List.append_assoc] at ht
        have := List.append_cancel_left ht
        simpa using this.symm
      have := hc c (by rw [hs]; rfl)
      have hany : canExt syms o c = true := by
        refine List.any_eq_true.mpr ⟨_, ho', ?_⟩
        rw [List.isPrefixOf_iff_prefix]
        exact ⟨u, by simp⟩
      rw [hany] at this; cases this

theorem canExt_space {syms : List Str} (hs : symsOk syms = true) (o : Str) : canExt syms o ' ' = false := by
  cases h : canExt syms o ' ' with
  | false => rfl
  | true =>
    obtain ⟨o', h1, h2⟩ := List.any_eq_true.mp h
    rw [List.isPrefixOf_iff_prefix] at h2
    obtain ⟨u, rfl⟩ := h2
    exact absurd rfl ((symsOk_mem hs h1).2 ' ' (by simp)).2

theorem canExt_word {syms : List Str} (hs : symsOk syms = true) (o : Str) {c : Char} (hc : isWord c = true) :
    canExt syms o c = false := by
  cases h : canExt syms o c with
  | false => rfl
  | true =>
    obtain ⟨o', h1, h2⟩ := List.any_eq_true.mp h
    rw [List.isPrefixOf_iff_prefix] at h2
    obtain ⟨u, rfl⟩ := h2
    have := ((symsOk_mem hs h1).2 c (by simp)).1
    rw [hc] at this; cases this

/-- Symbols no longer symbol begins with. -/
def closedSym (syms : List Str) (o : Str) : Bool := decide (o ∈ syms) && syms.all fun o' => !o.isPrefixOf o' || decide (o' = o)

theorem Lexes.closed {syms : List Str} {o s : Str} {ts : List Tok} (ho : closedSym syms o = true)
    (h : Lexes syms s ts) : Lexes syms (o ++ s) (.op o :: ts) := by
  simp only [closedSym, Bool.and_eq_true, decide_eq_true_eq, List.all_eq_true] at ho
  refine .sym' ho.1 (fun c _ => ?_) h
  cases h : canExt syms o c with
  | false => rfl
  | true =>
    obtain ⟨o', h1, h2⟩ := List.any_eq_true.mp h
    rw [List.isPrefixOf_iff_prefix] at h2
    obtain ⟨u, rfl⟩ := h2
    have := ho.2 _ h1
    simp only [List.append_assoc, List.singleton_append, Bool.or_eq_true, Bool.not_eq_true', decide_eq_true_eq] at this
    rcases this with h | h
    · rw [← Bool.not_eq_true, List.isPrefixOf_iff_prefix] at h
      exact absurd (List.prefix_append _ _) h
    · have := congrArg List.length h
      simp at this

theorem Lexes.word' {syms : List Str} {w s : Str} {ts : List Tok} (h1 : w ≠ []) (h2 : w.all isWord = true)
    (h3 : ∀ c, s.head? = some c → isWord c = false) (h : Lexes syms s ts) : Lexes syms (w ++ s) (.word w :: ts) :=
  .word h1 (List.all_eq_true.mp h2) h3 h

end Bubbler.Ex
