import Verif.Util.NameStyle
import Verif.Util.TextProofs

set_option linter.unusedSimpArgs false
namespace Bubbler.Name
open Text (splitOn joinOn split_join join_split splitOn_ne_nil split_no_sep)

/-! ### Characters -/

theorem upper_form {c : Char} (h : isUpper c = true) : ∃ n, n < 26 ∧ c = Char.ofNat (65 + n) := by
  simp only [isUpper, Bool.and_eq_true, decide_eq_true_eq] at h
  refine ⟨c.toNat - 65, by omega, ?_⟩
  rw [show 65 + (c.toNat - 65) = c.toNat by omega, Char.ofNat_toNat]

theorem lower_form {c : Char} (h : isLower c = true) : ∃ n, n < 26 ∧ c = Char.ofNat (97 + n) := by
  simp only [isLower, Bool.and_eq_true, decide_eq_true_eq] at h
  refine ⟨c.toNat - 97, by omega, ?_⟩
  rw [show 97 + (c.toNat - 97) = c.toNat by omega, Char.ofNat_toNat]

theorem upper_facts {c : Char} (h : isUpper c = true) :
    isLower (toLower c) = true ∧ isUpper (toLower c) = false ∧ toUpper (toLower c) = c ∧ toUpper c = c ∧
    toLower (toLower c) = toLower c ∧ isLower c = false ∧ isDigit c = false ∧ c ≠ '_' ∧ toLower c ≠ '_' ∧ toLower c ≠ '.' ∧
    isDigit (toLower c) = false := by
  obtain ⟨n, hn, rfl⟩ := upper_form h
  have : ∀ n < 26, let c := Char.ofNat (65 + n)
    isLower (toLower c) = true ∧ isUpper (toLower c) = false ∧ toUpper (toLower c) = c ∧ toUpper c = c ∧
    toLower (toLower c) = toLower c ∧ isLower c = false ∧ isDigit c = false ∧ c ≠ '_' ∧ toLower c ≠ '_' ∧ toLower c ≠ '.' ∧
    isDigit (toLower c) = false := by
    decide
  exact this n hn

theorem lower_facts {c : Char} (h : isLower c = true) :
    isUpper (toUpper c) = true ∧ isLower (toUpper c) = false ∧ toLower (toUpper c) = c ∧ toLower c = c ∧
    toUpper (toUpper c) = toUpper c ∧ isUpper c = false ∧ isDigit c = false ∧ c ≠ '_' ∧ toUpper c ≠ '_' ∧ toUpper c ≠ '.' := by
  obtain ⟨n, hn, rfl⟩ := lower_form h
  have : ∀ n < 26, let c := Char.ofNat (97 + n)
    isUpper (toUpper c) = true ∧ isLower (toUpper c) = false ∧ toLower (toUpper c) = c ∧ toLower c = c ∧
    toUpper (toUpper c) = toUpper c ∧ isUpper c = false ∧ isDigit c = false ∧ c ≠ '_' ∧ toUpper c ≠ '_' ∧ toUpper c ≠ '.' := by
    decide
  exact this n hn

theorem toLower_of_not {c : Char} (h : isUpper c = false) : toLower c = c := by simp [toLower, h]
theorem toUpper_of_not {c : Char} (h : isLower c = false) : toUpper c = c := by simp [toUpper, h]

/-- Equality up to the case of letters. -/
theorem toLower_toUpper (c : Char) : toLower (toUpper c) = toLower c := by
  cases h : isLower c
  · rw [toUpper_of_not h]
  · rw [(lower_facts h).2.2.1, (lower_facts h).2.2.2.1]

theorem toLower_toLower (c : Char) : toLower (toLower c) = toLower c := by
  cases h : isUpper c
  · rw [toLower_of_not h]; exact toLower_of_not h
  · exact (upper_facts h).2.2.2.2.1

theorem toUpper_toUpper (c : Char) : toUpper (toUpper c) = toUpper c := by
  cases h : isLower c
  · rw [toUpper_of_not h]; exact toUpper_of_not h
  · exact (lower_facts h).2.2.2.2.1

theorem toLower_ne_us {c : Char} (h : c ≠ '_') : toLower c ≠ '_' := by
  cases hu : isUpper c
  · rw [toLower_of_not hu]; exact h
  · exact (upper_facts hu).2.2.2.2.2.2.2.2.1

theorem toUpper_ne_us {c : Char} (h : c ≠ '_') : toUpper c ≠ '_' := by
  cases hu : isLower c
  · rw [toUpper_of_not hu]; exact h
  · exact (lower_facts hu).2.2.2.2.2.2.2.2.1

theorem toLower_ne_dot {c : Char} (h : c ≠ '.') : toLower c ≠ '.' := by
  cases hu : isUpper c
  · rw [toLower_of_not hu]; exact h
  · exact (upper_facts hu).2.2.2.2.2.2.2.2.2.1

theorem toUpper_ne_dot {c : Char} (h : c ≠ '.') : toUpper c ≠ '.' := by
  cases hu : isLower c
  · rw [toUpper_of_not hu]; exact h
  · exact (lower_facts hu).2.2.2.2.2.2.2.2.2

theorem toUpper_not_lower (c : Char) : isLower (toUpper c) = false := by
  cases hu : isLower c
  · rw [toUpper_of_not hu]; exact hu
  · exact (lower_facts hu).2.1

theorem toLower_not_upper (c : Char) : isUpper (toLower c) = false := by
  cases hu : isUpper c
  · rw [toLower_of_not hu]; exact hu
  · exact (upper_facts hu).2.1

/-! ### Underscores around a core -/

/-- `n` underscores -/
def us (n : Nat) : Str := List.replicate n '_'

/-- Neither starts nor ends with an underscore. -/
def Core (k : Str) : Prop := (∀ c t, k = c :: t → c ≠ '_') ∧ (∀ i x, k = i ++ [x] → x ≠ '_')

theorem cutPrefix_us (n : Nat) (k : Str) (h : ∀ c t, k = c :: t → c ≠ '_') : cutPrefix (us n ++ k) = (us n, k) := by
  induction n with
  | zero =>
    cases k with
    | nil => simp [us, cutPrefix]
    | cons c t => simp [us, cutPrefix, h c t rfl]
  | succ n ih =>
    simp only [us, List.replicate_succ, List.cons_append] at ih ⊢
    simp [cutPrefix, ih]

theorem us_reverse (n : Nat) : (us n).reverse = us n := by simp [us]

theorem cutSuffix_us (n : Nat) (k : Str) (h : ∀ i x, k = i ++ [x] → x ≠ '_') : cutSuffix (k ++ us n) = (k, us n) := by
  unfold cutSuffix
  have : (k ++ us n).reverse = us n ++ k.reverse := by simp [us_reverse]
  rw [this, cutPrefix_us]
  · simp [us_reverse]
  · intro c t e
    exact h t.reverse c (by have := congrArg List.reverse e; simpa using this)

/-- Every string is either underscores only or underscores around a non-empty core. -/
theorem decompose (s : Str) : (∃ n, s = us n) ∨ ∃ a k b, s = us a ++ k ++ us b ∧ k ≠ [] ∧ Core k := by
  have pre : ∀ s : Str, ∃ n k, s = us n ++ k ∧ ∀ c t, k = c :: t → c ≠ '_' := by
    intro s
    induction s with
    | nil => exact ⟨0, [], rfl, by intro c t h; cases h⟩
    | cons c s ih =>
      by_cases hc : c = '_'
      · obtain ⟨n, k, e, h⟩ := ih
        exact ⟨n + 1, k, by simp [us, List.replicate_succ, hc, e], h⟩
      · exact ⟨0, c :: s, rfl, by intro c' t e; cases e; exact hc⟩
  obtain ⟨a, r, e, h⟩ := pre s
  obtain ⟨b, k, e2, h2⟩ := pre r.reverse
  have er : r = k.reverse ++ us b := by
    have := congrArg List.reverse e2; simpa [us_reverse] using this
  by_cases hk : k = []
  · left
    subst hk
    refine ⟨a + b, ?_⟩
    rw [e, er]; simp [us, List.replicate_append_replicate]
  · right
    refine ⟨a, k.reverse, b, by rw [e, er, List.append_assoc], by simpa using hk, ?_, ?_⟩
    · intro c t ec
      exact h c (t ++ us b) (by rw [er, ec]; rfl)
    · intro i x ex
      exact h2 x i.reverse (by have := congrArg List.reverse ex; simpa using this)

/-- The three conversions on the core. -/
def pascalC (k : Str) : Str := pascalLoop (isAllUpper k) false true k
def camelC (k : Str) : Str := camelLoop (isAllUpper k) true false false k
def snakeC (low : Bool) (k : Str) : Str := snakeLoop low (isAllUpper k) true false false k

theorem trimUnderscore_id {k : Str} (h : ∀ c t, k = c :: t → c ≠ '_') : trimUnderscore k = k := by
  unfold trimUnderscore
  split
  · exact absurd rfl (h _ _ rfl)
  · rfl

theorem core_cut {k : Str} (h : Core k) (hk : k ≠ []) (a b : Nat) :
    cutPrefix (us a ++ k ++ us b) = (us a, k ++ us b) ∧ cutSuffix (k ++ us b) = (k, us b) := by
  refine ⟨?_, cutSuffix_us b k h.2⟩
  rw [List.append_assoc]
  apply cutPrefix_us
  intro c t e
  cases k with
  | nil => exact absurd rfl hk
  | cons x k =>
    simp only [List.cons_append, List.cons.injEq] at e
    exact h.1 c k (by rw [e.1])

theorem nonempty_len {a b : Nat} {k : Str} (hk : k ≠ []) : (us a ++ k ++ us b).length ≠ 0 := by
  have : 0 < k.length := List.length_pos_iff.mpr hk
  simp only [List.length_append]; omega

theorem pascal1_core {k : Str} (h : Core k) (hk : k ≠ []) (a b : Nat) :
    pascal1 (us a ++ k ++ us b) = us a ++ pascalC k ++ us b := by
  obtain ⟨h1, h2⟩ := core_cut h hk a b
  unfold pascal1
  rw [if_neg (nonempty_len hk)]
  simp only [h1, h2, trimUnderscore_id h.1, pascalC]

theorem camel1_core {k : Str} (h : Core k) (hk : k ≠ []) (a b : Nat) :
    camel1 (us a ++ k ++ us b) = us a ++ camelC k ++ us b := by
  obtain ⟨h1, h2⟩ := core_cut h hk a b
  unfold camel1
  rw [if_neg (nonempty_len hk)]
  simp only [h1, h2, camelC]

theorem snake1_core {k : Str} (low : Bool) (h : Core k) (hk : k ≠ []) (a b : Nat) :
    snake1 low (us a ++ k ++ us b) = us a ++ snakeC low k ++ us b := by
  obtain ⟨h1, h2⟩ := core_cut h hk a b
  unfold snake1
  rw [if_neg (nonempty_len hk)]
  simp only [h1, h2, snakeC]

theorem cut_us (n : Nat) : cutPrefix (us n) = (us n, []) ∧ cutSuffix [] = ([], []) := by
  have := cutPrefix_us n [] (by intro c t h; cases h)
  simp only [List.append_nil] at this
  exact ⟨this, rfl⟩

theorem pascal1_us (n : Nat) : pascal1 (us n) = us n := by
  unfold pascal1
  split
  · rfl
  · simp [(cut_us n).1, (cut_us n).2, pascalLoop, trimUnderscore]
theorem camel1_us (n : Nat) : camel1 (us n) = us n := by
  unfold camel1
  split
  · rfl
  · simp [(cut_us n).1, (cut_us n).2, camelLoop]
theorem snake1_us (low : Bool) (n : Nat) : snake1 low (us n) = us n := by
  unfold snake1
  split
  · rfl
  · simp [(cut_us n).1, (cut_us n).2, snakeLoop]

/-! ### The loops keep the letters -/

/-- Letters, digits and other characters up to case, without underscores. -/
def skel (s : Str) : Str := (s.filter (· ≠ '_')).map toLower

theorem skel_append (a b : Str) : skel (a ++ b) = skel a ++ skel b := by simp [skel]
theorem skel_nil : skel [] = [] := rfl
theorem skel_us (n : Nat) : skel (us n) = [] := by simp [skel, us]
theorem skel_cons_us (s : Str) : skel ('_' :: s) = skel s := by simp [skel]
theorem skel_cons {c : Char} (h : c ≠ '_') (s : Str) : skel (c :: s) = toLower c :: skel s := by simp [skel, h]
theorem skel_lower {c : Char} (h : c ≠ '_') (s : Str) : skel (toLower c :: s) = toLower c :: skel s := by
  rw [skel_cons (toLower_ne_us h), toLower_toLower]
theorem skel_upper {c : Char} (h : c ≠ '_') (s : Str) : skel (toUpper c :: s) = toLower c :: skel s := by
  rw [skel_cons (toUpper_ne_us h), toLower_toUpper]

theorem pascalLoop_skel (a : Bool) : ∀ (s : Str) (up cap : Bool), skel (pascalLoop a up cap s) = skel s
  | [], _, _ => by simp [pascalLoop]
  | c :: s, up, cap => by
    unfold pascalLoop
    by_cases hc : c = '_'
    · rw [if_pos hc, pascalLoop_skel a s, hc, skel_cons_us]
    · rw [if_neg hc]
      split
      · rw [skel_upper hc, pascalLoop_skel a s, skel_cons hc]
      · split
        · rw [skel_lower hc, pascalLoop_skel a s, skel_cons hc]
        · rw [skel_cons hc, pascalLoop_skel a s, skel_cons hc]

theorem camelLoop_skel (a : Bool) : ∀ (s : Str) (f up cap : Bool), skel (camelLoop a f up cap s) = skel s
  | [], _, _, _ => by simp [camelLoop]
  | c :: s, f, up, cap => by
    unfold camelLoop
    by_cases hc : c = '_'
    · rw [if_pos hc, camelLoop_skel a s, hc, skel_cons_us]
    · rw [if_neg hc]
      split
      · rw [skel_lower hc, camelLoop_skel a s, skel_cons hc]
      · split
        · rw [skel_upper hc, camelLoop_skel a s, skel_cons hc]
        · split
          · rw [skel_lower hc, camelLoop_skel a s, skel_cons hc]
          · rw [skel_cons hc, camelLoop_skel a s, skel_cons hc]

theorem snakeLoop_skel (low a : Bool) : ∀ (s : Str) (f up u : Bool), skel (snakeLoop low a f up u s) = skel s
  | [], _, _, _ => by simp [snakeLoop]
  | c :: s, f, up, u => by
    unfold snakeLoop
    by_cases hc : c = '_'
    · rw [if_pos hc]
      split
      · rw [hc, skel_cons_us, snakeLoop_skel low a s, skel_cons_us]
      · rw [snakeLoop_skel low a s, hc, skel_cons_us]
    · rw [if_neg hc]
      have conv : ∀ t, skel ((if low then toLower c else toUpper c) :: t) = toLower c :: skel t := by
        intro t; split
        · exact skel_lower hc t
        · exact skel_upper hc t
      split
      · rw [conv, snakeLoop_skel low a s, skel_cons hc]
      · split
        · rw [skel_append, conv, snakeLoop_skel low a s, skel_cons hc]
          split <;> simp [skel]
        · have conv2 : ∀ t, skel ((if low then c else toUpper c) :: t) = toLower c :: skel t := by
            intro t; split
            · exact skel_cons hc t
            · exact skel_upper hc t
          rw [conv2, snakeLoop_skel low a s, skel_cons hc]

/-! ### The loops keep a core a core -/

theorem pascalLoop_no_us (a : Bool) : ∀ (s : Str) (up cap : Bool), '_' ∉ pascalLoop a up cap s
  | [], _, _ => by simp [pascalLoop]
  | c :: s, up, cap => by
    have ih := pascalLoop_no_us a s
    unfold pascalLoop
    by_cases hc : c = '_'
    · rw [if_pos hc]; exact ih _ _
    · rw [if_neg hc]
      split
      · simp [ih, (toUpper_ne_us hc).symm]
      · split
        · simp [ih, (toLower_ne_us hc).symm]
        · simp [ih, Ne.symm hc]

theorem camelLoop_no_us (a : Bool) : ∀ (s : Str) (f up cap : Bool), '_' ∉ camelLoop a f up cap s
  | [], _, _, _ => by simp [camelLoop]
  | c :: s, f, up, cap => by
    have ih := camelLoop_no_us a s
    unfold camelLoop
    by_cases hc : c = '_'
    · rw [if_pos hc]; exact ih _ _ _
    · rw [if_neg hc]
      split
      · simp [ih, (toLower_ne_us hc).symm]
      · split
        · simp [ih, (toUpper_ne_us hc).symm]
        · split
          · simp [ih, (toLower_ne_us hc).symm]
          · simp [ih, Ne.symm hc]

theorem core_of_no_us {k : Str} (h : '_' ∉ k) : Core k := by
  constructor
  · rintro c t rfl rfl; exact h (by simp)
  · rintro i x rfl rfl; exact h (by simp)

theorem ne_nil_of_skel {k k' : Str} (h : skel k' = skel k) (hk : k ≠ []) (hc : Core k) : k' ≠ [] := by
  rintro rfl
  cases k with
  | nil => exact hk rfl
  | cons c t => rw [skel_cons (hc.1 c t rfl)] at h; cases h

/-- With an extra final character that is not an underscore, the output ends with its conversion. -/
theorem snakeLoop_last (low a : Bool) (x : Char) (hx : x ≠ '_') : ∀ (s : Str) (f up u : Bool),
    ∃ t y, snakeLoop low a f up u (s ++ [x]) = t ++ [y] ∧ y ≠ '_'
  | [], f, up, u => by
    have hl := toLower_ne_us hx
    have hu := toUpper_ne_us hx
    simp only [List.nil_append]
    unfold snakeLoop
    rw [if_neg hx]
    split
    · exact ⟨[], _, rfl, by split <;> assumption⟩
    · split
      · exact ⟨_, _, rfl, by split <;> assumption⟩
      · exact ⟨[], _, rfl, by split <;> assumption⟩
  | c :: s, f, up, u => by
    have ih := snakeLoop_last low a x hx s
    simp only [List.cons_append]
    unfold snakeLoop
    by_cases hc : c = '_'
    · rw [if_pos hc]
      split
      · obtain ⟨t, y, e, h⟩ := ih false up true
        exact ⟨c :: t, y, by rw [e]; rfl, h⟩
      · exact ih _ _ _
    · rw [if_neg hc]
      split
      · obtain ⟨t, y, e, h⟩ := ih false (isUpper c) false
        exact ⟨_ :: t, y, by rw [e]; rfl, h⟩
      · split
        · obtain ⟨t, y, e, h⟩ := ih false true false
          exact ⟨_ ++ _ :: t, y, by rw [e]; simp; rfl, h⟩
        · obtain ⟨t, y, e, h⟩ := ih false false false
          exact ⟨_ :: t, y, by rw [e]; rfl, h⟩

theorem snakeC_core (low : Bool) {k : Str} (h : Core k) (hk : k ≠ []) : Core (snakeC low k) := by
  constructor
  · intro c t e
    unfold snakeC at e
    cases k with
    | nil => exact absurd rfl hk
    | cons d k =>
      have hd := h.1 d k rfl
      unfold snakeLoop at e
      rw [if_neg hd, if_pos rfl] at e
      simp only [List.cons.injEq] at e
      rw [← e.1]
      split
      · exact toLower_ne_us hd
      · exact toUpper_ne_us hd
  · obtain ⟨i, x, rfl⟩ := Text.exists_snoc k hk
    obtain ⟨t, y, e, hy⟩ := snakeLoop_last low (isAllUpper (i ++ [x])) x (h.2 i x rfl) i true false false
    intro i' x' e'
    unfold snakeC at e'
    rw [e] at e'
    have := List.append_inj_right' e' rfl
    simp only [List.cons.injEq, and_true] at this
    rw [← this]; exact hy

/-! ### Second application -/

theorem allUpperLoop_iff : ∀ (s : Str), allUpperLoop s = true ↔ ∀ c ∈ s, c = '_' ∨ isUpper c = true ∨ isDigit c = true
  | [] => by simp [allUpperLoop]
  | c :: s => by
    unfold allUpperLoop
    by_cases hc : c = '_'
    · rw [if_pos hc, allUpperLoop_iff s]; simp [hc]
    · rw [if_neg hc]
      cases hu : isUpper c <;> cases hd : isDigit c <;> simp [allUpperLoop_iff s, hc, hu, hd]

theorem isAllUpper_iff {s : Str} (hs : s ≠ []) : isAllUpper s = true ↔ ∀ c ∈ s, c = '_' ∨ isUpper c = true ∨ isDigit c = true := by
  unfold isAllUpper
  rw [if_neg (by simpa using hs)]
  exact allUpperLoop_iff s

/-- Snake: the output contains no upper-case letter. -/
theorem snakeLoop_no_upper (a : Bool) : ∀ (s : Str) (f up u : Bool), ∀ c ∈ snakeLoop true a f up u s, isUpper c = false
  | [], _, _, _ => by simp [snakeLoop]
  | d :: s, f, up, u => by
    have ih := snakeLoop_no_upper a s
    intro c hc
    unfold snakeLoop at hc
    by_cases hd : d = '_'
    · rw [if_pos hd] at hc
      split at hc
      · rcases List.mem_cons.mp hc with rfl | h
        · rw [hd]; rfl
        · exact ih _ _ _ c h
      · exact ih _ _ _ c hc
    · rw [if_neg hd] at hc
      split at hc
      · rcases List.mem_cons.mp hc with rfl | h
        · simp [toLower_not_upper]
        · exact ih _ _ _ c h
      · split at hc
        · rcases List.mem_append.mp hc with h | h
          · split at h <;> simp at h
            rw [h]; rfl
          · rcases List.mem_cons.mp h with rfl | h
            · simp [toLower_not_upper]
            · exact ih _ _ _ c h
        · rename_i hnu
          rcases List.mem_cons.mp hc with rfl | h
          · simpa using hnu
          · exact ih _ _ _ c h

/-- ALLCAP: the output contains no lower-case letter. -/
theorem snakeLoop_no_lower (a : Bool) : ∀ (s : Str) (f up u : Bool), ∀ c ∈ snakeLoop false a f up u s, isLower c = false
  | [], _, _, _ => by simp [snakeLoop]
  | d :: s, f, up, u => by
    have ih := snakeLoop_no_lower a s
    intro c hc
    unfold snakeLoop at hc
    by_cases hd : d = '_'
    · rw [if_pos hd] at hc
      split at hc
      · rcases List.mem_cons.mp hc with rfl | h
        · rw [hd]; rfl
        · exact ih _ _ _ c h
      · exact ih _ _ _ c hc
    · rw [if_neg hd] at hc
      split at hc
      · rcases List.mem_cons.mp hc with rfl | h
        · simp [toUpper_not_lower]
        · exact ih _ _ _ c h
      · split at hc
        · rcases List.mem_append.mp hc with h | h
          · split at h <;> simp at h
            rw [h]; rfl
          · rcases List.mem_cons.mp h with rfl | h
            · simp [toUpper_not_lower]
            · exact ih _ _ _ c h
        · rcases List.mem_cons.mp hc with rfl | h
          · simp [toUpper_not_lower]
          · exact ih _ _ _ c h

/-- The loop does nothing to its own output when run with the same flag, provided the output's letters already have the
right case: snake. -/
theorem snakeLoop_snake_fix (a b : Bool) : ∀ (s : Str) (f up u up' : Bool),
    snakeLoop true b f up' u (snakeLoop true a f up u s) = snakeLoop true a f up u s
  | [], f, up, u, up' => by simp [snakeLoop]
  | d :: s, f, up, u, up' => by
    have ih := snakeLoop_snake_fix a b s
    by_cases hd : d = '_'
    · subst hd
      rw [snakeLoop]
      simp only [if_true]
      cases u
      · simp only [Bool.not_false, if_true]
        rw [snakeLoop]
        simp only [if_true, Bool.not_false, ih]
      · simp only [Bool.not_true, Bool.false_eq_true, if_false]
        cases f
        · exact ih _ _ _ _
        · -- only reached at the first position after an underscore, which the callers exclude
          have := ih false up true up'
          have h2 : ∀ (t : Str), (∀ c r, t = c :: r → c ≠ '_' → isUpper c = false) →
              snakeLoop true b false up' true t = t → snakeLoop true b true up' true t = t := by
            intro t ht h
            cases t with
            | nil => simp [snakeLoop]
            | cons c r =>
              by_cases hc : c = '_'
              · subst hc
                rw [snakeLoop] at h ⊢
                simpa using h
              · have hcu := ht c r rfl hc
                rw [snakeLoop] at h ⊢
                simp only [hc, if_false, if_true, hcu, Bool.false_eq_true, toLower_of_not hcu] at h ⊢
                exact h
          apply h2 _ _ this
          intro c r e _
          exact snakeLoop_no_upper a s false up true c (by rw [e]; simp)
    · have hdl := toLower_ne_us hd
      rw [snakeLoop]
      rw [if_neg hd]
      cases f
      · simp only [Bool.false_eq_true, if_false]
        cases hu : isUpper d
        · simp only [Bool.false_eq_true, if_false, if_true]
          rw [snakeLoop]
          simp only [hd, hu, if_false, Bool.false_eq_true, if_true, ih]
        · simp only [if_true]
          split
          · rename_i hins
            simp only [Bool.and_eq_true, Bool.not_eq_true'] at hins
            simp only [List.singleton_append, List.cons_append, List.nil_append]
            rw [snakeLoop]
            simp only [hins.1, Bool.not_false, if_true]
            rw [snakeLoop]
            simp only [hdl, if_false, toLower_not_upper, Bool.false_eq_true, if_true, ih]
          · simp only [List.nil_append]
            rw [snakeLoop]
            simp only [hdl, if_false, toLower_not_upper, Bool.false_eq_true, if_true, ih]
      · simp only [if_true]
        rw [snakeLoop]
        simp only [hdl, if_false, if_true, toLower_toLower, ih]

/-- ALLCAP with the same flag is idempotent on strings without lower-case letters. -/
theorem snakeLoop_cap_fix (a : Bool) : ∀ (s : Str) (f up u : Bool), (∀ c ∈ s, isLower c = false) → (f = true → u = false) →
    snakeLoop false a f up u (snakeLoop false a f up u s) = snakeLoop false a f up u s
  | [], f, up, u, _, _ => by simp [snakeLoop]
  | d :: s, f, up, u, hl, hf => by
    have hls : ∀ c ∈ s, isLower c = false := fun c hc => hl c (by simp [hc])
    have hdl : isLower d = false := hl d (by simp)
    have ih := fun f up u => snakeLoop_cap_fix a s f up u hls
    by_cases hd : d = '_'
    · subst hd
      rw [snakeLoop]
      simp only [if_true]
      cases u
      · simp only [Bool.not_false, if_true]
        rw [snakeLoop]
        simp only [if_true, Bool.not_false]
        rw [ih false up true (by simp)]
      · simp only [Bool.not_true, Bool.false_eq_true, if_false]
        cases f
        · exact ih _ _ _ (by simp)
        · exact absurd (hf rfl) (by simp)
    · have hdu := toUpper_of_not hdl
      rw [snakeLoop]
      rw [if_neg hd]
      cases f
      · simp only [Bool.false_eq_true, if_false]
        cases hu : isUpper d
        · simp only [Bool.false_eq_true, if_false, if_true, hdu]
          rw [snakeLoop]
          simp only [hd, hu, if_false, Bool.false_eq_true, if_true, hdu]
          rw [ih false false false (by simp)]
        · simp only [if_true, hdu]
          split
          · rename_i hins
            simp only [Bool.and_eq_true, Bool.not_eq_true'] at hins
            simp only [List.singleton_append, List.cons_append, List.nil_append]
            rw [snakeLoop]
            simp only [hins.1, Bool.not_false, if_true]
            rw [snakeLoop]
            simp only [hd, if_false, hu, Bool.false_eq_true, if_true, hdu, Bool.not_true, Bool.false_and, List.nil_append]
            rw [ih false true false (by simp)]
          · rename_i hins
            simp only [List.nil_append]
            rw [snakeLoop]
            simp only [hd, if_false, hu, Bool.false_eq_true, if_true, hdu, hins, List.nil_append]
            rw [ih false true false (by simp)]
      · simp only [if_true, hdu, Bool.false_eq_true, if_false]
        rw [snakeLoop]
        simp only [hd, if_false, if_true, hdu, Bool.false_eq_true]
        rw [ih false _ false (by simp)]

theorem snakeLoop_mem_cap (a : Bool) : ∀ (s : Str) (f up u : Bool), (∀ c ∈ s, isLower c = false) →
    ∀ c, c ≠ '_' → (c ∈ snakeLoop false a f up u s ↔ c ∈ s)
  | [], _, _, _, _, c, _ => by simp [snakeLoop]
  | d :: s, f, up, u, hl, c, hc => by
    have ih := fun f up u => snakeLoop_mem_cap a s f up u (fun c hc => hl c (by simp [hc])) c hc
    have hdu := toUpper_of_not (hl d (by simp))
    unfold snakeLoop
    by_cases hd : d = '_'
    · subst hd
      simp only [if_true]
      split <;> simp [ih, hc]
    · simp only [hd, if_false, Bool.false_eq_true, hdu]
      split
      · simp [ih]
      · split
        · split <;> simp [ih, hc]
        · simp [ih]

theorem snakeC_cap_stable {k : Str} (h : Core k) (hk : k ≠ []) (hl : ∀ c ∈ k, isLower c = false) :
    snakeC false (snakeC false k) = snakeC false k := by
  have hk' : snakeC false k ≠ [] := ne_nil_of_skel (snakeLoop_skel _ _ _ _ _ _) hk h
  have e : isAllUpper (snakeC false k) = isAllUpper k := by
    rw [Bool.eq_iff_iff, isAllUpper_iff hk', isAllUpper_iff hk]
    constructor
    · intro H c hc
      by_cases hcu : c = '_'
      · exact Or.inl hcu
      · exact H c ((snakeLoop_mem_cap _ k _ _ _ hl c hcu).mpr hc)
    · intro H c hc
      by_cases hcu : c = '_'
      · exact Or.inl hcu
      · exact H c ((snakeLoop_mem_cap _ k _ _ _ hl c hcu).mp hc)
  show snakeLoop false (isAllUpper (snakeC false k)) true false false (snakeC false k) = snakeC false k
  rw [e]
  exact snakeLoop_cap_fix _ k true false false hl (by simp)

/-! Pascal -/

/-- Not all upper: the loop after the first character copies a string without underscores. -/
theorem pascalLoop_copy : ∀ (s : Str) (up : Bool), '_' ∉ s → pascalLoop false up false s = s
  | [], _, _ => by simp [pascalLoop]
  | c :: s, up, h => by
    have hc : c ≠ '_' := by rintro rfl; exact h (by simp)
    rw [pascalLoop]
    simp only [hc, if_false, Bool.false_and, Bool.false_eq_true]
    rw [pascalLoop_copy s _ (fun h' => h (by simp [h']))]

/-- All upper and no underscores: either nothing changes or a lower-case letter appears. -/
theorem pascalLoop_changes : ∀ (s : Str) (up : Bool), '_' ∉ s → (∀ c ∈ s, isLower c = false) →
    pascalLoop true up false s = s ∨ ∃ c ∈ pascalLoop true up false s, isLower c = true
  | [], _, _, _ => by simp [pascalLoop]
  | c :: s, up, h, hl => by
    have hc : c ≠ '_' := by rintro rfl; exact h (by simp)
    have ih := pascalLoop_changes s (isUpper c) (fun h' => h (by simp [h'])) (fun c hc => hl c (by simp [hc]))
    rw [pascalLoop]
    simp only [hc, if_false, Bool.true_and, Bool.false_eq_true]
    cases up
    · simp only [Bool.false_eq_true, if_false]
      rcases ih with e | ⟨d, hd, h2⟩
      · left; rw [e]
      · right; exact ⟨d, by simp [hd], h2⟩
    · simp only [if_true]
      cases hu : isUpper c
      · rw [toLower_of_not hu]
        rw [hu] at ih
        rcases ih with e | ⟨d, hd, h2⟩
        · left; rw [e]
        · right; exact ⟨d, by simp [hd], h2⟩
      · right
        exact ⟨toLower c, by simp, (upper_facts hu).1⟩

/-- The first character of the Pascal form is not lower case. -/
theorem pascalC_form {k : Str} (h : Core k) (hk : k ≠ []) :
    ∃ c r, pascalC k = c :: r ∧ isLower c = false ∧ '_' ∉ c :: r := by
  cases k with
  | nil => exact absurd rfl hk
  | cons d k =>
    have hd := h.1 d k rfl
    have hno := pascalLoop_no_us (isAllUpper (d :: k)) (d :: k) false true
    unfold pascalC
    rw [pascalLoop] at hno ⊢
    simp only [hd, if_false, if_true] at hno ⊢
    exact ⟨_, _, rfl, toUpper_not_lower d, hno⟩

theorem pascalC_not_all {c : Char} {r : Str} (hc : isLower c = false) (hu : '_' ∉ c :: r)
    (ha : isAllUpper (c :: r) = false) : pascalC (c :: r) = c :: r := by
  have h1 : c ≠ '_' := by rintro rfl; exact hu (by simp)
  unfold pascalC
  rw [ha, pascalLoop]
  simp only [h1, if_false, if_true, toUpper_of_not hc]
  rw [pascalLoop_copy r _ (fun h => hu (by simp [h]))]

theorem pascalC_cubed {k : Str} (h : Core k) (hk : k ≠ []) :
    pascalC (pascalC (pascalC k)) = pascalC (pascalC k) := by
  obtain ⟨c, r, e, hc, hu⟩ := pascalC_form h hk
  rw [e]
  cases ha : isAllUpper (c :: r)
  · rw [pascalC_not_all hc hu ha, pascalC_not_all hc hu ha]
  · -- all upper
    have hall := (isAllUpper_iff (by simp)).mp ha
    have hnl : ∀ d ∈ r, isLower d = false := by
      intro d hd
      rcases hall d (by simp [hd]) with h' | h' | h'
      · exact absurd (by rw [← h']; simp [hd]) hu
      · exact (upper_facts h').2.2.2.2.2.1
      · cases hl : isLower d
        · rfl
        · have := (lower_facts hl).2.2.2.2.2.2.1; rw [h'] at this; cases this
    have h1 : c ≠ '_' := by rintro rfl; exact hu (by simp)
    have hur : '_' ∉ r := fun h => hu (by simp [h])
    have e2 : pascalC (c :: r) = c :: pascalLoop true (isUpper c) false r := by
      unfold pascalC
      rw [ha, pascalLoop]
      simp only [h1, if_false, if_true, toUpper_of_not hc]
    rcases pascalLoop_changes r (isUpper c) hur hnl with e3 | ⟨d, hd, h2⟩
    · rw [e2, e3, e2, e3]
    · rw [e2]
      apply pascalC_not_all hc
      · have := pascalLoop_no_us true r (isUpper c) false
        simp [Ne.symm h1, this]
      · cases hb : isAllUpper (c :: pascalLoop true (isUpper c) false r)
        · rfl
        · have := (isAllUpper_iff (by simp)).mp hb d (by simp [hd])
          rcases this with h' | h' | h'
          · have := pascalLoop_no_us true r (isUpper c) false
            rw [h'] at hd; exact absurd hd this
          · have := (lower_facts h2).2.2.2.2.2.1; rw [h'] at this; cases this
          · have := (lower_facts h2).2.2.2.2.2.2.1; rw [h'] at this; cases this

/-! ### Dots -/

theorem pascalLoop_no_dot (a : Bool) : ∀ (s : Str) (up cap : Bool), '.' ∉ s → '.' ∉ pascalLoop a up cap s
  | [], _, _, _ => by simp [pascalLoop]
  | c :: s, up, cap, h => by
    have hc : c ≠ '.' := by rintro rfl; exact h (by simp)
    have ih := fun u v => pascalLoop_no_dot a s u v (fun h' => h (by simp [h']))
    unfold pascalLoop
    split
    · exact ih _ _
    · split
      · simp [ih, (toUpper_ne_dot hc).symm]
      · split
        · simp [ih, (toLower_ne_dot hc).symm]
        · simp [ih, hc.symm]

theorem camelLoop_no_dot (a : Bool) : ∀ (s : Str) (f up cap : Bool), '.' ∉ s → '.' ∉ camelLoop a f up cap s
  | [], _, _, _, _ => by simp [camelLoop]
  | c :: s, f, up, cap, h => by
    have hc : c ≠ '.' := by rintro rfl; exact h (by simp)
    have ih := fun f u v => camelLoop_no_dot a s f u v (fun h' => h (by simp [h']))
    unfold camelLoop
    split
    · exact ih _ _ _
    · split
      · simp [ih, (toLower_ne_dot hc).symm]
      · split
        · simp [ih, (toUpper_ne_dot hc).symm]
        · split
          · simp [ih, (toLower_ne_dot hc).symm]
          · simp [ih, hc.symm]

theorem snakeLoop_no_dot (low a : Bool) : ∀ (s : Str) (f up u : Bool), '.' ∉ s → '.' ∉ snakeLoop low a f up u s
  | [], _, _, _, _ => by simp [snakeLoop]
  | c :: s, f, up, u, h => by
    have hc : c ≠ '.' := by rintro rfl; exact h (by simp)
    have ih := fun f u v => snakeLoop_no_dot low a s f u v (fun h' => h (by simp [h']))
    have h1 := (toLower_ne_dot hc).symm
    have h2 := (toUpper_ne_dot hc).symm
    unfold snakeLoop
    split
    · split <;> simp [ih, hc.symm]
    · split
      · cases low <;> simp [ih, h1, h2]
      · split
        · cases low <;> split <;> simp [ih, h1, h2]
        · cases low <;> simp [ih, h2, hc.symm]

/-- A conversion of one segment in terms of its core. -/
structure Conv (f g : Str → Str) : Prop where
  us : ∀ n, f (us n) = us n
  core : ∀ {k : Str}, Core k → k ≠ [] → ∀ a b, f (Name.us a ++ k ++ Name.us b) = Name.us a ++ g k ++ Name.us b
  keep : ∀ {k : Str}, Core k → k ≠ [] → Core (g k)
  skel : ∀ k, skel (g k) = skel k
  dot : ∀ k, '.' ∉ k → '.' ∉ g k

theorem conv_pascal : Conv pascal1 pascalC :=
  ⟨pascal1_us, pascal1_core, fun _ _ => core_of_no_us (pascalLoop_no_us _ _ _ _), fun k => pascalLoop_skel _ k _ _,
    fun k h => pascalLoop_no_dot _ k _ _ h⟩
theorem conv_camel : Conv camel1 camelC :=
  ⟨camel1_us, camel1_core, fun _ _ => core_of_no_us (camelLoop_no_us _ _ _ _ _), fun k => camelLoop_skel _ k _ _ _,
    fun k h => camelLoop_no_dot _ k _ _ _ h⟩
theorem conv_snake (low : Bool) : Conv (snake1 low) (snakeC low) :=
  ⟨snake1_us low, snake1_core low, snakeC_core low, fun k => snakeLoop_skel _ _ k _ _ _,
    fun k h => snakeLoop_no_dot _ _ k _ _ _ h⟩

theorem us_no_dot (n : Nat) : '.' ∉ us n := by simp [us]

theorem Conv.seg_dot {f g : Str → Str} (h : Conv f g) (s : Str) (hs : '.' ∉ s) : '.' ∉ f s := by
  rcases decompose s with ⟨n, rfl⟩ | ⟨a, k, b, rfl, hk, hc⟩
  · rw [h.us]; exact us_no_dot n
  · rw [h.core hc hk]
    simp only [List.mem_append, not_or] at hs ⊢
    exact ⟨⟨us_no_dot a, h.dot k hs.1.2⟩, us_no_dot b⟩

theorem Conv.seg_skel {f g : Str → Str} (h : Conv f g) (s : Str) : Name.skel (f s) = Name.skel s := by
  rcases decompose s with ⟨n, rfl⟩ | ⟨a, k, b, rfl, hk, hc⟩
  · rw [h.us]
  · rw [h.core hc hk]
    simp only [skel_append, h.skel]

/-- Splitting the converted text gives the converted segments. -/
theorem Conv.split {f g : Str → Str} (h : Conv f g) (s : Str) : splitOn '.' (segments f s) = (splitOn '.' s).map f := by
  unfold segments
  rw [split_join]
  · simpa using splitOn_ne_nil '.' s
  · intro l hl
    obtain ⟨l0, h0, rfl⟩ := List.mem_map.mp hl
    exact h.seg_dot l0 (split_no_sep '.' s l0 h0)

theorem Conv.seg_seg {f g f' : Str → Str} (h : Conv f g) (s : Str) : segments f' (segments f s) = segments (f' ∘ f) s := by
  conv => lhs; unfold segments
  have := h.split s
  unfold segments at this
  rw [this, List.map_map]
  rfl

theorem Conv.iterate2 {f g : Str → Str} (h : Conv f g) (hg : ∀ {k : Str}, Core k → k ≠ [] → g (g (g k)) = g (g k)) (s : Str) :
    segments f (segments f (segments f s)) = segments f (segments f s) := by
  have e : ∀ s, f (f (f s)) = f (f s) := by
    intro s
    rcases decompose s with ⟨n, rfl⟩ | ⟨a, k, b, rfl, hk, hc⟩
    · simp only [h.us]
    · have n1 : g k ≠ [] := ne_nil_of_skel (h.skel k) hk hc
      have c1 := h.keep hc hk
      have n2 : g (g k) ≠ [] := ne_nil_of_skel (h.skel _) n1 c1
      have c2 := h.keep c1 n1
      rw [h.core hc hk, h.core c1 n1, h.core c2 n2, hg hc hk]
  rw [h.seg_seg (s := segments f s), h.seg_seg, h.seg_seg]
  unfold segments
  congr 1
  apply List.map_congr_left
  intro l _
  simpa using e l

end Bubbler.Name
