import Verif.Util.Indent

namespace Bubbler.Text

theorem replaceGo_skip (old new : Str) : ∀ (a b : Str), replaceGo old new a.length (a ++ b) = replaceGo old new 0 b
  | [], _ => rfl
  | _ :: cs, b => by simpa [replaceGo] using replaceGo_skip old new cs b

/-- An occurrence at the front is replaced. -/
theorem replaceGo_hit (o : Char) (old new b : Str) :
    replaceGo (o :: old) new 0 (o :: old ++ b) = new ++ replaceGo (o :: old) new 0 b := by
  rw [List.cons_append, replaceGo, if_pos (by simp)]
  simp only [List.length_cons, Nat.add_sub_cancel]
  rw [replaceGo_skip]

/-- A piece without the first character of `old` is copied. -/
theorem replaceGo_copy (o : Char) (old new : Str) : ∀ (l b : Str), o ∉ l →
    replaceGo (o :: old) new 0 (l ++ b) = l ++ replaceGo (o :: old) new 0 b
  | [], _, _ => rfl
  | c :: cs, b, h => by
    simp only [List.mem_cons, not_or] at h
    rw [List.cons_append, replaceGo, if_neg (by
      simp only [List.isPrefixOf, Bool.and_eq_true, beq_iff_eq, not_and]
      exact fun e => absurd e h.1), replaceGo_copy o old new cs b h.2]
    rfl

theorem replaceGo_copy_end (o : Char) (old new : Str) (l : Str) (h : o ∉ l) :
    replaceGo (o :: old) new 0 l = l := by
  have := replaceGo_copy o old new l [] h
  simpa [replaceGo] using this

/-- `strings.ReplaceAll(s, "\n", "\n"+pad)` on the lines of `s`. -/
theorem replace_nl (pad : Str) : ∀ (l : Str) (ls : List Str), '\n' ∉ l → (∀ x ∈ ls, '\n' ∉ x) →
    replaceAll (joinOn '\n' (l :: ls)) ['\n'] ('\n' :: pad) = joinOn '\n' (l :: ls.map (pad ++ ·))
  | l, [], h, _ => replaceGo_copy_end '\n' [] _ l h
  | l, x :: xs, h, hx => by
    have ih := replace_nl pad x xs (hx x (by simp)) (fun y hy => hx y (by simp [hy]))
    simp only [replaceAll] at ih ⊢
    simp only [joinOn, List.map_cons]
    rw [replaceGo_copy '\n' [] _ l _ h]
    have := replaceGo_hit '\n' [] ('\n' :: pad) (joinOn '\n' (x :: xs))
    simp only [List.cons_append, List.nil_append] at this
    rw [this, ih]
    cases xs <;> simp [joinOn]

/-- What the last `strings.ReplaceAll` does to the lines: a line that is exactly `pad`, between two line
feeds neither of which belongs to an earlier occurrence, is emptied. -/
def unblank (pad : Str) : List Str → List Str
  | a :: p :: b :: r => if p = pad then a :: [] :: unblank pad (b :: r) else a :: unblank pad (p :: b :: r)
  | ls => ls

theorem prefix_line (pad p : Str) (rest : Str) (hp : '\n' ∉ p) (hpad : '\n' ∉ pad) :
    (pad ++ ['\n']).isPrefixOf (p ++ '\n' :: rest) = true ↔ p = pad := by
  rw [List.isPrefixOf_iff_prefix]
  constructor
  · rintro ⟨t, e⟩
    have e' : pad ++ '\n' :: t = p ++ '\n' :: rest := by simpa using e
    have h1 := splitOn_append '\n' pad t hpad
    have h2 := splitOn_append '\n' p rest hp
    rw [e', h2] at h1
    exact (List.cons.inj h1).1
  · rintro rfl
    exact ⟨rest, by simp⟩

theorem not_prefix_line (pad p : Str) (hp : '\n' ∉ p) : (pad ++ ['\n']).isPrefixOf p = false := by
  rw [Bool.eq_false_iff, ne_eq, List.isPrefixOf_iff_prefix]
  intro h
  exact hp (h.subset (by simp))

theorem replace_blank (pad : Str) (hpad : '\n' ∉ pad) : ∀ (ls : List Str), ls ≠ [] → (∀ x ∈ ls, '\n' ∉ x) →
    replaceAll (joinOn '\n' ls) ('\n' :: pad ++ ['\n']) ['\n', '\n'] = joinOn '\n' (unblank pad ls)
  | [], h, _ => absurd rfl h
  | [l], _, h => replaceGo_copy_end '\n' (pad ++ ['\n']) _ l (h l (by simp))
  | [a, p], _, h => by
    have hp := h p (by simp)
    simp only [replaceAll, joinOn, unblank, List.cons_append]
    rw [replaceGo_copy '\n' _ _ a _ (h a (by simp)), replaceGo, if_neg (by
      simp only [List.isPrefixOf, not_prefix_line pad p hp]; simp), replaceGo_copy_end '\n' _ _ p hp]
  | a :: p :: b :: r, _, h => by
    have hp := h p (by simp)
    have ih1 := replace_blank pad hpad (b :: r) (by simp) (fun x hx => h x (by simp_all))
    have ih2 := replace_blank pad hpad (p :: b :: r) (by simp) (fun x hx => h x (by simp_all))
    simp only [replaceAll, List.cons_append] at ih1 ih2 ⊢
    rw [unblank]
    rw [show joinOn '\n' (a :: p :: b :: r) = a ++ '\n' :: joinOn '\n' (p :: b :: r) from rfl,
      replaceGo_copy '\n' _ _ a _ (h a (by simp))]
    split
    · rename_i e
      subst e
      have hit := replaceGo_hit '\n' (p ++ ['\n']) ['\n', '\n'] (joinOn '\n' (b :: r))
      have e1 : '\n' :: joinOn '\n' (p :: b :: r) = '\n' :: (p ++ ['\n']) ++ joinOn '\n' (b :: r) := by simp [joinOn]
      rw [e1, hit, ih1]
      have hne : unblank p (b :: r) ≠ [] := by
        unfold unblank; split <;> (try split) <;> simp
      cases hu : unblank p (b :: r) with
      | nil => exact absurd hu hne
      | cons x xs => simp [joinOn]
    · rename_i e
      rw [replaceGo, if_neg (by
        simp only [List.isPrefixOf, Bool.and_eq_true, beq_self_eq_true, true_and]
        rw [show joinOn '\n' (p :: b :: r) = p ++ '\n' :: joinOn '\n' (b :: r) from rfl, prefix_line pad p _ hp hpad]
        exact e), ih2]
      have hne : unblank pad (p :: b :: r) ≠ [] := by
        unfold unblank; split <;> (try split) <;> simp
      cases hu : unblank pad (p :: b :: r) with
      | nil => exact absurd hu hne
      | cons x xs => simp [joinOn]

/-- Trimming a text at the right trims its last line. -/
theorem trim_last (p : Char → Bool) (hp : p '\n' = false) : ∀ (ls : List Str) (l : Str),
    trimRight p (joinOn '\n' (ls ++ [l])) = joinOn '\n' (ls ++ [trimRight p l]) := by
  have key : ∀ (a : Str) (s : Str), trimRight p (a ++ '\n' :: s) = a ++ '\n' :: trimRight p s := by
    intro a s
    induction s using snoc_induction with
    | h0 => rw [trimRight_nil]; exact trimRight_append_neg a '\n' hp
    | h1 s x ih =>
      rw [show a ++ '\n' :: (s ++ [x]) = (a ++ '\n' :: s) ++ [x] by simp]
      cases hx : p x
      · rw [trimRight_append_neg _ _ hx, trimRight_append_neg _ _ hx]; simp
      · rw [trimRight_append_pos _ _ hx, trimRight_append_pos _ _ hx, ih]
  intro ls l
  cases ls with
  | nil => rfl
  | cons a as =>
    rw [joinOn_append '\n' (a :: as) [l] (by simp) (by simp), key,
      joinOn_append '\n' (a :: as) [trimRight p l] (by simp) (by simp)]
    rfl

/-- The lines before the last `ReplaceAll`. -/
def padded (b : Char) (n : Nat) (first : Bool) (l : Str) (ls : List Str) : List Str :=
  (if first then List.replicate n b ++ l else l) :: ls.map (List.replicate n b ++ ·)

theorem indentBy_eq (b : Char) (n : Nat) (first : Bool) (v : Str) (hb : b ≠ '\n') (l : Str) (ls init : List Str) (last : Str)
    (hs : splitOn '\n' v = l :: ls) (hl : padded b n first l ls = init ++ [last]) :
    splitOn '\n' (indentBy b n first v) =
      unblank (List.replicate n b) (init ++ [trimRight (fun c => c = b) last]) := by
  have hno : ∀ x ∈ l :: ls, '\n' ∉ x := by rw [← hs]; exact split_no_sep '\n' v
  have hpad : '\n' ∉ List.replicate n b := by
    intro h; exact hb (List.eq_of_mem_replicate h).symm
  have hv : joinOn '\n' (l :: ls) = v := by rw [← hs]; exact join_split '\n' v
  have hfirst : (if first then List.replicate n b ++ v else v) =
      joinOn '\n' ((if first then List.replicate n b ++ l else l) :: ls) := by
    rw [← hv]; cases first <;> cases ls <;> simp [joinOn]
  have hl' : '\n' ∉ (if first then List.replicate n b ++ l else l) := by
    cases first
    · simpa using hno l (by simp)
    · simp only [if_true, List.mem_append, not_or]; exact ⟨hpad, hno l (by simp)⟩
  have hp2 : ∀ x ∈ padded b n first l ls, '\n' ∉ x := by
    intro x hx
    rcases List.mem_cons.mp hx with rfl | hx
    · exact hl'
    · obtain ⟨y, hy, rfl⟩ := List.mem_map.mp hx
      simp only [List.mem_append, not_or]
      exact ⟨hpad, hno y (by simp [hy])⟩
  rw [hl] at hp2
  have hp3 : ∀ x ∈ init ++ [trimRight (fun c => decide (c = b)) last], '\n' ∉ x := by
    intro x hx
    rcases List.mem_append.mp hx with hx | hx
    · exact hp2 x (by simp [hx])
    · rw [List.mem_singleton] at hx; subst hx
      exact fun h => hp2 last (by simp) (trimRight_mem h)
  have hunb : ∀ (pad : Str) (ls : List Str), (∀ x ∈ ls, '\n' ∉ x) → ∀ x ∈ unblank pad ls, '\n' ∉ x := by
    intro pad ls
    fun_induction unblank pad ls with
    | case1 a b r ih =>
      intro h x hx
      simp only [List.mem_cons] at hx
      rcases hx with rfl | rfl | hx
      · exact h x (by simp)
      · simp
      · exact ih (fun y hy => h y (by simp_all)) x hx
    | case2 a p b r hne ih =>
      intro h x hx
      rcases List.mem_cons.mp hx with rfl | hx
      · exact h x (by simp)
      · exact ih (fun y hy => h y (by simp_all)) x hx
    | case3 ls h1 => exact fun h => h
  have hne : ∀ (pad : Str) (ls : List Str), ls ≠ [] → unblank pad ls ≠ [] := by
    intro pad ls h
    unfold unblank; split
    · split <;> simp
    · exact h
  simp only [indentBy]
  rw [hfirst, replace_nl _ _ ls hl' (fun x hx => hno x (by simp [hx]))]
  rw [show (if first = true then List.replicate n b ++ l else l) :: ls.map (List.replicate n b ++ ·) = init ++ [last] from hl]
  rw [trim_last _ (by simpa using fun h => hb h.symm), replace_blank _ hpad _ (by simp) hp3]
  exact split_join '\n' _ (hne _ _ (by simp)) (hunb _ _ hp3)

end Bubbler.Text
