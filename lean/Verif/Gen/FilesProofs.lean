import Verif.Gen.Files
import Verif.Props.GenProps
import Verif.Props.TextProps

namespace Bubbler.Gen
open Comp
open Text hiding Str

/-- A proper part of a path: not empty, no slash inside, not `.` or `..` -/
def Seg (c : Str) : Prop := c ≠ [] ∧ '/' ∉ c ∧ c ≠ ['.'] ∧ c ≠ ['.', '.']

theorem clean_segs (rooted : Bool) (a b : List Str) (h : ∀ c ∈ b, Seg c) : clean rooted (a ++ b) = clean rooted a ++ b := by
  unfold clean
  rw [List.foldl_append, cleanStep_foldl]
  · congr 1
    rw [List.filter_eq_self]
    intro c hc
    obtain ⟨h1, -, h2, -⟩ := h c hc
    simp [h1, h2]
  · exact fun hm => (h _ hm).2.2.2 rfl

theorem clean_snoc (rooted : Bool) (a : List Str) (c : Str) (h : Seg c) : clean rooted (a ++ [c]) = clean rooted a ++ [c] :=
  clean_segs rooted a [c] (by intro x hx; rw [List.mem_singleton] at hx; subst hx; exact h)

theorem strip_plain (s : Str) (h : ∀ c ∈ splitOn '/' s, c ≠ []) : stripSlashes s = s := by
  cases s with
  | nil => rfl
  | cons x r =>
    unfold stripSlashes
    rw [List.dropWhile_cons_of_neg]
    intro hx
    simp only [decide_eq_true_eq] at hx
    subst hx
    exact h [] (by simp [splitOn]) rfl

/-- The `-rmpath` prefix `p` is a directory above `file`, or not given. -/
def Above (p file : Str) : Prop := p = [] ∨ (p ++ ['/']) <+: file

theorem rmPath_one (p file : Str) (h : p <+: file) : rmPath [p] file = stripSlashes (file.drop p.length) := by
  simp [rmPath, List.isPrefixOf_iff_prefix, h]

/-- A file name of proper parts under a removed prefix: what is removed and what is left -/
theorem rm_plain {p file : Str} (ha : Above p file) (hs : ∀ c ∈ splitOn '/' file, Seg c) :
    ∃ pre, splitOn '/' file = (if p = [] then [] else splitOn '/' p) ++ splitOn '/' (rmPath [p] file) ∧
      file = pre ++ rmPath [p] file ∧ pre = (if p = [] then [] else p ++ ['/']) := by
  rcases ha with rfl | ⟨r, hr⟩
  · refine ⟨[], ?_, ?_, by simp⟩
    · rw [rmPath_one _ _ (List.nil_prefix)]
      simp [strip_plain file (fun c hc => (hs c hc).1)]
    · rw [rmPath_one _ _ (List.nil_prefix)]
      simp [strip_plain file (fun c hc => (hs c hc).1)]
  · rw [List.append_assoc, List.singleton_append] at hr
    subst hr
    have e : splitOn '/' (p ++ '/' :: r) = splitOn '/' p ++ splitOn '/' r := splitOn_append_gen '/' p r
    have e2 : rmPath [p] (p ++ '/' :: r) = r := by
      rw [rmPath_one _ _ (List.prefix_append _ _), List.drop_left]
      have : stripSlashes ('/' :: r) = stripSlashes r := by unfold stripSlashes; simp
      rw [this]
      refine strip_plain r fun c hc => (hs c ?_).1
      rw [e]
      exact List.mem_append_right _ hc
    by_cases hp : p = []
    · subst hp
      exact absurd rfl ((hs [] (by rw [e]; simp [splitOn])).1)
    · refine ⟨p ++ ['/'], ?_, ?_, by simp [hp]⟩
      · rw [e, e2, if_neg hp]
      · rw [e2]; simp

/-- With proper parts the file is written below the output path, at the parts that are left. -/
theorem write_plain {p file out : Str} (ha : Above p file) (hs : ∀ c ∈ splitOn '/' file, Seg c) :
    writePath [p] out file = clean (out.head? = some '/') (splitOn '/' out) ++ splitOn '/' (rmPath [p] file) := by
  unfold writePath joinPath
  refine clean_segs _ _ _ fun c hc => hs c ?_
  obtain ⟨_, h, -⟩ := rm_plain ha hs
  rw [h]
  exact List.mem_append_right _ hc

theorem write_plain_inj {p file file' out : Str} (ha : Above p file) (ha' : Above p file') (hs : ∀ c ∈ splitOn '/' file, Seg c)
    (hs' : ∀ c ∈ splitOn '/' file', Seg c) (h : writePath [p] out file = writePath [p] out file') : file = file' := by
  rw [write_plain ha hs, write_plain ha' hs'] at h
  have h := List.append_cancel_left h
  obtain ⟨_, h1, -⟩ := rm_plain ha hs
  obtain ⟨_, h2, -⟩ := rm_plain ha' hs'
  rw [← join_split '/' file, ← join_split '/' file', h1, h2, h]

/-- The last part of a path, if it is a proper one, is the last part of where the file is written. -/
theorem write_last {p dir c out : Str} (hc : Seg c) (hd : dir = [] ∨ ∃ d, dir = d ++ ['/']) (ha : Above p (dir ++ c)) :
    (writePath [p] out (dir ++ c)).getLast? = some c := by
  have key : ∀ a : Str, (a = [] ∨ ∃ d, a = d ++ ['/']) → ∃ l, splitOn '/' (a ++ c) = l ++ [c] := by
    rintro a (rfl | ⟨d, rfl⟩)
    · exact ⟨[], by simp [splitOn_single '/' c hc.2.1]⟩
    · refine ⟨splitOn '/' d, ?_⟩
      rw [List.append_assoc, List.singleton_append, splitOn_append_gen, splitOn_single '/' c hc.2.1]
  -- stripping slashes leaves such a form
  have strip : ∀ a : Str, (a = [] ∨ ∃ d, a = d ++ ['/']) → ∃ b, (b = [] ∨ ∃ d, b = d ++ ['/']) ∧ stripSlashes (a ++ c) = b ++ c := by
    intro a ha
    have hcs : stripSlashes c = c := strip_plain c (by rw [splitOn_single '/' c hc.2.1]; simp [hc.1])
    induction a with
    | nil => exact ⟨[], .inl rfl, by simpa using hcs⟩
    | cons x r ih =>
      have hr : r = [] ∨ ∃ d, r = d ++ ['/'] := by
        rcases ha with ha | ⟨d, hd⟩
        · cases ha
        · cases d with
          | nil => simp only [List.nil_append, List.cons.injEq] at hd; exact .inl hd.2
          | cons y d => simp only [List.cons_append, List.cons.injEq] at hd; exact .inr ⟨d, hd.2⟩
      by_cases hx : x = '/'
      · subst hx
        have : stripSlashes ('/' :: r ++ c) = stripSlashes (r ++ c) := by unfold stripSlashes; simp
        rw [this]
        exact ih hr
      · refine ⟨x :: r, ha, ?_⟩
        unfold stripSlashes
        rw [List.cons_append, List.dropWhile_cons_of_neg (by simpa using hx)]
  have rest : ∃ b, (b = [] ∨ ∃ d, b = d ++ ['/']) ∧ rmPath [p] (dir ++ c) = b ++ c := by
    rcases ha with rfl | ⟨r, hr⟩
    · rw [rmPath_one _ _ List.nil_prefix]
      exact strip dir hd
    · rw [List.append_assoc, List.singleton_append] at hr
      have h1 : rmPath [p] (dir ++ c) = stripSlashes r := by
        rw [rmPath_one _ _ (by rw [← hr]; exact List.prefix_append _ _), ← hr, List.drop_left]
        unfold stripSlashes; simp
      rw [h1]
      -- the slash after the prefix is in `dir`
      have hlen : c.length ≤ r.length := by
        rcases Nat.lt_or_ge r.length c.length with hl | hl
        · exfalso
          have h2 : c.drop (c.length - (r.length + 1)) = '/' :: r := by
            have := congrArg (fun l => l.drop (l.length - (r.length + 1))) hr
            simp only [List.length_append, List.length_cons] at this
            rw [show p.length + (r.length + 1) - (r.length + 1) = p.length by omega, List.drop_left] at this
            rw [this, show dir.length + c.length - (r.length + 1) = dir.length + (c.length - (r.length + 1)) by omega,
              List.drop_append]
            simp
          exact hc.2.1 (List.mem_of_mem_drop (by rw [h2]; simp))
        · exact hl
      have h3 : ∃ a, r = a ++ c := by
        refine ⟨r.take (r.length - c.length), ?_⟩
        have := congrArg (fun l => l.drop (l.length - c.length)) hr
        simp only [List.length_append, List.length_cons] at this
        rw [show p.length + (r.length + 1) - c.length = p.length + (1 + (r.length - c.length)) by omega,
          show dir.length + c.length - c.length = dir.length by omega, List.drop_left, List.drop_append] at this
        rw [show p.length + (1 + (r.length - c.length)) - p.length = (r.length - c.length) + 1 by omega, List.drop_succ_cons,
          List.drop_eq_nil_of_le (by omega), List.nil_append] at this
        conv => lhs; rw [← List.take_append_drop (r.length - c.length) r]
        rw [this]
      obtain ⟨a, rfl⟩ := h3
      refine strip a ?_
      have h4 : p ++ '/' :: a = dir := by
        have : (p ++ '/' :: a) ++ c = dir ++ c := by simpa using hr
        exact List.append_cancel_right this
      rcases hd with rfl | ⟨d, rfl⟩
      · simp at h4
      · rcases List.eq_nil_or_concat a with rfl | ⟨a', x, rfl⟩
        · exact .inl rfl
        · right
          refine ⟨a', ?_⟩
          have : (p ++ '/' :: a') ++ [x] = d ++ ['/'] := by simpa using h4
          rw [List.concat_eq_append, List.append_inj_right' this rfl]
  obtain ⟨b, hb, e⟩ := rest
  obtain ⟨l, hl⟩ := key b hb
  unfold writePath joinPath
  rw [e, hl, ← List.append_assoc, clean_snoc _ _ _ hc]
  simp

end Bubbler.Gen
