import Verif.Util.Path
import Verif.Props.TextProps
import Verif.Props.SourceProps

/-
C65: which files import statements mean.
-/
namespace Bubbler
open Text

/-! ### Specification -/

/-- The place an absolute path names: walk from the root. -/
def placeOf (p : Str) : List Str := walk [] (pathComps p)

/-- The directory of a file: the place named by what stands before its last slash. -/
def dirOf (p : Str) : List Str := walk [] ((splitOn '/' p).dropLast.filter (· ≠ []))

/-- The simplest path that names a place. -/
def pathTo (place : List Str) : Str := '/' :: joinOn '/' place

/-- Names of files and directories. -/
def IsName (c : Str) : Prop := c ≠ [] ∧ c ≠ ['.'] ∧ c ≠ ['.', '.'] ∧ '/' ∉ c

/-! ### Cleaning -/

theorem splitOn_sep (sep : Char) (a b : Str) : splitOn sep (a ++ sep :: b) = splitOn sep a ++ splitOn sep b := by
  have h1 := split_join sep (splitOn sep a ++ splitOn sep b) (by simp [splitOn_ne_nil]) (by
    intro l hl
    rcases List.mem_append.1 hl with hl | hl
    · exact split_no_sep sep a l hl
    · exact split_no_sep sep b l hl)
  rw [joinOn_append sep _ _ (splitOn_ne_nil _ _) (splitOn_ne_nil _ _), join_split, join_split] at h1
  exact h1

theorem pathComps_sep (a b : Str) : pathComps (a ++ '/' :: b) = pathComps a ++ pathComps b := by
  unfold pathComps
  rw [splitOn_sep, List.filter_append]

theorem pathComps_root (b : Str) : pathComps ('/' :: b) = pathComps b := pathComps_sep [] b

theorem pathComps_join {l : List Str} (h : ∀ c ∈ l, IsName c) : pathComps (joinOn '/' l) = l := by
  cases l with
  | nil => rfl
  | cons x xs =>
    unfold pathComps
    rw [split_join '/' _ (by simp) (fun c hc => (h c hc).2.2.2)]
    exact List.filter_eq_self.2 fun c hc => by simpa using (h c hc).1

theorem pathComps_pathTo {l : List Str} (h : ∀ c ∈ l, IsName c) : pathComps (pathTo l) = l := by
  unfold pathTo
  rw [pathComps_root, pathComps_join h]

theorem walk_isNames {l : List Str} (h : ∀ c ∈ l, IsName c) (dir : List Str) : walk dir l = dir ++ l :=
  walk_names l (fun c hc => ⟨(h c hc).1, (h c hc).2.1, (h c hc).2.2.1⟩) dir

theorem placeOf_pathTo {l : List Str} (h : ∀ c ∈ l, IsName c) : placeOf (pathTo l) = l := by
  unfold placeOf
  rw [pathComps_pathTo h, walk_isNames h, List.nil_append]

/-- Walking along names leads to names. -/
theorem walk_mem {dir l : List Str} (hd : ∀ c ∈ dir, IsName c) (h : ∀ c ∈ l, c ≠ [] ∧ '/' ∉ c) : ∀ c ∈ walk dir l, IsName c := by
  induction l generalizing dir with
  | nil => exact hd
  | cons x l ih =>
    have hl : ∀ c ∈ l, c ≠ [] ∧ '/' ∉ c := fun c hc => h c (by simp [hc])
    have hx := h x (by simp)
    unfold walk
    split
    · exact ih (fun c hc => hd c (List.dropLast_subset _ hc)) hl
    · split
      · exact ih hd hl
      · refine ih ?_ hl
        intro c hc
        rcases List.mem_append.1 hc with hc | hc
        · exact hd c hc
        · rw [List.mem_singleton] at hc
          subst hc
          exact ⟨hx.1, by assumption, by assumption, hx.2⟩

theorem comps_ok (s : Str) : ∀ c ∈ pathComps s, c ≠ [] ∧ '/' ∉ c := by
  intro c hc
  obtain ⟨h1, h2⟩ := List.mem_filter.1 hc
  exact ⟨by simpa using h2, split_no_sep '/' s c h1⟩

theorem placeOf_names (p : Str) : ∀ c ∈ placeOf p, IsName c := walk_mem (fun _ h => nomatch h) (comps_ok p)

theorem dirOf_names (p : Str) : ∀ c ∈ dirOf p, IsName c := by
  refine walk_mem (fun _ h => nomatch h) ?_
  intro c hc
  obtain ⟨h1, h2⟩ := List.mem_filter.1 hc
  exact ⟨by simpa using h2, split_no_sep '/' p c (List.dropLast_subset _ h1)⟩

/-- A rooted clean list of components is where walking along leads. -/
theorem clean_root (comps : List Str) : clean true comps = walk [] (comps.filter (· ≠ [])) := by
  obtain ⟨⟨n, names, e, hn, h0⟩, h2⟩ := clean_foldl (rooted := true) comps (stack := []) ⟨0, [], rfl, by simp, fun _ => rfl⟩
  have h3 := h2 [] (fun _ => rfl)
  unfold clean
  rw [h0 rfl] at e
  simp only [List.replicate_zero, List.nil_append] at e
  rw [e, walk_names names hn] at h3
  rw [e]
  simpa [walk] using h3

theorem clean_free (comps : List Str) (dir : List Str) : walk dir (clean false comps) = walk dir (comps.filter (· ≠ [])) := by
  obtain ⟨-, h2⟩ := clean_foldl (rooted := false) comps (stack := []) ⟨0, [], rfl, by simp, fun h => nomatch h⟩
  exact h2 dir (fun h => nomatch h)

theorem clean_free_form (comps : List Str) (h : ∀ c ∈ comps, '/' ∉ c) : ∀ c ∈ clean false comps, c ≠ [] ∧ '/' ∉ c := by
  have key : ∀ (comps stack : List Str), (∀ c ∈ comps, '/' ∉ c) → (∀ c ∈ stack, c ≠ [] ∧ '/' ∉ c) →
      ∀ c ∈ comps.foldl (cleanStep false) stack, c ≠ [] ∧ '/' ∉ c := by
    intro comps
    induction comps with
    | nil => intro stack _ hs; exact hs
    | cons x l ih =>
      intro stack hc hs
      refine ih _ (fun c h => hc c (by simp [h])) ?_
      have hx := hc x (by simp)
      unfold cleanStep
      split
      · exact hs
      · rename_i h1
        simp only [not_or] at h1
        have hsx : ∀ c ∈ stack ++ [x], c ≠ [] ∧ '/' ∉ c := by
          intro c hc'
          rcases List.mem_append.1 hc' with hc' | hc'
          · exact hs c hc'
          · rw [List.mem_singleton] at hc'; subst hc'; exact ⟨h1.1, hx⟩
        split
        · split
          · split
            · exact fun _ h => nomatch h
            · intro c hc'; rw [List.mem_singleton] at hc'; subst hc'; exact ⟨h1.1, hx⟩
          · split
            · exact hsx
            · exact fun c hc' => hs c (List.dropLast_subset _ hc')
        · exact hsx
  exact key comps [] h (fun _ h => nomatch h)

theorem cleanStr_abs {p : Str} (h : isAbs p = true) : cleanStr p = pathTo (placeOf p) := by
  simp only [cleanStr, h, if_true, clean_root]
  rfl

theorem isAbs_pathTo (l : List Str) : isAbs (pathTo l) = true := by simp [isAbs, pathTo]

theorem cleanStr_pathTo {l : List Str} (h : ∀ c ∈ l, IsName c) : cleanStr (pathTo l) = pathTo l := by
  rw [cleanStr_abs (isAbs_pathTo l), placeOf_pathTo h]

theorem cleanStr_rel {p : Str} (h : isAbs p = false) (dir : List Str) :
    cleanStr p ≠ [] ∧ isAbs (cleanStr p) = false ∧ walk dir (pathComps (cleanStr p)) = walk dir (pathComps p) := by
  have hf := clean_free_form (splitOn '/' p) (split_no_sep '/' p)
  have hw := clean_free (splitOn '/' p) dir
  simp only [cleanStr, h, Bool.false_eq_true, if_false]
  by_cases he : clean false (splitOn '/' p) = []
  · rw [if_pos he]
    refine ⟨by simp, by decide, ?_⟩
    rw [he] at hw
    rw [show pathComps ['.'] = [['.']] by decide]
    simpa [walk, pathComps] using hw
  · rw [if_neg he]
    have hs : pathComps (joinOn '/' (clean false (splitOn '/' p))) = clean false (splitOn '/' p) := by
      unfold pathComps
      rw [split_join '/' _ he (fun c hc => (hf c hc).2)]
      exact List.filter_eq_self.2 fun c hc => by simpa using (hf c hc).1
    obtain ⟨x, xs, ex⟩ := List.exists_cons_of_ne_nil he
    have hx := hf x (by rw [ex]; simp)
    obtain ⟨y, ys, ey⟩ := List.exists_cons_of_ne_nil hx.1
    have hj : ∃ r, joinOn '/' (clean false (splitOn '/' p)) = y :: r := by
      rw [ex]
      cases xs with
      | nil => exact ⟨ys, by simp [joinOn, ey]⟩
      | cons z zs => exact ⟨ys ++ '/' :: joinOn '/' (z :: zs), by simp [joinOn, ey]⟩
    obtain ⟨r, hr⟩ := hj
    refine ⟨by rw [hr]; simp, ?_, by rw [hs]; exact hw⟩
    rw [hr]
    have : y ≠ '/' := by rintro rfl; exact hx.2 (by rw [ey]; simp)
    simp [isAbs, this]

/-! ### Directories -/

theorem last_slash {p : Str} (h : isAbs p = true) : ∃ a n, p = a ++ '/' :: n ∧ '/' ∉ n := by
  have key : ∀ s : Str, '/' ∈ s → ∃ a n, s = a ++ '/' :: n ∧ '/' ∉ n := by
    intro s
    induction s with
    | nil => intro h; exact nomatch h
    | cons c s ih =>
      intro hm
      by_cases hs : '/' ∈ s
      · obtain ⟨a, n, e, hn⟩ := ih hs
        exact ⟨c :: a, n, by rw [e]; rfl, hn⟩
      · rcases List.mem_cons.1 hm with rfl | hm
        · exact ⟨[], s, rfl, hs⟩
        · exact absurd hm hs
  apply key
  unfold isAbs at h
  cases p with
  | nil => exact nomatch h
  | cons c p =>
    simp only [List.head?_cons, Option.some.injEq, decide_eq_true_eq] at h
    rw [h]; simp

theorem trim_name (a n : Str) (h : '/' ∉ n) : trimRight (· ≠ '/') (a ++ '/' :: n) = a ++ ['/'] := by
  have key : ∀ n : Str, '/' ∉ n → trimRight (· ≠ '/') (a ++ '/' :: n) = a ++ ['/'] := by
    intro n
    refine snoc_induction (P := fun n => '/' ∉ n → trimRight (· ≠ '/') (a ++ '/' :: n) = a ++ ['/']) ?_ ?_ n
    · intro _
      exact trimRight_append_neg a '/' (by decide)
    · intro l x ih hx
      simp only [List.mem_append, List.mem_singleton, not_or] at hx
      rw [show a ++ '/' :: (l ++ [x]) = (a ++ '/' :: l) ++ [x] by simp, trimRight_append_pos _ x (by simpa using fun e => hx.2 e.symm)]
      exact ih hx.1
  exact key n h

/-- The directory of an absolute path. -/
theorem dirStr_abs {p : Str} (h : isAbs p = true) : dirStr p = pathTo (dirOf p) := by
  obtain ⟨a, n, rfl, hn⟩ := last_slash h
  unfold dirStr
  rw [trim_name a n hn]
  have ha : isAbs (a ++ ['/']) = true := by
    cases a with
    | nil => decide
    | cons c a => simpa [isAbs] using h
  rw [cleanStr_abs ha]
  congr 1
  unfold placeOf dirOf
  rw [splitOn_sep, splitOn_single '/' n hn, List.dropLast_concat, pathComps_sep a []]
  simp [pathComps, splitOn]

theorem absStr_abs (cwd : Option Str) {p : Str} (h : isAbs p = true) : absStr cwd p = some (pathTo (placeOf p)) := by
  unfold absStr
  rw [if_pos h, cleanStr_abs h]

/-- **C65, imports.** An import in a file with an absolute path means, if it is not absolute itself, the file at which one arrives by
walking from the directory of the importing file along the components of the import; its path is the simplest one, whatever
the working directory.  An absolute import is taken as it is. -/
theorem C65_import (cwd : Option Str) (base file : Str) (hb : isAbs base = true) :
    absFrom cwd file base = some (if isAbs file then file else pathTo (walk (dirOf base) (pathComps file))) := by
  unfold absFrom
  by_cases hf : isAbs file = true
  · rw [if_pos hf, if_pos hf]
  · rw [if_neg hf, if_neg hf, dirStr_abs hb]
    unfold joinStr
    rw [if_pos (by simp [pathTo])]
    have h1 : isAbs (pathTo (dirOf base) ++ '/' :: file) = true := by simp [isAbs, pathTo]
    have h2 : placeOf (pathTo (dirOf base) ++ '/' :: file) = walk (dirOf base) (pathComps file) := by
      unfold placeOf
      rw [pathComps_sep, pathComps_pathTo (dirOf_names base), walk_append, walk_isNames (dirOf_names base), List.nil_append]
    rw [cleanStr_abs h1, absStr_abs cwd (isAbs_pathTo _), h2]
    rw [placeOf_pathTo]
    exact walk_mem (dirOf_names base) (comps_ok file)

/-- **C65, the file to compile.** A file given without an absolute path is looked for from the working directory. -/
theorem C65_main (cwd : Str) (file : Str) (hc : isAbs cwd = true) :
    absPath (some cwd) file = some (if isAbs file then file else pathTo (walk (placeOf cwd) (pathComps file))) := by
  unfold absPath absFrom
  by_cases hf : isAbs file = true
  · rw [if_pos hf, if_pos hf]
  · rw [if_neg hf, if_neg hf]
    have hd : dirStr [] = ['.'] := by decide
    rw [hd]
    unfold joinStr
    rw [if_pos (by simp)]
    have h1 : isAbs (['.'] ++ '/' :: file) = false := by rfl
    have h2 : pathComps (['.'] ++ '/' :: file) = ['.'] :: pathComps file := by
      rw [pathComps_sep]; rfl
    obtain ⟨k1, k2, k3⟩ := cleanStr_rel h1 (placeOf cwd)
    unfold absStr
    rw [if_neg (by rw [k2]; exact Bool.false_ne_true)]
    simp only [Option.map_some, Option.some.injEq]
    have hne : cwd ≠ [] := by rintro rfl; exact nomatch hc
    unfold joinStr
    rw [if_pos hne]
    have h3 : isAbs (cwd ++ '/' :: cleanStr (['.'] ++ '/' :: file)) = true := by
      cases cwd with
      | nil => exact absurd rfl hne
      | cons c r => simpa [isAbs] using hc
    rw [cleanStr_abs h3]
    congr 1
    unfold placeOf at k3 ⊢
    rw [pathComps_sep, walk_append, k3, h2]
    simp [walk]

/-! ### Projects on a disk -/

section
open Comp hiding Str
open Front hiding Str
open Gen

/-- The text at a place imports `name`. -/
def Names (disk : List Str → Src) (place : List Str) (name : Str) : Prop :=
  ∃ s f lit, disk place = .text s ∧ Front.read s = some f ∧ Stmt.imp lit ∈ f ∧ unquote lit = some name

/-- The files a file with a given path needs: itself, and those its imports mean, by the rule of C65_import. -/
inductive Needs (disk : List Str → Src) (p : Str) : Str → Prop
  | self : Needs disk p p
  | step {q name : Str} : Needs disk p q → Names disk (placeOf q) name →
      Needs disk p (if isAbs name then name else pathTo (walk (dirOf q) (pathComps name)))

/-- A disk as the compiler sees it: fileio and getProtoAST.  The disk holds a text, or something unreadable, or nothing at a
place; paths are looked up by walking (no links). -/
def onDisk (cwd : Option Str) (disk : List Str → Src) : FS :=
  srcFS (fun base name => absFrom cwd name base) fun p => disk (placeOf p)

theorem imports_onDisk {cwd : Option Str} {disk : List Str → Src} {p q : Str} (hp : isAbs p = true) :
    Imports (onDisk cwd disk) p q ↔
      ∃ name, Names disk (placeOf p) name ∧ q = if isAbs name then name else pathTo (walk (dirOf p) (pathComps name)) := by
  constructor
  · rintro ⟨g, hg, hq⟩
    obtain ⟨s, f, h1, h2, rfl⟩ := srcFS_parsed hg
    obtain ⟨st, hs, e⟩ := List.mem_filterMap.1 hq
    cases st with
    | imp lit =>
      simp only [Option.some.injEq] at e
      cases hu : unquote lit with
      | none => rw [hu] at e; exact nomatch e
      | some name =>
        rw [hu] at e
        simp only [Option.bind_some, C65_import cwd p name hp, Option.some.injEq] at e
        exact ⟨name, ⟨s, f, lit, h1, h2, hs, hu⟩, e.symm⟩
    | _ => exact nomatch e
  · rintro ⟨name, ⟨s, f, lit, h1, h2, hs, hu⟩, rfl⟩
    refine ⟨toFile (fun n => absFrom cwd n p) f, ?_, ?_⟩
    · show (disk (placeOf p)).file _ = _
      rw [h1]
      simp only [Src.file, h2]
    · refine List.mem_filterMap.2 ⟨_, hs, ?_⟩
      simp only [hu, Option.bind_some, C65_import cwd p name hp]

theorem reach_onDisk {cwd : Option Str} {disk : List Str → Src} {p q : Str} (hp : isAbs p = true) :
    (Reach (onDisk cwd disk) p q ↔ Needs disk p q) ∧ (Needs disk p q → isAbs q = true) := by
  have habs : ∀ q, Needs disk p q → isAbs q = true := by
    intro q h
    induction h with
    | self => exact hp
    | step _ _ _ =>
      split
      · assumption
      · exact isAbs_pathTo _
  refine ⟨⟨fun h => ?_, fun h => ?_⟩, habs q⟩
  · induction h with
    | refl => exact .self
    | step _ hi ih =>
      obtain ⟨name, hn, rfl⟩ := (imports_onDisk (habs _ ih)).1 hi
      exact .step ih hn
  · induction h with
    | self => exact .refl
    | step hq hn ih => exact .step ih ((imports_onDisk (habs _ hq)).2 ⟨_, hn, rfl⟩)

/-- **C65, projects.** If a project compiles, the compiler has read exactly the files that are needed, each of them once: no two
units are at the same place.  All paths are absolute; the result does not depend on the working directory but for the file to
compile. -/
theorem C65_units (cwd : Str) (hc : isAbs cwd = true) (disk : List Str → Src) (n : Nat) (file : Str) (us : List UnitD) (u : UnitD)
    (h : compileFile (onDisk (some cwd) disk) (absPath (some cwd)) n file = some (us, .ok (some u))) :
    u.path = (if isAbs file then file else pathTo (walk (placeOf cwd) (pathComps file))) ∧
    (∀ p, p ∈ us.map (·.path) ↔ Needs disk u.path p) ∧
    (∀ v ∈ us, isAbs v.path = true) ∧
    (us.map fun v => placeOf v.path).Nodup := by
  obtain ⟨entry, h1, h2, -, -, hreach, -, -⟩ := C30_units _ _ n file us u h
  rw [C65_main cwd file hc, Option.some.injEq] at h1
  have hu : isAbs u.path = true := by
    rw [h2, ← h1]
    split
    · assumption
    · exact isAbs_pathTo _
  have hr : ∀ p, p ∈ us.map (·.path) ↔ Needs disk u.path p := by
    intro p
    rw [hreach p, ← h2]
    exact (reach_onDisk hu).1
  refine ⟨by rw [h2, h1], hr, ?_, ?_⟩
  · intro v hv
    exact (reach_onDisk (cwd := some cwd) hu).2 ((hr v.path).1 (List.mem_map.2 ⟨v, hv, rfl⟩))
  · obtain ⟨hp1, hp2⟩ := C32_packages _ _ n file us u h
    have key : ∀ p q : Str, placeOf p = placeOf q → pkgOf (onDisk (some cwd) disk) p = pkgOf (onDisk (some cwd) disk) q := by
      intro p q e
      unfold pkgOf onDisk srcFS
      simp only [e]
      cases disk (placeOf q) with
      | missing => rfl
      | unreadable => rfl
      | text s =>
        simp only [Src.file]
        cases Front.read s with
        | none => rfl
        | some f => rfl
    rw [List.nodup_iff_pairwise_ne, List.pairwise_map] at hp1 ⊢
    refine hp1.imp_of_mem ?_
    intro v w hv hw hne e
    apply hne
    have := key v.path w.path e
    rw [hp2 v hv, hp2 w hw] at this
    exact Option.some.inj this

/-- The working directory does not matter for a file given by an absolute path: it may even be unknown. -/
theorem C65_cwd (cwd cwd' : Option Str) (base name : Str) (hb : isAbs base = true) :
    absFrom cwd name base = absFrom cwd' name base := by
  rw [C65_import _ _ _ hb, C65_import _ _ _ hb]

end

end Bubbler
