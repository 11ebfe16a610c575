import Verif.Props.FileProps
import Verif.Props.ScopeProps
import Verif.Gen.Imports

/-
C58: the references between outputs lead to the files that are written.
-/
namespace Bubbler
open Comp Gen
open Text hiding Str

/-! ### Specification: what a reference leads to -/

/-- The search path has a directory in which `rm` is the directory `D` (without `-rmpath`: `D` itself is on the search path). -/
def search (D rm : List Str) (comps : List Str) : Option (List Str) :=
  if rm <+: comps then some (D ++ comps.drop rm.length) else none

/-- The file of a Python module -/
def moduleFile (names : List Str) : List Str := names.dropLast ++ [names.getLastD [] ++ ".py".toList]

/-- The file a reference in the file `x` leads to: `#include "r"` looks beside `x` (`-relpath`) or on the search path; `require("r")` and
ES modules look beside `x`, `require` adds `.js`; `from r import *` in Python: without dots at the beginning a module on the search
path, with `n + 1` dots one in the `n`-th directory above the one of `x`. -/
def follow (t : FileTarget) (rel : Bool) (D rm : List Str) (x : List Str) (r : Str) : Option (List Str) :=
  match t with
  | .c | .cpp => if rel then some (walk x.dropLast (splitOn '/' r)) else search D rm (splitOn '/' r)
  | .esm => some (walk x.dropLast (splitOn '/' r))
  | .commonjs => some (walk x.dropLast (splitOn '/' (r ++ ".js".toList)))
  | .python =>
    if rel then
      let dots := (r.takeWhile (· = '.')).length
      if dots = 0 then none else
      some (x.dropLast.take (x.dropLast.length - (dots - 1)) ++ moduleFile (splitOn '.' (r.drop dots)))
    else search D rm (moduleFile (splitOn '.' r))
  | _ => none

/-- The file of an output that others refer to: the header in C and C++ -/
def Provides (t : FileTarget) (y : List Str) : Prop :=
  match t with
  | .c => ".bb.h".toList <:+ y.getLastD []
  | .cpp => ".bb.hpp".toList <:+ y.getLastD []
  | _ => True

/-- The targets whose references are paths of files -/
def pathTarget : FileTarget → Bool
  | .c | .cpp | .python | .commonjs | .esm => true
  | _ => false

/-- The output directory -/
def outDir (out : Str) : List Str := clean (out.head? = some '/') (splitOn '/' out)

/-! ### Lemmas -/

theorem write_under {rm rest : List Str} {out x : Str} (hrm : ∀ c ∈ rm, Seg c ∧ ',' ∉ c) (hx : splitOn '/' x = rm ++ rest)
    (hr0 : rest ≠ []) (hg : ∀ c ∈ splitOn '/' x, Seg c) : writePath (parseRmPath (joinOn '/' rm)) out x = outDir out ++ rest := by
  have hcomma : ',' ∉ joinOn '/' rm := by
    intro hm
    rcases mem_joinOn _ hm with e | ⟨c, hc, hm⟩
    · exact absurd e (by decide)
    · exact (hrm c hc).2 hm
  have hparse : parseRmPath (joinOn '/' rm) = [joinOn '/' rm] := by
    unfold parseRmPath
    rw [splitOn_single ',' _ hcomma, List.map_singleton, trim_joinOn rm (fun c hc => (hrm c hc).1)]
  rw [hparse]
  have hxe : x = joinOn '/' (rm ++ rest) := by rw [← join_split '/' x, hx]
  have ha : Above (joinOn '/' rm) x := by
    by_cases hrm0 : rm = []
    · subst hrm0; exact .inl rfl
    · refine .inr ⟨joinOn '/' rest, ?_⟩
      rw [hxe, joinOn_append '/' rm rest hrm0 hr0]
      simp
  rw [write_plain ha hg]
  obtain ⟨_, hp, -⟩ := rm_plain ha hg
  unfold outDir
  congr 1
  have hsplit : (if joinOn '/' rm = [] then [] else splitOn '/' (joinOn '/' rm)) = rm := by
    by_cases hrm0 : rm = []
    · subst hrm0; rfl
    · rw [split_join '/' rm hrm0 (fun c hc => (hrm c hc).1.2.1), if_neg]
      intro e
      have := split_join '/' rm hrm0 (fun c hc => (hrm c hc).1.2.1)
      rw [e] at this
      have hm : ([] : Str) ∈ rm := by rw [← this]; simp [splitOn]
      exact (hrm _ hm).1.1 rfl
  rw [hsplit, hx] at hp
  exact (List.append_cancel_left hp).symm

theorem differencePaths_pre (rm a b : List Str) : differencePaths (rm ++ a) (rm ++ b) = differencePaths a b := by
  induction rm with
  | nil => rfl
  | cons c r ih => simp only [List.cons_append, differencePaths, if_true]; exact ih

/-- A relative path between packages, followed from the first one's directory wherever that is. -/
theorem walk_strict (pre : List Str) (p q : Pkg) (ext : Str) (hq : ∀ c ∈ q.full, PlainName c) (hext : '/' ∉ ext) (hd : q.name ++ ext ≠ ['.'])
    (hdd : q.name ++ ext ≠ ['.', '.']) :
    walk (pre ++ p.path) (splitOn '/' (p.toRelativePathStrict q ext)) = pre ++ q.path ++ [q.name ++ ext] := by
  have hq1 : ∀ c ∈ q.path, PlainName c := fun c hc => hq c (by simp [Pkg.full, hc])
  have hqn : PlainName q.name := hq q.name (by simp [Pkg.full])
  have hsl : ∀ l ∈ differencePaths p.path q.path ++ [q.name ++ ext], '/' ∉ l := by
    intro l hl
    rcases List.mem_append.mp hl with hl | hl
    · rcases difference_mem _ _ l hl with e | h
      · subst e; decide
      · exact (hq1 l h).2.2
    · simp only [List.mem_singleton] at hl; subst hl
      rw [List.mem_append, not_or]; exact ⟨hqn.2.2, hext⟩
  have main : walk (pre ++ p.path) (splitOn '/' (p.toRelativePath q ext)) = pre ++ q.path ++ [q.name ++ ext] := by
    unfold Pkg.toRelativePath Pkg.difference
    rw [joinOn_snoc_ext, split_join _ _ (by simp) hsl, walk_append, walk_differencePaths pre p.path q.path hq1]
    simp only [walk, if_neg hdd, if_neg hd]
  unfold Pkg.toRelativePathStrict
  simp only
  split
  · exact main
  · have : splitOn '/' ('.' :: '/' :: p.toRelativePath q ext) = ['.'] :: splitOn '/' (p.toRelativePath q ext) := by
      rw [show '.' :: '/' :: p.toRelativePath q ext = ['.'] ++ '/' :: p.toRelativePath q ext from rfl, splitOn_append_gen]
      rfl
    rw [this]
    simp only [walk]
    rw [if_neg (by decide), if_pos trivial]
    exact main

theorem getLastD_snoc {α : Type} (l : List α) (a d : α) : (l ++ [a]).getLastD d = a := by
  simp [List.getLastD_eq_getLast?]

theorem full_parts {ps : List Str} (h : ps ≠ []) : (pkgOfParts ps).full = ps := by
  obtain ⟨i, x, rfl⟩ := exists_snoc ps h
  simp [pkgOfParts, Pkg.full, getLastD_snoc]

/-- The ending of the file others refer to -/
def mainExt : FileTarget → Str
  | .c => ".bb.h".toList
  | .cpp => ".bb.hpp".toList
  | .python => "_bb.py".toList
  | .commonjs => ".bb.js".toList
  | .esm => ".bb.js".toList
  | _ => []

theorem toRelativePathStrict_pre (rm a b : List Str) (n m ext : Str) :
    (Pkg.mk (rm ++ a) n).toRelativePathStrict ⟨rm ++ b, m⟩ ext = (Pkg.mk a n).toRelativePathStrict ⟨b, m⟩ ext := by
  simp only [Pkg.toRelativePathStrict, Pkg.toRelativePath, Pkg.difference, differencePaths_pre]
  rfl

theorem toPyRelativePath_pre (rm a b : List Str) (n m ext : Str) :
    (Pkg.mk (rm ++ a) n).toPyRelativePath ⟨rm ++ b, m⟩ ext = (Pkg.mk a n).toPyRelativePath ⟨b, m⟩ ext := by
  simp only [Pkg.toPyRelativePath, Pkg.difference, differencePaths_pre]

theorem name_ext_long {m ext : Str} (h : 2 < ext.length) : m ++ ext ≠ ['.'] ∧ m ++ ext ≠ ['.', '.'] := by
  constructor <;> (intro e; have := congrArg List.length e; simp at this; omega)

/-- A relative path, from the directory `a` to the file `m` in `b`, both below `D`, and in the packages below `rm`. -/
theorem walk_ref (D rm a b : List Str) (n m f ext : Str) (hb : ∀ c ∈ b, PlainName c) (hm : PlainName m) (hext : '/' ∉ ext) (hlen : 2 < ext.length) :
    walk (D ++ a ++ [f]).dropLast (splitOn '/' ((Pkg.mk (rm ++ a) n).toRelativePathStrict ⟨rm ++ b, m⟩ ext)) = D ++ b ++ [m ++ ext] := by
  rw [toRelativePathStrict_pre, List.dropLast_concat]
  refine walk_strict D ⟨a, n⟩ ⟨b, m⟩ ext ?_ hext (name_ext_long hlen).1 (name_ext_long hlen).2
  intro c hc
  rcases List.mem_append.1 hc with hc | hc
  · exact hb c hc
  · rw [List.mem_singleton] at hc; subst hc; exact hm

theorem search_ref (D rm b : List Str) (x : Str) : search D rm (rm ++ b ++ [x]) = some (D ++ b ++ [x]) := by
  unfold search
  rw [if_pos ⟨b ++ [x], by simp⟩]
  simp [List.append_assoc, List.drop_left']

theorem split_join_ext (sep : Char) (b : List Str) (m ext : Str) (hb : ∀ c ∈ b, sep ∉ c) (hm : sep ∉ m) (hext : sep ∉ ext) :
    splitOn sep (joinOn sep (b ++ [m]) ++ ext) = b ++ [m ++ ext] := by
  rw [joinOn_snoc_ext, split_join sep _ (by simp)]
  intro l hl
  rcases List.mem_append.1 hl with hl | hl
  · exact hb l hl
  · rw [List.mem_singleton] at hl
    subst hl
    rw [List.mem_append, not_or]
    exact ⟨hm, hext⟩

theorem take_dots (k : Nat) (s : Str) (h : ∀ c, s.head? = some c → c ≠ '.') :
    ((List.replicate k '.' ++ s).takeWhile (· = '.')).length = k ∧ (List.replicate k '.' ++ s).drop k = s := by
  constructor
  · induction k with
    | zero => cases s with
      | nil => rfl
      | cons c r => simp [h c rfl]
    | succ k ih => rw [List.replicate_succ, List.cons_append, List.takeWhile_cons_of_pos (by simp), List.length_cons, ih]
  · rw [List.drop_left' (by simp)]

theorem joinOn_head_plain (names : List Str) (h : ∀ c ∈ names, PlainName c) (hne : names ≠ []) (ext : Str) :
    ∀ c, (joinOn '.' names ++ ext).head? = some c → c ≠ '.' := by
  intro c e
  rcases names with _ | ⟨m, r⟩
  · exact absurd rfl hne
  obtain ⟨h1, h2, -⟩ := h m (by simp)
  rcases m with _ | ⟨d, m⟩
  · exact absurd rfl h1
  have : (joinOn '.' ((d :: m) :: r) ++ ext).head? = some d := by
    cases r <;> simp [joinOn]
  rw [this] at e
  cases e
  intro e; subst e; simp at h2

theorem follow_ref (t : FileTarget) (ht : pathTarget t = true) (rel : Bool) (D rm a b : List Str) (u v : UnitD) (n m f : Str)
    (hu : unitPkg u = rm ++ a ++ [n]) (hv : unitPkg v = rm ++ b ++ [m]) (hp : ∀ c ∈ unitPkg v, PlainName c) :
    follow t rel D rm (D ++ a ++ [f]) (t.refText rel u v) = some (D ++ b ++ [m ++ mainExt t]) := by
  have eu : pkgOfParts (unitPkg u) = ⟨rm ++ a, n⟩ := by rw [hu]; simp [pkgOfParts, getLastD_snoc, List.dropLast_concat]
  have ev : pkgOfParts (unitPkg v) = ⟨rm ++ b, m⟩ := by rw [hv]; simp [pkgOfParts, getLastD_snoc, List.dropLast_concat]
  rw [hv] at hp
  have hrm : ∀ c ∈ rm, PlainName c := fun c hc => hp c (by simp [hc])
  have hb : ∀ c ∈ b, PlainName c := fun c hc => hp c (by simp [hc])
  have hm : PlainName m := hp m (by simp)
  have hrb : ∀ c ∈ rm ++ b, PlainName c := fun c hc => hp c (List.mem_append_left _ hc)
  cases t <;> simp only [pathTarget, Bool.false_eq_true] at ht
  · simp only [follow, FileTarget.refText, eu, ev, mainExt]
    cases rel
    · simp only [Bool.false_eq_true, if_false, Pkg.toFilePath, Pkg.full]
      rw [split_join_ext '/' _ _ _ (fun c hc => (hrb c hc).2.2) hm.2.2 (by decide +kernel)]
      exact search_ref D rm b _
    · simp only [if_true]
      rw [walk_ref D rm a b n m f _ hb hm (by decide +kernel) (by decide +kernel)]
  · simp only [follow, FileTarget.refText, eu, ev, mainExt]
    cases rel
    · simp only [Bool.false_eq_true, if_false, Pkg.toFilePath, Pkg.full]
      rw [split_join_ext '/' _ _ _ (fun c hc => (hrb c hc).2.2) hm.2.2 (by decide +kernel)]
      exact search_ref D rm b _
    · simp only [if_true]
      rw [walk_ref D rm a b n m f _ hb hm (by decide +kernel) (by decide +kernel)]
  · simp only [follow, FileTarget.refText, eu, ev, mainExt]
    have hmod : ∀ l : List Str, moduleFile (l ++ [m ++ "_bb".toList]) = l ++ [m ++ "_bb.py".toList] := by
      intro l
      unfold moduleFile
      rw [getLastD_snoc, List.dropLast_concat, List.append_assoc, show "_bb".toList ++ ".py".toList = "_bb.py".toList from by decide +kernel]
    cases rel
    · simp only [Bool.false_eq_true, if_false, Pkg.full]
      rw [split_join_ext '.' _ _ _ (fun c hc => (hrb c hc).2.1) hm.2.1 (by decide +kernel), hmod]
      exact search_ref D rm b _
    · simp only [if_true]
      rw [toPyRelativePath_pre]
      obtain ⟨k, names, e1, e2, e3, e4⟩ := C36_python ⟨a, n⟩ ⟨b, m⟩ "_bb".toList (by
        intro c hc
        rcases List.mem_append.1 hc with hc | hc
        · exact hb c hc
        · rw [List.mem_singleton] at hc; subst hc; exact hm)
      simp only [Pkg.full] at e2 e3
      have hnames : ∀ c ∈ names, PlainName c := by
        intro c hc
        have : c ∈ b ++ [m] := by rw [← e3]; simp [hc]
        rcases List.mem_append.1 this with h | h
        · exact hb c h
        · rw [List.mem_singleton] at h; subst h; exact hm
      rw [e1, List.append_assoc]
      obtain ⟨d1, d2⟩ := take_dots (k + 1) (joinOn '.' names ++ "_bb".toList) (joinOn_head_plain names hnames e4 _)
      rw [d1, d2]
      simp only [Nat.add_one_ne_zero, if_false, Nat.add_sub_cancel]
      obtain ⟨i, y, rfl⟩ := exists_snoc names e4
      rw [← List.append_assoc] at e3
      obtain ⟨e5, e6⟩ := List.append_inj' e3 rfl
      simp only [List.cons.injEq, and_true] at e6
      subst e6
      rw [split_join_ext '.' _ _ _ (fun c hc => (hnames c (by simp [hc])).2.1) hm.2.1 (by decide +kernel), hmod, List.dropLast_concat]
      rw [← e5, List.length_append]
      rw [show D.length + a.length - k = D.length + (a.length - k) by omega, List.take_length_add_append]
      simp
  · simp only [follow, FileTarget.refText, eu, ev, mainExt]
    have : ∀ p q : Pkg, p.toRelativePathStrict q ".bb".toList ++ ".js".toList = p.toRelativePathStrict q ".bb.js".toList := by
      intro p q
      have hp2 : ∀ s r : Str, 2 ≤ s.length → (['.', '.'].isPrefixOf (s ++ r)) = ['.', '.'].isPrefixOf s := by
        intro s r h
        rcases s with _ | ⟨c, _ | ⟨d, s⟩⟩ <;> simp at h
        simp [List.isPrefixOf]
      have hbb : ".bb".toList.length = 3 := by decide +kernel
      have e : p.toRelativePath q ".bb".toList ++ ".js".toList = p.toRelativePath q ".bb.js".toList := by
        unfold Pkg.toRelativePath
        rw [List.append_assoc, show ".bb".toList ++ ".js".toList = ".bb.js".toList from by decide +kernel]
      unfold Pkg.toRelativePathStrict
      simp only
      rw [← e, hp2 _ _ (by unfold Pkg.toRelativePath; rw [List.length_append, hbb]; omega)]
      split
      · rfl
      · rfl
    rw [this, walk_ref D rm a b n m f _ hb hm (by decide +kernel) (by decide +kernel)]
  · simp only [follow, FileTarget.refText, eu, ev, mainExt]
    rw [walk_ref D rm a b n m f _ hb hm (by decide +kernel) (by decide +kernel)]

theorem mainExt_mem {t : FileTarget} (ht : pathTarget t = true) : ∃ es, t.exts = some es ∧ mainExt t ∈ es := by
  cases t <;> simp only [pathTarget, Bool.false_eq_true] at ht
  · exact ⟨_, rfl, by simp [mainExt]⟩
  · exact ⟨_, rfl, by simp [mainExt]⟩
  · exact ⟨_, rfl, by simp [mainExt]⟩
  · exact ⟨_, rfl, by simp [mainExt]⟩
  · exact ⟨_, rfl, by simp [mainExt]⟩

theorem words_plain {f : FileA} {v : UnitD} (hw : Words f) (hpk : f.pkgs.head? = some v.pkg) : ∀ c ∈ unitPkg v, PlainName c := by
  intro c hc
  have := hw.pkg v.pkg (List.mem_of_head? hpk) c hc
  exact ⟨this.1, split_no_sep '.' v.pkg c hc, this.2⟩

theorem Gen.Project.pkg {fs : FS} {us : List UnitD} {u v : UnitD} (P : Project fs us u) (hv : v ∈ us) {f : FileA} (hf : fs v.path = .parsed f) :
    f.pkgs.head? = some v.pkg := by
  have := (P.comp v hv).full.pkg
  unfold pkgOf at this
  rw [hf] at this
  exact this

/-- The files of an output below `rm`, for a target with one name per package -/
theorem under_parts {v : UnitD} {rm rest : List Str} {e : Str} (hs : ∀ c ∈ unitPkg v, PlainName c) (he : '/' ∉ e) (hr : rest ≠ [])
    (h : splitOn '/' (joinOn '/' (unitPkg v) ++ e) = rm ++ rest) :
    ∃ a n, unitPkg v = rm ++ a ++ [n] ∧ rest = a ++ [n ++ e] := by
  rw [splitOn_snoc_ext (unitPkg v) (splitOn_ne_nil _ _) (fun c hc => (hs c hc).2.2) e he] at h
  obtain ⟨i, x, rfl⟩ := exists_snoc rest hr
  rw [← List.append_assoc] at h
  obtain ⟨h1, h2⟩ := List.append_inj' h rfl
  simp only [List.cons.injEq, and_true] at h2
  refine ⟨i, (unitPkg v).getLastD [], ?_, by rw [h2]⟩
  rw [← h1]
  obtain ⟨j, y, e⟩ := exists_snoc (unitPkg v) (splitOn_ne_nil _ _)
  rw [e, List.dropLast_concat, getLastD_snoc]

theorem under_segs {v : UnitD} {e : Str} (hs : ∀ c ∈ unitPkg v, PlainName c) (he : '/' ∉ e) (hl : 2 < e.length) :
    ∀ c ∈ splitOn '/' (joinOn '/' (unitPkg v) ++ e), Seg c := by
  refine segs_ext (splitOn_ne_nil _ _) (fun c hc => ?_) he hl
  obtain ⟨h1, h2, h3⟩ := hs c hc
  refine ⟨h1, h3, ?_, ?_⟩ <;> (rintro rfl; simp at h2)

/-- What the reference to one output in another one leads to. -/
theorem leads {t : FileTarget} (ht : pathTarget t = true) (rel : Bool) {rm : List Str} (hrm : ∀ c ∈ rm, Seg c ∧ ',' ∉ c) (out : Str)
    {v v' : UnitD} {o o' : OutUnit} (hv : ∀ c ∈ unitPkg v, PlainName c) (hv' : ∀ c ∈ unitPkg v', PlainName c)
    (ho : o.files = t.files v o.types) (ho' : o'.files = t.files v' o'.types)
    (hin : ∀ x ∈ o.files, ∃ rest, rest ≠ [] ∧ splitOn '/' x = rm ++ rest) (hin' : ∀ x ∈ o'.files, ∃ rest, rest ≠ [] ∧ splitOn '/' x = rm ++ rest) :
    ∃ y ∈ writtenFiles (joinOn '/' rm) out [o'], Provides t y ∧
      ∀ x ∈ writtenFiles (joinOn '/' rm) out [o], follow t rel (outDir out) rm x (t.refText rel v v') = some y := by
  obtain ⟨es, hes, hmem⟩ := mainExt_mem ht
  obtain ⟨-, hok, -⟩ := exts_ok hes
  rw [exts_files hes] at ho ho'
  have hy : joinOn '/' (unitPkg v') ++ mainExt t ∈ o'.files := by rw [ho']; exact List.mem_map.2 ⟨_, hmem, rfl⟩
  obtain ⟨rest, r0, hr⟩ := hin' _ hy
  obtain ⟨b, m, hb, rfl⟩ := under_parts hv' (hok _ hmem).1 r0 hr
  refine ⟨outDir out ++ (b ++ [m ++ mainExt t]), ?_, ?_, ?_⟩
  · simp only [writtenFiles, List.flatMap_cons, List.flatMap_nil, List.append_nil, List.mem_map]
    exact ⟨_, hy, write_under hrm hr r0 (under_segs hv' (hok _ hmem).1 (hok _ hmem).2)⟩
  · rw [← List.append_assoc]
    cases t <;> simp only [pathTarget, Bool.false_eq_true] at ht <;> simp only [Provides, getLastD_snoc, mainExt]
    · exact ⟨m, rfl⟩
    · exact ⟨m, rfl⟩
  · intro x hx
    simp only [writtenFiles, List.flatMap_cons, List.flatMap_nil, List.append_nil, List.mem_map] at hx
    obtain ⟨z, hz, rfl⟩ := hx
    obtain ⟨rest', r0', hr'⟩ := hin z hz
    rw [ho] at hz
    obtain ⟨e, he, rfl⟩ := List.mem_map.1 hz
    obtain ⟨a, n, ha, rfl⟩ := under_parts hv (hok e he).1 r0' hr'
    rw [write_under hrm hr' r0' (under_segs hv (hok e he).1 (hok e he).2), ← List.append_assoc, ← List.append_assoc]
    exact follow_ref t ht rel (outDir out) rm a b v v' n m (n ++ e) ha hb hv'

theorem imported_mem {fs : FS} {us : List UnitD} {u : UnitD} (P : Project fs us u) {v w : UnitD} (hv : v ∈ us) :
    w ∈ importedUnits us v ↔ w ∈ us ∧ Imports fs v.path w.path := by
  unfold importedUnits
  rw [List.mem_filterMap]
  have hl := (P.comp v hv).full.locals
  constructor
  · rintro ⟨p, hp, e⟩
    have h1 := List.mem_of_find?_eq_some e
    have h2 := List.find?_some e
    simp only [decide_eq_true_eq] at h2
    refine ⟨h1, ?_⟩
    rw [h2]
    exact (hl p).1 hp
  · rintro ⟨h1, h2⟩
    refine ⟨w.path, (hl _).2 h2, ?_⟩
    rcases e : us.find? fun x => x.path = w.path with _ | x
    · rw [List.find?_eq_none] at e
      simpa using e w h1
    · have h3 := List.mem_of_find?_eq_some e
      have h4 := List.find?_some e
      simp only [decide_eq_true_eq] at h4
      exact (P.unique h3 h1 h4) ▸ e

/-- **C58 (C, C++, Python, CommonJS, ES modules).** The references in an output are exactly those to the files its source imports, and
each leads from any file of the output to the file that is written for the imported source - in C and C++ its header; C and C++
outputs find their own header. -/
theorem C58_files (fs : FS) (abs : Str → Option Str) (n : Nat) (file : Str) (us : List UnitD) (u : UnitD)
    (h : compileFile fs abs n file = some (us, .ok (some u))) (hpos : ∀ q g, fs q = .parsed g → (places g).Nodup)
    (t : FileTarget) (ht : pathTarget t = true) (fails : Str → Bool) (outs : List OutUnit) (hg : generate (t.cfg fails) us = some outs)
    (hw : ∀ q g, fs q = .parsed g → Words g) (rel : Bool) (out : Str) (rm : List Str) (hrm : ∀ c ∈ rm, Seg c ∧ ',' ∉ c)
    (hin : ∀ o ∈ outs, ∀ x ∈ o.files, ∃ rest, rest ≠ [] ∧ splitOn '/' x = rm ++ rest) (o : OutUnit) (ho : o ∈ outs) :
    ∃ v ∈ us, v.path = o.path ∧
      (∀ o' ∈ outs, Imports fs o.path o'.path → ∃ r ∈ t.refs rel us v, ∃ y ∈ writtenFiles (joinOn '/' rm) out [o'], Provides t y ∧
        ∀ x ∈ writtenFiles (joinOn '/' rm) out [o], follow t rel (outDir out) rm x r = some y) ∧
      (∀ r ∈ t.refs rel us v, ∃ q, Imports fs o.path q ∧ ∀ o' ∈ outs, o'.path = q → ∃ y ∈ writtenFiles (joinOn '/' rm) out [o'], Provides t y ∧
        ∀ x ∈ writtenFiles (joinOn '/' rm) out [o], follow t rel (outDir out) rm x r = some y) ∧
      (t = .c ∨ t = .cpp → ∃ y ∈ writtenFiles (joinOn '/' rm) out [o], Provides t y ∧
        ∀ x ∈ writtenFiles (joinOn '/' rm) out [o], follow t rel (outDir out) rm x (t.selfRef rel v) = some y) := by
  have P := Project.of h hpos
  obtain ⟨from_, -, -⟩ := genUnits_from us [] ⟨[], []⟩ outs hg
  have plain : ∀ v ∈ us, ∀ c ∈ unitPkg v, PlainName c := by
    intro v hv
    obtain ⟨f, hf⟩ := P.parsed hv
    exact words_plain (hw _ f hf) (P.pkg hv hf)
  obtain ⟨v, hv, -, hpv, hfv⟩ := from_ o ho
  have hrefs : t.refs rel us v = (importedUnits us v).map (t.refText rel v) := by
    cases t <;> first | rfl | (simp only [pathTarget, Bool.false_eq_true] at ht)
  refine ⟨v, hv, hpv.symm, ?_, ?_, ?_⟩
  · intro o' ho' hi
    obtain ⟨v', hv', -, hpv', hfv'⟩ := from_ o' ho'
    refine ⟨t.refText rel v v', ?_, leads ht rel hrm out (plain v hv) (plain v' hv') hfv hfv' (hin o ho) (hin o' ho')⟩
    rw [hrefs]
    refine List.mem_map.2 ⟨v', (imported_mem P hv).2 ⟨hv', ?_⟩, rfl⟩
    rw [← hpv, ← hpv']
    exact hi
  · intro r hr
    rw [hrefs] at hr
    obtain ⟨w, hm, rfl⟩ := List.mem_map.1 hr
    obtain ⟨hwu, hi⟩ := (imported_mem P hv).1 hm
    refine ⟨w.path, by rw [hpv]; exact hi, fun o' ho' e => ?_⟩
    obtain ⟨v', hv', -, hpv', hfv'⟩ := from_ o' ho'
    have : v' = w := P.unique hv' hwu (by rw [← hpv', e])
    subst this
    exact leads ht rel hrm out (plain v hv) (plain v' hv') hfv hfv' (hin o ho) (hin o' ho')
  · intro _
    exact leads ht rel hrm out (plain v hv) (plain v hv) hfv hfv (hin o ho) (hin o ho)

/-! ### Java, C#, Kotlin and Go: references by package -/

/-- The parts of the package of a unit in the output of a target -/
def unitParts (t : FileTarget) (v : UnitD) : List Str :=
  match t with
  | .go => goPkg v
  | .java => javaPkg v
  | .kotlin => splitOn '.' (kotlinPkg v)
  | _ => unitPkg v

theorem unitParts_is {fs : FS} {us : List UnitD} {u v : UnitD} (P : Project fs us u) (hv : v ∈ us) {f : FileA} (hf : fs v.path = .parsed f)
    (t : FileTarget) : PartsIs t f (unitParts t v) := by
  have hc := P.comp v hv
  have hpk := P.pkg hv hf
  have isStr : ∀ opt, (opt, Kind.str) ∈ fileOptKinds → ∀ l, aget v.options opt.toList = some l → ∃ s, l = .str s := by
    intro opt hm l e
    have hk : l.kind = .str := hc.option_kind e (opt, .str) hm rfl
    cases l with
    | str s => exact ⟨s, rfl⟩
    | bool _ => cases hk
    | int _ => cases hk
    | float _ _ => cases hk
  have none_ : pkgOption t = none → PartsIs t f (splitOn '.' v.pkg) := by
    intro e
    refine .inr ⟨?_, _, hpk, rfl⟩
    intro opt sep e1
    rw [e] at e1; cases e1
  have noopt : ∀ opt sep, pkgOption t = some (opt, sep) → aget v.options opt.toList = none → PartsIs t f (splitOn '.' v.pkg) := by
    intro opt sep e0 e
    refine .inr ⟨?_, _, hpk, rfl⟩
    intro opt' sep' e1 x hx e2 s e3
    rw [e0] at e1
    simp only [Option.some.injEq, Prod.mk.injEq] at e1
    obtain ⟨rfl, rfl⟩ := e1
    have := (hc.option_iff hf _ _).2 ⟨x, hx, e2, e3⟩
    rw [e] at this
    cases this
  have opt_ : ∀ opt sep l, pkgOption t = some (opt, sep) → (opt, Kind.str) ∈ fileOptKinds → aget v.options opt.toList = some l →
      PartsIs t f (splitOn sep (optText l)) := by
    intro opt sep l e0 hk e
    obtain ⟨s, rfl⟩ := isStr opt hk l e
    obtain ⟨x, hx, e2, e3⟩ := (hc.option_iff hf _ _).1 e
    exact .inl ⟨opt, sep, x, s, e0, hx, e2, e3, rfl⟩
  cases t <;> try exact none_ rfl
  · unfold unitParts goPkg
    rcases e : aget v.options "go_package".toList with _ | l
    · exact noopt _ _ rfl e
    · exact opt_ _ _ _ rfl (by simp [fileOptKinds]) e
  · unfold unitParts javaPkg
    rcases e : aget v.options "java_package".toList with _ | l
    · exact noopt _ _ rfl e
    · exact opt_ _ _ _ rfl (by simp [fileOptKinds]) e
  · unfold unitParts kotlinPkg
    rcases e : aget v.options "kotlin_package".toList with _ | l
    · exact noopt _ _ rfl e
    · exact opt_ _ _ _ rfl (by simp [fileOptKinds]) e

theorem unitParts_ne (t : FileTarget) (v : UnitD) : unitParts t v ≠ [] := by
  have h1 : goPkg v ≠ [] := by unfold goPkg unitPkg; split <;> exact splitOn_ne_nil _ _
  have h2 : javaPkg v ≠ [] := by unfold javaPkg unitPkg; split <;> exact splitOn_ne_nil _ _
  cases t <;> first | exact h1 | exact h2 | exact splitOn_ne_nil '.' v.pkg | exact splitOn_ne_nil '.' (kotlinPkg v)

/-- A file in the directory of the package, below `rm` -/
theorem dir_under {ps rm : List Str} {out x m : Str} (hrm : ∀ c ∈ rm, Seg c ∧ ',' ∉ c) (hs : ∀ c ∈ ps, Seg c) (hne : ps ≠ []) (hm : Seg m)
    (hx : x = joinOn '/' ps ++ ('/' :: m)) (hin : ∃ rest, rest ≠ [] ∧ splitOn '/' x = rm ++ rest) :
    search (outDir out) rm ps = some (writePath (parseRmPath (joinOn '/' rm)) out x).dropLast := by
  obtain ⟨rest, r0, hr⟩ := hin
  have hall : ∀ c ∈ ps ++ [m], Seg c := by
    intro c hc
    rcases List.mem_append.1 hc with hc | hc
    · exact hs c hc
    · rw [List.mem_singleton] at hc; subst hc; exact hm
  have hsp : splitOn '/' x = ps ++ [m] := by
    rw [hx, joinOn_slash _ hne, split_join _ _ (by simp) (fun c hc => (hall c hc).2.1)]
  rw [write_under hrm hr r0 (by rw [hsp]; exact hall)]
  rw [hsp] at hr
  obtain ⟨i, y, rfl⟩ := exists_snoc rest r0
  rw [← List.append_assoc] at hr
  obtain ⟨h1, -⟩ := List.append_inj' hr rfl
  subst h1
  unfold search
  rw [if_pos ⟨i, rfl⟩, ← List.append_assoc, List.dropLast_concat, List.drop_left' rfl]

/-- The files of Go, Java and Kotlin outputs -/
theorem dir_files {t : FileTarget} (ht : t = .go ∨ t = .java ∨ t = .kotlin) {v : UnitD} (hs : ∀ c ∈ unitParts t v, Seg c) (types : List Str)
    (hn : ∀ m ∈ types, '/' ∉ m) : ∀ x ∈ t.files v types, ∃ m, Seg m ∧ x = joinOn '/' (unitParts t v) ++ ('/' :: m) := by
  intro x hx
  rcases ht with rfl | rfl | rfl
  · simp only [FileTarget.files, List.mem_singleton] at hx
    refine ⟨_, seg_name ?_ (by decide +kernel) (by decide +kernel), hx⟩
    obtain ⟨i, y, e⟩ := exists_snoc _ (unitParts_ne .go v)
    have := (hs y (by rw [e]; simp)).2.1
    change '/' ∉ (unitParts .go v).getLastD []
    rw [e, getLastD_snoc]
    exact this
  · obtain ⟨m, hm, rfl⟩ := List.mem_map.1 hx
    exact ⟨_, seg_name (hn m hm) (by decide +kernel) (by decide +kernel), rfl⟩
  · obtain ⟨m, hm, rfl⟩ := List.mem_map.1 hx
    refine ⟨m ++ ".kt".toList, seg_name (hn m hm) (by decide +kernel) (by decide +kernel), ?_⟩
    have hne : dotsToSlashes (kotlinPkg v) ≠ [] := by
      unfold dotsToSlashes
      rw [ne_eq, List.map_eq_nil_iff]
      intro e
      have := hs [] (by unfold unitParts; rw [e]; simp [splitOn])
      exact this.1 rfl
    rw [if_neg hne, dots_join]
    simp [unitParts]

theorem kotlinImports_mem (pkg : Str) (l : List Str) : ∀ seen p, p ∈ kotlinImports pkg seen l ↔ p ∈ l ∧ p ≠ [] ∧ p ≠ pkg ∧ p ∉ seen := by
  induction l with
  | nil => intro seen p; simp [kotlinImports]
  | cons x r ih =>
    intro seen p
    unfold kotlinImports
    split
    · rename_i hx
      rw [List.mem_cons, ih, List.mem_cons, List.mem_cons]
      constructor
      · rintro (rfl | ⟨h1, h2, h3, h4⟩)
        · exact ⟨.inl rfl, hx⟩
        · exact ⟨.inr h1, h2, h3, fun e => h4 (.inr e)⟩
      · rintro ⟨h1, h2, h3, h4⟩
        by_cases e : p = x
        · exact .inl e
        · refine .inr ⟨?_, h2, h3, by simp [e, h4]⟩
          rcases h1 with h1 | h1
          · exact absurd h1 e
          · exact h1
    · rename_i hx
      rw [ih, List.mem_cons]
      constructor
      · rintro ⟨h1, h⟩; exact ⟨.inr h1, h⟩
      · rintro ⟨rfl | h1, h⟩
        · exact absurd h hx
        · exact ⟨h1, h⟩

theorem out_types_words {fs : FS} {abs : Str → Option Str} {n : Nat} {file : Str} {us : List UnitD} {u : UnitD}
    (h : compileFile fs abs n file = some (us, .ok (some u))) (hpos : ∀ q g, fs q = .parsed g → (places g).Nodup)
    {t : FileTarget} {fails : Str → Bool} {outs : List OutUnit} (hg : generate (t.cfg fails) us = some outs)
    (hw : ∀ q g, fs q = .parsed g → Words g) : ∀ o ∈ outs, ∀ m ∈ o.types, '/' ∉ m := by
  by_cases hd : (t.cfg fails).deep = true
  · obtain ⟨-, -, -, h4, -⟩ := C55_types fs abs n file us u h hpos _ hd outs hg
    intro o ho m hm
    obtain ⟨f, hf, hty⟩ := h4 o ho
    exact (hw _ f hf).names m ((hty m).1 hm)
  · obtain ⟨-, -, -, h4⟩ := C55_top_level fs abs n file us u h hpos _ (by simpa using hd) outs hg
    intro o ho m hm
    obtain ⟨f, hf, hty⟩ := h4 o ho
    rw [hty] at hm
    exact (hw _ f hf).names m (defName_declared hm)

/-- **C58 (Java, C#, Kotlin).** The files of an output declare a package (a namespace), which in Java and Kotlin is the directory they are in.
The import statements of an output name exactly the packages the outputs of the imported files declare; Kotlin leaves out its own
package and the package without a name. -/
theorem C58_packages (fs : FS) (abs : Str → Option Str) (n : Nat) (file : Str) (us : List UnitD) (u : UnitD)
    (h : compileFile fs abs n file = some (us, .ok (some u))) (hpos : ∀ q g, fs q = .parsed g → (places g).Nodup)
    (t : FileTarget) (ht : t = .java ∨ t = .csharp ∨ t = .kotlin) (fails : Str → Bool) (outs : List OutUnit)
    (hg : generate (t.cfg fails) us = some outs) (hw : ∀ q g, fs q = .parsed g → Words g)
    (hs : ∀ q g ps, fs q = .parsed g → PartsIs t g ps → ∀ c ∈ ps, Seg c) (rel : Bool) (out : Str) (rm : List Str)
    (hrm : ∀ c ∈ rm, Seg c ∧ ',' ∉ c) (hin : ∀ o ∈ outs, ∀ x ∈ o.files, ∃ rest, rest ≠ [] ∧ splitOn '/' x = rm ++ rest)
    (o : OutUnit) (ho : o ∈ outs) :
    ∃ v ∈ us, v.path = o.path ∧
      (t ≠ .csharp → ∀ y ∈ writtenFiles (joinOn '/' rm) out [o], search (outDir out) rm (splitOn '.' (t.declText v)) = some y.dropLast) ∧
      (∀ r, r ∈ t.refs rel us v ↔ ∃ w ∈ us, Imports fs v.path w.path ∧ (t = .kotlin → t.declText w ≠ [] ∧ t.declText w ≠ t.declText v) ∧
        r = t.declText w ++ (if t = .csharp then [] else ".*".toList)) := by
  have P := Project.of h hpos
  obtain ⟨from_, -, -⟩ := genUnits_from us [] ⟨[], []⟩ outs hg
  obtain ⟨v, hv, -, hpv, hfv⟩ := from_ o ho
  change o.files = t.files v o.types at hfv
  obtain ⟨f, hf⟩ := P.parsed hv
  refine ⟨v, hv, hpv.symm, ?_, ?_⟩
  · intro hc y hy
    have ht' : t = .go ∨ t = .java ∨ t = .kotlin := by
      rcases ht with e | e | e
      · exact .inr (.inl e)
      · exact absurd e hc
      · exact .inr (.inr e)
    simp only [writtenFiles, List.flatMap_cons, List.flatMap_nil, List.append_nil, List.mem_map] at hy
    obtain ⟨x, hx, rfl⟩ := hy
    have hseg := hs _ f _ hf (unitParts_is P hv hf t)
    obtain ⟨m, hm, e⟩ := dir_files ht' hseg o.types (out_types_words h hpos hg hw o ho) x (by rw [← hfv]; exact hx)
    have hsp : splitOn '.' (t.declText v) = unitParts t v := by
      rcases ht with rfl | rfl | rfl
      · change splitOn '.' (javaText v) = javaPkg v
        unfold javaText javaPkg unitPkg
        rcases aget v.options "java_package".toList with _ | l
        · exact congrArg (splitOn '.') (join_split '.' v.pkg)
        · rfl
      · exact absurd rfl hc
      · rfl
    rw [hsp]
    exact dir_under hrm hseg (unitParts_ne t v) hm e (hin o ho x hx)
  · intro r
    rcases ht with rfl | rfl | rfl
    · simp only [FileTarget.refs, List.mem_map, imported_mem P hv, FileTarget.refText, FileTarget.declText, javaText]
      constructor
      · rintro ⟨w, ⟨h1, h2⟩, rfl⟩
        exact ⟨w, h1, h2, (fun e => by cases e), by simp⟩
      · rintro ⟨w, h1, h2, -, rfl⟩
        exact ⟨w, ⟨h1, h2⟩, by simp⟩
    · simp only [FileTarget.refs, List.mem_map, imported_mem P hv, FileTarget.refText, FileTarget.declText, csharpText]
      constructor
      · rintro ⟨w, ⟨h1, h2⟩, rfl⟩
        exact ⟨w, h1, h2, (fun e => by cases e), by simp⟩
      · rintro ⟨w, h1, h2, -, rfl⟩
        exact ⟨w, ⟨h1, h2⟩, by simp⟩
    · simp only [FileTarget.refs, List.mem_map, kotlinImports_mem, imported_mem P hv, FileTarget.declText]
      constructor
      · rintro ⟨p, ⟨⟨w, ⟨h1, h2⟩, rfl⟩, h3, h4, -⟩, rfl⟩
        exact ⟨w, h1, h2, fun _ => ⟨h3, h4⟩, by simp⟩
      · rintro ⟨w, h1, h2, h3, rfl⟩
        exact ⟨kotlinPkg w, ⟨⟨w, ⟨h1, h2⟩, rfl⟩, (h3 trivial).1, (h3 trivial).2, by simp⟩, by simp⟩

theorem genUnits_to {g : GenCfg} (us : List UnitD) (ks : List Str) (st : GenSt) (out : List OutUnit) (h : genUnits g us ks st = some out) :
    ∀ u ∈ us, skipped u = false → ∃ o ∈ out, o.path = u.path := by
  induction us generalizing ks st out with
  | nil => intro u hu; cases hu
  | cons x r ih =>
    intro u hu hs
    unfold genUnits at h
    rcases k : genUnit g x ks st with _ | ⟨ks', st', o⟩
    · rw [k] at h; cases h
    rw [k] at h
    simp only at h
    rcases k2 : genUnits g r ks' st' with _ | os
    · rw [k2] at h; cases h
    rw [k2] at h
    simp only [Option.some.injEq] at h
    subst h
    rcases List.mem_cons.1 hu with rfl | hu
    · unfold genUnit at k
      rw [if_neg (by simp [hs])] at k
      split at k
      · split at k
        · cases k
        · split at k
          · cases k
          · simp only [Option.some.injEq, Prod.mk.injEq] at k
            obtain ⟨-, -, rfl⟩ := k
            exact ⟨_, List.mem_append_left _ (List.mem_singleton.2 rfl), rfl⟩
      · split at k
        · cases k
        · simp only [Option.some.injEq, Prod.mk.injEq] at k
          obtain ⟨-, -, rfl⟩ := k
          exact ⟨_, List.mem_append_left _ (List.mem_singleton.2 rfl), rfl⟩
    · obtain ⟨o', h1, h2⟩ := ih ks' st' os k2 u hu hs
      exact ⟨o', List.mem_append_right _ h1, h2⟩

theorem importOf_gen {gen : List Str} {own : Owners} : ∀ (ns : List Str) (l : List Str), importOf gen own ns = some l → ∀ p ∈ l, p ∈ gen
  | [], l, h => by unfold importOf at h; cases h; simp
  | n :: r, l, h => by
    unfold importOf at h
    split at h
    · cases h
    · split at h
      · rename_i hp
        rcases k : importOf gen own r with _ | l'
        · rw [k] at h; cases h
        · rw [k] at h
          simp only [Option.some.injEq] at h
          subst h
          intro p hm
          rcases List.mem_cons.1 hm with rfl | hm
          · exact hp
          · exact importOf_gen r l' k p hm
      · cases h

theorem find_path {us : List UnitD} (hn : (us.map (·.path)).Nodup) {w : UnitD} (hw : w ∈ us) : us.find? (fun v => v.path = w.path) = some w := by
  rcases e : us.find? fun x => x.path = w.path with _ | x
  · rw [List.find?_eq_none] at e
    simpa using e w hw
  · have h3 := List.mem_of_find?_eq_some e
    have h4 := List.find?_some e
    simp only [decide_eq_true_eq] at h4
    exact (map_nodup_unique hn h3 hw h4) ▸ e

/-- **C58 (Go).** Every import statement of a Go output names the directory of another output, whose package has the name of that directory;
the packages of all the types the output was found to use (C56) are imported. -/
theorem C58_go (fs : FS) (abs : Str → Option Str) (n : Nat) (file : Str) (us : List UnitD) (u : UnitD)
    (h : compileFile fs abs n file = some (us, .ok (some u))) (hpos : ∀ q g, fs q = .parsed g → (places g).Nodup)
    (fails : Str → Bool) (outs : List OutUnit) (hg : generate (FileTarget.cfg .go fails) us = some outs)
    (hs : ∀ q g ps, fs q = .parsed g → PartsIs .go g ps → ∀ c ∈ ps, Seg c) (out : Str) (rm : List Str)
    (hrm : ∀ c ∈ rm, Seg c ∧ ',' ∉ c) (hin : ∀ o ∈ outs, ∀ x ∈ o.files, ∃ rest, rest ≠ [] ∧ splitOn '/' x = rm ++ rest)
    (l1 l2 : List UnitD) (v : UnitD) (hl : us = l1 ++ v :: l2) (o : OutUnit) (ho : o ∈ outs) (hov : o.path = v.path)
    (imps : List Str) (hi : resolveImports ((l1.filter fun w => !skipped w).map (·.path) ++ [v.path]) (owners us) v = some imps) :
    (∀ q ∈ imps, ∃ o' ∈ outs, o'.path = q ∧ ∃ r ∈ goRefs false us v imps, ∀ y ∈ writtenFiles (joinOn '/' rm) out [o'],
      search (outDir out) rm (splitOn '/' r) = some y.dropLast) ∧
    (∀ r ∈ goRefs false us v imps, ∃ q ∈ imps, ∃ w ∈ us, w.path = q ∧ (splitOn '/' r).getLastD [] = FileTarget.declText .go w ∧
      ∃ o' ∈ outs, o'.path = q ∧ ∀ y ∈ writtenFiles (joinOn '/' rm) out [o'], search (outDir out) rm (splitOn '/' r) = some y.dropLast) := by
  have P := Project.of h hpos
  obtain ⟨from_, -, -⟩ := genUnits_from us [] ⟨[], []⟩ outs hg
  have hv : v ∈ us := by rw [hl]; simp
  have hsv : skipped v = false := by
    obtain ⟨w, hw, h1, h2, -⟩ := from_ o ho
    rw [P.unique hv hw (by rw [← hov, h2])]
    exact h1
  have segs : ∀ w ∈ us, ∀ c ∈ goPkg w, Seg c := by
    intro w hw
    obtain ⟨f, hf⟩ := P.parsed hw
    exact hs _ f _ hf (unitParts_is P hw hf .go)
  have hne : ∀ w : UnitD, goPkg w ≠ [] := fun w => unitParts_ne .go w
  -- the units behind the imports
  have key : ∀ q ∈ imps, ∃ w ∈ us, w.path = q ∧ ∃ o' ∈ outs, o'.path = q ∧
      ∀ y ∈ writtenFiles (joinOn '/' rm) out [o'], search (outDir out) rm (goPkg w) = some y.dropLast := by
    intro q hq
    have hgen := importOf_gen _ imps hi q hq
    have : ∃ w ∈ us, w.path = q ∧ skipped w = false := by
      rcases List.mem_append.1 hgen with hm | hm
      · obtain ⟨w, hw, rfl⟩ := List.mem_map.1 hm
        rw [List.mem_filter] at hw
        exact ⟨w, by rw [hl]; exact List.mem_append_left _ hw.1, rfl, by simpa using hw.2⟩
      · rw [List.mem_singleton] at hm
        exact ⟨v, hv, hm.symm, hsv⟩
    obtain ⟨w, hw, rfl, hsk⟩ := this
    obtain ⟨o', ho', hp⟩ := genUnits_to us [] ⟨[], []⟩ outs hg w hw hsk
    refine ⟨w, hw, rfl, o', ho', hp, ?_⟩
    obtain ⟨w', hw', -, h2, h3⟩ := from_ o' ho'
    have e : w' = w := P.unique hw' hw (by rw [← h2, hp])
    subst e
    intro y hy
    simp only [writtenFiles, List.flatMap_cons, List.flatMap_nil, List.append_nil, List.mem_map] at hy
    obtain ⟨x, hx, rfl⟩ := hy
    have hx' := hx
    rw [h3] at hx'
    simp only [FileTarget.cfg, FileTarget.files, List.mem_singleton] at hx'
    refine dir_under hrm (segs w' hw) (hne w') ?_ hx' (hin o' ho' x hx)
    refine seg_name ?_ (by decide +kernel) (by decide +kernel)
    obtain ⟨i, z, e⟩ := exists_snoc _ (hne w')
    have := (segs w' hw z (by rw [e]; simp)).2.1
    rw [e, getLastD_snoc]
    exact this
  have hsplit : ∀ w ∈ us, splitOn '/' (FileTarget.refText .go false v w) = goPkg w := by
    intro w hw
    simp only [FileTarget.refText, Bool.false_eq_true, if_false, full_parts (hne w)]
    exact split_join '/' _ (hne w) (fun c hc => (segs w hw c hc).2.1)
  constructor
  · intro q hq
    obtain ⟨w, hw, hwq, o', ho', hp, hy⟩ := key q hq
    refine ⟨o', ho', hp, FileTarget.refText .go false v w, ?_, ?_⟩
    · unfold goRefs
      refine List.mem_filterMap.2 ⟨q, hq, ?_⟩
      rw [← hwq, find_path P.nodup hw]
      rfl
    · rw [hsplit w hw]
      exact hy
  · intro r hr
    unfold goRefs at hr
    obtain ⟨q, hq, e⟩ := List.mem_filterMap.1 hr
    obtain ⟨w, hw, hwq, o', ho', hp, hy⟩ := key q hq
    rw [← hwq, find_path P.nodup hw] at e
    simp only [Option.map_some, Option.some.injEq] at e
    subst e
    rw [hsplit w hw]
    exact ⟨q, hq, w, hw, hwq, rfl, o', ho', hp, hy⟩

theorem walk_length (names : List Str) : ∀ (k : Nat) (dir : List Str), k ≤ dir.length → (∀ c ∈ names, c ≠ ['.'] ∧ c ≠ ['.', '.']) →
    (walk dir (List.replicate k ['.', '.'] ++ names)).length = dir.length - k + names.length
  | 0, dir, _, hn => by
    simp only [List.replicate_zero, List.nil_append, Nat.sub_zero]
    induction names generalizing dir with
    | nil => simp [walk]
    | cons c r ih =>
      simp only [walk, if_neg (hn c (by simp)).1, if_neg (hn c (by simp)).2]
      rw [ih (dir ++ [c]) (Nat.zero_le _) (fun c hc => hn c (List.mem_cons_of_mem _ hc))]
      simp
      omega
  | k + 1, dir, hk, hn => by
    rw [List.replicate_succ, List.cons_append]
    simp only [walk, if_true]
    rw [walk_length names k dir.dropLast (by rw [List.length_dropLast]; omega) hn, List.length_dropLast]
    omega

/-- With `-relpath` the references of Go outputs are relative to the directory above the one of the output's package: from the directory
of the package, where Go starts, none of them leads to the other package. -/
theorem C58_go_relative (u v : UnitD) (D : List Str) (hv : ∀ c ∈ goPkg v, Seg c) :
    walk (D ++ goPkg u) (splitOn '/' (FileTarget.refText .go true u v)) ≠ D ++ goPkg v := by
  have hne : ∀ w : UnitD, goPkg w ≠ [] := fun w => unitParts_ne .go w
  obtain ⟨a, n, ea⟩ := exists_snoc _ (hne u)
  obtain ⟨b, m, eb⟩ := exists_snoc _ (hne v)
  simp only [FileTarget.refText, if_true, ea, eb, pkgOfParts, List.dropLast_concat, getLastD_snoc]
  rw [eb] at hv
  have hb : ∀ c ∈ b, Seg c := fun c hc => hv c (by simp [hc])
  have hm : Seg m := hv m (by simp)
  obtain ⟨k, k1, k2, k3⟩ := differencePaths_shape a b
  have hkb : k ≤ b.length := by
    have := congrArg List.length k2
    rw [List.length_take, List.length_take] at this
    omega
  have hcomps : ∀ l ∈ differencePaths a b ++ [m], '/' ∉ l := by
    intro l hl
    rcases List.mem_append.1 hl with hl | hl
    · rcases difference_mem _ _ l hl with e | hl
      · subst e; decide
      · exact (hb l hl).2.1
    · rw [List.mem_singleton] at hl; subst hl; exact hm.2.1
  have hsp : splitOn '/' ((Pkg.mk a n).toRelativePath ⟨b, m⟩ []) = differencePaths a b ++ [m] := by
    unfold Pkg.toRelativePath Pkg.difference
    rw [List.append_nil, split_join '/' _ (by simp) hcomps]
  have hlen : (walk (D ++ (a ++ [n])) (differencePaths a b ++ [m])).length = D.length + b.length + 2 := by
    rw [k3, List.append_assoc, walk_length _ _ _ (by simp; omega)]
    · simp only [List.length_append, List.length_drop, List.length_singleton]; omega
    · intro c hc
      rcases List.mem_append.1 hc with hc | hc
      · have := hb c (List.mem_of_mem_drop hc)
        exact this.2.2
      · rw [List.mem_singleton] at hc; subst hc; exact hm.2.2
  intro e
  have hl := congrArg List.length e
  have : (walk (D ++ (a ++ [n])) (splitOn '/' ((Pkg.mk a n).toRelativePathStrict ⟨b, m⟩ []))).length = D.length + b.length + 2 := by
    unfold Pkg.toRelativePathStrict
    simp only
    split
    · rw [hsp]; exact hlen
    · have e2 : ∀ s : Str, splitOn '/' ('.' :: '/' :: s) = ['.'] :: splitOn '/' s := by
        intro s
        rw [show '.' :: '/' :: s = ['.'] ++ '/' :: s from rfl, splitOn_append_gen]
        rfl
      rw [e2, hsp]
      simp only [walk]
      rw [if_neg (by decide), if_pos trivial]
      exact hlen
  rw [this] at hl
  simp only [List.length_append, List.length_singleton] at hl
  omega

/-! ### C++ and ES modules: names -/

/-- **C58 (C++).** If the file does not set `cpp_namespace`, the name by which C++ code refers to a struct of the file is the one it has in
the namespace its output declares. -/
theorem C58_cpp_names (fs : FS) (abs : Str → Option Str) (n : Nat) (file : Str) (us : List UnitD) (u : UnitD)
    (h : compileFile fs abs n file = some (us, .ok (some u))) (hpos : ∀ q g, fs q = .parsed g → (places g).Nodup)
    (v : UnitD) (hv : v ∈ us) (f : FileA) (hf : fs v.path = .parsed f) (hn : ∀ o ∈ f.opts, o.name ≠ "cpp_namespace".toList) (s : Str) :
    cppStructName v s = cppNamespace v ++ "::".toList ++ s := by
  have P := Project.of h hpos
  unfold cppStructName cppNamespace
  rcases e : aget v.options "cpp_namespace".toList with _ | l
  · rfl
  · obtain ⟨x, hx, e2, -⟩ := ((P.comp v hv).option_iff hf _ _).1 e
    exact absurd e2 (hn x hx)

/-! ### Samples -/

/-- The references in all outputs of a project -/
def refRun (fs : FS) (t : FileTarget) (rel : Bool) : Option (List (Str × List Str)) :=
  match compileFile fs some 5 ['a'] with
  | some (us, .ok (some _)) => some (us.map fun v => (v.path, t.refs rel us v))
  | _ => none

/-- The hypotheses of `C58_files` are met (see C57; nothing is removed), and there are references: `a` is `x.b`, `d` is `b`. -/
example : refRun (placeFS [] []) .c true = some [(['d'], []), (['a'], ["../b.bb.h".toList])] := by decide +kernel
example : refRun (placeFS [] []) .cpp false = some [(['d'], []), (['a'], ["b.bb.hpp".toList])] := by decide +kernel
example : refRun (placeFS [] []) .python true = some [(['d'], []), (['a'], ["..b_bb".toList])] := by decide +kernel
example : refRun (placeFS [] []) .commonjs true = some [(['d'], []), (['a'], ["../b.bb".toList])] := by decide +kernel
example : refRun (placeFS [] [⟨"java_package".toList, .str (some "j.k".toList)⟩]) .java false = some [(['d'], []), (['a'], ["j.k.*".toList])] := by
  decide +kernel
example : refRun (placeFS [] []) .csharp false = some [(['d'], []), (['a'], ["B".toList])] := by decide +kernel
example : refRun (placeFS [] []) .kotlin false = some [(['d'], []), (['a'], ["b.*".toList])] := by decide +kernel

example (outs : List OutUnit) : ∀ o ∈ outs, ∀ x ∈ o.files, ∃ rest, rest ≠ [] ∧ splitOn '/' x = [] ++ rest :=
  fun _ _ x _ => ⟨splitOn '/' x, splitOn_ne_nil _ _, rfl⟩

example : follow .c true ["o".toList] [] ["o".toList, "x".toList, "b.bb.c".toList] "../b.bb.h".toList = some ["o".toList, "b.bb.h".toList] := by
  decide +kernel
example : follow .python true ["o".toList] [] ["o".toList, "x".toList, "b_bb.py".toList] "..b_bb".toList = some ["o".toList, "b_bb.py".toList] := by
  decide +kernel

/-- The Go run: what is imported, and the references -/
def goRefRun (fs : FS) (rel : Bool) : Option (List (Option (List Str))) :=
  match compileFile fs some 5 ['a'] with
  | some (us, .ok (some _)) => some (us.map fun v => (resolveImports (us.map (·.path)) (owners us) v).map (goRefs rel us v))
  | _ => none

/-- `-relpath`: `./g` in `x/b` is `x/b/g`. -/
example : goRefRun (placeFS [] [⟨"go_package".toList, .str (some "x/g".toList)⟩]) true = some [some [], some ["./g".toList]] := by
  decide +kernel

/-- With `cpp_namespace` the struct is declared in that namespace and referred to in another one. -/
theorem C58_cpp_counterexample : ∃ us u v, compileFile (placeFS [] [⟨"cpp_namespace".toList, .str (some "n".toList)⟩]) some 5 ['a'] =
    some (us, .ok (some u)) ∧ v ∈ us ∧ cppNamespace v ++ "::".toList ++ "Leaf".toList = "n::Leaf".toList ∧
    cppStructName v "Leaf".toList = "b::Leaf".toList := by
  have key : (match compileFile (placeFS [] [⟨"cpp_namespace".toList, .str (some "n".toList)⟩]) some 5 ['a'] with
      | some (v :: us, .ok (some _)) => decide (cppNamespace v ++ "::".toList ++ "Leaf".toList = "n::Leaf".toList) &&
          decide (cppStructName v "Leaf".toList = "b::Leaf".toList)
      | _ => false) = true := by decide +kernel
  rcases e : compileFile (placeFS [] [⟨"cpp_namespace".toList, .str (some "n".toList)⟩]) some 5 ['a'] with _ | ⟨us, o⟩
  · rw [e] at key; cases key
  rw [e] at key
  rcases us with _ | ⟨v, us⟩
  · cases key
  rcases o with (_ | u) | es | _
  · cases key
  · simp only [Bool.and_eq_true, decide_eq_true_eq] at key
    exact ⟨v :: us, u, v, rfl, by simp, key⟩
  · cases key
  · cases key

/-- `a` imports `d` (package `p.b`) and `e` (package `q.b`) -/
def twinFS : FS := fun p =>
  if p = ['a'] then .parsed ⟨[some ['d'], some ['e']], ["x".toList], [], [outerTop]⟩
  else if p = ['d'] then .parsed ⟨[], ["p.b".toList], [], [leafTop]⟩
  else if p = ['e'] then .parsed ⟨[], ["q.b".toList], [], [enumTop]⟩
  else .missing

/-- ES modules give imports the last part of the package as a name: two imports may get the same name. -/
theorem C58_esm_counterexample : ∃ us u v w, compileFile twinFS some 5 ['a'] = some (us, .ok (some u)) ∧ v ∈ importedUnits us u ∧
    w ∈ importedUnits us u ∧ v.path ≠ w.path ∧ esmName v = esmName w := by
  have key : (match compileFile twinFS some 5 ['a'] with
      | some (us, .ok (some u)) =>
        (match importedUnits us u with
          | [v, w] => decide (v.path ≠ w.path) && decide (esmName v = esmName w)
          | _ => false)
      | _ => false) = true := by decide +kernel
  rcases e : compileFile twinFS some 5 ['a'] with _ | ⟨us, o⟩
  · rw [e] at key; cases key
  rw [e] at key
  rcases o with (_ | u) | es | _
  · cases key
  · simp only at key
    rcases e2 : importedUnits us u with _ | ⟨v, _ | ⟨w, _ | _⟩⟩
    · rw [e2] at key; cases key
    · rw [e2] at key; cases key
    · rw [e2] at key
      simp only [Bool.and_eq_true, decide_eq_true_eq] at key
      exact ⟨us, u, v, w, rfl, by rw [e2]; simp, by rw [e2]; simp, key⟩
    · rw [e2] at key; cases key
  · cases key
  · cases key

end Bubbler
