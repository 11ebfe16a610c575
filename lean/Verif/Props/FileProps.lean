import Verif.Gen.FilesProofs

/-
C57: every output goes to its own file.
-/
namespace Bubbler
open Comp Gen
open Text hiding Str

/-! ### From the outputs to the units -/

theorem genUnits_from {g : GenCfg} (us : List UnitD) (ks : List Str) (st : GenSt) (out : List OutUnit) (h : genUnits g us ks st = some out) :
    (∀ o ∈ out, ∃ u ∈ us, skipped u = false ∧ o.path = u.path ∧ o.files = g.files u o.types) ∧
      (outKeys g us).Nodup ∧ ∀ k ∈ outKeys g us, k ∉ ks := by
  induction us generalizing ks st out with
  | nil => unfold genUnits at h; cases h; simp [outKeys]
  | cons u r ih =>
    unfold genUnits at h
    rcases k : genUnit g u ks st with _ | ⟨ks', st', o⟩
    · rw [k] at h; cases h
    rw [k] at h
    simp only at h
    rcases k2 : genUnits g r ks' st' with _ | os
    · rw [k2] at h; cases h
    rw [k2] at h
    simp only [Option.some.injEq] at h
    subst h
    obtain ⟨i1, i2, i3⟩ := ih ks' st' os k2
    unfold genUnit at k
    by_cases hk : skipped u = true
    · rw [if_pos hk] at k
      cases k
      have e : outKeys g (u :: r) = outKeys g r := by simp [outKeys, hk]
      rw [e]
      refine ⟨?_, i2, i3⟩
      intro o ho
      obtain ⟨v, hv, j⟩ := i1 o (by simpa using ho)
      exact ⟨v, List.mem_cons_of_mem _ hv, j⟩
    · rw [if_neg hk] at k
      have hk' := Bool.eq_false_iff.2 hk
      have first : ∀ x : OutUnit, (∃ ns, x = ⟨u.path, ns, g.files u ns⟩) →
          ∀ o ∈ (some x).toList ++ os, ∃ v ∈ u :: r, skipped v = false ∧ o.path = v.path ∧ o.files = g.files v o.types := by
        rintro x ⟨ns, rfl⟩ o ho
        rcases List.mem_append.1 ho with ho | ho
        · simp only [Option.toList_some, List.mem_singleton] at ho
          subst ho
          exact ⟨u, by simp, hk', rfl, rfl⟩
        · obtain ⟨v, hv, j⟩ := i1 o ho
          exact ⟨v, List.mem_cons_of_mem _ hv, j⟩
      rcases hg : g.key u with _ | x
      · rw [hg] at k
        simp only at k
        rcases kt : genTypes g u.localTypes st with _ | st1
        · rw [kt] at k; cases k
        · rw [kt] at k
          cases k
          have e : outKeys g (u :: r) = outKeys g r := by simp [outKeys, hk, hg]
          rw [e]
          exact ⟨first _ ⟨_, rfl⟩, i2, i3⟩
      · rw [hg] at k
        simp only at k
        have e : outKeys g (u :: r) = x :: outKeys g r := by simp [outKeys, hk, hg]
        by_cases hx : x ∈ ks
        · rw [if_pos hx] at k; cases k
        rw [if_neg hx] at k
        rcases kt : genTypes g u.localTypes st with _ | st1
        · rw [kt] at k; cases k
        · rw [kt] at k
          cases k
          rw [e]
          refine ⟨first _ ⟨_, rfl⟩, List.nodup_cons.2 ⟨fun hm => i3 x hm (by simp), i2⟩, ?_⟩
          intro y hy
          rcases List.mem_cons.1 hy with rfl | hy
          · exact hx
          · exact fun hm => i3 y hy (List.mem_append_left _ hm)

theorem filterMap_nodup_unique {α β : Type} {f : α → Option β} {l : List α} (h : (l.filterMap f).Nodup) {a b : α} (ha : a ∈ l) (hb : b ∈ l)
    {k : β} (h1 : f a = some k) (h2 : f b = some k) : a = b := by
  induction l with
  | nil => cases ha
  | cons x r ih =>
    have hr : (r.filterMap f).Nodup := by
      cases hx : f x with
      | none => rw [List.filterMap_cons_none hx] at h; exact h
      | some y => rw [List.filterMap_cons_some hx] at h; exact (List.nodup_cons.1 h).2
    have no : ∀ c ∈ r, f c = some k → f x = some k → False := by
      intro c hc e1 e2
      rw [List.filterMap_cons_some e2] at h
      exact (List.nodup_cons.1 h).1 (List.mem_filterMap.2 ⟨c, hc, e1⟩)
    rcases List.mem_cons.1 ha with e1 | ha' <;> rcases List.mem_cons.1 hb with e2 | hb'
    · rw [e1, e2]
    · rw [e1] at h1
      exact (no b hb' h2 h1).elim
    · rw [e2] at h2
      exact (no a ha' h1 h2).elim
    · exact ih hr ha' hb'

theorem defName_declared {f : FileA} {n : Str} (h : n ∈ f.tops.map TopA.defName) : n ∈ declared f := by
  obtain ⟨t, ht, rfl⟩ := List.mem_map.1 h
  refine List.mem_flatMap.2 ⟨t, ht, ?_⟩
  cases t with
  | struct d => obtain ⟨_, _, _, _, _⟩ := d; simp [TopA.decls, StructA.decls, TopA.defName, StructA.defName]
  | enum d => simp [TopA.decls, TopA.defName]

/-! ### Names of files -/

theorem joinOn_slash (ls : List Str) (h : ls ≠ []) (c : Str) : joinOn '/' ls ++ ('/' :: c) = joinOn '/' (ls ++ [c]) := by
  rw [joinOn_append '/' ls [c] h (by simp)]
  rfl

theorem splitOn_snoc_ext (ls : List Str) (h : ls ≠ []) (hs : ∀ c ∈ ls, '/' ∉ c) (ext : Str) (he : '/' ∉ ext) :
    splitOn '/' (joinOn '/' ls ++ ext) = ls.dropLast ++ [ls.getLastD [] ++ ext] := by
  obtain ⟨i, x, rfl⟩ := exists_snoc ls h
  rw [joinOn_snoc_ext, split_join _ _ (by simp)]
  · simp [List.getLastD_eq_getLast?]
  · intro c hc
    rcases List.mem_append.1 hc with hc | hc
    · exact hs c (List.mem_append_left _ hc)
    · rw [List.mem_singleton] at hc
      subst hc
      intro hm
      rcases List.mem_append.1 hm with hm | hm
      · exact hs x (by simp) hm
      · exact he hm

/-- The parts of the package name are words. -/
theorem segs_ext {ls : List Str} (h : ls ≠ []) (hs : ∀ c ∈ ls, Seg c) {ext : Str} (he : '/' ∉ ext) (hl : 2 < ext.length) :
    ∀ c ∈ splitOn '/' (joinOn '/' ls ++ ext), Seg c := by
  rw [splitOn_snoc_ext ls h (fun c hc => (hs c hc).2.1) ext he]
  intro c hc
  rcases List.mem_append.1 hc with hc | hc
  · exact hs c (List.dropLast_subset _ hc)
  · rw [List.mem_singleton] at hc
    subst hc
    have hn : '/' ∉ ls.getLastD [] := by
      obtain ⟨i, x, rfl⟩ := exists_snoc ls h
      have := (hs x (by simp)).2.1
      simpa [List.getLastD_eq_getLast?] using this
    have hlen : 2 < (ls.getLastD [] ++ ext).length := by rw [List.length_append]; omega
    refine ⟨?_, ?_, ?_, ?_⟩
    · intro e; rw [e] at hlen; simp at hlen
    · intro hm
      rcases List.mem_append.1 hm with hm | hm
      · exact hn hm
      · exact he hm
    · intro e; rw [e] at hlen; simp at hlen
    · intro e; rw [e] at hlen; simp at hlen

theorem seg_name {n ext : Str} (h : '/' ∉ n) (he : '/' ∉ ext) (hl : 2 < ext.length) : Seg (n ++ ext) := by
  have hlen : 2 < (n ++ ext).length := by rw [List.length_append]; omega
  refine ⟨?_, ?_, ?_, ?_⟩
  · intro e; rw [e] at hlen; simp at hlen
  · intro hm
    rcases List.mem_append.1 hm with hm | hm
    · exact h hm
    · exact he hm
  · intro e; rw [e] at hlen; simp at hlen
  · intro e; rw [e] at hlen; simp at hlen

theorem joinOn_pkg_inj {a b : Str} (ha : ∀ c ∈ splitOn '.' a, Seg c) (hb : ∀ c ∈ splitOn '.' b, Seg c)
    (h : joinOn '/' (splitOn '.' a) = joinOn '/' (splitOn '.' b)) : a = b := by
  have e := congrArg (splitOn '/') h
  rw [split_join _ _ (splitOn_ne_nil _ _) (fun c hc => (ha c hc).2.1), split_join _ _ (splitOn_ne_nil _ _) (fun c hc => (hb c hc).2.1)] at e
  rw [← join_split '.' a, ← join_split '.' b, e]

/-! ### Words of the source -/

/-- What the lexer guarantees of the names in a file: the parts of the package name and the names of types contain no slash, and
the parts of the package name are not empty. -/
structure Words (f : FileA) : Prop where
  pkg : ∀ p ∈ f.pkgs, ∀ c ∈ splitOn '.' p, c ≠ [] ∧ '/' ∉ c
  names : ∀ n ∈ declared f, '/' ∉ n

/-- If the file has a `go_package`, its parts between slashes are not empty, `.` or `..`. -/
def GoParts (f : FileA) : Prop :=
  ∀ o ∈ f.opts, o.name = "go_package".toList → ∀ s, litOf o.val = some (.str s) → ∀ c ∈ splitOn '/' s, Seg c

theorem pkg_segs {p : Str} (h : ∀ c ∈ splitOn '.' p, c ≠ [] ∧ '/' ∉ c) : ∀ c ∈ splitOn '.' p, Seg c := by
  intro c hc
  have hd := split_no_sep '.' p c hc
  refine ⟨(h c hc).1, (h c hc).2, ?_, ?_⟩
  · rintro rfl; simp at hd
  · rintro rfl; simp at hd

/-- What is known of a unit with an output -/
structure Known (fs : FS) (t : FileTarget) (v : UnitD) : Prop where
  pkg : ∀ c ∈ unitPkg v, Seg c
  go : t = .go → ∀ c ∈ goPkg v, Seg c

theorem known {fs : FS} {us : List UnitD} {u : UnitD} (P : Project fs us u) {t : FileTarget} (hw : ∀ q g, fs q = .parsed g → Words g)
    (hgo : t = .go → ∀ q g, fs q = .parsed g → GoParts g) {v : UnitD} (hv : v ∈ us) : Known fs t v := by
  obtain ⟨f, hf⟩ := P.parsed hv
  have hp : ∀ c ∈ unitPkg v, Seg c := by
    have := (P.comp v hv).full.pkg
    unfold pkgOf at this
    rw [hf] at this
    simp only at this
    exact pkg_segs ((hw _ f hf).pkg v.pkg (List.mem_of_head? this))
  refine ⟨hp, ?_⟩
  intro ht
  unfold goPkg
  rcases e : aget v.options "go_package".toList with _ | l
  · exact hp
  · have hk : l.kind = .str := (P.comp v hv).option_kind e ("go_package", .str) (by simp [fileOptKinds]) rfl
    obtain ⟨o, ho, e1, e2⟩ := ((P.comp v hv).option_iff hf _ _).1 e
    cases l with
    | str s => exact hgo ht _ f hf o ho e1 s e2
    | bool _ => cases hk
    | int _ => cases hk
    | float _ _ => cases hk

/-! ### The files of two outputs -/

/-- The endings of targets with one output per unit -/
def _root_.Bubbler.Gen.FileTarget.exts : FileTarget → Option (List Str)
  | .c => some [".bb.h".toList, ".bb.c".toList]
  | .cpp => some [".bb.hpp".toList, ".bb.cpp".toList]
  | .python => some ["_bb.py".toList]
  | .csharp => some [".bb.cs".toList]
  | .commonjs => some [".bb.js".toList]
  | .esm => some [".bb.js".toList]
  | _ => none

theorem exts_files {t : FileTarget} {es : List Str} (h : t.exts = some es) (u : UnitD) (ns : List Str) :
    t.files u ns = es.map fun e => joinOn '/' (unitPkg u) ++ e := by
  cases t <;> simp only [FileTarget.exts, Option.some.injEq, reduceCtorEq] at h <;> subst h <;> rfl

theorem exts_ok {t : FileTarget} {es : List Str} (h : t.exts = some es) :
    es.Nodup ∧ (∀ e ∈ es, '/' ∉ e ∧ 2 < e.length) ∧ ∀ e ∈ es, ∀ e' ∈ es, e.length = e'.length := by
  cases t <;> simp only [FileTarget.exts, Option.some.injEq, reduceCtorEq] at h <;> subst h <;> decide +kernel

theorem go_file (u : UnitD) (ns : List Str) (hs : ∀ c ∈ goPkg u, Seg c) : ∃ x, FileTarget.files .go u ns = [x] ∧
    splitOn '/' x = goPkg u ++ [(goPkg u).getLastD [] ++ ".bb.go".toList] ∧ ∀ c ∈ splitOn '/' x, Seg c := by
  have hne : goPkg u ≠ [] := by
    unfold goPkg unitPkg
    split <;> exact splitOn_ne_nil _ _
  have hlast : Seg ((goPkg u).getLastD [] ++ ".bb.go".toList) := by
    refine seg_name ?_ (by decide +kernel) (by decide +kernel)
    obtain ⟨i, x, e⟩ := exists_snoc _ hne
    have := (hs x (by rw [e]; simp)).2.1
    rw [e]
    simpa [List.getLastD_eq_getLast?] using this
  have hall : ∀ c ∈ goPkg u ++ [(goPkg u).getLastD [] ++ ".bb.go".toList], Seg c := by
    intro c hc
    rcases List.mem_append.1 hc with hc | hc
    · exact hs c hc
    · rw [List.mem_singleton] at hc
      subst hc
      exact hlast
  have e : splitOn '/' (joinOn '/' (goPkg u) ++ ('/' :: ((goPkg u).getLastD [] ++ ".bb.go".toList))) =
      goPkg u ++ [(goPkg u).getLastD [] ++ ".bb.go".toList] := by
    rw [joinOn_slash _ hne, split_join _ _ (by simp) (fun c hc => (hall c hc).2.1)]
  exact ⟨_, rfl, e, by rw [e]; exact hall⟩

theorem java_file {u : UnitD} {ns : List Str} {x : Str} (h : x ∈ FileTarget.files .java u ns) :
    ∃ n ∈ ns, ∃ dir, x = dir ++ (n ++ ".java".toList) ∧ (dir = [] ∨ ∃ d, dir = d ++ ['/']) := by
  obtain ⟨n, hn, rfl⟩ := List.mem_map.1 h
  exact ⟨n, hn, joinOn '/' (javaPkg u) ++ ['/'], by simp, .inr ⟨_, rfl⟩⟩

theorem kotlin_file {u : UnitD} {ns : List Str} {x : Str} (h : x ∈ FileTarget.files .kotlin u ns) :
    ∃ n ∈ ns, ∃ dir, x = dir ++ (n ++ ".kt".toList) ∧ (dir = [] ∨ ∃ d, dir = d ++ ['/']) := by
  obtain ⟨n, hn, rfl⟩ := List.mem_map.1 h
  by_cases hk : dotsToSlashes (kotlinPkg u) = []
  · exact ⟨n, hn, [], by simp [hk], .inl rfl⟩
  · exact ⟨n, hn, dotsToSlashes (kotlinPkg u) ++ ['/'], by simp [hk], .inr ⟨_, rfl⟩⟩

theorem nodup_map_of_last {fs : List Str} {ns : List Str} {f : Str → Str} {wp : Str → List Str} {ext : Str} (hf : fs = ns.map f)
    (hn : ns.Nodup) (hl : ∀ n ∈ ns, (wp (f n)).getLast? = some (n ++ ext)) : (fs.map wp).Nodup := by
  subst hf
  rw [List.map_map]
  induction ns with
  | nil => simp
  | cons n r ih =>
    rw [List.nodup_cons] at hn
    rw [List.map_cons, List.nodup_cons]
    refine ⟨?_, ih hn.2 (fun m hm => hl m (List.mem_cons_of_mem _ hm))⟩
    intro hm
    obtain ⟨m, hm, e⟩ := List.mem_map.1 hm
    have e1 := hl n (by simp)
    have e2 := hl m (List.mem_cons_of_mem _ hm)
    simp only [Function.comp_apply] at e
    rw [e, e1] at e2
    simp only [Option.some.injEq] at e2
    have := List.append_cancel_right e2
    subst this
    exact hn.1 hm

/-- C57 with `-rmpath`: the files stay different if the directory that is removed is above all of them. -/
theorem C57_rmpath (fs : FS) (abs : Str → Option Str) (n : Nat) (file : Str) (us : List UnitD) (u : UnitD)
    (h : compileFile fs abs n file = some (us, .ok (some u))) (hpos : ∀ q g, fs q = .parsed g → (places g).Nodup)
    (t : FileTarget) (fails : Str → Bool) (outs : List OutUnit) (hg : generate (t.cfg fails) us = some outs)
    (hw : ∀ q g, fs q = .parsed g → Words g) (hgo : t = .go → ∀ q g, fs q = .parsed g → GoParts g)
    (rm out p : Str) (hrm : parseRmPath rm = [p]) (hab : ∀ o ∈ outs, ∀ x ∈ o.files, Above p x) :
    (writtenFiles rm out outs).Nodup := by
  have P := Project.of h hpos
  obtain ⟨from_, hkeys, -⟩ := genUnits_from us [] ⟨[], []⟩ outs hg
  -- the types of the outputs
  have types : (outs.flatMap (·.types)).Nodup ∧ (outs.map (·.path)).Sublist (us.map (·.path)) ∧
      ∀ o ∈ outs, ∀ m ∈ o.types, '/' ∉ m := by
    by_cases hd : (t.cfg fails).deep = true
    · obtain ⟨h1, h2, -, h4, -⟩ := C55_types fs abs n file us u h hpos _ hd outs hg
      refine ⟨h1, h2, ?_⟩
      intro o ho m hm
      obtain ⟨f, hf, hty⟩ := h4 o ho
      exact (hw _ f hf).names m ((hty m).1 hm)
    · obtain ⟨h1, h2, -, h4⟩ := C55_top_level fs abs n file us u h hpos _ (by simpa using hd) outs hg
      refine ⟨h1, h2, ?_⟩
      intro o ho m hm
      obtain ⟨f, hf, hty⟩ := h4 o ho
      rw [hty] at hm
      exact (hw _ f hf).names m (defName_declared hm)
  obtain ⟨hN, hS, hsl⟩ := types
  have hpaths : (outs.map (·.path)).Nodup := hS.nodup P.nodup
  have hpk := (C32_packages fs abs n file us u h).1
  unfold List.Nodup at hN hpaths
  rw [List.pairwise_flatMap] at hN
  rw [List.pairwise_map] at hpaths
  unfold writtenFiles List.Nodup
  rw [List.pairwise_flatMap, hrm]
  have plain_inj : ∀ o ∈ outs, ∀ o' ∈ outs, ∀ x ∈ o.files, ∀ y ∈ o'.files, (∀ c ∈ splitOn '/' x, Seg c) → (∀ c ∈ splitOn '/' y, Seg c) →
      writePath [p] out x = writePath [p] out y → x = y :=
    fun o ho o' ho' x hx y hy h1 h2 => write_plain_inj (hab o ho x hx) (hab o' ho' y hy) h1 h2
  constructor
  · intro o ho
    obtain ⟨v, hv, -, -, hfiles⟩ := from_ o ho
    have K := known P hw hgo hv
    change o.files = t.files v o.types at hfiles
    rcases hes : t.exts with _ | es
    · have hn1 : o.types.Nodup := hN.1 o ho
      have last : ∀ (ext : Str), '/' ∉ ext → 2 < ext.length → ∀ f : Str → Str, o.files = o.types.map f →
          (∀ m ∈ o.types, ∃ dir, f m = dir ++ (m ++ ext) ∧ (dir = [] ∨ ∃ d, dir = d ++ ['/'])) →
          (o.files.map (writePath [p] out)).Nodup := by
        intro ext h1 h2 f hf hm
        refine nodup_map_of_last hf hn1 (ext := ext) ?_
        intro m hmm
        obtain ⟨dir, e, hd⟩ := hm m hmm
        rw [e]
        refine write_last (seg_name (hsl o ho m hmm) h1 h2) hd ?_
        rw [← e]
        exact hab o ho _ (by rw [hf]; exact List.mem_map.2 ⟨m, hmm, rfl⟩)
      cases t <;> simp only [FileTarget.exts, reduceCtorEq] at hes
      · obtain ⟨x, hx, -, -⟩ := go_file v o.types (K.go rfl)
        rw [hfiles, hx]
        simp
      · refine last ".java".toList (by decide +kernel) (by decide +kernel) _ hfiles ?_
        intro m hm
        exact ⟨joinOn '/' (javaPkg v) ++ ['/'], by simp, .inr ⟨_, rfl⟩⟩
      · refine last ".kt".toList (by decide +kernel) (by decide +kernel) _ hfiles ?_
        intro m hm
        by_cases hk : dotsToSlashes (kotlinPkg v) = []
        · exact ⟨[], by simp [hk], .inl rfl⟩
        · exact ⟨dotsToSlashes (kotlinPkg v) ++ ['/'], by simp [hk], .inr ⟨_, rfl⟩⟩
    · obtain ⟨e1, e2, e3⟩ := exts_ok hes
      rw [exts_files hes] at hfiles
      have key : ∀ l : List Str, l.Nodup → (∀ e ∈ l, e ∈ es) → (l.map fun e => writePath [p] out (joinOn '/' (unitPkg v) ++ e)).Nodup := by
        intro l
        induction l with
        | nil => simp
        | cons e r ih =>
          intro hl hsub
          rw [List.nodup_cons] at hl
          rw [List.map_cons, List.nodup_cons]
          refine ⟨?_, ih hl.2 (fun e he => hsub e (List.mem_cons_of_mem _ he))⟩
          intro hm
          obtain ⟨e', he', heq⟩ := List.mem_map.1 hm
          have m1 := hsub e (by simp)
          have m2 := hsub e' (List.mem_cons_of_mem _ he')
          have := plain_inj o ho o ho _ (by rw [hfiles]; exact List.mem_map.2 ⟨e', m2, rfl⟩) _
            (by rw [hfiles]; exact List.mem_map.2 ⟨e, m1, rfl⟩)
            (segs_ext (splitOn_ne_nil _ _) K.pkg (e2 e' m2).1 (e2 e' m2).2) (segs_ext (splitOn_ne_nil _ _) K.pkg (e2 e m1).1 (e2 e m1).2) heq
          have := List.append_cancel_left this
          subst this
          exact hl.1 he'
      rw [hfiles, List.map_map]
      exact key es e1 (fun e he => he)
  · refine (hpaths.and hN.2).imp_of_mem ?_
    rintro o o' ho ho' ⟨hp, hdis⟩ z hz z' hz' heq
    subst heq
    obtain ⟨x, hx, z1⟩ := List.mem_map.1 hz
    obtain ⟨y, hy, z2⟩ := List.mem_map.1 hz'
    have heq := z1.trans z2.symm
    obtain ⟨v, hv, hskv, hpv, hfv⟩ := from_ o ho
    obtain ⟨w, hw', hskw, hpw, hfw⟩ := from_ o' ho'
    change o.files = t.files v o.types at hfv
    change o'.files = t.files w o'.types at hfw
    have hne : v ≠ w := by
      rintro rfl
      exact hp (hpv.trans hpw.symm)
    have Kv := known P hw hgo hv
    have Kw := known P hw hgo hw'
    rcases hes : t.exts with _ | es
    · have last : ∀ (ext : Str), '/' ∉ ext → 2 < ext.length →
          (∃ m ∈ o.types, ∃ dir, x = dir ++ (m ++ ext) ∧ (dir = [] ∨ ∃ d, dir = d ++ ['/'])) →
          (∃ m ∈ o'.types, ∃ dir, y = dir ++ (m ++ ext) ∧ (dir = [] ∨ ∃ d, dir = d ++ ['/'])) → False := by
        rintro ext h1 h2 ⟨m, hm, dir, rfl, hd⟩ ⟨m', hm', dir', rfl, hd'⟩
        have l1 := write_last (out := out) (seg_name (hsl o ho m hm) h1 h2) hd (hab o ho _ hx)
        have l2 := write_last (out := out) (seg_name (hsl o' ho' m' hm') h1 h2) hd' (hab o' ho' _ hy)
        rw [heq, l2] at l1
        simp only [Option.some.injEq] at l1
        exact hdis m hm m' hm' (List.append_cancel_right l1).symm
      cases t <;> simp only [FileTarget.exts, reduceCtorEq] at hes
      · obtain ⟨x', hx', sx, gx⟩ := go_file v o.types (Kv.go rfl)
        obtain ⟨y', hy', sy, gy⟩ := go_file w o'.types (Kw.go rfl)
        have hx2 := hx
        have hy2 := hy
        rw [hfv, hx', List.mem_singleton] at hx2
        rw [hfw, hy', List.mem_singleton] at hy2
        subst hx2
        subst hy2
        have := plain_inj o ho o' ho' _ hx _ hy gx gy heq
        subst this
        rw [sx] at sy
        have hpkg : goPkg v = goPkg w := List.append_inj_left' sy rfl
        refine hne (filterMap_nodup_unique hkeys (List.mem_filter.2 ⟨hv, by simp [hskv]⟩) (List.mem_filter.2 ⟨hw', by simp [hskw]⟩)
          (k := joinOn '.' (goPkg v)) rfl ?_)
        rw [hpkg]
        rfl
      · exact last ".java".toList (by decide +kernel) (by decide +kernel) (java_file (hfv ▸ hx)) (java_file (hfw ▸ hy))
      · exact last ".kt".toList (by decide +kernel) (by decide +kernel) (kotlin_file (hfv ▸ hx)) (kotlin_file (hfw ▸ hy))
    · obtain ⟨-, e2, e3⟩ := exts_ok hes
      rw [exts_files hes] at hfv hfw
      have hx2 := hx
      have hy2 := hy
      rw [hfv] at hx2
      rw [hfw] at hy2
      obtain ⟨e, he, rfl⟩ := List.mem_map.1 hx2
      obtain ⟨e', he', rfl⟩ := List.mem_map.1 hy2
      have := plain_inj o ho o' ho' _ hx _ hy (segs_ext (splitOn_ne_nil _ _) Kv.pkg (e2 e he).1 (e2 e he).2)
        (segs_ext (splitOn_ne_nil _ _) Kw.pkg (e2 e' he').1 (e2 e' he').2) heq
      have hj := List.append_inj_left' this (e3 e he e' he')
      exact hne (map_nodup_unique hpk hv hw' (joinOn_pkg_inj Kv.pkg Kw.pkg hj))

/-- C57: no output file of a run overwrites another one (with `-o out`, without `-single` and `-rmpath`). -/
theorem C57_distinct (fs : FS) (abs : Str → Option Str) (n : Nat) (file : Str) (us : List UnitD) (u : UnitD)
    (h : compileFile fs abs n file = some (us, .ok (some u))) (hpos : ∀ q g, fs q = .parsed g → (places g).Nodup)
    (t : FileTarget) (fails : Str → Bool) (outs : List OutUnit) (hg : generate (t.cfg fails) us = some outs)
    (hw : ∀ q g, fs q = .parsed g → Words g) (hgo : t = .go → ∀ q g, fs q = .parsed g → GoParts g) (out : Str) :
    (writtenFiles [] out outs).Nodup :=
  C57_rmpath fs abs n file us u h hpos t fails outs hg hw hgo [] out [] rfl fun _ _ _ _ => .inl rfl

/-! ### Where the files are -/

/-- The option that replaces the package in the output of a target, and what its parts are separated by -/
def pkgOption : FileTarget → Option (String × Char)
  | .go => some ("go_package", '/')
  | .java => some ("java_package", '.')
  | .kotlin => some ("kotlin_package", '.')
  | _ => none

/-- `ps` are the parts of the package of a file in the output of a target. -/
def PartsIs (t : FileTarget) (f : FileA) (ps : List Str) : Prop :=
  (∃ opt sep o s, pkgOption t = some (opt, sep) ∧ o ∈ f.opts ∧ o.name = opt.toList ∧ litOf o.val = some (.str s) ∧ ps = splitOn sep s) ∨
  ((∀ opt sep, pkgOption t = some (opt, sep) → ∀ o ∈ f.opts, o.name = opt.toList → ∀ s, litOf o.val ≠ some (.str s)) ∧
    ∃ pk, f.pkgs.head? = some pk ∧ ps = splitOn '.' pk)

/-- The files of an output below the output directory: package `a.b.c` gives `a/b/c.bb.h` and `a/b/c.bb.c`, in Go `a/b/c/c.bb.go`, in
Java and Kotlin `a/b/c/T.java` and `a/b/c/T.kt` for every type `T` -/
def place (t : FileTarget) (ps : List Str) (types : List Str) : List (List Str) :=
  let dir := ps.dropLast
  let name := ps.getLastD []
  match t with
  | .c => [dir ++ [name ++ ".bb.h".toList], dir ++ [name ++ ".bb.c".toList]]
  | .cpp => [dir ++ [name ++ ".bb.hpp".toList], dir ++ [name ++ ".bb.cpp".toList]]
  | .python => [dir ++ [name ++ "_bb.py".toList]]
  | .csharp => [dir ++ [name ++ ".bb.cs".toList]]
  | .commonjs => [dir ++ [name ++ ".bb.js".toList]]
  | .esm => [dir ++ [name ++ ".bb.js".toList]]
  | .go => [ps ++ [name ++ ".bb.go".toList]]
  | .java => types.map fun n => ps ++ [n ++ ".java".toList]
  | .kotlin => types.map fun n => ps ++ [n ++ ".kt".toList]

theorem exts_place {t : FileTarget} {es : List Str} (h : t.exts = some es) (ps : List Str) (ns : List Str) :
    place t ps ns = es.map fun e => ps.dropLast ++ [ps.getLastD [] ++ e] := by
  cases t <;> simp only [FileTarget.exts, Option.some.injEq, reduceCtorEq] at h <;> subst h <;> rfl

theorem dots_join (s : Str) : dotsToSlashes s = joinOn '/' (splitOn '.' s) := by
  induction s with
  | nil => rfl
  | cons c r ih =>
    have e0 : dotsToSlashes (c :: r) = (if c = '.' then '/' else c) :: dotsToSlashes r := rfl
    have e1 : splitOn '.' (c :: r) = if c = '.' then [] :: splitOn '.' r else
      match splitOn '.' r with
      | [] => [[c]]
      | l :: ls => (c :: l) :: ls := rfl
    rw [e0, e1, ih]
    rcases e : splitOn '.' r with _ | ⟨l, ls⟩
    · exact absurd e (splitOn_ne_nil _ _)
    by_cases hc : c = '.'
    · rw [if_pos hc, if_pos hc]; rfl
    · rw [if_neg hc, if_neg hc]
      cases ls <;> rfl

/-- The names of the files, cut at the slashes. -/
theorem files_parts (fs : FS) (abs : Str → Option Str) (n : Nat) (file : Str) (us : List UnitD) (u : UnitD)
    (h : compileFile fs abs n file = some (us, .ok (some u))) (hpos : ∀ q g, fs q = .parsed g → (places g).Nodup)
    (t : FileTarget) (fails : Str → Bool) (outs : List OutUnit) (hg : generate (t.cfg fails) us = some outs)
    (hw : ∀ q g, fs q = .parsed g → Words g) (o : OutUnit) (ho : o ∈ outs) :
    ∃ f ps, fs o.path = .parsed f ∧ PartsIs t f ps ∧ ((∀ c ∈ ps, Seg c) →
      o.files.map (splitOn '/') = place t ps o.types ∧ ∀ x ∈ o.files, ∀ c ∈ splitOn '/' x, Seg c) := by
  have P := Project.of h hpos
  obtain ⟨from_, -, -⟩ := genUnits_from us [] ⟨[], []⟩ outs hg
  obtain ⟨v, hv, -, hpv, hfv⟩ := from_ o ho
  obtain ⟨f, hf⟩ := P.parsed hv
  change o.files = t.files v o.types at hfv
  have hsl : ∀ m ∈ o.types, '/' ∉ m := by
    by_cases hd : (t.cfg fails).deep = true
    · obtain ⟨-, -, -, h4, -⟩ := C55_types fs abs n file us u h hpos _ hd outs hg
      intro m hm
      obtain ⟨f, hf, hty⟩ := h4 o ho
      exact (hw _ f hf).names m ((hty m).1 hm)
    · obtain ⟨-, -, -, h4⟩ := C55_top_level fs abs n file us u h hpos _ (by simpa using hd) outs hg
      intro m hm
      obtain ⟨f, hf, hty⟩ := h4 o ho
      rw [hty] at hm
      exact (hw _ f hf).names m (defName_declared hm)
  have hpk : f.pkgs.head? = some v.pkg := by
    have := (P.comp v hv).full.pkg
    unfold pkgOf at this
    rw [hf] at this
    exact this
  have hc := P.comp v hv
  have isStr : ∀ opt, (opt, Kind.str) ∈ fileOptKinds → ∀ l, aget v.options opt.toList = some l → ∃ s, l = .str s := by
    intro opt hm l e
    have hk : l.kind = .str := hc.option_kind e (opt, .str) hm rfl
    cases l with
    | str s => exact ⟨s, rfl⟩
    | bool _ => cases hk
    | int _ => cases hk
    | float _ _ => cases hk
  have snoc : ∀ (ps : List Str), (∀ c ∈ ps, Seg c) → ∀ c, Seg c → ∀ d ∈ ps ++ [c], Seg d := by
    intro ps hps c hc d hd
    rcases List.mem_append.1 hd with hd | hd
    · exact hps d hd
    · rw [List.mem_singleton] at hd
      subst hd
      exact hc
  have per : ∀ (ps : List Str) (ext : Str), ps ≠ [] → '/' ∉ ext → 2 < ext.length → (∀ c ∈ ps, Seg c) →
      o.files = o.types.map (fun m => joinOn '/' ps ++ ('/' :: (m ++ ext))) →
      o.files.map (splitOn '/') = (o.types.map fun m => ps ++ [m ++ ext]) ∧ ∀ x ∈ o.files, ∀ c ∈ splitOn '/' x, Seg c := by
    intro ps ext hne h1 h2 hs hfs
    have hall : ∀ m ∈ o.types, ∀ c ∈ ps ++ [m ++ ext], Seg c := fun m hm => snoc ps hs _ (seg_name (hsl m hm) h1 h2)
    have hsp : ∀ m ∈ o.types, splitOn '/' (joinOn '/' ps ++ ('/' :: (m ++ ext))) = ps ++ [m ++ ext] := fun m hm => by
      rw [joinOn_slash _ hne, split_join _ _ (by simp) (fun c hc => (hall m hm c hc).2.1)]
    rw [hfs]
    constructor
    · rw [List.map_map]
      exact List.map_congr_left hsp
    · intro x hx
      obtain ⟨m, hm, rfl⟩ := List.mem_map.1 hx
      intro c hc
      rw [hsp m hm] at hc
      exact hall m hm c hc
  refine ⟨f, ?_⟩
  rw [hpv]
  rcases hes : t.exts with _ | es
  · cases t <;> simp only [FileTarget.exts, reduceCtorEq] at hes
    · -- Go
      refine ⟨goPkg v, hf, ?_, ?_⟩
      · unfold goPkg
        rcases e : aget v.options "go_package".toList with _ | l
        · refine .inr ⟨?_, _, hpk, rfl⟩
          intro opt sep e1 x hx e2 s e3
          simp only [pkgOption, Option.some.injEq, Prod.mk.injEq] at e1
          obtain ⟨rfl, rfl⟩ := e1
          have := (hc.option_iff hf _ _).2 ⟨x, hx, e2, e3⟩
          rw [e] at this
          cases this
        · obtain ⟨s, rfl⟩ := isStr "go_package" (by simp [fileOptKinds]) l e
          obtain ⟨x, hx, e2, e3⟩ := (hc.option_iff hf _ _).1 e
          exact .inl ⟨_, _, x, s, rfl, hx, e2, e3, rfl⟩
      · intro hs
        obtain ⟨x, hx, sx, gx⟩ := go_file v o.types hs
        rw [hfv, hx]
        refine ⟨by simp only [List.map_cons, List.map_nil, place, sx], fun y hy => ?_⟩
        rw [List.mem_singleton] at hy
        subst hy
        exact gx
    · -- Java
      refine ⟨javaPkg v, hf, ?_, ?_⟩
      · unfold javaPkg
        rcases e : aget v.options "java_package".toList with _ | l
        · refine .inr ⟨?_, _, hpk, rfl⟩
          intro opt sep e1 x hx e2 s e3
          simp only [pkgOption, Option.some.injEq, Prod.mk.injEq] at e1
          obtain ⟨rfl, rfl⟩ := e1
          have := (hc.option_iff hf _ _).2 ⟨x, hx, e2, e3⟩
          rw [e] at this
          cases this
        · obtain ⟨s, rfl⟩ := isStr "java_package" (by simp [fileOptKinds]) l e
          obtain ⟨x, hx, e2, e3⟩ := (hc.option_iff hf _ _).1 e
          exact .inl ⟨_, _, x, s, rfl, hx, e2, e3, rfl⟩
      · intro hs
        exact per _ _ (by unfold javaPkg unitPkg; split <;> exact splitOn_ne_nil _ _) (by decide +kernel) (by decide +kernel) hs hfv
    · -- Kotlin
      refine ⟨splitOn '.' (kotlinPkg v), hf, ?_, ?_⟩
      · unfold kotlinPkg
        rcases e : aget v.options "kotlin_package".toList with _ | l
        · refine .inr ⟨?_, _, hpk, rfl⟩
          intro opt sep e1 x hx e2 s e3
          simp only [pkgOption, Option.some.injEq, Prod.mk.injEq] at e1
          obtain ⟨rfl, rfl⟩ := e1
          have := (hc.option_iff hf _ _).2 ⟨x, hx, e2, e3⟩
          rw [e] at this
          cases this
        · obtain ⟨s, rfl⟩ := isStr "kotlin_package" (by simp [fileOptKinds]) l e
          obtain ⟨x, hx, e2, e3⟩ := (hc.option_iff hf _ _).1 e
          exact .inl ⟨_, _, x, s, rfl, hx, e2, e3, rfl⟩
      · intro hs
        refine per _ _ (splitOn_ne_nil _ _) (by decide +kernel) (by decide +kernel) hs ?_
        have hne : dotsToSlashes (kotlinPkg v) ≠ [] := by
          unfold dotsToSlashes
          rw [ne_eq, List.map_eq_nil_iff]
          intro e
          rw [e] at hs
          exact (hs [] (by simp [splitOn])).1 rfl
        rw [hfv]
        refine List.map_congr_left ?_
        intro m _
        rw [if_neg hne, dots_join]
        simp
  · refine ⟨unitPkg v, hf, ?_, ?_⟩
    · refine .inr ⟨?_, _, hpk, rfl⟩
      intro opt sep e1
      cases t <;> simp only [FileTarget.exts, reduceCtorEq] at hes <;> simp [pkgOption] at e1
    · intro hs
      obtain ⟨-, e2, -⟩ := exts_ok hes
      rw [exts_files hes] at hfv
      rw [exts_place hes]
      have hall := fun e he => segs_ext (splitOn_ne_nil _ _) hs (e2 e he).1 (e2 e he).2
      have hsp := fun e he => splitOn_snoc_ext _ (splitOn_ne_nil _ _) (fun c hc => (hs c hc).2.1) e (e2 e he).1
      rw [hfv]
      refine ⟨?_, ?_⟩
      · rw [List.map_map]
        exact List.map_congr_left hsp
      · intro x hx
        obtain ⟨e, he, rfl⟩ := List.mem_map.1 hx
        exact hall e he

theorem mem_joinOn {sep x : Char} : ∀ (ls : List Str), x ∈ joinOn sep ls → x = sep ∨ ∃ c ∈ ls, x ∈ c
  | [], h => by cases h
  | [l], h => .inr ⟨l, by simp, h⟩
  | l :: l' :: ls, h => by
    change x ∈ l ++ sep :: joinOn sep (l' :: ls) at h
    rcases List.mem_append.1 h with h | h
    · exact .inr ⟨l, by simp, h⟩
    · rcases List.mem_cons.1 h with h | h
      · exact .inl h
      · rcases mem_joinOn (l' :: ls) h with h | ⟨c, hc, h⟩
        · exact .inl h
        · exact .inr ⟨c, List.mem_cons_of_mem _ hc, h⟩

theorem trim_joinOn (ls : List Str) (h : ∀ c ∈ ls, Seg c) : trimRight (· = '/') (joinOn '/' ls) = joinOn '/' ls := by
  refine trimRight_id fun i x e => ?_
  have hx : ¬ x = '/' := by
    rintro rfl
    have hl : ls ≠ [] := by rintro rfl; cases i <;> cases e
    have := split_join '/' ls hl (fun c hc => (h c hc).2.1)
    rw [e, splitOn_append_gen] at this
    have hm : ([] : Str) ∈ ls := by rw [← this]; simp [splitOn]
    exact (h _ hm).1 rfl
  simpa using hx

/-- C57: the files are written below the output directory at the place of the package, without the directory `rm` (given by `-rmpath`; empty if it is
not given) if they are in it: nowhere else and nothing else. -/
theorem C57_place (fs : FS) (abs : Str → Option Str) (n : Nat) (file : Str) (us : List UnitD) (u : UnitD)
    (h : compileFile fs abs n file = some (us, .ok (some u))) (hpos : ∀ q g, fs q = .parsed g → (places g).Nodup)
    (t : FileTarget) (fails : Str → Bool) (outs : List OutUnit) (hg : generate (t.cfg fails) us = some outs)
    (hw : ∀ q g, fs q = .parsed g → Words g) (out : Str) (rm : List Str) (hrm : ∀ c ∈ rm, Seg c ∧ ',' ∉ c) (o : OutUnit) (ho : o ∈ outs) :
    ∃ f ps, fs o.path = .parsed f ∧ PartsIs t f ps ∧ ((∀ c ∈ ps, Seg c) →
      ∀ rest : List (List Str), place t ps o.types = rest.map (rm ++ ·) → (∀ r ∈ rest, r ≠ []) →
        writtenFiles (joinOn '/' rm) out [o] = rest.map (clean (out.head? = some '/') (splitOn '/' out) ++ ·)) := by
  obtain ⟨f, ps, h1, h2, h3⟩ := files_parts fs abs n file us u h hpos t fails outs hg hw o ho
  refine ⟨f, ps, h1, h2, fun hs rest hr hne => ?_⟩
  obtain ⟨h3, h4⟩ := h3 hs
  have hcomma : ',' ∉ joinOn '/' rm := by
    intro hm
    rcases mem_joinOn _ hm with e | ⟨c, hc, hm⟩
    · exact absurd e (by decide)
    · exact (hrm c hc).2 hm
  have hparse : parseRmPath (joinOn '/' rm) = [joinOn '/' rm] := by
    unfold parseRmPath
    rw [splitOn_single ',' _ hcomma, List.map_singleton, trim_joinOn rm (fun c hc => (hrm c hc).1)]
  simp only [writtenFiles, List.flatMap_cons, List.flatMap_nil, List.append_nil, hparse]
  have key : ∀ (xs : List Str) (rest : List (List Str)), xs.map (splitOn '/') = rest.map (rm ++ ·) → (∀ r ∈ rest, r ≠ []) →
      (∀ x ∈ xs, ∀ c ∈ splitOn '/' x, Seg c) →
      xs.map (writePath [joinOn '/' rm] out) = rest.map (clean (out.head? = some '/') (splitOn '/' out) ++ ·) := by
    intro xs
    induction xs with
    | nil => intro rest e _ _; cases rest with
      | nil => rfl
      | cons r rest => cases e
    | cons x xs ih =>
      intro rest e hn hg
      cases rest with
      | nil => cases e
      | cons r rest =>
        simp only [List.map_cons, List.cons.injEq] at e ⊢
        refine ⟨?_, ih rest e.2 (fun r hr => hn r (List.mem_cons_of_mem _ hr)) (fun x hx => hg x (List.mem_cons_of_mem _ hx))⟩
        have hx := hg x (List.mem_cons_self ..)
        have hr0 := hn r (List.mem_cons_self ..)
        have hxe : x = joinOn '/' (rm ++ r) := by rw [← join_split '/' x, e.1]
        have ha : Above (joinOn '/' rm) x := by
          by_cases hrm0 : rm = []
          · subst hrm0; exact .inl rfl
          · refine .inr ⟨joinOn '/' r, ?_⟩
            rw [hxe, joinOn_append '/' rm r hrm0 hr0]
            simp
        rw [write_plain ha hx]
        obtain ⟨_, hp, -⟩ := rm_plain ha hx
        congr 1
        have hsplit : (if joinOn '/' rm = [] then [] else splitOn '/' (joinOn '/' rm)) = rm := by
          by_cases hrm0 : rm = []
          · subst hrm0; rfl
          · rw [split_join '/' rm hrm0 (fun c hc => (hrm c hc).1.2.1), if_neg]
            intro e
            have := split_join '/' rm hrm0 (fun c hc => (hrm c hc).1.2.1)
            rw [e] at this
            have hm : ([] : Str) ∈ rm := by rw [← this]; simp [splitOn]
            exact (hrm _ hm).1.1 rfl
        rw [hsplit, e.1] at hp
        exact (List.append_cancel_left hp).symm
  exact key _ _ (by rw [h3, hr]) hne h4

/-- C57: the types `place` gives files to, and the types in the files of the other targets: the ESM and Kotlin targets write the types declared at the
top level of the file, in their order (the nested ones are inside them); all others every type declared in the file. -/
theorem C57_types (fs : FS) (abs : Str → Option Str) (n : Nat) (file : Str) (us : List UnitD) (u : UnitD)
    (h : compileFile fs abs n file = some (us, .ok (some u))) (hpos : ∀ q g, fs q = .parsed g → (places g).Nodup)
    (t : FileTarget) (fails : Str → Bool) (outs : List OutUnit) (hg : generate (t.cfg fails) us = some outs) (o : OutUnit) (ho : o ∈ outs) :
    ∃ f, fs o.path = .parsed f ∧
      (if t = .esm ∨ t = .kotlin then o.types = f.tops.map TopA.defName else ∀ m, m ∈ o.types ↔ m ∈ declared f) := by
  by_cases ht : t = .esm ∨ t = .kotlin
  · simp only [if_pos ht]
    obtain ⟨-, -, -, h4⟩ := C55_top_level fs abs n file us u h hpos (t.cfg fails) (by rcases ht with rfl | rfl <;> rfl) outs hg
    exact h4 o ho
  · simp only [if_neg ht]
    obtain ⟨-, -, -, h4, -⟩ := C55_types fs abs n file us u h hpos (t.cfg fails) (by
      simp only [not_or] at ht
      simp [FileTarget.cfg, ht.1, ht.2]) outs hg
    exact h4 o ho

/-- With `-single` the one file is the output path itself, whatever `-rmpath` says (golang.go 258: `WriteFile("", …)`). -/
theorem C57_single (rm out : Str) : writePath (parseRmPath rm) out [] = clean (out.head? = some '/') (splitOn '/' out) := by
  have : ∀ ps : List Str, rmPath ps [] = [] := by
    intro ps
    induction ps with
    | nil => rfl
    | cons p r ih =>
      unfold rmPath
      split
      · simp [stripSlashes]
      · exact ih
  unfold writePath joinPath
  rw [this]
  unfold clean
  rw [List.foldl_append]
  simp [splitOn, cleanStep]

/-! ### Samples -/

/-- `a` (package `x.b`) imports `d` (package `b`); with these options -/
def placeFS (oa od : List OptA) : FS := fun p =>
  if p = ['a'] then .parsed ⟨[some ['d']], ["x.b".toList], oa, [enumTop, outerTop]⟩
  else if p = ['d'] then .parsed ⟨[], ["b".toList], od, [leafTop]⟩
  else .missing

def placeRun (fs : FS) (t : FileTarget) (rm out : Str) : Option (List (List Str)) :=
  match compileFile fs some 5 ['a'] with
  | some (us, .ok (some _)) => (generate (t.cfg fun _ => false) us).map (writtenFiles rm out)
  | _ => none

theorem placeRun_some {fs : FS} {t : FileTarget} {rm out : Str} {l : List (List Str)} (h : placeRun fs t rm out = some l) :
    ∃ us u outs, compileFile fs some 5 ['a'] = some (us, .ok (some u)) ∧ generate (t.cfg fun _ => false) us = some outs ∧
      writtenFiles rm out outs = l := by
  unfold placeRun at h
  rcases e : compileFile fs some 5 ['a'] with _ | ⟨us, o⟩
  · rw [e] at h; cases h
  · rw [e] at h
    rcases o with (_ | u) | es | _
    · cases h
    · simp only at h
      rcases e2 : generate (t.cfg fun _ => false) us with _ | out
      · rw [e2] at h; cases h
      · rw [e2] at h
        simp only [Option.map_some, Option.some.injEq] at h
        exact ⟨us, u, out, rfl, e2, h⟩
    · cases h
    · cases h

theorem place_pos (oa od : List OptA) : ∀ q g, placeFS oa od q = .parsed g → (places g).Nodup := by
  intro q g h
  unfold placeFS at h
  split at h
  · cases h; exact (by decide : (places ⟨[], [], [], [enumTop, outerTop]⟩).Nodup)
  split at h
  · cases h; exact (by decide : (places ⟨[], [], [], [leafTop]⟩).Nodup)
  · cases h

theorem place_words (oa od : List OptA) : ∀ q g, placeFS oa od q = .parsed g → Words g := by
  intro q g h
  unfold placeFS at h
  split at h
  · cases h
    exact ⟨(by decide +kernel : ∀ p ∈ ["x.b".toList], ∀ c ∈ splitOn '.' p, c ≠ [] ∧ '/' ∉ c),
      (by decide +kernel : ∀ n ∈ declared ⟨[], [], [], [enumTop, outerTop]⟩, '/' ∉ n)⟩
  split at h
  · cases h
    exact ⟨(by decide +kernel : ∀ p ∈ ["b".toList], ∀ c ∈ splitOn '.' p, c ≠ [] ∧ '/' ∉ c),
      (by decide +kernel : ∀ n ∈ declared ⟨[], [], [], [leafTop]⟩, '/' ∉ n)⟩
  · cases h

/-- The hypotheses of `C57_distinct` and `C57_place` are met, for every target. -/
example : placeRun (placeFS [] []) .c [] "/o".toList =
    some [["o".toList, "b.bb.h".toList], ["o".toList, "b.bb.c".toList], ["o".toList, "x".toList, "b.bb.h".toList],
      ["o".toList, "x".toList, "b.bb.c".toList]] := by decide +kernel

/-- With `-rmpath x` the files of package `x.b` are in the output directory itself. -/
example : place .c ["x".toList, "b".toList] [] =
    [["b.bb.h".toList], ["b.bb.c".toList]].map (["x".toList] ++ ·) ∧ Seg "x".toList ∧ ',' ∉ "x".toList := by
  refine ⟨by decide +kernel, ?_, by decide +kernel⟩
  unfold Seg
  decide +kernel

example : placeRun (placeFS [⟨"go_package".toList, .str (some "g/h".toList)⟩] []) .go [] "o".toList =
    some [["o".toList, "b".toList, "b.bb.go".toList], ["o".toList, "g".toList, "h".toList, "h.bb.go".toList]] := by decide +kernel

example : GoParts ⟨[], ["x.b".toList], [⟨"go_package".toList, .str (some "g/h".toList)⟩], []⟩ := by
  intro o ho _ s hs
  simp only [List.mem_singleton] at ho
  subst ho
  simp only [litOf, Option.map_some, Option.some.injEq, Lit.str.injEq] at hs
  subst hs
  exact (by decide +kernel : ∀ c ∈ splitOn '/' "g/h".toList, c ≠ [] ∧ '/' ∉ c ∧ c ≠ ['.'] ∧ c ≠ ['.', '.'])

example : placeRun (placeFS [⟨"java_package".toList, .str (some "j".toList)⟩] []) .java [] "o".toList =
    some [["o".toList, "b".toList, "Leaf.java".toList], ["o".toList, "j".toList, "E.java".toList], ["o".toList, "j".toList, "I.java".toList],
      ["o".toList, "j".toList, "H.java".toList], ["o".toList, "j".toList, "O.java".toList]] := by decide +kernel

example : placeRun (placeFS [⟨"kotlin_package".toList, .str (some [])⟩] []) .kotlin [] "o".toList =
    some [["o".toList, "b".toList, "Leaf.kt".toList], ["o".toList, "E.kt".toList], ["o".toList, "O.kt".toList]] := by decide +kernel

/-- A removed directory that is not above all files: the second output overwrites the first. -/
theorem C57_rmpath_counterexample : ∃ us u outs, compileFile (placeFS [] []) some 5 ['a'] = some (us, .ok (some u)) ∧
    generate (FileTarget.cfg .python fun _ => false) us = some outs ∧
    writtenFiles "x".toList "o".toList outs = [["o".toList, "b_bb.py".toList], ["o".toList, "b_bb.py".toList]] :=
  placeRun_some (by decide +kernel)

/-- An empty part in a `go_package`: the check for duplicate packages does not notice that the two outputs go to one file. -/
theorem C57_go_counterexample : ∃ us u outs,
    compileFile (placeFS [⟨"go_package".toList, .str (some "g//h".toList)⟩] [⟨"go_package".toList, .str (some "g/h".toList)⟩]) some 5 ['a'] =
      some (us, .ok (some u)) ∧
    generate (FileTarget.cfg .go fun _ => false) us = some outs ∧
    writtenFiles [] "o".toList outs =
      [["o".toList, "g".toList, "h".toList, "h.bb.go".toList], ["o".toList, "g".toList, "h".toList, "h.bb.go".toList]] :=
  placeRun_some (by decide +kernel)

end Bubbler
