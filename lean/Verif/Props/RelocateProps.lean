import Verif.Compiler.Rename
import Verif.Props.PathProps

/-
C66: what is generated does not depend on where a project lies.
-/
namespace Bubbler
open Comp Gen
open Front hiding Str
open Text hiding Str

/-! ### Paths do not get into the outputs -/

section
variable {ρ : Str → Str}

theorem genTypes_ren (g : GenCfg) : ∀ (l : List (Str × TypeDef)) (st : GenSt), genTypes g (tren ρ l) st = genTypes g l st
  | [], _ => rfl
  | (n, t) :: r, st => by
    have ih := genTypes_ren g r
    show genTypes g ((n, t.ren ρ) :: tren ρ r) st = _
    unfold genTypes
    show (match genTy g t.ty st with | none => none | some st' => genTypes g (tren ρ r) st') = _
    cases genTy g t.ty st with
    | none => rfl
    | some st' => exact ih st'

theorem skipped_ren (u : UnitD) : skipped (u.ren ρ) = skipped u := by
  have h1 : (u.ren ρ).localTypes = tren ρ u.localTypes := rfl
  have h2 : omitEmpty (u.ren ρ) = omitEmpty u := rfl
  unfold skipped
  rw [h1, h2]
  cases u.localTypes <;> rfl

def OutUnit.ren (ρ : Str → Str) (o : OutUnit) : OutUnit := { o with path := ρ o.path }

theorem genUnit_ren (g : GenCfg) (hk : ∀ u, g.key (u.ren ρ) = g.key u) (hf : ∀ u, g.files (u.ren ρ) = g.files u)
    (u : UnitD) (keys : List Str) (st : GenSt) :
    genUnit g (u.ren ρ) keys st = (genUnit g u keys st).map fun x => (x.1, x.2.1, x.2.2.map (OutUnit.ren ρ)) := by
  have h1 : (u.ren ρ).localTypes = tren ρ u.localTypes := rfl
  have h2 : (u.ren ρ).path = ρ u.path := rfl
  simp only [genUnit, skipped_ren, hk, hf, h1, h2, genTypes_ren]
  split
  · rfl
  split
  · split
    · rfl
    · split <;> rfl
  · split <;> rfl

theorem genUnits_ren (g : GenCfg) (hk : ∀ u, g.key (u.ren ρ) = g.key u) (hf : ∀ u, g.files (u.ren ρ) = g.files u) :
    ∀ (us : List UnitD) (keys : List Str) (st : GenSt),
      genUnits g (us.map (·.ren ρ)) keys st = (genUnits g us keys st).map fun os => os.map (OutUnit.ren ρ)
  | [], _, _ => rfl
  | u :: r, keys, st => by
    have ih := genUnits_ren g hk hf r
    rw [List.map_cons]
    unfold genUnits
    rw [genUnit_ren g hk hf]
    cases genUnit g u keys st with
    | none => rfl
    | some x =>
      obtain ⟨keys', st', o⟩ := x
      simp only [Option.map_some, ih]
      cases genUnits g r keys' st' with
      | none => rfl
      | some os => cases o <;> rfl

theorem key_ren (t : FileTarget) (u : UnitD) : t.key (u.ren ρ) = t.key u := by cases t <;> rfl
theorem files_ren (t : FileTarget) (u : UnitD) : t.files (u.ren ρ) = t.files u := by funext l; cases t <;> rfl

theorem find_ren (h : Inj ρ) (us : List UnitD) (p : Str) :
    ((us.map (·.ren ρ)).find? fun v => v.path = ρ p) = (us.find? fun v => v.path = p).map (·.ren ρ) := by
  rw [List.find?_map]
  congr 2
  funext v
  show decide (ρ v.path = ρ p) = _
  by_cases e : v.path = p
  · simp [e]
  · have e' : ρ v.path ≠ ρ p := fun e2 => e (h _ _ e2)
    simp [e, e']

theorem importedUnits_ren (h : Inj ρ) (us : List UnitD) (u : UnitD) :
    importedUnits (us.map (·.ren ρ)) (u.ren ρ) = (importedUnits us u).map (·.ren ρ) := by
  show ((u.localImports.map ρ).filterMap fun p => (us.map (·.ren ρ)).find? fun v => v.path = p) = _
  unfold importedUnits
  rw [List.map_filterMap, List.filterMap_map]
  congr 1
  funext p
  exact find_ren h us p

theorem refText_ren (t : FileTarget) (rel : Bool) (u v : UnitD) : t.refText rel (u.ren ρ) (v.ren ρ) = t.refText rel u v := by
  cases t <;> rfl

theorem refs_ren (h : Inj ρ) (t : FileTarget) (rel : Bool) (us : List UnitD) (u : UnitD) :
    t.refs rel (us.map (·.ren ρ)) (u.ren ρ) = t.refs rel us u := by
  have h : ∀ f : UnitD → Str, (∀ v, f (v.ren ρ) = f v) → (importedUnits (us.map (·.ren ρ)) (u.ren ρ)).map f = (importedUnits us u).map f := by
    intro f hf
    rw [importedUnits_ren h, List.map_map]
    exact List.map_congr_left fun v _ => hf v
  cases t <;> first
    | exact h _ fun v => refText_ren _ rel u v
    | (show (kotlinImports _ [] _).map _ = _
       rw [h kotlinPkg fun v => rfl]
       rfl)

theorem declText_ren (t : FileTarget) (u : UnitD) : t.declText (u.ren ρ) = t.declText u := by cases t <;> rfl

/-! ### Owners -/

def oren (ρ : Str → Str) (m : Owners) : Owners := m.map fun e => (e.1, ρ e.2)

theorem oren_keys (m : Owners) : (oren ρ m).map (·.1) = m.map (·.1) := by
  unfold oren
  rw [List.map_map]
  rfl

mutual
  theorem belongTy_ren (p : Str) : ∀ (t : CTy) (m : Owners), belongTy (ρ p) t (oren ρ m) = oren ρ (belongTy p t m)
    | .basic _, m => by simp only [belongTy]
    | .str, m => by simp only [belongTy]
    | .bytes, m => by simp only [belongTy]
    | .array e _, m => by
      have h := belongTy_ren p e m
      simpa only [belongTy] using h
    | .struct (.mk n _ _ fs), m => by
      have h := belongF_ren p fs (m ++ [(n, p)])
      simp only [belongTy, oren_keys]
      split
      · rfl
      · rw [← h]; simp [oren]
    | .enum e, m => by
      simp only [belongTy, oren_keys]
      split
      · rfl
      · simp [oren]
  theorem belongF_ren (p : Str) : ∀ (fs : List FieldD) (m : Owners), belongF (ρ p) fs (oren ρ m) = oren ρ (belongF p fs m)
    | [], m => by simp only [belongF]
    | .normal _ t _ _ _ :: r, m => by
      have h1 := belongTy_ren p t m
      have h2 := belongF_ren p r (belongTy p t m)
      simp only [belongF]
      rw [h1, h2]
    | .void _ :: r, m => by
      have h := belongF_ren p r m
      simpa only [belongF] using h
    | .embedded _ _ :: r, m => by
      have h := belongF_ren p r m
      simpa only [belongF] using h
    | .const _ _ _ _ _ :: r, m => by
      have h := belongF_ren p r m
      simpa only [belongF] using h
end

theorem belongTypes_ren (p : Str) : ∀ (l : List (Str × TypeDef)) (m : Owners),
    belongTypes (ρ p) (tren ρ l) (oren ρ m) = oren ρ (belongTypes p l m)
  | [], _ => rfl
  | (n, t) :: r, m => by
    have h := belongTypes_ren p r (belongTy p t.ty m)
    show belongTypes (ρ p) (tren ρ r) (belongTy (ρ p) t.ty (oren ρ m)) = _
    rw [belongTy_ren, h]
    rfl

theorem ownersFrom_ren : ∀ (us : List UnitD) (m : Owners), ownersFrom (us.map (·.ren ρ)) (oren ρ m) = oren ρ (ownersFrom us m)
  | [], _ => rfl
  | u :: r, m => by
    have h := ownersFrom_ren r (belongTypes u.path u.localTypes m)
    show ownersFrom (r.map (·.ren ρ)) (belongTypes (ρ u.path) (tren ρ u.localTypes) (oren ρ m)) = _
    rw [belongTypes_ren, h]
    rfl

theorem owners_ren (us : List UnitD) : owners (us.map (·.ren ρ)) = oren ρ (owners us) := ownersFrom_ren us []

theorem needUnit_ren (u : UnitD) : needUnit (u.ren ρ) = needUnit u := by
  have h1 : (u.ren ρ).localTypes = tren ρ u.localTypes := rfl
  have h2 : (u.ren ρ).localNames.map (·.1) = u.localNames.map (·.1) := by
    show (nren ρ u.localNames).map _ = _
    unfold nren
    rw [List.map_map]; rfl
  unfold needUnit
  rw [h1, h2]
  unfold tren
  rw [List.flatMap_map]
  rfl

theorem importOf_ren (h : Inj ρ) (gen : List Str) (own : Owners) : ∀ ns : List Str,
    importOf (gen.map ρ) (oren ρ own) ns = (importOf gen own ns).map fun l => l.map ρ
  | [] => rfl
  | n :: r => by
    have ih := importOf_ren h gen own r
    unfold importOf
    have e : aget (oren ρ own) n = (aget own n).map ρ := aget_map' ρ own n
    rw [e]
    cases aget own n with
    | none => rfl
    | some p =>
      simp only [Option.map_some]
      by_cases hp : p ∈ gen
      · rw [if_pos hp, if_pos (h.mem.2 hp), ih]
        cases importOf gen own r <;> rfl
      · rw [if_neg hp, if_neg (mt h.mem.1 hp)]
        rfl

theorem goRefs_ren (h : Inj ρ) (rel : Bool) (us : List UnitD) (u : UnitD) (imps : List Str) :
    goRefs rel (us.map (·.ren ρ)) (u.ren ρ) (imps.map ρ) = goRefs rel us u imps := by
  unfold goRefs
  rw [List.filterMap_map]
  congr 1
  funext p
  show Option.map _ ((us.map (·.ren ρ)).find? fun v => v.path = ρ p) = _
  rw [find_ren h, Option.map_map]
  rfl

end

/-! ### Specification -/

/-- Walking along from a directory inside a tree, one never leaves the tree. -/
def Stays : List Str → List Str → Prop
  | _, [] => True
  | dir, c :: cs =>
    if c = ['.', '.'] then dir ≠ [] ∧ Stays dir.dropLast cs
    else if c = ['.'] then Stays dir cs
    else Stays (dir ++ [c]) cs

theorem walk_stays (D : List Str) : ∀ (cs dir : List Str), Stays dir cs → walk (D ++ dir) cs = D ++ walk dir cs
  | [], _, _ => rfl
  | c :: cs, dir, h => by
    unfold Stays at h
    unfold walk
    split
    · rename_i hc
      rw [if_pos hc] at h
      rw [List.dropLast_append_of_ne_nil h.1]
      exact walk_stays D cs _ h.2
    · rename_i hc
      rw [if_neg hc] at h
      split
      · rename_i hd
        rw [if_pos hd] at h
        exact walk_stays D cs _ h
      · rename_i hd
        rw [if_neg hd] at h
        rw [List.append_assoc]
        exact walk_stays D cs _ h

theorem pathTo_inj {l m : List Str} (hl : ∀ c ∈ l, IsName c) (hm : ∀ c ∈ m, IsName c) (e : pathTo l = pathTo m) : l = m := by
  rw [← placeOf_pathTo hl, ← placeOf_pathTo hm, e]

theorem dirOf_pathTo {l : List Str} (hl : ∀ c ∈ l, IsName c) (hne : l ≠ []) : dirOf (pathTo l) = l.dropLast := by
  unfold dirOf pathTo
  have h1 : splitOn '/' ('/' :: joinOn '/' l) = [] :: l := by
    have := splitOn_sep '/' [] (joinOn '/' l)
    rw [List.nil_append] at this
    rw [this, split_join '/' l hne (fun c hc => (hl c hc).2.2.2)]
    rfl
  have hd : ∀ c ∈ l.dropLast, IsName c := fun c hc => hl c (List.dropLast_subset _ hc)
  rw [h1, List.dropLast_cons_of_ne_nil hne]
  have h2 : (([] : Str) :: l.dropLast).filter (· ≠ []) = l.dropLast := by
    rw [List.filter_cons]
    simp only [ne_eq, not_true_eq_false, decide_false, Bool.false_eq_true, if_false]
    exact List.filter_eq_self.2 fun c hc => by simpa using (hd c hc).1
  rw [h2, walk_isNames hd, List.nil_append]

/-- The files needed are in the tree, if no import leads out of it. -/
theorem needs_inside {disk : List Str → Src} {D main : List Str} (hD : ∀ c ∈ D, IsName c) (hm : ∀ c ∈ main, IsName c)
    (hdir : ∀ s, disk D ≠ .text s)
    (hin : ∀ r name, Needs disk (pathTo (D ++ main)) (pathTo (D ++ r)) → Names disk (D ++ r) name →
      isAbs name = false ∧ Stays r.dropLast (pathComps name)) {q : Str} (h : Needs disk (pathTo (D ++ main)) q) :
    ∃ r, (∀ c ∈ r, IsName c) ∧ q = pathTo (D ++ r) := by
  induction h with
  | self => exact ⟨main, hm, rfl⟩
  | step hq hn ih =>
    rename_i q name
    obtain ⟨r, hr, rfl⟩ := ih
    have hall : ∀ c ∈ D ++ r, IsName c := fun c hc => (List.mem_append.1 hc).elim (hD c) (hr c)
    rw [placeOf_pathTo hall] at hn
    obtain ⟨h1, h2⟩ := hin r name hq hn
    have hne : r ≠ [] := by
      rintro rfl
      rw [List.append_nil] at hn
      obtain ⟨s, f, lit, h, -⟩ := hn
      exact hdir s h
    rw [h1, if_neg Bool.false_ne_true, dirOf_pathTo hall (by simp [hne]), List.dropLast_append_of_ne_nil hne, walk_stays D _ _ h2]
    exact ⟨_, walk_mem (fun c hc => hr c (List.dropLast_subset _ hc)) (comps_ok name), rfl⟩

theorem filterMap_eq {α β : Type} {f g : α → Option β} : ∀ {l : List α}, (∀ x ∈ l, f x = g x) → l.filterMap f = l.filterMap g
  | [], _ => rfl
  | x :: l, h => by
    rw [List.filterMap_cons, List.filterMap_cons, h x (by simp), filterMap_eq fun y hy => h y (by simp [hy])]

/-- **C66, relocation.** A directory `D` that contains all the files a project needs is moved to `D'`, on the same disk or another
one, and the imports are relative and do not lead out of the directory.  If the project compiles at the old place, it compiles at
the new one, whatever the working directories: the same units in the same order at the places moved, with the same packages, options
and types, and every target writes the same types to the same files with the same references. -/
theorem C66_relocation {disk disk' : List Str → Src} {D D' main : List Str} (hD : ∀ c ∈ D, IsName c) (hD' : ∀ c ∈ D', IsName c)
    (hm : ∀ c ∈ main, IsName c) (hdir : ∀ s, disk D ≠ .text s) (hsame : ∀ r, disk' (D' ++ r) = disk (D ++ r))
    (hin : ∀ r name, Needs disk (pathTo (D ++ main)) (pathTo (D ++ r)) → Names disk (D ++ r) name →
      isAbs name = false ∧ Stays r.dropLast (pathComps name))
    (cwd cwd' : Option Str) (file file' : Str) (hfile : absPath cwd file = some (pathTo (D ++ main)))
    (hfile' : absPath cwd' file' = some (pathTo (D' ++ main))) (hne : file' ≠ []) (n : Nat) (us : List UnitD) (u : UnitD)
    (hc : compileFile (onDisk cwd disk) (absPath cwd) n file = some (us, .ok (some u))) :
    ∃ us' u', compileFile (onDisk cwd' disk') (absPath cwd') n file' = some (us', .ok (some u')) ∧
      (∃ places : List (List Str), us.map (·.path) = places.map (fun r => pathTo (D ++ r)) ∧ us'.map (·.path) = places.map (fun r => pathTo (D' ++ r))) ∧
      (us'.map fun v => (⟨[], v.pkg, v.options, v.localTypes.map fun e => (e.1, e.2.ty)⟩ : UnitView)) =
        (us.map fun v => ⟨[], v.pkg, v.options, v.localTypes.map fun e => (e.1, e.2.ty)⟩) ∧
      (∀ t fails, (generate (FileTarget.cfg t fails) us').map (fun outs => outs.map fun o => (o.types, o.files)) =
        (generate (t.cfg fails) us).map fun outs => outs.map fun o => (o.types, o.files)) ∧
      (∀ t rel, us'.map (FileTarget.refs t rel us') = us.map (t.refs rel us)) ∧
      (∀ t, us'.map (FileTarget.declText t) = us.map t.declText) ∧
      ∀ rel fails,
        (generate (FileTarget.go.cfg fails) us').map (fun outs => us'.map fun v =>
          (resolveImports (outs.map (·.path)) (owners us') v).map (goRefs rel us' v)) =
        (generate (FileTarget.go.cfg fails) us).map (fun outs => us.map fun v =>
          (resolveImports (outs.map (·.path)) (owners us) v).map (goRefs rel us v)) := by
  obtain ⟨entry, h1, h2, -, hnd, hreach, -, -⟩ := C30_units _ _ n file us u hc
  rw [hfile, Option.some.injEq] at h1
  have habs : isAbs entry = true := by rw [← h1]; exact isAbs_pathTo _
  have hneeds : ∀ p, p ∈ us.map (·.path) ↔ Needs disk (pathTo (D ++ main)) p := by
    intro p
    rw [hreach p, h1]
    exact (reach_onDisk habs).1
  -- the places
  have hplaces : ∀ l : List Str, (∀ p ∈ l, Needs disk (pathTo (D ++ main)) p) →
      ∃ places : List (List Str), l = places.map (fun r => pathTo (D ++ r)) ∧ ∀ r ∈ places, ∀ c ∈ r, IsName c := by
    intro l
    induction l with
    | nil => intro _; exact ⟨[], rfl, fun _ h => nomatch h⟩
    | cons p l ih =>
      intro h
      obtain ⟨ps, e, hps⟩ := ih fun q hq => h q (by simp [hq])
      obtain ⟨r, hr, er⟩ := needs_inside hD hm hdir hin (h p (by simp))
      refine ⟨r :: ps, by rw [List.map_cons, ← e, er], ?_⟩
      intro r' hr'
      rcases List.mem_cons.1 hr' with rfl | hr'
      · exact hr
      · exact hps r' hr'
  obtain ⟨places, hpl, hnames⟩ := hplaces _ fun p hp => (hneeds p).1 hp
  have hall : ∀ {r : List Str} {E : List Str}, (∀ c ∈ E, IsName c) → (∀ c ∈ r, IsName c) → ∀ c ∈ E ++ r, IsName c :=
    fun hE hr c hc => (List.mem_append.1 hc).elim (hE c) (hr c)
  have hnd' : (places.map fun r => pathTo (D' ++ r)).Nodup := by
    rw [hpl] at hnd
    rw [List.nodup_iff_pairwise_ne, List.pairwise_map] at hnd ⊢
    refine hnd.imp_of_mem ?_
    intro a b ha hb hab e
    have := List.append_cancel_left (pathTo_inj (hall hD' (hnames a ha)) (hall hD' (hnames b hb)) e)
    exact hab (by rw [this])
  obtain ⟨ρ, hρ, hmap⟩ := extend_map (us.map (·.path)) (places.map fun r => pathTo (D' ++ r)) (by rw [hpl]; simp) hnd hnd'
  have hval : ∀ r, (∀ c ∈ r, IsName c) → pathTo (D ++ r) ∈ us.map (·.path) → ρ (pathTo (D ++ r)) = pathTo (D' ++ r) := by
    intro r hr hmem
    rw [hpl] at hmem hmap
    obtain ⟨r', hr', e⟩ := List.mem_map.1 hmem
    have : r' = r := List.append_cancel_left (pathTo_inj (hall hD (hnames r' hr')) (hall hD hr) e)
    subst this
    rw [List.map_map] at hmap
    exact List.map_inj_left.1 hmap r' hr'
  have hinj : Inj ρ := hρ
  -- the renamed directory
  have key : compileFile (onDisk cwd' disk') (absPath cwd') n file' = some (us.map (·.ren ρ), .ok (some (u.ren ρ))) := by
    refine compileFile_ren hinj (S := fun q => q ∈ us.map (·.path)) (p := entry) ?_ ?_ (by rw [hfile, h1])
      (by rw [hfile', ← h1, hval main hm (by rw [hneeds]; exact .self)]) hne (by rw [hneeds, ← h1]; exact .self) hc
    · intro q hq
      have hq' := (hneeds q).1 hq
      obtain ⟨r, hr, rfl⟩ := needs_inside hD hm hdir hin hq'
      rw [hval r hr hq]
      unfold onDisk srcFS
      simp only
      rw [placeOf_pathTo (hall hD' hr), placeOf_pathTo (hall hD hr), hsame r]
      cases hsrc : disk (D ++ r) with
      | missing => rfl
      | unreadable => rfl
      | text s =>
        simp only [Src.file]
        cases hread : Front.read s with
        | none => rfl
        | some f =>
          simp only [FileS.ren, FileS.parsed.injEq, FileA.ren, toFile, FileA.mk.injEq, and_true]
          rw [List.map_filterMap]
          apply filterMap_eq
          intro st hst
          cases st with
          | imp lit =>
            simp only [Option.map_some, Option.some.injEq]
            cases hu : unquote lit with
            | none => rfl
            | some name =>
              simp only [Option.bind_some]
              have hn : Names disk (D ++ r) name := ⟨s, f, lit, hsrc, hread, hst, hu⟩
              obtain ⟨k1, k2⟩ := hin r name hq' hn
              have hrne : r ≠ [] := by
                rintro rfl
                rw [List.append_nil] at hsrc
                exact hdir s hsrc
              rw [C65_import _ _ _ (isAbs_pathTo _), C65_import _ _ _ (isAbs_pathTo _), k1, if_neg Bool.false_ne_true,
                if_neg Bool.false_ne_true, dirOf_pathTo (hall hD' hr) (by simp [hrne]), dirOf_pathTo (hall hD hr) (by simp [hrne]),
                List.dropLast_append_of_ne_nil hrne, List.dropLast_append_of_ne_nil hrne, walk_stays D _ _ k2, walk_stays D' _ _ k2,
                Option.map_some, hval]
              · exact walk_mem (fun c hc => hr c (List.dropLast_subset _ hc)) (comps_ok name)
              · rw [hneeds]
                have := Needs.step hq' (by rw [placeOf_pathTo (hall hD hr)]; exact hn)
                rw [k1, if_neg Bool.false_ne_true, dirOf_pathTo (hall hD hr) (by simp [hrne]),
                  List.dropLast_append_of_ne_nil hrne, walk_stays D _ _ k2] at this
                exact this
          | _ => rfl
    · intro q r hq hi
      have hq' := (hneeds q).1 hq
      rw [hneeds, ← (reach_onDisk (cwd := cwd) (isAbs_pathTo _)).1]
      exact .step ((reach_onDisk (isAbs_pathTo _)).1.2 hq') hi
  have hgen : ∀ t fails, generate (FileTarget.cfg t fails) (us.map (·.ren ρ)) =
      (generate (t.cfg fails) us).map fun os => os.map (OutUnit.ren ρ) :=
    fun t fails => genUnits_ren _ (key_ren t) (files_ren t) us [] _
  refine ⟨us.map (·.ren ρ), u.ren ρ, key, ⟨places, hpl, ?_⟩, ?_, ?_, ?_, ?_, ?_⟩
  · rw [← hmap, List.map_map, List.map_map]
    rfl
  · rw [List.map_map]
    refine List.map_congr_left fun v _ => ?_
    simp only [Function.comp_apply, UnitD.ren, tren, List.map_map, TypeDef.ren]
    rfl
  · intro t fails
    rw [hgen, Option.map_map]
    congr 1
    funext os
    simp only [Function.comp_apply, List.map_map]
    rfl
  · intro t rel
    rw [List.map_map]
    exact List.map_congr_left fun v _ => refs_ren hinj t rel us v
  · intro t
    rw [List.map_map]
    exact List.map_congr_left fun v _ => declText_ren t v
  · intro rel fails
    rw [hgen, Option.map_map]
    congr 1
    funext os
    simp only [Function.comp_apply, List.map_map]
    refine List.map_congr_left fun v _ => ?_
    have e1 : ((fun x : OutUnit => x.path) ∘ OutUnit.ren ρ) = ρ ∘ (·.path) := rfl
    simp only [Function.comp_apply, resolveImports, needUnit_ren, owners_ren, e1]
    rw [← List.map_map, importOf_ren hinj, Option.map_map]
    congr 1
    funext imps
    exact goRefs_ren hinj rel us v imps

/-- **C66, the same command.** Running the compiler in the moved directory with the same argument gives the same. -/
theorem C66_command {disk disk' : List Str → Src} {D D' : List Str} (hD : ∀ c ∈ D, IsName c) (hD' : ∀ c ∈ D', IsName c)
    (hdir : ∀ s, disk D ≠ .text s) (hsame : ∀ r, disk' (D' ++ r) = disk (D ++ r)) (file : Str) (hrel : isAbs file = false)
    (hfile : Stays [] (pathComps file)) (hin : ∀ r name, Needs disk (pathTo (D ++ walk [] (pathComps file))) (pathTo (D ++ r)) →
      Names disk (D ++ r) name → isAbs name = false ∧ Stays r.dropLast (pathComps name)) (n : Nat) (us : List UnitD) (u : UnitD)
    (hc : compileFile (onDisk (some (pathTo D)) disk) (absPath (some (pathTo D))) n file = some (us, .ok (some u)))
    (t : FileTarget) (fails : Str → Bool) :
    ∃ us' u', compileFile (onDisk (some (pathTo D')) disk') (absPath (some (pathTo D'))) n file = some (us', .ok (some u')) ∧
      (generate (t.cfg fails) us').map (fun outs => outs.map fun o => (o.types, o.files)) =
        (generate (t.cfg fails) us).map fun outs => outs.map fun o => (o.types, o.files) := by
  have hne : file ≠ [] := by
    rintro rfl
    simp [compileFile] at hc
  have habs : ∀ {E : List Str}, (∀ c ∈ E, IsName c) → absPath (some (pathTo E)) file = some (pathTo (E ++ walk [] (pathComps file))) := by
    intro E hE
    rw [C65_main _ _ (isAbs_pathTo E), hrel, if_neg Bool.false_ne_true, placeOf_pathTo hE]
    have := walk_stays E _ _ hfile
    rw [List.append_nil] at this
    rw [this]
  obtain ⟨us', u', h1, -, -, h2, -⟩ := C66_relocation hD hD' (walk_mem (dir := []) (fun _ h => by simp at h) (comps_ok file)) hdir hsame hin _ _ file file
    (habs hD) (habs hD') hne n us u hc
  exact ⟨us', u', h1, h2 t fails⟩

/-! ### Samples -/

/-- A project of two texts in a directory. -/
def sampleDisk (D : List Str) : List Str → Src := fun p =>
  if p = D ++ ["a".toList] then .text "import \"s/../s/b\";package m.a;struct U{L x;}".toList
  else if p = D ++ ["s".toList, "b".toList] then .text "package m.b;struct L{bool b;}".toList
  else .missing

def impNames (f : List Stmt) : List (Option Str) := f.filterMap fun
  | .imp s => some (unquote s)
  | _ => none

def dirP : List Str := ["p".toList]
def dirQ : List Str := ["q".toList, "r".toList]

theorem sampleDisk_same : ∀ r, sampleDisk dirQ (dirQ ++ r) = sampleDisk dirP (dirP ++ r) := by
  intro r
  unfold sampleDisk
  simp only [List.append_cancel_left_eq]

/-- The hypotheses of the two theorems, and what comes out. -/
example : (∀ c ∈ dirP, IsName c) ∧ (∀ s, sampleDisk dirP dirP ≠ .text s) ∧ isAbs "a".toList = false ∧ Stays [] (pathComps "a".toList) ∧
    ∀ p r name, Needs (sampleDisk dirP) p (pathTo (dirP ++ r)) → Names (sampleDisk dirP) (dirP ++ r) name →
      isAbs name = false ∧ Stays r.dropLast (pathComps name) := by
  refine ⟨?_, ?_, rfl, ?_, ?_⟩
  · intro c hc
    have : c = "p".toList := by simpa [dirP] using hc
    subst this
    exact ⟨by decide, by decide, by decide, by decide⟩
  · intro s h
    have : sampleDisk dirP dirP = .missing := rfl
    rw [this] at h
    exact nomatch h
  · have : pathComps "a".toList = ["a".toList] := by decide
    rw [this]
    simp [Stays]
  · rintro p r name - ⟨s, f, lit, h1, h2, h3, h4⟩
    unfold sampleDisk at h1
    simp only [List.append_cancel_left_eq] at h1
    split at h1
    · rename_i e
      subst e
      simp only [Src.text.injEq] at h1
      subst h1
      have hf : (Front.read "import \"s/../s/b\";package m.a;struct U{L x;}".toList).map impNames = some [some "s/../s/b".toList] := by decide +kernel
      rw [h2] at hf
      simp only [Option.map_some, Option.some.injEq] at hf
      have : some name ∈ impNames f := List.mem_filterMap.2 ⟨_, h3, by simp only [h4]⟩
      rw [hf] at this
      simp only [List.mem_singleton, Option.some.injEq] at this
      subst this
      refine ⟨by decide, ?_⟩
      have hp : pathComps "s/../s/b".toList = ["s".toList, "..".toList, "s".toList, "b".toList] := by decide
      rw [hp]
      simp [Stays]
    · split at h1
      · simp only [Src.text.injEq] at h1
        subst h1
        have hf : (Front.read "package m.b;struct L{bool b;}".toList).map impNames = some [] := by decide +kernel
        rw [h2] at hf
        simp only [Option.map_some, Option.some.injEq] at hf
        have : some name ∈ impNames f := List.mem_filterMap.2 ⟨_, h3, by simp only [h4]⟩
        rw [hf] at this
        exact nomatch this
      · exact nomatch h1

def diskRun (cwd : Str) (disk : List Str → Src) (file : Str) (t : FileTarget) : Option (List (Str × List Str × List Str)) :=
  match compileFile (onDisk (some cwd) disk) (absPath (some cwd)) 5 file with
  | some (us, .ok (some _)) => (generate (t.cfg fun _ => false) us).map fun outs => outs.map fun o => (o.path, o.types, o.files)
  | _ => none

example : diskRun "/p".toList (sampleDisk dirP) "a".toList .c = some
    [("/p/s/b".toList, ["L".toList], ["m/b.bb.h".toList, "m/b.bb.c".toList]),
     ("/p/a".toList, ["U".toList], ["m/a.bb.h".toList, "m/a.bb.c".toList])] := by decide +kernel
example : diskRun "/q/r".toList (sampleDisk dirQ) "./a".toList .c = some
    [("/q/r/s/b".toList, ["L".toList], ["m/b.bb.h".toList, "m/b.bb.c".toList]),
     ("/q/r/a".toList, ["U".toList], ["m/a.bb.h".toList, "m/a.bb.c".toList])] := by decide +kernel

/-- Absolute imports are not simplified: a file that is imported by two spellings is compiled twice, and refused for its package. -/
def spelled (second : Str) : List Str → Src := fun p =>
  if p = ["a".toList] then .text "import \"/b\";import \"/c\";package a;".toList
  else if p = ["b".toList] then .text "package b;".toList
  else if p = ["c".toList] then .text ("import \"".toList ++ second ++ "\";package c;".toList)
  else .missing

theorem C65_spelling_counterexample :
    (∃ us u, compileFile (onDisk none (spelled "/b".toList)) (absPath none) 5 "/a".toList = some (us, .ok (some u))) ∧
    placeOf "//b".toList = placeOf "/b".toList ∧
    (∃ us es, compileFile (onDisk none (spelled "//b".toList)) (absPath none) 5 "/a".toList = some (us, .err es)) := by
  have h1 : (match compileFile (onDisk none (spelled "/b".toList)) (absPath none) 5 "/a".toList with
      | some (_, .ok (some _)) => true | _ => false) = true := by decide +kernel
  have h2 : (match compileFile (onDisk none (spelled "//b".toList)) (absPath none) 5 "/a".toList with
      | some (_, .err _) => true | _ => false) = true := by decide +kernel
  refine ⟨?_, by decide, ?_⟩
  · split at h1
    · rename_i us u e; exact ⟨us, u, e⟩
    · exact nomatch h1
  · split at h2
    · rename_i us es e; exact ⟨us, es, e⟩
    · exact nomatch h2

end Bubbler
