import Verif.Front.MeaningUniq
import Verif.Gen.Options
import Verif.Props.SourceProps
import Verif.Props.BridgeProps

/-
C67: the definitions the compiler makes are those the texts stand for.
-/
namespace Bubbler
open Front
open Comp hiding Str
open Gen

section
variable {resolve : Str → Str → Option Str} {d : Str → Src}

/-- The statements of a text become definitions. -/
def topOf : Stmt → Option TopA
  | .struct s => some (.struct (toStruct s))
  | .enum e => some (.enum (toEnum e))
  | _ => none

theorem tops_eq (r : Str → Option Str) (f : List Stmt) : (toFile r f).tops = f.filterMap topOf := by
  unfold toFile
  congr 1

theorem toStruct_name (s : Struct) : (TopA.struct (toStruct s)).defName = s.ident.text := by
  obtain ⟨a, n, sz, b⟩ := s
  rfl

/-- One definition is visited and enters the tables. -/
theorem top_means {p : Str} {f : List Stmt} {st : Stmt} {t : TopA} {u u1 : UnitD} {td : TypeDef} (hf : HasText d p f) (hst : st ∈ f)
    (hv : Valids st.toks) (ht : topOf st = some t) (hE : Env resolve d p u) (h : visitTop t u = (.ok td, u1))
    (e1 : (u1.addLocalType td).1.globalNames = u1.globalNames) (e3 : (u1.addLocalType td).1.globalTypes = u.globalTypes ++ [(t.defName, td)]) :
    Env resolve d p (u1.addLocalType td).1 ∧
      ∀ r l, FileMeans resolve d p r l → FileMeans resolve d p (st :: r) ((t.defName, td.ty) :: l) := by
  have vis : Visible resolve d p p st := ⟨.refl, f, hf, hst⟩
  cases st with
  | struct s =>
    simp only [topOf, Option.some.injEq] at ht
    subst ht
    obtain ⟨a, n, sz, b⟩ := s
    unfold visitTop at h
    obtain ⟨v, u2, h1, h⟩ := bind_ok.1 h
    obtain ⟨rfl, rfl⟩ := getU_ok.1 h1
    obtain ⟨x, u3, h2, h⟩ := bind_ok.1 h
    obtain ⟨rfl, rfl⟩ := pure_ok.1 h
    obtain ⟨k1, k2⟩ := struct_means (.mk a n sz b) _ _ _ hE hv h2
    have E1 := hE.visit (steps_visitStruct _) (vals_visitStruct _) h2
    rw [toStruct_name] at e3 ⊢
    refine ⟨⟨?_, ?_⟩, ?_⟩
    · intro e he
      rw [e3] at he
      rcases List.mem_append.1 he with he | he
      · exact hE.types e he
      · cases List.mem_singleton.1 he
        exact ⟨.inl ⟨p, _, x, vis, rfl, k1, rfl⟩, k2⟩
    · rw [e1]; exact E1.vals
    · exact fun r l hr => .struct k1 hr
  | enum s =>
    simp only [topOf, Option.some.injEq] at ht
    subst ht
    unfold visitTop at h
    obtain ⟨v, u2, h1, h⟩ := bind_ok.1 h
    obtain ⟨rfl, rfl⟩ := getU_ok.1 h1
    obtain ⟨x, u3, h2, h⟩ := bind_ok.1 h
    obtain ⟨rfl, rfl⟩ := pure_ok.1 h
    have k1 := enum_means hE hv h2
    have k2 := visitEnum_vals h2
    have en : (TopA.enum (toEnum s)).defName = s.name.text := rfl
    rw [en] at e3 ⊢
    refine ⟨⟨?_, ?_⟩, ?_⟩
    · intro e he
      rw [e3] at he
      rcases List.mem_append.1 he with he | he
      · exact hE.types e he
      · cases List.mem_singleton.1 he
        exact ⟨.inr ⟨p, s, x, vis, rfl, k1, rfl⟩, trivial⟩
    · rw [e1]
      intro e he v hv
      rcases k2 e he with he | he
      · exact hE.vals e he v hv
      · exact ⟨p, s, x, vis, k1, he v hv⟩
    · exact fun r l hr => .enum k1 hr
  | _ => simp [topOf] at ht

theorem defs_means {p : Str} {f : List Stmt} (hf : HasText d p f) (hv : Valids (protoToks f)) : ∀ (g : List Stmt) (u u' : UnitD), (∀ st ∈ g, st ∈ f) →
    Defs (g.filterMap topOf) u u' → Good u → UInv u → Clean u ((g.filterMap topOf).flatMap TopA.places) →
    ((g.filterMap topOf).flatMap TopA.places).Nodup → Env resolve d p u →
    Env resolve d p u' ∧ ∃ L, u'.localTypes = u.localTypes ++ L ∧ FileMeans resolve d p g (L.map fun e => (e.1, e.2.ty)) := by
  intro g
  induction g with
  | nil =>
    intro u u' _ h _ _ _ _ hE
    cases h
    exact ⟨hE, [], by simp, .nil⟩
  | cons st g ih =>
    intro u u' hg h G hu hc hn hE
    have hst := hg st (List.mem_cons_self ..)
    have hg' : ∀ st ∈ g, st ∈ f := fun x hx => hg x (List.mem_cons_of_mem _ hx)
    cases ht : topOf st with
    | none =>
      rw [List.filterMap_cons_none ht] at h hc hn
      obtain ⟨i1, L, i2, i3⟩ := ih u u' hg' h G hu hc hn hE
      refine ⟨i1, L, i2, ?_⟩
      cases st with
      | imp s => exact .imp i3
      | package i is => exact .package i3
      | option o => exact .option i3
      | empty => exact .empty i3
      | struct s => simp [topOf] at ht
      | enum s => simp [topOf] at ht
    | some t =>
      rw [List.filterMap_cons_some ht] at h hc hn
      cases h with
      | cons _ _ td _ u1 _ h1 h2 =>
        rw [List.flatMap_cons] at hc hn
        have k := visitTop_new h1 hu hc.left (nodup_left hn)
        obtain ⟨e1, e2, e3, e4⟩ := addLocalType_new G h1 hu hc.left (nodup_left hn)
        have s := (steps_visitTop t).ok h1
        have hfile : td.pos.file = u1.path := by rw [visitTop_file h1, s.path]
        have hsub : ∀ X ∈ visitsT (u1.addLocalType td).1.globalTypes, X ∈ visitsT u.globalTypes ∨ X ∈ visits td.ty := by
          intro X hX
          rw [e3, visitsT_append] at hX
          rcases List.mem_append.1 hX with h | h
          · exact .inl h
          · exact .inr (by simpa [visitsT] using h)
        have hu1 : UInv (u1.addLocalType td).1 := hu.entered k (fun e he => by rw [e1]; exact he) hsub
        have hc1 : Clean (u1.addLocalType td).1 ((g.filterMap topOf).flatMap TopA.places) := by
          have := Clean.next k hc hn
          intro e he p hp
          rw [e1] at he
          rw [e2]
          exact this e he p hp
        obtain ⟨E1, step⟩ := top_means hf hst (stmt_valids hv hst) ht hE h1 e1 e3
        obtain ⟨i1, L, i2, i3⟩ := ih _ u' hg' h2 ((G.step s).addLocalType td hfile) hu1 hc1 (nodup_right hn) E1
        exact ⟨i1, (t.defName, td) :: L, by rw [i2, e4]; simp, step _ _ i3⟩

theorem TypeHere.up {p q n : Str} {ty : CTy} (h : Reach (srcFS resolve d) p q) (k : TypeHere resolve d q n ty) : TypeHere resolve d p n ty := by
  rcases k with ⟨r, s, x, ⟨k1, k2⟩, k3⟩ | ⟨r, s, x, ⟨k1, k2⟩, k3⟩
  · exact .inl ⟨r, s, x, ⟨h.trans k1, k2⟩, k3⟩
  · exact .inr ⟨r, s, x, ⟨h.trans k1, k2⟩, k3⟩

theorem ValHere.up {p q n : Str} {v : Int} (h : Reach (srcFS resolve d) p q) (k : ValHere resolve d q n v) : ValHere resolve d p n v := by
  obtain ⟨r, s, x, ⟨k1, k2⟩, k3⟩ := k
  exact ⟨r, s, x, ⟨h.trans k1, k2⟩, k3⟩

/-- What is known of a compiled text -/
structure TextInv (resolve : Str → Str → Option Str) (d : Str → Src) (p : Str) (u : UnitD) : Prop where
  env : Env resolve d p u
  means : ∃ f, HasText d p f ∧ FileMeans resolve d p f (u.localTypes.map fun e => (e.1, e.2.ty))

theorem TextInv.make {p : Str} {u : UnitD} (h : Compiled (srcFS resolve d) p u)
    (ih : ∀ q, Below (srcFS resolve d) p q → ∀ o, Compiled (srcFS resolve d) q o → TextInv resolve d q o) : TextInv resolve d p u := by
  have hpos := srcFS_places resolve d
  have hnb := h.not_below
  obtain ⟨f, u1, h1, g, h3, h4, h5, h6, h7, h8⟩ := h.defs_full
  have hu1 : UInv u1 := FileInv.start h (fun _ _ o ho => Compiled.fileInv hpos ho) h5 h6 h8 g
  have hc : Clean u1 (places f) := by
    intro e he p' _ e2
    obtain ⟨_, -, -, hb⟩ := h6 _ he
    rw [e2, h3] at hb
    exact hnb hb
  have hE : Env resolve d p u1 := by
    refine ⟨?_, ?_⟩
    · intro e he
      obtain ⟨o, k1, k2, k3⟩ := h5 e he
      have := (ih _ k3 o k1).env.types e ((k1.full.good.locTypes e).1 k2).1
      exact ⟨TypeHere.up k3.reach this.1, this.2⟩
    · intro e he v hv
      obtain ⟨o, k1, k2, k3⟩ := h6 e he
      exact ValHere.up k3.reach ((ih _ k3 o k1).env.vals e ((k1.full.good.tab.localIff e).1 k2).1 v hv)
  obtain ⟨s, t, t1, t2, rfl⟩ := srcFS_parsed h1
  have hn := hpos p _ h1
  unfold places at hc hn
  rw [tops_eq] at h4 hc hn
  obtain ⟨i1, L, i2, i3⟩ := defs_means ⟨s, t1, t2⟩ (read_valids t2) t u1 u (fun _ hx => hx) h4 g hu1 hc hn hE
  rw [h7, List.nil_append] at i2
  rw [← i2] at i3
  exact ⟨i1, t, ⟨s, t1, t2⟩, i3⟩

theorem Comp.Compiled.textInv {p : Str} {u : UnitD} (h : Compiled (srcFS resolve d) p u) : TextInv resolve d p u := by
  have key : ∀ p, _root_.Acc (fun q r => Imports (srcFS resolve d) r q) p → ∀ q, Reach (srcFS resolve d) p q → ∀ o,
      Compiled (srcFS resolve d) q o → TextInv resolve d q o := by
    intro p hacc
    induction hacc with
    | intro p _ ih =>
      intro q hr o ho
      rcases hr.cases_head with rfl | ⟨r, hr, hq⟩
      · exact TextInv.make ho (fun q' ⟨r, hr, hq⟩ o' ho' => ih r hr q' hq o' ho')
      · exact ih r hr q hq o ho
  exact key p h.acc p .refl u h


/-! ### The head of a text -/

theorem fullName_dots (i : Id) (is : List Id) : fullName i is = (((i :: is).map (·.text)).intersperse ['.']).flatten := by
  induction is generalizing i with
  | nil => simp [fullName]
  | cons j r ih =>
    have := ih j
    simp only [fullName, List.map_cons, List.flatMap_cons] at this ⊢
    rw [List.intersperse_cons_cons, List.flatten_cons, List.flatten_cons, ← this]
    simp

theorem Comp.Compiled.head {p : Str} {u : UnitD} (h : Compiled (srcFS resolve d) p u) {f : List Stmt} (hf : HasText d p f) : HeadMeans f u.pkg u.options := by
  obtain ⟨s, t1, t2⟩ := hf
  cases h with
  | mk _ g ps u0 u1 _ h1 h2 h3 h4 h5 =>
    obtain ⟨s', f', t1', t2', rfl⟩ := srcFS_parsed h1
    rw [t1] at t1'; cases t1'
    rw [t2] at t2'; cases t2'
    have e := proto_visitProto (toFile (resolve p) f).tops [] u1
    have e1 := e.options
    have e2 := e.pkg
    rw [h5] at e1 e2
    simp only at e1 e2
    obtain ⟨pk, lits, k0, k1, k2, k3, rfl⟩ := (C28_file_options _ _ _).1 h3
    have e3 : u1.pkg = pk := by
      have a := (h4.part (Part.start h1 h3) (fun r o _ ho => ho.full)).pkg
      unfold pkgOf at a
      rw [h1] at a
      simp only [k0, List.head?_cons, Option.some.injEq] at a
      exact a.symm
    rw [e1, e2, e3, imported_options h4]
    refine ⟨?_, ?_⟩
    · have : (f.filterMap fun | .package i is => some (i, is) | _ => none).map (fun x => fullName x.1 x.2) = [pk] := by
        rw [← k0]
        unfold toFile
        simp only [List.map_filterMap]
        congr 1
        funext st
        cases st <;> rfl
      obtain ⟨⟨i, is⟩, hx, rfl⟩ := List.map_eq_singleton_iff.1 this
      exact ⟨i, is, hx, fullName_dots i is⟩
    · have : (toFile (resolve p) f).opts = (f.filterMap fun | .option o => some o | _ => none).map toOpt := by
        unfold toFile
        simp only [List.map_filterMap]
        congr 1
        funext st
        cases st <;> rfl
      rw [this] at k1 ⊢
      refine opts_zip ?_ k1
      intro o ho t ht
      obtain ⟨st, hst, e⟩ := List.mem_filterMap.1 ho
      cases st with
      | option o' =>
        simp only [Option.some.injEq] at e
        subst e
        exact stmt_valids (read_valids t2) hst t (by simp [Stmt.toks, Opt.toks, ht])
      | _ => exact nomatch e

/-! ### No text sees a name twice -/

/-- The names a definition at the top of a file brings -/
def topNames (t : TopA) : List Str := t.defName :: t.valNames

theorem addEnumNames_has (vs : List (Pos × Str × Int)) (errs : List CErr) (u u' : UnitD) (x : Unit)
    (h : addEnumNames vs errs u = (.ok x, u')) :
    (∀ e ∈ u.globalNames, e ∈ u'.globalNames) ∧ (errs = [] ∧ ∀ a ∈ vs, ∃ D, (a.2.1, D) ∈ u'.globalNames ∧ D.pos = a.1) := by
  induction vs generalizing errs u with
  | nil =>
    unfold addEnumNames at h
    split at h
    · obtain ⟨-, rfl⟩ := pure_ok.1 h
      rename_i he
      exact ⟨fun e he => he, he, fun a ha => nomatch ha⟩
    · cases h
  | cons a r ih =>
    obtain ⟨p, n, v⟩ := a
    unfold addEnumNames at h
    rcases k : addLocalName n ⟨p, some v⟩ u with ⟨o, u1⟩
    rw [k] at h
    unfold addLocalName UnitD.addLocalName at k
    cases hc : u.conflicts n p <;> simp only [hc, Bool.false_eq_true, if_true, if_false, Prod.mk.injEq] at k
    · obtain ⟨rfl, e⟩ := k
      have g1 : u1.globalNames = aput u.globalNames n ⟨p, some v⟩ := by rw [← e]
      obtain ⟨i1, i2, i3⟩ := ih _ _ h
      have i0 : ∀ e ∈ u.globalNames, e ∈ u1.globalNames := fun e he => by rw [g1]; exact mem_aput he
      refine ⟨fun e he => i1 e (i0 e he), i2, ?_⟩
      intro a ha
      rcases List.mem_cons.1 ha with rfl | ha
      · rcases hg : aget u.globalNames n with _ | D
        · refine ⟨⟨p, some v⟩, i1 _ ?_, rfl⟩
          rw [g1, aput_new _ _ _ (aget_none_iff.1 hg)]
          simp
        · exact ⟨D, i1 _ (i0 _ (aget_mem hg)), conflicts_iff.1 hc D hg⟩
      · exact i3 a ha
    · obtain ⟨rfl, e⟩ := k
      obtain ⟨-, i2, -⟩ := ih _ _ h
      simp at i2

theorem visitEnum_has {e : EnumA} {u u' : UnitD} {x : EnumD} (h : visitEnum e u = (.ok x, u')) :
    ∀ n ∈ (TopA.enum e).valNames, ∃ D, (n, D) ∈ u'.globalNames ∧ ∃ pl ∈ (TopA.enum e).places, D.pos = ⟨u.path, pl.1, pl.2⟩ := by
  unfold visitEnum at h
  obtain ⟨n, v1, k1, h3⟩ := bind_ok.1 h
  obtain ⟨_, _, hg, h4⟩ := bind_ok.1 h3
  obtain ⟨rfl, rfl⟩ := getU_ok.1 hg
  obtain ⟨_, v2, k2, h5⟩ := bind_ok.1 h4
  obtain ⟨sz, v3, k3, h6⟩ := bind_ok.1 h5
  obtain ⟨vs, v4, k4, h7⟩ := bind_ok.1 h6
  obtain ⟨-, -, e3, -⟩ := visitEnumBody_ok _ _ _ _ _ _ k4 (by simp)
  have e4 := visitEnumBody_places _ _ _ _ _ _ k4
  have s1 := (steps_visitName _ _ _).ok k1
  have s2 : Step v1 v2 := by
    have := step_addLocalName v1 n ⟨⟨v1.path, e.line, e.col⟩, none⟩ rfl
    rw [k2] at this
    exact this
  have s3 := (steps_visitSizeA _).ok k3
  split at h7
  · exact absurd h7 (by simp [fail])
  · obtain ⟨_, v5, k5, h8⟩ := bind_ok.1 h7
    obtain ⟨rfl, rfl⟩ := pure_ok.1 h8
    obtain ⟨-, -, i⟩ := addEnumNames_has _ _ _ _ _ k5
    intro m hm
    have hm : m ∈ vs.map (·.2.1) := by
      rw [e3]
      simpa [TopA.valNames] using hm
    obtain ⟨a, ha, rfl⟩ := List.mem_map.1 hm
    obtain ⟨D, i1, i2⟩ := i a ha
    rcases e4 a ha with hx | ⟨pl, hp, hx⟩
    · exact nomatch hx
    · refine ⟨D, i1, pl, by simp [TopA.places, hp], ?_⟩
      rw [i2, hx, s3.path, s2.path, s1.path]

theorem visitTop_has {t : TopA} {u u' : UnitD} {td : TypeDef} (h : visitTop t u = (.ok td, u')) :
    ∀ n ∈ topNames t, ∃ D, (n, D) ∈ u'.globalNames ∧ ∃ pl ∈ t.places, D.pos = ⟨u.path, pl.1, pl.2⟩ := by
  intro n hn
  rcases List.mem_cons.1 hn with rfl | hn
  · obtain ⟨D, h1, h2⟩ := visitTop_entry h
    refine ⟨D, h1, t.at, ?_, by rw [h2, (visitTop_def h).1]⟩
    cases t with
    | struct d => obtain ⟨_, _, _, _, _⟩ := d; simp [TopA.at, TopA.places, StructA.places]
    | enum d => simp [TopA.at, TopA.places]
  · cases t with
    | struct d => simp [TopA.valNames] at hn
    | enum e =>
      unfold visitTop at h
      obtain ⟨v, u2, h1, h⟩ := bind_ok.1 h
      obtain ⟨rfl, rfl⟩ := getU_ok.1 h1
      obtain ⟨x, u3, h2, h⟩ := bind_ok.1 h
      obtain ⟨rfl, rfl⟩ := pure_ok.1 h
      exact visitEnum_has h2 n hn

theorem addLocalType_grow (u : UnitD) (t : TypeDef) : ∀ e ∈ u.globalNames, e ∈ (u.addLocalType t).1.globalNames := by
  intro e he
  rcases addLocalType_cases u t with h | ⟨-, h⟩ <;> rw [h]
  · exact he
  · exact mem_aput he

theorem addLocalType_path (u : UnitD) (t : TypeDef) : (u.addLocalType t).1.path = u.path := by
  rcases addLocalType_cases u t with h | ⟨-, h⟩ <;> rw [h]

theorem defs_has {ts : List TopA} {u u' : UnitD} (h : Defs ts u u') : (∀ e ∈ u.globalNames, e ∈ u'.globalNames) ∧
    ∀ t ∈ ts, ∀ n ∈ topNames t, ∃ D, (n, D) ∈ u'.globalNames ∧ ∃ pl ∈ t.places, D.pos = ⟨u.path, pl.1, pl.2⟩ := by
  induction h with
  | nil u => exact ⟨fun e he => he, fun t ht => nomatch ht⟩
  | cons t r td u u1 u2 h1 h2 ih =>
    have s := (steps_visitTop t).ok h1
    obtain ⟨x, hx, -⟩ := s.globalNames
    refine ⟨fun e he => ih.1 e (addLocalType_grow _ _ e (by rw [hx]; exact List.mem_append_left _ he)), ?_⟩
    intro t' ht n hn
    rcases List.mem_cons.1 ht with rfl | ht
    · obtain ⟨D, k1, k2⟩ := visitTop_has h1 n hn
      exact ⟨D, ih.1 _ (addLocalType_grow _ _ _ k1), k2⟩
    · obtain ⟨D, k1, pl, k2, k3⟩ := ih.2 t' ht n hn
      exact ⟨D, k1, pl, k2, by rw [k3, addLocalType_path, s.path]⟩

theorem defs_each {ts : List TopA} {u u' : UnitD} (h : Defs ts u u') : ∀ t ∈ ts, ∃ a b td, visitTop t a = (.ok td, b) := by
  induction h with
  | nil u => exact fun t ht => nomatch ht
  | cons t r td u u1 u2 h1 h2 ih =>
    intro t' ht
    rcases List.mem_cons.1 ht with rfl | ht
    · exact ⟨_, _, _, h1⟩
    · exact ih t' ht

theorem flatMap_unique {α β : Type} (P : α → List β) (l : List α) (h : (l.flatMap P).Nodup) {a b : α} (ha : a ∈ l) (hb : b ∈ l) {x : β}
    (h1 : x ∈ P a) (h2 : x ∈ P b) : a = b := by
  induction l with
  | nil => exact nomatch ha
  | cons c r ih =>
    rw [List.flatMap_cons] at h
    have hd := List.nodup_append.1 h
    rcases List.mem_cons.1 ha with rfl | ha' <;> rcases List.mem_cons.1 hb with e | hb'
    · exact e.symm
    · exact absurd rfl (hd.2.2 x h1 x (List.mem_flatMap.2 ⟨b, hb', h2⟩))
    · subst e; exact absurd rfl (hd.2.2 x h2 x (List.mem_flatMap.2 ⟨a, ha', h1⟩))
    · exact ih hd.2.1 ha' hb'

def stPlaces (st : Stmt) : List (Nat × Nat) := ((topOf st).map TopA.places).getD []

theorem stPlaces_eq (f : List Stmt) : (f.filterMap topOf).flatMap TopA.places = f.flatMap stPlaces := by
  induction f with
  | nil => rfl
  | cons st r ih =>
    cases h : topOf st with
    | none => rw [List.filterMap_cons_none h, List.flatMap_cons, ih]; simp [stPlaces, h]
    | some t => rw [List.filterMap_cons_some h, List.flatMap_cons, List.flatMap_cons, ih]; simp [stPlaces, h]

/-- What a text sees is in the tables. -/
theorem visible_has {p q n : Str} {u : UnitD} {st : Stmt} {t : TopA} (h : Compiled (srcFS resolve d) p u) (v : Visible resolve d p q st)
    (ht : topOf st = some t) (hn : n ∈ topNames t) :
    ∃ D, (n, D) ∈ u.globalNames ∧ ∃ pl ∈ stPlaces st, D.pos = ⟨q, pl.1, pl.2⟩ := by
  obtain ⟨hr, f, ⟨s, t1, t2⟩, hs⟩ := v
  obtain ⟨o, ho⟩ := h.reach hr
  obtain ⟨g, u1, k1, -, k3, k4, -⟩ := ho.defs_full
  obtain ⟨s', f', t1', t2', rfl⟩ := srcFS_parsed k1
  rw [t1] at t1'; cases t1'
  rw [t2] at t2'; cases t2'
  rw [tops_eq] at k4
  obtain ⟨D, j1, pl, j2, j3⟩ := (defs_has k4).2 t (List.mem_filterMap.2 ⟨st, hs, ht⟩) n hn
  refine ⟨D, ?_, pl, by simpa [stPlaces, ht] using j2, by rw [j3, k3]⟩
  rcases hr.cases_head with rfl | ⟨r, hr1, hr2⟩
  · rw [h.det ho]; exact j1
  · exact (h.full.closed q o ⟨r, hr1, hr2⟩ ho).2 _ j1

theorem valNames_eq (e : Enum) : (TopA.enum (toEnum e)).valNames = e.valNames := by
  obtain ⟨a, n, sz, b⟩ := e
  simp only [TopA.valNames, toEnum, Enum.valNames]
  induction b with
  | nil => rfl
  | cons x r ih =>
    cases x with
    | empty => simpa [enumElems, toEnumElem] using ih
    | value n v os c => simpa [enumElems, toEnumElem] using ih

theorem Comp.Compiled.uniq {p : Str} {u : UnitD} (h : Compiled (srcFS resolve d) p u) : Uniq resolve d p := by
  have key : ∀ {q q' : Str} {st st' : Stmt} {t t' : TopA} {n : Str}, Visible resolve d p q st → Visible resolve d p q' st' →
      topOf st = some t → topOf st' = some t' → n ∈ topNames t → n ∈ topNames t' → q = q' ∧ st = st' := by
    intro q q' st st' t t' n v v' ht ht' hn hn'
    obtain ⟨D, k1, pl, k2, k3⟩ := visible_has h v ht hn
    obtain ⟨D', k1', pl', k2', k3'⟩ := visible_has h v' ht' hn'
    cases keyed_unique h.full.good.keyed.names k1 k1'
    rw [k3] at k3'
    simp only [Pos.mk.injEq] at k3'
    obtain ⟨rfl, e1, e2⟩ := k3'
    have e : pl = pl' := Prod.ext e1 e2
    subst e
    obtain ⟨-, f, ⟨s, t1, t2⟩, hs⟩ := v
    obtain ⟨-, f', ⟨s', t1', t2'⟩, hs'⟩ := v'
    rw [t1] at t1'; cases t1'
    rw [t2] at t2'; cases t2'
    refine ⟨rfl, flatMap_unique stPlaces f ?_ hs hs' k2 k2'⟩
    rw [← stPlaces_eq, ← tops_eq (resolve q)]
    apply srcFS_places resolve d q
    simp only [srcFS, t1, Src.file, t2]
  refine ⟨?_, ?_, ?_⟩
  · intro q q' st st' n v v' e e'
    have name : ∀ {st : Stmt}, st.ident = some n → ∃ t, topOf st = some t ∧ n ∈ topNames t := by
      intro st e
      cases st with
      | struct s =>
        simp only [Stmt.ident, Option.some.injEq] at e
        exact ⟨_, rfl, by simp [topNames, toStruct_name, e]⟩
      | enum s =>
        simp only [Stmt.ident, Option.some.injEq] at e
        exact ⟨_, rfl, by simp [topNames, TopA.defName, toEnum, e]⟩
      | _ => exact nomatch e
    obtain ⟨t, h1, h2⟩ := name e
    obtain ⟨t', h1', h2'⟩ := name e'
    exact key v v' h1 h1' h2 h2'
  · intro q q' e e' n v v' hn hn'
    obtain ⟨h1, h2⟩ := key v v' rfl rfl (List.mem_cons_of_mem _ (by rw [valNames_eq]; exact hn))
      (List.mem_cons_of_mem _ (by rw [valNames_eq]; exact hn'))
    cases h2
    exact ⟨h1, rfl⟩
  · intro q e v
    obtain ⟨hr, f, hf, hs⟩ := v
    obtain ⟨o, ho⟩ := h.reach hr
    obtain ⟨g, u1, k1, -, -, k4, -⟩ := ho.defs_full
    obtain ⟨s', f', t1', t2', rfl⟩ := srcFS_parsed k1
    obtain ⟨s, t1, t2⟩ := hf
    rw [t1] at t1'; cases t1'
    rw [t2] at t2'; cases t2'
    rw [tops_eq] at k4
    obtain ⟨a, b, td, hv⟩ := defs_each k4 _ (List.mem_filterMap.2 ⟨_, hs, rfl⟩)
    rw [← valNames_eq]
    unfold visitTop at hv
    obtain ⟨_, u2, h1, hv⟩ := bind_ok.1 hv
    obtain ⟨rfl, rfl⟩ := getU_ok.1 h1
    obtain ⟨x, u3, h2, hv⟩ := bind_ok.1 hv
    obtain ⟨-, -, -, -, h5, h6, -⟩ := visitEnum_ok h2
    rw [h5] at h6
    exact h6

/-! ### C67 -/

/-- **C67, definitions.** In a project that compiles, a file has the package name and the options its text has, and its
definitions are those its text stands for, in order: the kinds, sizes, fields, numbers and methods as written; names stand for
the definitions the text sees.  The texts do not stand for any other definitions. -/
theorem C67_definitions (resolve : Str → Str → Option Str) (d : Str → Src) (abs : Str → Option Str) (n : Nat) (file : Str)
    (us : List UnitD) (u : UnitD) (h : compileFile (srcFS resolve d) abs n file = some (us, .ok (some u))) :
    ∀ v ∈ us, ∃ f, HasText d v.path f ∧ HeadMeans f v.pkg v.options ∧
      ∀ l, FileMeans resolve d v.path f l ↔ l = v.localTypes.map fun e => (e.1, e.2.ty) := by
  intro v hv
  have hc := (Project.of h (srcFS_places resolve d)).comp v hv
  obtain ⟨f, h1, h2⟩ := hc.textInv.means
  refine ⟨f, h1, hc.head h1, fun l => ⟨fun k => k.det hc.uniq h2, ?_⟩⟩
  rintro rfl
  exact h2

/-- **C67, names.** In a project that compiles no file sees two definitions, or two enum values, of the same name. -/
theorem C67_names (resolve : Str → Str → Option Str) (d : Str → Src) (abs : Str → Option Str) (n : Nat) (file : Str)
    (us : List UnitD) (u : UnitD) (h : compileFile (srcFS resolve d) abs n file = some (us, .ok (some u))) :
    ∀ v ∈ us, Uniq resolve d v.path :=
  fun v hv => ((Project.of h (srcFS_places resolve d)).comp v hv).uniq

theorem Front.FileMeans.has {p : Str} {f : List Stmt} {l : List (Str × CTy)} (h : FileMeans resolve d p f l) {s : Struct} (hs : .struct s ∈ f) :
    ∃ y, StructMeans resolve d p s y ∧ (s.ident.text, .struct y) ∈ l := by
  induction h with
  | nil => exact nomatch hs
  | struct m _ ih =>
    rcases List.mem_cons.1 hs with e | hs
    · cases e; exact ⟨_, m, List.mem_cons_self ..⟩
    · obtain ⟨y, k1, k2⟩ := ih hs; exact ⟨y, k1, List.mem_cons_of_mem _ k2⟩
  | enum m _ ih =>
    rcases List.mem_cons.1 hs with e | hs
    · cases e
    · obtain ⟨y, k1, k2⟩ := ih hs; exact ⟨y, k1, List.mem_cons_of_mem _ k2⟩
  | _ _ ih =>
    rcases List.mem_cons.1 hs with e | hs
    · cases e
    · exact ih hs

/-- **C67, messages.** What C45 says about the structs of a project it says about the structs the texts stand for: the size, the
schema of the messages and the position of the fields. -/
theorem C67_messages (resolve : Str → Str → Option Str) (d : Str → Src) (entry p : Str) (n : Nat) (rt : RT) (u : UnitD)
    (hc : compile (srcFS resolve d) n entry RT.new = some (rt, .ok u)) (hp : Reach (srcFS resolve d) entry p)
    (f : List Stmt) (hf : HasText d p f) (s : Struct) (hs : .struct s ∈ f) :
    ∃ x, (∀ y, StructMeans resolve d p s y ↔ y = x) ∧ InProject (srcFS resolve d) entry x := by
  have h := (compile_sound hc Inv.new).compiled
  obtain ⟨o, ho⟩ := h.reach hp
  obtain ⟨f', hf', hm⟩ := ho.textInv.means
  obtain ⟨t, t1, t2⟩ := hf
  obtain ⟨t', t1', t2'⟩ := hf'
  rw [t1] at t1'; cases t1'
  rw [t2] at t2'; cases t2'
  obtain ⟨x, h1, h2⟩ := hm.has hs
  refine ⟨x, fun y => ⟨fun k => k.det ho.uniq h1, fun e => e ▸ h1⟩, n, rt, u, ?_⟩
  obtain ⟨⟨m, td⟩, k1, k2⟩ := List.mem_map.1 h2
  simp only [Prod.mk.injEq] at k2
  refine ⟨m, td, hc, ?_, k2.2⟩
  have k3 := ((ho.full.good.locTypes _).1 k1).1
  rcases hp.cases_head with rfl | ⟨r, hr1, hr2⟩
  · rw [h.det ho]; exact k3
  · exact (h.full.closed p o ⟨r, hr1, hr2⟩ ho).1 _ k3

end

/-! ### A sample -/

/-- `enum K[1]{A,B=5;} struct S{K k;uint8 x[#4];void[#4];uint16=B;}` -/
def meantDir : Str → Src := fun p =>
  if p = ['m'] then .text "package m;enum K[1]{A,B=5;}struct S{K k;uint8 x[#4];void[#4];uint16=B;}".toList else .missing

def idAt (n : Nat) (s : String) : Id := ⟨⟨1, n⟩, s.toList⟩

def meantEnum : Enum := ⟨⟨1, 10⟩, idAt 15 "K", .bytes ['1'],
  [.value (idAt 20 "A") none [] true, .value (idAt 22 "B") (some (.inl (.int none ['5']))) [] false]⟩

def meantStruct : Struct := .mk ⟨1, 27⟩ (idAt 34 "S") none
  (.cons (.normal (.elem (.ident (idAt 36 "K"))) (idAt 38 "k") none [] none)
  (.cons (.normal (.elem (.basic .u8)) (idAt 46 "x") (some (.bits ['4'])) [] none)
  (.cons (.void (.bits ['4']) [])
  (.cons (.const .u16 none none (.inr (idAt 68 "B")) []) .nil))))

def meantText : List Stmt := [.package (idAt 8 "m") [], .enum meantEnum, .struct meantStruct]

theorem meant_text : HasText meantDir ['m'] meantText := by
  refine ⟨_, rfl, (C61_exact _ _).2 ⟨_, rfl, ?_, ?_⟩⟩
  · intro s hs
    simp only [meantText, List.mem_cons, List.not_mem_nil, or_false] at hs
    rcases hs with rfl | rfl | rfl <;> simp [Stmt.WF, meantStruct, Struct.WF, Body.WF, Field.WF, Ty.WF, Elem.WF]
  · decide +kernel

/-- What it stands for: `K` is 8 bits wide with the numbers 0 and 5, `S` is 32 bits wide. -/
def meantK : EnumD := ⟨['K'], 8, [(['A'], 0), (['B'], 5)]⟩
def meantFields : List FieldD :=
  [.normal ['k'] (.enum meantK) 8 [] [], .normal ['x'] (.basic .u8) 4 [] [], .void 4, .const [] .u16 16 (.int 5) []]

theorem one_means {c : Char} (h : '1' ≤ c ∧ c ≤ '9') : IntMeans [c] (hexVal c) := .inl ⟨c, [], rfl, h, (fun _ h => nomatch h), (by simp [positional])⟩

theorem meant_enum (resolve : Str → Str → Option Str) : EnumMeans resolve meantDir ['m'] meantEnum meantK :=
  .mk (.bytes (one_means (by decide)) (by decide) (by decide))
    (.next (.given (.lit (.int (n := 5) (sg := none) (one_means (by decide)) (by decide))) (by decide) .nil))

theorem meant_struct (resolve : Str → Str → Option Str) :
    StructMeans resolve meantDir ['m'] meantStruct (.mk ['S'] 32 false meantFields) := by
  have vis : Visible resolve meantDir ['m'] ['m'] (.enum meantEnum) := ⟨.refl, _, meant_text, by simp [meantText]⟩
  have four : SizeMeans (.bits ['4']) 4 := .bits (one_means (by decide)) (by decide) (by decide)
  have e : roomOf meantFields = 32 := by decide
  rw [← e]
  have f1 : FieldMeans resolve meantDir ['m'] (.normal (.elem (.ident (idAt 36 "K"))) (idAt 38 "k") none [] none)
      [.normal ['k'] (.enum meantK) 8 [] []] := .normal (.elem (.identEnum vis rfl (meant_enum resolve))) (.inl ⟨rfl, .enum⟩) .nil
  have f2 : FieldMeans resolve meantDir ['m'] (.normal (.elem (.basic .u8)) (idAt 46 "x") (some (.bits ['4'])) [] none)
      [.normal ['x'] (.basic .u8) 4 [] []] := .normal (.elem .basic) (.inr ⟨_, rfl, four⟩) .nil
  have f4 : FieldMeans resolve meantDir ['m'] (.const .u16 none none (.inr (idAt 68 "B")) []) [.const [] .u16 16 (.int 5) []] :=
    .const (n := none) (.inl ⟨rfl, rfl⟩) (.name vis (meant_enum resolve) (by decide)) .nil
  refine .mk (.cons f1 (.cons f2 (.cons (.void four) (.cons f4 .nil)))) (.inl ⟨rfl, rfl⟩) ?_
  constructor
  · intro h; cases h
  · rintro ⟨f, hf, hv⟩
    simp only [meantFields, List.mem_cons, List.not_mem_nil, or_false] at hf
    rcases hf with rfl | rfl | rfl | rfl <;> cases hv <;> rename_i hv <;> cases hv

/-- The compiler accepts it; hence by C67 these are its definitions. -/
example : (match compileFile (srcFS (fun _ n => some n) meantDir) some 5 ['m'] with
    | some (us, .ok (some _)) => us.map (·.path)
    | _ => []) = [['m']] := by decide +kernel

example (us : List UnitD) (u : UnitD) (h : compileFile (srcFS (fun _ n => some n) meantDir) some 5 ['m'] = some (us, .ok (some u))) :
    ∀ v ∈ us, v.path = ['m'] → v.localTypes.map (fun e => (e.1, e.2.ty)) = [(['K'], .enum meantK), (['S'], .struct (.mk ['S'] 32 false meantFields))] := by
  intro v hv hp
  obtain ⟨f, h1, -, h3⟩ := C67_definitions _ _ _ _ _ us u h v hv
  rw [hp] at h1 h3
  obtain ⟨t, t1, t2⟩ := h1
  obtain ⟨t', t1', t2'⟩ := meant_text
  rw [t1] at t1'; cases t1'
  rw [t2] at t2'; cases t2'
  exact ((h3 _).1 (.package (.enum (meant_enum _) (.struct (meant_struct _) .nil)))).symm

end Bubbler
