import Verif.Gen.Globals
import Verif.Props.MemberProps
import Verif.Props.ScopeProps
import Verif.Props.RuleProps
import Verif.Props.RuntimeProps

/-
C80: what the definitions of a project declare outside of types has different names.
-/
set_option linter.unusedSimpArgs false
namespace Bubbler
open Gen Comp

/-- A definition of the project: an enum, or a struct wherever it is written -/
inductive Defined (us : List UnitD) : CTy → Prop
  | enum {v : UnitD} {n : Comp.Str} {td : TypeDef} {e : EnumD} : v ∈ us → (n, td) ∈ v.localTypes → td.ty = .enum e → Defined us (.enum e)
  | struct {s : StructD} : Occurs us s → Defined us (.struct s)

/-! ### Names in the source -/

mutual
  theorem elemA_decls : ∀ (e : ElemA) (n : Comp.Str), n ∈ e.decls → n ∈ e.intro
    | .structDef d, n, h => by
      unfold ElemA.decls at h; unfold ElemA.intro; exact structA_decls d n h
    | .basic _, _, h => nomatch h
    | .str, _, h => nomatch h
    | .bytes, _, h => nomatch h
    | .structName _, _, h => nomatch h
    | .enumName _, _, h => nomatch h
    | .ident _, _, h => nomatch h
  theorem typeA_decls : ∀ (e : TypeA) (n : Comp.Str), n ∈ e.decls → n ∈ e.intro
    | .elem e, n, h => by
      unfold TypeA.decls at h; unfold TypeA.intro; exact elemA_decls e n h
    | .array e _, n, h => by
      unfold TypeA.decls at h; unfold TypeA.intro; exact elemA_decls e n h
  theorem structA_decls : ∀ (d : StructA) (n : Comp.Str), n ∈ d.decls → n ∈ d.intro
    | .mk _ _ m _ b, n, h => by
      unfold StructA.decls at h; unfold StructA.intro
      rcases List.mem_append.1 h with h | h
      · exact List.mem_cons_of_mem _ (bodyA_decls b n h)
      · rw [List.mem_singleton.1 h]; exact List.mem_cons_self ..
  theorem bodyA_decls : ∀ (b : BodyA) (n : Comp.Str), n ∈ b.decls → n ∈ b.intro
    | .nil, _, h => nomatch h
    | .cons f r, n, h => by
      unfold BodyA.decls at h; unfold BodyA.intro
      rcases List.mem_append.1 h with h | h
      · exact List.mem_append_left _ (fieldA_decls f n h)
      · exact List.mem_append_right _ (bodyA_decls r n h)
  theorem fieldA_decls : ∀ (f : FieldA) (n : Comp.Str), n ∈ f.decls → n ∈ f.intro
    | .normal t _ _ _ _, n, h => by
      unfold FieldA.decls at h; unfold FieldA.intro; exact typeA_decls t n h
    | .embedded t _, n, h => by
      unfold FieldA.intro
      match t, h with
      | .elem (.structDef (.mk l c m s b)), h =>
        unfold FieldA.decls at h
        unfold TypeA.intro ElemA.intro StructA.intro
        exact List.mem_cons_of_mem _ (bodyA_decls b n h)
      | .elem (.basic _), h => nomatch h
      | .elem .str, h => nomatch h
      | .elem .bytes, h => nomatch h
      | .elem (.structName _), h => nomatch h
      | .elem (.enumName _), h => nomatch h
      | .elem (.ident _), h => nomatch h
      | .array _ _, h => nomatch h
    | .empty, _, h => nomatch h
    | .void _ _, _, h => nomatch h
    | .const _ _ _ _ _, _, h => nomatch h
end

theorem topA_decls (t : TopA) (n : Comp.Str) (h : n ∈ t.decls) : n ∈ t.intro := by
  cases t with
  | struct d => exact structA_decls d n h
  | enum d =>
    rw [List.mem_singleton.1 h]
    exact List.mem_cons_self ..

theorem numsOk_names {Γ : Scope} {prev : Option Int} {b : List EnumElemA} {vs : List (Comp.Str × Int)} (h : NumsOk Γ prev b vs) :
    vs.map (·.1) = b.filterMap fun
      | .value _ _ n _ => some n
      | .empty => none := by
  induction h with
  | nil => rfl
  | empty _ ih => simpa using ih
  | next _ _ _ ih => simpa using ih
  | given _ _ _ _ ih => simpa using ih

/-- The definition of an enum in the source -/
theorem defsOk_enum {Γ : Scope} {ts : List TopA} {ds : List CTy} (h : DefsOk Γ ts ds) {e : EnumD} (he : CTy.enum e ∈ ds) :
    ∃ d, TopA.enum d ∈ ts ∧ (TopA.enum d).decls = [e.name] ∧ (TopA.enum d).intro = e.name :: e.values.map (·.1) := by
  induction h with
  | nil => cases he
  | cons h1 _ ih =>
    rcases List.mem_cons.1 he with rfl | he
    · cases h1 with
      | enum h =>
        refine ⟨_, List.mem_cons_self .., ?_, ?_⟩
        · cases h; rfl
        · cases h with
          | mk _ _ h3 _ =>
            unfold TopA.intro
            rw [numsOk_names h3]
            rfl
    · obtain ⟨d, h1, h2⟩ := ih he
      exact ⟨d, List.mem_cons_of_mem _ h1, h2⟩

theorem flatMap_apart {α β : Type} {f : α → List β} {l : List α} (h : (l.flatMap f).Nodup) {a b : α} (ha : a ∈ l) (hb : b ∈ l) {x : β}
    (hxa : x ∈ f a) (hxb : x ∈ f b) : a = b := by
  induction l with
  | nil => cases ha
  | cons c r ih =>
    rw [List.flatMap_cons, List.nodup_append] at h
    rcases List.mem_cons.1 ha with rfl | ha' <;> rcases List.mem_cons.1 hb with e | hb'
    · exact e.symm
    · exact absurd rfl (h.2.2 x hxa x (List.mem_flatMap.2 ⟨b, hb', hxb⟩))
    · subst e
      exact absurd rfl (h.2.2 x hxb x (List.mem_flatMap.2 ⟨a, ha', hxa⟩))
    · exact ih h.2.1 ha' hb'

theorem flatMap_part {α β : Type} {f : α → List β} {l : List α} (h : (l.flatMap f).Nodup) {a : α} (ha : a ∈ l) : (f a).Nodup := by
  induction l with
  | nil => cases ha
  | cons c r ih =>
    rw [List.flatMap_cons, List.nodup_append] at h
    rcases List.mem_cons.1 ha with rfl | ha
    · exact h.1
    · exact ih h.2.1 ha

/-! ### Names in a project -/

theorem rules_of_project {fs : FS} {abs : Comp.Str → Option Comp.Str} {n : Nat} {file : Comp.Str} {us : List UnitD} {u : UnitD}
    (h : compileFile fs abs n file = some (us, .ok (some u))) (hpos : ∀ q g, fs q = .parsed g → (places g).Nodup) :
    ProjectOk fs u.path (defsOf fs) := by
  have P := Project.of h hpos
  obtain ⟨c1, c2⟩ := C32_packages fs abs n file us u h
  refine rules_of_compiled hpos (P.comp u P.last) fun p q hp hq e => ?_
  obtain ⟨v, hv, rfl⟩ := List.mem_map.1 ((P.reach p).2 hp)
  obtain ⟨w, hw, rfl⟩ := List.mem_map.1 ((P.reach q).2 hq)
  rw [c2 v hv, c2 w hw, Option.some.injEq] at e
  rw [map_nodup_unique c1 hv hw e]

section
variable {fs : FS} {us : List UnitD} {u : UnitD}

/-- A name that a definition of the project introduces, and where: the name of a type … -/
theorem defined_type (P : Project fs us u) {t : CTy} (h : Defined us t) :
    ∃ q g T, Reach fs u.path q ∧ fs q = .parsed g ∧ T ∈ g.tops ∧ t.customName ∈ T.decls := by
  have key : ∃ v ∈ us, t ∈ visitsT v.localTypes := by
    cases h with
    | enum hv hm ht => exact ⟨_, hv, ht ▸ visitsT_mem hm (local_self (P.comp _ hv) hm)⟩
    | struct h =>
      obtain ⟨v, hv, e, he, hi⟩ := h
      exact ⟨v, hv, visitsT_mem he (within_visits hi (local_self (P.comp v hv) he))⟩
  obtain ⟨v, hv, h⟩ := key
  obtain ⟨q, g, k1, k2, k3⟩ := declared_somewhere P.pos (P.comp v hv) t h
  obtain ⟨T, hT, hn⟩ := List.mem_flatMap.1 k3
  exact ⟨q, g, T, (P.reach_of hv).trans k1, k2, hT, hn⟩

theorem defined_same (P : Project fs us u) {s t : CTy} (hs : Defined us s) (ht : Defined us t) (e : s.customName = t.customName) : s = t := by
  have key : ∀ {t}, Defined us t → t ∈ visitsT u.globalTypes := by
    intro t h
    cases h with
    | enum hv hm ht => exact P.visits_sub hv _ (ht ▸ visitsT_mem hm (local_self (P.comp _ hv) hm))
    | struct h =>
      obtain ⟨v, hv, e, he, hi⟩ := h
      exact P.visits_sub hv _ (visitsT_mem he (within_visits hi (local_self (P.comp v hv) he)))
  exact P.same _ _ (key hs) (key ht) e

/-- … and the values of an enum. -/
theorem defined_enum (P : Project fs us u) (R : ProjectOk fs u.path (defsOf fs)) {e : EnumD} (h : Defined us (.enum e)) :
    ∃ q g d, Reach fs u.path q ∧ fs q = .parsed g ∧ TopA.enum d ∈ g.tops ∧ (TopA.enum d).decls = [e.name] ∧
      (TopA.enum d).intro = e.name :: e.values.map (·.1) := by
  cases h with
  | @enum v n td _ hv hm ht =>
    obtain ⟨f, hf, -, hd⟩ := R.files v.path (P.reach_of hv)
    rw [defsOf_eq v.path v (P.comp v hv)] at hd
    obtain ⟨d, k1, k2, k3⟩ := defsOk_enum hd (e := e) (List.mem_map.2 ⟨_, hm, ht⟩)
    exact ⟨v.path, f, d, P.reach_of hv, hf, k1, k2, k3⟩

/-- Where a name is introduced -/
theorem same_place (R : ProjectOk fs u.path (defsOf fs)) {p q : Comp.Str} {f g : FileA} {S T : TopA} {m : Comp.Str}
    (hp : Reach fs u.path p) (hq : Reach fs u.path q) (hf : fs p = .parsed f) (hg : fs q = .parsed g) (hS : S ∈ f.tops) (hT : T ∈ g.tops)
    (h1 : m ∈ S.intro) (h2 : m ∈ T.intro) : S = T ∧ S.intro.Nodup := by
  have i1 : m ∈ introduces fs p := by rw [introduces_eq hf]; exact List.mem_flatMap.2 ⟨S, hS, h1⟩
  have i2 : m ∈ introduces fs q := by rw [introduces_eq hg]; exact List.mem_flatMap.2 ⟨T, hT, h2⟩
  have e := R.apart p q m hp hq i1 i2
  subst e
  rw [hf] at hg
  cases hg
  have hn := R.once p hp
  rw [introduces_eq hf] at hn
  exact ⟨flatMap_apart hn hS hT h1 h2, flatMap_part hn hS⟩

theorem value_type (P : Project fs us u) (R : ProjectOk fs u.path (defsOf fs)) {e : EnumD} {t : CTy} (he : Defined us (.enum e))
    (ht : Defined us t) : t.customName ∉ e.values.map (·.1) := by
  intro h
  obtain ⟨p, f, d, a1, a2, a3, a4, a5⟩ := defined_enum P R he
  obtain ⟨q, g, T, b1, b2, b3, b4⟩ := defined_type P ht
  obtain ⟨e1, e2⟩ := same_place R a1 b1 a2 b2 a3 b3 (a5 ▸ List.mem_cons_of_mem _ h) (topA_decls T _ b4)
  rw [← e1, a4, List.mem_singleton] at b4
  rw [a5, List.nodup_cons] at e2
  exact e2.1 (b4 ▸ h)

theorem value_value (P : Project fs us u) (R : ProjectOk fs u.path (defsOf fs)) {e e' : EnumD} (he : Defined us (.enum e))
    (he' : Defined us (.enum e')) {m : Comp.Str} (h : m ∈ e.values.map (·.1)) (h' : m ∈ e'.values.map (·.1)) : e = e' := by
  obtain ⟨p, f, d, a1, a2, a3, a4, a5⟩ := defined_enum P R he
  obtain ⟨q, g, d', b1, b2, b3, b4, b5⟩ := defined_enum P R he'
  obtain ⟨e1, -⟩ := same_place R a1 b1 a2 b2 a3 b3 (a5 ▸ List.mem_cons_of_mem _ h) (b5 ▸ List.mem_cons_of_mem _ h')
  rw [e1] at a5
  rw [a5, List.cons.injEq] at b5
  have := defined_same P he he' b5.1
  cases this
  rfl

theorem values_nodup (P : Project fs us u) (R : ProjectOk fs u.path (defsOf fs)) {e : EnumD} (he : Defined us (.enum e)) :
    (e.values.map (·.1)).Nodup := by
  obtain ⟨p, f, d, a1, a2, a3, a4, a5⟩ := defined_enum P R he
  obtain ⟨-, e2⟩ := same_place R a1 a1 a2 a2 a3 a3 (m := e.name) (a5 ▸ List.mem_cons_self ..) (a5 ▸ List.mem_cons_self ..)
  rw [a5, List.nodup_cons] at e2
  exact e2.2
end

/-! ### Functions of C -/

/-- A function of a struct begins with its name and an underscore; small letters follow. -/
def Prefixed (s a : Gen.Str) : Prop := ∃ r, a = s ++ '_' :: r ∧ ∃ c ∈ r, Name.isLower c = true

theorem prefixed_get (s r : Gen.Str) : Prefixed s (s ++ "_get_".toList ++ r) :=
  ⟨"get_".toList ++ r, by simp, 'g', by simp, by decide⟩

theorem prefixed_set (s r : Gen.Str) : Prefixed s (s ++ "_set_".toList ++ r) :=
  ⟨"set_".toList ++ r, by simp, 's', by simp, by decide⟩

theorem members_prefixed {minimal : Bool} {s : StructD} {a : Member} (h : a ∈ members .c minimal s) (ha : a.attr = false) :
    Prefixed s.name a.name := by
  rcases List.mem_append.1 h with h | h
  · simp only [fixed, List.map_cons, List.map_nil, List.mem_cons, List.not_mem_nil, or_false, func] at h
    rcases h with rfl | rfl | rfl | rfl | rfl | rfl
    · exact ⟨"dynamic".toList, rfl, 'd', by decide, by decide⟩
    · exact ⟨"size".toList, rfl, 's', by decide, by decide⟩
    · exact ⟨"encode_size".toList, rfl, 'e', by decide, by decide⟩
    · exact ⟨"encode".toList, rfl, 'e', by decide, by decide⟩
    · exact ⟨"decode_size".toList, rfl, 'd', by decide, by decide⟩
    · exact ⟨"decode".toList, rfl, 'd', by decide, by decide⟩
  · obtain ⟨e, -, h⟩ := List.mem_flatMap.1 h
    cases e with
    | field n arr =>
      cases minimal <;> cases arr <;>
        simp only [made, Bool.false_eq_true, if_false, if_true, List.cons_append, List.nil_append, List.append_nil, List.mem_cons,
          List.not_mem_nil, or_false] at h
      all_goals
        repeat' (refine Or.elim h (fun h => ?_) (fun h => ?_))
      all_goals
        subst h
        first
        | cases ha; done
        | (simp only [func, List.append_assoc]; rw [← List.append_assoc]; exact prefixed_get _ _)
        | (simp only [func, List.append_assoc]; rw [← List.append_assoc]; exact prefixed_set _ _)
    | group m get set own =>
      simp only [made, List.mem_append] at h
      rcases h with h | h
      · rw [mem_opt h]; exact prefixed_get _ _
      · rw [mem_opt h]; exact prefixed_set _ _
    | const n =>
      simp only [made] at h
      rw [mem_opt h] at ha
      cases ha

theorem prefixed_two {s t a : Gen.Str} (h1 : Prefixed s a) (h2 : Prefixed t a) : s = t ∨ s ++ ['_'] <+: t ∨ t ++ ['_'] <+: s := by
  obtain ⟨r1, e1, -⟩ := h1
  obtain ⟨r2, e2, -⟩ := h2
  rw [e1] at e2
  rcases List.append_eq_append_iff.1 e2 with ⟨x, h1, h2⟩ | ⟨x, h1, h2⟩
  · cases x with
    | nil => exact .inl (by simpa using h1.symm)
    | cons c x =>
      simp only [List.cons_append, List.cons.injEq] at h2
      rw [← h2.1] at h1
      exact .inr (.inl ⟨x, by rw [h1]; simp⟩)
  · cases x with
    | nil => exact .inl (by simpa using h1)
    | cons c x =>
      simp only [List.cons_append, List.cons.injEq] at h2
      rw [← h2.1] at h1
      exact .inr (.inr ⟨x, by rw [h1]; simp⟩)

/-! ### C80 -/

/-- Two definitions that declare different names -/
def Differ (l : Lang) (minimal : Bool) (s t : CTy) : Prop := ∀ a ∈ globals l minimal s, a ∉ globals l minimal t

theorem globals_nodup {l : Lang} {minimal : Bool} {ts : List CTy} (h1 : ∀ t ∈ ts, (globals l minimal t).Nodup)
    (h2 : ts.Pairwise (Differ l minimal)) : (ts.flatMap (globals l minimal)).Nodup := by
  induction ts with
  | nil => exact List.nodup_nil
  | cons t r ih =>
    rw [List.flatMap_cons, List.nodup_append]
    rw [List.pairwise_cons] at h2
    refine ⟨h1 t (List.mem_cons_self ..), ih (fun x hx => h1 x (List.mem_cons_of_mem _ hx)) h2.2, ?_⟩
    rintro a ha b hb rfl
    obtain ⟨x, hx, hb⟩ := List.mem_flatMap.1 hb
    exact h2.1 x hx a ha hb

theorem pairwise_of {α : Type} {R : α → α → Prop} {l : List α} (hn : l.Nodup) (h : ∀ a ∈ l, ∀ b ∈ l, a ≠ b → R a b) : l.Pairwise R := by
  induction l with
  | nil => exact .nil
  | cons a r ih =>
    rw [List.nodup_cons] at hn
    refine .cons (fun b hb => h a (List.mem_cons_self ..) b (List.mem_cons_of_mem _ hb) ?_)
      (ih hn.2 fun a ha b hb => h a (List.mem_cons_of_mem _ ha) b (List.mem_cons_of_mem _ hb))
    rintro rfl
    exact hn.1 hb

/-- The names of the types of a project differ, also from those of enum values. -/
theorem differ_types {fs : FS} {us : List UnitD} {u : UnitD} (P : Project fs us u) (R : ProjectOk fs u.path (defsOf fs)) {l : Lang}
    (hl : l ≠ .c) (minimal : Bool) {s t : CTy} (hs : Defined us s) (ht : Defined us t) (hne : s ≠ t) : Differ l minimal s t := by
  have hc : s.customName ≠ t.customName := fun e => hne (defined_same P hs ht e)
  have key : ∀ t, Defined us t → ∀ a ∈ globals l minimal t, a = ⟨false, t.customName⟩ ∨
      ∃ e, t = .enum e ∧ a.name ∈ e.values.map (·.1) := by
    intro t ht a ha
    cases ht with
    | enum _ _ _ =>
      cases l <;> simp only [globals, List.mem_cons, List.not_mem_nil, or_false, List.mem_map] at ha
      all_goals
        first
        | exact absurd rfl hl
        | exact .inl ha
        | (rcases ha with ha | ⟨v, hv, rfl⟩
           · exact .inl ha
           · exact .inr ⟨_, rfl, List.mem_map.2 ⟨v, hv, rfl⟩⟩)
    | struct _ =>
      cases l <;> simp only [globals, List.mem_cons, List.not_mem_nil, or_false, List.mem_map] at ha
      all_goals
        first
        | exact absurd rfl hl
        | exact .inl ha
  intro a ha hb
  rcases key s hs a ha with h1 | ⟨e, rfl, h1⟩ <;> rcases key t ht a hb with h2 | ⟨e', rfl, h2⟩
  · rw [h1] at h2
    simp only [Global.mk.injEq, true_and] at h2
    exact hc h2
  · rw [h1] at h2
    exact value_type P R ht hs h2
  · rw [h2] at h1
    exact value_type P R hs ht h1
  · have := value_value P R hs ht h1 h2
    exact hne (by rw [this])

theorem globals_self {fs : FS} {us : List UnitD} {u : UnitD} (P : Project fs us u) (R : ProjectOk fs u.path (defsOf fs)) {l : Lang}
    (minimal : Bool) {t : CTy} (ht : Defined us t)
    (hm : ∀ s, l = .c → t = .struct s → Distinct .c (members .c minimal s)) : (globals l minimal t).Nodup := by
  cases ht with
  | @struct s h =>
    by_cases hl : l = .c
    · subst hl
      simp only [globals, List.nodup_cons, List.mem_map, not_exists, not_and]
      refine ⟨by simp, ?_⟩
      have h1 := (hm s rfl rfl).filter (fun a => !a.attr)
      rw [List.nodup_iff_pairwise_ne, List.pairwise_map]
      refine (List.pairwise_iff_forall_sublist.2 fun {a b} hab => ?_)
      have h2 := List.pairwise_iff_forall_sublist.1 h1 hab
      have ha := hab.subset (List.mem_cons_self ..)
      have hb := hab.subset (List.mem_cons_of_mem _ (List.mem_cons_self ..))
      simp only [List.mem_filter, Bool.not_eq_true'] at ha hb
      intro e
      simp only [Global.mk.injEq, true_and] at e
      exact h2 ⟨e, fun _ => by rw [ha.2, hb.2]⟩
    · cases l <;> first | exact absurd rfl hl | simp [globals]
  | @enum v n td e hv hmem hty =>
    have hd : Defined us (.enum e) := .enum hv hmem hty
    have h1 := values_nodup P R hd
    have h2 := value_type P R hd hd
    have h3 : (e.values.map fun v => (⟨false, v.1⟩ : Global)).Nodup := by
      have : (e.values.map fun v => (⟨false, v.1⟩ : Global)) = (e.values.map (·.1)).map fun n => ⟨false, n⟩ := by simp
      rw [this]
      exact h1.map _ (fun a b hab e => hab (by simpa using e))
    cases l
    case c => exact List.nodup_cons.2 ⟨by simp, h3⟩
    case go =>
      refine List.nodup_cons.2 ⟨?_, h3⟩
      intro h
      obtain ⟨v, hv, he⟩ := List.mem_map.1 h
      simp only [Global.mk.injEq, true_and] at he
      exact h2 (List.mem_map.2 ⟨v, hv, he⟩)
    all_goals simp [globals]

/-- **C80.** In every language but C the definitions of a project declare different names, whatever they are. -/
theorem C80_types (fs : FS) (abs : Comp.Str → Option Comp.Str) (n : Nat) (file : Comp.Str) (us : List UnitD) (u : UnitD)
    (h : compileFile fs abs n file = some (us, .ok (some u))) (hpos : ∀ q g, fs q = .parsed g → (places g).Nodup)
    (ts : List CTy) (hn : ts.Nodup) (hd : ∀ t ∈ ts, Defined us t) (l : Lang) (hl : l ≠ .c) (minimal : Bool) :
    (ts.flatMap (globals l minimal)).Nodup := by
  have P := Project.of h hpos
  have R := rules_of_project h hpos
  exact globals_nodup (fun t ht => globals_self P R minimal (hd t ht) fun _ hc => absurd hc hl)
    (pairwise_of hn fun a ha b hb hab => differ_types P R hl minimal (hd a ha) (hd b hb) hab)

/-- **C80.** In C they do if no struct is called as another with an underscore and more behind it, no enum value is called so unless
it has only capitals, and the functions of each struct differ (C79). -/
theorem C80_c (fs : FS) (abs : Comp.Str → Option Comp.Str) (n : Nat) (file : Comp.Str) (us : List UnitD) (u : UnitD)
    (h : compileFile fs abs n file = some (us, .ok (some u))) (hpos : ∀ q g, fs q = .parsed g → (places g).Nodup)
    (ts : List CTy) (hn : ts.Nodup) (hd : ∀ t ∈ ts, Defined us t) (minimal : Bool)
    (hm : ∀ s, .struct s ∈ ts → Distinct .c (members .c minimal s))
    (hs : ∀ s t, .struct s ∈ ts → .struct t ∈ ts → ¬ s.name ++ ['_'] <+: t.name)
    (hv : ∀ s e v, .struct s ∈ ts → .enum e ∈ ts → v ∈ e.values.map (·.1) → s.name ++ ['_'] <+: v → ∀ c ∈ v, Name.isLower c = false) :
    (ts.flatMap (globals .c minimal)).Nodup := by
  have P := Project.of h hpos
  have R := rules_of_project h hpos
  refine globals_nodup (fun t ht => globals_self P R minimal (hd t ht) fun s _ e => hm s (e ▸ ht)) (pairwise_of hn ?_)
  -- a name in C is a tag, a function or a value
  have key : ∀ t ∈ ts, ∀ a ∈ globals .c minimal t, a = ⟨true, t.customName⟩ ∨
      (∃ s, t = .struct s ∧ a.tag = false ∧ Prefixed s.name a.name) ∨
      ∃ e, t = .enum e ∧ a.tag = false ∧ a.name ∈ e.values.map (·.1) := by
    intro t ht a ha
    have hdt := hd t ht
    cases hdt with
    | enum _ _ _ =>
      simp only [globals, List.mem_cons, List.mem_map] at ha
      rcases ha with ha | ⟨v, hv, rfl⟩
      · exact .inl ha
      · exact .inr (.inr ⟨_, rfl, rfl, List.mem_map.2 ⟨v, hv, rfl⟩⟩)
    | struct _ =>
      simp only [globals, List.mem_cons, List.mem_map] at ha
      rcases ha with ha | ⟨m, hm, rfl⟩
      · exact .inl ha
      · obtain ⟨h1, h2⟩ := List.mem_filter.1 hm
        exact .inr (.inl ⟨_, rfl, rfl, members_prefixed h1 (by simpa using h2)⟩)
  have mixed : ∀ s e v, .struct s ∈ ts → .enum e ∈ ts → Prefixed s.name v → v ∈ e.values.map (·.1) → False := by
    rintro s e v h1 h2 ⟨r, rfl, c, hc, hl⟩ h3
    have := hv s e _ h1 h2 h3 ⟨r, by simp⟩ c (List.mem_append_right _ (List.mem_cons_of_mem _ hc))
    rw [hl] at this
    cases this
  intro s hs' t ht hne a ha hb
  have hc : s.customName ≠ t.customName := fun e => hne (defined_same P (hd s hs') (hd t ht) e)
  rcases key s hs' a ha with h1 | ⟨x, rfl, g1, h1⟩ | ⟨e, rfl, g1, h1⟩ <;>
    rcases key t ht a hb with h2 | ⟨y, rfl, g2, h2⟩ | ⟨e', rfl, g2, h2⟩
  · rw [h1] at h2
    simp only [Global.mk.injEq, true_and] at h2
    exact hc h2
  · rw [h1] at g2; cases g2
  · rw [h1] at g2; cases g2
  · rw [h2] at g1; cases g1
  · rcases prefixed_two h1 h2 with h | h | h
    · exact hc h
    · exact hs x y hs' ht h
    · exact hs y x ht hs' h
  · exact mixed x e' _ hs' ht h1 h2
  · rw [h2] at g1; cases g1
  · exact mixed y e _ ht hs' h2 h1
  · exact hne (by rw [value_value P R (hd _ hs') (hd _ ht) h1 h2])

/-- **C80.** The conditions hold if names have the style the compiler recommends: no underscores in the names of structs, no small
letters in those of enum values. -/
theorem C80_style (fs : FS) (abs : Comp.Str → Option Comp.Str) (n : Nat) (file : Comp.Str) (us : List UnitD) (u : UnitD)
    (h : compileFile fs abs n file = some (us, .ok (some u))) (hpos : ∀ q g, fs q = .parsed g → (places g).Nodup)
    (ts : List CTy) (hn : ts.Nodup) (hd : ∀ t ∈ ts, Defined us t) (minimal : Bool)
    (hm : ∀ s, .struct s ∈ ts → Tidy (entries s) s.name) (hs : ∀ s, .struct s ∈ ts → '_' ∉ s.name)
    (hv : ∀ e v, .enum e ∈ ts → v ∈ e.values.map (·.1) → ∀ c ∈ v, Name.isLower c = false) (l : Lang) :
    (ts.flatMap (globals l minimal)).Nodup := by
  by_cases hl : l = .c
  · subst hl
    refine C80_c fs abs n file us u h hpos ts hn hd minimal (fun s hs => (C79_members s (hm s hs) .c minimal).1) ?_
      (fun _ e v _ he hve _ => hv e v he hve)
    intro s t _ ht hp
    exact hs t ht (hp.subset (List.mem_append_right _ (List.mem_singleton.2 rfl)))
  · exact C80_types fs abs n file us u h hpos ts hn hd l hl minimal

/-! ### Macros -/

/-- **C80.** The headers of two packages are guarded by different macros if the names of the packages differ in more than dots,
underscores and case. -/
theorem C80_guards (p q : Gen.Str) (hpp : Bool)
    (h : lettersAndDigits (p.filter (· ≠ '.')) ≠ lettersAndDigits (q.filter (· ≠ '.'))) : headerGuard hpp p ≠ headerGuard hpp q := by
  have key : ∀ p : Gen.Str, lettersAndDigits (Name.toAllCap (p.map fun c => if c = '.' then '_' else c)) =
      lettersAndDigits (p.filter (· ≠ '.')) := by
    intro p
    have hd : '.' ∉ p.map fun c => if c = '.' then '_' else c := by
      intro hm
      obtain ⟨c, -, hc⟩ := List.mem_map.1 hm
      split at hc
      · cases hc
      · rename_i hne
        exact hne hc
    rw [(C35_keeps_letters_ident _ hd).2.1]
    unfold lettersAndDigits
    congr 1
    induction p with
    | nil => rfl
    | cons c r ih =>
      have ih := ih (fun hm => hd (List.mem_cons_of_mem _ hm))
      by_cases hc : c = '.'
      · subst hc
        simpa using ih
      · by_cases hu : c = '_'
        · subst hu
          simpa using ih
        · simp only [List.map_cons, hc, if_false, List.filter_cons, hu, ne_eq, not_false_eq_true, decide_true, if_true, ih]
  intro e
  unfold headerGuard at e
  have e' := List.append_cancel_left (List.append_cancel_right e)
  apply h
  rw [← key p, ← key q, e']

/-- **C80.** No name is replaced by a macro if no name of a type or of an enum value begins with two underscores. -/
theorem C80_macros (t : CTy) (hcap : Name.isCapitalized t.customName = true) (ht : ¬ "__".toList <+: t.customName)
    (hv : ∀ e, t = .enum e → ∀ v ∈ e.values.map (·.1), ¬ "__".toList <+: v) (l : Lang) (minimal : Bool) :
    ∀ a ∈ globals l minimal t, ∀ p, a.name ∉ macros p := by
  have hm : ∀ p m, m ∈ macros p → "__".toList <+: m := by
    intro p m h
    simp only [macros, List.mem_cons, List.not_mem_nil, or_false] at h
    rcases h with rfl | rfl | rfl
    · exact ⟨_, by unfold headerGuard; rw [List.append_assoc]⟩
    · exact ⟨_, by unfold headerGuard; rw [List.append_assoc]⟩
    · exact ⟨"BYTES_TYPE".toList, rfl⟩
  have hp : ∀ a, Prefixed t.customName a → ¬ "__".toList <+: a := by
    rintro a ⟨r, rfl, -⟩ h
    revert ht hcap h
    cases t.customName with
    | nil => intro hcap; cases hcap
    | cons c n =>
      cases n with
      | nil =>
        intro hcap _ h
        simp only [List.cons_append, List.nil_append] at h
        obtain ⟨x, hx⟩ := h
        have hc : c = '_' := by injection hx with h1 _; exact h1.symm
        subst hc
        revert hcap
        decide
      | cons d n =>
        rintro - ht ⟨x, hx⟩
        refine ht ?_
        injection hx with h1 h2
        injection h2 with h2 _
        exact ⟨n, by rw [← h1, ← h2]; rfl⟩
  intro a ha p h
  have h := hm p _ h
  cases t with
  | struct s =>
    cases l <;> simp only [globals, List.mem_cons, List.not_mem_nil, or_false, List.mem_map] at ha
    case c =>
      rcases ha with rfl | ⟨m, hm', rfl⟩
      · exact ht h
      · obtain ⟨h1, h2⟩ := List.mem_filter.1 hm'
        exact hp _ (members_prefixed h1 (by simpa using h2)) h
    all_goals
      subst ha
      exact ht h
  | enum e =>
    cases l <;> simp only [globals, List.mem_cons, List.not_mem_nil, or_false, List.mem_map] at ha
    case c =>
      rcases ha with rfl | ⟨v, hv', rfl⟩
      · exact ht h
      · exact hv e rfl _ (List.mem_map.2 ⟨v, hv', rfl⟩) h
    case go =>
      rcases ha with rfl | ⟨v, hv', rfl⟩
      · exact ht h
      · exact hv e rfl _ (List.mem_map.2 ⟨v, hv', rfl⟩) h
    all_goals
      subst ha
      exact ht h
  | _ => cases ha

/-! ### What happens without the conditions, and a case that meets them -/

/-- Files `a`, of package `p.q`, and `b`, of package `p_q`:
`struct A { uint8 size; }`, `struct A_get { uint8 x; }`, `enum Kind[1] { A_size; __P_Q_BB_H; }` and
`import "b"; struct Point { uint8 x; struct Inner { uint8 y; } z; B w; }`, `enum Mode[1] { POINT_GET; ON; }` -/
def globFS : FS := fun p =>
  if p = ['b'] then .parsed ⟨[], ["p_q".toList], [],
    [memStruct 1 "A" (u8Field "size" .nil), memStruct 2 "A_get" (u8Field "x" .nil),
     .enum ⟨3, 0, "Kind".toList, ⟨some ['1'], none⟩, [.value 3 9 "A_size".toList none, .value 3 20 "__P_Q_BB_H".toList none]⟩]⟩
  else if p = ['a'] then .parsed ⟨[some ['b']], ["p.q".toList], [],
    [memStruct 2 "Point" (u8Field "x" (.cons (.normal (.elem (.structDef (.mk 3 0 "Inner".toList none (u8Field "y" .nil)))) "z".toList
       none [] none) (.cons (.normal (.elem (.ident "A".toList)) "w".toList none [] none) .nil))),
     .enum ⟨4, 0, "Mode".toList, ⟨some ['1'], none⟩, [.value 4 9 "POINT_GET".toList none, .value 4 20 "ON".toList none]⟩]⟩
  else .missing

/-- The units of the project -/
def globUnits : List UnitD :=
  match compileFile globFS some 5 ['a'] with
  | some (us, .ok (some _)) => us
  | _ => []

theorem globUnits_eq : ∃ u, compileFile globFS some 5 ['a'] = some (globUnits, .ok (some u)) := by
  have h : (match compileFile globFS some 5 ['a'] with
    | some (_, .ok (some _)) => true
    | _ => false) = true := by decide +kernel
  unfold globUnits
  split at h
  · rename_i us u e
    exact ⟨u, by rw [e]⟩
  · cases h

/-- The definitions on top of the files, by name -/
def topNamed (n : String) : Option CTy :=
  (globUnits.flatMap fun v => v.localTypes.map (·.2.ty)).find? fun t => decide (t.customName = n.toList)

theorem topNamed_defined {n : String} {t : CTy} (h : topNamed n = some t) (hk : ∀ p, t ≠ .basic p) (h1 : t ≠ .str) (h2 : t ≠ .bytes)
    (h3 : ∀ e l, t ≠ .array e l) : Defined globUnits t ∧ t.customName = n.toList := by
  obtain ⟨v, hv, hm⟩ := List.mem_flatMap.1 (List.mem_of_find?_eq_some h)
  obtain ⟨⟨m, td⟩, hm', e⟩ := List.mem_map.1 hm
  refine ⟨?_, by simpa using List.find?_some h⟩
  cases t with
  | struct s =>
    refine .struct ⟨v, hv, _, hm', ?_⟩
    have e : td.ty = .struct s := e
    rw [e]
    exact Within.refl _
  | enum e' => exact .enum hv hm' e
  | basic p => exact absurd rfl (hk p)
  | str => exact absurd rfl h1
  | bytes => exact absurd rfl h2
  | array x l => exact absurd rfl (h3 x l)

def named (n : String) : CTy := (topNamed n).getD .str

def isDef : CTy → Bool
  | .struct _ => true
  | .enum _ => true
  | _ => false

theorem named_defined {n : String} (h : isDef (named n) = true) : Defined globUnits (named n) ∧ (named n).customName = n.toList := by
  unfold named at h ⊢
  cases ht : topNamed n with
  | none => rw [ht] at h; cases h
  | some t =>
    rw [ht] at h
    simp only [Option.getD_some] at h ⊢
    refine topNamed_defined ht ?_ ?_ ?_ ?_ <;> intros <;> intro e <;> subst e <;> cases h

/-- `enum Kind[1] { A_size; … }` besides `struct A`: the accepted project declares `A_size` twice in C. -/
theorem C80_value_counterexample : ∃ us u s t, compileFile globFS some 5 ['a'] = some (us, .ok (some u)) ∧ Defined us s ∧ Defined us t ∧
    s.customName = "A".toList ∧ t.customName = "Kind".toList ∧ ⟨false, "A_size".toList⟩ ∈ globals .c true s ∧
    ⟨false, "A_size".toList⟩ ∈ globals .c true t := by
  obtain ⟨u, h⟩ := globUnits_eq
  obtain ⟨h1, h2⟩ := named_defined (n := "A") (by decide +kernel)
  obtain ⟨h3, h4⟩ := named_defined (n := "Kind") (by decide +kernel)
  exact ⟨_, u, _, _, h, h1, h3, h2, h4, by decide +kernel, by decide +kernel⟩

/-- `struct A { uint8 size; }` besides `struct A_get`: `A_get_size` is the getter of one and the size of the other. -/
theorem C80_struct_counterexample : ∃ us u s t, compileFile globFS some 5 ['a'] = some (us, .ok (some u)) ∧ Defined us s ∧ Defined us t ∧
    s.customName = "A".toList ∧ t.customName = "A_get".toList ∧ ⟨false, "A_get_size".toList⟩ ∈ globals .c false s ∧
    ⟨false, "A_get_size".toList⟩ ∈ globals .c false t := by
  obtain ⟨u, h⟩ := globUnits_eq
  obtain ⟨h1, h2⟩ := named_defined (n := "A") (by decide +kernel)
  obtain ⟨h3, h4⟩ := named_defined (n := "A_get") (by decide +kernel)
  exact ⟨_, u, _, _, h, h1, h3, h2, h4, by decide +kernel, by decide +kernel⟩

/-- The packages `p.q` and `p_q` of one accepted project have headers with the same guard: including one leaves the other empty. -/
theorem C80_guard_counterexample : ∃ us u, compileFile globFS some 5 ['a'] = some (us, .ok (some u)) ∧
    ∃ v ∈ us, ∃ w ∈ us, v.pkg ≠ w.pkg ∧ ∀ hpp, headerGuard hpp v.pkg = headerGuard hpp w.pkg := by
  obtain ⟨u, h⟩ := globUnits_eq
  refine ⟨_, u, h, ?_⟩
  have : (globUnits.any fun v => globUnits.any fun w => decide (v.pkg ≠ w.pkg) && decide (headerGuard false v.pkg = headerGuard false w.pkg)
      && decide (headerGuard true v.pkg = headerGuard true w.pkg)) = true := by decide +kernel
  obtain ⟨v, hv, hw⟩ := List.any_eq_true.1 this
  obtain ⟨w, hw, hq⟩ := List.any_eq_true.1 hw
  simp only [Bool.and_eq_true, decide_eq_true_eq] at hq
  exact ⟨v, hv, w, hw, hq.1.1, fun hpp => by
    cases hpp
    · exact hq.1.2
    · exact hq.2⟩

/-- An enum value called as the guard of a header -/
theorem C80_macro_counterexample : ∃ us u t, compileFile globFS some 5 ['a'] = some (us, .ok (some u)) ∧ Defined us t ∧
    ∃ a ∈ globals .c false t, ∃ v ∈ us, a.name ∈ macros v.pkg := by
  obtain ⟨u, h⟩ := globUnits_eq
  obtain ⟨h1, -⟩ := named_defined (n := "Kind") (by decide +kernel)
  refine ⟨_, u, _, h, h1, ⟨false, "__P_Q_BB_H".toList⟩, by decide +kernel, ?_⟩
  have : (globUnits.any fun v => decide ("__P_Q_BB_H".toList ∈ macros v.pkg)) = true := by decide +kernel
  obtain ⟨v, hv, hw⟩ := List.any_eq_true.1 this
  exact ⟨v, hv, of_decide_eq_true hw⟩

/-- `enum E[1] { A = 1; B = 1; }` is accepted, and its Java class has a `switch` with two equal labels. -/
theorem C80_java_counterexample : ∃ e u', visitEnum ⟨1, 0, ['E'], ⟨some ['1'], none⟩,
    [.value 1 1 ['A'] (some (.inl (.int false ['1']))), .value 1 9 ['B'] (some (.inl (.int false ['1'])))]⟩ Sample.u0 = (.ok e, u') ∧
    ¬ (javaLabels e).Nodup := by
  have h : (match visitEnum ⟨1, 0, ['E'], ⟨some ['1'], none⟩,
      [.value 1 1 ['A'] (some (.inl (.int false ['1']))), .value 1 9 ['B'] (some (.inl (.int false ['1'])))]⟩ Sample.u0 with
    | (.ok e, _) => decide (¬ (javaLabels e).Nodup)
    | _ => false) = true := by decide +kernel
  split at h
  · rename_i e u' he
    exact ⟨e, u', he, of_decide_eq_true h⟩
  · cases h

/-- `Point`, `A` and `Mode` meet the conditions of `C80_c` and `C80_types`. -/
example (l : Lang) : (([named "Point", named "A", named "Mode"] : List CTy).flatMap (globals l false)).Nodup := by
  obtain ⟨u, h⟩ := globUnits_eq
  have hpos : ∀ q g, globFS q = .parsed g → (places g).Nodup := by
    intro q g hg
    unfold globFS at hg
    split at hg
    · cases hg; decide +kernel
    · split at hg
      · cases hg; decide +kernel
      · cases hg
  obtain ⟨h1, n1⟩ := named_defined (n := "Point") (by decide +kernel)
  obtain ⟨h2, n2⟩ := named_defined (n := "A") (by decide +kernel)
  obtain ⟨h3, n3⟩ := named_defined (n := "Mode") (by decide +kernel)
  have hne : ∀ a b : CTy, a.customName ≠ b.customName → a ≠ b := fun a b h e => h (by rw [e])
  have hn : ([named "Point", named "A", named "Mode"] : List CTy).Nodup := by
    refine List.nodup_cons.2 ⟨?_, List.nodup_cons.2 ⟨?_, List.nodup_cons.2 ⟨by simp, List.nodup_nil⟩⟩⟩
    · simp only [List.mem_cons, List.not_mem_nil, or_false, not_or]
      exact ⟨hne _ _ (by rw [n1, n2]; decide), hne _ _ (by rw [n1, n3]; decide)⟩
    · simp only [List.mem_cons, List.not_mem_nil, or_false]
      exact hne _ _ (by rw [n2, n3]; decide)
  have hd : ∀ t ∈ ([named "Point", named "A", named "Mode"] : List CTy), Defined globUnits t := by
    intro t ht
    simp only [List.mem_cons, List.not_mem_nil, or_false] at ht
    rcases ht with rfl | rfl | rfl <;> assumption
  by_cases hl : l = .c
  · subst hl
    have sp : ∀ t ∈ ([named "Point", named "A", named "Mode"] : List CTy), ∀ s, t = .struct s →
        (s.name = "Point".toList ∨ s.name = "A".toList) ∧ Distinct .c (members .c false s) := by
      have key : ∀ n ∈ ["Point", "A", "Mode"], (match named n with
        | .struct s => decide ((s.name = "Point".toList ∨ s.name = "A".toList) ∧ Distinct .c (members .c false s))
        | _ => true) = true := by decide +kernel
      intro t ht s e
      obtain ⟨n, hn, rfl⟩ : ∃ n ∈ ["Point", "A", "Mode"], t = named n := by
        simp only [List.mem_cons, List.not_mem_nil, or_false] at ht
        rcases ht with rfl | rfl | rfl
        · exact ⟨"Point", by simp, rfl⟩
        · exact ⟨"A", by simp, rfl⟩
        · exact ⟨"Mode", by simp, rfl⟩
      have := key n hn
      rw [e] at this
      simpa only [decide_eq_true_eq] using this
    have ev : ∀ t ∈ ([named "Point", named "A", named "Mode"] : List CTy), ∀ e, t = .enum e →
        ∀ v ∈ e.values.map (·.1), ∀ c ∈ v, Name.isLower c = false := by
      have key : ∀ n ∈ ["Point", "A", "Mode"], (match named n with
        | .enum e => e.values.all fun v => v.1.all fun c => !Name.isLower c
        | _ => true) = true := by decide +kernel
      intro t ht e he
      obtain ⟨n, hn, rfl⟩ : ∃ n ∈ ["Point", "A", "Mode"], t = named n := by
        simp only [List.mem_cons, List.not_mem_nil, or_false] at ht
        rcases ht with rfl | rfl | rfl
        · exact ⟨"Point", by simp, rfl⟩
        · exact ⟨"A", by simp, rfl⟩
        · exact ⟨"Mode", by simp, rfl⟩
      have := key n hn
      rw [he] at this
      simp only [List.all_eq_true, Bool.not_eq_true'] at this
      intro v hv c hc
      obtain ⟨x, hx, rfl⟩ := List.mem_map.1 hv
      exact this x hx c hc
    refine C80_c globFS some 5 ['a'] globUnits u h hpos _ hn hd false (fun s hs => (sp _ hs s rfl).2) ?_
      (fun s e v _ he hv _ => ev _ he e rfl v hv)
    intro s t hs ht hp
    have : '_' ∈ t.name := hp.subset (List.mem_append_right _ (List.mem_singleton.2 rfl))
    rcases (sp _ ht t rfl).1 with h | h <;> rw [h] at this <;> revert this <;> decide
  · exact C80_types globFS some 5 ['a'] globUnits u h hpos _ hn hd l hl false

end Bubbler
