import Verif.Compiler.RuleVisit

/-
C75: what the rules allow is accepted, and which names are introduced.
-/
namespace Bubbler.Comp
open Front (WidthIs roomOf nextNum firsts FlatTy width_is sumBits_is flat_expand)
open Gen (keys Clean nodup_left nodup_right mem_keys)

/-- The names `ns` are different and not known in `u`. -/
def Fresh (u : UnitD) (ns : List Str) : Prop := ns.Nodup ∧ ∀ n ∈ ns, n ∉ keys u

theorem Fresh.nil (u : UnitD) : Fresh u [] := ⟨by simp, by simp⟩

theorem Fresh.left {u : UnitD} {a b : List Str} (h : Fresh u (a ++ b)) : Fresh u a :=
  ⟨nodup_left h.1, fun n hn => h.2 n (List.mem_append_left _ hn)⟩

theorem Fresh.right {u u' : UnitD} {a b : List Str} (h : Fresh u (a ++ b)) (k : keys u' = keys u ++ a) : Fresh u' b := by
  refine ⟨nodup_right h.1, fun n hn => ?_⟩
  rw [k, List.mem_append]
  rintro (h1 | h1)
  · exact h.2 n (List.mem_append_right _ hn) h1
  · exact (List.nodup_append.1 h.1).2.2 n h1 n hn rfl

theorem Fresh.same {u u' : UnitD} {a : List Str} (h : Fresh u a) (k : SameNames u u') : Fresh u' a := by
  unfold Fresh keys at *
  rw [k]
  exact h

theorem keys_same {u u' : UnitD} (k : SameNames u u') : keys u' = keys u := by
  unfold keys
  rw [k]

theorem addLocalName_fresh {u : UnitD} {n : Str} {d : NameDef} (h : n ∉ keys u) :
    ∃ u', addLocalName n d u = (.ok (), u') ∧ keys u' = keys u ++ [n] := by
  refine ⟨_, addLocalName_ok.2 ⟨?_, rfl⟩, ?_⟩
  · unfold UnitD.conflicts
    rw [aget_none_iff.2 h]
  · unfold keys at *
    simp only
    rw [aput_new _ _ _ h]
    simp

/-! ### What the rules allow is accepted -/

mutual
  theorem elem_complete {Γ : Scope} : ∀ (e : ElemA) (u : UnitD) (t : CTy), Match Γ u → Fresh u e.intro → ElemOk Γ e t →
      ∃ u', visitElem e u = (.ok t, u') ∧ keys u' = keys u ++ e.intro
    | .basic b, u, t, hM, hf, h => by
      cases h
      exact ⟨u, by unfold visitElem; exact pure_ok.2 ⟨rfl, rfl⟩, by simp [ElemA.intro]⟩
    | .str, u, t, hM, hf, h => by
      cases h
      exact ⟨u, by unfold visitElem; exact pure_ok.2 ⟨rfl, rfl⟩, by simp [ElemA.intro]⟩
    | .bytes, u, t, hM, hf, h => by
      cases h
      exact ⟨u, by unfold visitElem; exact pure_ok.2 ⟨rfl, rfl⟩, by simp [ElemA.intro]⟩
    | .structName n, u, t, hM, hf, h => by
      cases h with
      | structName hc hg =>
        obtain ⟨d, h1, h2⟩ := (hM.type _ _).1 hg
        obtain ⟨u', h3⟩ := lookupStruct_iff.2 ⟨hc, d, _, h1, h2, rfl⟩
        refine ⟨u', by unfold visitElem; exact h3, ?_⟩
        rw [keys_same ((quiet_lookupStruct n).ok h3)]
        simp [ElemA.intro]
    | .structDef d, u, t, hM, hf, h => by
      have ih := fun x => struct_complete (Γ := Γ) d u x hM
      simp only [ElemA.intro] at hf ⊢
      cases h with
      | structDef h =>
        obtain ⟨u', h1, h2⟩ := ih _ hf h
        exact ⟨u', by unfold visitElem; exact bind_ok.2 ⟨_, _, h1, pure_ok.2 ⟨rfl, rfl⟩⟩, h2⟩
    | .enumName n, u, t, hM, hf, h => by
      cases h with
      | enumName hc hg =>
        obtain ⟨d, h1, h2⟩ := (hM.type _ _).1 hg
        obtain ⟨u', h3⟩ := lookupEnum_iff.2 ⟨hc, d, _, h1, h2, rfl⟩
        refine ⟨u', by unfold visitElem; exact h3, ?_⟩
        rw [keys_same ((quiet_lookupEnum n).ok h3)]
        simp [ElemA.intro]
    | .ident n, u, t, hM, hf, h => by
      cases h with
      | ident hg =>
        obtain ⟨d, h1, h2⟩ := (hM.type _ _).1 hg
        exact ⟨u, by unfold visitElem; exact lookupType_ok.2 ⟨rfl, d, h1, h2⟩, by simp [ElemA.intro]⟩
  theorem type_complete {Γ : Scope} : ∀ (e : TypeA) (u : UnitD) (t : CTy), Match Γ u → Fresh u e.intro → TypeOk Γ e t →
      ∃ u', visitType e u = (.ok t, u') ∧ keys u' = keys u ++ e.intro
    | .elem e, u, t, hM, hf, h => by
      have ih := elem_complete (Γ := Γ) e u t hM
      simp only [TypeA.intro] at hf ⊢
      cases h with
      | elem h =>
        obtain ⟨u', h1, h2⟩ := ih hf h
        exact ⟨u', by unfold visitType; exact h1, h2⟩
    | .array e len, u, t, hM, hf, h => by
      have ih := fun t => elem_complete (Γ := Γ) e u t hM
      simp only [TypeA.intro] at hf ⊢
      cases h with
      | @array _ _ x n h1 h2 h3 =>
        obtain ⟨u', k1, k2⟩ := ih _ hf h1
        refine ⟨u', ?_, k2⟩
        unfold visitType
        refine bind_ok.2 ⟨_, _, k1, bind_ok.2 ⟨(n : Int), u', visitIntLit_ok.2 ⟨n, h2, rfl, rfl⟩, ?_⟩⟩
        rw [if_neg (by omega)]
        exact pure_ok.2 ⟨rfl, rfl⟩
  theorem struct_complete {Γ : Scope} : ∀ (s : StructA) (u : UnitD) (x : StructD), Match Γ u → Fresh u s.intro → StructOk Γ s x →
      ∃ u', visitStruct s u = (.ok x, u') ∧ keys u' = keys u ++ s.intro
    | .mk l c n sz b, u, x, hM, hf, h => by
      have ih := fun u fs => body_complete (Γ := Γ) b u fs
      simp only [StructA.intro] at hf ⊢
      cases h with
      | @mk _ _ _ _ _ fs dyn h1 h2 h3 h4 h5 h6 h7 h8 =>
        have e1 : visitStructName n u = (.ok n, styleWarn Name.toPascal n u) := visitName_ok.2 ⟨h1, rfl, rfl⟩
        have q1 : SameNames u (styleWarn Name.toPascal n u) := (quiet_visitName _ _ _).ok e1
        have m1 := hM.visit (steps_visitName _ _ _) (vals_visitName _ _ _) e1
        generalize styleWarn Name.toPascal n u = u1 at e1 q1 m1
        have hf1 := hf.same q1
        obtain ⟨u2, e2, k2⟩ := addLocalName_fresh (d := ⟨⟨u1.path, l, c⟩, none⟩) (hf1.2 n (by simp))
        have m2 : Match Γ u2 := by
          have s2 := step_addLocalName u1 n ⟨⟨u1.path, l, c⟩, none⟩ rfl
          have v2 := val_addLocalName u1 n ⟨⟨u1.path, l, c⟩, none⟩ rfl
          rw [e2] at s2 v2
          exact m1.step s2 v2
        have hf2 : Fresh u2 b.intro := Fresh.right (a := [n]) hf1 k2
        have hz : ∃ z, annotSize sz = some z := by
          rcases h7 with rfl | ⟨-, h7⟩
          · exact ⟨0, rfl⟩
          · exact ⟨_, h7⟩
        obtain ⟨z, hz⟩ := hz
        obtain ⟨gs, u', k3, k4, k5⟩ := ih u2 fs m2 hf2 h2
        refine ⟨u', visitStruct_ok.2 ⟨u1, u2, u2, z, gs, e1, e2, visitOptSize_ok.2 ⟨hz, rfl⟩, k3, ?_, ?_⟩, ?_⟩
        · rw [← k4, flatNames_belongs] at h4
          exact h4
        · rw [finish_iff hz, k4]
          refine ⟨?_, h5, h6, h7, dyn, h8, rfl⟩
          rintro e
          rw [e] at k4
          exact h3 k4.symm
        · rw [k5, k2, keys_same q1, List.append_assoc]
          rfl
  theorem body_complete {Γ : Scope} : ∀ (b : BodyA) (u : UnitD) (xs : List FieldD), Match Γ u → Fresh u b.intro → BodyOk Γ b xs →
      ∃ fs u', VisitAll b u fs u' ∧ (expandAll fs).map setBelongs = xs ∧ keys u' = keys u ++ b.intro
    | .nil, u, xs, hM, hf, h => by
      cases h
      exact ⟨[], u, by simp [VisitAll], rfl, by simp [BodyA.intro]⟩
    | .cons f r, u, xs, hM, hf, h => by
      have ih1 := fun xs => field_complete (Γ := Γ) f u xs hM
      have ih2 := fun u xs => body_complete (Γ := Γ) r u xs
      simp only [BodyA.intro] at hf ⊢
      cases h with
      | cons h1 h2 =>
        obtain ⟨o, u1, k1, k2, k3⟩ := ih1 _ hf.left h1
        have m1 := hM.visit (steps_visitField _) (vals_visitField _) k1
        obtain ⟨fs, u', g1, g2, g3⟩ := ih2 u1 _ m1 (hf.right k3) h2
        refine ⟨o.toList ++ fs, u', ?_, ?_, ?_⟩
        · simp only [VisitAll]
          exact ⟨o, u1, k1, fs, rfl, g1⟩
        · rw [expandAll_append, List.map_append, k2, g2]
        · rw [g3, k3, List.append_assoc]
  theorem field_complete {Γ : Scope} : ∀ (f : FieldA) (u : UnitD) (xs : List FieldD), Match Γ u → Fresh u f.intro → FieldOk Γ f xs →
      ∃ o u', visitField f u = (.ok o, u') ∧ (expandAll o.toList).map setBelongs = xs ∧ keys u' = keys u ++ f.intro
    | .empty, u, xs, hM, hf, h => by
      cases h
      exact ⟨none, u, by unfold visitField; exact pure_ok.2 ⟨rfl, rfl⟩, rfl, by simp [FieldA.intro]⟩
    | .void sz os, u, xs, hM, hf, h => by
      cases h with
      | void h1 h2 =>
        obtain ⟨u', h3⟩ := (opts_iff (u := u)).1 h2
        refine ⟨_, u', visitField_void.2 ⟨_, _, h1, h3, rfl⟩, rfl, ?_⟩
        rw [keys_same ((quiet_visitFieldOptions _ _).ok h3)]
        simp [FieldA.intro]
    | .const t n sz v os, u, xs, hM, hf, h => by
      cases h with
      | const h1 h2 h3 h4 h5 =>
        obtain ⟨u1, e1⟩ := (optName_iff (u := u)).2 ⟨h1, rfl⟩
        have m1 := hM.visit (steps_visitOptName _ _ fun _ => steps_visitName _ _ _) (vals_visitOptName _ _ fun _ => vals_visitName _ _ _) e1
        obtain ⟨z, k1, k2⟩ := (constSize_iff (u := u1)).1 h2
        obtain ⟨u', k3⟩ := (opts_iff (u := u1)).1 h5
        refine ⟨_, u', visitField_const.2 ⟨_, z, _, _, _, u1, e1, k1, k2, (val_iff m1).1 h3, fits_iff.1 h4, k3, rfl⟩, rfl, ?_⟩
        rw [keys_same ((quiet_visitFieldOptions _ _).ok k3), keys_same ((quiet_visitOptName _ _ fun _ => quiet_visitName _ _ _).ok e1)]
        simp [FieldA.intro]
    | .embedded t os, u, xs, hM, hf, h => by
      have ih := fun x => type_complete (Γ := Γ) t u x hM
      simp only [FieldA.intro] at hf ⊢
      cases h with
      | embedded h1 h2 =>
        obtain ⟨u1, k1, k2⟩ := ih _ hf h1
        have hflat := (type_sound t u u1 _ hM k1).2
        obtain ⟨u', k3⟩ := (opts_iff (u := u1)).1 h2
        refine ⟨_, u', visitField_embedded.2 ⟨_, u1, _, k1, k3, rfl⟩, ?_, ?_⟩
        · simp only [Option.toList_some]
          rw [flat_expand hflat]
        · rw [keys_same ((quiet_visitFieldOptions _ _).ok k3), k2]
    | .normal t n sz os ms, u, xs, hM, hf, h => by
      have ih := fun x => type_complete (Γ := Γ) t u x hM
      simp only [FieldA.intro] at hf ⊢
      cases h with
      | normal h1 h2 h3 h4 h5 =>
        obtain ⟨u1, k1, k2⟩ := ih _ hf h1
        obtain ⟨u', k3⟩ := (normalRest_iff (u := u1)).2 ⟨_, _, _, h2, h3, h4, h5, rfl⟩
        refine ⟨_, u', visitField_normal.2 ⟨_, u1, _, k1, k3, rfl⟩, rfl, ?_⟩
        rw [keys_same ((quiet_visitNormalRest _ _ _ _ _).ok k3), k2]
end

/-! ### Which names are introduced -/

/-- From `u` to `u'` the names `ns` were introduced, at the places `P`. -/
structure Adds (u u' : UnitD) (P : List (Nat × Nat)) (ns : List Str) : Prop where
  keys : keys u' = keys u ++ ns
  path : u'.path = u.path
  adds : ∀ e ∈ u'.globalNames, e ∈ u.globalNames ∨ ∃ p ∈ P, e.2.pos = ⟨u.path, p.1, p.2⟩
  fresh : Fresh u ns

theorem Adds.quiet {u u' : UnitD} (s : Step u u') (q : SameNames u u') : Adds u u' [] [] where
  keys := by rw [keys_same q, List.append_nil]
  path := s.path
  adds e he := .inl (by rw [q] at he; exact he)
  fresh := .nil u

theorem Adds.trans {u u1 u2 : UnitD} {P1 P2 : List (Nat × Nat)} {a b : List Str} (h : Adds u u1 P1 a) (k : Adds u1 u2 P2 b) :
    Adds u u2 (P1 ++ P2) (a ++ b) where
  keys := by rw [k.keys, h.keys, List.append_assoc]
  path := k.path.trans h.path
  adds e he := by
    rcases k.adds e he with he | ⟨p, hp, he⟩
    · rcases h.adds e he with he | ⟨p, hp, he⟩
      · exact .inl he
      · exact .inr ⟨p, List.mem_append_left _ hp, he⟩
    · exact .inr ⟨p, List.mem_append_right _ hp, by rw [he, h.path]⟩
  fresh := by
    refine ⟨List.nodup_append.2 ⟨h.fresh.1, k.fresh.1, ?_⟩, ?_⟩
    · rintro x hx y hy rfl
      refine k.fresh.2 x hy ?_
      rw [h.keys]
      exact List.mem_append_right _ hx
    · intro n hn
      rcases List.mem_append.1 hn with hn | hn
      · exact h.fresh.2 n hn
      · intro hk
        refine k.fresh.2 n hn ?_
        rw [h.keys]
        exact List.mem_append_left _ hk

theorem Adds.clean {u u1 : UnitD} {P Q : List (Nat × Nat)} {ns : List Str} (h : Adds u u1 P ns) (hc : Clean u (P ++ Q))
    (hn : (P ++ Q).Nodup) : Clean u1 Q := by
  intro e he q hq hpos
  rw [h.path] at hpos
  rcases h.adds e he with he | ⟨p, hp, he⟩
  · exact hc e he q (List.mem_append_right _ hq) hpos
  · rw [he] at hpos
    simp only [Pos.mk.injEq, true_and] at hpos
    exact (List.nodup_append.1 hn).2.2 p hp q hq (Prod.ext hpos.1 hpos.2)

theorem addLocalName_adds {n : Str} {l c : Nat} {o : Option Int} {u u' : UnitD} (h : addLocalName n ⟨⟨u.path, l, c⟩, o⟩ u = (.ok (), u'))
    (hc : Clean u [(l, c)]) : Adds u u' [(l, c)] [n] := by
  obtain ⟨h1, -, h2⟩ := Gen.addLocalName_new h hc
  obtain ⟨u1, h3, h4⟩ := addLocalName_fresh (d := ⟨⟨u.path, l, c⟩, o⟩) h1
  rw [h] at h3
  cases h3
  exact ⟨h4, h2.path, h2.adds, by simp, by simpa using h1⟩

mutual
  theorem elem_adds : ∀ (e : ElemA) (u u' : UnitD) (t : CTy), visitElem e u = (.ok t, u') → Clean u e.places → e.places.Nodup →
      Adds u u' e.places e.intro
    | .basic p, u, u', t, h, hc, hn => by
      unfold visitElem at h
      obtain ⟨rfl, rfl⟩ := pure_ok.1 h
      exact .quiet (Step.refl _) (SameNames.refl _)
    | .str, u, u', t, h, hc, hn => by
      unfold visitElem at h
      obtain ⟨rfl, rfl⟩ := pure_ok.1 h
      exact .quiet (Step.refl _) (SameNames.refl _)
    | .bytes, u, u', t, h, hc, hn => by
      unfold visitElem at h
      obtain ⟨rfl, rfl⟩ := pure_ok.1 h
      exact .quiet (Step.refl _) (SameNames.refl _)
    | .structName n, u, u', t, h, hc, hn => by
      have s := (steps_visitElem _).ok h
      unfold visitElem at h
      exact .quiet s ((quiet_lookupStruct n).ok h)
    | .enumName n, u, u', t, h, hc, hn => by
      have s := (steps_visitElem _).ok h
      unfold visitElem at h
      exact .quiet s ((quiet_lookupEnum n).ok h)
    | .ident n, u, u', t, h, hc, hn => by
      have s := (steps_visitElem _).ok h
      unfold visitElem at h
      exact .quiet s ((quiet_lookupType n).ok h)
    | .structDef d, u, u', t, h, hc, hn => by
      have ih := fun u' x => struct_adds d u u' x
      unfold visitElem at h
      unfold ElemA.places at hc hn ⊢
      unfold ElemA.intro
      obtain ⟨x, u1, h1, h2⟩ := bind_ok.1 h
      obtain ⟨-, rfl⟩ := pure_ok.1 h2
      exact ih _ x h1 hc hn
  theorem type_adds : ∀ (e : TypeA) (u u' : UnitD) (t : CTy), visitType e u = (.ok t, u') → Clean u e.places → e.places.Nodup →
      Adds u u' e.places e.intro
    | .elem e, u, u', t, h, hc, hn => by
      have ih := elem_adds e u u' t
      unfold visitType at h
      unfold TypeA.places at hc hn ⊢
      unfold TypeA.intro
      exact ih h hc hn
    | .array e len, u, u', t, h, hc, hn => by
      have ih := fun u' t => elem_adds e u u' t
      unfold visitType at h
      unfold TypeA.places at hc hn ⊢
      unfold TypeA.intro
      obtain ⟨x, u1, h1, h2⟩ := bind_ok.1 h
      obtain ⟨l, u2, h3, h4⟩ := bind_ok.1 h2
      obtain ⟨n, -, -, rfl⟩ := visitIntLit_ok.1 h3
      split at h4
      · exact absurd h4 (by simp [fail])
      · obtain ⟨-, rfl⟩ := pure_ok.1 h4
        exact ih _ x h1 hc hn
  theorem struct_adds : ∀ (s : StructA) (u u' : UnitD) (x : StructD), visitStruct s u = (.ok x, u') → Clean u s.places → s.places.Nodup →
      Adds u u' s.places s.intro
    | .mk l c n sz b, u, u', x, h, hc, hn => by
      have ih := fun u u' fs => body_adds b u u' fs
      unfold StructA.places at hc hn ⊢
      unfold StructA.intro
      obtain ⟨u1, u2, u3, z, fs, h1, h2, h3, h4, -, -⟩ := visitStruct_ok.1 h
      have a1 := Adds.quiet ((steps_visitName _ _ _).ok h1) ((quiet_visitName _ _ _).ok h1)
      have c1 := a1.clean (Q := (l, c) :: b.places) hc hn
      have a2 := addLocalName_adds h2 (Clean.left (Q := b.places) c1)
      have c2 := a2.clean c1 hn
      have a3 := Adds.quiet ((steps_visitOptSize _).ok h3) ((quiet_visitOptSize _).ok h3)
      have c3 := a3.clean c2 (List.nodup_cons.1 hn).2
      have a4 := ih u3 u' fs h4 c3 (List.nodup_cons.1 hn).2
      exact (a1.trans a2).trans (a3.trans a4)
  theorem body_adds : ∀ (b : BodyA) (u u' : UnitD) (fs : List FieldD), VisitAll b u fs u' → Clean u b.places → b.places.Nodup →
      Adds u u' b.places b.intro
    | .nil, u, u', fs, h, hc, hn => by
      simp only [VisitAll] at h
      obtain ⟨-, rfl⟩ := h
      exact .quiet (Step.refl _) (SameNames.refl _)
    | .cons f r, u, u', fs, h, hc, hn => by
      have ih1 := fun u' o => field_adds f u u' o
      have ih2 := fun u u' fs => body_adds r u u' fs
      unfold BodyA.places at hc hn ⊢
      unfold BodyA.intro
      simp only [VisitAll] at h
      obtain ⟨o, u1, h1, fs', rfl, h2⟩ := h
      have a1 := ih1 u1 o h1 hc.left (nodup_left hn)
      exact a1.trans (ih2 u1 u' fs' h2 (a1.clean hc hn) (nodup_right hn))
  theorem field_adds : ∀ (f : FieldA) (u u' : UnitD) (o : Option FieldD), visitField f u = (.ok o, u') → Clean u f.places →
      f.places.Nodup → Adds u u' f.places f.intro
    | .empty, u, u', o, h, hc, hn => by
      unfold visitField at h
      obtain ⟨-, rfl⟩ := pure_ok.1 h
      exact .quiet (Step.refl _) (SameNames.refl _)
    | .void sz os, u, u', o, h, hc, hn => by
      obtain ⟨b, os', h1, h2, rfl⟩ := visitField_void.1 h
      exact .quiet ((steps_visitField _).ok h) ((quiet_visitFieldOptions _ _).ok h2)
    | .const t n sz v os, u, u', o, h, hc, hn => by
      obtain ⟨m, z, b, l, os', u1, h1, h2, h3, h4, h5, h6, rfl⟩ := visitField_const.1 h
      exact .quiet ((steps_visitField _).ok h)
        (SameNames.trans ((quiet_visitOptName _ _ fun _ => quiet_visitName _ _ _).ok h1) ((quiet_visitFieldOptions _ _).ok h6))
    | .embedded t os, u, u', o, h, hc, hn => by
      have ih := fun u' x => type_adds t u u' x
      unfold FieldA.places at hc hn ⊢
      unfold FieldA.intro
      obtain ⟨x, u1, os', h1, h2, rfl⟩ := visitField_embedded.1 h
      have := (ih u1 _ h1 hc hn).trans (Adds.quiet ((steps_visitFieldOptions _ _).ok h2) ((quiet_visitFieldOptions _ _).ok h2))
      simpa using this
    | .normal t n sz os ms, u, u', o, h, hc, hn => by
      have ih := fun u' x => type_adds t u u' x
      unfold FieldA.places at hc hn ⊢
      unfold FieldA.intro
      obtain ⟨ty, u1, f, h1, h2, rfl⟩ := visitField_normal.1 h
      have := (ih u1 _ h1 hc hn).trans (Adds.quiet ((steps_visitNormalRest _ _ _ _ _).ok h2) ((quiet_visitNormalRest _ _ _ _ _).ok h2))
      simpa using this
end

end Bubbler.Comp
