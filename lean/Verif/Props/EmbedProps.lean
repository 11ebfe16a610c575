import Verif.Compiler.Embed
import Verif.Props.BridgeProps

/-
C24: embedding is inlining.

`SameBut x s s'` (Verif/Compiler/Embed.lean): `s` and `s'` have the same name, size, dynamic flag, and the same schema (hence the
same Encode, Decode, ... for the Go target); their fields are the same, except that `s` contains the 0-bit record that `x` is
embedded.  `Sees u v`: what a definition may refer to in `u` it may refer to in `v`.
-/
namespace Bubbler.Comp

theorem UpToWarns.symm {u v : UnitD} (h : UpToWarns u v) : UpToWarns v u := by
  obtain ⟨ws, rfl⟩ := h
  exact ⟨u.warns, rfl⟩

theorem UpToWarns.refl (u : UnitD) : UpToWarns u u := ⟨u.warns, rfl⟩

theorem finishStruct_any {n : Str} {sz : Int} {fs : List FieldD} {s : StructD} {u u' v : UnitD}
    (h : finishStruct n sz fs u = (.ok s, u')) : finishStruct n sz fs v = (.ok s, v) := by
  obtain ⟨h1, h2, h3, h4, h5, -⟩ := finishStruct_ok.1 h
  exact finishStruct_ok.2 ⟨h1, h2, h3, h4, h5, rfl⟩

theorem visitAll_step : ∀ (b : BodyA) (v v' : UnitD) (fs : List FieldD), VisitAll b v fs v' → Step v v'
  | .nil, v, v', fs, h => by
    unfold VisitAll at h; rw [h.2]; exact Step.refl _
  | .cons f r, v, v', fs, h => by
    unfold VisitAll at h
    obtain ⟨o, v1, h1, fs', rfl, h2⟩ := h
    exact ((steps_visitField f).ok h1).trans (visitAll_step r _ _ _ h2)

theorem addLocalName_eq {n : Str} {d : NameDef} {u u' : UnitD} (h : addLocalName n d u = (.ok (), u')) : u.addLocalName n d = (u', true) := by
  unfold addLocalName at h
  split at h
  · rename_i e; rw [e]; simp only [Prod.mk.injEq, true_and] at h; rw [h]
  · simp at h

/-- `v` is `u` without the name `n` of the struct at `p`, which may be added later. -/
structure Unnamed (n : Str) (p : Pos) (u v : UnitD) : Prop where
  path : v.path = u.path
  types : v.globalTypes = u.globalTypes
  others : ∀ m, m ≠ n → aget v.globalNames m = aget u.globalNames m
  it : ∃ d, aget u.globalNames n = some d ∧ d.pos = p ∧ (aget v.globalNames n = none ∧ d.enumVal = none ∨ aget v.globalNames n = some d)

theorem aget_aput_self {α : Type} (m : List (Str × α)) (k : Str) (v : α) : aget (aput m k v) k = some ((aget m k).getD v) := by
  unfold aput
  cases h : aget m k with
  | some x => simp [h]
  | none =>
    simp only [Option.isSome_none, Bool.false_eq_true, if_false, Option.getD_none]
    unfold aget at h ⊢
    rw [List.find?_append]
    simp only [Option.map_eq_none_iff] at h
    rw [h]
    simp

theorem aget_aput_other {α : Type} (m : List (Str × α)) (k j : Str) (v : α) (hj : j ≠ k) : aget (aput m k v) j = aget m j := by
  unfold aput
  split
  · rfl
  · unfold aget
    rw [List.find?_append]
    have : List.find? (fun e : Str × α => decide (e.1 = j)) [(k, v)] = none := by
      simp [Ne.symm hj]
    rw [this, Option.or_none]

theorem Unnamed.compat (n : Str) (p : Pos) : Compat (Unnamed n p) true where
  warn := by
    intro u v w h
    exact ⟨h.path, h.types, h.others, h.it⟩
  types := by
    intro u v m d h hd
    rw [h.types]
    exact hd
  vals := by
    intro u v m d x h hd hx
    by_cases hm : m = n
    · subst hm
      obtain ⟨d0, k1, -, k3⟩ := h.it
      rw [k1] at hd
      cases hd
      rcases k3 with ⟨-, k3⟩ | k3
      · rw [k3] at hx; cases hx
      · exact ⟨_, k3, hx⟩
    · exact ⟨d, by rw [h.others m hm]; exact hd, hx⟩
  path := fun _ u v h => h.path
  add := by
    intro _ u v m q u' h ha
    obtain ⟨d0, k1, k2, k3⟩ := h.it
    unfold UnitD.addLocalName at ha ⊢
    split at ha
    · simp at ha
    rename_i hcon
    simp only [Prod.mk.injEq, and_true] at ha
    subst ha
    have hcv : v.conflicts m q = false := by
      unfold UnitD.conflicts at hcon ⊢
      by_cases hm : m = n
      · subst hm
        rw [k1] at hcon
        rcases k3 with ⟨k3, -⟩ | k3
        · rw [k3]
        · rw [k3]; simpa using hcon
      · rw [h.others m hm]; simpa using hcon
    rw [hcv]
    refine ⟨_, rfl, h.path, h.types, ?_, ?_⟩
    · intro j hj
      by_cases hjm : j = m
      · subst hjm
        simp only [aget_aput_self, h.others j hj]
      · simp only [aget_aput_other _ _ _ _ hjm, h.others j hj]
    · by_cases hm : m = n
      · subst hm
        refine ⟨d0, by simp only [aget_aput_self, k1, Option.getD_some], k2, .inr ?_⟩
        simp only [aget_aput_self]
        rcases k3 with ⟨k3, k4⟩ | k3
        · rw [k3]
          unfold UnitD.conflicts at hcon
          rw [k1] at hcon
          simp only [ne_eq, decide_not, Bool.not_eq_true', decide_eq_false_iff_not, Decidable.not_not] at hcon
          simp only [Option.getD_none]
          cases d0
          simp only at hcon k4
          rw [hcon, k4]
        · rw [k3, Option.getD_some]
      · have hnm : n ≠ m := fun e => hm e.symm
        exact ⟨d0, by simp only [aget_aput_other _ _ _ _ hnm, k1], k2, by simpa only [aget_aput_other _ _ _ _ hnm] using k3⟩

end Bubbler.Comp

namespace Bubbler
open Comp

/-- C24: let `T` be an accepted struct (without struct definitions inside it) that is visible by its name in `u`.
Then `struct S { pre... T; post... }` is accepted in `u` iff `struct S { pre... <fields of T> post... }` is accepted and
does not use the name of `T` for something else; and the two have the same size, layout and schema. -/
theorem C24_embedding_is_inlining {lT cT : Nat} {nT : Str} {szT : Option SizeA} {bT : BodyA} {uT uT' : UnitD} {sT : StructD}
    (hT : visitStruct (.mk lT cT nT szT bT) uT = (.ok sT, uT')) (hplain : bT.plain = true) {u : UnitD} (hsee : Sees uT u)
    {pos : Pos} (hvis : aget u.globalTypes nT = some ⟨pos, .struct sT⟩)
    (l c : Nat) (n : Str) (sz : Option SizeA) (pre post : BodyA) :
    (∀ s u1, visitStruct (.mk l c n sz (pre.append (.cons (.embedded (.elem (.ident nT)) []) post))) u = (.ok s, u1) →
      ∃ s' u2, visitStruct (.mk l c n sz (pre.append (bT.append post))) u = (.ok s', u2) ∧ UpToWarns u1 u2 ∧ SameBut sT s s' ∧
        nT ∉ s'.fields.flatMap FieldD.names) ∧
    (∀ s' u2, visitStruct (.mk l c n sz (pre.append (bT.append post))) u = (.ok s', u2) → nT ∉ s'.fields.flatMap FieldD.names →
      ∃ s u1, visitStruct (.mk l c n sz (pre.append (.cons (.embedded (.elem (.ident nT)) []) post))) u = (.ok s, u1) ∧
        UpToWarns u1 u2 ∧ SameBut sT s s') := by
  obtain ⟨w, fsT, t1, t2, t3, t4, t5⟩ := visitStruct_fields hT
  -- visiting the fields of `T` again, in any later unit
  have again : ∀ v, Step u v → ∃ v', VisitAll bT v fsT v' ∧ UpToWarns v v' := by
    intro v hv
    obtain ⟨v', k1, k2⟩ := tr_visitAll (Frozen.compat v) bT (by rw [hplain]; rfl) w v fsT uT'
      ⟨t1.trans (hsee.trans (Sees.step hv)), UpToWarns.refl v⟩ t2
    exact ⟨v', k1, k2.2⟩
  -- visiting the embedding
  have emb : ∀ v, Step u v → visitField (.embedded (.elem (.ident nT)) []) v = (.ok (some (.embedded sT false)), v) := by
    intro v hv
    refine visitField_embedded.2 ⟨sT, v, [], ?_, rfl, rfl⟩
    unfold visitType visitElem lookupType
    rw [hv.globalTypes, hvis]
  have steps : ∀ {u1 u2 u3 : UnitD} {d : Int}, visitStructName n u = (.ok n, u1) →
      addLocalName n ⟨⟨u1.path, l, c⟩, none⟩ u1 = (.ok (), u2) → visitOptSize sz u2 = (.ok d, u3) → Step u u3 := by
    intro u1 u2 u3 d h1 h2 h3
    have s1 := (steps_visitName _ _ _).ok h1
    have s2 : Step u1 u2 := by
      have := step_addLocalName u1 n ⟨⟨u1.path, l, c⟩, none⟩ rfl
      rw [h2] at this
      exact this
    exact (s1.trans s2).trans ((steps_visitOptSize _).ok h3)
  constructor
  · intro s u1 h
    obtain ⟨a1, a2, a3, d, fs, h1, h2, h3, h4, h5, h6⟩ := visitStruct_ok.1 h
    obtain ⟨fa, fb, a4, rfl, h7, h8⟩ := (visitAll_append _ _ _ _ _).1 h4
    unfold VisitAll at h8
    obtain ⟨o, a5, k1, fb, rfl, k2⟩ := h8
    have s4 : Step u a4 := (steps h1 h2 h3).trans (visitAll_step _ _ _ _ h7)
    rw [emb a4 s4] at k1
    simp only [Prod.mk.injEq, Out.ok.injEq] at k1
    obtain ⟨rfl, rfl⟩ := k1
    obtain ⟨v4, j1, j2⟩ := again a4 s4
    obtain ⟨v5, j3, j4⟩ := tr_visitAll UpToWarns.compat post rfl a4 v4 fb u1 j2 k2
    simp only [Option.toList_some, List.singleton_append] at h5 h6
    obtain ⟨-, s', q1, q2, q3, q4⟩ := (embed_fields (a := fa) (b := fb) t4 t5 (name := n) (sz := d) (u := u1)).1 s u1 h5 h6
    refine ⟨s', v5, visitStruct_ok.2 ⟨a1, a2, a3, d, fa ++ (fsT ++ fb), h1, h2, h3, ?_, q1, finishStruct_any q2⟩, j4, q3, ?_⟩
    · exact (visitAll_append _ _ _ _ _).2 ⟨fa, fsT ++ fb, a4, rfl, h7, (visitAll_append _ _ _ _ _).2 ⟨fsT, fb, v4, rfl, j1, j3⟩⟩
    · rw [t3] at q4; exact q4
  · intro s' u2 h hn
    obtain ⟨a1, a2, a3, d, fs, h1, h2, h3, h4, h5, h6⟩ := visitStruct_ok.1 h
    obtain ⟨fa, fb', a4, rfl, h7, h8⟩ := (visitAll_append _ _ _ _ _).1 h4
    obtain ⟨ft, fb, a5, rfl, k1, k2⟩ := (visitAll_append _ _ _ _ _).1 h8
    have s4 : Step u a4 := (steps h1 h2 h3).trans (visitAll_step _ _ _ _ h7)
    obtain ⟨v4, j1, j2⟩ := again a4 s4
    obtain ⟨rfl, rfl⟩ := visitAll_det _ _ _ _ _ _ k1 j1
    obtain ⟨v5, j3, j4⟩ := tr_visitAll UpToWarns.compat post rfl a5 a4 fb u2 j2.symm k2
    obtain ⟨-, s, q1, q2, q3⟩ := (embed_fields (a := fa) (b := fb) t4 t5 (name := n) (sz := d) (u := u2)).2 s' u2 h5 h6 (by rw [t3]; exact hn)
    refine ⟨s, v5, visitStruct_ok.2 ⟨a1, a2, a3, d, fa ++ .embedded sT false :: fb, h1, h2, h3, ?_, q1, finishStruct_any q2⟩, j4.symm, q3⟩
    refine (visitAll_append _ _ _ _ _).2 ⟨fa, .embedded sT false :: fb, a4, rfl, h7, ?_⟩
    unfold VisitAll
    exact ⟨some (.embedded sT false), a4, emb a4 s4, fb, rfl, j3⟩

/-- C24: the same for a struct that is defined where it is embedded: if `struct S { pre... struct T { bT }; post... }` is accepted,
then `struct S { pre... bT post... }` is accepted, with the same size, layout and schema. -/
theorem C24_nested_definition {u u1 : UnitD} {s : StructD} (l c : Nat) (n : Str) (sz : Option SizeA) (pre post : BodyA)
    (lT cT : Nat) (nT : Str) (szT : Option SizeA) (bT : BodyA) (hplain : bT.plain = true)
    (h : visitStruct (.mk l c n sz (pre.append (.cons (.embedded (.elem (.structDef (.mk lT cT nT szT bT))) []) post))) u = (.ok s, u1)) :
    ∃ s' u2 sT, visitStruct (.mk l c n sz (pre.append (bT.append post))) u = (.ok s', u2) ∧ sT.name = nT ∧ SameBut sT s s' ∧
      nT ∉ s'.fields.flatMap FieldD.names := by
  obtain ⟨a1, a2, a3, d, fs, h1, h2, h3, h4, h5, h6⟩ := visitStruct_ok.1 h
  obtain ⟨fa, fb, a4, rfl, h7, h8⟩ := (visitAll_append _ _ _ _ _).1 h4
  unfold VisitAll at h8
  obtain ⟨o, a5, k1, fb, rfl, k2⟩ := h8
  obtain ⟨sT, A, os, k3, k4, rfl⟩ := visitField_embedded.1 k1
  have ha5 : a5 = A := by
    unfold visitFieldOptions at k4
    obtain ⟨e1, e2⟩ := pure_ok.1 k4
    exact e2.symm
  subst ha5
  unfold visitType visitElem at k3
  obtain ⟨sT', a5'', k5, k6⟩ := bind_ok.1 k3
  obtain ⟨k6, ha6⟩ := pure_ok.1 k6
  subst ha6
  cases k6
  obtain ⟨b1, b2, b3, dT, fsT, t1, t2, t3, t4, t5, t6⟩ := visitStruct_ok.1 k5
  obtain ⟨-, rfl⟩ := visitOptSize_ok.1 t3
  obtain ⟨t7, -, -, -, rfl, -⟩ := finishStruct_ok.1 t6
  have e2 := addLocalName_eq t2
  -- `a4` after the name of `T` has been checked
  obtain ⟨-, -, hb1⟩ := visitName_ok.1 t1
  have w1 : UpToWarns a4 b1 := by
    rw [← hb1]
    unfold styleWarn
    split
    · exact ⟨_, rfl⟩
    · exact ⟨_, rfl⟩
  -- the fields of `T` in `b1`, without its name
  obtain ⟨v5, j1, -, j2⟩ := tr_visitAll (Frozen.compat b1) bT (by rw [hplain]; rfl) b2 b1 fsT a5''
    ⟨Sees.unname e2, UpToWarns.refl b1⟩ t4
  -- the same in `a4`
  obtain ⟨v6, j3, j4⟩ := tr_visitAll UpToWarns.compat bT rfl b1 a4 fsT v5 w1.symm j1
  -- visiting the fields of `T` changes warnings only
  obtain ⟨b2', j5, -, j6⟩ := tr_visitAll (Frozen.compat b2) bT (by rw [hplain]; rfl) b2 b2 fsT a5''
    ⟨⟨fun _ _ h => h, fun _ d x h hx => ⟨d, h, hx⟩⟩, UpToWarns.refl b2⟩ t4
  obtain ⟨-, rfl⟩ := visitAll_det _ _ _ _ _ _ t4 j5
  have hun : Unnamed nT ⟨b1.path, lT, cT⟩ a5'' v6 := by
    obtain ⟨ws2, rfl⟩ := j2
    obtain ⟨ws4, rfl⟩ := j4
    obtain ⟨ws6, rfl⟩ := j6
    unfold UnitD.addLocalName at e2
    split at e2
    · simp at e2
    rename_i hcon
    simp only [Prod.mk.injEq, and_true] at e2
    subst e2
    refine ⟨rfl, rfl, ?_, ?_⟩
    · intro m hm
      simp only [aget_aput_other _ _ _ _ hm]
    · simp only [aget_aput_self]
      cases hg : aget b1.globalNames nT with
      | none => exact ⟨_, rfl, rfl, .inl ⟨rfl, rfl⟩⟩
      | some d0 =>
        refine ⟨d0, rfl, ?_, .inr rfl⟩
        unfold UnitD.conflicts at hcon
        rw [hg] at hcon
        simpa using hcon
  obtain ⟨v7, j7, -⟩ := tr_visitAll (Unnamed.compat _ _) post rfl a5'' v6 fb u1 hun k2
  simp only [Option.toList_some, List.singleton_append] at h5 h6
  obtain ⟨-, s', q1, q2, q3, q4⟩ := (embed_fields (a := fa) (b := fb) (fsT := fsT) rfl t7 (name := n) (sz := d) (u := u1)).1 s u1 h5 h6
  refine ⟨s', v7, _, visitStruct_ok.2 ⟨a1, a2, a3, d, fa ++ (fsT ++ fb), h1, h2, h3, ?_, q1, finishStruct_any q2⟩, rfl, q3, q4⟩
  exact (visitAll_append _ _ _ _ _).2 ⟨fa, fsT ++ fb, a4, rfl, h7, (visitAll_append _ _ _ _ _).2 ⟨fsT, fb, v6, rfl, j3, j7⟩⟩

end Bubbler

namespace Bubbler
open Comp

/-- The hypotheses of `C24_embedding_is_inlining` hold of `Head` (which has a named part of a byte, a gap, and an option) and the unit after it,
and `struct Msg { Head; uint8 a[#4]; ... }` is accepted there. -/
example : ∃ sT pos, visitStruct Comp.Sample.head Comp.Sample.u0 = (.ok sT, (visitStruct Comp.Sample.head Comp.Sample.u0).2) ∧
    (match Comp.Sample.head with | .mk _ _ _ _ b => b.plain) = true ∧ Sees Comp.Sample.u0 Comp.Sample.u1 ∧
    aget Comp.Sample.u1.globalTypes ['H', 'e', 'a', 'd'] = some ⟨pos, .struct sT⟩ ∧
    (∃ s u1, visitStruct Comp.Sample.msg Comp.Sample.u1 = (.ok s, u1)) := by
  refine ⟨Comp.Sample.headD, ⟨Comp.Sample.u0.path, 3, 0⟩, Comp.Sample.head_ok, by decide +kernel, ⟨?_, ?_⟩, ?_, _, _, Comp.Sample.msg_ok⟩
  · intro n d h; cases h
  · intro n d x h; cases h
  · have h0 : (visitStruct Comp.Sample.head Comp.Sample.u0).2.globalTypes = [] :=
      ((steps_visitStruct _).ok Comp.Sample.head_ok).globalTypes
    have h1 : Comp.Sample.headD.name = ['H', 'e', 'a', 'd'] := by decide +kernel
    have h2 : (visitStruct Comp.Sample.head Comp.Sample.u0).2.conflicts ['H', 'e', 'a', 'd'] ⟨Comp.Sample.u0.path, 3, 0⟩ = false := by
      decide +kernel
    unfold Comp.Sample.u1 UnitD.addLocalType
    simp only [CTy.customName, h1, h2, h0, Bool.false_eq_true, if_false, aget_aput_self]
    rfl

/-- `struct Msg { uint8 a[#4]; struct Head { ... }; uint8 b[#4]; }` -/
def nestedMsg : StructA := .mk 9 0 ['M', 's', 'g'] none
  (.cons (.normal (.elem (.basic .u8)) ['a'] none [] none)
  (.cons (.embedded (.elem (.structDef Comp.Sample.head)) [])
  (.cons (.normal (.elem (.basic .u8)) ['b'] none [] none) .nil)))

example : (Comp.Sample.isOk (visitStruct nestedMsg Comp.Sample.u0).1) = true := by decide +kernel

end Bubbler
