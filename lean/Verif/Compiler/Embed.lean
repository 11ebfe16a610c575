import Verif.Compiler.Transfer
import Verif.Compiler.Bridge

/-
Embedding a struct and writing its fields in place.
-/
namespace Bubbler.Comp

/-- The same unit up to warnings -/
def UpToWarns (u v : UnitD) : Prop := ∃ ws, v = { u with warns := ws }

theorem UpToWarns.compat : Compat UpToWarns true where
  warn := by
    rintro u v w ⟨ws, rfl⟩
    exact ⟨ws ++ [w], rfl⟩
  types := by
    rintro u v n d ⟨ws, rfl⟩ h
    exact h
  vals := by
    rintro u v n d x ⟨ws, rfl⟩ h hx
    exact ⟨d, h, hx⟩
  path := by
    rintro - u v ⟨ws, rfl⟩
    rfl
  add := by
    rintro - u v n p u' ⟨ws, rfl⟩ h
    unfold UnitD.addLocalName at h ⊢
    have hc : UnitD.conflicts { u with warns := ws } n p = u.conflicts n p := rfl
    rw [hc]
    split at h
    · simp at h
    · rename_i hcon
      simp only [Prod.mk.injEq, and_true] at h
      subst h
      rw [if_neg hcon]
      exact ⟨_, rfl, ws, rfl⟩

/-- Whatever a definition may refer to in `u` it may refer to in `v`, with the same meaning. -/
structure Sees (u v : UnitD) : Prop where
  types : ∀ n d, aget u.globalTypes n = some d → aget v.globalTypes n = some d
  vals : ∀ n d x, aget u.globalNames n = some d → d.enumVal = some x → ∃ d', aget v.globalNames n = some d' ∧ d'.enumVal = some x

theorem Sees.trans {u v w : UnitD} (h : Sees u v) (k : Sees v w) : Sees u w where
  types n d hd := k.types n d (h.types n d hd)
  vals n d x hd hx := by
    obtain ⟨d', h1, h2⟩ := h.vals n d x hd hx
    exact k.vals n d' x h1 h2

theorem aget_append {α : Type} {m : List (Str × α)} {k : Str} {v : α} (h : aget m k = some v) (r : List (Str × α)) :
    aget (m ++ r) k = some v := by
  unfold aget at *
  rw [List.find?_append]
  obtain ⟨x, hx, rfl⟩ := Option.map_eq_some_iff.1 h
  rw [hx]
  rfl

theorem Sees.step {u v : UnitD} (h : Step u v) : Sees u v where
  types n d hd := by rw [h.globalTypes]; exact hd
  vals n d x hd hx := by
    obtain ⟨r, hr, -⟩ := h.globalNames
    exact ⟨d, by rw [hr]; exact aget_append hd r, hx⟩

/-- Names of structs carry no value: adding one hides nothing. -/
theorem Sees.unname {u v : UnitD} {n : Str} {p : Pos} (h : u.addLocalName n ⟨p, none⟩ = (v, true)) : Sees v u := by
  unfold UnitD.addLocalName at h
  split at h
  · simp at h
  simp only [Prod.mk.injEq, and_true] at h
  subst h
  refine ⟨fun n d hd => hd, ?_⟩
  intro m d x hd hx
  have := aget_aput_val u.globalNames n m p
  rw [hd] at this
  simp only [Option.bind_some, hx] at this
  obtain ⟨d', k1, k2⟩ := Option.bind_eq_some_iff.1 this.symm
  exact ⟨d', k1, k2⟩

/-- Visiting in a unit that sees as much, of which only the warnings change -/
def Frozen (v0 : UnitD) (u v : UnitD) : Prop := Sees u v0 ∧ UpToWarns v0 v

theorem Frozen.compat (v0 : UnitD) : Compat (Frozen v0) false where
  warn := by
    rintro u v w ⟨h, ws, rfl⟩
    exact ⟨⟨h.types, h.vals⟩, ws ++ [w], rfl⟩
  types := by
    rintro u v n d ⟨h, ws, rfl⟩ hd
    exact h.types n d hd
  vals := by
    rintro u v n d x ⟨h, ws, rfl⟩ hd hx
    exact h.vals n d x hd hx
  path := nofun
  add := nofun

/-! ### Lists of fields -/

/-- One body after the other -/
def BodyA.append : BodyA → BodyA → BodyA
  | .nil, b => b
  | .cons f r, b => .cons f (r.append b)

theorem visitAll_append (a b : BodyA) (u u' : UnitD) (fs : List FieldD) :
    VisitAll (a.append b) u fs u' ↔ ∃ fa fb u1, fs = fa ++ fb ∧ VisitAll a u fa u1 ∧ VisitAll b u1 fb u' := by
  match a with
  | .nil =>
    unfold BodyA.append VisitAll
    constructor
    · intro h
      exact ⟨[], fs, u, rfl, ⟨rfl, rfl⟩, h⟩
    · rintro ⟨fa, fb, u1, rfl, ⟨rfl, rfl⟩, h⟩
      exact h
  | .cons f r =>
    simp only [BodyA.append, VisitAll]
    constructor
    · rintro ⟨o, u1, h1, fs', rfl, h2⟩
      obtain ⟨fa, fb, u2, rfl, h3, h4⟩ := (visitAll_append r b _ _ _).1 h2
      exact ⟨o.toList ++ fa, fb, u2, by simp, ⟨o, u1, h1, fa, rfl, h3⟩, h4⟩
    · rintro ⟨fa, fb, u2, rfl, ⟨o, u1, h1, fa', rfl, h3⟩, h4⟩
      exact ⟨o, u1, h1, fa' ++ fb, by simp, (visitAll_append r b _ _ _).2 ⟨fa', fb, u2, rfl, h3, h4⟩⟩

theorem visitAll_det : ∀ (b : BodyA) (u u1 u2 : UnitD) (f1 f2 : List FieldD), VisitAll b u f1 u1 → VisitAll b u f2 u2 → f1 = f2 ∧ u1 = u2
  | .nil, u, u1, u2, f1, f2, h1, h2 => by
    unfold VisitAll at h1 h2
    exact ⟨by rw [h1.1, h2.1], by rw [h1.2, h2.2]⟩
  | .cons f r, u, u1, u2, f1, f2, h1, h2 => by
    unfold VisitAll at h1 h2
    obtain ⟨o, v, k1, g, rfl, k2⟩ := h1
    obtain ⟨o', v', k1', g', rfl, k2'⟩ := h2
    rw [k1] at k1'
    simp only [Prod.mk.injEq, Out.ok.injEq] at k1'
    obtain ⟨rfl, rfl⟩ := k1'
    obtain ⟨rfl, rfl⟩ := visitAll_det r _ _ _ _ _ k2 k2'
    exact ⟨rfl, rfl⟩

theorem expandAll_append (a b : List FieldD) : expandAll (a ++ b) = expandAll a ++ expandAll b := by
  induction a with
  | nil => simp [expandAll]
  | cons f r ih =>
    rw [List.cons_append]
    simp only [expandAll, ih, List.append_assoc]

/-- The fields of a finished struct are not extracted again. -/
theorem expandAll_belongs (fs : List FieldD) : expandAll (fs.map setBelongs) = fs.map setBelongs := by
  induction fs with
  | nil => simp [expandAll]
  | cons f r ih =>
    rw [List.map_cons]
    simp only [expandAll, ih]
    cases f with
    | embedded s b =>
      obtain ⟨n, w, d, gs⟩ := s
      simp [setBelongs, FieldD.expand]
    | _ => simp [setBelongs, FieldD.expand]

theorem setBelongs_idem (fs : List FieldD) : (fs.map setBelongs).map setBelongs = fs.map setBelongs := by
  rw [List.map_map]
  congr 1
  funext f
  cases f <;> rfl

theorem names_setBelongs (fs : List FieldD) : (fs.map setBelongs).flatMap FieldD.names = fs.flatMap FieldD.names := by
  induction fs with
  | nil => rfl
  | cons f r ih =>
    simp only [List.map_cons, List.flatMap_cons, ih]
    cases f <;> rfl

theorem i64_idem (x : Int) : i64 (i64 x) = i64 x := by
  unfold i64
  exact Int.bmod_bmod

theorem checkAlign_insert (a b : List FieldD) (s : StructD) (bl : Bool) (start : Int) (h : i64 start = start) :
    checkAlign (a ++ .embedded s bl :: b) start = checkAlign (a ++ b) start := by
  induction a generalizing start with
  | nil =>
    rw [List.nil_append, List.nil_append, checkAlign_cons]
    have hb : (FieldD.embedded s bl).bits = 0 := rfl
    dsimp only
    rw [hb, if_pos (by decide), Int.add_zero, h]
  | cons f r ih =>
    rw [List.cons_append, List.cons_append, checkAlign_cons, checkAlign_cons]
    have hn : i64 (if f.bits ≠ -1 then i64 (start + f.bits) else start) = if f.bits ≠ -1 then i64 (start + f.bits) else start := by
      split
      · exact i64_idem _
      · exact h
    rw [ih _ hn]

theorem sumBits_insert (a b : List FieldD) (s : StructD) (bl : Bool) (acc : Int) :
    sumBits (a ++ .embedded s bl :: b) acc = sumBits (a ++ b) acc := by
  induction a generalizing acc with
  | nil => simp [sumBits, FieldD.bits]
  | cons f r ih => simp only [List.cons_append, sumBits, ih]

theorem anyDyn_insert (a b : List FieldD) (s : StructD) (bl : Bool) : anyDyn (a ++ .embedded s bl :: b) = anyDyn (a ++ b) := by
  induction a with
  | nil => simp [anyDyn]
  | cons f r ih => cases f <;> simp only [List.cons_append, anyDyn, ih]

theorem fieldsSchema_insert (a b : List FieldD) (s : StructD) (bl : Bool) :
    fieldsSchema (a ++ .embedded s bl :: b) = fieldsSchema (a ++ b) := by
  induction a with
  | nil => simp [fieldsSchema]
  | cons f r ih =>
    cases f with
    | normal n t w ms os =>
      cases t <;> simp only [List.cons_append, fieldsSchema, ih]
    | const n p w l os => cases l <;> simp only [List.cons_append, fieldsSchema, ih]
    | _ => simp only [List.cons_append, fieldsSchema, ih]

/-- Everything but the record of the embedding is the same. -/
def SameBut (x : StructD) (s s' : StructD) : Prop :=
  s.name = s'.name ∧ s.bits = s'.bits ∧ s.dyn = s'.dyn ∧ s.schema = s'.schema ∧
    ∃ a b, s.fields = a ++ .embedded x true :: b ∧ s'.fields = a ++ b

theorem finish_insert {name : Str} {sz : Int} {a b : List FieldD} {x : StructD} {bl : Bool} {u : UnitD} (hne : a ++ b ≠ []) :
    (∀ s v, finishStruct name sz (a ++ .embedded x bl :: b) u = (.ok s, v) →
      v = u ∧ ∃ s', finishStruct name sz (a ++ b) u = (.ok s', u) ∧ SameBut x s s' ∧ s'.fields = (a ++ b).map setBelongs) ∧
    (∀ s' v, finishStruct name sz (a ++ b) u = (.ok s', v) →
      v = u ∧ ∃ s, finishStruct name sz (a ++ .embedded x bl :: b) u = (.ok s, u) ∧ SameBut x s s' ∧ s'.fields = (a ++ b).map setBelongs) := by
  have z : i64 0 = 0 := i64_small (by decide) (by decide)
  have e : (a ++ .embedded x bl :: b).map setBelongs = a.map setBelongs ++ .embedded x true :: b.map setBelongs := by simp [setBelongs]
  constructor
  · intro s v h
    obtain ⟨-, h2, h3, h4, rfl, rfl⟩ := finishStruct_ok.1 h
    rw [e] at h2 h3 h4 ⊢
    rw [checkAlign_insert _ _ _ _ _ z, ← List.map_append] at h2
    rw [sumBits_insert, ← List.map_append] at h3 h4
    rw [anyDyn_insert, ← List.map_append] at h4
    refine ⟨rfl, _, finishStruct_ok.2 ⟨hne, h2, h3, h4, rfl, rfl⟩, ?_, rfl⟩
    refine ⟨rfl, ?_, ?_, ?_, _, _, rfl, by simp [StructD.fields]⟩
    · simp only [StructD.bits, sumBits_insert, List.map_append]
    · simp only [StructD.dyn, anyDyn_insert, List.map_append]
    · simp only [StructD.schema, StructD.fields, fieldsSchema_insert, List.map_append]
  · intro s v h
    obtain ⟨-, h2, h3, h4, rfl, rfl⟩ := finishStruct_ok.1 h
    refine ⟨rfl, _, finishStruct_ok.2 ⟨by simp, ?_, ?_, ?_, rfl, rfl⟩, ?_, rfl⟩
    · rw [e, checkAlign_insert _ _ _ _ _ z, ← List.map_append]; exact h2
    · rw [e, sumBits_insert, ← List.map_append]; exact h3
    · rw [e, sumBits_insert, anyDyn_insert, ← List.map_append]; exact h4
    · rw [e]
      refine ⟨rfl, ?_, ?_, ?_, _, _, rfl, by simp [StructD.fields]⟩
      · simp only [StructD.bits, sumBits_insert, List.map_append]
      · simp only [StructD.dyn, anyDyn_insert, List.map_append]
      · simp only [StructD.schema, StructD.fields, fieldsSchema_insert, List.map_append]

/-- What an accepted struct definition leaves behind -/
theorem visitStruct_fields {l c : Nat} {n : Str} {sz : Option SizeA} {b : BodyA} {u u' : UnitD} {s : StructD}
    (h : visitStruct (.mk l c n sz b) u = (.ok s, u')) :
    ∃ u1 fs, Sees u1 u ∧ VisitAll b u1 fs u' ∧ s.name = n ∧ s.fields = (expandAll fs).map setBelongs ∧ expandAll fs ≠ [] := by
  obtain ⟨u1, u2, u3, d, fs, h1, h2, h3, h4, h5, h6⟩ := visitStruct_ok.1 h
  obtain ⟨-, rfl⟩ := visitOptSize_ok.1 h3
  obtain ⟨h7, -, -, -, rfl, -⟩ := finishStruct_ok.1 h6
  refine ⟨u2, fs, ?_, h4, rfl, rfl, h7⟩
  have e2 : u1.addLocalName n ⟨⟨u1.path, l, c⟩, none⟩ = (u2, true) := by
    unfold addLocalName at h2
    split at h2
    · rename_i e; rw [e]; simp only [Prod.mk.injEq, true_and] at h2; rw [h2]
    · simp at h2
  refine (Sees.unname e2).trans ?_
  obtain ⟨-, -, rfl⟩ := visitName_ok.1 h1
  unfold styleWarn
  split
  · exact ⟨fun _ _ h => h, fun _ d x h hx => ⟨d, h, hx⟩⟩
  · exact ⟨fun _ _ h => h, fun _ d x h hx => ⟨d, h, hx⟩⟩

theorem nodup_insert {a b : List Str} {n : Str} : (a ++ n :: b).Nodup ↔ (a ++ b).Nodup ∧ n ∉ a ++ b := by
  rw [List.nodup_append, List.nodup_cons, List.nodup_append]
  simp only [List.mem_cons, List.mem_append, not_or]
  constructor
  · rintro ⟨h1, ⟨h2, h3⟩, h4⟩
    exact ⟨⟨h1, h3, fun x hx y hy => h4 x hx y (.inr hy)⟩, fun hn => h4 n hn n (.inl rfl) rfl, h2⟩
  · rintro ⟨⟨h1, h3, h4⟩, h5, h2⟩
    refine ⟨h1, ⟨h2, h3⟩, ?_⟩
    rintro x hx y (rfl | hy)
    · exact fun e => h5 (e ▸ hx)
    · exact h4 x hx y hy

/-- The two bodies side by side: `a` are the fields before, `fsT` the fields of the embedded struct, `b` the fields after. -/
theorem embed_fields {x : StructD} {a fsT b : List FieldD} (hx : x.fields = (expandAll fsT).map setBelongs) (hne : expandAll fsT ≠ [])
    {name : Str} {sz : Int} {u : UnitD} :
    (∀ s v, ((expandAll (a ++ .embedded x false :: b)).flatMap FieldD.names).Nodup →
      finishStruct name sz (expandAll (a ++ .embedded x false :: b)) u = (.ok s, v) →
      v = u ∧ ∃ s', ((expandAll (a ++ (fsT ++ b))).flatMap FieldD.names).Nodup ∧
        finishStruct name sz (expandAll (a ++ (fsT ++ b))) u = (.ok s', u) ∧ SameBut x s s' ∧ x.name ∉ s'.fields.flatMap FieldD.names) ∧
    (∀ s' v, ((expandAll (a ++ (fsT ++ b))).flatMap FieldD.names).Nodup →
      finishStruct name sz (expandAll (a ++ (fsT ++ b))) u = (.ok s', v) → x.name ∉ s'.fields.flatMap FieldD.names →
      v = u ∧ ∃ s, ((expandAll (a ++ .embedded x false :: b)).flatMap FieldD.names).Nodup ∧
        finishStruct name sz (expandAll (a ++ .embedded x false :: b)) u = (.ok s, u) ∧ SameBut x s s') := by
  have e1 : expandAll (a ++ .embedded x false :: b) =
      expandAll a ++ .embedded x false :: ((expandAll fsT).map setBelongs ++ expandAll b) := by
    rw [expandAll_append]
    obtain ⟨n, w, d, fs⟩ := x
    simp only [StructD.fields] at hx
    subst hx
    simp only [expandAll, FieldD.expand, Bool.false_eq_true, if_false, expandAll_belongs, List.cons_append]
  have e2 : expandAll (a ++ (fsT ++ b)) = expandAll a ++ (expandAll fsT ++ expandAll b) := by
    rw [expandAll_append, expandAll_append]
  -- the fields of the two structs are the same after `setBelongs`
  have hfin : ∀ s v, finishStruct name sz (expandAll a ++ ((expandAll fsT).map setBelongs ++ expandAll b)) u = (.ok s, v) ↔
      finishStruct name sz (expandAll a ++ (expandAll fsT ++ expandAll b)) u = (.ok s, v) := by
    intro s v
    have em : (expandAll a ++ ((expandAll fsT).map setBelongs ++ expandAll b)).map setBelongs =
        (expandAll a ++ (expandAll fsT ++ expandAll b)).map setBelongs := by
      simp only [List.map_append, setBelongs_idem]
    have n1 : expandAll a ++ ((expandAll fsT).map setBelongs ++ expandAll b) ≠ [] := by simp [hne]
    have n2 : expandAll a ++ (expandAll fsT ++ expandAll b) ≠ [] := by simp [hne]
    rw [finishStruct_ok, finishStruct_ok, em]
    simp only [ne_eq, n1, n2, not_false_iff, true_and]
  have hnames : ((expandAll (a ++ .embedded x false :: b)).flatMap FieldD.names).Nodup ↔
      ((expandAll (a ++ (fsT ++ b))).flatMap FieldD.names).Nodup ∧ x.name ∉ (expandAll (a ++ (fsT ++ b))).flatMap FieldD.names := by
    rw [e1, e2]
    simp only [List.flatMap_append, List.flatMap_cons, FieldD.names, names_setBelongs, List.cons_append, List.nil_append]
    exact nodup_insert
  have hne' : expandAll a ++ ((expandAll fsT).map setBelongs ++ expandAll b) ≠ [] := by simp [hne]
  have em2 : ∀ l, (((expandAll a ++ ((expandAll fsT).map setBelongs ++ expandAll b)).map setBelongs).flatMap FieldD.names = l) ↔
      (expandAll (a ++ (fsT ++ b))).flatMap FieldD.names = l := by
    intro l
    rw [names_setBelongs, e2]
    simp only [List.flatMap_append, names_setBelongs]
  obtain ⟨f1, f2⟩ := finish_insert (name := name) (sz := sz) (x := x) (bl := false) (u := u) hne'
  constructor
  · intro s v hn h
    obtain ⟨hn1, hn2⟩ := hnames.1 hn
    rw [e1] at h
    obtain ⟨rfl, s', k1, k2, k3⟩ := f1 s v h
    refine ⟨rfl, s', hn1, by rw [e2]; exact (hfin _ _).1 k1, k2, ?_⟩
    rw [k3, (em2 _).2 rfl]
    exact hn2
  · intro s' v hn h hx'
    rw [e2] at h
    obtain ⟨rfl, s, k1, k2, k3⟩ := f2 s' v ((hfin _ _).2 h)
    rw [k3, (em2 _).2 rfl] at hx'
    exact ⟨rfl, s, hnames.2 ⟨hn, hx'⟩, by rw [e1]; exact k1, k2⟩

end Bubbler.Comp
