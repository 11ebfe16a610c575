import Verif.Compiler.Bridge

/-
What of a definition matters on the wire: everything but names, methods, enum values and options other than the byte order.
-/
namespace Bubbler.Comp

/-- Options reduced to the byte order -/
def bareOpts (os : List (Str × Lit)) : List (Str × Lit) :=
  if aget os "order".toList = some (.str "big".toList) then [("order".toList, .str "big".toList)] else []

mutual
  /-- A type without names and enum values -/
  def CTy.bare : CTy → CTy
    | .basic p => .basic p
    | .str => .str
    | .bytes => .bytes
    | .array e len => .array e.bare len
    | .enum e => .enum ⟨[], e.bits, []⟩
    | .struct (.mk _ b d fs) => .struct (.mk [] b d (bareAll fs))
  /-- Fields without names, methods and options other than the byte order.  The marks left by embedded structs are dropped,
  their fields follow them anyhow. -/
  def bareAll : List FieldD → List FieldD
    | [] => []
    | .normal _ t b _ os :: r => .normal [] t.bare b [] (bareOpts os) :: bareAll r
    | .void b :: r => .void b :: bareAll r
    | .embedded _ _ :: r => bareAll r
    | .const _ p b l os :: r => .const [] p b l (bareOpts os) :: bareAll r
end

theorem isBig_bare (os : List (Str × Lit)) : isBig (bareOpts os) = isBig os := by
  unfold isBig bareOpts
  have e1 : "order".toList = ['o', 'r', 'd', 'e', 'r'] := rfl
  have e2 : "big".toList = ['b', 'i', 'g'] := rfl
  rw [e1, e2]
  split
  · rename_i h
    rw [decide_eq_true h]
    rfl
  · rename_i h
    rw [decide_eq_false h]
    rfl

theorem array_bare {t : CTy} (h : t.isArray = false) : t.bare.isArray = false := by
  cases t with
  | array => cases h
  | struct s => obtain ⟨n, b, d, fs⟩ := s; rfl
  | _ => rfl

theorem schema_normal {n : Str} {t : CTy} {b : Int} {ms : List (Str × List (Bool × Prim))} {os : List (Str × Lit)} {r : List FieldD}
    (h : t.isArray = false) : fieldsSchema (.normal n t b ms os :: r) =
      (match t.schema, fieldsSchema r with
        | some t, some f => some (.one t (sizeOpt b) (isBig os) f)
        | _, _ => none) := by
  cases t with
  | array => cases h
  | _ => simp only [fieldsSchema]; rfl

mutual
  theorem schema_bare : ∀ t : CTy, t.bare.schema = t.schema
    | .basic _ => by simp only [CTy.bare]
    | .str => by simp only [CTy.bare]
    | .bytes => by simp only [CTy.bare]
    | .array _ _ => by simp only [CTy.bare, CTy.schema]
    | .enum _ => by simp only [CTy.bare, CTy.schema]
    | .struct (.mk _ _ _ fs) => by
      have ih := fieldsSchema_bare fs
      simp only [CTy.bare, CTy.schema, ih]
  theorem fieldsSchema_bare : ∀ fs : List FieldD, fieldsSchema (bareAll fs) = fieldsSchema fs
    | [] => by simp only [bareAll]
    | .void b :: r => by
      have ih := fieldsSchema_bare r
      simp only [bareAll, fieldsSchema, ih]
    | .embedded _ _ :: r => by
      have ih := fieldsSchema_bare r
      simp only [bareAll, fieldsSchema, ih]
    | .const _ p b l os :: r => by
      have ih := fieldsSchema_bare r
      cases l <;> simp only [bareAll, fieldsSchema, ih, isBig_bare]
    | .normal n t b ms os :: r => by
      have ih := fieldsSchema_bare r
      have iht := schema_bare t
      cases h : t.isArray with
      | false =>
        rw [bareAll, schema_normal h, schema_normal (array_bare h), iht, ih, isBig_bare]
      | true =>
        match t, h with
        | .array e len, _ =>
          have ihe := schema_bare e
          simp only [bareAll, CTy.bare, fieldsSchema, ihe, ih, isBig_bare]
end

/-! ### What the Go target supports does not depend on it either -/

mutual
  theorem bits_bare : ∀ t : CTy, t.bare.bits = t.bits ∧ t.bare.dyn = t.dyn
    | .basic _ => by simp only [CTy.bare, and_self]
    | .str => by simp only [CTy.bare, and_self]
    | .bytes => by simp only [CTy.bare, and_self]
    | .array e len => by
      have ih := bits_bare e
      simp only [CTy.bare, CTy.bits, CTy.dyn, ih.1, ih.2, and_self]
    | .enum _ => by simp only [CTy.bare, CTy.bits, CTy.dyn, and_self]
    | .struct (.mk _ _ _ fs) => by simp only [CTy.bare, CTy.bits, CTy.dyn, StructD.bits, StructD.dyn, and_self]
end

theorem arrGo_bare (e : CTy) (len b : Int) : arrGo e.bare len b = arrGo e len b := by
  cases e with
  | struct s => obtain ⟨n, b, d, fs⟩ := s; rfl
  | _ => rfl

theorem goOk_notArray {n : Str} {t : CTy} {b : Int} {ms : List (Str × List (Bool × Prim))} {os : List (Str × Lit)}
    (h : t.isArray = false) : (FieldD.normal n t b ms os).goOk = (t.goOk && (decide (0 ≤ b) || decide (t.bits = -1))) := by
  cases t with
  | array => cases h
  | _ => simp only [FieldD.goOk]

theorem total_bare : ∀ fs : List FieldD, total (bareAll fs) = total fs
  | [] => by simp only [bareAll]
  | .normal _ t b _ os :: r => by
    have ih := total_bare r
    unfold total at ih ⊢
    simp [bareAll, FieldD.room, FieldD.bits, ih]
  | .void b :: r => by
    have ih := total_bare r
    unfold total at ih ⊢
    simp [bareAll, FieldD.room, FieldD.bits, ih]
  | .embedded _ _ :: r => by
    have ih := total_bare r
    unfold total at ih ⊢
    simp [bareAll, FieldD.room, FieldD.bits, ih]
  | .const _ p b l os :: r => by
    have ih := total_bare r
    unfold total at ih ⊢
    simp [bareAll, FieldD.room, FieldD.bits, ih]

mutual
  theorem goOk_bare : ∀ t : CTy, t.bare.goOk = t.goOk
    | .basic _ => by simp only [CTy.bare]
    | .str => by simp only [CTy.bare]
    | .bytes => by simp only [CTy.bare]
    | .array e len => by
      have ih := goOk_bare e
      simp only [CTy.bare, CTy.goOk, ih, (bits_bare e).1]
    | .enum _ => by simp only [CTy.bare, CTy.goOk]
    | .struct (.mk _ _ _ fs) => by
      have ih := fieldsGoOk_bare fs
      simp only [CTy.bare, CTy.goOk, StructD.goOk, ih, total_bare]
  theorem fieldsGoOk_bare : ∀ fs : List FieldD, fieldsGoOk (bareAll fs) = fieldsGoOk fs
    | [] => by simp only [bareAll]
    | .void b :: r => by
      have ih := fieldsGoOk_bare r
      simp only [bareAll, fieldsGoOk, ih, FieldD.goOk]
    | .embedded _ _ :: r => by
      have ih := fieldsGoOk_bare r
      simp only [bareAll, fieldsGoOk, ih, FieldD.goOk, Bool.true_and]
    | .const _ p b l os :: r => by
      have ih := fieldsGoOk_bare r
      simp only [bareAll, fieldsGoOk, ih, FieldD.goOk, isBig_bare]
    | .normal n t b ms os :: r => by
      have ih := fieldsGoOk_bare r
      have iht := goOk_bare t
      have ihb := bits_bare t
      cases h : t.isArray with
      | false =>
        rw [bareAll, fieldsGoOk, fieldsGoOk, goOk_notArray h, goOk_notArray (array_bare h), iht, ih, ihb.1]
      | true =>
        match t, h with
        | .array e len, _ =>
          have ihe := goOk_bare e
          have ihb' := bits_bare e
          simp only [arrGo_bare, bareAll, CTy.bare, fieldsGoOk, FieldD.goOk, CTy.goOk, CTy.bits, ihe, ih, ihb'.1, ihb'.2]
          congr 2
end

/-- `goOk` of a struct depends on its bare fields only. -/
theorem struct_goOk_bare {s t : StructD} (h : bareAll s.fields = bareAll t.fields) : s.goOk = t.goOk := by
  obtain ⟨n, b, d, fs⟩ := s
  obtain ⟨n', b', d', fs'⟩ := t
  simp only [StructD.fields] at h
  simp only [StructD.goOk]
  rw [← fieldsGoOk_bare fs, ← fieldsGoOk_bare fs', ← total_bare fs, ← total_bare fs', h]

end Bubbler.Comp
