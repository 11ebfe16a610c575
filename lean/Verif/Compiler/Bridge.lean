import Verif.Compiler.Refs
import Verif.Compiler.EnumProofs
import Verif.Codec.Top

/-
From definitions to the schemas the generators work on: definitions the compiler accepts have well-formed schemas.
-/
namespace Bubbler.Comp

/-- `gen.MatchOption(options, "order", "big")` (generator/gen/gen_util.go 8-17) -/
def isBig (os : List (Str × Lit)) : Bool := decide (aget os ['o', 'r', 'd', 'e', 'r'] = some (.str ['b', 'i', 'g']))

/-- `FieldBitSize`, with -1 for dynamic sizes -/
def sizeOpt (b : Int) : Option Nat := if b = -1 then none else some b.toNat

mutual
  /-- What the generators see of a type that is not an array.  Arrays of arrays cannot be written. -/
  def CTy.schema : CTy → Option Ty
    | .basic p => some (.sc (.prim p))
    | .enum e => some (.sc (.enum e.bits.toNat))
    | .str => some .str
    | .bytes => some .bytes
    | .struct (.mk _ _ _ fs) => (fieldsSchema fs).map .struct
    | .array _ _ => none
  /-- What the generators see of the fields of a struct: embedded fields produce nothing (golang.go 1498-1500, 2387-2389),
  their contents follow them. Only non-negative integer constants are supported. -/
  def fieldsSchema : List FieldD → Option Fields
    | [] => some .nil
    | .void b :: r => (fieldsSchema r).map (.void b.toNat)
    | .embedded _ _ :: r => fieldsSchema r
    | .const _ p b (.int v) os :: r => if 0 ≤ v then (fieldsSchema r).map (.const p b.toNat (isBig os) v.toNat) else none
    | .const _ _ _ _ _ :: _ => none
    | .normal _ (.array e len) b _ os :: r =>
      match e.schema, fieldsSchema r with
      | some t, some f => some (.arr t len.toNat (sizeOpt b) (isBig os) f)
      | _, _ => none
    | .normal _ t b _ os :: r =>
      match t.schema, fieldsSchema r with
      | some t, some f => some (.one t (sizeOpt b) (isBig os) f)
      | _, _ => none
end

/-- The schema of a struct -/
def StructD.schema (s : StructD) : Option Fields := fieldsSchema s.fields

def CTy.isArray : CTy → Bool
  | .array _ _ => true
  | _ => false

def CTy.isCustom : CTy → Bool
  | .struct _ => true
  | .enum _ => true
  | _ => false

/-- The size of a normal field is what the rules say (C22). -/
def FieldSize (t : CTy) (b : Int) : Prop :=
  b = t.bits ∨ (b ≠ 0 ∧ t.bits ≠ -1 ∧ b ≤ t.bits ∧ (∀ e len, t = .array e len → b.tmod len = 0) ∧ (∀ s, t = .struct s → b = t.bits))

mutual
  /-- A type obeys the rules of the compiler, at any depth. -/
  def CTy.Legal : CTy → Prop
    | .basic _ => True
    | .str => True
    | .bytes => True
    | .enum e => e.bits ≠ 0
    | .array e len => e.Legal ∧ e.isArray = false ∧ 0 < len
    | .struct s => s.Legal
  def StructD.Legal : StructD → Prop
    | .mk _ b d fs => fieldsLegal fs ∧ checkAlign fs 0 = none ∧ (sumBits fs 0).tmod 8 = 0 ∧ b = sumBits fs 0 ∧ d = anyDyn fs
  def fieldsLegal : List FieldD → Prop
    | [] => True
    | f :: r => f.Legal ∧ fieldsLegal r
  def FieldD.Legal : FieldD → Prop
    | .normal _ t b _ _ => t.Legal ∧ FieldSize t b
    | .void b => b ≠ 0
    | .embedded s _ => s.Legal
    | .const _ p b l _ => (b = p.width ∨ b ≠ 0 ∧ b ≤ p.width) ∧ literalMatches p l = true
end

theorem fieldsLegal_append (a b : List FieldD) : fieldsLegal (a ++ b) ↔ fieldsLegal a ∧ fieldsLegal b := by
  induction a with
  | nil => simp [fieldsLegal]
  | cons f r ih =>
    simp only [List.cons_append, fieldsLegal, ih, and_assoc]

mutual
  theorem expand_legal : ∀ f : FieldD, f.Legal → fieldsLegal f.expand
    | .normal n t b ms os, h => by
      simp only [FieldD.expand, fieldsLegal, and_true]
      exact h
    | .void b, h => by
      simp only [FieldD.expand, fieldsLegal, and_true]
      exact h
    | .const n p b l os, h => by
      simp only [FieldD.expand, fieldsLegal, and_true]
      exact h
    | .embedded (.mk n b d fs) belongs, h => by
      have h' : fieldsLegal fs := by
        unfold FieldD.Legal StructD.Legal at h
        exact h.1
      have := expandAll_legal fs h'
      unfold FieldD.expand fieldsLegal
      refine ⟨h, ?_⟩
      split
      · simp [fieldsLegal]
      · exact this
  theorem expandAll_legal : ∀ fs : List FieldD, fieldsLegal fs → fieldsLegal (expandAll fs)
    | [], _ => by simp [expandAll, fieldsLegal]
    | f :: r, h => by
      unfold fieldsLegal at h
      unfold expandAll
      rw [fieldsLegal_append]
      exact ⟨expand_legal f h.1, expandAll_legal r h.2⟩
end

theorem setBelongs_legal (fs : List FieldD) (h : fieldsLegal fs) : fieldsLegal (fs.map setBelongs) := by
  induction fs with
  | nil => exact h
  | cons f r ih =>
    unfold fieldsLegal at h
    rw [List.map_cons]
    unfold fieldsLegal
    refine ⟨?_, ih h.2⟩
    cases f with
    | embedded s b => unfold setBelongs; unfold FieldD.Legal at h ⊢; exact h.1
    | _ => exact h.1

/-- All visible types obey the rules. -/
def UnitLegal (u : UnitD) : Prop := ∀ e ∈ u.globalTypes, e.2.ty.Legal ∧ e.2.ty.isCustom = true

theorem UnitLegal.step {u u' : UnitD} (h : UnitLegal u) (s : Step u u') : UnitLegal u' := by
  unfold UnitLegal
  rw [s.globalTypes]
  exact h

theorem UnitLegal.get {u : UnitD} (h : UnitLegal u) {n : Str} {d : TypeDef} (hd : aget u.globalTypes n = some d) :
    d.ty.Legal ∧ d.ty.isCustom = true := by
  unfold aget at hd
  obtain ⟨x, hx, rfl⟩ := Option.map_eq_some_iff.1 hd
  exact h x (List.mem_of_find?_eq_some hx)

theorem custom_not_array {t : CTy} (h : t.isCustom = true) : t.isArray = false := by
  cases t <;> first | rfl | cases h

theorem finishStruct_legal {n : Str} {sz : Int} {fs : List FieldD} {s : StructD} {u u' : UnitD}
    (h : finishStruct n sz fs u = (.ok s, u')) (hl : fieldsLegal fs) : s.Legal := by
  obtain ⟨h1, h2, h3, h4, rfl, -⟩ := finishStruct_ok.1 h
  unfold StructD.Legal
  exact ⟨setBelongs_legal _ hl, h2, h3, rfl, rfl⟩

mutual
  theorem visitElem_legal : ∀ (e : ElemA) (u u' : UnitD) (t : CTy), UnitLegal u → visitElem e u = (.ok t, u') →
      t.Legal ∧ t.isArray = false
    | .basic p, u, u', t, hu, h => by
      unfold visitElem at h
      obtain ⟨rfl, -⟩ := pure_ok.1 h
      exact ⟨by unfold CTy.Legal; trivial, rfl⟩
    | .str, u, u', t, hu, h => by
      unfold visitElem at h
      obtain ⟨rfl, -⟩ := pure_ok.1 h
      exact ⟨by unfold CTy.Legal; trivial, rfl⟩
    | .bytes, u, u', t, hu, h => by
      unfold visitElem at h
      obtain ⟨rfl, -⟩ := pure_ok.1 h
      exact ⟨by unfold CTy.Legal; trivial, rfl⟩
    | .structName n, u, u', t, hu, h => by
      unfold visitElem at h
      obtain ⟨d, s, hd, hs, rfl⟩ := lookupStruct_ok h
      rw [← hs]
      exact ⟨(hu.get hd).1, custom_not_array (hu.get hd).2⟩
    | .structDef d, u, u', t, hu, h => by
      unfold visitElem at h
      obtain ⟨s, u1, h1, h⟩ := bind_ok.1 h
      obtain ⟨rfl, -⟩ := pure_ok.1 h
      have := visitStruct_legal d u u1 s hu h1
      exact ⟨by unfold CTy.Legal; exact this, rfl⟩
    | .enumName n, u, u', t, hu, h => by
      unfold visitElem at h
      obtain ⟨d, s, hd, hs, rfl⟩ := lookupEnum_ok h
      rw [← hs]
      exact ⟨(hu.get hd).1, custom_not_array (hu.get hd).2⟩
    | .ident n, u, u', t, hu, h => by
      unfold visitElem at h
      obtain ⟨-, d, hd, rfl⟩ := lookupType_ok.1 h
      exact ⟨(hu.get hd).1, custom_not_array (hu.get hd).2⟩
  theorem visitType_legal : ∀ (e : TypeA) (u u' : UnitD) (t : CTy), UnitLegal u → visitType e u = (.ok t, u') → t.Legal
    | .elem e, u, u', t, hu, h => by
      unfold visitType at h
      exact (visitElem_legal e u u' t hu h).1
    | .array e len, u, u', t, hu, h => by
      unfold visitType at h
      obtain ⟨t', u1, h1, h⟩ := bind_ok.1 h
      obtain ⟨l, u2, h2, h⟩ := bind_ok.1 h
      obtain ⟨n, -, rfl, -⟩ := visitIntLit_ok.1 h2
      have := visitElem_legal e u u1 t' hu h1
      split at h
      · exact absurd h (by simp [fail])
      · obtain ⟨rfl, -⟩ := pure_ok.1 h
        unfold CTy.Legal
        exact ⟨this.1, this.2, by omega⟩
  theorem visitField_legal : ∀ (f : FieldA) (u u' : UnitD) (o : Option FieldD), UnitLegal u → visitField f u = (.ok o, u') →
      ∀ fd ∈ o, fd.Legal
    | .empty, u, u', o, hu, h => by
      unfold visitField at h
      obtain ⟨rfl, -⟩ := pure_ok.1 h
      simp
    | .void s os, u, u', o, hu, h => by
      obtain ⟨d, os, h1, -, rfl⟩ := visitField_void.1 h
      intro fd hfd
      cases hfd
      unfold FieldD.Legal
      obtain ⟨n, m, -, -, -, hz, -⟩ := visitSizeA_ok.1 ((visitOptSize_ok (s := some s) (u := u) (u' := u)).2 ⟨h1, rfl⟩)
      exact hz
    | .const p nm s v os, u, u', o, hu, h => by
      obtain ⟨n, d, b, lit, os, u1, -, -, h3, -, h5, -, rfl⟩ := visitField_const.1 h
      intro fd hfd
      cases hfd
      unfold FieldD.Legal
      refine ⟨?_, h5⟩
      obtain ⟨-, ⟨-, h⟩ | ⟨h1, rfl, h2⟩⟩ := constSize_ok.1 h3
      · exact .inl h
      · exact .inr ⟨h1, h2⟩
    | .embedded t os, u, u', o, hu, h => by
      obtain ⟨s, u1, os, h1, -, rfl⟩ := visitField_embedded.1 h
      have := visitType_legal t u u1 _ hu h1
      intro fd hfd
      cases hfd
      unfold FieldD.Legal
      unfold CTy.Legal at this
      exact this
    | .normal t n s os ms, u, u', o, hu, h => by
      obtain ⟨ty, u1, f, h1, h2, rfl⟩ := visitField_normal.1 h
      have := visitType_legal t u u1 _ hu h1
      intro fd hfd
      cases hfd
      obtain ⟨d, b, os, ms, u2, -, -, h3, -, -, rfl⟩ := visitNormalRest_ok.1 h2
      unfold FieldD.Legal
      refine ⟨this, ?_⟩
      obtain ⟨-, ⟨-, h⟩ | ⟨k1, rfl, k3, k4, k5, k6⟩⟩ := normalSize_ok.1 h3
      · exact .inl h
      · exact .inr ⟨k1, k3, k4, k5, k6⟩
  theorem visitBody_legal : ∀ (b : BodyA) (u u' : UnitD) (fs : List FieldD), UnitLegal u → VisitAll b u fs u' → fieldsLegal fs
    | .nil, u, u', fs, hu, h => by
      unfold VisitAll at h
      rw [h.1]
      simp [fieldsLegal]
    | .cons f b, u, u', fs, hu, h => by
      unfold VisitAll at h
      obtain ⟨o, u1, h1, fs', rfl, h2⟩ := h
      have a1 := visitField_legal f u u1 o hu h1
      have a2 := visitBody_legal b u1 u' fs' (hu.step ((steps_visitField f).ok h1)) h2
      rw [fieldsLegal_append]
      refine ⟨?_, a2⟩
      cases o with
      | none => simp [fieldsLegal]
      | some fd =>
        simp only [Option.toList_some, fieldsLegal, and_true]
        exact a1 fd rfl
  theorem visitStruct_legal : ∀ (d : StructA) (u u' : UnitD) (s : StructD), UnitLegal u → visitStruct d u = (.ok s, u') → s.Legal
    | .mk line col name size body, u, u', s, hu, h => by
      obtain ⟨u1, u2, u3, sz, fs, h1, h2, h3, h4, -, h6⟩ := visitStruct_ok.1 h
      have s1 := (steps_visitName _ _ _).ok h1
      have s2 : Step u1 u2 := by
        have := step_addLocalName u1 name ⟨⟨u1.path, line, col⟩, none⟩ rfl
        rw [h2] at this
        exact this
      have hu3 := hu.step ((s1.trans s2).trans ((steps_visitOptSize _).ok h3))
      exact finishStruct_legal h6 (expandAll_legal _ (visitBody_legal body u3 u' fs hu3 h4))
end

theorem visitTop_legal {t : TopA} {u u' : UnitD} {td : TypeDef} (hu : UnitLegal u) (h : visitTop t u = (.ok td, u')) :
    td.ty.Legal ∧ td.ty.isCustom = true := by
  unfold visitTop at h
  obtain ⟨v, u1, h1, h⟩ := bind_ok.1 h
  obtain ⟨rfl, rfl⟩ := getU_ok.1 h1
  cases t with
  | struct d =>
    obtain ⟨line, col, n, s, b⟩ := d
    obtain ⟨sd, u2, h2, h⟩ := bind_ok.1 h
    obtain ⟨rfl, -⟩ := pure_ok.1 h
    refine ⟨?_, rfl⟩
    unfold CTy.Legal
    exact visitStruct_legal _ _ _ _ hu h2
  | enum d =>
    obtain ⟨ed, u2, h2, h⟩ := bind_ok.1 h
    obtain ⟨rfl, -⟩ := pure_ok.1 h
    obtain ⟨-, -, hsz, -⟩ := visitEnum_ok h2
    refine ⟨?_, rfl⟩
    unfold CTy.Legal
    obtain ⟨n, m, -, -, -, hz, -⟩ := visitSizeA_ok.1 ((visitOptSize_ok (s := some d.size) (u := u) (u' := u)).2 ⟨hsz, rfl⟩)
    exact hz

theorem Defs.legal {ts : List TopA} {u u' : UnitD} (h : Defs ts u u') (hu : UnitLegal u) : UnitLegal u' := by
  induction h with
  | nil u => exact hu
  | cons t r td u u1 u2 h1 h2 ih =>
    apply ih
    have hs := hu.step ((steps_visitTop t).ok h1)
    have ht := visitTop_legal hu h1
    rcases addLocalType_cases u1 td with e | ⟨-, e⟩
    · rw [e]; exact hs
    · rw [e]
      intro x hx
      rcases aput_mem hx with hx | ⟨rfl, -⟩
      · exact hs x hx
      · exact ht

/-- All types of the unit of a correct file obey the rules. -/
theorem Compiled.legal {fs : FS} {p : Str} {u : UnitD} (h : Compiled fs p u) : UnitLegal u := by
  have key : ∀ p, _root_.Acc (fun q r => Imports fs r q) p → ∀ o, Compiled fs p o → UnitLegal o := by
    intro p hacc
    induction hacc with
    | intro p _ ih =>
      intro o ho
      cases ho with
      | mk _ f ps u0 u1 _ h1 h2 h3 h4 h5 =>
        refine Defs.legal (visitProto_ok.1 h5) ?_
        have hp := h4.part (Part.start h1 h3) (fun r o _ ho => ho.full)
        rw [List.nil_append] at hp
        intro e he
        obtain ⟨o, k1, k2, r, hr, hre⟩ := hp.types e he
        -- the file of `e` is reached through the import `r`; the unit of `r` contains `e`
        have hi : Imports fs p r := ⟨f, h1, by rw [h2]; exact List.mem_map.2 ⟨r, hr, rfl⟩⟩
        obtain ⟨or, hor⟩ := h4.mem r hr
        have hl := ih r hi or hor
        refine hl e ?_
        have heo : e ∈ o.globalTypes := ((k1.full.good.locTypes e).1 k2).1
        rcases hre.cases_head with hrp | hb
        · rw [← hrp] at k1
          rw [hor.det k1]
          exact heo
        · exact (hor.full.closed _ o hb k1).1 e heo
  exact key p h.acc u h

/-! ### What the Go target supports -/

/-- Constants of an integer type that fit their width and that the generated code can compare (findings 3, 19) -/
def constGo (p : Prim) (b : Int) (l : Lit) (big : Bool) : Bool :=
  match l with
  | .int v => decide (0 ≤ v) && decide (0 ≤ b) && decide (goUintWidth b.toNat = p.width) && decide (v < 2 ^ b.toNat) &&
      (!(big || p.signed) || decide (b = p.width))
  | _ => false

/-- Array elements the Go target supports: enums of 1, 2, 4 or 8 bytes (finding 13), structs that are not narrowed (finding 2) -/
def arrGo (e : CTy) (len b : Int) : Bool :=
  match e with
  | .enum d => (Sc.enum d.bits.toNat).wfArr
  | .struct s => s.dyn || decide (b = s.bits * len)
  | _ => true

mutual
  /-- Definitions the Go target supports and whose sizes do not overflow int64 (findings 5, 25) -/
  def CTy.goOk : CTy → Bool
    | .basic _ => true
    | .str => true
    | .bytes => true
    | .enum e => decide (0 ≤ e.bits) && decide (e.bits ≤ 64)
    | .array e len => e.goOk && decide (e.bits * len < 2 ^ 63)
    | .struct s => s.goOk
  def StructD.goOk : StructD → Bool
    | .mk _ _ _ fs => fieldsGoOk fs && decide (total fs < 2 ^ 63)
  def fieldsGoOk : List FieldD → Bool
    | [] => true
    | f :: r => f.goOk && fieldsGoOk r
  def FieldD.goOk : FieldD → Bool
    | .normal _ (.array e len) b _ _ => (CTy.array e len).goOk && (decide (0 ≤ b) || decide ((CTy.array e len).bits = -1)) && arrGo e len b
    | .normal _ t b _ _ => t.goOk && (decide (0 ≤ b) || decide (t.bits = -1))
    | .void b => decide (0 ≤ b)
    | .embedded _ _ => true
    | .const _ p b l os => constGo p b l (isBig os)
end

theorem scalar_wf {s : Sc} {n : Nat} (h0 : 0 < n) (h : n ≤ s.bits) (he : ∀ b, s = .enum b → b ≤ 64) : s.wf n = true := by
  unfold Sc.wf
  cases s with
  | prim p => simp [h0, h]
  | enum b => simp [h0, h, he b rfl]

/-- One field in front -/
theorem wf_one_sc {s : Sc} {n start : Nat} {big : Bool} {r : Fields} (h : s.wf n = true) (hr : r.wf (start + n) = true) :
    (Fields.one (.sc s) (some n) big r).wf start = true := by
  simp [Fields.wf, Ty.wf, h, hr]

theorem wf_arr_sc {s : Sc} {n len start : Nat} {big : Bool} {r : Fields} (hl : 0 < len) (hm : n % len = 0) (h : s.wf (n / len) = true)
    (ha : s.wfArr = true) (hr : r.wf (start + n) = true) : (Fields.arr (.sc s) len (some n) big r).wf start = true := by
  simp [Fields.wf, Ty.wf, h, hr, hl, hm, ha]

theorem legal_struct_bits {s : StructD} (hl : s.Legal) (hg : s.goOk = true) : 0 ≤ s.bits ∧ s.bits = total s.fields := by
  obtain ⟨n, b, d, fs⟩ := s
  unfold StructD.Legal at hl
  unfold StructD.goOk at hg
  simp only [Bool.and_eq_true, decide_eq_true_eq] at hg
  have : sumBits fs 0 = (0 : Int) + total fs := sumBits_eq fs 0 (by omega) (by omega)
  simp only [StructD.bits, StructD.fields, hl.2.2.2.1, this]
  omega

/-- A type that is not dynamic has a size that is not -1. -/
theorem legal_bits {t : CTy} (hl : t.Legal) (hg : t.goOk = true) (ha : t.isArray = false) :
    (t = .str ∨ t = .bytes) ∧ t.bits = -1 ∨ 0 ≤ t.bits ∧ (t.dyn = true → ∃ s, t = .struct s) := by
  cases t with
  | basic p => exact .inr ⟨by simp only [CTy.bits]; omega, by simp [CTy.dyn]⟩
  | str => exact .inl ⟨.inl rfl, rfl⟩
  | bytes => exact .inl ⟨.inr rfl, rfl⟩
  | array e l => cases ha
  | struct s =>
    unfold CTy.Legal at hl
    unfold CTy.goOk at hg
    exact .inr ⟨(legal_struct_bits hl hg).1, fun _ => ⟨s, rfl⟩⟩
  | enum e =>
    unfold CTy.goOk at hg
    simp only [Bool.and_eq_true, decide_eq_true_eq] at hg
    exact .inr ⟨hg.1, by simp [CTy.dyn]⟩

/-- What is known about the schema of a type -/
def TySchema (t : CTy) (y : Ty) : Prop :=
  t.schema = some y ∧ y.wf = true ∧ y.sizesOk = true ∧ y.dynamic = t.dyn ∧
    match t with
    | .basic p => y = .sc (.prim p)
    | .str => y = .str
    | .bytes => y = .bytes
    | .enum e => y = .sc (.enum e.bits.toNat)
    | .struct s => ∃ f, y = .struct f ∧ f.sum = s.bits.toNat ∧ s.schema = some f
    | .array _ _ => False

theorem goOk_normal {n : Str} {t : CTy} {b : Int} {ms : List (Str × List (Bool × Prim))} {os : List (Str × Lit)}
    (h : (FieldD.normal n t b ms os).goOk = true) :
    t.goOk = true ∧ (0 ≤ b ∨ t.bits = -1) ∧ ∀ e len, t = .array e len → arrGo e len b = true := by
  cases t with
  | array e len =>
    unfold FieldD.goOk at h
    simp only [Bool.and_eq_true, Bool.or_eq_true, decide_eq_true_eq] at h
    refine ⟨h.1.1, h.1.2, ?_⟩
    intro e' l' he
    cases he
    exact h.2
  | _ =>
    unfold FieldD.goOk at h
    simp only [Bool.and_eq_true, Bool.or_eq_true, decide_eq_true_eq] at h
    exact ⟨h.1, h.2, by intro e l he; cases he⟩

theorem sizeOpt_nonneg {b : Int} (h : 0 ≤ b) : sizeOpt b = some b.toNat := by
  unfold sizeOpt
  rw [if_neg (by omega)]

theorem sizeOpt_getD (b : Int) : (sizeOpt b).getD 0 = b.toNat := by
  unfold sizeOpt
  split
  · rename_i h; rw [h]; rfl
  · rfl

theorem wf_arr_intro {y : Ty} {len start : Nat} {b : Option Nat} {big : Bool} {r : Fields}
    (h4 : (match y, b with
        | .sc s, some n => decide (n % len = 0) && s.wf (n / len) && s.wfArr
        | .str, none => decide (start % 8 = 0)
        | .bytes, none => decide (start % 8 = 0)
        | .struct fs, none => fs.dynamic && decide (start % 8 = 0)
        | .struct fs, some n => !fs.dynamic && decide (n = len * fs.sum) && decide (start % 8 = 0)
        | _, _ => false) = true) (h1 : y.wf = true)
    (h2 : r.wf (start + b.getD 0) = true) (h3 : 0 < len) : (Fields.arr y len b big r).wf start = true := by
  unfold Fields.wf
  simp only [h1, h2, h3, decide_true, Bool.true_and]
  exact h4

theorem wf_one_intro {y : Ty} {start : Nat} {b : Option Nat} {big : Bool} {r : Fields}
    (h4 : (match y, b with
        | .sc s, some n => s.wf n
        | .str, none => decide (start % 8 = 0)
        | .bytes, none => decide (start % 8 = 0)
        | .struct fs, some n => decide (n = fs.sum) && decide (start % 8 = 0)
        | _, _ => false) = true) (h1 : y.wf = true)
    (h2 : r.wf (start + b.getD 0) = true) : (Fields.one y b big r).wf start = true := by
  unfold Fields.wf
  simp only [h1, h2, Bool.true_and]
  exact h4

/-- The size of an array of words of `w` bits -/
theorem arr_scalar {w len b : Int} (hw : 0 < w) (hlen : 0 < len) (hover : w * len < 2 ^ 63) (hb : 0 ≤ b)
    (hs : b = w * len ∨ b ≠ 0 ∧ b ≤ w * len ∧ b.tmod len = 0) :
    b.toNat % len.toNat = 0 ∧ 0 < b.toNat / len.toNat ∧ b.toNat / len.toNat ≤ w.toNat := by
  have hpos : 0 < w * len := Int.mul_pos hw hlen
  have hdvd : b % len = 0 := by
    rcases hs with rfl | ⟨-, -, h⟩
    · exact Int.mul_emod_left _ _
    · rwa [Int.tmod_eq_emod_of_nonneg hb] at h
  obtain ⟨k, rfl⟩ := Int.dvd_of_emod_eq_zero hdvd
  have hk : 0 < k := by
    rcases Int.lt_or_le 0 k with h | h
    · exact h
    · have : len * k ≤ 0 := Int.mul_nonpos_of_nonneg_of_nonpos (by omega) h
      omega
  have hk2 : k ≤ w := by
    have : len * k ≤ len * w := by rw [Int.mul_comm len w]; omega
    exact Int.le_of_mul_le_mul_left this hlen
  rw [Int.toNat_mul (by omega) (by omega), Nat.mul_mod_right, Nat.mul_div_cancel_left _ (by omega)]
  omega

/-- A normal field in front of the others -/
theorem field_schema {t : CTy} {b : Int} {start : Nat} {os : List (Str × Lit)} {n : Str} {ms : List (Str × List (Bool × Prim))}
    {r : List FieldD} {fr : Fields} (hl : t.Legal) (hs : FieldSize t b) (hg : (FieldD.normal n t b ms os).goOk = true)
    (hstart : t.mustAlign = true → start % 8 = 0)
    (ht : ∀ e, (e = t ∨ ∃ l, t = .array e l) → e.isArray = false → ∃ y, TySchema e y)
    (hr : fieldsSchema r = some fr) (hrw : fr.wf (start + b.toNat) = true) (hrs : fr.sizesOk = true) :
    ∃ f, fieldsSchema (.normal n t b ms os :: r) = some f ∧ f.wf start = true ∧ f.sizesOk = true ∧
      f.dynamic = (t.dyn || fr.dynamic) ∧ f.sum = b.toNat + fr.sum := by
  obtain ⟨hg1, hb, harr⟩ := goOk_normal hg
  by_cases ha : t.isArray = true
  · -- arrays
    cases t with
    | array e len =>
      obtain ⟨y, hy1, hy2, hy3, hy4, hy5⟩ := ht e (.inr ⟨len, rfl⟩) (by unfold CTy.Legal at hl; exact hl.2.1)
      refine ⟨.arr y len.toNat (sizeOpt b) (isBig os) fr, ?_, ?_, ?_, ?_, ?_⟩
      · unfold fieldsSchema
        rw [hy1, hr]
      · have hgo := harr e len rfl
        unfold CTy.Legal at hl
        unfold CTy.goOk at hg1
        simp only [Bool.and_eq_true, decide_eq_true_eq] at hg1
        have hlen := hl.2.2
        have hbneg : e.dyn = true → b = -1 := by
          intro hd
          have hbt : (CTy.array e len).bits = -1 := by
            unfold CTy.bits
            rw [if_pos hd]
          rcases hs with h | ⟨-, h, -⟩
          · rw [h, hbt]
          · exact absurd hbt h
        have hstat : e.dyn = false → 0 ≤ e.bits → (CTy.array e len).bits = e.bits * len ∧ 0 ≤ b := by
          intro hd h0
          have h1 : 0 ≤ e.bits * len := Int.mul_nonneg h0 (by omega)
          have hbt : (CTy.array e len).bits = e.bits * len := by
            show (if e.dyn then -1 else i64 (e.bits * len)) = e.bits * len
            rw [if_neg (by simp [hd]), i64_small h1 hg1.2]
          exact ⟨hbt, by omega⟩
        have scal : ∀ s : Sc, y = .sc s → e.dyn = false → 0 < e.bits → s.bits = e.bits.toNat → s.wfArr = true →
            (∀ k, s = .enum k → k ≤ 64) → (Fields.arr y len.toNat (sizeOpt b) (isBig os) fr).wf start = true := by
          intro s hy hd hpos hsb hsa hse
          obtain ⟨hbt, hb0⟩ := hstat hd (by omega)
          have := arr_scalar hpos hlen hg1.2 hb0 (by
            rcases hs with h | ⟨k1, -, k3, k4, -⟩
            · exact .inl (by rw [h, hbt])
            · rw [hbt] at k3
              exact .inr ⟨k1, k3, k4 e len rfl⟩)
          rw [hy]
          refine wf_arr_intro ?_ (by simp [Ty.wf]) (by rw [sizeOpt_getD]; exact hrw) (by omega)
          rw [sizeOpt_nonneg hb0]
          simp only [Bool.and_eq_true, decide_eq_true_eq]
          exact ⟨⟨this.1, scalar_wf this.2.1 (by omega) hse⟩, hsa⟩
        cases e with
        | array _ _ => cases hl.2.1
        | basic p =>
          refine scal _ hy5 rfl ?_ ?_ rfl (by intro k hk; cases hk)
          · unfold CTy.bits; cases p <;> decide
          · simp [CTy.bits, Sc.bits]
        | enum d =>
          have hb0 := hl.1
          have hge := hg1.1
          unfold CTy.Legal at hb0
          unfold CTy.goOk at hge
          simp only [Bool.and_eq_true, decide_eq_true_eq] at hge
          refine scal _ hy5 rfl ?_ ?_ hgo ?_
          · unfold CTy.bits; omega
          · simp [CTy.bits, Sc.bits]
          · intro k hk; cases hk; omega
        | str =>
          have h8 := hstart rfl
          rw [hy5, hbneg rfl]
          refine wf_arr_intro ?_ (by simp [Ty.wf]) (by rw [hbneg rfl] at hrw; exact hrw) (by omega)
          simp [sizeOpt, h8]
        | bytes =>
          have h8 := hstart rfl
          rw [hy5, hbneg rfl]
          refine wf_arr_intro ?_ (by simp [Ty.wf]) (by rw [hbneg rfl] at hrw; exact hrw) (by omega)
          simp [sizeOpt, h8]
        | struct s =>
          have h8 := hstart rfl
          obtain ⟨f, rfl, hf1, hf2⟩ := hy5
          have hfd : f.dynamic = s.dyn := by simpa [Ty.dynamic, CTy.dyn] using hy4
          cases hd : s.dyn with
          | true =>
            have hbn := hbneg hd
            rw [hbn] at hrw ⊢
            refine wf_arr_intro ?_ hy2 hrw (by omega)
            simp [sizeOpt, h8, hfd, hd]
          | false =>
            have hls := hl.1
            have hgs := hg1.1
            unfold CTy.Legal at hls
            unfold CTy.goOk at hgs
            have hsb := (legal_struct_bits hls hgs).1
            obtain ⟨-, hb0⟩ := hstat hd hsb
            unfold arrGo at hgo
            simp only [hd, Bool.false_or, decide_eq_true_eq] at hgo
            refine wf_arr_intro ?_ hy2 (by rw [sizeOpt_getD]; exact hrw) (by omega)
            rw [sizeOpt_nonneg hb0]
            simp only [hfd, hd, h8, hf1, hgo, Int.toNat_mul hsb (show 0 ≤ len by omega), Nat.mul_comm, Bool.not_false, decide_true, Bool.and_self]
      · simp only [Fields.sizesOk, hy3, hrs, Bool.and_self]
      · simp only [Fields.dynamic, hy4, CTy.dyn]
      · simp only [Fields.sum, sizeOpt_getD]
    | _ => cases ha
  · have ha' : t.isArray = false := by simpa using ha
    obtain ⟨y, hy1, hy2, hy3, hy4, hy5⟩ := ht t (.inl rfl) ha'
    refine ⟨.one y (sizeOpt b) (isBig os) fr, ?_, ?_, ?_, ?_, ?_⟩
    · cases t with
      | array _ _ => cases ha'
      | _ =>
        unfold fieldsSchema
        rw [hy1, hr]
    · have scal : ∀ s : Sc, y = .sc s → 0 < t.bits → s.bits = t.bits.toNat →
          (∀ k, s = .enum k → k ≤ 64) → (Fields.one y (sizeOpt b) (isBig os) fr).wf start = true := by
        intro s hy hpos hsb hse
        have hb0 : 0 ≤ b := by omega
        rw [hy]
        refine wf_one_intro ?_ (by simp [Ty.wf]) (by rw [sizeOpt_getD]; exact hrw)
        rw [sizeOpt_nonneg hb0]
        refine scalar_wf ?_ ?_ hse
        · rcases hs with h | h <;> omega
        · rcases hs with h | h <;> omega
      cases t with
      | array _ _ => cases ha'
      | basic p =>
        refine scal _ hy5 ?_ ?_ (by intro k hk; cases hk)
        · unfold CTy.bits; cases p <;> decide
        · simp [CTy.bits, Sc.bits]
      | enum d =>
        unfold CTy.Legal at hl
        unfold CTy.goOk at hg1
        simp only [Bool.and_eq_true, decide_eq_true_eq] at hg1
        refine scal _ hy5 ?_ ?_ ?_
        · unfold CTy.bits; omega
        · simp [CTy.bits, Sc.bits]
        · intro k hk; cases hk; omega
      | str =>
        have h8 := hstart rfl
        have hbn : b = -1 := by
          rcases hs with h | ⟨-, h, -⟩
          · exact h
          · exact absurd rfl h
        rw [hy5, hbn]
        refine wf_one_intro ?_ (by simp [Ty.wf]) (by rw [hbn] at hrw; exact hrw)
        simp [sizeOpt, h8]
      | bytes =>
        have h8 := hstart rfl
        have hbn : b = -1 := by
          rcases hs with h | ⟨-, h, -⟩
          · exact h
          · exact absurd rfl h
        rw [hy5, hbn]
        refine wf_one_intro ?_ (by simp [Ty.wf]) (by rw [hbn] at hrw; exact hrw)
        simp [sizeOpt, h8]
      | struct s =>
        have h8 := hstart rfl
        obtain ⟨f, rfl, hf1, hf2⟩ := hy5
        unfold CTy.Legal at hl
        unfold CTy.goOk at hg1
        have hsb := (legal_struct_bits hl hg1).1
        have hbs : b = s.bits := by
          rcases hs with h | ⟨-, -, -, -, h⟩
          · exact h
          · exact h s rfl
        rw [hbs] at hrw ⊢
        refine wf_one_intro ?_ hy2 (by rw [sizeOpt_getD]; exact hrw)
        rw [sizeOpt_nonneg hsb]
        simp [h8, hf1]
    · simp only [Fields.sizesOk, hy3, hrs, Bool.and_self]
    · simp only [Fields.dynamic, hy4]
    · simp only [Fields.sum, sizeOpt_getD]

/-- Sizes of legal fields are not negative except for the -1 of variable-length fields. -/
theorem goOk_sane {f : FieldD} (hl : f.Legal) (hg : f.goOk = true) : 0 ≤ f.bits ∨ f.bits = -1 := by
  cases f with
  | normal n t b ms os =>
    obtain ⟨-, hb, -⟩ := goOk_normal hg
    unfold FieldD.Legal at hl
    simp only [FieldD.bits]
    rcases hl.2 with h | ⟨-, h, -⟩
    · omega
    · omega
  | void b =>
    unfold FieldD.goOk at hg
    simp only [decide_eq_true_eq] at hg
    exact .inl hg
  | embedded s b => exact .inl (by simp [FieldD.bits])
  | const n p b l os =>
    unfold FieldD.goOk constGo at hg
    cases l with
    | int v =>
      simp only [Bool.and_eq_true, decide_eq_true_eq] at hg
      exact .inl hg.1.1.1.2
    | _ => cases hg

/-- The type itself, the element type for arrays -/
def CTy.elemOf : CTy → CTy
  | .array e _ => e
  | t => t

theorem elemOf_self {t : CTy} (h : t.isArray = false) : t.elemOf = t := by
  cases t <;> first | rfl | cases h

mutual
  /-- Types -/
  theorem ty_schema : ∀ t : CTy, t.Legal → t.goOk = true → ∃ y, TySchema t.elemOf y
    | .basic p, hl, hg => ⟨.sc (.prim p), by simp [CTy.elemOf, TySchema, CTy.schema, Ty.wf, Ty.sizesOk, Ty.dynamic, CTy.dyn]⟩
    | .str, hl, hg => ⟨.str, by simp [CTy.elemOf, TySchema, CTy.schema, Ty.wf, Ty.sizesOk, Ty.dynamic, CTy.dyn]⟩
    | .bytes, hl, hg => ⟨.bytes, by simp [CTy.elemOf, TySchema, CTy.schema, Ty.wf, Ty.sizesOk, Ty.dynamic, CTy.dyn]⟩
    | .enum e, hl, hg => ⟨.sc (.enum e.bits.toNat), by simp [CTy.elemOf, TySchema, CTy.schema, Ty.wf, Ty.sizesOk, Ty.dynamic, CTy.dyn]⟩
    | .array e l, hl, hg => by
      unfold CTy.Legal at hl
      unfold CTy.goOk at hg
      simp only [Bool.and_eq_true] at hg
      have := ty_schema e hl.1 hg.1
      rw [elemOf_self hl.2.1] at this
      exact this
    | .struct (.mk n b d fs), hl, hg => by
      have hl' : (StructD.mk n b d fs).Legal := by unfold CTy.Legal at hl; exact hl
      have hg' : (StructD.mk n b d fs).goOk = true := by unfold CTy.goOk at hg; exact hg
      have hb := legal_struct_bits hl' hg'
      unfold StructD.Legal at hl'
      unfold StructD.goOk at hg'
      simp only [Bool.and_eq_true, decide_eq_true_eq] at hg'
      obtain ⟨l1, l2, l3, l4, l5⟩ := hl'
      obtain ⟨f, h1, h2, h3, h4, h5⟩ := fields_schema fs 0 l1 hg'.1 (by omega) l2
      simp only [StructD.bits, StructD.fields] at hb
      rw [show (CTy.struct (.mk n b d fs)).elemOf = CTy.struct (.mk n b d fs) from rfl]
      refine ⟨.struct f, ?_, ?_, ?_, ?_, f, rfl, ?_, ?_⟩
      · simp only [CTy.schema, h1, Option.map_some]
      · unfold Ty.wf
        simp only [h2, Bool.true_and, decide_eq_true_eq]
        rw [h5]
        rw [← l4, hb.2, Int.tmod_eq_emod_of_nonneg (by omega)] at l3
        omega
      · unfold Ty.sizesOk
        simp only [h3, Bool.true_and, decide_eq_true_eq]
        omega
      · simp only [Ty.dynamic, h4, CTy.dyn, StructD.dyn, l5]
      · simp only [h5, StructD.bits, hb.2]
        omega
      · exact h1
  /-- Fields -/
  theorem fields_schema : ∀ (fs : List FieldD) (start : Nat), fieldsLegal fs → fieldsGoOk fs = true → start + total fs < 2 ^ 63 →
      checkAlign fs start = none → ∃ f, fieldsSchema fs = some f ∧ f.wf start = true ∧ f.sizesOk = true ∧
        f.dynamic = anyDyn fs ∧ f.sum = total fs
    | [], start, hl, hg, hb, hc => ⟨.nil, by simp [fieldsSchema, Fields.wf, Fields.sizesOk, Fields.dynamic, anyDyn, Fields.sum, total]⟩
    | .normal n t b ms os :: r, start, hl, hg, hb, hc => by
      unfold fieldsLegal at hl
      unfold fieldsGoOk at hg
      simp only [Bool.and_eq_true] at hg
      rw [total_cons] at hb
      have hsane := goOk_sane hl.1 hg.1
      rw [checkAlign_cons, next_start _ _ (by omega) hsane (by omega)] at hc
      simp only at hc
      have hroom : (FieldD.normal n t b ms os).room = b.toNat := rfl
      rw [hroom] at hb hc
      split at hc
      · cases hc
      rename_i hal
      obtain ⟨fr, r1, r2, r3, r4, r5⟩ := fields_schema r (start + b.toNat) hl.2 hg.2 (by omega) (by rw [Int.natCast_add]; exact hc)
      have hlf := hl.1
      unfold FieldD.Legal at hlf
      obtain ⟨hgt, -, -⟩ := goOk_normal hg.1
      have h0 := ty_schema t hlf.1 hgt
      have hty : ∀ e, (e = t ∨ ∃ l, t = .array e l) → e.isArray = false → ∃ y, TySchema e y := by
        intro e he ha
        rcases he with rfl | ⟨l, rfl⟩
        · rwa [elemOf_self ha] at h0
        · exact h0
      have := field_schema (n := n) (ms := ms) (os := os) hlf.1 hlf.2 hg.1 (start := start) (by
        intro hm
        simp only [hm, Bool.true_and, decide_eq_true_eq, ne_eq, Decidable.not_not] at hal
        rw [Int.tmod_eq_emod_of_nonneg (by omega)] at hal
        omega) hty r1 r2 r3
      obtain ⟨f, f1, f2, f3, f4, f5⟩ := this
      refine ⟨f, f1, f2, f3, ?_, ?_⟩
      · rw [f4, r4]; rfl
      · rw [f5, r5, total_cons, hroom]
    | .void b :: r, start, hl, hg, hb, hc => by
      unfold fieldsLegal at hl
      unfold fieldsGoOk at hg
      simp only [Bool.and_eq_true] at hg
      rw [total_cons] at hb
      rw [checkAlign_cons, next_start _ _ (by omega) (goOk_sane hl.1 hg.1) (by omega)] at hc
      have hroom : (FieldD.void b).room = b.toNat := rfl
      rw [hroom] at hb hc
      obtain ⟨fr, r1, r2, r3, r4, r5⟩ := fields_schema r (start + b.toNat) hl.2 hg.2 (by omega) (by rw [Int.natCast_add]; exact hc)
      refine ⟨.void b.toNat fr, ?_, ?_, ?_, ?_, ?_⟩
      · simp only [fieldsSchema, r1, Option.map_some]
      · unfold Fields.wf; exact r2
      · unfold Fields.sizesOk; exact r3
      · simp only [Fields.dynamic, r4, anyDyn]
      · simp only [Fields.sum, r5, total_cons, hroom]
    | .embedded s bl :: r, start, hl, hg, hb, hc => by
      unfold fieldsLegal at hl
      unfold fieldsGoOk at hg
      simp only [Bool.and_eq_true] at hg
      rw [total_cons] at hb
      rw [checkAlign_cons, next_start _ _ (by omega) (goOk_sane hl.1 hg.1) (by omega)] at hc
      have hroom : (FieldD.embedded s bl).room = 0 := rfl
      rw [hroom] at hb hc
      obtain ⟨fr, r1, r2, r3, r4, r5⟩ := fields_schema r start hl.2 hg.2 (by omega) (by simpa using hc)
      refine ⟨fr, ?_, r2, r3, ?_, ?_⟩
      · simp only [fieldsSchema, r1]
      · simp only [r4, anyDyn]
      · simp only [r5, total_cons, hroom, Nat.zero_add]
    | .const n p b l os :: r, start, hl, hg, hb, hc => by
      unfold fieldsLegal at hl
      unfold fieldsGoOk at hg
      simp only [Bool.and_eq_true] at hg
      rw [total_cons] at hb
      rw [checkAlign_cons, next_start _ _ (by omega) (goOk_sane hl.1 hg.1) (by omega)] at hc
      have hroom : (FieldD.const n p b l os).room = b.toNat := rfl
      rw [hroom] at hb hc
      obtain ⟨fr, r1, r2, r3, r4, r5⟩ := fields_schema r (start + b.toNat) hl.2 hg.2 (by omega) (by rw [Int.natCast_add]; exact hc)
      have hgc := hg.1
      have hlc := hl.1
      unfold FieldD.goOk constGo at hgc
      unfold FieldD.Legal at hlc
      match l, hgc with
      | .int v, hgc =>
        simp only [Bool.and_eq_true, decide_eq_true_eq] at hgc
        obtain ⟨⟨⟨⟨g1, g2⟩, g3⟩, g4⟩, g5⟩ := hgc
        have hint : p.isInteger = true := by
          have := hlc.2
          cases p <;> first | rfl | cases this
        refine ⟨.const p b.toNat (isBig os) v.toNat fr, ?_, ?_, ?_, ?_, ?_⟩
        · simp only [fieldsSchema, r1, Option.map_some, if_pos g1]
        · have hw : 0 < p.width := by cases p <;> decide
          unfold Fields.wf
          simp only [hint, r2, g3, Bool.true_and, Bool.and_true, Bool.and_eq_true, decide_eq_true_eq, decide_true]
          refine ⟨⟨⟨?_, ?_⟩, ?_⟩, ?_⟩
          · rcases hlc.1 with h | h <;> omega
          · rcases hlc.1 with h | h <;> omega
          · have : ((v.toNat : Nat) : Int) < ((2 ^ b.toNat : Nat) : Int) := by
              rw [Int.toNat_of_nonneg g1]
              exact_mod_cast g4
            exact_mod_cast this
          · simp only [Bool.or_eq_true, decide_eq_true_eq] at g5 ⊢
            rcases g5 with h | h
            · exact .inl h
            · exact .inr (by omega)
        · unfold Fields.sizesOk; exact r3
        · simp only [Fields.dynamic, r4, anyDyn]
        · simp only [Fields.sum, r5, total_cons, hroom]
      | .bool _, hgc => cases hgc
      | .float _ _, hgc => cases hgc
      | .str _, hgc => cases hgc
end

/-- An accepted struct the Go target supports has an accepted schema, of the same size. -/
theorem struct_schema {s : StructD} (hl : s.Legal) (hg : s.goOk = true) :
    ∃ f, s.schema = some f ∧ f.accepted = true ∧ (f.sum : Int) = s.bits ∧ f.dynamic = s.dyn := by
  have hb := legal_struct_bits hl hg
  obtain ⟨y, h1, h2, h3, h4, f, rfl, h6, h7⟩ := ty_schema (.struct s) (by unfold CTy.Legal; exact hl) (by unfold CTy.goOk; exact hg)
  refine ⟨f, h7, ?_, by omega, ?_⟩
  · simp only [Fields.accepted, h2, h3, Bool.and_self]
  · simpa [Ty.dynamic, CTy.dyn, CTy.elemOf] using h4

end Bubbler.Comp
