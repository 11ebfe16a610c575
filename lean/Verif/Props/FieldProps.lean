import Verif.Props.NameProps
import Verif.Props.LayoutProps
import Verif.Compiler.EnumProofs

/-
C22, C23, C25, C27, C28: sizes of fields, names, enums, constants, options.
-/
namespace Bubbler
open Comp

/-! ### C22 -/

/-- C22: an accepted normal field without a size gets the size of its type; with a size, its size is the declared one,
which is at most the size of the type, divides evenly among the elements of an array and equals the size of a struct. -/
theorem C22_field_size (t : TypeA) (name : Str) (size : Option SizeA) (opts : List OptA) (meths : Option (List MethA))
    (u u' : UnitD) (o : Option FieldD) (h : visitField (.normal t name size opts meths) u = (.ok o, u')) :
    ∃ ty u1 b ms os, visitType t u = (.ok ty, u1) ∧ o = some (.normal name ty b ms os) ∧
      (size = none → b = ty.bits) ∧
      (size ≠ none → annotSize size = some b ∧ ty.bits ≠ -1 ∧ b ≤ ty.bits ∧ (∀ e len, ty = .array e len → len ∣ b) ∧
        (∀ s, ty = .struct s → b = s.bits)) := by
  obtain ⟨ty, u1, f, h1, h2, rfl⟩ := visitField_normal.1 h
  obtain ⟨d, b, os, ms, u2, k1, k2, k3, k4, k5, rfl⟩ := visitNormalRest_ok.1 h2
  refine ⟨ty, u1, b, ms, os, h1, rfl, ?_, ?_⟩
  · rintro rfl
    simp only [annotSize, Option.some.injEq] at k2
    subst k2
    rcases (normalSize_ok.1 k3).2 with ⟨-, h⟩ | ⟨h, -⟩
    · exact h
    · exact absurd rfl h
  · intro hs
    rcases (normalSize_ok.1 k3).2 with ⟨h0, h⟩ | ⟨-, rfl, h3, h4, h5, h6⟩
    · exfalso
      cases size with
      | none => exact hs rfl
      | some s =>
        obtain ⟨n, hn, k2⟩ := Option.bind_eq_some_iff.1 k2
        obtain ⟨m, hm, k2⟩ := Option.bind_eq_some_iff.1 k2
        by_cases hz : i64 (8 * n + m) = 0
        · rw [if_pos hz] at k2; cases k2
        · rw [if_neg hz] at k2
          rw [Option.some.inj k2] at hz
          exact hz h0
    · refine ⟨k2, h3, h4, fun e len he => ?_, fun s he => ?_⟩
      · exact Int.dvd_of_tmod_eq_zero (h5 e len he)
      · have := h6 s he
        rw [he] at this
        exact this

example : visitField (.normal (.array (.basic .i32) ['4']) ['x'] (some ⟨some ['1'], some ['4']⟩) [] none) Sample.u0 =
    (.ok (some (.normal ['x'] (.array (.basic .i32) 4) 12 [] [])), Sample.u0) := by
  refine visitField_normal.2 ⟨.array (.basic .i32) 4, Sample.u0, _, ?_, visitNormalRest_ok.2
    ⟨12, 12, [], [], Sample.u0, ?_, by decide +kernel, ?_, ?_, .inl ⟨rfl, rfl, rfl⟩, rfl⟩, rfl⟩
  · rfl
  · exact visitName_ok.2 ⟨by decide +kernel, rfl, rfl⟩
  · exact normalSize_ok.2 ⟨rfl, .inr ⟨by decide, rfl, by decide +kernel, by decide +kernel,
      by rintro e len ⟨⟩; decide, by rintro s ⟨⟩⟩⟩
  · rfl

/-- C22: a size that is larger than the type, does not divide evenly or differs from the struct is refused; a string,
bytes, or an array of variable-length elements cannot be given a size at all. -/
theorem C22_refused (ty : CTy) (d : Int) (hd : d ≠ 0) (u : UnitD)
    (hbad : d > ty.bits ∨ ty.bits = -1 ∨ (∃ e len, ty = .array e len ∧ ¬ len ∣ d) ∨ (∃ s, ty = .struct s ∧ d ≠ s.bits)) :
    normalSize ty d u = (.err [.invalidSize], u) := by
  unfold normalSize
  rw [if_neg hd]
  by_cases h1 : ty.bits = -1
  · rw [if_pos h1]; rfl
  · rw [if_neg h1]
    by_cases h2 : d > ty.bits
    · rw [if_pos h2]; rfl
    · rw [if_neg h2]
      rcases hbad with h | h | ⟨e, len, rfl, h⟩ | ⟨s, rfl, h⟩
      · exact absurd h h2
      · exact absurd h h1
      · have : d.tmod len ≠ 0 := fun h' => h (Int.dvd_of_tmod_eq_zero h')
        simp only [this, ne_eq, not_false_iff, if_true]
        rfl
      · have : d ≠ (CTy.struct s).bits := h
        simp only [this, ne_eq, not_false_iff, if_true]
        rfl

theorem C22_variable (ty : CTy) (hv : Variable ty) (hs : ∀ s, ty ≠ .struct s) : ty.bits = -1 := by
  cases hv with
  | str => rfl
  | bytes => rfl
  | array e len h => simp [CTy.bits, (dyn_iff e).2 h]
  | struct s _ => exact absurd rfl (hs s)

/-! ### C23 -/

theorem setBelongs_names (f : FieldD) : (setBelongs f).names = f.names := by cases f <;> rfl

/-- C23: in an accepted struct all names - of fields (those of embedded structs included), of their accessors and of the
embedded structs - are different. -/
theorem C23_unique_names (d : StructA) (u u' : UnitD) (s : StructD) (h : visitStruct d u = (.ok s, u')) :
    (s.fields.flatMap FieldD.names).Nodup := by
  obtain ⟨line, col, name, size, body⟩ := d
  obtain ⟨u1, u2, u3, sz, fs, h1, h2, h3, h4, h5, h6⟩ := visitStruct_ok.1 h
  obtain ⟨-, -, -, -, rfl, -⟩ := finishStruct_ok.1 h6
  simp only [StructD.fields, List.flatMap_map, setBelongs_names]
  exact h5

example : Sample.msgD.fields.flatMap FieldD.names =
    [['H', 'e', 'a', 'd'], ['v'], ['k'], ['n'], ['g'], ['a'], ['b'], ['s'], ['x'], ['t']] := by decide +kernel

/-- C23: a struct whose elements produce the same name twice is not accepted. -/
theorem C23_refused (line col : Nat) (name : Str) (size : Option SizeA) (body : BodyA) (u u1 u2 u3 u4 : UnitD) (sz : Int)
    (fs : List FieldD) (hname : visitStructName name u = (.ok name, u1))
    (hadd : addLocalName name ⟨⟨u1.path, line, col⟩, none⟩ u1 = (.ok (), u2)) (hsz : visitOptSize size u2 = (.ok sz, u3))
    (hbody : VisitAll body u3 fs u4) (hdup : ¬ ((expandAll fs).flatMap FieldD.names).Nodup) (s : StructD) (u' : UnitD) :
    visitStruct (.mk line col name size body) u ≠ (.ok s, u') := by
  intro h
  obtain ⟨v1, v2, v3, sz', fs', h1, h2, h3, h4, h5, h6⟩ := visitStruct_ok.1 h
  rw [hname] at h1
  simp only [Prod.mk.injEq, true_and] at h1
  subst h1
  rw [hadd] at h2
  simp only [Prod.mk.injEq, true_and] at h2
  subst h2
  rw [hsz] at h3
  simp only [Prod.mk.injEq, Out.ok.injEq] at h3
  obtain ⟨rfl, rfl⟩ := h3
  have det : ∀ (b : BodyA) v x x' y y', VisitAll b v x y → VisitAll b v x' y' → x = x' := by
    intro b
    induction b using BodyA.rec (motive_1 := fun _ => True) (motive_2 := fun _ => True) (motive_3 := fun _ => True)
      (motive_5 := fun _ => True) with
    | nil =>
      rintro v x x' y y' ⟨rfl, -⟩ ⟨rfl, -⟩
      rfl
    | cons f r _ ih =>
      rintro v x x' y y' ⟨o, w, e, g, rfl, k⟩ ⟨o', w', e', g', rfl, k'⟩
      rw [e] at e'
      simp only [Prod.mk.injEq, Out.ok.injEq] at e'
      obtain ⟨rfl, rfl⟩ := e'
      rw [ih _ _ _ _ _ k k']
    | _ => trivial
  rw [det body _ _ _ _ _ hbody h4] at hdup
  exact hdup h5

/-! ### C25 -/

/-- C25: an accepted enum has the names written in its body, in order, all different; a member with a number other than
-1 has that number; a member without (or with -1) has the number of the previous member plus one, zero if it is first. -/
theorem C25_numbering (d : EnumA) (u u' : UnitD) (e : EnumD) (h : visitEnum d u = (.ok e, u')) :
    e.values ≠ [] ∧ e.values.map (·.1) = (enumElems d.body).map (·.1) ∧ (e.values.map (·.1)).Nodup ∧
    ∀ i n v, e.values[i]? = some (n, v) →
      ∃ src w, (enumElems d.body)[i]? = some (n, src) ∧ writtenNum u.globalNames src = some w ∧
        (w ≠ -1 → v = w) ∧ (w = -1 → i = 0 → v = 0) ∧
        (w = -1 → ∀ n' v', i ≠ 0 → e.values[i - 1]? = some (n', v') → v = i64 (v' + 1)) := by
  obtain ⟨-, -, -, h1, h2, h3, -, ws, h4, h5⟩ := visitEnum_ok h
  refine ⟨h1, h2, h3, ?_⟩
  intro i n v hi
  have hn : ((enumElems d.body).map (·.1))[i]? = some n := by rw [← h2]; simp [hi]
  obtain ⟨⟨n0, src⟩, he, hn0⟩ := by simpa only [List.getElem?_map, Option.map_eq_some_iff] using hn
  dsimp only at hn0
  subst hn0
  have hw : (ws.map some)[i]? = some (writtenNum u.globalNames src) := by rw [← h4]; simp [he]
  obtain ⟨w, hw1, hw2⟩ := by simpa only [List.getElem?_map, Option.map_eq_some_iff] using hw
  obtain ⟨-, -, hg⟩ := numbers_get ws []
  have hv := hg i w hw1
  simp only [List.length_nil, Nat.zero_add, ← h5, List.getElem?_map, hi, Option.map_some, Option.some.injEq] at hv
  refine ⟨src, w, he, hw2.symm, ?_, ?_, ?_⟩
  · intro hne
    rw [if_neg hne] at hv
    exact hv
  · intro he1 hi0
    rw [if_pos he1, if_pos hi0] at hv
    exact hv
  · intro he1 n' v' hi0 hp
    rw [if_pos he1, if_neg hi0, hp] at hv
    exact hv

/-- `enum Color[1] { RED = 3, GREEN, BLUE = -1; }` -/
def sampleEnum : EnumA := ⟨4, 0, ['C', 'o', 'l'], Sample.bytesSize ['1'],
  [.value 5 2 ['R'] (some (.inl (.int false ['3']))), .empty, .value 6 2 ['G'] none, .value 7 2 ['B'] (some (.inl (.int true ['1'])))]⟩

def enumOut (r : Out EnumD × UnitD) : List (Str × Int) :=
  match r.1 with
  | .ok e => e.values
  | _ => []

/-- An explicit -1 is taken for "no number". -/
theorem C25_minus_one_counterexample :
    enumOut (visitEnum sampleEnum Sample.u0) = [(['R'], 3), (['G'], 4), (['B'], 5)] := by decide +kernel

/-- Numbers are not checked against the size of the enum: `enum E[#1] { A = 300 }` is accepted. -/
theorem C25_range_counterexample :
    enumOut (visitEnum ⟨1, 0, ['E'], Sample.bitsSize ['1'], [.value 1 1 ['A'] (some (.inl (.int false ['3', '0', '0'])))]⟩
      Sample.u0) = [(['A'], 300)] := by decide +kernel

/-! ### C27 -/

/-- The literals a type of the language admits -/
inductive Admits : Prim → Lit → Prop
  | bool (b : Bool) : Admits .bool (.bool b)
  | signed (p : Prim) (v : Int) : p ∈ [Prim.i8, .i16, .i32, .i64] → Admits p (.int v)
  | unsigned (p : Prim) (v : Int) : p ∈ [Prim.u8, .u16, .u32, .u64] → 0 ≤ v → Admits p (.int v)
  | float (p : Prim) (neg : Bool) (t : Str) : p ∈ [Prim.f32, .f64] → Admits p (.float neg t)

theorem literalMatches_iff (p : Prim) (l : Lit) : literalMatches p l = true ↔ Admits p l := by
  constructor
  · intro h
    cases l with
    | bool b =>
      cases p <;> simp [literalMatches, Prim.isBool] at h
      exact .bool b
    | int v =>
      by_cases hv : v < 0
      · have hv2 : ¬ (0 ≤ v) := by omega
        cases p <;> simp [literalMatches, Prim.isInteger, Prim.signed, hv2, hv] at h <;> exact .signed _ v (by simp)
      · have hv2 : 0 ≤ v := by omega
        cases p <;> first
          | exact .signed _ v (by decide)
          | exact .unsigned _ v (by decide) hv2
          | (simp [literalMatches, Prim.isInteger] at h; done)
    | float neg t => cases p <;> simp [literalMatches, Prim.isFloat] at h <;> exact .float _ neg t (by simp)
    | str s => simp [literalMatches] at h
  · intro h
    cases h with
    | bool b => rfl
    | signed p v hp =>
      simp at hp
      rcases hp with rfl | rfl | rfl | rfl <;> simp [literalMatches, Prim.isInteger, Prim.signed]
    | unsigned p v hp hv =>
      simp at hp
      have : ¬ v < 0 := by omega
      rcases hp with rfl | rfl | rfl | rfl <;> simp [literalMatches, Prim.isInteger, this]
    | float p neg t hp =>
      simp at hp
      rcases hp with rfl | rfl <;> rfl

/-- The literal of a constant: as written, or the number of an enum value of that name -/
def valueOf (u : UnitD) : ConstA ⊕ Str → Option Lit
  | .inl c => litOf c
  | .inr n => (aget u.globalNames n).bind fun d => d.enumVal.map .int

theorem visitConstVal_ok {c : ConstA ⊕ Str} {u u' : UnitD} {l : Lit} :
    visitConstVal c u = (.ok l, u') ↔ valueOf u c = some l ∧ u = u' := by
  cases c with
  | inl c => exact visitConstant_ok
  | inr n =>
    simp only [visitConstVal, valueOf]
    rcases hg : aget u.globalNames n with _ | d
    · simp
    · simp only [Option.bind_some]
      rcases he : d.enumVal with _ | w
      · simp
      · simp

/-- C27: an accepted constant field has a literal its type admits, namely the one written or the number of the enum value
named; its size is the declared one, at most the width of the type, or the width if none is declared. -/
theorem C27_constant (p : Prim) (name : Option Str) (size : Option SizeA) (val : ConstA ⊕ Str) (opts : List OptA)
    (u u' : UnitD) (o : Option FieldD) (h : visitField (.const p name size val opts) u = (.ok o, u')) :
    ∃ b lit os, o = some (.const (name.getD []) p b lit os) ∧ Admits p lit ∧ valueOf u val = some lit ∧
      (size = none → b = p.width) ∧ (size ≠ none → annotSize size = some b ∧ b ≤ p.width) := by
  obtain ⟨n, d, b, lit, os, u1, h1, h2, h3, h4, h5, h6, rfl⟩ := visitField_const.1 h
  have hn : n = name.getD [] ∧ u1.globalNames = u.globalNames := by
    cases name with
    | none =>
      obtain ⟨rfl, rfl⟩ := pure_ok.1 h1
      exact ⟨rfl, rfl⟩
    | some m =>
      obtain ⟨-, rfl, rfl⟩ := visitName_ok.1 h1
      exact ⟨rfl, styleWarn_names _ _ _⟩
  obtain ⟨rfl, hu⟩ := hn
  have hv := (visitConstVal_ok.1 h4).1
  have hv' : valueOf u val = some lit := by
    cases val with
    | inl c => exact hv
    | inr m =>
      simp only [valueOf] at hv ⊢
      rw [hu] at hv
      exact hv
  refine ⟨b, lit, os, rfl, (literalMatches_iff p lit).1 h5, hv', ?_, ?_⟩
  · rintro rfl
    simp only [annotSize, Option.some.injEq] at h2
    subst h2
    rcases (constSize_ok.1 h3).2 with ⟨-, h⟩ | ⟨h, -⟩
    · exact h
    · exact absurd rfl h
  · intro hs
    rcases (constSize_ok.1 h3).2 with ⟨h0, h⟩ | ⟨-, rfl, h7⟩
    · exfalso
      cases size with
      | none => exact hs rfl
      | some s =>
        obtain ⟨n, hn, k2⟩ := Option.bind_eq_some_iff.1 h2
        obtain ⟨m, hm, k2⟩ := Option.bind_eq_some_iff.1 k2
        by_cases hz : i64 (8 * n + m) = 0
        · rw [if_pos hz] at k2; cases k2
        · rw [if_neg hz] at k2
          rw [Option.some.inj k2] at hz
          exact hz h0
    · exact ⟨h2, h7⟩

/-- `uint8 magic[#4] = 9;` -/
def sampleConst : FieldA := .const .u8 (some ['m']) (some (Sample.bitsSize ['4'])) (.inl (.int false ['9'])) []

theorem sampleConst_ok : visitField sampleConst Sample.u0 = (.ok (some (.const ['m'] .u8 4 (.int 9) [])), Sample.u0) :=
  visitField_const.2 ⟨['m'], 4, 4, .int 9, [], Sample.u0,
    show visitName Name.isUncapitalized Name.toSnake ['m'] Sample.u0 = _ from visitName_ok.2 ⟨by decide +kernel, rfl, rfl⟩, by decide +kernel,
    constSize_ok.2 ⟨rfl, .inr ⟨by decide, rfl, by decide⟩⟩, visitConstVal_ok.2 ⟨by decide +kernel, rfl⟩, by decide +kernel, rfl, rfl⟩

/-- C27, the other direction: a constant whose literal the type does not allow is refused, whatever else is right. -/
theorem C27_refused (p : Prim) (name : Option Str) (size : Option SizeA) (val : ConstA ⊕ Str) (opts : List OptA)
    (u : UnitD) (hbad : ∀ lit, valueOf u val = some lit → ¬ Admits p lit) (o : Option FieldD) (u' : UnitD) :
    visitField (.const p name size val opts) u ≠ (.ok o, u') := by
  intro h
  obtain ⟨b, lit, os, -, ha, hv, -⟩ := C27_constant _ _ _ _ _ _ _ _ h
  exact hbad lit hv ha

/-- The value is not checked against the declared size: `uint8 x[#4] = 255;` is accepted. -/
theorem C27_fit_counterexample :
    visitField (.const .u8 (some ['m']) (some (Sample.bitsSize ['4'])) (.inl (.int false ['2', '5', '5'])) []) Sample.u0 =
      (.ok (some (.const ['m'] .u8 4 (.int 255) [])), Sample.u0) :=
  visitField_const.2 ⟨['m'], 4, 4, .int 255, [], Sample.u0,
    show visitName Name.isUncapitalized Name.toSnake ['m'] Sample.u0 = _ from visitName_ok.2 ⟨by decide +kernel, rfl, rfl⟩, by decide +kernel,
    constSize_ok.2 ⟨rfl, .inr ⟨by decide, rfl, by decide⟩⟩, visitConstVal_ok.2 ⟨by decide +kernel, rfl⟩, by decide +kernel, rfl, rfl⟩

/-! ### C28 -/

/-- C28 for fields: a list of options is accepted exactly when all values are valid literals, no name occurs twice and
`order` is "big" or "little"; the options are then exactly the ones written, in order, and every unknown name gives a
warning and nothing else happens to the unit. -/
theorem C28_field_options (os : List OptA) (u u' : UnitD) (r : List (Str × Lit)) :
    visitFieldOptions os [] u = (.ok r, u') ↔
      ∃ lits, os.map (fun o => litOf o.val) = lits.map some ∧
        r = (os.map (·.name)).zip lits ∧ (os.map (·.name)).Nodup ∧
        (∀ e ∈ (os.map (·.name)).zip lits, FieldOptOk e.1 e.2) ∧
        u' = { u with warns := u.warns ++ ((os.map (·.name)).filter (· ≠ orderName)).map .unknownOption } := by
  rw [visitFieldOptions_ok (by simp)]
  simp only [List.map_nil, List.nil_append, addWarns, unknownWarns]
  have e : (fun n : Str => !decide (n = orderName)) = fun n => decide (n ≠ orderName) := by
    funext n
    simp
  rw [e]

example : ∃ u', visitFieldOptions [⟨orderName, .str (some ['b', 'i', 'g'])⟩, ⟨['z'], .bool true⟩] [] Sample.u0 =
    (.ok [(orderName, .str ['b', 'i', 'g']), (['z'], .bool true)], u') ∧ u'.warns = [.unknownOption ['z']] :=
  ⟨_, (C28_field_options _ _ _ _).2 ⟨[.str ['b', 'i', 'g'], .bool true], by decide +kernel, rfl, by decide +kernel,
    by
      intro e he
      simp only [List.map_cons, List.map_nil, List.zip_cons_cons, List.zip_nil_right, List.mem_cons, List.not_mem_nil,
        or_false] at he
      rcases he with rfl | rfl
      · exact fun _ => .inl rfl
      · intro h; exact absurd h (by decide),
    rfl⟩, rfl⟩

/-- C28 for files: the info visitor accepts a file exactly when it has one package statement, all option values are valid
literals, no option occurs twice and known options have a value of their kind; unknown options only warn. -/
theorem C28_file_options (f : FileA) (u u' : UnitD) :
    visitInfo f u = (.ok (), u') ↔
      ∃ p lits, f.pkgs = [p] ∧ f.opts.map (fun o => litOf o.val) = lits.map some ∧ (f.opts.map (·.name)).Nodup ∧
        (∀ e ∈ (f.opts.map (·.name)).zip lits, FileOptOk e.1 e.2) ∧
        u' = { u with
          pkg := p
          options := (f.opts.map (·.name)).zip lits
          warns := u.warns ++ ((f.opts.map (·.name)).filter (fun n => !knownFileOpt n)).map Warn.unknownOption } := by
  unfold visitInfo
  rcases hp : f.pkgs with _ | ⟨p, ps⟩
  · simp
  · rcases ps with _ | ⟨q, qs⟩
    · simp only [List.map_nil]
      rcases hv : visitFileOptions f.opts [] [] { u with pkg := p } with ⟨os, errs, u1⟩
      simp only
      constructor
      · intro h
        split at h
        · rename_i he
          subst he
          obtain ⟨lits, h1, rfl, h3, h4, rfl⟩ := (visitFileOptions_ok (by simp)).1 hv
          simp only [Prod.mk.injEq, true_and] at h
          subst h
          exact ⟨p, lits, rfl, h1, by simpa using h3, h4, by simp [addWarns, unknownWarns]⟩
        · simp at h
      · rintro ⟨p', lits, hpp, h1, h2, h3, rfl⟩
        simp only [List.cons.injEq, and_true] at hpp
        subst hpp
        have := (visitFileOptions_ok (os := f.opts) (acc := []) (u := { u with pkg := p }) (by simp)).2
          ⟨lits, h1, rfl, by simpa using h2, h3, rfl⟩
        rw [hv] at this
        simp only [Prod.mk.injEq] at this
        obtain ⟨rfl, rfl, rfl⟩ := this
        simp [addWarns, unknownWarns]
    · constructor
      · intro h
        exfalso
        simp only [List.map_cons] at h
        obtain ⟨es, he⟩ := visitFileOptions_errs f.opts [] (CErr.packageStmtDuplicate :: qs.map fun _ => CErr.packageStmtDuplicate)
          { u with pkg := p }
        rcases hv : visitFileOptions f.opts [] (CErr.packageStmtDuplicate :: qs.map fun _ => CErr.packageStmtDuplicate)
          { u with pkg := p } with ⟨os, errs, u1⟩
        rw [hv] at h he
        simp only at h he
        split at h
        · rename_i hn
          rw [hn] at he
          simp at he
        · simp at h
      · rintro ⟨p', lits, hpp, -⟩
        simp at hpp

example : ∃ u', visitInfo ⟨[], [['p']], [⟨"omit_empty".toList, .bool true⟩, ⟨['z'], .bool true⟩], []⟩ Sample.u0 = (.ok (), u') :=
  ⟨_, (C28_file_options _ _ _).2 ⟨['p'], [.bool true, .bool true], rfl, by decide +kernel, by decide +kernel,
    by
      intro e he
      simp only [List.map_cons, List.map_nil, List.zip_cons_cons, List.zip_nil_right, List.mem_cons, List.not_mem_nil,
        or_false] at he
      rcases he with rfl | rfl
      · intro x hx hn
        have : ∀ x ∈ fileOptKinds, x.1.toList = "omit_empty".toList → Kind.bool = x.2 := by decide +kernel
        exact this x hx hn
      · intro x hx hn
        have : ∀ x ∈ fileOptKinds, x.1.toList = ['z'] → Kind.bool = x.2 := by decide +kernel
        exact this x hx hn,
    rfl⟩⟩

/-- First character of a name that is not an underscore. -/
def firstLetter (n : Str) : Option Char := (n.dropWhile (· == '_')).head?

/-- The outcome of visiting a name: refused unless the first letter is as required; otherwise taken as it is, with a
warning exactly when the recommended form (the conversion applied twice) differs. -/
def NameRule (visit : Str → V Str) (good : Char → Bool) (conv : Str → Str) : Prop :=
  ∀ (n : Str) (u : UnitD),
    ((firstLetter n).any good = false → visit n u = (.err [.nameStyle n], u)) ∧
    ((firstLetter n).any good = true → conv (conv n) = n → visit n u = (.ok n, u)) ∧
    ((firstLetter n).any good = true → conv (conv n) ≠ n →
      visit n u = (.ok n, { u with warns := u.warns ++ [.nameStyle n (conv (conv n))] }))

/-- **C35, the rules for names.** Structs, enums and enum values begin with a capital, fields and methods with a
lower-case letter (underscores apart); nothing but the first letter makes a name illegal, and a name is never changed. -/
theorem C35_name_rules :
    NameRule visitStructName Char.isUpper Name.toPascal ∧ NameRule visitEnumName Char.isUpper Name.toPascal ∧
    NameRule visitEnumValueName Char.isUpper Name.toAllCap ∧ NameRule visitFieldName Char.isLower Name.toSnake ∧
    NameRule visitMethodName Char.isLower Name.toSnake := by
  have key : ∀ (check : Str → Bool) (good : Char → Bool) (conv : Str → Str),
      (∀ n, check n = (firstLetter n).any good) → NameRule (visitName check conv) good conv := by
    intro check good conv h n u
    unfold visitName
    rw [h]
    refine ⟨fun e => by rw [e]; rfl, fun e e2 => ?_, fun e e2 => ?_⟩
    · rw [e, if_neg (by simp), if_neg (by simp [e2])]; rfl
    · rw [e, if_neg (by simp), if_pos (Ne.symm e2)]; rfl
  have hU := key Name.isCapitalized Char.isUpper
  have hL := key Name.isUncapitalized Char.isLower
  have eU : ∀ n, Name.isCapitalized n = (firstLetter n).any Char.isUpper := fun n => (C35_checks n).1
  have eL : ∀ n, Name.isUncapitalized n = (firstLetter n).any Char.isLower := fun n => (C35_checks n).2
  exact ⟨hU _ eU, hU _ eU, hU _ eU, hL _ eL, hL _ eL⟩

end Bubbler
