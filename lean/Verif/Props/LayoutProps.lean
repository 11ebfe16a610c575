import Verif.Compiler.Samples

/-
C19 - C24: layout of accepted structs, sizes, names, embedding.
`visitStruct d u = (.ok s, u')` says: in the unit `u` the struct definition `d` is accepted and becomes `s`.
-/
namespace Bubbler
open Comp

theorem finished {d : StructA} {u u' : UnitD} {s : StructD} (h : visitStruct d u = (.ok s, u')) :
    s.fields ≠ [] ∧ checkAlign s.fields 0 = none ∧ (sumBits s.fields 0).tmod 8 = 0 ∧ s.bits = sumBits s.fields 0 ∧
      s.dyn = anyDyn s.fields := by
  obtain ⟨line, col, name, size, body⟩ := d
  obtain ⟨u1, u2, u3, sz, fs, h1, h2, h3, h4, h5, h6⟩ := visitStruct_ok.1 h
  obtain ⟨k1, k2, k3, -, rfl, -⟩ := finishStruct_ok.1 h6
  exact ⟨by simpa [StructD.fields] using k1, k2, k3, rfl, rfl⟩

theorem start_add_room (fs : List FieldD) (i j : Nat) (f : FieldD) (hi : fs[i]? = some f) (hij : i < j) :
    startOf fs i + f.room ≤ startOf fs j := by
  unfold startOf
  obtain ⟨hl, rfl⟩ := List.getElem?_eq_some_iff.1 hi
  have e : fs.take j = fs.take i ++ fs[i] :: (fs.drop (i + 1)).take (j - (i + 1)) := by
    rw [← List.take_append_drop i (fs.take j), List.take_take, Nat.min_eq_left (by omega), List.drop_take]
    congr 1
    rw [List.drop_eq_getElem_cons hl, show j - i = (j - (i + 1)) + 1 by omega, List.take_succ_cons]
  rw [e, total_append, total_cons]
  omega

/-- C19: the recorded size of an accepted struct is the sum of the sizes of its fields and a whole number of bytes; it is
marked dynamic exactly when some field has a variable-length type; every field gets, as its start, the sum of the sizes
before it, so fields follow one another without overlap and stay inside the struct. -/
theorem C19_layout (d : StructA) (u u' : UnitD) (s : StructD) (h : visitStruct d u = (.ok s, u'))
    (hsane : Sane s.fields) (hsmall : total s.fields < 2 ^ 63) :
    s.fields ≠ [] ∧ s.bits = total s.fields ∧ 8 ∣ total s.fields ∧ (s.dyn = true ↔ ∃ f ∈ s.fields, f.IsVar) ∧
    (∀ i, (forEachStart s.fields 0)[i]? = (s.fields[i]?).map fun f => (f, (startOf s.fields i : Int))) ∧
    (∀ i j f, s.fields[i]? = some f → i < j → startOf s.fields i + f.room ≤ startOf s.fields j) ∧
    (∀ i f, s.fields[i]? = some f → startOf s.fields i + f.room ≤ total s.fields) := by
  obtain ⟨k0, k1, k2, k3, k4⟩ := finished h
  have e := sumBits_eq s.fields 0 (by omega) (by omega)
  rw [Int.zero_add] at e
  rw [e] at k2 k3
  refine ⟨k0, k3, ?_, by rw [k4, anyDyn_iff], ?_, fun i j f hf hij => start_add_room _ i j f hf hij, ?_⟩
  · rw [Int.tmod_eq_emod_of_nonneg (by omega)] at k2
    omega
  · intro i
    rw [forEachStart_eq s.fields 0 (by omega) hsane (by omega)]
    simp
  · intro i f hf
    have := start_add_room s.fields i s.fields.length f hf (List.getElem?_eq_some_iff.1 hf).1
    simpa [startOf] using this

example : visitStruct Sample.msg Sample.u1 = (.ok Sample.msgD, (visitStruct Sample.msg Sample.u1).2) ∧
    Sane Sample.msgD.fields ∧ total Sample.msgD.fields < 2 ^ 63 :=
  ⟨Sample.msg_ok, by
    intro f hf
    have : (Sample.msgD.fields.all fun f => decide (0 ≤ f.bits ∨ f.bits = -1)) = true := by decide +kernel
    simpa using List.all_eq_true.1 this f hf, by rw [Sample.msg_facts.2.2.1]; decide⟩

/-- Without the no-overflow condition the recorded size can be wrong: `struct S { uint8<2305843009213693952> x; }` is
accepted and gets size zero. -/
theorem C19_overflow_counterexample :
    let d : StructA := .mk 1 0 ['S'] none
      (.cons (.normal (.array (.basic .u8) "2305843009213693952".toList) ['x'] none [] none) .nil)
    ∃ s, visitStruct d Sample.u0 = (.ok s, (visitStruct d Sample.u0).2) ∧ s.bits = 0 := by
  refine ⟨Sample.out _, Sample.of_isOk (by decide +kernel), ?_⟩
  decide +kernel

/-- C20: in an accepted struct every string, bytes or struct field, and every array of those, starts at a multiple of
eight bits. -/
theorem C20_aligned (d : StructA) (u u' : UnitD) (s : StructD) (h : visitStruct d u = (.ok s, u'))
    (hsane : Sane s.fields) (hsmall : total s.fields < 2 ^ 63) (i : Nat) (f : FieldD) (hf : s.fields[i]? = some f)
    (hb : f.IsBytewise) : 8 ∣ startOf s.fields i := by
  obtain ⟨-, k1, -⟩ := finished h
  have := (checkAlign_iff s.fields 0 (by omega) hsane (by omega)).1 k1 i f hf hb
  omega

example : Sample.msgD.fields[7]?.any (fun f => match f with | .normal _ .str _ _ _ => true | _ => false) = true ∧
    startOf Sample.msgD.fields 7 = 64 := by decide +kernel

theorem setBelongs_bytewise (f : FieldD) : (setBelongs f).IsBytewise ↔ f.IsBytewise := by
  cases f with
  | embedded s b =>
    constructor
    · intro h; cases h
    · intro h; cases h
  | _ => exact Iff.rfl

theorem take_map_total (fs : List FieldD) (i : Nat) : startOf (fs.map setBelongs) i = startOf fs i := by
  unfold startOf
  rw [← List.map_take, total_setBelongs]

/-- C20, the other direction: a body whose elements are all fine but put such a field elsewhere is refused, with an
alignment error. -/
theorem C20_refused (line col : Nat) (name : Str) (size : Option SizeA) (body : BodyA) (u u1 u2 u3 u4 : UnitD) (sz : Int)
    (fs : List FieldD) (hname : visitStructName name u = (.ok name, u1))
    (hadd : addLocalName name ⟨⟨u1.path, line, col⟩, none⟩ u1 = (.ok (), u2)) (hsz : visitOptSize size u2 = (.ok sz, u3))
    (hbody : VisitAll body u3 fs u4) (hnames : ((expandAll fs).flatMap FieldD.names).Nodup)
    (hsane : Sane (expandAll fs)) (hsmall : total (expandAll fs) < 2 ^ 63)
    (i : Nat) (f : FieldD) (hf : (expandAll fs)[i]? = some f) (hb : f.IsBytewise) (hi : ¬ 8 ∣ startOf (expandAll fs) i) :
    ∃ n, visitStruct (.mk line col name size body) u = (.err [.notAligned n], u4) := by
  have hs : Sane ((expandAll fs).map setBelongs) := by
    intro g hg
    obtain ⟨g', hg', rfl⟩ := List.mem_map.1 hg
    rw [setBelongs_bits]
    exact hsane g' hg'
  have hne : checkAlign ((expandAll fs).map setBelongs) 0 ≠ none := by
    rw [Ne, checkAlign_iff _ 0 (by omega) hs (by rw [total_setBelongs]; omega)]
    intro k
    have := k i (setBelongs f) (by simp [hf]) ((setBelongs_bytewise f).2 hb)
    rw [take_map_total] at this
    omega
  obtain ⟨e, he⟩ := Option.ne_none_iff_exists'.1 hne
  obtain ⟨n, rfl⟩ := checkAlign_err _ _ _ he
  refine ⟨n, ?_⟩
  have hv : visitBody body ⟨[], []⟩ [] u3 = (.ok (expandAll fs), u4) :=
    (visitBody_ok _ _ _ _ _).2 ⟨fs, _, hbody, (addFields_ok fs ⟨[], []⟩ _ (by simp)).2 ⟨by simpa using hnames, rfl⟩, by simp⟩
  unfold visitStruct
  show V.bind (visitStructName name) _ u = _
  unfold V.bind
  rw [hname]
  show V.bind (addLocalName name ⟨⟨u1.path, line, col⟩, none⟩) _ u1 = _
  unfold V.bind
  rw [hadd]
  show V.bind (visitOptSize size) _ u2 = _
  unfold V.bind
  rw [hsz]
  show V.bind (visitBody body ⟨[], []⟩ []) _ u3 = _
  unfold V.bind
  rw [hv]
  show finishStruct name sz (expandAll fs) u4 = _
  unfold finishStruct
  have h0 : expandAll fs ≠ [] := by
    intro e0
    rw [e0] at hf
    simp at hf
  rw [if_neg h0]
  dsimp only
  rw [he]
  rfl

/-- C21: a struct that declares a size is accepted only if no field has a variable-length type and the declared size is
the sum of the field sizes (and then the recorded size is the declared one). -/
theorem C21_declared_size (line col : Nat) (name : Str) (size : SizeA) (body : BodyA) (u u' : UnitD) (s : StructD)
    (h : visitStruct (.mk line col name (some size) body) u = (.ok s, u')) (hsmall : total s.fields < 2 ^ 63) :
    ∃ declared u2 u3, visitSizeA size u2 = (.ok declared, u3) ∧ declared = total s.fields ∧ s.bits = declared ∧
      ∀ f ∈ s.fields, ¬ f.IsVar := by
  obtain ⟨u1, u2, u3, sz, fs, h1, h2, h3, h4, h5, h6⟩ := visitStruct_ok.1 h
  obtain ⟨k0, k1, k2, k3, rfl, -⟩ := finishStruct_ok.1 h6
  simp only [StructD.fields, StructD.bits] at hsmall ⊢
  have e := sumBits_eq _ 0 (by omega) (by omega : (0 : Int) + total ((expandAll fs).map setBelongs) < 2 ^ 63)
  rw [Int.zero_add] at e
  have hz : sz ≠ 0 := by
    obtain ⟨_, _, _, _, _, h, _⟩ := visitSizeA_ok.1 h3
    exact h
  rcases k3 with k3 | ⟨k3, k4⟩
  · exact absurd k3 hz
  · refine ⟨sz, u2, u3, h3, by rw [← k4, e], k4, ?_⟩
    intro f hf hv
    have := (anyDyn_iff ((expandAll fs).map setBelongs)).2 ⟨f, hf, hv⟩
    rw [k3] at this
    exact absurd this (by simp)

/-- `struct P[2] { uint16 x[1#4]; void[#4]; }` -/
def sampleSized : StructA := .mk 1 0 ['P'] (some (Sample.bytesSize ['2']))
  (.cons (.normal (.elem (.basic .u16)) ['x'] (some ⟨some ['1'], some ['4']⟩) [] none)
  (.cons (.void (Sample.bitsSize ['4']) []) .nil))

example : visitStruct sampleSized Sample.u0 = (.ok (Sample.out (visitStruct sampleSized Sample.u0)), (visitStruct sampleSized Sample.u0).2) ∧
    total (Sample.out (visitStruct sampleSized Sample.u0)).fields = 16 := by
  refine ⟨Sample.of_isOk (by decide +kernel), by decide +kernel⟩

/-- C19-C21 in one: given its elements, a struct is accepted exactly when it has an element, every byte-wise field starts
at a byte boundary, the total is a whole number of bytes, and a declared size (if any) equals the total of fixed-length
fields. -/
theorem C21_accepted_iff (name : Str) (declared : Option Int) (hd : declared ≠ some 0) (fs : List FieldD) (u : UnitD)
    (hsane : Sane fs) (hsmall : total fs < 2 ^ 63) :
    (∃ s, finishStruct name (declared.getD 0) fs u = (.ok s, u)) ↔
      fs ≠ [] ∧ (∀ i f, fs[i]? = some f → f.IsBytewise → 8 ∣ startOf fs i) ∧ 8 ∣ total fs ∧
      (∀ n, declared = some n → n = total fs ∧ ∀ f ∈ fs, ¬ f.IsVar) := by
  have hs : Sane (fs.map setBelongs) := by
    intro g hg
    obtain ⟨g', hg', rfl⟩ := List.mem_map.1 hg
    rw [setBelongs_bits]
    exact hsane g' hg'
  have e := sumBits_eq _ 0 (by omega) (by rw [total_setBelongs]; omega : (0 : Int) + total (fs.map setBelongs) < 2 ^ 63)
  rw [Int.zero_add, total_setBelongs] at e
  have ha : checkAlign (fs.map setBelongs) 0 = none ↔ ∀ i f, fs[i]? = some f → f.IsBytewise → 8 ∣ startOf fs i := by
    rw [checkAlign_iff _ 0 (by omega) hs (by rw [total_setBelongs]; omega)]
    constructor
    · intro k i f hf hb
      have := k i (setBelongs f) (by simp [hf]) ((setBelongs_bytewise f).2 hb)
      rw [take_map_total] at this
      omega
    · intro k i f hf hb
      rw [List.getElem?_map] at hf
      obtain ⟨g, hg, rfl⟩ := Option.map_eq_some_iff.1 hf
      have := k i g hg ((setBelongs_bytewise g).1 hb)
      rw [take_map_total]
      omega
  have hv : anyDyn (fs.map setBelongs) = false ↔ ∀ f ∈ fs, ¬ f.IsVar := by
    rw [← Bool.not_eq_true, anyDyn_iff]
    constructor
    · intro k f hf hv
      refine k ⟨setBelongs f, List.mem_map.2 ⟨f, hf, rfl⟩, ?_⟩
      cases hv with
      | mk n t b ms os h => exact .mk _ _ _ _ _ h
    · rintro k ⟨g, hg, hv⟩
      obtain ⟨f, hf, rfl⟩ := List.mem_map.1 hg
      refine k f hf ?_
      cases f with
      | normal n t b ms os => exact hv
      | void b => cases hv
      | embedded s b => cases hv
      | const n p b l os => cases hv
  have hm : (sumBits (fs.map setBelongs) 0).tmod 8 = 0 ↔ 8 ∣ total fs := by
    rw [e, Int.tmod_eq_emod_of_nonneg (by omega)]
    omega
  have hz : (declared.getD 0 = 0 ∨ anyDyn (fs.map setBelongs) = false ∧ sumBits (fs.map setBelongs) 0 = declared.getD 0) ↔
      (∀ n, declared = some n → n = total fs ∧ ∀ f ∈ fs, ¬ f.IsVar) := by
    rw [e, hv]
    cases declared with
    | none => simp
    | some n =>
      have : n ≠ 0 := fun h => hd (by rw [h])
      simp only [Option.getD_some, this, false_or, Option.some.injEq]
      constructor
      · rintro ⟨a, b⟩ m rfl
        exact ⟨b.symm, a⟩
      · intro k
        obtain ⟨a, b⟩ := k n rfl
        exact ⟨b, a.symm⟩
  rw [← ha, ← hm, ← hz]
  constructor
  · rintro ⟨s, h⟩
    obtain ⟨k0, k1, k2, k3, -⟩ := finishStruct_ok.1 h
    exact ⟨k0, k1, k2, k3⟩
  · rintro ⟨k0, k1, k2, k3⟩
    exact ⟨_, finishStruct_ok.2 ⟨k0, k1, k2, k3, rfl, rfl⟩⟩

end Bubbler
