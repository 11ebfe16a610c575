import Verif.Compiler.VBasics

/-
Layout of accepted structs: specification (room, total, startOf, ...) and what `finishStruct` / `visitBody` guarantee.
-/
namespace Bubbler.Comp

/-! ### Specification -/

/-- Bits a field occupies in the fixed part: the recorded size; embedded and variable-length fields occupy none. -/
def FieldD.room (f : FieldD) : Nat := f.bits.toNat

/-- Bits of the fixed part of a list of fields -/
def total (fs : List FieldD) : Nat := (fs.map FieldD.room).sum

/-- Where the `i`-th field starts -/
def startOf (fs : List FieldD) (i : Nat) : Nat := total (fs.take i)

/-- No recorded size came out negative: size arithmetic did not overflow (-1 marks variable length). -/
def Sane (fs : List FieldD) : Prop := ∀ f ∈ fs, 0 ≤ f.bits ∨ f.bits = -1

/-- Types that must start at a byte boundary -/
inductive Bytewise : CTy → Prop
  | str : Bytewise .str
  | bytes : Bytewise .bytes
  | struct (s : StructD) : Bytewise (.struct s)
  | array (e : CTy) (len : Int) : Bytewise e → Bytewise (.array e len)

/-- Types whose encoding has no fixed length -/
inductive Variable : CTy → Prop
  | str : Variable .str
  | bytes : Variable .bytes
  | array (e : CTy) (len : Int) : Variable e → Variable (.array e len)
  | struct (s : StructD) : s.dyn = true → Variable (.struct s)

/-- A field whose type has no fixed length -/
inductive FieldD.IsVar : FieldD → Prop
  | mk (n : Str) (t : CTy) (b : Int) (ms : List (Str × List (Bool × Prim))) (os : List (Str × Lit)) :
      Variable t → FieldD.IsVar (.normal n t b ms os)

/-- A field that must start at a byte boundary -/
inductive FieldD.IsBytewise : FieldD → Prop
  | mk (n : Str) (t : CTy) (b : Int) (ms : List (Str × List (Bool × Prim))) (os : List (Str × Lit)) :
      Bytewise t → FieldD.IsBytewise (.normal n t b ms os)

/-- `ForEachField` (definition/struct.go 97-111): every field with the start position handed to the callback. -/
def forEachStart : List FieldD → Int → List (FieldD × Int)
  | [], _ => []
  | f :: r, start => (f, start) :: forEachStart r (if f.bits ≠ -1 then i64 (start + f.bits) else start)

/-! ### Proofs -/

theorem i64_small {x : Int} (h0 : 0 ≤ x) (h : x < 2 ^ 63) : i64 x = x := by
  unfold i64
  apply Int.bmod_eq_of_le <;> omega

theorem mustAlign_iff (t : CTy) : t.mustAlign = true ↔ Bytewise t := by
  constructor
  · intro h
    induction t using CTy.mustAlign.induct with
    | case1 s => exact .struct s
    | case2 => exact .str
    | case3 => exact .bytes
    | case4 e l ih => exact .array e l (ih (by simpa [CTy.mustAlign] using h))
    | case5 t h1 h2 h3 h4 =>
      cases t with
      | basic => simp [CTy.mustAlign] at h
      | str => exact absurd rfl h2
      | bytes => exact absurd rfl h3
      | array e l => exact absurd rfl (h4 e l)
      | struct s => exact absurd rfl (h1 s)
      | enum => simp [CTy.mustAlign] at h
  · intro h
    induction h with
    | str => rfl
    | bytes => rfl
    | struct => rfl
    | array e l _ ih => simpa [CTy.mustAlign] using ih

theorem dyn_iff (t : CTy) : t.dyn = true ↔ Variable t := by
  constructor
  · intro h
    induction t using CTy.dyn.induct with
    | case1 => simp [CTy.dyn] at h
    | case2 => exact .str
    | case3 => exact .bytes
    | case4 e l ih => exact .array e l (ih (by simpa [CTy.dyn] using h))
    | case5 s => exact .struct s (by simpa [CTy.dyn] using h)
    | case6 => simp [CTy.dyn] at h
  · intro h
    induction h with
    | str => rfl
    | bytes => rfl
    | array e l _ ih => simpa [CTy.dyn] using ih
    | struct s h => simpa [CTy.dyn] using h

theorem anyDyn_iff (fs : List FieldD) : anyDyn fs = true ↔ ∃ f ∈ fs, f.IsVar := by
  induction fs with
  | nil => simp [anyDyn]
  | cons f r ih =>
    cases f with
    | normal n t b ms os =>
      simp only [anyDyn, Bool.or_eq_true, ih, List.mem_cons, exists_eq_or_imp, dyn_iff]
      constructor
      · rintro (h | h)
        · exact .inl (.mk _ _ _ _ _ h)
        · exact .inr h
      · rintro (h | h)
        · cases h with | mk _ _ _ _ _ h => exact .inl h
        · exact .inr h
    | void b =>
      simp only [anyDyn, ih, List.mem_cons, exists_eq_or_imp]
      constructor
      · exact .inr
      · rintro (h | h)
        · cases h
        · exact h
    | embedded s b =>
      simp only [anyDyn, ih, List.mem_cons, exists_eq_or_imp]
      constructor
      · exact .inr
      · rintro (h | h)
        · cases h
        · exact h
    | const n p b l os =>
      simp only [anyDyn, ih, List.mem_cons, exists_eq_or_imp]
      constructor
      · exact .inr
      · rintro (h | h)
        · cases h
        · exact h

theorem total_cons (f : FieldD) (r : List FieldD) : total (f :: r) = f.room + total r := by simp [total]

theorem total_append (a b : List FieldD) : total (a ++ b) = total a + total b := by simp [total]

theorem sumBits_eq (fs : List FieldD) (acc : Int) (h0 : 0 ≤ acc) (h : acc + total fs < 2 ^ 63) :
    sumBits fs acc = acc + total fs := by
  induction fs generalizing acc with
  | nil => simp [sumBits, total]
  | cons f r ih =>
    rw [total_cons] at h ⊢
    unfold sumBits
    unfold FieldD.room at *
    split
    · rw [i64_small (by omega) (by omega), ih _ (by omega) (by omega)]
      omega
    · rw [ih _ h0 (by omega)]
      omega

theorem sane_cons {f : FieldD} {r : List FieldD} (h : Sane (f :: r)) : (0 ≤ f.bits ∨ f.bits = -1) ∧ Sane r :=
  ⟨h f (by simp), fun g hg => h g (by simp [hg])⟩

theorem next_start (f : FieldD) (start : Int) (h0 : 0 ≤ start) (hf : 0 ≤ f.bits ∨ f.bits = -1)
    (h : start + f.room < 2 ^ 63) : (if f.bits ≠ -1 then i64 (start + f.bits) else start) = start + f.room := by
  unfold FieldD.room at *
  split
  · rw [i64_small (by omega) (by omega)]
    omega
  · omega

theorem forEachStart_eq (fs : List FieldD) (start : Int) (h0 : 0 ≤ start) (hs : Sane fs) (h : start + total fs < 2 ^ 63)
    (i : Nat) : (forEachStart fs start)[i]? = (fs[i]?).map fun f => (f, start + startOf fs i) := by
  induction fs generalizing start i with
  | nil => simp [forEachStart]
  | cons f r ih =>
    obtain ⟨hf, hr⟩ := sane_cons hs
    rw [total_cons] at h
    unfold forEachStart
    rw [next_start f start h0 hf (by omega)]
    cases i with
    | zero => simp [startOf, total]
    | succ i =>
      simp only [List.getElem?_cons_succ]
      rw [ih _ (by omega) hr (by omega)]
      simp only [startOf, List.take_succ_cons, total_cons]
      cases r[i]? with
      | none => rfl
      | some g => simp; omega

theorem checkAlign_cons (f : FieldD) (r : List FieldD) (start : Int) : checkAlign (f :: r) start =
    match f with
    | .normal n t _ _ _ => if t.mustAlign && decide (start.tmod 8 ≠ 0) then some (.notAligned n)
        else checkAlign r (if f.bits ≠ -1 then i64 (start + f.bits) else start)
    | _ => checkAlign r (if f.bits ≠ -1 then i64 (start + f.bits) else start) := by
  cases f <;> rfl

theorem checkAlign_iff (fs : List FieldD) (start : Int) (h0 : 0 ≤ start) (hs : Sane fs) (h : start + total fs < 2 ^ 63) :
    checkAlign fs start = none ↔
      ∀ i f, fs[i]? = some f → f.IsBytewise → (start + startOf fs i) % 8 = 0 := by
  induction fs generalizing start with
  | nil => simp [checkAlign]
  | cons f r ih =>
    obtain ⟨hf, hr⟩ := sane_cons hs
    rw [total_cons] at h
    have hn := next_start f start h0 hf (by omega)
    have step : checkAlign r (start + f.room) = none ↔
        ∀ i g, r[i]? = some g → g.IsBytewise → (start + startOf (f :: r) (i + 1)) % 8 = 0 := by
      rw [ih _ (by omega) hr (by omega)]
      simp only [startOf, List.take_succ_cons, total_cons]
      constructor
      · intro k i g hg hb
        have := k i g hg hb
        omega
      · intro k i g hg hb
        have := k i g hg hb
        omega
    have split0 : (∀ i g, (f :: r)[i]? = some g → g.IsBytewise → (start + startOf (f :: r) i) % 8 = 0) ↔
        (f.IsBytewise → start % 8 = 0) ∧
        ∀ i g, r[i]? = some g → g.IsBytewise → (start + startOf (f :: r) (i + 1)) % 8 = 0 := by
      constructor
      · intro k
        refine ⟨fun hb => ?_, fun i g hg hb => k (i + 1) g (by simpa using hg) hb⟩
        have := k 0 f (by simp) hb
        simpa [startOf, total] using this
      · rintro ⟨k0, k1⟩ i g hg hb
        cases i with
        | zero =>
          simp only [List.getElem?_cons_zero, Option.some.injEq] at hg
          subst hg
          simpa [startOf, total] using k0 hb
        | succ i => exact k1 i g (by simpa using hg) hb
    rw [split0, ← step, checkAlign_cons]
    rw [hn]
    cases f with
    | normal n t b ms os =>
      dsimp only
      have e : (t.mustAlign && decide (start.tmod 8 ≠ 0)) = true ↔ Bytewise t ∧ start % 8 ≠ 0 := by
        rw [Bool.and_eq_true, mustAlign_iff, decide_eq_true_iff, Int.tmod_eq_emod_of_nonneg h0]
      split
      · rename_i c
        obtain ⟨c1, c2⟩ := e.1 c
        constructor
        · simp
        · intro k
          exact absurd (k.1 (.mk _ _ _ _ _ c1)) c2
      · rename_i c
        constructor
        · intro k
          refine ⟨fun hb => ?_, k⟩
          cases hb with
          | mk _ _ _ _ _ hb => exact Decidable.byContradiction fun c2 => c (e.2 ⟨hb, c2⟩)
        · exact fun k => k.2
    | void b => exact ⟨fun k => ⟨fun hb => (nomatch hb), k⟩, fun k => k.2⟩
    | embedded s b => exact ⟨fun k => ⟨fun hb => (nomatch hb), k⟩, fun k => k.2⟩
    | const n p b l os => exact ⟨fun k => ⟨fun hb => (nomatch hb), k⟩, fun k => k.2⟩

/-- A failed alignment check is reported as such. -/
theorem checkAlign_err (fs : List FieldD) (start : Int) (e : CErr) (h : checkAlign fs start = some e) :
    ∃ n, e = .notAligned n := by
  induction fs generalizing start with
  | nil => simp [checkAlign] at h
  | cons f r ih =>
    unfold checkAlign at h
    dsimp only at h
    split at h
    · split at h
      · simp only [Option.some.injEq] at h
        exact ⟨_, h.symm⟩
      · exact ih _ h
    · exact ih _ h

theorem setBelongs_bits (f : FieldD) : (setBelongs f).bits = f.bits := by cases f <;> rfl

theorem setBelongs_room (f : FieldD) : (setBelongs f).room = f.room := by simp [FieldD.room, setBelongs_bits]

theorem total_setBelongs (fs : List FieldD) : total (fs.map setBelongs) = total fs := by
  simp only [total, List.map_map]
  congr 2
  funext f
  exact setBelongs_room f

/-- `finishStruct` accepts exactly when ... -/
theorem finishStruct_ok {name : Str} {size : Int} {fields : List FieldD} {s : StructD} {u u' : UnitD} :
    finishStruct name size fields u = (.ok s, u') ↔
      fields ≠ [] ∧ checkAlign (fields.map setBelongs) 0 = none ∧ (sumBits (fields.map setBelongs) 0).tmod 8 = 0 ∧
      (size = 0 ∨ anyDyn (fields.map setBelongs) = false ∧ sumBits (fields.map setBelongs) 0 = size) ∧
      s = .mk name (sumBits (fields.map setBelongs) 0) (anyDyn (fields.map setBelongs)) (fields.map setBelongs) ∧ u = u' := by
  unfold finishStruct
  split
  · rename_i h
    simp [h, fail]
  · rename_i h0
    dsimp only
    rcases h1 : checkAlign (fields.map setBelongs) 0 with _ | e
    case some => simp [fail]
    case none =>
      simp only [true_and]
      split
      · rename_i h
        simp [h, fail]
      · rename_i h2
        have h2' : (sumBits (fields.map setBelongs) 0).tmod 8 = 0 := Decidable.not_not.1 h2
        split
        · rename_i h3
          rw [pure_ok]
          constructor
          · rintro ⟨rfl, rfl⟩; exact ⟨h0, h2', .inl h3, rfl, rfl⟩
          · rintro ⟨-, -, -, rfl, rfl⟩; exact ⟨rfl, rfl⟩
        · rename_i h3
          split
          · rename_i h4
            simp [fail, h3, h4]
          · rename_i h4
            have h4' := Bool.eq_false_iff.2 h4
            split
            · rename_i h5
              simp [fail, h3, h5]
            · rename_i h5
              have h5' := Decidable.not_not.1 h5
              rw [pure_ok]
              constructor
              · rintro ⟨rfl, rfl⟩
                exact ⟨h0, h2', .inr ⟨h4', h5'⟩, by rw [h4', h5'], rfl⟩
              · rintro ⟨-, -, -, rfl, rfl⟩
                exact ⟨by rw [h4', h5'], rfl⟩

/-- All elements of a body visited, one after the other, without an error; empty statements give nothing. -/
def VisitAll : BodyA → UnitD → List FieldD → UnitD → Prop
  | .nil, u, fs, u' => fs = [] ∧ u' = u
  | .cons f r, u, fs, u' => ∃ o u1, visitField f u = (.ok o, u1) ∧ ∃ fs', fs = o.toList ++ fs' ∧ VisitAll r u1 fs' u'

theorem visitBody_errs (b : BodyA) (a : Acc) (errs : List CErr) (u u' : UnitD) (out : List FieldD)
    (h : visitBody b a errs u = (.ok out, u')) : errs = [] := by
  match b with
  | .nil =>
    unfold visitBody at h
    split at h
    · assumption
    · simp at h
  | .cons f r =>
    unfold visitBody at h
    rcases k : visitField f u with ⟨o, u1⟩
    rw [k] at h
    cases o with
    | panic => simp at h
    | err es =>
      have := visitBody_errs r _ _ _ _ _ h
      simp at this
      exact this.1
    | ok o =>
      cases o with
      | none => exact visitBody_errs r _ _ _ _ _ h
      | some fd =>
        simp only at h
        split at h
        · simp at h
        · exact visitBody_errs r _ _ _ _ _ h

/-- A body is accepted exactly when all its elements are and the collected names are distinct. -/
theorem visitBody_ok (b : BodyA) (a : Acc) (u u' : UnitD) (out : List FieldD) :
    visitBody b a [] u = (.ok out, u') ↔
      ∃ fs a', VisitAll b u fs u' ∧ addFields fs a = .ok a' ∧ out = a'.fields := by
  match b with
  | .nil =>
    unfold visitBody VisitAll
    rw [if_pos rfl, pure_ok]
    constructor
    · rintro ⟨rfl, rfl⟩; exact ⟨[], a, ⟨rfl, rfl⟩, by simp [addFields], rfl⟩
    · rintro ⟨_, _, ⟨rfl, rfl⟩, h, rfl⟩
      simp only [addFields, Except.ok.injEq] at h
      subst h
      exact ⟨rfl, rfl⟩
  | .cons f r =>
    unfold visitBody VisitAll
    rcases k : visitField f u with ⟨o, u1⟩
    cases o with
    | panic => simp
    | err es =>
      simp only [Prod.mk.injEq, reduceCtorEq, false_and, exists_false, iff_false]
      intro h
      have := visitBody_errs r _ _ _ _ _ h
      simp at this
      exact honest_visitField _ _ _ _ k this
    | ok o =>
      cases o with
      | none =>
        simp only
        rw [visitBody_ok r a u1 u' out]
        constructor
        · rintro ⟨fs, a', h1, h2, h3⟩
          exact ⟨fs, a', ⟨none, u1, rfl, fs, by simp, h1⟩, h2, h3⟩
        · rintro ⟨fs, a', ⟨o, u2, e, fs', rfl, h1⟩, h2, h3⟩
          simp only [Prod.mk.injEq, Out.ok.injEq] at e
          obtain ⟨rfl, rfl⟩ := e
          exact ⟨fs', a', h1, by simpa using h2, h3⟩
      | some fd =>
        simp only
        constructor
        · intro h
          split at h
          · simp at h
          · rename_i a1 h1
            obtain ⟨fs, a', k1, k2, k3⟩ := (visitBody_ok r a1 u1 u' out).1 h
            refine ⟨fd :: fs, a', ⟨some fd, u1, rfl, fs, by simp, k1⟩, ?_, k3⟩
            unfold addFields
            rw [h1]
            exact k2
        · rintro ⟨fs, a', ⟨o, u2, e, fs', rfl, h1⟩, h2, h3⟩
          simp only [Prod.mk.injEq, Out.ok.injEq] at e
          obtain ⟨rfl, rfl⟩ := e
          simp only [Option.toList_some, List.singleton_append] at h2
          unfold addFields at h2
          split at h2
          · simp at h2
          · rename_i a1 h1'
            exact (visitBody_ok r a1 u1 u' out).2 ⟨fs', a', h1, h2, h3⟩

/-! ### Sizes -/

/-- A number literal as the language defines it: absent is zero, too large is an error. -/
def readInt : Option Str → Option Nat
  | none => some 0
  | some t => (Num.parseNat t).bind fun n => if n < 2 ^ 63 then some n else none

theorem visitIntLit_ok {t : Str} {u u' : UnitD} {v : Int} :
    visitIntLit t u = (.ok v, u') ↔ ∃ n : Nat, readInt (some t) = some n ∧ v = n ∧ u = u' := by
  unfold visitIntLit
  simp only [readInt]
  rcases hp : Num.parseNat t with _ | n
  · simp [fail]
  · simp only [Option.bind_some]
    split
    · rw [pure_ok]
      constructor
      · rintro ⟨rfl, rfl⟩; exact ⟨n, rfl, rfl, rfl⟩
      · rintro ⟨m, h, rfl, rfl⟩
        simp only [Option.some.injEq] at h
        subst h
        exact ⟨rfl, rfl⟩
    · simp [fail]

theorem visitOptInt_ok {t : Option Str} {u u' : UnitD} {v : Int} :
    visitOptInt t u = (.ok v, u') ↔ ∃ n : Nat, readInt t = some n ∧ v = n ∧ u = u' := by
  cases t with
  | some t => exact visitIntLit_ok
  | none =>
    unfold visitOptInt readInt
    rw [pure_ok]
    constructor
    · rintro ⟨rfl, rfl⟩; exact ⟨0, rfl, rfl, rfl⟩
    · rintro ⟨m, h, rfl, rfl⟩
      simp only [Option.some.injEq] at h
      subst h
      exact ⟨rfl, rfl⟩

theorem readInt_lt {t : Option Str} {n : Nat} (h : readInt t = some n) : n < 2 ^ 63 := by
  cases t with
  | none => simp only [readInt, Option.some.injEq] at h; omega
  | some t =>
    simp only [readInt] at h
    obtain ⟨m, _, h⟩ := Option.bind_eq_some_iff.1 h
    split at h
    · simp only [Option.some.injEq] at h; omega
    · simp at h

theorem visitSize_eq (n m : Nat) :
    Num.visitSize (some (BitVec.ofInt 64 n)) (some (BitVec.ofInt 64 m)) =
      if i64 (8 * n + m) = 0 then none else some (BitVec.ofInt 64 (8 * n + m)) := by
  unfold Num.visitSize
  simp only [Option.getD_some]
  have e : BitVec.ofInt 64 n * 8#64 + BitVec.ofInt 64 m = BitVec.ofInt 64 (8 * n + m) := by
    rw [BitVec.ofInt_add, BitVec.ofInt_mul, BitVec.mul_comm]
    rfl
  rw [e]
  have e2 : (BitVec.ofInt 64 (8 * n + m) = 0#64) ↔ i64 (8 * n + m) = 0 := by
    rw [← BitVec.toInt_inj, BitVec.toInt_ofInt]
    simp [i64]
  simp only [e2]

/-- The value of a size annotation -/
theorem visitSizeA_ok {s : SizeA} {u u' : UnitD} {v : Int} :
    visitSizeA s u = (.ok v, u') ↔
      ∃ n m : Nat, readInt s.bytes = some n ∧ readInt s.bits = some m ∧ v = i64 (8 * n + m) ∧ v ≠ 0 ∧ u = u' := by
  unfold visitSizeA
  simp only [bind_ok, visitOptInt_ok]
  constructor
  · rintro ⟨_, _, ⟨n, hn, rfl, rfl⟩, _, _, ⟨m, hm, rfl, rfl⟩, h⟩
    rw [visitSize_eq] at h
    by_cases hz : i64 (8 * n + m) = 0
    · rw [if_pos hz] at h
      exact absurd h (by simp [fail])
    · rw [if_neg hz] at h
      obtain ⟨rfl, rfl⟩ := pure_ok.1 h
      rw [BitVec.toInt_ofInt]
      rw [i64] at hz
      exact ⟨n, m, hn, hm, by rw [i64], hz, rfl⟩
  · rintro ⟨n, m, hn, hm, rfl, hz, rfl⟩
    refine ⟨_, _, ⟨n, hn, rfl, rfl⟩, _, _, ⟨m, hm, rfl, rfl⟩, ?_⟩
    rw [visitSize_eq, if_neg hz]
    refine pure_ok.2 ⟨?_, rfl⟩
    rw [BitVec.toInt_ofInt, i64]

/-- The size of an optional annotation in bits, 0 if absent -/
def annotSize (s : Option SizeA) : Option Int :=
  match s with
  | none => some 0
  | some s =>
    (readInt s.bytes).bind fun n => (readInt s.bits).bind fun m =>
      if i64 (8 * n + m) = 0 then none else some (i64 (8 * n + m))

theorem visitOptSize_ok {s : Option SizeA} {u u' : UnitD} {v : Int} :
    visitOptSize s u = (.ok v, u') ↔ annotSize s = some v ∧ u = u' := by
  cases s with
  | none => simp only [visitOptSize, pure_ok, annotSize, Option.some.injEq]
  | some s =>
    simp only [visitOptSize, visitSizeA_ok, annotSize, Option.bind_eq_some_iff]
    constructor
    · rintro ⟨n, m, hn, hm, rfl, hz, rfl⟩
      exact ⟨⟨n, hn, m, hm, if_neg hz⟩, rfl⟩
    · rintro ⟨⟨n, hn, m, hm, h⟩, rfl⟩
      by_cases hz : i64 (8 * n + m) = 0
      · rw [if_pos hz] at h
        cases h
      · rw [if_neg hz] at h
        cases h
        exact ⟨n, m, hn, hm, rfl, hz, rfl⟩

/-! ### Names of fields -/

mutual
  /-- What a field contributes to the list of fields of the struct: an embedded struct is followed by its fields. -/
  def FieldD.expand : FieldD → List FieldD
    | .embedded (.mk n b d fs) belongs =>
      .embedded (.mk n b d fs) belongs :: (if belongs then [] else expandAll fs)
    | .normal n t b ms os => [.normal n t b ms os]
    | .void b => [.void b]
    | .const n p b l os => [.const n p b l os]
  def expandAll : List FieldD → List FieldD
    | [] => []
    | f :: r => f.expand ++ expandAll r
end

/-- Names a field occupies: a named field its name, a normal field also its accessors, an embedded one the name of the
struct. -/
def FieldD.names : FieldD → List Str
  | .normal n _ _ ms _ => n :: ms.map (·.1)
  | .void _ => []
  | .embedded s _ => [s.name]
  | .const n _ _ _ _ => if n = [] then [] else [n]

theorem addName_ok {a a' : Acc} {n : Str} : addName a n = .ok a' ↔ n ∉ a.names ∧ a' = { a with names := a.names ++ [n] } := by
  unfold addName
  split
  · rename_i h; simp [h]
  · rename_i h
    simp only [Except.ok.injEq, h, not_false_iff, true_and]
    exact eq_comm

theorem addNames_ok {a a' : Acc} {l : List Str} (ha : a.names.Nodup) :
    addNames a l = .ok a' ↔ (a.names ++ l).Nodup ∧ a' = { a with names := a.names ++ l } := by
  induction l generalizing a with
  | nil => simp [addNames, ha]; exact eq_comm
  | cons n r ih =>
    unfold addNames
    by_cases h : n ∈ a.names
    · rw [show addName a n = .error (.duplicate n) by simp [addName, h]]
      simp only [reduceCtorEq, false_iff, not_and]
      intro hn
      rw [List.nodup_append] at hn
      exact absurd rfl (hn.2.2 n h n (by simp))
    · rw [addName_ok.2 ⟨h, rfl⟩]
      simp only
      rw [ih (by rw [List.nodup_append]; simp [ha]; exact fun x hx e => h (e ▸ hx))]
      simp [List.append_assoc]

theorem nodup_snoc {α : Type} {l : List α} {x : α} (h : l.Nodup) (hx : x ∉ l) : (l ++ [x]).Nodup := by
  rw [List.nodup_append]
  exact ⟨h, by simp, fun a ha b hb e => hx (by simp at hb; rw [← hb, ← e]; exact ha)⟩

mutual
  theorem addField_ok : ∀ (f : FieldD) (a a' : Acc), a.names.Nodup →
      (addField f a = .ok a' ↔
        (a.names ++ f.expand.flatMap FieldD.names).Nodup ∧
          a' = ⟨a.names ++ f.expand.flatMap FieldD.names, a.fields ++ f.expand⟩)
    | .normal n t b ms os, a, a', ha => by
      unfold addField FieldD.expand
      simp only [List.flatMap_cons, List.flatMap_nil, FieldD.names, List.append_nil]
      by_cases h : n ∈ a.names
      · rw [show addName a n = .error (.duplicate n) by simp [addName, h]]
        simp only [reduceCtorEq, false_iff, not_and]
        intro hn
        rw [List.nodup_append] at hn
        exact absurd rfl (hn.2.2 n h n (by simp))
      · rw [addName_ok.2 ⟨h, rfl⟩]
        simp only
        have h1 : (a.names ++ [n]).Nodup := nodup_snoc ha h
        by_cases h2 : ((a.names ++ [n]) ++ ms.map (·.1)).Nodup
        · rw [(addNames_ok (a := { a with names := a.names ++ [n] }) h1).2 ⟨h2, rfl⟩]
          simp only [Acc.push, Except.ok.injEq]
          simp only [List.append_assoc, List.singleton_append] at h2 ⊢
          simp only [h2, true_and]
          exact eq_comm
        · rcases k : addNames { a with names := a.names ++ [n] } (ms.map (·.1)) with e | a2
          · constructor
            · intro h
              rw [k] at h
              simp at h
            · rintro ⟨hn, -⟩
              exact absurd (by simpa using hn) h2
          · exact absurd ((addNames_ok (a := { a with names := a.names ++ [n] }) h1).1 k).1 h2
    | .embedded (.mk n b d fs) true, a, a', ha => by
      unfold addField FieldD.expand
      simp only [if_true, List.flatMap_cons, List.flatMap_nil, FieldD.names, StructD.name, List.append_nil]
      by_cases h : n ∈ a.names
      · rw [show addName a n = .error (.duplicate n) by simp [addName, h]]
        simp only [reduceCtorEq, false_iff, not_and]
        intro hn
        rw [List.nodup_append] at hn
        exact absurd rfl (hn.2.2 n h n (by simp))
      · rw [addName_ok.2 ⟨h, rfl⟩]
        simp only [Acc.push, Except.ok.injEq, nodup_snoc ha h, true_and]
        exact eq_comm
    | .embedded (.mk n b d fs) false, a, a', ha => by
      unfold addField FieldD.expand
      simp only [Bool.false_eq_true, if_false, List.flatMap_cons, FieldD.names, StructD.name]
      by_cases h : n ∈ a.names
      · rw [show addName a n = .error (.duplicate n) by simp [addName, h]]
        simp only [reduceCtorEq, false_iff, not_and]
        intro hn
        rw [List.nodup_append] at hn
        exact absurd rfl (hn.2.2 n h n (by simp))
      · rw [addName_ok.2 ⟨h, rfl⟩]
        simp only [Acc.push]
        rw [addFields_ok fs _ _ (nodup_snoc ha h)]
        simp [List.append_assoc]
    | .void b, a, a', ha => by
      unfold addField FieldD.expand
      simp only [Acc.push, Except.ok.injEq, List.flatMap_cons, List.flatMap_nil, FieldD.names, List.append_nil, ha, true_and]
      exact eq_comm
    | .const n p b l os, a, a', ha => by
      unfold addField FieldD.expand
      simp only [List.flatMap_cons, List.flatMap_nil, FieldD.names, List.append_nil]
      by_cases h0 : n = []
      · simp only [h0, if_true, Acc.push, Except.ok.injEq, List.append_nil, ha, true_and]
        exact eq_comm
      · simp only [if_neg h0]
        by_cases h : n ∈ a.names
        · rw [show addName a n = .error (.duplicate n) by simp [addName, h]]
          simp only [reduceCtorEq, false_iff, not_and]
          intro hn
          rw [List.nodup_append] at hn
          exact absurd rfl (hn.2.2 n h n (by simp))
        · rw [addName_ok.2 ⟨h, rfl⟩]
          simp only [Acc.push, Except.ok.injEq, nodup_snoc ha h, true_and]
          exact eq_comm
  theorem addFields_ok : ∀ (fs : List FieldD) (a a' : Acc), a.names.Nodup →
      (addFields fs a = .ok a' ↔
        (a.names ++ (expandAll fs).flatMap FieldD.names).Nodup ∧
          a' = ⟨a.names ++ (expandAll fs).flatMap FieldD.names, a.fields ++ expandAll fs⟩)
    | [], a, a', ha => by
      simp only [addFields, expandAll, Except.ok.injEq, List.flatMap_nil, List.append_nil, ha, true_and]
      exact eq_comm
    | f :: r, a, a', ha => by
      unfold addFields expandAll
      simp only [List.flatMap_append]
      by_cases h : (a.names ++ f.expand.flatMap FieldD.names).Nodup
      · rw [(addField_ok f a _ ha).2 ⟨h, rfl⟩]
        simp only
        rw [addFields_ok r _ _ h]
        simp [List.append_assoc]
      · rcases k : addField f a with e | a2
        · simp only [reduceCtorEq, false_iff, not_and]
          intro hn
          rw [← List.append_assoc, List.nodup_append] at hn
          exact absurd hn.1 h
        · exact absurd ((addField_ok f a a2 ha).1 k).1 h
end

theorem visitStruct_ok {line col : Nat} {name : Str} {size : Option SizeA} {body : BodyA} {u u' : UnitD} {s : StructD} :
    visitStruct (.mk line col name size body) u = (.ok s, u') ↔
      ∃ u1 u2 u3 sz fs,
        visitStructName name u = (.ok name, u1) ∧
        addLocalName name ⟨⟨u1.path, line, col⟩, none⟩ u1 = (.ok (), u2) ∧
        visitOptSize size u2 = (.ok sz, u3) ∧
        VisitAll body u3 fs u' ∧
        ((expandAll fs).flatMap FieldD.names).Nodup ∧
        finishStruct name sz (expandAll fs) u' = (.ok s, u') := by
  unfold visitStruct
  simp only [bind_ok]
  constructor
  · rintro ⟨n, u1, h1, _, _, hg, ⟨⟩, u2, h2, sz, u3, h3, fields, u4, h4, h5⟩
    obtain ⟨rfl, rfl⟩ := getU_ok.1 hg
    obtain ⟨fs, a', k1, k2, rfl⟩ := (visitBody_ok _ _ _ _ _).1 h4
    obtain ⟨k3, rfl⟩ := (addFields_ok fs ⟨[], []⟩ _ (by simp)).1 k2
    have hn : n = name := by
      unfold visitStructName visitName at h1
      split at h1
      · exact absurd h1 (by simp [fail])
      · split at h1
        · obtain ⟨_, _, _, e⟩ := bind_ok.1 h1
          exact (pure_ok.1 e).1.symm
        · exact (pure_ok.1 h1).1.symm
    subst hn
    obtain ⟨_, _, _, _, _, e⟩ := finishStruct_ok.1 h5
    subst e
    exact ⟨u1, u2, u3, sz, fs, h1, h2, h3, k1, by simpa using k3, by simpa using h5⟩
  · rintro ⟨u1, u2, u3, sz, fs, h1, h2, h3, h4, h5, h6⟩
    refine ⟨name, u1, h1, u1, u1, getU_ok.2 ⟨rfl, rfl⟩, (), u2, h2, sz, u3, h3, expandAll fs, u', ?_, h6⟩
    exact (visitBody_ok _ _ _ _ _).2 ⟨fs, _, h4, (addFields_ok fs ⟨[], []⟩ _ (by simp)).2 ⟨by simpa using h5, rfl⟩, by simp⟩

end Bubbler.Comp
