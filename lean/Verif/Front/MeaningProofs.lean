import Verif.Front.Meaning
import Verif.Front.LitProofs
import Verif.Front.Source
import Verif.Props.MethodProps
import Verif.Compiler.ValRefs
import Verif.Compiler.Embed

/-
Proofs for C67: what the visitors make of the trees of a text.
-/
namespace Bubbler.Front
open Comp hiding Str

/-! ### Tokens of a text -/

def TokOk : Tok → Prop
  | .tk k => k.Valid
  | _ => True

/-- The tokens could be in a text. -/
def Valids (ts : List Tok) : Prop := ∀ t ∈ ts, TokOk t

theorem Valids.left {a b : List Tok} (h : Valids (a ++ b)) : Valids a := fun t ht => h t (List.mem_append_left _ ht)
theorem Valids.right {a b : List Tok} (h : Valids (a ++ b)) : Valids b := fun t ht => h t (List.mem_append_right _ ht)
theorem Valids.tail {a : Tok} {b : List Tok} (h : Valids (a :: b)) : Valids b := fun t ht => h t (List.mem_cons_of_mem _ ht)
theorem Valids.head {a : Tok} {b : List Tok} (h : Valids (a :: b)) : TokOk a := h a (List.mem_cons_self ..)

theorem mkTok_ok {x : Tk × At} (h : x.1.Valid) : TokOk (mkTok x) := by
  obtain ⟨k, a⟩ := x
  cases k with
  | kw w => cases w <;> trivial
  | ident s => trivial
  | _ => exact h

theorem read_valids {s : Str} {f : List Stmt} (h : read s = some f) : Valids (protoToks f) := by
  unfold read at h
  cases hl : lex s with
  | none => rw [hl] at h; exact nomatch h
  | some ts =>
    rw [hl] at h
    simp only at h
    obtain ⟨_, hp⟩ := (parse_iff _ _).1 h
    obtain ⟨items, t, _, _, hi, _, rfl⟩ := lexAt_reads (a := ⟨1, 0⟩) hl
    have hv := placed_valid (fun i h => (hi i h).2) ⟨1, 0⟩
    rw [hp]
    intro t ht
    obtain ⟨x, hx, rfl⟩ := List.mem_map.1 ht
    exact mkTok_ok (hv x hx)

theorem stmt_valids {f : List Stmt} (h : Valids (protoToks f)) {s : Stmt} (hs : s ∈ f) : Valids s.toks :=
  fun t ht => h t (List.mem_flatMap.2 ⟨s, hs, ht⟩)

/-! ### Literals, sizes, options -/

theorem readInt_means {t : Str} {n : Nat} (ht : IsInt t) (h : readInt (some t) = some n) : IntMeans t n ∧ n < 2 ^ 63 := by
  refine ⟨?_, readInt_lt h⟩
  obtain ⟨m, hm⟩ := intMeans_of ht
  simp only [readInt, parseNat_means hm, Option.bind_some] at h
  split at h
  · simp only [Option.some.injEq] at h
    subst h
    exact hm
  · exact nomatch h

theorem i64_neg {n : Nat} (h : n < 2 ^ 63) : i64 (-(n : Int)) = -(n : Int) := by
  unfold i64
  apply Int.bmod_eq_of_le <;> omega

theorem litOf_means {c : Const} {l : Lit} (hc : Valids c.toks) (h : litOf (toConst c) = some l) : ConstMeans c l := by
  cases c with
  | int sg t =>
    have ht : IsInt t := by
      have := hc.right
      exact this (.tk (.int t)) (by simp)
    simp only [toConst, litOf] at h
    obtain ⟨n, hn, he⟩ := Option.map_eq_some_iff.1 h
    obtain ⟨k1, k2⟩ := readInt_means ht hn
    rw [← he]
    have : (if (sg == some true) = true then i64 (-(n : Int)) else (n : Int)) = if sg = some true then -(n : Int) else n := by
      rw [i64_neg k2]
      simp only [beq_iff_eq]
    rw [this]
    exact .int k1 k2
  | float sg t =>
    simp only [toConst, litOf] at h
    split at h
    · simp only [Option.some.injEq] at h
      rw [← h]
      have : (sg == some true) = decide (sg = some true) := by
        cases sg with
        | none => rfl
        | some b => cases b <;> rfl
      rw [this]
      exact .float
    · exact nomatch h
  | str t =>
    have ht : IsStr t := hc (.tk (.str t)) (by simp [Const.toks])
    obtain ⟨q, b, hq, rfl, -⟩ := ht
    simp only [toConst, litOf] at h
    obtain ⟨v, hv, rfl⟩ := Option.map_eq_some_iff.1 h
    exact .str hq ((visitStr_iff hq b v).1 hv)
  | bool b =>
    simp only [toConst, litOf, Option.some.injEq] at h
    rw [← h]
    exact .bool

theorem annotSize_means {s : Size} {b : Int} (hs : Valids s.toks) (h : annotSize (some (toSize s)) = some b) : SizeMeans s b := by
  simp only [annotSize] at h
  obtain ⟨n, hn, h1⟩ := Option.bind_eq_some_iff.1 h
  obtain ⟨m, hm, h2⟩ := Option.bind_eq_some_iff.1 h1
  clear h h1
  split at h2
  · exact nomatch h2
  · rename_i hz
    have h := Option.some.inj h2
    clear h2
    rw [h] at hz
    cases s with
    | bytes t =>
      have ht : IsInt t := hs (.tk (.int t)) (by simp [Size.toks])
      simp only [toSize] at hn hm
      simp only [readInt, Option.some.injEq] at hm
      subst hm
      refine .bytes (readInt_means ht hn).1 ?_ hz
      rw [← h, i64]
      simp
    | both t w =>
      have ht : IsInt t := hs (.tk (.int t)) (by simp [Size.toks])
      have hw : IsInt w := hs (.tk (.int w)) (by simp [Size.toks])
      simp only [toSize] at hn hm
      refine .both (readInt_means ht hn).1 (readInt_means hw hm).1 ?_ hz
      rw [← h, i64]
    | bits w =>
      have hw : IsInt w := hs (.tk (.int w)) (by simp [Size.toks])
      simp only [toSize] at hn hm
      simp only [readInt, Option.some.injEq] at hn
      subst hn
      refine .bits (readInt_means hw hm).1 ?_ hz
      rw [← h, i64]
      simp

/-- An optional size: none is zero. -/
theorem optSize_means {s : Option Size} {b : Int} (hs : Valids (sizeToks s)) (h : annotSize (s.map toSize) = some b) :
    (s = none ∧ b = 0) ∨ ∃ x, s = some x ∧ SizeMeans x b := by
  cases s with
  | none =>
    simp only [Option.map_none, annotSize, Option.some.injEq] at h
    exact .inl ⟨rfl, h.symm⟩
  | some x => exact .inr ⟨x, rfl, annotSize_means hs h⟩

theorem SizeMeans.ne {s : Size} {b : Int} (h : SizeMeans s b) : b ≠ 0 := by
  cases h <;> assumption

theorem opts_valid {os : List Opt} (h : Valids (optsToks os)) : ∀ o ∈ os, Valids o.val.toks := by
  cases os with
  | nil => intro o ho; exact nomatch ho
  | cons x r =>
    intro o ho t ht
    apply h
    simp only [optsToks, List.mem_cons, List.mem_append]
    rcases List.mem_cons.1 ho with rfl | ho
    · exact .inr (.inl (by simp [Opt.toks, ht]))
    · exact .inr (.inr (.inl (List.mem_flatMap.2 ⟨o, ho, by simp [Opt.toks, ht]⟩)))

theorem opts_zip {os : List Opt} {lits : List Lit} (hv : ∀ o ∈ os, Valids o.val.toks)
    (h : (os.map toOpt).map (fun o => litOf o.val) = lits.map some) : OptsMean os (((os.map toOpt).map (·.name)).zip lits) := by
  induction os generalizing lits with
  | nil => exact .nil
  | cons o r ih =>
    cases lits with
    | nil => exact nomatch h
    | cons l ls =>
      simp only [List.map_cons, List.cons.injEq] at h
      exact .cons (litOf_means (hv o (by simp)) h.1) (ih (fun o ho => hv o (by simp [ho])) (by simpa using h.2))

theorem opts_means {os : List Opt} {u u' : UnitD} {r : List (Str × Lit)} (hv : Valids (optsToks os))
    (h : visitFieldOptions (os.map toOpt) [] u = (.ok r, u')) : OptsMean os r := by
  obtain ⟨lits, h1, h2, -⟩ := (visitFieldOptions_ok (by simp)).1 h
  rw [h2, List.nil_append]
  exact opts_zip (opts_valid hv) h1

/-! ### Widths and room -/

theorem width_is : ∀ t : CTy, WidthIs t t.bits
  | .basic p => .basic
  | .str => .str
  | .bytes => .bytes
  | .array e n => by
    have ih := width_is e
    unfold CTy.bits
    split
    · rename_i h
      exact .arrayVar ((dyn_iff e).1 h)
    · rename_i h
      rw [i64]
      exact .array (fun hv => h ((dyn_iff e).2 hv)) ih
  | .struct s => .struct
  | .enum e => .enum

theorem sumBits_room (fs : List FieldD) (acc : Int) : sumBits fs acc =
    if fs.all (fun f => decide (f.bits ≤ 0)) then acc else (acc + (fs.map fun f => (f.room : Int)).sum).bmod (2 ^ 64) := by
  induction fs generalizing acc with
  | nil => rfl
  | cons f r ih =>
    unfold sumBits
    rw [ih]
    simp only [List.all_cons, List.map_cons, List.sum_cons]
    by_cases h : f.bits > 0
    · have h1 : decide (f.bits ≤ 0) = false := by simpa using h
      have h2 : (f.room : Int) = f.bits := by unfold FieldD.room; omega
      rw [if_pos h, h1, h2]
      simp only [Bool.false_and, Bool.false_eq_true, if_false]
      split
      · rename_i hr
        have : (r.map fun f => (f.room : Int)).sum = 0 := by
          clear ih
          induction r with
          | nil => rfl
          | cons x r ih =>
            simp only [List.all_cons, Bool.and_eq_true, decide_eq_true_eq] at hr
            rw [List.map_cons, List.sum_cons, ih hr.2]
            unfold FieldD.room
            omega
        rw [this, i64, Int.add_zero]
      · rw [i64, Int.bmod_add_bmod, Int.add_assoc]
    · have h1 : decide (f.bits ≤ 0) = true := by simp; omega
      have h2 : (f.room : Int) = 0 := by unfold FieldD.room; omega
      rw [if_neg h, h1, h2]
      simp

theorem sumBits_is (fs : List FieldD) : sumBits fs 0 = roomOf fs := by
  rw [sumBits_room]
  unfold roomOf
  split
  · rename_i h
    have : (fs.map fun f => (f.room : Int)).sum = 0 := by
      induction fs with
      | nil => rfl
      | cons x r ih =>
        simp only [List.all_cons, Bool.and_eq_true, decide_eq_true_eq] at h
        rw [List.map_cons, List.sum_cons, ih h.2]
        unfold FieldD.room
        omega
    rw [this]
    rfl
  · rw [Int.zero_add]

/-! ### Methods -/

theorem firsts_snoc (l : List Str) (n : Str) : firsts (l ++ [n]) = if n ∈ firsts l then firsts l else firsts l ++ [n] := by
  unfold firsts
  rw [List.foldl_append]
  rfl

theorem mem_firsts {l : List Str} {n : Str} : n ∈ firsts l ↔ n ∈ l := by
  suffices h : ∀ (l a : List Str), n ∈ l.foldl (fun a n => if n ∈ a then a else a ++ [n]) a ↔ n ∈ a ∨ n ∈ l by
    rw [firsts, h]; simp
  intro l
  induction l with
  | nil => intro a; simp
  | cons x r ih =>
    intro a
    rw [List.foldl_cons, ih]
    split
    · rename_i hx
      constructor
      · rintro (h | h)
        · exact .inl h
        · exact .inr (List.mem_cons_of_mem _ h)
      · rintro (h | h)
        · exact .inl h
        · rcases List.mem_cons.1 h with rfl | h
          · exact .inl hx
          · exact .inr h
    · simp [or_assoc]

theorem meths_snoc {done : List Meth} {acc acc' : List (Str × List (Bool × Prim))} {m : Meth} {n : Str} (h : MethsMean done acc)
    (hn : m.name.map (·.text) = some n) (ha : addMethod acc m.set n m.ty = .ok acc') : MethsMean (done ++ [m]) acc' := by
  have hnames : (done ++ [m]).filterMap (fun m => m.name.map (·.text)) = done.filterMap (fun m => m.name.map (·.text)) ++ [n] := by
    rw [List.filterMap_append, List.filterMap_cons, hn]
    rfl
  have hnamed : ∀ x ∈ done ++ [m], x.name ≠ none := by
    intro x hx
    rcases List.mem_append.1 hx with hx | hx
    · exact h.named x hx
    · rw [List.mem_singleton.1 hx]
      intro e
      rw [e] at hn
      exact nomatch hn
  have hfilter : ∀ k, (done ++ [m]).filter (fun m => m.name.map (·.text) = some k) =
      done.filter (fun m => m.name.map (·.text) = some k) ++ if n = k then [m] else [] := by
    intro k
    rw [List.filter_append, List.filter_cons, hn, List.filter_nil]
    by_cases e : n = k
    · simp [e]
    · simp [e]
  unfold addMethod at ha
  cases hg : aget acc n with
  | some g =>
    rw [hg] at ha
    simp only at ha
    split at ha
    · exact nomatch ha
    · split at ha
      · exact nomatch ha
      · simp only [Except.ok.injEq] at ha
        subst ha
        refine ⟨hnamed, ?_, ?_⟩
        · rw [hnames, firsts_snoc, ← h.names]
          have : n ∈ acc.map (·.1) := List.mem_map.2 ⟨_, aget_mem hg, rfl⟩
          rw [if_pos this, List.map_map]
          refine List.map_congr_left fun e _ => ?_
          simp only [Function.comp_apply]
          split <;> rfl
        · intro e he
          obtain ⟨e0, h0, rfl⟩ := List.mem_map.1 he
          have k := h.groups e0 h0
          by_cases hx : e0.1 = n
          · rw [if_pos hx]
            simp only
            rw [hfilter, if_pos hx.symm, List.map_append, ← k]
            rfl
          · rw [if_neg hx, hfilter, if_neg (fun e => hx e.symm), List.append_nil]
            exact k
  | none =>
    rw [hg] at ha
    simp only [Except.ok.injEq] at ha
    subst ha
    have hnot : n ∉ acc.map (·.1) := by
      intro hx
      obtain ⟨e, he, hen⟩ := List.mem_map.1 hx
      unfold aget at hg
      have := List.find?_eq_none.1 (Option.map_eq_none_iff.1 hg) e he
      simp [hen] at this
    refine ⟨hnamed, ?_, ?_⟩
    · rw [hnames, firsts_snoc, ← h.names, if_neg hnot]
      simp
    · intro e he
      rcases List.mem_append.1 he with he | he
      · have hx : ¬ n = e.1 := fun hx => hnot (List.mem_map.2 ⟨e, he, hx.symm⟩)
        rw [hfilter, if_neg hx, List.append_nil]
        exact h.groups e he
      · rw [List.mem_singleton.1 he]
        simp only
        rw [hfilter, if_pos rfl]
        have : done.filter (fun m => m.name.map (·.text) = some n) = [] := by
          rw [List.filter_eq_nil_iff]
          intro x hx hxn
          apply hnot
          rw [h.names, mem_firsts]
          exact List.mem_filterMap.2 ⟨x, hx, by simpa using hxn⟩
        rw [this]
        rfl

theorem meths_means {ms done : List Meth} {acc gs : List (Str × List (Bool × Prim))} {u u' : UnitD} (h : MethsMean done acc)
    (hv : visitMethods (ms.map toMeth) acc [] u = (.ok gs, u')) : MethsMean (done ++ ms) gs := by
  induction ms generalizing done acc u with
  | nil =>
    simp only [List.map_nil] at hv
    unfold visitMethods at hv
    rw [if_pos rfl] at hv
    obtain ⟨rfl, rfl⟩ := pure_ok.mp hv
    rw [List.append_nil]
    exact h
  | cons m r ih =>
    rw [List.map_cons] at hv
    unfold visitMethods at hv
    split at hv
    · simp at hv
    · rename_i es u1 k
      have := visitMethods_errs hv
      simp only [List.nil_append] at this
      exact absurd this (honest_visitMethod _ _ _ _ k)
    · rename_i s n t u1 k
      obtain ⟨-, n', hn, -, -, hr, -⟩ := visitMethod_ok.mp k
      simp only [toMeth, Prod.mk.injEq] at hr
      obtain ⟨rfl, rfl, rfl⟩ := hr
      split at hv
      · simp at hv
      · rename_i acc' ha
        have := ih (meths_snoc h (by simpa [toMeth] using hn) ha) hv
        rwa [List.append_assoc] at this

/-! ### Definitions -/

section
variable {resolve : Str → Str → Option Str} {d : Str → Src}

/-- The name `n` in the text of `p` stands for the type `ty`. -/
def TypeHere (resolve : Str → Str → Option Str) (d : Str → Src) (p n : Str) (ty : CTy) : Prop :=
  (∃ q s x, Visible resolve d p q (.struct s) ∧ s.ident.text = n ∧ StructMeans resolve d q s x ∧ ty = .struct x) ∨
  ∃ q e x, Visible resolve d p q (.enum e) ∧ e.name.text = n ∧ EnumMeans resolve d q e x ∧ ty = .enum x

/-- The name `n` in the text of `p` stands for the number `v`. -/
def ValHere (resolve : Str → Str → Option Str) (d : Str → Src) (p n : Str) (v : Int) : Prop :=
  ∃ q e x, Visible resolve d p q (.enum e) ∧ EnumMeans resolve d q e x ∧ (n, v) ∈ x.values

/-- The fields of a struct know where they belong. -/
def FlatTy : CTy → Prop
  | .struct s => s.fields.map setBelongs = s.fields
  | _ => True

/-- The tables of `u` hold what the names in the text of `p` stand for. -/
structure Env (resolve : Str → Str → Option Str) (d : Str → Src) (p : Str) (u : UnitD) : Prop where
  types : ∀ e ∈ u.globalTypes, TypeHere resolve d p e.1 e.2.ty ∧ FlatTy e.2.ty
  vals : ∀ e ∈ u.globalNames, ∀ v, e.2.enumVal = some v → ValHere resolve d p e.1 v

theorem Env.step {p : Str} {u u' : UnitD} (h : Env resolve d p u) (s : Step u u') (v : ValStep u u') : Env resolve d p u' where
  types e he := h.types e (by rw [s.globalTypes] at he; exact he)
  vals e he x hx := by
    rcases v e he with he | he
    · exact h.vals e he x hx
    · rw [he] at hx; exact nomatch hx

theorem Env.visit {α : Type} {p : Str} {u u' : UnitD} {x : V α} {o : Out α} (h : Env resolve d p u) (s : Steps x) (v : Vals x)
    (e : x u = (o, u')) : Env resolve d p u' := h.step (s.ok e) (v.ok e)

theorem flat_expand {x : StructD} (h : x.fields.map setBelongs = x.fields) :
    (expandAll [.embedded x false]).map setBelongs = .embedded x true :: x.fields := by
  obtain ⟨n, b, dy, fs⟩ := x
  simp only [StructD.fields] at h ⊢
  have e : expandAll fs = fs := by rw [← h, expandAll_belongs]
  simp only [expandAll, FieldD.expand, Bool.false_eq_true, if_false, e, List.append_nil, List.map_cons, setBelongs, h]

/-- The literal of a constant -/
theorem val_means {p : Str} {u u' : UnitD} {c : Const ⊕ Id} {l : Lit} (hE : Env resolve d p u) (hv : Valids (valToks c))
    (h : visitConstVal (toVal c) u = (.ok l, u')) : ValMeans resolve d p c l := by
  cases c with
  | inl c =>
    simp only [toVal, visitConstVal] at h
    exact .lit (litOf_means hv (visitConstant_ok.1 h).1)
  | inr i =>
    simp only [toVal, visitConstVal] at h
    split at h
    · simp at h
    · rename_i nd hnd
      split at h
      · rename_i v hx
        simp only [Prod.mk.injEq, Out.ok.injEq] at h
        obtain ⟨rfl, -⟩ := h
        obtain ⟨q, e, x, h1, h2, h3⟩ := hE.vals _ (aget_mem hnd) v hx
        exact .name h1 h2 h3
      · simp at h

theorem norm_size {t : CTy} {sz : Option Size} {dd b : Int} {u : UnitD} (hv : Valids (sizeToks sz))
    (h1 : annotSize (sz.map toSize) = some dd) (h2 : normalSize t dd u = (.ok b, u)) : FieldSize sz (WidthIs t) b := by
  obtain ⟨-, h⟩ := normalSize_ok.1 h2
  rcases optSize_means hv h1 with ⟨e, rfl⟩ | ⟨x, rfl, hx⟩
  · rcases h with ⟨-, rfl⟩ | ⟨h, -⟩
    · exact .inl ⟨e, width_is t⟩
    · exact absurd rfl h
  · rcases h with ⟨rfl, -⟩ | ⟨-, rfl, -⟩
    · exact absurd rfl hx.ne
    · exact .inr ⟨x, rfl, hx⟩

theorem const_size {t : Prim} {sz : Option Size} {dd b : Int} {u : UnitD} (hv : Valids (sizeToks sz))
    (h1 : annotSize (sz.map toSize) = some dd) (h2 : constSize t dd u = (.ok b, u)) : FieldSize sz (· = (t.width : Int)) b := by
  obtain ⟨-, h⟩ := constSize_ok.1 h2
  rcases optSize_means hv h1 with ⟨e, rfl⟩ | ⟨x, rfl, hx⟩
  · rcases h with ⟨-, rfl⟩ | ⟨h, -⟩
    · exact .inl ⟨e, rfl⟩
    · exact absurd rfl h
  · rcases h with ⟨rfl, -⟩ | ⟨-, rfl, -⟩
    · exact absurd rfl hx.ne
    · exact .inr ⟨x, rfl, hx⟩

theorem optName_ok {n : Option Id} {m : Str} {u u' : UnitD} (h : visitOptName visitFieldName (n.map (·.text)) u = (.ok m, u')) :
    m = (n.map (·.text)).getD [] := by
  cases n with
  | none =>
    obtain ⟨rfl, -⟩ := pure_ok.1 h
    rfl
  | some i =>
    obtain ⟨-, rfl, -⟩ := visitName_ok.1 h
    rfl

mutual
  theorem elem_means {p : Str} : ∀ (e : Elem) (u u' : UnitD) (t : CTy), Env resolve d p u → Valids e.toks →
      visitElem (toElem e) u = (.ok t, u') → ElemMeans resolve d p e t ∧ FlatTy t
    | .basic b, u, u', t, hE, hV, h => by
      simp only [toElem] at h
      unfold visitElem at h
      obtain ⟨rfl, -⟩ := pure_ok.1 h
      exact ⟨.basic, trivial⟩
    | .str, u, u', t, hE, hV, h => by
      simp only [toElem] at h
      unfold visitElem at h
      obtain ⟨rfl, -⟩ := pure_ok.1 h
      exact ⟨.str, trivial⟩
    | .bytes, u, u', t, hE, hV, h => by
      simp only [toElem] at h
      unfold visitElem at h
      obtain ⟨rfl, -⟩ := pure_ok.1 h
      exact ⟨.bytes, trivial⟩
    | .structName a n, u, u', t, hE, hV, h => by
      simp only [toElem] at h
      unfold visitElem at h
      obtain ⟨td, x, h1, h2, rfl⟩ := lookupStruct_ok h
      obtain ⟨k1, k2⟩ := hE.types _ (aget_mem h1)
      simp only [h2] at k1 k2
      refine ⟨?_, k2⟩
      rcases k1 with ⟨q, s, y, v1, v2, v3, v4⟩ | ⟨q, s, y, v1, v2, v3, v4⟩
      · cases v4
        exact .structName v1 v2 v3
      · cases v4
    | .structDef sd, u, u', t, hE, hV, h => by
      have ih := fun u u' x => struct_means (p := p) sd u u' x
      simp only [toElem] at h
      unfold visitElem at h
      obtain ⟨x, u1, h1, h2⟩ := bind_ok.1 h
      obtain ⟨rfl, -⟩ := pure_ok.1 h2
      obtain ⟨k1, k2⟩ := ih u u1 x hE (by simpa only [Elem.toks] using hV) h1
      exact ⟨.structDef k1, k2⟩
    | .enumName a n, u, u', t, hE, hV, h => by
      simp only [toElem] at h
      unfold visitElem at h
      obtain ⟨td, x, h1, h2, rfl⟩ := lookupEnum_ok h
      obtain ⟨k1, k2⟩ := hE.types _ (aget_mem h1)
      simp only [h2] at k1 k2
      refine ⟨?_, k2⟩
      rcases k1 with ⟨q, s, y, v1, v2, v3, v4⟩ | ⟨q, s, y, v1, v2, v3, v4⟩
      · cases v4
      · cases v4
        exact .enumName v1 v2 v3
    | .ident n, u, u', t, hE, hV, h => by
      simp only [toElem] at h
      unfold visitElem at h
      obtain ⟨-, td, h1, rfl⟩ := lookupType_ok.1 h
      obtain ⟨k1, k2⟩ := hE.types _ (aget_mem h1)
      refine ⟨?_, k2⟩
      rcases k1 with ⟨q, s, y, v1, v2, v3, v4⟩ | ⟨q, s, y, v1, v2, v3, v4⟩
      · rw [v4]; exact .identStruct v1 v2 v3
      · rw [v4]; exact .identEnum v1 v2 v3
  theorem ty_means {p : Str} : ∀ (e : Ty) (u u' : UnitD) (t : CTy), Env resolve d p u → Valids e.toks →
      visitType (toTy e) u = (.ok t, u') → TyMeans resolve d p e t ∧ FlatTy t
    | .elem e, u, u', t, hE, hV, h => by
      have ih := elem_means (p := p) e u u' t hE (by simpa only [Ty.toks] using hV)
      simp only [toTy] at h
      unfold visitType at h
      obtain ⟨k1, k2⟩ := ih h
      exact ⟨.elem k1, k2⟩
    | .array e len, u, u', t, hE, hV, h => by
      simp only [Ty.toks] at hV
      have ih := fun u' t => elem_means (p := p) e u u' t hE hV.left
      simp only [toTy] at h
      unfold visitType at h
      obtain ⟨x, u1, h1, h2⟩ := bind_ok.1 h
      obtain ⟨l, u2, h3, h4⟩ := bind_ok.1 h2
      obtain ⟨n, hn, rfl, -⟩ := visitIntLit_ok.1 h3
      have hl : IsInt len := hV.right (.tk (.int len)) (by simp)
      obtain ⟨m1, m2⟩ := readInt_means hl hn
      split at h4
      · exact absurd h4 (by simp [fail])
      · rename_i hz
        obtain ⟨rfl, -⟩ := pure_ok.1 h4
        exact ⟨.array (ih u1 x h1).1 m1 (by omega) m2, trivial⟩
  theorem struct_means {p : Str} : ∀ (s : Struct) (u u' : UnitD) (x : StructD), Env resolve d p u → Valids s.toks →
      visitStruct (toStruct s) u = (.ok x, u') → StructMeans resolve d p s x ∧ FlatTy (.struct x)
    | .mk a i sz b, u, u', x, hE, hV, h => by
      simp only [Struct.toks] at hV
      have hVs := hV.tail.tail.left
      have hVb := hV.tail.tail.right.tail.left
      have ih := fun u u' fs hE => body_means (p := p) b u u' fs hE hVb
      simp only [toStruct] at h
      obtain ⟨u1, u2, u3, z, fs, h1, h2, h3, h4, h5, h6⟩ := visitStruct_ok.1 h
      have e1 := hE.visit (steps_visitName _ _ _) (vals_visitName _ _ _) h1
      have e2 : Env resolve d p u2 := by
        have s2 := step_addLocalName u1 i.text ⟨⟨u1.path, a.line, a.col⟩, none⟩ rfl
        have v2 := val_addLocalName u1 i.text ⟨⟨u1.path, a.line, a.col⟩, none⟩ rfl
        rw [h2] at s2 v2
        exact e1.step s2 v2
      have e3 := e2.visit (steps_visitOptSize _) (vals_visitOptSize _) h3
      have kb := ih u3 u' fs e3 h4
      obtain ⟨hz, -⟩ := visitOptSize_ok.1 h3
      obtain ⟨-, -, -, f4, rfl, -⟩ := finishStruct_ok.1 h6
      rw [sumBits_is] at f4 ⊢
      refine ⟨.mk kb ?_ (anyDyn_iff _), ?_⟩
      · rcases optSize_means hVs hz with ⟨e, rfl⟩ | ⟨y, rfl, hy⟩
        · exact .inl ⟨e, rfl⟩
        · rcases f4 with rfl | ⟨-, f4⟩
          · exact absurd rfl hy.ne
          · rw [f4]; exact .inr ⟨y, rfl, hy⟩
      · exact setBelongs_idem _
  theorem body_means {p : Str} : ∀ (b : Body) (u u' : UnitD) (fs : List FieldD), Env resolve d p u → Valids b.toks →
      VisitAll (toBody b) u fs u' → BodyMeans resolve d p b ((expandAll fs).map setBelongs)
    | .nil, u, u', fs, hE, hV, h => by
      simp only [toBody, VisitAll] at h
      obtain ⟨rfl, -⟩ := h
      simp only [expandAll, List.map_nil]
      exact .nil
    | .cons f r, u, u', fs, hE, hV, h => by
      simp only [Body.toks] at hV
      have ih1 := fun u' o => field_means (p := p) f u u' o hE hV.left
      have ih2 := fun u u' fs hE => body_means (p := p) r u u' fs hE hV.right
      simp only [toBody, VisitAll] at h
      obtain ⟨o, u1, h1, fs', rfl, h2⟩ := h
      have e1 := hE.visit (steps_visitField _) (vals_visitField _) h1
      rw [expandAll_append, List.map_append]
      exact .cons (ih1 u1 o h1) (ih2 u1 u' fs' e1 h2)
  theorem field_means {p : Str} : ∀ (f : Field) (u u' : UnitD) (o : Option FieldD), Env resolve d p u → Valids f.toks →
      visitField (toField f) u = (.ok o, u') → FieldMeans resolve d p f ((expandAll o.toList).map setBelongs)
    | .empty, u, u', o, hE, hV, h => by
      simp only [toField] at h
      unfold visitField at h
      obtain ⟨rfl, -⟩ := pure_ok.1 h
      simp only [Option.toList_none, expandAll, List.map_nil]
      exact .empty
    | .void sz os, u, u', o, hE, hV, h => by
      simp only [Field.toks] at hV
      simp only [toField] at h
      obtain ⟨b, os', h1, h2, rfl⟩ := visitField_void.1 h
      simp only [Option.toList_some, expandAll, FieldD.expand, List.append_nil, List.map_cons, List.map_nil, setBelongs]
      exact .void (annotSize_means hV.tail.left h1)
    | .const t n sz v os, u, u', o, hE, hV, h => by
      simp only [Field.toks] at hV
      simp only [toField] at h
      obtain ⟨m, z, b, l, os', u1, h1, h2, h3, h4, h5, h6, rfl⟩ := visitField_const.1 h
      have e1 := hE.visit (steps_visitOptName _ _ fun _ => steps_visitName _ _ _) (vals_visitOptName _ _ fun _ => vals_visitName _ _ _) h1
      simp only [Option.toList_some, expandAll, FieldD.expand, List.append_nil, List.map_cons, List.map_nil, setBelongs]
      rw [optName_ok h1]
      have hVs := hV.tail.right.left
      have hVv := hV.tail.right.right.tail.left
      have hVo := hV.tail.right.right.tail.right.left
      exact .const (const_size hVs h2 h3) (val_means e1 hVv h4) (opts_means hVo h6)
    | .embedded t os, u, u', o, hE, hV, h => by
      simp only [Field.toks] at hV
      have ih := fun u' x => ty_means (p := p) t u u' x hE hV.left
      simp only [toField] at h
      obtain ⟨x, u1, os', h1, h2, rfl⟩ := visitField_embedded.1 h
      obtain ⟨k1, k2⟩ := ih u1 _ h1
      simp only [Option.toList_some]
      rw [flat_expand k2]
      exact .embedded k1
    | .normal t n sz os ms, u, u', o, hE, hV, h => by
      simp only [Field.toks] at hV
      have ih := fun u' x => ty_means (p := p) t u u' x hE hV.left
      have hVs := hV.right.tail.left
      have hVo := hV.right.tail.right.left
      simp only [toField] at h
      obtain ⟨ty, u1, f, h1, h2, rfl⟩ := visitField_normal.1 h
      obtain ⟨k1, -⟩ := ih u1 _ h1
      obtain ⟨z, b, os', ms', u2, -, g1, g2, g3, g4, rfl⟩ := visitNormalRest_ok.1 h2
      simp only [Option.toList_some, expandAll, FieldD.expand, List.append_nil, List.map_cons, List.map_nil, setBelongs]
      rcases g4 with ⟨e, rfl, -⟩ | ⟨l, pr, e, rfl, g4⟩
      · rw [Option.map_eq_none_iff] at e
        subst e
        exact .normal k1 (norm_size hVs g1 g2) (opts_means hVo g3)
      · obtain ⟨l0, rfl, rfl⟩ := Option.map_eq_some_iff.1 e
        exact .methods k1 (norm_size hVs g1 g2) (opts_means hVo g3) (meths_means (done := []) (acc := []) ⟨by simp, rfl, by simp⟩ g4)
end

/-! ### Enums -/

theorem written_means {p : Str} {u : UnitD} (hE : Env resolve d p u) {v : Option (Const ⊕ Id)} {w : Int}
    (hV : ∀ c, v = some c → Valids (valToks c)) (h : writtenNum u.globalNames (v.map toVal) = some w) :
    (v = none ∧ w = -1) ∨ ∃ c, v = some c ∧ ValMeans resolve d p c (.int w) := by
  cases v with
  | none =>
    simp only [Option.map_none, writtenNum, Option.some.injEq] at h
    exact .inl ⟨rfl, h.symm⟩
  | some c =>
    refine .inr ⟨c, rfl, ?_⟩
    cases c with
    | inl c =>
      simp only [Option.map_some, toVal, writtenNum] at h
      obtain ⟨l, hl, h2⟩ := Option.bind_eq_some_iff.1 h
      cases l with
      | int x =>
        simp only [Option.some.injEq] at h2
        subst h2
        exact .lit (litOf_means (hV _ rfl) hl)
      | _ => exact nomatch h2
    | inr i =>
      simp only [Option.map_some, toVal, writtenNum] at h
      obtain ⟨nd, h1, h2⟩ := Option.bind_eq_some_iff.1 h
      obtain ⟨q, e, x, k1, k2, k3⟩ := hE.vals _ (aget_mem h1) w h2
      exact .name k1 k2 k3

theorem numbers_cons (prev : List Int) (w : Int) (ws : List Int) :
    numbers prev (w :: ws) = numbers (prev ++ [if w = -1 then nextNum prev.getLast? else w]) ws := by
  rw [numbers]
  cases prev.getLast? with
  | none => rfl
  | some x => simp only [nextNum, i64]

theorem nums_means {p : Str} {u : UnitD} (hE : Env resolve d p u) : ∀ (body : List EnumElem) (prev ws : List Int),
    Valids (body.flatMap EnumElem.toks) →
    (enumElems (body.map toEnumElem)).map (fun x => writtenNum u.globalNames x.2) = ws.map some →
    ∃ vs : List (Str × Int), vs.map (·.1) = (enumElems (body.map toEnumElem)).map (·.1) ∧ numbers prev ws = prev ++ vs.map (·.2) ∧
      NumsMean resolve d p prev.getLast? body vs
  | [], prev, ws, hV, h => by
    cases ws with
    | nil => exact ⟨[], rfl, by simp [numbers], .nil⟩
    | cons w r => simp [enumElems] at h
  | .empty :: r, prev, ws, hV, h => by
    have hV' : Valids (r.flatMap EnumElem.toks) := by
      rw [List.flatMap_cons] at hV
      exact hV.right
    obtain ⟨vs, h1, h2, h3⟩ := nums_means hE r prev ws hV' h
    exact ⟨vs, h1, h2, .empty h3⟩
  | .value n v os c :: r, prev, ws, hV, h => by
    have hV' : Valids (r.flatMap EnumElem.toks) := by
      rw [List.flatMap_cons] at hV
      exact hV.right
    have hVc : ∀ c, v = some c → Valids (valToks c) := by
      rintro c rfl
      rw [List.flatMap_cons] at hV
      have := hV.left
      simp only [EnumElem.toks] at this
      exact this.tail.left.tail
    have he : enumElems ((EnumElem.value n v os c :: r).map toEnumElem) = (n.text, v.map toVal) :: enumElems (r.map toEnumElem) := rfl
    rw [he] at h ⊢
    cases ws with
    | nil => exact nomatch h
    | cons w ws =>
      simp only [List.map_cons, List.cons.injEq] at h
      have hw := written_means hE hVc h.1
      by_cases hm : w = -1
      · obtain ⟨vs, h1, h2, h3⟩ := nums_means hE r (prev ++ [nextNum prev.getLast?]) ws hV' h.2
        rw [List.getLast?_concat] at h3
        refine ⟨(n.text, nextNum prev.getLast?) :: vs, by simp [h1], ?_, ?_⟩
        · rw [numbers_cons, if_pos hm, h2]
          simp
        · rcases hw with ⟨rfl, -⟩ | ⟨x, rfl, hx⟩
          · exact .next h3
          · rw [hm] at hx
            exact .minusOne hx h3
      · obtain ⟨vs, h1, h2, h3⟩ := nums_means hE r (prev ++ [w]) ws hV' h.2
        rw [List.getLast?_concat] at h3
        refine ⟨(n.text, w) :: vs, by simp [h1], ?_, ?_⟩
        · rw [numbers_cons, if_neg hm, h2]
          simp
        · rcases hw with ⟨-, e⟩ | ⟨x, rfl, hx⟩
          · exact absurd e hm
          · exact .given hx hm h3

theorem pairs_ext {a b : List (Str × Int)} (h1 : a.map (·.1) = b.map (·.1)) (h2 : a.map (·.2) = b.map (·.2)) : a = b := by
  induction a generalizing b with
  | nil =>
    cases b with
    | nil => rfl
    | cons y r => exact nomatch h1
  | cons x r ih =>
    cases b with
    | nil => exact nomatch h1
    | cons y r' =>
      simp only [List.map_cons, List.cons.injEq] at h1 h2
      rw [ih h1.2 h2.2, Prod.ext h1.1 h2.1]

theorem enum_means {p : Str} {u u' : UnitD} {e : Enum} {x : EnumD} (hE : Env resolve d p u) (hV : Valids e.toks)
    (h : visitEnum (toEnum e) u = (.ok x, u')) : EnumMeans resolve d p e x := by
  obtain ⟨h1, -, h3, -, h5, -, -, ws, h8, h9⟩ := visitEnum_ok h
  obtain ⟨a, n, sz, body⟩ := e
  simp only [Enum.toks] at hV
  obtain ⟨vs, k1, k2, k3⟩ := nums_means hE body [] ws hV.tail.tail.right.tail.left h8
  simp only [List.nil_append] at k2
  have : x.values = vs := pairs_ext (by rw [h5, k1]; rfl) (by rw [h9, k2])
  obtain ⟨xn, xb, xv⟩ := x
  simp only at h1 this h3
  subst this
  rw [h1]
  exact .mk (annotSize_means hV.tail.tail.left h3) k3

theorem addEnumNames_vals (vs : List (Pos × Str × Int)) (errs : List CErr) (u u' : UnitD) (x : Unit)
    (h : addEnumNames vs errs u = (.ok x, u')) :
    ∀ e ∈ u'.globalNames, e ∈ u.globalNames ∨ ∃ a ∈ vs, e.1 = a.2.1 ∧ e.2.enumVal = some a.2.2 := by
  induction vs generalizing errs u with
  | nil =>
    unfold addEnumNames at h
    split at h
    · obtain ⟨-, rfl⟩ := pure_ok.1 h
      exact fun e he => .inl he
    · cases h
  | cons a r ih =>
    obtain ⟨p, n, v⟩ := a
    unfold addEnumNames at h
    rcases k : addLocalName n ⟨p, some v⟩ u with ⟨o, u1⟩
    rw [k] at h
    have h1 : ∀ e ∈ u1.globalNames, e ∈ u.globalNames ∨ e = (n, ⟨p, some v⟩) := by
      intro e he
      unfold addLocalName UnitD.addLocalName at k
      cases hc : u.conflicts n p <;> simp only [hc, Bool.false_eq_true, if_true, if_false, Prod.mk.injEq] at k
      · obtain ⟨-, rfl⟩ := k
        rcases aput_mem he with he | ⟨rfl, -⟩
        · exact .inl he
        · exact .inr rfl
      · obtain ⟨-, rfl⟩ := k
        exact .inl he
    have key : ∀ errs', addEnumNames r errs' u1 = (.ok x, u') → ∀ e ∈ u'.globalNames, e ∈ u.globalNames ∨
        ∃ a ∈ (p, n, v) :: r, e.1 = a.2.1 ∧ e.2.enumVal = some a.2.2 := by
      intro errs' h' e he
      rcases ih _ _ h' e he with he | ⟨a, ha, k⟩
      · rcases h1 e he with he | rfl
        · exact .inl he
        · exact .inr ⟨_, List.mem_cons_self .., rfl, rfl⟩
      · exact .inr ⟨a, List.mem_cons_of_mem _ ha, k⟩
    cases o with
    | panic => cases h
    | err es => exact key _ h
    | ok a => exact key _ h

/-- The names an enum adds -/
theorem visitEnum_vals {e : EnumA} {u u' : UnitD} {x : EnumD} (h2 : visitEnum e u = (.ok x, u')) :
    ∀ y ∈ u'.globalNames, y ∈ u.globalNames ∨ ∀ v, y.2.enumVal = some v → (y.1, v) ∈ x.values := by
  unfold visitEnum at h2
  obtain ⟨n, v1, k1, h3⟩ := bind_ok.1 h2
  obtain ⟨_, _, hg, h4⟩ := bind_ok.1 h3
  obtain ⟨rfl, rfl⟩ := getU_ok.1 hg
  obtain ⟨_, v2, k2, h5⟩ := bind_ok.1 h4
  obtain ⟨sz, v3, k3, h6⟩ := bind_ok.1 h5
  obtain ⟨vs, v4, k4, h7⟩ := bind_ok.1 h6
  obtain ⟨-, e2, -⟩ := visitEnumBody_ok _ _ _ _ _ _ k4 (by simp)
  split at h7
  · exact absurd h7 (by simp [fail])
  · obtain ⟨_, v5, k5, h8⟩ := bind_ok.1 h7
    obtain ⟨rfl, rfl⟩ := pure_ok.1 h8
    intro y hy
    rcases addEnumNames_vals _ _ _ _ _ k5 y hy with hy | ⟨a, ha, j1, j2⟩
    · rw [e2] at hy
      have s1 := (vals_visitName _ _ _).ok k1
      have s2 : ValStep v1 v2 := by
        have := val_addLocalName v1 n ⟨⟨v1.path, e.line, e.col⟩, none⟩ rfl
        rw [k2] at this
        exact this
      rcases ((s1.trans s2).trans ((vals_visitSizeA _).ok k3)) y hy with hy | hy
      · exact .inl hy
      · right
        intro v hv
        rw [hy] at hv
        exact nomatch hv
    · right
      intro v hv
      rw [j2] at hv
      cases hv
      refine List.mem_map.2 ⟨a, ha, ?_⟩
      rw [j1]

end
end Bubbler.Front
