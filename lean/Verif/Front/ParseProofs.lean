import Verif.Front.ExprProofs

/-
The parser reads exactly the tokens of the trees it returns.
-/
namespace Bubbler.Front
open Ex (BinTk UnTk)

/-! ### Lists -/

theorem many_sound {α : Type} {p : List Tok → Option (α × List Tok)} {stop : Tok} {tk : α → List Tok} {P : α → Prop}
    (hp : ∀ ts x r, p ts = some (x, r) → ts = tk x ++ r ∧ P x) :
    ∀ n ts xs r, many p stop n ts = some (xs, r) → ts = xs.flatMap tk ++ stop :: r ∧ ∀ x ∈ xs, P x
  | 0, _, _, _, h => by simp [many] at h
  | n + 1, [], _, _, h => by simp [many] at h
  | n + 1, t :: l, xs, r, h => by
    rw [many] at h
    split at h
    · rename_i ht
      simp only [Option.some.injEq, Prod.mk.injEq] at h
      obtain ⟨rfl, rfl⟩ := h
      exact ⟨by rw [ht]; rfl, fun x hx => by cases hx⟩
    · split at h
      · cases h
      · rename_i x r' hx
        split at h
        · cases h
        · rename_i ys r'' hy
          simp only [Option.some.injEq, Prod.mk.injEq] at h
          obtain ⟨rfl, rfl⟩ := h
          obtain ⟨h1, h2⟩ := hp _ _ _ hx
          obtain ⟨h3, h4⟩ := many_sound hp n _ _ _ hy
          refine ⟨by rw [h1, h3]; simp, fun y hy => ?_⟩
          rcases List.mem_cons.mp hy with rfl | hy
          · exact h2
          · exact h4 y hy

theorem many_toks {α : Type} {p : List Tok → Option (α × List Tok)} {stop : Tok} {tk : α → List Tok} :
    ∀ (xs : List α) (n : Nat) (r : List Tok), (∀ x ∈ xs, ∀ r, p (tk x ++ r) = some (x, r)) →
    (∀ x ∈ xs, ∃ t l, tk x = t :: l ∧ t ≠ stop) → xs.length < n →
    many p stop n (xs.flatMap tk ++ stop :: r) = some (xs, r)
  | [], n, r, _, _, hn => by
    obtain ⟨k, rfl⟩ : ∃ k, n = k + 1 := ⟨n - 1, by simp at hn; omega⟩
    simp [many]
  | x :: xs, n, r, hp, hh, hn => by
    obtain ⟨k, rfl⟩ : ∃ k, n = k + 1 := ⟨n - 1, by simp at hn; omega⟩
    obtain ⟨t, l, hx, ht⟩ := hh x (List.mem_cons_self ..)
    have ih := many_toks xs k r (fun y hy => hp y (List.mem_cons_of_mem _ hy))
      (fun y hy => hh y (List.mem_cons_of_mem _ hy)) (by simp at hn; omega)
    have h1 := hp x (List.mem_cons_self ..) (xs.flatMap tk ++ stop :: r)
    have e : (x :: xs).flatMap tk ++ stop :: r = t :: (l ++ (xs.flatMap tk ++ stop :: r)) := by
      simp [List.flatMap_cons, hx]
    rw [hx, List.cons_append] at h1
    rw [e, many, if_neg ht, h1]
    simp only [ih]

/-- Every item of the list has at least one token. -/
theorem length_le_flatMap {α : Type} {tk : α → List Tok} : ∀ (xs : List α), (∀ x ∈ xs, ∃ t l, tk x = t :: l) →
    xs.length ≤ (xs.flatMap tk).length
  | [], _ => by simp
  | x :: xs, h => by
    obtain ⟨t, l, hx⟩ := h x (List.mem_cons_self ..)
    have := length_le_flatMap xs fun y hy => h y (List.mem_cons_of_mem _ hy)
    rw [List.flatMap_cons, List.length_append, hx]
    simp only [List.length_cons]
    omega

/-! ### Small pieces -/

theorem sizeP_sound {ts r : List Tok} {s : Size} (h : sizeP ts = some (s, r)) : ts = s.toks ++ r := by
  unfold sizeP at h
  split at h <;> simp only [Option.some.injEq, Prod.mk.injEq, reduceCtorEq] at h <;> obtain ⟨rfl, rfl⟩ := h <;> rfl

theorem sizeP_toks (s : Size) (r : List Tok) : sizeP (s.toks ++ r) = some (s, r) := by cases s <;> rfl

theorem sizeQ_sound (ts : List Tok) : ts = sizeToks (sizeQ ts).1 ++ (sizeQ ts).2 := by
  unfold sizeQ
  split
  · rename_i s r h
    exact sizeP_sound h
  · rfl

theorem sizeQ_toks (s : Option Size) {r : List Tok} (h : sizeP r = none) : sizeQ (sizeToks s ++ r) = (s, r) := by
  cases s with
  | none => simp only [sizeToks, List.nil_append, sizeQ, h]
  | some s => simp only [sizeToks, sizeQ, sizeP_toks]

theorem idQ_sound (ts : List Tok) : ts = idToks (idQ ts).1 ++ (idQ ts).2 := by
  unfold idQ
  split <;> rfl

theorem idQ_toks (i : Option Id) {r : List Tok} (h : ∀ a s l, r ≠ .ident a s :: l) : idQ (idToks i ++ r) = (i, r) := by
  cases i with
  | none =>
    simp only [idToks, List.nil_append]
    unfold idQ
    split
    · rename_i a s l
      exact absurd rfl (h a s l)
    · rfl
  | some i => rfl

theorem optP_sound {ts r : List Tok} {o : Opt} (h : optP ts = some (o, r)) : ts = o.toks ++ r := by
  unfold optP at h
  split at h
  · split at h
    · rename_i c r' hc
      simp only [Option.some.injEq, Prod.mk.injEq] at h
      obtain ⟨rfl, rfl⟩ := h
      rw [constP_sound hc]; rfl
    · cases h
  · cases h

theorem optP_toks (o : Opt) (r : List Tok) : optP (o.toks ++ r) = some (o, r) := by
  simp only [Opt.toks, Id.tok, List.cons_append, optP, constP_toks]

theorem optTailP_sound {ts r : List Tok} {o : Opt} (h : optTailP ts = some (o, r)) :
    ts = (symT .COMMA :: o.toks) ++ r := by
  unfold optTailP at h
  split at h
  · rw [optP_sound h]; rfl
  · cases h

theorem optsQ_sound {ts r : List Tok} {os : List Opt} (h : optsQ ts = some (os, r)) : ts = optsToks os ++ r := by
  unfold optsQ at h
  split at h
  · split at h
    · cases h
    · rename_i o r' ho
      split at h
      · cases h
      · rename_i os' r'' hos
        simp only [Option.some.injEq, Prod.mk.injEq] at h
        obtain ⟨rfl, rfl⟩ := h
        have := (many_sound (tk := fun o => symT .COMMA :: Opt.toks o) (P := fun _ => True)
          (fun ts x r h => ⟨optTailP_sound h, trivial⟩) _ _ _ _ hos).1
        rw [optP_sound ho, this]
        simp [optsToks]
  · simp only [Option.some.injEq, Prod.mk.injEq] at h
    obtain ⟨rfl, rfl⟩ := h
    rfl

theorem optsQ_toks (os : List Opt) {r : List Tok} (h : ∀ l, r ≠ symT .LB :: l) :
    optsQ (optsToks os ++ r) = some (os, r) := by
  cases os with
  | nil =>
    simp only [optsToks, List.nil_append]
    unfold optsQ
    split
    · rename_i l
      exact absurd rfl (h l)
    · rfl
  | cons o os =>
    have e : optsToks (o :: os) ++ r =
        symT .LB :: (o.toks ++ ((os.flatMap fun o => symT .COMMA :: o.toks) ++ symT .RB :: r)) := by
      simp [optsToks]
    have hl := length_le_flatMap (tk := fun o => symT .COMMA :: Opt.toks o) os fun x _ => ⟨_, _, rfl⟩
    have := many_toks (p := optTailP) (stop := symT .RB) (tk := fun o => symT .COMMA :: Opt.toks o) os
      ((os.flatMap fun o => symT .COMMA :: o.toks) ++ symT .RB :: r).length r (fun x _ r => optP_toks x r)
      (fun x _ => ⟨_, _, rfl, by decide⟩) (by simp only [List.length_append, List.length_cons]; omega)
    rw [e]
    unfold optsQ
    simp only [optP_toks, this]

theorem valP_sound {ts r : List Tok} {v : Const ⊕ Id} (h : valP ts = some (v, r)) : ts = valToks v ++ r := by
  unfold valP at h
  split at h
  · simp only [Option.some.injEq, Prod.mk.injEq] at h
    obtain ⟨rfl, rfl⟩ := h
    rfl
  · split at h
    · rename_i c r' hc
      simp only [Option.some.injEq, Prod.mk.injEq] at h
      obtain ⟨rfl, rfl⟩ := h
      exact constP_sound hc
    · cases h

theorem constP_ident (a : At) (s : Str) (r : List Tok) : constP (.ident a s :: r) = none := rfl

theorem valP_toks (v : Const ⊕ Id) (r : List Tok) : valP (valToks v ++ r) = some (v, r) := by
  cases v with
  | inr i => rfl
  | inl c =>
    simp only [valToks]
    unfold valP
    split
    · rename_i a s l h
      have := constP_toks c r
      rw [h, constP_ident] at this
      cases this
    · rw [constP_toks]

/-! ### Methods -/

theorem methP_sound {ts r : List Tok} {m : Meth} (h : methP ts = some (m, r)) : ts = m.toks ++ r ∧ m.WF := by
  unfold methP at h
  split at h
  · rename_i k l
    split at h
    · rename_i hk
      split at h
      · rename_i p r' hc
        split at h
        · rename_i e r'' he
          simp only [Option.some.injEq, Prod.mk.injEq] at h
          obtain ⟨rfl, rfl⟩ := h
          obtain ⟨h1, h2, -⟩ := (expr_sound _).2.1 0 _ _ _ (by decide) he
          refine ⟨?_, h2⟩
          have h3 := castHead_sound hc
          have h4 := idQ_sound l
          rw [h3, h1] at h4
          have h5 : k = if decide (k = .SET) = true then .SET else .GET := by
            rcases hk with rfl | rfl <;> rfl
          rw [h4]
          simp only [Meth.toks, ← h5, List.cons_append, List.append_assoc, List.nil_append]
          simp only [← h4]
        · cases h
      · cases h
    · cases h
  · cases h

theorem methP_toks (m : Meth) (hwf : m.WF) (r : List Tok) : methP (m.toks ++ r) = some (m, r) := by
  obtain ⟨set, name, ty, e⟩ := m
  have h1 : (Meth.mk set name ty e).toks ++ r = kwT (if set then .SET else .GET) :: (idToks name ++
      symT .LP :: kwT (primKw ty) :: symT .RP :: symT .COLON :: (e.toks ++ symT .SEMI :: r)) := by
    simp [Meth.toks]
  have h2 := idQ_toks name (r := symT .LP :: kwT (primKw ty) :: symT .RP :: symT .COLON :: (e.toks ++ symT .SEMI :: r))
    (fun a s l h => by cases h)
  have h3 := exprP_toks (e := e) hwf (n := 4 * (e.toks ++ symT .SEMI :: r).length + 4) (r := symT .SEMI :: r) rfl
    (by simp only [List.length_append, List.length_cons]; omega)
  rw [h1]
  unfold methP
  simp only [h2, castHead_toks, h3]
  cases set <;> rfl

theorem methsQ_sound {ts r : List Tok} {ms : Option (List Meth)} (h : methsQ ts = some (ms, r)) :
    ts = methsToks ms ++ r ∧ ∀ l, ms = some l → ∀ m ∈ l, m.WF := by
  unfold methsQ at h
  split at h
  · split at h
    · rename_i ms' r' hm
      simp only [Option.some.injEq, Prod.mk.injEq] at h
      obtain ⟨rfl, rfl⟩ := h
      obtain ⟨h1, h2⟩ := many_sound (tk := Meth.toks) (P := Meth.WF) (fun ts x r h => methP_sound h) _ _ _ _ hm
      refine ⟨by rw [h1]; simp [methsToks], fun l hl => ?_⟩
      simp only [Option.some.injEq] at hl
      subst hl
      exact h2
    · cases h
  · simp only [Option.some.injEq, Prod.mk.injEq] at h
    obtain ⟨rfl, rfl⟩ := h
    exact ⟨rfl, fun l hl => by cases hl⟩

theorem methsQ_toks (ms : Option (List Meth)) (hwf : ∀ l, ms = some l → ∀ m ∈ l, m.WF) {r : List Tok}
    (h : ∀ l, r ≠ symT .LC :: l) : methsQ (methsToks ms ++ r) = some (ms, r) := by
  cases ms with
  | none =>
    simp only [methsToks, List.nil_append]
    unfold methsQ
    split
    · rename_i l
      exact absurd rfl (h l)
    · rfl
  | some ms =>
    have e : methsToks (some ms) ++ r = symT .LC :: (ms.flatMap Meth.toks ++ symT .RC :: r) := by simp [methsToks]
    have hl := length_le_flatMap (tk := Meth.toks) ms fun x _ => ⟨_, _, rfl⟩
    have := many_toks (p := methP) (stop := symT .RC) (tk := Meth.toks) ms
      (ms.flatMap Meth.toks ++ symT .RC :: r).length r (fun x hx r => methP_toks x (hwf _ rfl x hx) r)
      (fun x _ => ⟨_, _, rfl, by intro hh; cases hh⟩) (by simp only [List.length_append, List.length_cons]; omega)
    rw [e]
    unfold methsQ
    simp only [this]

/-! ### Fields -/

theorem constHead_sound {ts r : List Tok} {p : Prim} {i : Option Id} {sz : Option Size}
    (h : constHead ts = some ((p, i, sz), r)) :
    ts = kwT (primKw p) :: (idToks i ++ (sizeToks sz ++ symT .ASSIGN :: r)) := by
  unfold constHead at h
  split at h
  · rename_i t l
    split at h
    · rename_i q hq
      split at h
      · rename_i r' hr
        simp only [Option.some.injEq, Prod.mk.injEq] at h
        obtain ⟨⟨rfl, rfl, rfl⟩, rfl⟩ := h
        have h1 := idQ_sound l
        have h2 := sizeQ_sound (idQ l).2
        rw [hr] at h2
        rw [← h2, ← h1, ← primTok_some hq]
      · cases h
    · cases h
  · cases h

theorem structHead_sound {ts r : List Tok} {sz : Option Size} (h : structHead ts = some (sz, r)) :
    ts = sizeToks sz ++ symT .LC :: r := by
  unfold structHead at h
  split at h
  · rename_i r' hr
    simp only [Option.some.injEq, Prod.mk.injEq] at h
    obtain ⟨rfl, rfl⟩ := h
    have := sizeQ_sound ts
    rw [hr] at this
    exact this
  · cases h

theorem voidP_sound {ts r : List Tok} {f : Field} (h : voidP ts = some (f, r)) :
    kwT .VOID :: ts = f.toks ++ r ∧ f.WF := by
  unfold voidP at h
  split at h
  · rename_i sz r' hs
    split at h
    · rename_i os r'' ho
      simp only [Option.some.injEq, Prod.mk.injEq] at h
      obtain ⟨rfl, rfl⟩ := h
      refine ⟨?_, by simp only [Field.WF]⟩
      rw [sizeP_sound hs, optsQ_sound ho]
      simp [Field.toks]
    · cases h
  · cases h

theorem constTailP_sound {ts r : List Tok} {p : Prim} {i : Option Id} {sz : Option Size} {f : Field}
    (h : constTailP (p, i, sz) ts = some (f, r)) :
    kwT (primKw p) :: (idToks i ++ (sizeToks sz ++ symT .ASSIGN :: ts)) = f.toks ++ r ∧ f.WF := by
  unfold constTailP at h
  split at h
  · rename_i v r' hv
    split at h
    · rename_i os r'' ho
      simp only [Option.some.injEq, Prod.mk.injEq] at h
      obtain ⟨rfl, rfl⟩ := h
      refine ⟨?_, by simp only [Field.WF]⟩
      rw [valP_sound hv, optsQ_sound ho]
      simp [Field.toks]
    · cases h
  · cases h

theorem fieldTailP_sound {ts r : List Tok} {t : Ty} {f : Field} (ht : t.WF) (h : fieldTailP t ts = some (f, r)) :
    t.toks ++ ts = f.toks ++ r ∧ f.WF := by
  unfold fieldTailP at h
  split at h
  · rename_i a s l
    split at h
    · rename_i os r' ho
      split at h
      · rename_i ms r'' hm
        simp only [Option.some.injEq, Prod.mk.injEq] at h
        obtain ⟨rfl, rfl⟩ := h
        obtain ⟨h1, h2⟩ := methsQ_sound hm
        refine ⟨?_, by simp only [Field.WF]; exact ⟨ht, h2⟩⟩
        have h3 := sizeQ_sound l
        rw [optsQ_sound ho, h1] at h3
        rw [Field.toks]
        conv => lhs; rw [h3]
        simp [Id.tok]
      · cases h
    · cases h
  · split at h
    · rename_i os r' ho
      simp only [Option.some.injEq, Prod.mk.injEq] at h
      obtain ⟨rfl, rfl⟩ := h
      refine ⟨?_, by simp only [Field.WF]; exact ht⟩
      rw [optsQ_sound ho]
      simp [Field.toks]
    · cases h

theorem arrayTail_sound {e : Elem} (he : e.WF) (ts : List Tok) :
    e.toks ++ ts = (arrayTail e ts).1.toks ++ (arrayTail e ts).2 ∧ (arrayTail e ts).1.WF := by
  unfold arrayTail
  split
  · simp only [Ty.toks, Ty.WF]
    exact ⟨by simp, he⟩
  · simp only [Ty.toks, Ty.WF]
    exact ⟨trivial, he⟩

theorem body_sound : ∀ n,
    (∀ ts e r, elemP n ts = some (e, r) → ts = e.toks ++ r ∧ e.WF) ∧
    (∀ ts f r, fieldP n ts = some (f, r) → ts = f.toks ++ r ∧ f.WF) ∧
    (∀ ts b r, bodyP n ts = some (b, r) → ts = b.toks ++ symT .RC :: r ∧ b.WF)
  | 0 => ⟨fun _ _ _ h => by simp [elemP] at h, fun _ _ _ h => by simp [fieldP] at h,
      fun _ _ _ h => by simp [bodyP] at h⟩
  | n + 1 => by
    obtain ⟨ihe, ihf, ihb⟩ := body_sound n
    refine ⟨?_, ?_, ?_⟩
    · intro ts e r h
      change elemStep (bodyP n) ts = some (e, r) at h
      unfold elemStep at h
      split at h
      · split at h
        · rename_i sz r' hh
          split at h
          · rename_i bd r'' hb
            simp only [Option.some.injEq, Prod.mk.injEq] at h
            obtain ⟨rfl, rfl⟩ := h
            obtain ⟨h1, h2⟩ := ihb _ _ _ hb
            refine ⟨?_, by simp only [Elem.WF, Struct.WF]; exact h2⟩
            rw [structHead_sound hh, h1]
            simp [Elem.toks, Struct.toks, Id.tok]
          · cases h
        · simp only [Option.some.injEq, Prod.mk.injEq] at h
          obtain ⟨rfl, rfl⟩ := h
          exact ⟨by simp [Elem.toks, Id.tok], by simp only [Elem.WF]⟩
      · simp only [Option.some.injEq, Prod.mk.injEq] at h
        obtain ⟨rfl, rfl⟩ := h
        exact ⟨by simp [Elem.toks, Id.tok], by simp only [Elem.WF]⟩
      · simp only [Option.some.injEq, Prod.mk.injEq] at h
        obtain ⟨rfl, rfl⟩ := h
        exact ⟨by simp [Elem.toks, Id.tok], by simp only [Elem.WF]⟩
      · simp only [Option.some.injEq, Prod.mk.injEq] at h
        obtain ⟨rfl, rfl⟩ := h
        exact ⟨by simp [Elem.toks], by simp only [Elem.WF]⟩
      · simp only [Option.some.injEq, Prod.mk.injEq] at h
        obtain ⟨rfl, rfl⟩ := h
        exact ⟨by simp [Elem.toks], by simp only [Elem.WF]⟩
      · split at h
        · rename_i p hp
          simp only [Option.some.injEq, Prod.mk.injEq] at h
          obtain ⟨rfl, rfl⟩ := h
          exact ⟨by simp [Elem.toks, primTok_some hp], by simp only [Elem.WF]⟩
        · cases h
      · cases h
    · intro ts f r h
      change fieldStep (elemP n) ts = some (f, r) at h
      unfold fieldStep at h
      split at h
      · simp only [Option.some.injEq, Prod.mk.injEq] at h
        obtain ⟨rfl, rfl⟩ := h
        exact ⟨by simp [Field.toks], by simp only [Field.WF]⟩
      · exact voidP_sound h
      · split at h
        · rename_i hd r' hh
          obtain ⟨p, i, sz⟩ := hd
          rw [constHead_sound hh]
          exact constTailP_sound h
        · split at h
          · rename_i e r' he
            obtain ⟨h1, h2⟩ := ihe _ _ _ he
            obtain ⟨h3, h4⟩ := arrayTail_sound h2 r'
            rw [h1, h3]
            exact fieldTailP_sound h4 h
          · cases h
    · intro ts b r h
      change bodyStep (fieldP n) (bodyP n) ts = some (b, r) at h
      unfold bodyStep at h
      split at h
      · simp only [Option.some.injEq, Prod.mk.injEq] at h
        obtain ⟨rfl, rfl⟩ := h
        exact ⟨by simp [Body.toks], by simp only [Body.WF]⟩
      · split at h
        · rename_i f r' hf
          split at h
          · rename_i b' r'' hb
            simp only [Option.some.injEq, Prod.mk.injEq] at h
            obtain ⟨rfl, rfl⟩ := h
            obtain ⟨h1, h2⟩ := ihf _ _ _ hf
            obtain ⟨h3, h4⟩ := ihb _ _ _ hb
            exact ⟨by rw [h1, h3]; simp [Body.toks], by simp only [Body.WF]; exact ⟨h2, h4⟩⟩
          · cases h
        · cases h

/-! ### Completeness for fields -/

/-- Tokens a type can begin with. -/
def tyHead : Tok → Bool
  | .struct _ => true
  | .enum _ => true
  | .ident _ _ => true
  | .tk (.kw k) => decide (k ≠ .VOID)
  | _ => false

theorem primKw_ne (p : Prim) : primKw p ≠ .VOID := by cases p <;> decide

theorem Elem.toks_head : ∀ e : Elem, ∃ t l, e.toks = t :: l ∧ tyHead t = true
  | .basic p => ⟨_, _, by rw [Elem.toks], by simp [tyHead, primKw_ne]⟩
  | .str => ⟨_, _, by rw [Elem.toks], rfl⟩
  | .bytes => ⟨_, _, by rw [Elem.toks], rfl⟩
  | .structName a n => ⟨_, _, by rw [Elem.toks], rfl⟩
  | .structDef (.mk a n sz b) => ⟨_, _, by rw [Elem.toks, Struct.toks], rfl⟩
  | .enumName a n => ⟨_, _, by rw [Elem.toks], rfl⟩
  | .ident n => ⟨_, _, by rw [Elem.toks], rfl⟩

theorem Ty.toks_head (t : Ty) : ∃ x l, t.toks = x :: l ∧ tyHead x = true := by
  cases t with
  | elem e => rw [Ty.toks]; exact e.toks_head
  | array e len =>
    obtain ⟨x, l, h, hx⟩ := e.toks_head
    exact ⟨x, l ++ _, by rw [Ty.toks, h]; rfl, hx⟩

theorem Field.toks_head (f : Field) : ∃ x l, f.toks = x :: l ∧ x ≠ symT .RC := by
  cases f with
  | empty => exact ⟨_, _, by rw [Field.toks], by decide⟩
  | void sz os => exact ⟨_, _, by rw [Field.toks], fun h => by cases h⟩
  | const p n sz v os => exact ⟨_, _, by rw [Field.toks], fun h => by cases h⟩
  | embedded t os =>
    obtain ⟨x, l, h, hx⟩ := t.toks_head
    exact ⟨x, l ++ _, by rw [Field.toks, h]; rfl, fun e => by rw [e] at hx; cases hx⟩
  | normal t n sz os ms =>
    obtain ⟨x, l, h, hx⟩ := t.toks_head
    exact ⟨x, l ++ _, by rw [Field.toks, h]; rfl, fun e => by rw [e] at hx; cases hx⟩

/-- What may follow a type: neither the body of a structure nor an angle bracket. -/
def AfterTy (r : List Tok) : Prop := structHead r = none ∧ ∀ l, r ≠ symT .LT :: l

theorem optsToks_cases (os : List Opt) (r : List Tok) :
    (os = [] ∧ optsToks os ++ r = r) ∨ ∃ a s l, optsToks os ++ r = symT .LB :: .ident a s :: l := by
  cases os with
  | nil => exact Or.inl ⟨rfl, rfl⟩
  | cons o os => exact Or.inr ⟨o.name.at', o.name.text, _, by simp only [optsToks, Opt.toks, Id.tok, List.cons_append]; rfl⟩

theorem sizeP_opts (os : List Opt) {r : List Tok} (h : sizeP r = none) : sizeP (optsToks os ++ r) = none := by
  rcases optsToks_cases os r with ⟨-, h1⟩ | ⟨a, s, l, h1⟩
  · rw [h1]; exact h
  · rw [h1]; rfl

theorem methsToks_cases (ms : Option (List Meth)) (r : List Tok) :
    (ms = none ∧ methsToks ms ++ r = r) ∨ ∃ l, methsToks ms ++ r = symT .LC :: l := by
  cases ms with
  | none => exact Or.inl ⟨rfl, rfl⟩
  | some l => exact Or.inr ⟨_, by simp only [methsToks, List.cons_append]; rfl⟩

theorem afterTy_opts (os : List Opt) (r : List Tok) : AfterTy (optsToks os ++ symT .SEMI :: r) := by
  rcases optsToks_cases os (symT .SEMI :: r) with ⟨-, h1⟩ | ⟨a, s, l, h1⟩
  · rw [h1]; exact ⟨rfl, fun l h => by cases h⟩
  · rw [h1]; exact ⟨rfl, fun l h => by cases h⟩

theorem afterTy_ident (a : At) (s : Str) (r : List Tok) : AfterTy (.ident a s :: r) :=
  ⟨rfl, fun l h => by cases h⟩

theorem arrayTail_elem {e : Elem} {r : List Tok} (h : AfterTy r) : arrayTail e r = (.elem e, r) := by
  unfold arrayTail
  split
  · exact absurd rfl (h.2 _)
  · rfl

theorem structHead_toks (sz : Option Size) (r : List Tok) :
    structHead (sizeToks sz ++ symT .LC :: r) = some (sz, r) := by
  have := sizeQ_toks sz (r := symT .LC :: r) rfl
  simp only [structHead, this]

theorem constHead_toks (p : Prim) (i : Option Id) (sz : Option Size) (r : List Tok) :
    constHead (kwT (primKw p) :: (idToks i ++ (sizeToks sz ++ symT .ASSIGN :: r))) = some ((p, i, sz), r) := by
  have h1 := sizeQ_toks sz (r := symT .ASSIGN :: r) rfl
  have h2 := idQ_toks i (r := sizeToks sz ++ symT .ASSIGN :: r) (fun a s l h => by
    cases sz with
    | none => cases h
    | some sz => cases sz <;> cases h)
  simp only [constHead, primTok_kw, h2, h1]

/-- After a basic type comes no equals sign: the field is not a constant. -/
theorem constHead_none {t : Tok} {r : List Tok} (h : ∀ l, (sizeQ (idQ r).2).2 ≠ symT .ASSIGN :: l) :
    constHead (t :: r) = none := by
  unfold constHead
  simp only
  split
  · rfl
  · rfl

theorem constHead_notPrim {t : Tok} {r : List Tok} (h : primTok t = none) : constHead (t :: r) = none := by
  simp only [constHead, h]

/-- Neither a field without name nor one with a name looks like a constant. -/
theorem constHead_ty (t : Ty) {r : List Tok} (h : ∀ l, (sizeQ (idQ r).2).2 ≠ symT .ASSIGN :: l) :
    constHead (t.toks ++ r) = none := by
  have elem : ∀ (e : Elem) (r : List Tok), (∀ l, (sizeQ (idQ r).2).2 ≠ symT .ASSIGN :: l) →
      constHead (e.toks ++ r) = none := by
    intro e r h
    cases e with
    | basic p => rw [Elem.toks]; exact constHead_none h
    | str => rw [Elem.toks]; rfl
    | bytes => rw [Elem.toks]; rfl
    | structName a n => rw [Elem.toks]; rfl
    | structDef d => obtain ⟨a, n, sz, b⟩ := d; rw [Elem.toks, Struct.toks]; rfl
    | enumName a n => rw [Elem.toks]; rfl
    | ident n => rw [Elem.toks]; rfl
  cases t with
  | elem e => rw [Ty.toks]; exact elem e r h
  | array e len =>
    rw [Ty.toks, List.append_assoc]
    exact elem e _ fun l h => by cases h

theorem notAssign_opts (os : List Opt) (r : List Tok) (l : List Tok) :
    (sizeQ (idQ (optsToks os ++ symT .SEMI :: r)).2).2 ≠ symT .ASSIGN :: l := by
  rcases optsToks_cases os (symT .SEMI :: r) with ⟨-, h1⟩ | ⟨a, s, l', h1⟩
  · rw [h1]; intro h; cases h
  · rw [h1]; intro h; cases h

/-- The tokens after the name of a normal field. -/
theorem sizeP_tail (os : List Opt) (ms : Option (List Meth)) (r : List Tok) :
    sizeP (optsToks os ++ (methsToks ms ++ symT .SEMI :: r)) = none := by
  refine sizeP_opts os ?_
  rcases methsToks_cases ms (symT .SEMI :: r) with ⟨-, h1⟩ | ⟨l, h1⟩
  · rw [h1]; rfl
  · rw [h1]; rfl

theorem notAssign_name (n : Id) (sz : Option Size) (os : List Opt) (ms : Option (List Meth)) (r l : List Tok) :
    (sizeQ (idQ (n.tok :: (sizeToks sz ++ (optsToks os ++ (methsToks ms ++ symT .SEMI :: r))))).2).2 ≠
      symT .ASSIGN :: l := by
  have h1 : (idQ (n.tok :: (sizeToks sz ++ (optsToks os ++ (methsToks ms ++ symT .SEMI :: r))))).2 =
      sizeToks sz ++ (optsToks os ++ (methsToks ms ++ symT .SEMI :: r)) := rfl
  rw [h1, sizeQ_toks sz (sizeP_tail os ms r)]
  rcases optsToks_cases os (methsToks ms ++ symT .SEMI :: r) with ⟨-, h2⟩ | ⟨a, s, l', h2⟩
  · rw [h2]
    rcases methsToks_cases ms (symT .SEMI :: r) with ⟨-, h1⟩ | ⟨l, h1⟩
    · rw [h1]; intro h; cases h
    · rw [h1]; intro h; cases h
  · rw [h2]; intro h; cases h

theorem fieldTailP_embedded (t : Ty) (os : List Opt) (r : List Tok) :
    fieldTailP t (optsToks os ++ symT .SEMI :: r) = some (.embedded t os, r) := by
  have h := optsQ_toks os (r := symT .SEMI :: r) (fun l h => by cases h)
  unfold fieldTailP
  split
  · rename_i a s l he
    rcases optsToks_cases os (symT .SEMI :: r) with ⟨-, h1⟩ | ⟨a, s, l', h1⟩
    · rw [h1] at he; cases he
    · rw [h1] at he; cases he
  · simp only [h]

theorem fieldTailP_normal (t : Ty) (n : Id) (sz : Option Size) (os : List Opt) (ms : Option (List Meth))
    (hwf : ∀ l, ms = some l → ∀ m ∈ l, m.WF) (r : List Tok) :
    fieldTailP t (n.tok :: (sizeToks sz ++ (optsToks os ++ (methsToks ms ++ symT .SEMI :: r)))) =
      some (.normal t n sz os ms, r) := by
  have h1 := sizeQ_toks sz (sizeP_tail os ms r)
  have h2 := optsQ_toks os (r := methsToks ms ++ symT .SEMI :: r) (fun l h => by
    rcases methsToks_cases ms (symT .SEMI :: r) with ⟨-, h1⟩ | ⟨l, h1⟩
    · rw [h1] at h; cases h
    · rw [h1] at h; cases h)
  have h3 := methsQ_toks ms hwf (r := symT .SEMI :: r) (fun l h => by cases h)
  simp only [fieldTailP, Id.tok, h1, h2, h3]

theorem fieldStep_ty {elem : List Tok → Option (Elem × List Tok)} {t : Ty} {r : List Tok}
    (h : ∀ l, (sizeQ (idQ r).2).2 ≠ symT .ASSIGN :: l) :
    fieldStep elem (t.toks ++ r) = match elem (t.toks ++ r) with
      | some (e, r) => fieldTailP (arrayTail e r).1 (arrayTail e r).2
      | none => none := by
  obtain ⟨x, l, hx, hh⟩ := t.toks_head
  have hc := constHead_ty t h
  unfold fieldStep
  split
  · rename_i r' he
    rw [hx] at he
    simp only [List.cons_append, List.cons.injEq] at he
    rw [he.1] at hh; cases hh
  · rename_i r' he
    rw [hx] at he
    simp only [List.cons_append, List.cons.injEq] at he
    rw [he.1] at hh; cases hh
  · simp only [hc]
    rfl

theorem bodyStep_cons {field : List Tok → Option (Field × List Tok)} {body : List Tok → Option (Body × List Tok)}
    (f : Field) (r : List Tok) :
    bodyStep field body (f.toks ++ r) = match field (f.toks ++ r) with
      | some (f, r) => match body r with
        | some (b, r') => some (.cons f b, r')
        | none => none
      | none => none := by
  obtain ⟨x, l, hx, hh⟩ := f.toks_head
  unfold bodyStep
  split
  · rename_i r' he
    rw [hx] at he
    simp only [List.cons_append, List.cons.injEq] at he
    exact absurd he.1 hh
  · rfl

theorem Elem.toks_pos (e : Elem) : 1 ≤ e.toks.length := by
  obtain ⟨x, l, h, -⟩ := e.toks_head; rw [h]; simp
theorem Field.toks_pos (f : Field) : 1 ≤ f.toks.length := by
  obtain ⟨x, l, h, -⟩ := f.toks_head; rw [h]; simp

theorem elemP_succ (n : Nat) (ts : List Tok) : elemP (n + 1) ts = elemStep (bodyP n) ts := by rw [elemP]
theorem fieldP_succ (n : Nat) (ts : List Tok) : fieldP (n + 1) ts = fieldStep (elemP n) ts := by rw [fieldP]
theorem bodyP_succ (n : Nat) (ts : List Tok) : bodyP (n + 1) ts = bodyStep (fieldP n) (bodyP n) ts := by rw [bodyP]

theorem elemP_basic (p : Prim) (k : Nat) (r : List Tok) :
    elemP (k + 1) (kwT (primKw p) :: r) = some (.basic p, r) := by cases p <;> rfl

mutual
  theorem Elem.complete : ∀ (e : Elem), e.WF → ∀ (n : Nat) (r : List Tok), structHead r = none → 3 * e.toks.length ≤ n →
      elemP n (e.toks ++ r) = some (e, r)
    | .basic p, _, n, r, _, hn => by
      rw [Elem.toks] at hn ⊢
      obtain ⟨k, rfl⟩ : ∃ k, n = k + 1 := ⟨n - 1, by simp at hn; omega⟩
      exact elemP_basic p k r
    | .str, _, n, r, _, hn => by
      rw [Elem.toks] at hn ⊢
      obtain ⟨k, rfl⟩ : ∃ k, n = k + 1 := ⟨n - 1, by simp at hn; omega⟩
      rfl
    | .bytes, _, n, r, _, hn => by
      rw [Elem.toks] at hn ⊢
      obtain ⟨k, rfl⟩ : ∃ k, n = k + 1 := ⟨n - 1, by simp at hn; omega⟩
      rfl
    | .structName a i, _, n, r, hr, hn => by
      rw [Elem.toks] at hn ⊢
      obtain ⟨k, rfl⟩ : ∃ k, n = k + 1 := ⟨n - 1, by simp at hn; omega⟩
      change elemStep (bodyP k) (.struct a :: .ident i.at' i.text :: r) = _
      unfold elemStep
      simp only [hr]
    | .structDef (.mk a i sz b), hwf, n, r, hr, hn => by
      have hb := Body.complete b (by simpa only [Elem.WF, Struct.WF] using hwf)
      rw [Elem.toks, Struct.toks] at hn
      simp only [List.length_cons, List.length_append, List.length_nil] at hn
      obtain ⟨k, rfl⟩ : ∃ k, n = k + 1 := ⟨n - 1, by omega⟩
      have e : (Elem.structDef (.mk a i sz b)).toks ++ r =
          .struct a :: .ident i.at' i.text :: (sizeToks sz ++ symT .LC :: (b.toks ++ symT .RC :: r)) := by
        rw [Elem.toks, Struct.toks]; simp [Id.tok]
      rw [e]
      rw [elemP_succ]
      unfold elemStep
      simp only [structHead_toks, hb k r (by omega)]
    | .enumName a i, _, n, r, _, hn => by
      rw [Elem.toks] at hn ⊢
      obtain ⟨k, rfl⟩ : ∃ k, n = k + 1 := ⟨n - 1, by simp at hn; omega⟩
      rfl
    | .ident i, _, n, r, _, hn => by
      rw [Elem.toks] at hn ⊢
      obtain ⟨k, rfl⟩ : ∃ k, n = k + 1 := ⟨n - 1, by simp at hn; omega⟩
      rfl
  theorem Ty.complete : ∀ (t : Ty), t.WF → ∀ (n : Nat) (r : List Tok), AfterTy r → 3 * t.toks.length ≤ n →
      ∃ e r', elemP n (t.toks ++ r) = some (e, r') ∧ arrayTail e r' = (t, r)
    | .elem e, hwf, n, r, hr, hn => by
      have he := Elem.complete e (by simpa only [Ty.WF] using hwf)
      rw [Ty.toks] at hn ⊢
      exact ⟨e, r, he n r hr.1 hn, arrayTail_elem hr⟩
    | .array e len, hwf, n, r, hr, hn => by
      have he := Elem.complete e (by simpa only [Ty.WF] using hwf)
      rw [Ty.toks, List.length_append] at hn
      rw [Ty.toks, List.append_assoc]
      exact ⟨e, symT .LT :: intT len :: symT .GT :: r, he n _ rfl (by omega), rfl⟩
  theorem Field.complete : ∀ (f : Field), f.WF → ∀ (n : Nat) (r : List Tok), 3 * f.toks.length ≤ n →
      fieldP n (f.toks ++ r) = some (f, r)
    | .empty, _, n, r, hn => by
      rw [Field.toks] at hn ⊢
      obtain ⟨k, rfl⟩ : ∃ k, n = k + 1 := ⟨n - 1, by simp at hn; omega⟩
      rfl
    | .void sz os, _, n, r, hn => by
      have := (Field.void sz os).toks_pos
      obtain ⟨k, rfl⟩ : ∃ k, n = k + 1 := ⟨n - 1, by omega⟩
      have e : (Field.void sz os).toks ++ r = kwT .VOID :: (sz.toks ++ (optsToks os ++ symT .SEMI :: r)) := by
        rw [Field.toks]; simp
      have h := optsQ_toks os (r := symT .SEMI :: r) (fun l h => by cases h)
      rw [e]
      change voidP _ = _
      simp only [voidP, sizeP_toks, h]
    | .const p i sz v os, _, n, r, hn => by
      have := (Field.const p i sz v os).toks_pos
      obtain ⟨k, rfl⟩ : ∃ k, n = k + 1 := ⟨n - 1, by omega⟩
      have e : (Field.const p i sz v os).toks ++ r = kwT (primKw p) :: (idToks i ++ (sizeToks sz ++
          symT .ASSIGN :: (valToks v ++ (optsToks os ++ symT .SEMI :: r)))) := by
        rw [Field.toks]; simp
      have h := optsQ_toks os (r := symT .SEMI :: r) (fun l h => by cases h)
      have hc := constHead_toks p i sz (valToks v ++ (optsToks os ++ symT .SEMI :: r))
      rw [e]
      rw [fieldP_succ]
      unfold fieldStep
      split
      · rename_i h; cases h
      · rename_i h
        simp only [List.cons.injEq, Tok.tk.injEq, Tk.kw.injEq] at h
        exact absurd h.1 (primKw_ne p)
      · simp only [hc, constTailP, valP_toks, h]
    | .embedded t os, hwf, n, r, hn => by
      have ht := Ty.complete t (by simpa only [Field.WF] using hwf)
      have hl : 3 * t.toks.length + 3 ≤ n := by
        rw [Field.toks] at hn
        simp only [List.length_append, List.length_cons, List.length_nil] at hn
        omega
      obtain ⟨k, rfl⟩ : ∃ k, n = k + 1 := ⟨n - 1, by omega⟩
      have e : (Field.embedded t os).toks ++ r = t.toks ++ (optsToks os ++ symT .SEMI :: r) := by
        rw [Field.toks]; simp
      obtain ⟨el, r', h1, h2⟩ := ht k (optsToks os ++ symT .SEMI :: r) (afterTy_opts os r) (by omega)
      rw [e]
      rw [fieldP_succ]
      rw [fieldStep_ty (notAssign_opts os r), h1]
      simp only [h2, fieldTailP_embedded]
    | .normal t i sz os ms, hwf, n, r, hn => by
      have hwf' : t.WF ∧ ∀ l, ms = some l → ∀ m ∈ l, m.WF := by simpa only [Field.WF] using hwf
      have ht := Ty.complete t hwf'.1
      have hl : 3 * t.toks.length + 3 ≤ n := by
        rw [Field.toks] at hn
        simp only [List.length_append, List.length_cons, List.length_nil] at hn
        omega
      obtain ⟨k, rfl⟩ : ∃ k, n = k + 1 := ⟨n - 1, by omega⟩
      have e : (Field.normal t i sz os ms).toks ++ r =
          t.toks ++ (i.tok :: (sizeToks sz ++ (optsToks os ++ (methsToks ms ++ symT .SEMI :: r)))) := by
        rw [Field.toks]; simp
      obtain ⟨el, r', h1, h2⟩ := ht k (i.tok :: (sizeToks sz ++ (optsToks os ++ (methsToks ms ++ symT .SEMI :: r))))
        (afterTy_ident _ _ _) (by omega)
      rw [e]
      rw [fieldP_succ]
      rw [fieldStep_ty (notAssign_name i sz os ms r), h1]
      simp only [h2, fieldTailP_normal t i sz os ms hwf'.2 r]
  theorem Body.complete : ∀ (b : Body), b.WF → ∀ (n : Nat) (r : List Tok), 3 * b.toks.length + 1 ≤ n →
      bodyP n (b.toks ++ symT .RC :: r) = some (b, r)
    | .nil, _, n, r, hn => by
      obtain ⟨k, rfl⟩ : ∃ k, n = k + 1 := ⟨n - 1, by omega⟩
      rw [Body.toks]
      rfl
    | .cons f b, hwf, n, r, hn => by
      have hwf' : f.WF ∧ b.WF := by simpa only [Body.WF] using hwf
      have hf := Field.complete f hwf'.1
      have hb := Body.complete b hwf'.2
      have hp := f.toks_pos
      rw [Body.toks, List.length_append] at hn
      obtain ⟨k, rfl⟩ : ∃ k, n = k + 1 := ⟨n - 1, by omega⟩
      rw [Body.toks, List.append_assoc]
      rw [bodyP_succ]
      rw [bodyStep_cons, hf k _ (by omega)]
      simp only [hb k r (by omega)]
end

/-! ### Enumerations and statements -/

theorem enumElemP_sound {ts r : List Tok} {e : EnumElem} (h : enumElemP ts = some (e, r)) : ts = e.toks ++ r := by
  unfold enumElemP at h
  split at h
  · simp only [Option.some.injEq, Prod.mk.injEq] at h
    obtain ⟨rfl, rfl⟩ := h
    rfl
  · split at h
    · rename_i v r' hv
      split at h
      · rename_i os r'' ho
        simp only [Option.some.injEq, Prod.mk.injEq] at h
        obtain ⟨rfl, rfl⟩ := h
        rw [valP_sound hv, optsQ_sound ho]
        simp [EnumElem.toks, Id.tok]
      · rename_i os r'' ho
        simp only [Option.some.injEq, Prod.mk.injEq] at h
        obtain ⟨rfl, rfl⟩ := h
        rw [valP_sound hv, optsQ_sound ho]
        simp [EnumElem.toks, Id.tok]
      · cases h
    · cases h
  · split at h
    · rename_i os r'' ho
      simp only [Option.some.injEq, Prod.mk.injEq] at h
      obtain ⟨rfl, rfl⟩ := h
      rw [optsQ_sound ho]
      simp [EnumElem.toks, Id.tok]
    · rename_i os r'' ho
      simp only [Option.some.injEq, Prod.mk.injEq] at h
      obtain ⟨rfl, rfl⟩ := h
      rw [optsQ_sound ho]
      simp [EnumElem.toks, Id.tok]
    · cases h
  · cases h

theorem enumElemP_toks (e : EnumElem) (r : List Tok) : enumElemP (e.toks ++ r) = some (e, r) := by
  cases e with
  | empty => rfl
  | value n v os c =>
    cases v with
    | some v =>
      have e : (EnumElem.value n (some v) os c).toks ++ r = .ident n.at' n.text :: symT .ASSIGN ::
          (valToks v ++ (optsToks os ++ symT (if c then .COMMA else .SEMI) :: r)) := by simp [EnumElem.toks, Id.tok]
      have h := optsQ_toks os (r := symT (if c then .COMMA else .SEMI) :: r) (fun l h => by
        cases c <;> cases h)
      rw [e]
      unfold enumElemP
      simp only [valP_toks, h]
      cases c <;> rfl
    | none =>
      have e : (EnumElem.value n none os c).toks ++ r = .ident n.at' n.text ::
          (optsToks os ++ symT (if c then .COMMA else .SEMI) :: r) := by simp [EnumElem.toks, Id.tok]
      have h := optsQ_toks os (r := symT (if c then .COMMA else .SEMI) :: r) (fun l h => by
        cases c <;> cases h)
      rw [e]
      unfold enumElemP
      split
      · rename_i he; cases he
      · rename_i he
        exfalso
        rcases optsToks_cases os (symT (if c then .COMMA else .SEMI) :: r) with ⟨-, h1⟩ | ⟨a, s, l', h1⟩
        · rw [h1] at he; cases c <;> cases he
        · rw [h1] at he; cases he
      · rename_i he
        simp only [List.cons.injEq, Tok.ident.injEq] at he
        obtain ⟨⟨rfl, rfl⟩, rfl⟩ := he
        simp only [h]
        cases c <;> rfl
      · rename_i h1 h2 h3
        exact absurd rfl (h3 _ _ _)

theorem enumP_sound {ts r : List Tok} {d : Enum} (h : enumP ts = some (d, r)) : ts = d.toks ++ r := by
  unfold enumP at h
  split at h
  · split at h
    · rename_i sz r' hs
      split at h
      · rename_i es r'' he
        simp only [Option.some.injEq, Prod.mk.injEq] at h
        obtain ⟨rfl, rfl⟩ := h
        have := (many_sound (tk := EnumElem.toks) (P := fun _ => True)
          (fun ts x r h => ⟨enumElemP_sound h, trivial⟩) _ _ _ _ he).1
        rw [sizeP_sound hs, this]
        simp [Enum.toks, Id.tok]
      · cases h
    · cases h
  · cases h

theorem EnumElem.toks_head (e : EnumElem) : ∃ t l, e.toks = t :: l ∧ t ≠ symT .RC := by
  cases e with
  | empty => exact ⟨_, _, rfl, by decide⟩
  | value n v os c => exact ⟨_, _, rfl, fun h => by cases h⟩

theorem enumP_toks (d : Enum) (r : List Tok) : enumP (d.toks ++ r) = some (d, r) := by
  have e : d.toks ++ r = .enum d.at' :: .ident d.name.at' d.name.text :: (d.size.toks ++
      symT .LC :: (d.body.flatMap EnumElem.toks ++ symT .RC :: r)) := by simp [Enum.toks, Id.tok]
  have hl := length_le_flatMap (tk := EnumElem.toks) d.body fun x _ => by
    obtain ⟨t, l, h, -⟩ := x.toks_head; exact ⟨t, l, h⟩
  have h := many_toks (p := enumElemP) (stop := symT .RC) (tk := EnumElem.toks) d.body
    (d.body.flatMap EnumElem.toks ++ symT .RC :: r).length r (fun x _ r => enumElemP_toks x r)
    (fun x _ => x.toks_head) (by simp only [List.length_append, List.length_cons]; omega)
  rw [e]
  unfold enumP
  simp only [sizeP_toks, h]

theorem dotP_sound {ts r : List Tok} {i : Id} (h : dotP ts = some (i, r)) : ts = [symT .DOT, i.tok] ++ r := by
  unfold dotP at h
  split at h
  · simp only [Option.some.injEq, Prod.mk.injEq] at h
    obtain ⟨rfl, rfl⟩ := h
    rfl
  · cases h

theorem stmtP_sound {ts r : List Tok} {s : Stmt} (h : stmtP ts = some (s, r)) : ts = s.toks ++ r ∧ s.WF := by
  unfold stmtP at h
  split at h
  · simp only [Option.some.injEq, Prod.mk.injEq] at h
    obtain ⟨rfl, rfl⟩ := h
    exact ⟨rfl, trivial⟩
  · simp only [Option.some.injEq, Prod.mk.injEq] at h
    obtain ⟨rfl, rfl⟩ := h
    exact ⟨rfl, trivial⟩
  · split at h
    · rename_i is r' hi
      simp only [Option.some.injEq, Prod.mk.injEq] at h
      obtain ⟨rfl, rfl⟩ := h
      have := (many_sound (tk := fun i => [symT .DOT, Id.tok i]) (P := fun _ => True)
        (fun ts x r h => ⟨dotP_sound h, trivial⟩) _ _ _ _ hi).1
      refine ⟨?_, trivial⟩
      rw [this]
      simp [Stmt.toks, Id.tok]
    · cases h
  · split at h
    · rename_i o r' ho
      simp only [Option.some.injEq, Prod.mk.injEq] at h
      obtain ⟨rfl, rfl⟩ := h
      refine ⟨?_, trivial⟩
      rw [optP_sound ho]
      simp [Stmt.toks]
    · cases h
  · split at h
    · rename_i d r' hd
      simp only [Option.some.injEq, Prod.mk.injEq] at h
      obtain ⟨rfl, rfl⟩ := h
      exact ⟨enumP_sound hd, trivial⟩
    · cases h
  · split at h
    · rename_i d r' hd
      simp only [Option.some.injEq, Prod.mk.injEq] at h
      obtain ⟨rfl, rfl⟩ := h
      obtain ⟨h1, h2⟩ := (body_sound _).1 _ _ _ hd
      rw [Elem.toks] at h1
      rw [Elem.WF] at h2
      exact ⟨h1, h2⟩
    · cases h
  · cases h

theorem stmtP_toks (s : Stmt) (hwf : s.WF) (r : List Tok) : stmtP (s.toks ++ r) = some (s, r) := by
  cases s with
  | empty => rfl
  | imp l => rfl
  | package i is =>
    have e : (Stmt.package i is).toks ++ r = kwT .PACKAGE :: .ident i.at' i.text ::
        ((is.flatMap fun i => [symT .DOT, i.tok]) ++ symT .SEMI :: r) := by simp [Stmt.toks, Id.tok]
    have hl := length_le_flatMap (tk := fun i => [symT .DOT, Id.tok i]) is fun x _ => ⟨_, _, rfl⟩
    have h := many_toks (p := dotP) (stop := symT .SEMI) (tk := fun i => [symT .DOT, Id.tok i]) is
      ((is.flatMap fun i => [symT .DOT, Id.tok i]) ++ symT .SEMI :: r).length r (fun x _ r => rfl)
      (fun x _ => ⟨_, _, rfl, by decide⟩) (by simp only [List.length_append, List.length_cons]; omega)
    rw [e]
    unfold stmtP
    simp only [h]
  | option o =>
    have e : (Stmt.option o).toks ++ r = kwT .OPTION :: (o.toks ++ symT .SEMI :: r) := by simp [Stmt.toks]
    rw [e]
    unfold stmtP
    simp only [optP_toks]
  | enum d =>
    have h := enumP_toks d r
    have e : d.toks ++ r = .enum d.at' :: (d.name.tok :: (d.size.toks ++ symT .LC ::
        (d.body.flatMap EnumElem.toks ++ [symT .RC])) ++ r) := rfl
    change stmtP (d.toks ++ r) = _
    rw [e] at h ⊢
    unfold stmtP
    simp only [h]
  | struct d =>
    obtain ⟨a, i, sz, b⟩ := d
    have e : (Stmt.struct (.mk a i sz b)).toks ++ r =
        .struct a :: (i.tok :: (sizeToks sz ++ symT .LC :: (b.toks ++ [symT .RC])) ++ r) := by
      rw [Stmt.toks, Struct.toks]; rfl
    have e' : (Elem.structDef (.mk a i sz b)).toks ++ r =
        .struct a :: (i.tok :: (sizeToks sz ++ symT .LC :: (b.toks ++ [symT .RC])) ++ r) := by
      rw [Elem.toks, Struct.toks]; rfl
    -- whatever follows: the body decides that this is a definition
    have hb := Body.complete b (by simpa only [Stmt.WF, Struct.WF] using hwf)
      (4 * (i.tok :: (sizeToks sz ++ symT .LC :: (b.toks ++ [symT .RC])) ++ r).length + 3) r
      (by simp only [List.length_append, List.length_cons, List.length_nil]; omega)
    have h : elemP (4 * (i.tok :: (sizeToks sz ++ symT .LC :: (b.toks ++ [symT .RC])) ++ r).length + 4)
        (.struct a :: (i.tok :: (sizeToks sz ++ symT .LC :: (b.toks ++ [symT .RC])) ++ r)) =
        some (.structDef (.mk a i sz b), r) := by
      change elemStep (bodyP _) (.struct a :: .ident i.at' i.text ::
        ((sizeToks sz ++ symT .LC :: (b.toks ++ [symT .RC])) ++ r)) = _
      have e2 : (sizeToks sz ++ symT .LC :: (b.toks ++ [symT .RC])) ++ r =
          sizeToks sz ++ symT .LC :: (b.toks ++ symT .RC :: r) := by simp
      rw [e2]
      unfold elemStep
      simp only [structHead_toks, hb]
    rw [e]
    unfold stmtP
    simp only [h]

theorem Stmt.toks_ne (s : Stmt) : ∃ t l, s.toks = t :: l := by
  cases s with
  | struct d => obtain ⟨a, i, sz, b⟩ := d; exact ⟨_, _, by rw [Stmt.toks, Struct.toks]⟩
  | _ => exact ⟨_, _, rfl⟩

theorem protoP_sound : ∀ n ts f, protoP n ts = some f → ts = protoToks f ∧ WFfile f
  | _, [], f, h => by
    rw [protoP.eq_def] at h
    simp only [Option.some.injEq] at h
    subst h
    exact ⟨rfl, fun s hs => by cases hs⟩
  | 0, _ :: _, f, h => by simp [protoP] at h
  | n + 1, t :: r, f, h => by
    rw [protoP] at h
    split at h
    · rename_i s r' hs
      split at h
      · rename_i ss hss
        simp only [Option.some.injEq] at h
        subst h
        obtain ⟨h1, h2⟩ := stmtP_sound hs
        obtain ⟨h3, h4⟩ := protoP_sound n _ _ hss
        refine ⟨by rw [h1, h3]; simp [protoToks], fun x hx => ?_⟩
        rcases List.mem_cons.mp hx with rfl | hx
        · exact h2
        · exact h4 x hx
      · cases h
    · cases h

theorem protoP_toks : ∀ (f : List Stmt), WFfile f → ∀ n, f.length ≤ n → protoP n (protoToks f) = some f
  | [], _, n, _ => by cases n <;> rfl
  | s :: f, hwf, n, hn => by
    obtain ⟨k, rfl⟩ : ∃ k, n = k + 1 := ⟨n - 1, by simp at hn; omega⟩
    obtain ⟨t, l, hs⟩ := s.toks_ne
    have h1 := stmtP_toks s (hwf s (List.mem_cons_self ..)) (protoToks f)
    have ih := protoP_toks f (fun x hx => hwf x (List.mem_cons_of_mem _ hx)) k (by simp at hn; omega)
    have e : protoToks (s :: f) = s.toks ++ protoToks f := by simp [protoToks]
    rw [e]
    rw [hs, List.cons_append] at h1 ⊢
    rw [protoP, h1]
    simp only [ih]

/-- The parser returns a tree exactly if the tree is well formed and the tokens are its tokens. -/
theorem parse_iff (ts : List Tok) (f : List Stmt) : parse ts = some f ↔ WFfile f ∧ protoToks f = ts := by
  constructor
  · intro h
    obtain ⟨h1, h2⟩ := protoP_sound _ _ _ h
    exact ⟨h2, h1.symm⟩
  · rintro ⟨h1, rfl⟩
    exact protoP_toks f h1 _ (length_le_flatMap f fun s _ => s.toks_ne)

end Bubbler.Front
