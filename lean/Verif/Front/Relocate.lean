import Verif.Front.ParseProofs
import Verif.Front.LexTop
import Verif.Front.Literal
import Verif.Compiler.Move

/-
The same tokens at other places: the tree is the same up to the places, and so is what the compiler makes of it.
-/
namespace Bubbler.Front
open Comp

/-! ### Moving trees -/

variable (σ : At → At)

def Tok.move : Tok → Tok
  | .struct a => .struct (σ a)
  | .enum a => .enum (σ a)
  | .ident a s => .ident (σ a) s
  | .tk t => .tk t

def Id.move (i : Id) : Id := ⟨σ i.at', i.text⟩
def Opt.move (o : Opt) : Opt := ⟨o.name.move σ, o.val⟩
def Meth.move (m : Meth) : Meth := ⟨m.set, m.name.map (·.move σ), m.ty, m.expr⟩
def moveVal : Const ⊕ Id → Const ⊕ Id
  | .inl c => .inl c
  | .inr i => .inr (i.move σ)

mutual
  def Elem.move : Elem → Elem
    | .basic p => .basic p
    | .str => .str
    | .bytes => .bytes
    | .structName a n => .structName (σ a) (n.move σ)
    | .structDef d => .structDef d.move
    | .enumName a n => .enumName (σ a) (n.move σ)
    | .ident n => .ident (n.move σ)
  def Ty.move : Ty → Ty
    | .elem e => .elem e.move
    | .array e len => .array e.move len
  def Struct.move : Struct → Struct
    | .mk a n sz b => .mk (σ a) (n.move σ) sz b.move
  def Body.move : Body → Body
    | .nil => .nil
    | .cons f r => .cons f.move r.move
  def Field.move : Field → Field
    | .empty => .empty
    | .void sz os => .void sz (os.map (·.move σ))
    | .const p n sz v os => .const p (n.map (·.move σ)) sz (moveVal σ v) (os.map (·.move σ))
    | .embedded t os => .embedded t.move (os.map (·.move σ))
    | .normal t n sz os ms => .normal t.move (n.move σ) sz (os.map (·.move σ)) (ms.map (·.map (·.move σ)))
end

def EnumElem.move : EnumElem → EnumElem
  | .empty => .empty
  | .value n v os c => .value (n.move σ) (v.map (moveVal σ)) (os.map (·.move σ)) c
def Enum.move (d : Enum) : Enum := ⟨σ d.at', d.name.move σ, d.size, d.body.map (·.move σ)⟩
def Stmt.move : Stmt → Stmt
  | .imp s => .imp s
  | .package i is => .package (i.move σ) (is.map (·.move σ))
  | .option o => .option (o.move σ)
  | .struct d => .struct (d.move σ)
  | .enum d => .enum (d.move σ)
  | .empty => .empty

/-! ### Their tokens -/

theorem map_tk {l : List Tok} (h : ∀ t ∈ l, ∃ k, t = .tk k) : l.map (Tok.move σ) = l := by
  induction l with
  | nil => rfl
  | cons t r ih =>
    obtain ⟨k, rfl⟩ := h t (by simp)
    rw [List.map_cons, ih fun t ht => h t (by simp [ht])]
    rfl

theorem sign_move (sg : Option Bool) : (signToks sg).map (Tok.move σ) = signToks sg := by
  cases sg with
  | none => rfl
  | some b => cases b <;> rfl

theorem const_move (c : Const) : c.toks.map (Tok.move σ) = c.toks := by
  cases c <;> simp [Const.toks, sign_move, Tok.move]

theorem size_move (s : Size) : s.toks.map (Tok.move σ) = s.toks := by
  cases s <;> rfl

theorem sizeQ_move (s : Option Size) : (sizeToks s).map (Tok.move σ) = sizeToks s := by
  cases s with
  | none => rfl
  | some s => exact size_move σ s

theorem expr_move : ∀ e : Expr, e.toks.map (Tok.move σ) = e.toks
  | .value => rfl
  | .const c => const_move σ c
  | .parens e => by simp [Expr.toks, Tok.move, expr_move e]
  | .unary op e => by simp [Expr.toks, Tok.move, expr_move e]
  | .cast p e => by simp [Expr.toks, Tok.move, expr_move e]
  | .binary op a b => by simp [Expr.toks, Tok.move, expr_move a, expr_move b]
  | .ternary c a b => by simp [Expr.toks, Tok.move, expr_move a, expr_move b, expr_move c]

theorem Id.tok_move (i : Id) : (i.move σ).tok = i.tok.move σ := rfl

theorem opt_move (o : Opt) : (o.move σ).toks = o.toks.map (Tok.move σ) := by
  simp [Opt.toks, Opt.move, Id.tok_move, Tok.move, const_move]

theorem opts_move (os : List Opt) : optsToks (os.map (·.move σ)) = (optsToks os).map (Tok.move σ) := by
  cases os with
  | nil => rfl
  | cons o os =>
    simp only [List.map_cons, optsToks, List.map_append, opt_move, List.flatMap_map, List.map_flatMap, List.map_nil]
    simp [Tok.move]

theorem idQ_move (n : Option Id) : idToks (n.map (·.move σ)) = (idToks n).map (Tok.move σ) := by
  cases n <;> rfl

theorem meth_move (m : Meth) : (m.move σ).toks = m.toks.map (Tok.move σ) := by
  obtain ⟨set, n, ty, e⟩ := m
  cases set <;> simp [Meth.toks, Meth.move, idQ_move, Tok.move, expr_move]

theorem meths_move (ms : Option (List Meth)) :
    methsToks (ms.map (·.map (·.move σ))) = (methsToks ms).map (Tok.move σ) := by
  cases ms with
  | none => rfl
  | some l => simp [methsToks, Tok.move, List.flatMap_map, List.map_flatMap, meth_move]

theorem val_move (v : Const ⊕ Id) : valToks (moveVal σ v) = (valToks v).map (Tok.move σ) := by
  cases v with
  | inl c => simp [valToks, moveVal, const_move]
  | inr i => rfl

mutual
  theorem elem_move : ∀ e : Elem, (e.move σ).toks = e.toks.map (Tok.move σ)
    | .basic p => rfl
    | .str => rfl
    | .bytes => rfl
    | .structName a n => rfl
    | .structDef d => by
      have := struct_move d
      simpa only [Elem.move, Elem.toks] using this
    | .enumName a n => rfl
    | .ident n => rfl
  theorem ty_move : ∀ t : Ty, (t.move σ).toks = t.toks.map (Tok.move σ)
    | .elem e => by
      have := elem_move e
      simpa only [Ty.move, Ty.toks] using this
    | .array e len => by
      have := elem_move e
      simp only [Ty.move, Ty.toks, this, List.map_append]
      rfl
  theorem struct_move : ∀ d : Struct, (d.move σ).toks = d.toks.map (Tok.move σ)
    | .mk a n sz b => by
      have := body_move b
      simp [Struct.move, Struct.toks, this, sizeQ_move, Tok.move, Id.tok_move]
  theorem body_move : ∀ b : Body, (b.move σ).toks = b.toks.map (Tok.move σ)
    | .nil => rfl
    | .cons f r => by
      have h1 := field_move f
      have h2 := body_move r
      simp only [Body.move, Body.toks, h1, h2, List.map_append]
  theorem field_move : ∀ f : Field, (f.move σ).toks = f.toks.map (Tok.move σ)
    | .empty => rfl
    | .void sz os => by simp [Field.move, Field.toks, size_move, opts_move, Tok.move]
    | .const p n sz v os => by
      simp [Field.move, Field.toks, sizeQ_move, opts_move, idQ_move, val_move, Tok.move]
    | .embedded t os => by
      have := ty_move t
      simp [Field.move, Field.toks, this, opts_move, Tok.move]
    | .normal t n sz os ms => by
      have := ty_move t
      simp [Field.move, Field.toks, this, opts_move, sizeQ_move, meths_move, Tok.move, Id.tok_move]
end

theorem enumElem_move (e : EnumElem) : (e.move σ).toks = e.toks.map (Tok.move σ) := by
  cases e with
  | empty => rfl
  | value n v os c =>
    cases v with
    | none => simp [EnumElem.move, EnumElem.toks, opts_move, Tok.move, Id.tok_move]
    | some v => simp [EnumElem.move, EnumElem.toks, opts_move, Tok.move, Id.tok_move, val_move]

theorem enum_move (d : Enum) : (d.move σ).toks = d.toks.map (Tok.move σ) := by
  simp [Enum.move, Enum.toks, size_move, Tok.move, Id.tok_move, List.flatMap_map, List.map_flatMap, enumElem_move]

theorem stmt_move (s : Stmt) : (s.move σ).toks = s.toks.map (Tok.move σ) := by
  cases s with
  | imp s => rfl
  | package i is =>
    simp [Stmt.move, Stmt.toks, Tok.move, Id.tok_move, List.flatMap_map, List.map_flatMap]
  | option o => simp [Stmt.move, Stmt.toks, opt_move, Tok.move]
  | struct d => exact struct_move σ d
  | enum d => exact enum_move σ d
  | empty => rfl

theorem proto_move (f : List Stmt) : protoToks (f.map (·.move σ)) = (protoToks f).map (Tok.move σ) := by
  simp [protoToks, List.flatMap_map, List.map_flatMap, stmt_move]

mutual
  theorem elem_wf : ∀ {e : Elem}, e.WF → (e.move σ).WF
    | .basic p, _ => trivial
    | .str, _ => trivial
    | .bytes, _ => trivial
    | .structName a n, _ => trivial
    | .structDef d, h => by
      have h' : d.WF := h
      exact struct_wf h'
    | .enumName a n, _ => trivial
    | .ident n, _ => trivial
  theorem ty_wf : ∀ {t : Ty}, t.WF → (t.move σ).WF
    | .elem e, h => by
      have h' : e.WF := h
      exact elem_wf h'
    | .array e len, h => by
      have h' : e.WF := h
      exact elem_wf h'
  theorem struct_wf : ∀ {d : Struct}, d.WF → (d.move σ).WF
    | .mk a n sz b, h => by
      have h' : b.WF := h
      exact body_wf h'
  theorem body_wf : ∀ {b : Body}, b.WF → (b.move σ).WF
    | .nil, _ => trivial
    | .cons f r, h => by
      have h' : f.WF ∧ r.WF := h
      have h1 := field_wf h'.1
      have h2 := body_wf h'.2
      exact ⟨h1, h2⟩
  theorem field_wf : ∀ {f : Field}, f.WF → (f.move σ).WF
    | .empty, _ => trivial
    | .void sz os, _ => trivial
    | .const p n sz v os, _ => trivial
    | .embedded t os, h => by
      have h' : t.WF := h
      exact ty_wf h'
    | .normal t n sz os ms, h => by
      have h' : t.WF ∧ ∀ l, ms = some l → ∀ m ∈ l, m.WF := h
      have h1 := ty_wf h'.1
      refine ⟨h1, ?_⟩
      intro l hl m hm
      cases ms with
      | none => exact nomatch hl
      | some k =>
        simp only [Option.map_some, Option.some.injEq] at hl
        subst hl
        obtain ⟨m', hm', rfl⟩ := List.mem_map.1 hm
        exact h'.2 k rfl m' hm'
end

theorem file_wf {f : List Stmt} (h : WFfile f) : WFfile (f.map (·.move σ)) := by
  intro s hs
  obtain ⟨s', hs', rfl⟩ := List.mem_map.1 hs
  have := h s' hs'
  cases s' with
  | struct d => exact struct_wf σ this
  | imp s => trivial
  | package i is => trivial
  | option o => trivial
  | enum d => trivial
  | empty => trivial

/-! ### Reading -/

theorem parse_move_of {ts : List Tok} {f : List Stmt} (h : parse ts = some f) :
    parse (ts.map (Tok.move σ)) = some (f.map (·.move σ)) := by
  obtain ⟨h1, h2⟩ := (parse_iff ts f).1 h
  exact (parse_iff _ _).2 ⟨file_wf σ h1, by rw [proto_move, h2]⟩

theorem mkTok_move (k : Tk) (a : At) : mkTok (k, σ a) = (mkTok (k, a)).move σ := by
  cases k with
  | kw k => cases k <;> rfl
  | _ => rfl

/-! ### Places of tokens -/

def At.lt (a b : At) : Prop := a.line < b.line ∨ a.line = b.line ∧ a.col < b.col
def At.le (a b : At) : Prop := a = b ∨ a.lt b

theorem At.lt_trans {a b c : At} (h1 : a.lt b) (h2 : b.lt c) : a.lt c := by
  unfold At.lt at *; omega
theorem At.lt_irrefl (a : At) : ¬ a.lt a := by unfold At.lt; omega
theorem At.lt_of_lt_of_le {a b c : At} (h1 : a.lt b) (h2 : b.le c) : a.lt c := by
  rcases h2 with rfl | h2
  · exact h1
  · exact At.lt_trans h1 h2
theorem At.le_trans {a b c : At} (h1 : a.le b) (h2 : b.le c) : a.le c := by
  rcases h1 with rfl | h1
  · exact h2
  · exact .inr (At.lt_of_lt_of_le h1 h2)
theorem At.lt_after (a : At) (c : Char) : a.lt (a.after c) := by
  unfold At.lt At.after
  split
  · left; show a.line < a.line + 1; omega
  · right; exact ⟨rfl, by show a.col < a.col + 1; omega⟩
theorem At.le_over (a : At) (s : Str) : a.le (a.over s) := by
  induction s generalizing a with
  | nil => exact .inl rfl
  | cons c s ih => exact At.le_trans (.inr (At.lt_after a c)) (ih (a.after c))
theorem At.lt_over (a : At) {s : Str} (h : s ≠ []) : a.lt (a.over s) := by
  cases s with
  | nil => exact absurd rfl h
  | cons c s => exact At.lt_of_lt_of_le (At.lt_after a c) (At.le_over _ s)

theorem lexAt_places : ∀ (n : Nat) (s : Str), s.length ≤ n → ∀ (a : At) (ts : List (Tk × At)), lexAt a s = some ts →
    (∀ t ∈ ts, a.le t.2) ∧ (ts.map Prod.snd).Nodup
  | n, [], _, a, ts, h => by
    rw [lexAt_nil] at h
    simp only [Option.some.injEq] at h
    subst h
    exact ⟨by simp, by simp⟩
  | 0, c :: s, hn, a, ts, h => by simp at hn
  | n + 1, c :: s, hn, a, ts, h => by
    obtain ⟨x, rest, r, ts', hs, hx, _, hl, ht⟩ := lexAt_some h
    have hlen : rest.length ≤ n := by
      have h1 : (c :: s).length = x.length + rest.length := by rw [hs, List.length_append]
      have h2 : 0 < x.length := by cases x with | nil => exact absurd rfl hx | cons _ _ => simp
      simp only [List.length_cons] at h1 hn
      omega
    obtain ⟨h1, h2⟩ := lexAt_places n rest hlen _ ts' hl
    have h3 : ∀ t ∈ ts', a.lt t.2 := fun t ht => At.lt_of_lt_of_le (At.lt_over a hx) (h1 t ht)
    cases hk : r.tok x with
    | none =>
      rw [hk] at ht
      have ht : ts = ts' := ht
      subst ht
      exact ⟨fun t ht => .inr (h3 t ht), h2⟩
    | some k =>
      rw [hk] at ht
      have ht : ts = (k, a) :: ts' := ht
      subst ht
      refine ⟨?_, ?_⟩
      · intro t ht
        rcases List.mem_cons.1 ht with rfl | ht
        · exact .inl rfl
        · exact .inr (h3 t ht)
      · rw [List.map_cons, List.nodup_cons]
        refine ⟨?_, h2⟩
        intro hm
        obtain ⟨t, ht, he⟩ := List.mem_map.1 hm
        have := h3 t ht
        rw [he] at this
        exact At.lt_irrefl _ this

/-- No two tokens begin at the same place. -/
theorem lex_places {s : Str} {ts : List (Tk × At)} (h : lex s = some ts) : (ts.map Prod.snd).Nodup :=
  (lexAt_places s.length s (Nat.le_refl _) ⟨1, 0⟩ ts h).2

/-- A correspondence between two lists without repetitions extends to everything. -/
theorem extend_map {α : Type} [DecidableEq α] : ∀ (l m : List α), l.length = m.length → l.Nodup → m.Nodup →
    ∃ f : α → α, (∀ x y, f x = f y → x = y) ∧ l.map f = m
  | [], [], _, _, _ => ⟨id, fun _ _ h => h, rfl⟩
  | [], _ :: _, h, _, _ => nomatch h
  | _ :: _, [], h, _, _ => nomatch h
  | a :: l, b :: m, h, hl, hm => by
    rw [List.nodup_cons] at hl hm
    obtain ⟨f, hf, hmap⟩ := extend_map l m (by simpa using h) hl.2 hm.2
    let g : α → α := fun x => if f x = f a then b else if f x = b then f a else f x
    refine ⟨g, ?_, ?_⟩
    · intro x y hxy
      simp only [g] at hxy
      apply hf
      split at hxy <;> split at hxy <;> (try split at hxy) <;> (try split at hxy) <;> simp_all
    · rw [List.map_cons]
      have h1 : g a = b := by simp [g]
      rw [h1]
      congr 1
      rw [← hmap]
      apply List.map_congr_left
      intro x hx
      have h2 : f x ≠ f a := fun he => hl.1 (hf _ _ he ▸ hx)
      have h3 : f x ≠ b := fun he => hm.1 (by rw [← he, ← hmap]; exact List.mem_map_of_mem hx)
      simp [g, h2, h3]

/-- The kinds of the tokens, without places. -/
def kinds (s : Str) : Option (List Tk) := (lex s).map (·.map Prod.fst)

theorem read_move {s s' : Str} (h : kinds s = kinds s') :
    ∃ σ : At → At, (∀ x y, σ x = σ y → x = y) ∧ read s' = (read s).map (·.map (Stmt.move σ)) := by
  unfold kinds at h
  unfold read
  cases h1 : lex s with
  | none =>
    rw [h1] at h
    cases h2 : lex s' with
    | none => exact ⟨id, fun _ _ h => h, rfl⟩
    | some ts' => rw [h2] at h; exact nomatch h
  | some ts =>
    rw [h1] at h
    cases h2 : lex s' with
    | none => rw [h2] at h; exact nomatch h
    | some ts' =>
      rw [h2] at h
      simp only [Option.map_some, Option.some.injEq] at h
      have hlen : (ts.map Prod.snd).length = (ts'.map Prod.snd).length := by
        have := congrArg List.length h
        simpa using this
      obtain ⟨σ, hσ, hm⟩ := extend_map _ _ hlen (lex_places h1) (lex_places h2)
      have e : ts'.map mkTok = (ts.map mkTok).map (Tok.move σ) := by
        clear h1 h2 hlen
        induction ts generalizing ts' with
        | nil =>
          cases ts' with
          | nil => rfl
          | cons _ _ => exact nomatch h
        | cons t ts ih =>
          cases ts' with
          | nil => exact nomatch h
          | cons t' ts' =>
            simp only [List.map_cons, List.cons.injEq] at h hm
            obtain ⟨k, a⟩ := t
            obtain ⟨k', a'⟩ := t'
            simp only at h hm
            rw [List.map_cons, List.map_cons, List.map_cons, ih _ h.2 hm.2, ← h.1, ← hm.1, mkTok_move]
      refine ⟨σ, hσ, ?_⟩
      simp only [e]
      cases hp : parse (ts.map mkTok) with
      | some f => exact parse_move_of σ hp
      | none =>
        cases hq : parse ((ts.map mkTok).map (Tok.move σ)) with
        | none => rfl
        | some f =>
          exfalso
          obtain ⟨τ, hτ⟩ : ∃ τ : At → At, ∀ x, τ (σ x) = x := by
            refine ⟨fun y => open Classical in if h : ∃ x, σ x = y then h.choose else y, ?_⟩
            intro x
            have hx : ∃ z, σ z = σ x := ⟨x, rfl⟩
            simp only [dif_pos hx]
            exact hσ _ _ hx.choose_spec
          have := parse_move_of τ hq
          have e2 : ((ts.map mkTok).map (Tok.move σ)).map (Tok.move τ) = ts.map mkTok := by
            rw [List.map_map]
            conv => rhs; rw [← List.map_id (ts.map mkTok)]
            apply List.map_congr_left
            intro t _
            cases t <;> simp [Tok.move, hτ]
          rw [e2, hp] at this
          exact nomatch this

/-! ### The files of the compiler -/

/-- The change of places in all files. -/
def spread (σ : Str → At → At) (q : Pos) : Pos := ⟨q.file, (σ q.file ⟨q.line, q.col⟩).line, (σ q.file ⟨q.line, q.col⟩).col⟩

theorem spread_moves {σ : Str → At → At} (h : ∀ p x y, σ p x = σ p y → x = y) : Moves (spread σ) where
  file _ := rfl
  inj := by
    intro p q he
    obtain ⟨f, l, c⟩ := p
    obtain ⟨f', l', c'⟩ := q
    simp only [spread, Pos.mk.injEq] at he
    obtain ⟨rfl, h1, h2⟩ := he
    have := h f ⟨l, c⟩ ⟨l', c'⟩ (by
      rcases ha : σ f ⟨l, c⟩ with ⟨a, b⟩
      rcases hb : σ f ⟨l', c'⟩ with ⟨a', b'⟩
      rw [ha, hb] at h1 h2
      simp only at h1 h2
      rw [h1, h2])
    simp only [At.mk.injEq] at this
    rw [this.1, this.2]

variable {τ : Str → At → At} (p : Str)

theorem toOpt_move (σ : At → At) (o : Opt) : toOpt (o.move σ) = toOpt o := rfl
theorem toMeth_move (σ : At → At) (m : Meth) : toMeth (m.move σ) = toMeth m := by
  simp only [toMeth, Meth.move, Option.map_map]
  rfl
theorem toVal_move (σ : At → At) (v : Const ⊕ Id) : toVal (moveVal σ v) = toVal v := by
  cases v <;> rfl
theorem text_move (σ : At → At) (n : Option Id) : (n.map (·.move σ)).map (·.text) = n.map (·.text) := by
  cases n <;> rfl
theorem toOpts_move (σ : At → At) (os : List Opt) : (os.map (·.move σ)).map toOpt = os.map toOpt := by
  rw [List.map_map]; rfl
theorem toMeths_move (σ : At → At) (ms : Option (List Meth)) :
    (ms.map (·.map (·.move σ))).map (·.map toMeth) = ms.map (·.map toMeth) := by
  cases ms with
  | none => rfl
  | some l =>
    simp only [Option.map_some, List.map_map, Option.some.injEq]
    apply List.map_congr_left
    intro m _
    exact toMeth_move σ m

theorem lineOf_spread (a : At) : lineOf (spread τ) p a.line a.col = (τ p a).line := rfl
theorem colOf_spread (a : At) : colOf (spread τ) p a.line a.col = (τ p a).col := rfl

mutual
  theorem toElem_move : ∀ e : Elem, toElem (e.move (τ p)) = (toElem e).move (spread τ) p
    | .basic q => rfl
    | .str => rfl
    | .bytes => rfl
    | .structName a n => rfl
    | .structDef d => by
      have := toStruct_move d
      simp only [Elem.move, toElem, ElemA.move, this]
    | .enumName a n => rfl
    | .ident n => rfl
  theorem toTy_move : ∀ t : Ty, toTy (t.move (τ p)) = (toTy t).move (spread τ) p
    | .elem e => by
      have := toElem_move e
      simp only [Ty.move, toTy, TypeA.move, this]
    | .array e len => by
      have := toElem_move e
      simp only [Ty.move, toTy, TypeA.move, this]
  theorem toStruct_move : ∀ d : Struct, toStruct (d.move (τ p)) = (toStruct d).move (spread τ) p
    | .mk a n sz b => by
      have := toBody_move b
      simp only [Struct.move, toStruct, StructA.move, this, lineOf_spread, colOf_spread]
      rfl
  theorem toBody_move : ∀ b : Body, toBody (b.move (τ p)) = (toBody b).move (spread τ) p
    | .nil => rfl
    | .cons f r => by
      have h1 := toField_move f
      have h2 := toBody_move r
      simp only [Body.move, toBody, BodyA.move, h1, h2]
  theorem toField_move : ∀ f : Field, toField (f.move (τ p)) = (toField f).move (spread τ) p
    | .empty => rfl
    | .void sz os => by simp only [Field.move, toField, FieldA.move, toOpts_move]
    | .const q n sz v os => by
      simp only [Field.move, toField, FieldA.move, toOpts_move, toVal_move, text_move]
    | .embedded t os => by
      have := toTy_move t
      simp only [Field.move, toField, FieldA.move, toOpts_move, this]
    | .normal t n sz os ms => by
      have := toTy_move t
      simp only [Field.move, toField, FieldA.move, toOpts_move, toMeths_move, this]
      rfl
end

theorem toEnumElem_move (e : EnumElem) : toEnumElem (e.move (τ p)) = (toEnumElem e).move (spread τ) p := by
  cases e with
  | empty => rfl
  | value n v os c =>
    simp only [EnumElem.move, toEnumElem, EnumElemA.move, lineOf_spread, colOf_spread]
    cases v with
    | none => rfl
    | some v => simp only [Option.map_some, toVal_move]; rfl

theorem toEnum_move (d : Enum) : toEnum (d.move (τ p)) = (toEnum d).move (spread τ) p := by
  simp only [Enum.move, toEnum, EnumA.move, lineOf_spread, colOf_spread, List.map_map]
  have : d.body.map (toEnumElem ∘ fun x => x.move (τ p)) =
      d.body.map ((fun x => EnumElemA.move (spread τ) p x) ∘ toEnumElem) := by
    apply List.map_congr_left
    intro e _
    exact toEnumElem_move p e
  rw [this]
  rfl

theorem fullName_move (σ : At → At) (i : Id) (is : List Id) : fullName (i.move σ) (is.map (·.move σ)) = fullName i is := by
  simp only [fullName, List.flatMap_map]
  rfl

theorem toFile_move (resolve : Str → Option Str) (f : List Stmt) :
    toFile resolve (f.map (·.move (τ p))) = (toFile resolve f).move (spread τ) p := by
  simp only [toFile, FileA.move, FileA.mk.injEq, List.filterMap_map, List.map_filterMap]
  refine ⟨?_, ?_, ?_, ?_⟩
  all_goals
    congr 1
    funext s
    cases s
  all_goals first | rfl | skip
  all_goals first
    | exact congrArg some (fullName_move _ _ _)
    | exact congrArg (fun d => some (TopA.struct d)) (toStruct_move p _)
    | exact congrArg (fun d => some (TopA.enum d)) (toEnum_move p _)

/-- Two sources with the same tokens. -/
def SameTokens : Src → Src → Prop
  | .missing, .missing => True
  | .unreadable, .unreadable => True
  | .text s, .text s' => kinds s = kinds s'
  | _, _ => False

theorem file_move (resolve : Str → Option Str) {x y : Src} (h : SameTokens x y) :
    ∃ σ : At → At, (∀ a b, σ a = σ b → a = b) ∧
      ∀ (τ : Str → At → At), τ p = σ → y.file resolve = (x.file resolve).move (spread τ) p := by
  cases x with
  | missing =>
    cases y with
    | missing => exact ⟨id, fun _ _ h => h, fun _ _ => rfl⟩
    | _ => exact h.elim
  | unreadable =>
    cases y with
    | unreadable => exact ⟨id, fun _ _ h => h, fun _ _ => rfl⟩
    | _ => exact h.elim
  | text s =>
    cases y with
    | text s' =>
      obtain ⟨σ, hσ, hr⟩ := read_move (s := s) (s' := s') h
      refine ⟨σ, hσ, ?_⟩
      intro τ hτ
      simp only [Src.file, hr]
      cases read s with
      | none => rfl
      | some f =>
        simp only [Option.map_some, FileS.move, FileS.parsed.injEq]
        subst hτ
        exact toFile_move p resolve f
    | _ => exact h.elim

theorem srcFS_move (resolve : Str → Str → Option Str) {d d' : Str → Src} (h : ∀ p, SameTokens (d p) (d' p)) :
    ∃ π, Moves π ∧ srcFS resolve d' = fun q => (srcFS resolve d q).move π q := by
  obtain ⟨τ, hτ⟩ := Classical.axiomOfChoice fun p => file_move p (resolve p) (h p)
  refine ⟨spread τ, spread_moves fun p => (hτ p).1, ?_⟩
  funext q
  exact (hτ q).2 τ rfl

end Bubbler.Front
