import Verif.Front.Relocate
import Verif.Front.LexConv
import Verif.Props.FileProps

/-
What the lexer guarantees of parsed files: different definitions stand at different places, names are words.  These are the
hypotheses of C55-C58.
-/
namespace Bubbler.Front
open Comp Gen

/-! ### Places -/

/-- Line and column of a token that has them. -/
def Tok.place : Tok → Option (Nat × Nat)
  | .struct a => some (a.line, a.col)
  | .enum a => some (a.line, a.col)
  | .ident a _ => some (a.line, a.col)
  | .tk _ => none

def tokPlaces (ts : List Tok) : List (Nat × Nat) := ts.filterMap Tok.place

theorem tokPlaces_append (a b : List Tok) : tokPlaces (a ++ b) = tokPlaces a ++ tokPlaces b := List.filterMap_append
theorem tokPlaces_cons (t : Tok) (b : List Tok) : tokPlaces (t :: b) = t.place.toList ++ tokPlaces b := by
  cases h : t.place <;> simp [tokPlaces, List.filterMap_cons, h]

theorem sub_left {α : Type} {a b : List α} (c : List α) (h : a.Sublist b) : a.Sublist (b ++ c) :=
  h.trans (List.sublist_append_left b c)
theorem sub_right {α : Type} {a b : List α} (c : List α) (h : a.Sublist b) : a.Sublist (c ++ b) :=
  h.trans (List.sublist_append_right c b)

mutual
  theorem elem_places : ∀ e : Elem, (toElem e).places.Sublist (tokPlaces e.toks)
    | .basic q => List.nil_sublist _
    | .str => List.nil_sublist _
    | .bytes => List.nil_sublist _
    | .structName a n => List.nil_sublist _
    | .structDef d => by
      have := struct_places d
      simpa only [toElem, ElemA.places, Elem.toks] using this
    | .enumName a n => List.nil_sublist _
    | .ident n => List.nil_sublist _
  theorem ty_places : ∀ t : Ty, (toTy t).places.Sublist (tokPlaces t.toks)
    | .elem e => by
      have := elem_places e
      simpa only [toTy, TypeA.places, Ty.toks] using this
    | .array e len => by
      have := elem_places e
      simp only [toTy, TypeA.places, Ty.toks, tokPlaces_append]
      exact sub_left _ this
  theorem struct_places : ∀ d : Struct, (toStruct d).places.Sublist (tokPlaces d.toks)
    | .mk a n sz b => by
      have := body_places b
      simp only [toStruct, StructA.places, Struct.toks, tokPlaces_cons, tokPlaces_append, Tok.place, Option.toList]
      refine List.Sublist.append (List.Sublist.refl [_]) ?_
      exact sub_right _ (sub_right _ (sub_right _ (sub_left _ this)))
  theorem body_places : ∀ b : Body, (toBody b).places.Sublist (tokPlaces b.toks)
    | .nil => List.nil_sublist _
    | .cons f r => by
      have h1 := field_places f
      have h2 := body_places r
      simp only [toBody, BodyA.places, Body.toks, tokPlaces_append]
      exact List.Sublist.append h1 h2
  theorem field_places : ∀ f : Field, (toField f).places.Sublist (tokPlaces f.toks)
    | .empty => List.nil_sublist _
    | .void sz os => List.nil_sublist _
    | .const p n sz v os => List.nil_sublist _
    | .embedded t os => by
      have := ty_places t
      simp only [toField, FieldA.places, Field.toks, tokPlaces_append]
      exact sub_left _ this
    | .normal t n sz os ms => by
      have := ty_places t
      simp only [toField, FieldA.places, Field.toks, tokPlaces_append]
      exact sub_left _ this
end

theorem enumElem_places (e : EnumElem) : (toEnumElem e).places.Sublist (tokPlaces e.toks) := by
  cases e with
  | empty => exact List.nil_sublist _
  | value n v os c =>
    simp only [toEnumElem, EnumElemA.places, EnumElem.toks, tokPlaces_cons, Id.tok, Tok.place, Option.toList]
    exact sub_left _ (List.Sublist.refl _)

theorem flatMap_sub {α β γ : Type} {f : α → List γ} {g : α → List γ} (h : ∀ a, (f a).Sublist (g a)) :
    ∀ l : List α, (l.flatMap f).Sublist (l.flatMap g)
  | [] => List.Sublist.refl _
  | a :: l => by
    simp only [List.flatMap_cons]
    exact List.Sublist.append (h a) (flatMap_sub (β := β) h l)

theorem tokPlaces_flatMap {α : Type} (g : α → List Tok) (l : List α) :
    tokPlaces (l.flatMap g) = l.flatMap fun a => tokPlaces (g a) := by
  simp [tokPlaces, List.filterMap_flatMap]

theorem enum_places (d : Enum) : (TopA.enum (toEnum d)).places.Sublist (tokPlaces d.toks) := by
  simp only [TopA.places, toEnum, Enum.toks, tokPlaces_cons, tokPlaces_append, Tok.place, Option.toList, tokPlaces_flatMap,
    List.flatMap_map]
  refine List.Sublist.append (List.Sublist.refl [_]) ?_
  exact sub_right _ (sub_right _ (sub_right _ (sub_left _ (flatMap_sub (β := Unit) enumElem_places _))))

theorem file_places (resolve : Str → Option Str) (f : List Stmt) :
    (places (toFile resolve f)).Sublist (tokPlaces (protoToks f)) := by
  unfold places protoToks
  rw [tokPlaces_flatMap]
  simp only [toFile]
  induction f with
  | nil => exact List.Sublist.refl _
  | cons s f ih =>
    rw [List.flatMap_cons]
    cases s with
    | struct d =>
      simp only [List.filterMap_cons, List.flatMap_cons]
      exact List.Sublist.append (struct_places d) ih
    | enum d =>
      simp only [List.filterMap_cons, List.flatMap_cons]
      exact List.Sublist.append (enum_places d) ih
    | imp s =>
      rw [List.filterMap_cons_none rfl]
      exact sub_right _ ih
    | package i is =>
      rw [List.filterMap_cons_none rfl]
      exact sub_right _ ih
    | option o =>
      rw [List.filterMap_cons_none rfl]
      exact sub_right _ ih
    | empty =>
      rw [List.filterMap_cons_none rfl]
      exact sub_right _ ih

theorem mkTok_places (ts : List (Tk × At)) :
    (tokPlaces (ts.map mkTok)).Sublist (ts.map fun t => (t.2.line, t.2.col)) := by
  induction ts with
  | nil => exact List.Sublist.refl _
  | cons t ts ih =>
    obtain ⟨k, a⟩ := t
    rw [List.map_cons, List.map_cons, tokPlaces_cons]
    refine List.Sublist.append (l₂ := [(a.line, a.col)]) ?_ ih
    cases hk : (mkTok (k, a)).place with
    | none => exact List.nil_sublist _
    | some x =>
      have : x = (a.line, a.col) := by
        cases k with
        | kw w => cases w <;> first | exact (Option.some.inj hk).symm | exact nomatch hk
        | ident s => exact (Option.some.inj hk).symm
        | _ => exact nomatch hk
      subst this
      exact List.Sublist.refl _

/-- Different definitions of a text stand at different places. -/
theorem read_places {resolve : Str → Option Str} {s : Str} {f : List Stmt} (h : read s = some f) :
    (places (toFile resolve f)).Nodup := by
  unfold read at h
  cases hl : lex s with
  | none => rw [hl] at h; exact nomatch h
  | some ts =>
    rw [hl] at h
    simp only at h
    obtain ⟨_, hp⟩ := (parse_iff _ _).1 h
    have h1 := file_places resolve f
    rw [hp] at h1
    refine (h1.trans (mkTok_places ts)).nodup ?_
    have := lex_places hl
    rw [show (ts.map fun t => (t.2.line, t.2.col)) = (ts.map Prod.snd).map fun a => (a.line, a.col) by rw [List.map_map]; rfl]
    refine List.Pairwise.map _ ?_ this
    intro a b hab he
    apply hab
    obtain ⟨x, y⟩ := a
    obtain ⟨x', y'⟩ := b
    simp only [Prod.mk.injEq] at he
    rw [he.1, he.2]

theorem srcFS_places (resolve : Str → Str → Option Str) (d : Str → Src) (q : Str) (g : FileA)
    (h : srcFS resolve d q = .parsed g) : (places g).Nodup := by
  unfold srcFS at h
  cases hd : d q with
  | missing => rw [hd] at h; exact nomatch h
  | unreadable => rw [hd] at h; exact nomatch h
  | text s =>
    rw [hd] at h
    simp only [Src.file] at h
    cases hr : read s with
    | none => rw [hr] at h; exact nomatch h
    | some f =>
      rw [hr] at h
      simp only [FileS.parsed.injEq] at h
      subst h
      exact read_places hr

/-! ### Words -/

/-- `n` is the text of an identifier in `ts`. -/
def HasWord (ts : List Tok) (n : Str) : Prop := ∃ a, Tok.ident a n ∈ ts

theorem HasWord.left {ts us : List Tok} {n : Str} (h : HasWord ts n) : HasWord (ts ++ us) n :=
  h.imp fun _ h => List.mem_append_left _ h
theorem HasWord.right {ts us : List Tok} {n : Str} (h : HasWord ts n) : HasWord (us ++ ts) n :=
  h.imp fun _ h => List.mem_append_right _ h
theorem HasWord.tail {ts : List Tok} {t : Tok} {n : Str} (h : HasWord ts n) : HasWord (t :: ts) n :=
  h.imp fun _ h => List.mem_cons_of_mem _ h
theorem HasWord.head (i : Id) (ts : List Tok) : HasWord (i.tok :: ts) i.text := ⟨i.at', List.mem_cons_self⟩

mutual
  theorem elem_words : ∀ (e : Elem) (n : Str), n ∈ (toElem e).decls → HasWord e.toks n
    | .basic q, n, h => nomatch h
    | .str, n, h => nomatch h
    | .bytes, n, h => nomatch h
    | .structName a i, n, h => nomatch h
    | .structDef d, n, h => by
      have h' : n ∈ (toStruct d).decls := h
      have := struct_words d n h'
      simpa only [Elem.toks] using this
    | .enumName a i, n, h => nomatch h
    | .ident i, n, h => nomatch h
  theorem ty_words : ∀ (t : Ty) (n : Str), n ∈ (toTy t).decls → HasWord t.toks n
    | .elem e, n, h => by
      have h' : n ∈ (toElem e).decls := h
      have := elem_words e n h'
      simpa only [Ty.toks] using this
    | .array e len, n, h => by
      have h' : n ∈ (toElem e).decls := h
      have := elem_words e n h'
      simp only [Ty.toks]
      exact this.left
  theorem struct_words : ∀ (d : Struct) (n : Str), n ∈ (toStruct d).decls → HasWord d.toks n
    | .mk a i sz b, n, h => by
      have hb := body_words b n
      simp only [toStruct, StructA.decls, List.mem_append, List.mem_singleton] at h
      simp only [Struct.toks]
      rcases h with h | rfl
      · exact (HasWord.right (HasWord.tail (hb h).left)).tail.tail
      · exact (HasWord.head i _).tail
  theorem body_words : ∀ (b : Body) (n : Str), n ∈ (toBody b).decls → HasWord b.toks n
    | .nil, n, h => nomatch h
    | .cons f r, n, h => by
      have h1 := field_words f n
      have h2 := body_words r n
      simp only [toBody, BodyA.decls, List.mem_append] at h
      simp only [Body.toks]
      rcases h with h | h
      · exact (h1 h).left
      · exact (h2 h).right
  theorem field_words : ∀ (f : Field) (n : Str), n ∈ (toField f).decls → HasWord f.toks n
    | .empty, n, h => nomatch h
    | .void sz os, n, h => nomatch h
    | .const p i sz v os, n, h => nomatch h
    | .embedded t os, n, h => by
      have ht := ty_words t n
      simp only [Field.toks]
      refine HasWord.left (ht ?_)
      have h' : n ∈ (FieldA.embedded (toTy t) (os.map toOpt)).decls := h
      cases hte : toTy t with
      | array e len => rw [hte] at h'; exact nomatch h'
      | elem e =>
        rw [hte] at h'
        cases e with
        | structDef d =>
          obtain ⟨l, c, m, s, b⟩ := d
          simp only [FieldA.decls] at h'
          simp only [TypeA.decls, ElemA.decls, StructA.decls, List.mem_append]
          exact .inl h'
        | _ => exact nomatch h'
    | .normal t i sz os ms, n, h => by
      have h' : n ∈ (toTy t).decls := h
      have := ty_words t n h'
      simp only [Field.toks]
      exact this.left
end

theorem file_words (resolve : Str → Option Str) (f : List Stmt) (n : Str) (h : n ∈ declared (toFile resolve f)) :
    HasWord (protoToks f) n := by
  unfold declared at h
  obtain ⟨t, ht, hn⟩ := List.mem_flatMap.1 h
  obtain ⟨s, hs, he⟩ := List.mem_filterMap.1 ht
  have key : HasWord s.toks n := by
    cases s with
    | struct d =>
      simp only [Option.some.injEq] at he
      subst he
      exact struct_words d n hn
    | enum d =>
      simp only [Option.some.injEq] at he
      subst he
      have : n = d.name.text := List.mem_singleton.1 hn
      subst this
      exact (HasWord.head d.name _).tail
    | _ => exact nomatch he
  obtain ⟨a, ha⟩ := key
  exact ⟨a, List.mem_flatMap.2 ⟨s, hs, ha⟩⟩

theorem pkg_words (resolve : Str → Option Str) (f : List Stmt) (p : Str) (h : p ∈ (toFile resolve f).pkgs) :
    ∃ w ws, p = w ++ ws.flatMap (fun x => '.' :: x) ∧ ∀ x ∈ w :: ws, HasWord (protoToks f) x := by
  obtain ⟨s, hs, he⟩ := List.mem_filterMap.1 h
  cases s with
  | package i is =>
    simp only [Option.some.injEq] at he
    subst he
    refine ⟨i.text, is.map (·.text), ?_, ?_⟩
    · simp [fullName, List.flatMap_map]
    · intro x hx
      have key : HasWord (Stmt.package i is).toks x := by
        rcases List.mem_cons.1 hx with rfl | hx
        · exact (HasWord.head i _).tail
        · obtain ⟨j, hj, rfl⟩ := List.mem_map.1 hx
          refine HasWord.tail (HasWord.tail (HasWord.left ⟨j.at', ?_⟩))
          exact List.mem_flatMap.2 ⟨j, hj, by simp [Id.tok]⟩
      obtain ⟨a, ha⟩ := key
      exact ⟨a, List.mem_flatMap.2 ⟨_, hs, ha⟩⟩
  | _ => exact nomatch he

theorem placed_valid {items : List (Gap × Tk)} (h : ∀ i ∈ items, i.2.Valid) (a : At) : ∀ x ∈ placed a items, x.1.Valid := by
  induction items generalizing a with
  | nil => intro x hx; exact nomatch hx
  | cons i r ih =>
    obtain ⟨g, k⟩ := i
    intro x hx
    rcases List.mem_cons.1 hx with rfl | hx
    · exact h (g, k) (by simp)
    · exact ih (fun i hi => h i (by simp [hi])) _ x hx

theorem mkTok_word {ts : List (Tk × At)} (h : ∀ x ∈ ts, x.1.Valid) {n : Str} (hn : HasWord (ts.map mkTok) n) :
    IsWord n ∧ n ∉ reserved := by
  obtain ⟨a, ha⟩ := hn
  obtain ⟨⟨k, b⟩, hx, he⟩ := List.mem_map.1 ha
  have hv := h _ hx
  cases k with
  | kw w => cases w <;> exact nomatch he
  | ident s =>
    have : s = n := by
      simp only [mkTok, Tok.ident.injEq] at he
      exact he.2
    subst this
    exact hv
  | _ => exact nomatch he

theorem word_chars {n : Str} (h : IsWord n) : n ≠ [] ∧ '/' ∉ n ∧ '.' ∉ n := by
  obtain ⟨c, cs, rfl, h1, h2⟩ := h
  have key : ∀ x, (x = '/' ∨ x = '.') → x ∉ c :: cs := by
    intro x hx hm
    have h3 : isLetter x = false ∧ isDec x = false := by
      rcases hx with rfl | rfl <;> decide
    rcases List.mem_cons.1 hm with rfl | hm
    · rw [h3.1] at h1; exact nomatch h1
    · rcases h2 x hm with h4 | h4
      · rw [h3.1] at h4; exact nomatch h4
      · rw [h3.2] at h4; exact nomatch h4
  exact ⟨by simp, key _ (.inl rfl), key _ (.inr rfl)⟩

theorem join_words (w : Str) (ws : List Str) : w ++ ws.flatMap (fun x => '.' :: x) = Text.joinOn '.' (w :: ws) := by
  induction ws generalizing w with
  | nil => simp [Text.joinOn]
  | cons x xs ih =>
    rw [List.flatMap_cons, List.cons_append, ih x]
    rfl

/-- Names of a text are words. -/
theorem read_words {resolve : Str → Option Str} {s : Str} {f : List Stmt} (h : read s = some f) : Words (toFile resolve f) := by
  unfold read at h
  cases hl : lex s with
  | none => rw [hl] at h; exact nomatch h
  | some ts =>
    rw [hl] at h
    simp only at h
    obtain ⟨_, hp⟩ := (parse_iff _ _).1 h
    obtain ⟨items, t, _, _, hi, _, rfl⟩ := lexAt_reads (a := ⟨1, 0⟩) hl
    have hv := placed_valid (fun i h => (hi i h).2) ⟨1, 0⟩
    have hw : ∀ n, HasWord (protoToks f) n → n ≠ [] ∧ '/' ∉ n ∧ '.' ∉ n := by
      intro n hn
      rw [hp] at hn
      exact word_chars (mkTok_word hv hn).1
    constructor
    · intro p hpk c hc
      obtain ⟨w, ws, rfl, hws⟩ := pkg_words resolve f p hpk
      rw [join_words, Text.split_join '.' _ (by simp) (fun x hx => (hw x (hws x hx)).2.2)] at hc
      have := hw c (hws c hc)
      exact ⟨this.1, this.2.1⟩
    · intro n hn
      exact (hw n (file_words resolve f n hn)).2.1

theorem srcFS_words (resolve : Str → Str → Option Str) (d : Str → Src) (q : Str) (g : FileA)
    (h : srcFS resolve d q = .parsed g) : Words g := by
  unfold srcFS at h
  cases hd : d q with
  | missing => rw [hd] at h; exact nomatch h
  | unreadable => rw [hd] at h; exact nomatch h
  | text s =>
    rw [hd] at h
    simp only [Src.file] at h
    cases hr : read s with
    | none => rw [hr] at h; exact nomatch h
    | some f =>
      rw [hr] at h
      simp only [FileS.parsed.injEq] at h
      subst h
      exact read_words hr

end Bubbler.Front
