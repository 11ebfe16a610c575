import Verif.Front.LexTok

/-
The lexer on whole sources.
-/
namespace Bubbler.Front
open Re

theorem over_append (a : At) (s t : Str) : a.over (s ++ t) = (a.over s).over t := List.foldl_append ..

/-- Two successful amounts of fuel agree. -/
theorem lexFrom_fuel {n m : Nat} {a : At} {s : Str} (hn : s.length ≤ n) (hm : s.length ≤ m) : lexFrom n a s = lexFrom m a s := by
  induction n generalizing m a s with
  | zero => rw [List.length_eq_zero_iff.mp (Nat.le_zero.mp hn)]; cases m <;> rfl
  | succ n ih =>
    cases s with
    | nil => cases m <;> rfl
    | cons c s =>
      cases m with
      | zero => exact absurd hm (by simp)
      | succ m =>
        simp only [lexFrom]
        cases hb : best (c :: s) rules with
        | none => rfl
        | some x =>
          obtain ⟨k, r⟩ := x
          cases k with
          | zero => rfl
          | succ k =>
            simp only
            rw [ih (m := m)]
            · simp only [List.length_drop, List.length_cons] at hn ⊢; omega
            · simp only [List.length_drop, List.length_cons] at hm ⊢; omega

/-- The tokens of a source that begins at `a`. -/
def lexAt (a : At) (s : Str) : Option (List (Tk × At)) := lexFrom s.length a s

def consTok (o : Option Tk) (a : At) (ts : List (Tk × At)) : List (Tk × At) :=
  match o with
  | some t => (t, a) :: ts
  | none => ts

theorem lexAt_step {a : At} {x rest : Str} {r : Rule} (hx : x ≠ [])
    (hb : best (x ++ rest) rules = some (x.length, r)) :
    lexAt a (x ++ rest) = (lexAt (a.over x) rest).map (consTok (r.tok x) a) := by
  cases x with
  | nil => exact absurd rfl hx
  | cons c x =>
    unfold lexAt
    rw [List.cons_append, List.length_cons, lexFrom]
    rw [show best (c :: (x ++ rest)) rules = some (x.length + 1, r) from hb]
    simp only
    have e1 : (c :: (x ++ rest)).take (x.length + 1) = c :: x := by simp
    have e2 : (c :: (x ++ rest)).drop (x.length + 1) = rest := by simp
    rw [e1, e2, lexFrom_fuel (n := (x ++ rest).length) (m := rest.length) (by simp) (Nat.le_refl _)]
    cases lexFrom rest.length (a.over (c :: x)) rest with
    | none => rfl
    | some ts => simp only [Option.map_some, consTok]; cases r.tok (c :: x) <;> rfl

theorem lexAt_nil (a : At) : lexAt a [] = some [] := rfl

/-- If a source has tokens, a rule takes its beginning. -/
theorem lexAt_some {a : At} {c : Char} {s : Str} {ts : List (Tk × At)} (h : lexAt a (c :: s) = some ts) :
    ∃ x rest r ts', c :: s = x ++ rest ∧ x ≠ [] ∧ best (x ++ rest) rules = some (x.length, r) ∧
      lexAt (a.over x) rest = some ts' ∧ ts = consTok (r.tok x) a ts' := by
  have h0 := h
  unfold lexAt at h
  rw [List.length_cons, lexFrom] at h
  cases hb : best (c :: s) rules with
  | none => rw [hb] at h; cases h
  | some p =>
    obtain ⟨k, r⟩ := p
    rw [hb] at h
    cases k with
    | zero => cases h
    | succ k =>
      obtain ⟨_, _, he, hl, _, _⟩ := best_some hb
      obtain ⟨w, u, hs, hw, _⟩ := Rule.len_some hl
      have hwn : w ≠ [] := by intro e; rw [e] at hw; cases hw
      rw [hs, ← hw] at hb
      have := lexAt_step (a := a) hwn hb
      rw [← hs, h0] at this
      cases hr : lexAt (a.over w) u with
      | none => rw [hr] at this; cases this
      | some ts' =>
        rw [hr] at this
        exact ⟨w, u, r, ts', hs, hwn, hb, hr, Option.some.inj this⟩

theorem lexAt_tok (a : At) {t : Tk} (hv : t.Valid) {rest : Str} (hr : ∀ c, rest.head? = some c → glues t c = false) :
    lexAt a (t.text ++ rest) = (lexAt (a.over t.text) rest).map ((t, a) :: ·) := by
  obtain ⟨r, hb, ht⟩ := best_of_tok t hv rest hr
  obtain ⟨c, cs, e, _⟩ := Tk.text_first hv
  rw [lexAt_step (by rw [e]; simp) hb, ht]
  rfl

/-- A rule that wins and matches. -/
theorem best_kinds {x rest : Str} {q : Rule} (hq : q ∈ rules) (hl : q.len (x ++ rest) = some x.length) :
    ∃ r w u, best (x ++ rest) rules = some (w.length, r) ∧ x ++ rest = w ++ u ∧ Kinds r w ∧ x.length ≤ w.length ∧
      r.len (x ++ rest) = some w.length := by
  cases hb : best (x ++ rest) rules with
  | none => rw [best_none hb q hq] at hl; cases hl
  | some p =>
    obtain ⟨n, r⟩ := p
    obtain ⟨pre, post, he, h1, h2, h3⟩ := best_some hb
    obtain ⟨w, u, hs, rfl, hw⟩ := Rule.len_some h1
    refine ⟨r, w, u, rfl, hs, kinds_of (by rw [he]; simp) hw, ?_, h1⟩
    rw [he] at hq
    rcases List.mem_append.mp hq with hq | hq
    · exact Nat.le_of_lt (h2 q hq _ hl)
    · rcases List.mem_cons.mp hq with rfl | hq
      · rw [h1] at hl; rw [Option.some.inj hl]; exact Nat.le_refl _
      · exact h3 q hq _ hl

theorem wsRule_mem : wsRule ∈ rules := by simp [rules]
theorem lineRule_mem : lineRule ∈ rules := by simp [rules]
theorem commentRule_mem : commentRule ∈ rules := by simp [rules]

/-- A run of blanks is skipped. -/
theorem lexAt_run (a : At) {x rest : Str} (hx : x ≠ []) (hb : AllC isBlank x)
    (hr : ∀ c, rest.head? = some c → isBlank c = false) : lexAt a (x ++ rest) = lexAt (a.over x) rest := by
  have hl : wsRule.len (x ++ rest) = some x.length := by
    refine Rule.len_greedy rfl ((matches_ws x).mpr ⟨hx, hb⟩) ?_
    intro w hp hm
    apply Nat.le_of_not_lt; intro hlt
    obtain ⟨c, r, v, rfl, rfl⟩ := prefix_longer hp hlt
    have := ((matches_ws _).mp hm).2 c (by simp)
    rw [hr c rfl] at this; cases this
  obtain ⟨r, w, u, hbest, hs, hk, hle, hrl⟩ := best_kinds wsRule_mem hl
  have hr : r = wsRule := by
    cases x with
    | nil => exact absurd rfl hx
    | cons c x =>
      obtain ⟨v, rfl⟩ := prefix_first (w := w) ⟨u, hs.symm⟩ hk.ne
      exact (kinds_blank hk (hb c (by simp))).1
  subst hr
  have e : w.length = x.length := by rw [hl] at hrl; exact (Option.some.inj hrl).symm
  rw [e] at hbest
  rw [lexAt_step hx hbest]
  show Option.map (fun ts => ts) _ = _
  simp

/-- One blank is skipped. -/
theorem lexAt_ch (a : At) {c : Char} (hc : isBlank c = true) (rest : Str) : lexAt a (c :: rest) = lexAt (a.after c) rest := by
  have key : rest = rest.takeWhile isBlank ++ rest.dropWhile isBlank := (List.takeWhile_append_dropWhile).symm
  have hall : AllC isBlank (rest.takeWhile isBlank) := by
    intro x hx; exact (List.all_eq_true.mp (List.all_takeWhile (l := rest) (p := isBlank))) x hx
  have hnot : ∀ x, (rest.dropWhile isBlank).head? = some x → isBlank x = false := by
    intro x hx
    have := List.head?_dropWhile_not isBlank rest
    rw [hx] at this; simpa using this
  have h1 : lexAt a (c :: rest) = lexAt (a.over (c :: rest.takeWhile isBlank)) (rest.dropWhile isBlank) := by
    rw [← lexAt_run a (x := c :: rest.takeWhile isBlank) (by simp) ?_ hnot]
    · rw [List.cons_append, ← key]
    · intro x hx
      rcases List.mem_cons.mp hx with rfl | hx
      · exact hc
      · exact hall x hx
  have h2 : lexAt (a.after c) rest = lexAt ((a.after c).over (rest.takeWhile isBlank)) (rest.dropWhile isBlank) := by
    cases ht : rest.takeWhile isBlank with
    | nil => rw [ht] at key; rw [← show rest = rest.dropWhile isBlank from key]; rfl
    | cons d ds =>
      rw [← lexAt_run (a.after c) (by simp) (ht ▸ hall) hnot, ← ht, ← key]
  rw [h1, h2]; rfl

/-- What begins with `//` or `/*` is a comment. -/
theorem kinds_slash {q : Rule} {d : Char} {ds : Str} (h : Kinds q ('/' :: d :: ds)) :
    (d = '/' ∧ q = lineRule ∧ ∀ c ∈ ds, c ≠ '\r' ∧ c ≠ '\n') ∨ (d = '*' ∧ q = commentRule ∧ ∃ b, ds = b ++ ['*', '/']) := by
  generalize hw : '/' :: d :: ds = w at h
  have key : ∀ e es, w = e :: es → e = '/' := by rintro e es rfl; exact (List.cons.inj hw).1.symm
  have word : ¬ IsWord w := by rw [← hw]; intro h; exact absurd (word_first h) (by decide)
  cases h with
  | kw hk => exact absurd (kws_word hk) word
  | sym hk =>
    have hh : syms.all (fun k => k.2.toList.head? != some '/' || k.2.toList.length == 1) = true := by decide +kernel
    have := List.all_eq_true.mp hh _ hk
    rw [← hw] at this; simp at this
  | str hq _ => exfalso; rcases hq with rfl | rfl <;> exact absurd (key _ _ rfl) (by decide)
  | bool h => exfalso; rcases h with rfl | rfl; exact word true_word; exact word false_word
  | float h =>
    exfalso
    obtain ⟨e, es, he, h⟩ := isFloat_first h
    rw [key e es he] at h
    exact absurd h (by decide)
  | int h =>
    exfalso
    obtain ⟨e, es, he, h⟩ := isInt_first h
    rw [key e es he] at h
    exact absurd h (by decide)
  | ident h => exact absurd h word
  | ws _ h => have := h '/' (by rw [← hw]; simp); exact absurd this (by decide)
  | line h =>
    simp only [List.cons.injEq, true_and] at hw
    obtain ⟨rfl, rfl⟩ := hw
    exact .inl ⟨rfl, rfl, h⟩
  | comment =>
    simp only [List.cons.injEq, true_and] at hw
    obtain ⟨rfl, rfl⟩ := hw
    exact .inr ⟨rfl, rfl, _, rfl⟩

theorem prefix_two {w rest : Str} {c d : Char} {cs : Str} (hp : w <+: c :: d :: cs ++ rest) (hl : 2 ≤ w.length) :
    ∃ v, w = c :: d :: v := by
  obtain ⟨u, hu⟩ := hp
  match w, hl with
  | a :: b :: v, _ =>
    simp only [List.cons_append, List.cons.injEq] at hu
    obtain ⟨rfl, rfl, _⟩ := hu
    exact ⟨v, rfl⟩

/-- A comment to the end of the line is skipped. -/
theorem lexAt_line (a : At) {b rest : Str} (hb : ∀ c ∈ b, c ≠ '\r' ∧ c ≠ '\n')
    (hr : ∀ c, rest.head? = some c → c = '\r' ∨ c = '\n') :
    lexAt a (('/' :: '/' :: b) ++ rest) = lexAt (a.over ('/' :: '/' :: b)) rest := by
  have hl : lineRule.len (('/' :: '/' :: b) ++ rest) = some ('/' :: '/' :: b).length := by
    refine Rule.len_greedy rfl ((matches_lineComment _).mpr ⟨b, rfl, hb⟩) ?_
    intro w hp hm
    apply Nat.le_of_not_lt; intro hlt
    obtain ⟨c, r, v, rfl, rfl⟩ := prefix_longer hp hlt
    obtain ⟨b', e, hb'⟩ := (matches_lineComment _).mp hm
    simp only [List.cons_append, List.cons.injEq, true_and] at e
    have := hb' c (by rw [← e]; simp)
    rcases hr c rfl with h | h
    · exact this.1 h
    · exact this.2 h
  obtain ⟨r, w, u, hbest, hs, hk, hle, hrl⟩ := best_kinds lineRule_mem hl
  obtain ⟨v, rfl⟩ := prefix_two (w := w) ⟨u, hs.symm⟩ (by simp only [List.length_cons] at hle ⊢; omega)
  have hr : r = lineRule := by
    rcases kinds_slash hk with ⟨_, h, _⟩ | ⟨h, _⟩
    · exact h
    · exact absurd h (by decide)
  subst hr
  have e : ('/' :: '/' :: v).length = ('/' :: '/' :: b).length := by rw [hl] at hrl; exact (Option.some.inj hrl).symm
  rw [e] at hbest
  rw [lexAt_step (by simp) hbest]
  show Option.map (fun ts => ts) _ = _
  simp

/-- A comment that would end earlier contains the end mark. -/
theorem block_min {b b' u : Str} (hb : ¬ ['*', '/'] <:+: b) (hp : b' ++ ['*', '/'] <+: b ++ (['*', '/'] ++ u)) : b.length ≤ b'.length := by
  apply Nat.le_of_not_lt; intro hl
  rcases Nat.lt_or_ge (b'.length + 1) b.length with h | h
  · apply hb
    have : b' ++ ['*', '/'] <+: b := List.prefix_of_prefix_length_le hp ⟨_, rfl⟩ (by simp; omega)
    obtain ⟨v, rfl⟩ := this
    exact ⟨b', v, rfl⟩
  · have hlen : (b' ++ ['*', '/']).length = (b ++ ['*']).length := by simp; omega
    have : b' ++ ['*', '/'] <+: b ++ ['*'] :=
      List.prefix_of_prefix_length_le hp ⟨'/' :: u, by simp⟩ (by rw [hlen]; exact Nat.le_refl _)
    have e := this.eq_of_length hlen
    have := congrArg List.getLast? e
    simp at this

/-- A comment is skipped. -/
theorem lexAt_block (a : At) {b : Str} (hb : ¬ ['*', '/'] <:+: b) (rest : Str) :
    lexAt a (('/' :: '*' :: (b ++ ['*', '/'])) ++ rest) = lexAt (a.over ('/' :: '*' :: (b ++ ['*', '/']))) rest := by
  have hl : commentRule.len (('/' :: '*' :: (b ++ ['*', '/'])) ++ rest) = some ('/' :: '*' :: (b ++ ['*', '/'])).length := by
    refine Rule.len_lazy rfl ((matches_comment _).mpr ⟨b, rfl⟩) ?_
    intro w hp hm
    obtain ⟨b', rfl⟩ := (matches_comment _).mp hm
    obtain ⟨u, hu⟩ := hp
    simp only [List.cons_append, List.cons.injEq, true_and, List.append_assoc] at hu
    have := block_min (b' := b') (u := rest) hb ⟨u, by rw [← List.nil_append rest]; simpa using hu⟩
    simp only [List.length_cons, List.length_append]; omega
  obtain ⟨r, w, u, hbest, hs, hk, hle, hrl⟩ := best_kinds commentRule_mem hl
  obtain ⟨v, rfl⟩ := prefix_two (w := w) ⟨u, hs.symm⟩ (by simp only [List.length_cons] at hle ⊢; omega)
  have hr : r = commentRule := by
    rcases kinds_slash hk with ⟨h, _⟩ | ⟨_, h, _⟩
    · exact absurd h (by decide)
    · exact h
  subst hr
  have e : ('/' :: '*' :: v).length = ('/' :: '*' :: (b ++ ['*', '/'])).length := by rw [hl] at hrl; exact (Option.some.inj hrl).symm
  rw [e] at hbest
  rw [lexAt_step (by simp) hbest]
  show Option.map (fun ts => ts) _ = _
  simp

theorem ch_blank {c : Char} (h : c ∈ [' ', '\t', '\r', '\n', '\x0c']) : isBlank c = true := by
  simp only [List.mem_cons, List.not_mem_nil, or_false] at h
  rcases h with rfl | rfl | rfl | rfl | rfl <;> decide

theorem blank_ch {c : Char} (h : isBlank c = true) : c ∈ [' ', '\t', '\r', '\n', '\x0c'] := by
  simp only [isBlank, Bool.or_eq_true, beq_iff_eq] at h
  rcases h with (((rfl | rfl) | rfl) | rfl) | rfl <;> decide

/-- Blanks and comments are skipped. -/
theorem lexAt_blank (a : At) {b : Blank} (hb : b.Ok) (rest : Str) : lexAt a (b.text ++ rest) = lexAt (a.over b.text) rest := by
  cases b with
  | ch c => exact lexAt_ch a (ch_blank hb) rest
  | line b nl =>
    have hnl : isBlank nl = true := by rcases hb.2 with h | h <;> subst h <;> decide
    have e : (Blank.line b nl).text ++ rest = ('/' :: '/' :: b) ++ nl :: rest := by simp [Blank.text]
    have e2 : a.over (Blank.line b nl).text = (a.over ('/' :: '/' :: b)).after nl := by
      show a.over ('/' :: '/' :: (b ++ [nl])) = _
      rw [show '/' :: '/' :: (b ++ [nl]) = ('/' :: '/' :: b) ++ [nl] by simp, over_append]; rfl
    rw [e, lexAt_line a hb.1 (fun c hc => by cases hc; exact hb.2), lexAt_ch _ hnl, e2]
  | block b => exact lexAt_block a hb rest

theorem lexAt_gap (a : At) {g : Gap} (hg : ∀ b ∈ g, b.Ok) (rest : Str) : lexAt a (g.text ++ rest) = lexAt (a.over g.text) rest := by
  induction g generalizing a with
  | nil => rfl
  | cons b g ih =>
    have e : Gap.text (b :: g) = b.text ++ Gap.text g := rfl
    rw [e, List.append_assoc, lexAt_blank a (hg b (by simp)), ih _ (fun b hb => hg b (by simp [hb])), over_append]

theorem lexAt_tail (a : At) {t : Tail} (ht : t.Ok) : lexAt a t.text = some [] := by
  unfold Tail.text
  rw [lexAt_gap a ht.1]
  cases hl : t.line with
  | none => rfl
  | some b =>
    have := lexAt_line (a.over t.gap.text) (b := b) (rest := []) (ht.2 b hl) (fun c hc => by cases hc)
    rw [List.append_nil] at this
    simp only
    rw [this]; rfl

/-- The tokens of a laid out source. -/
theorem lexAt_source (a : At) {items : List (Gap × Tk)} {t : Tail} (ht : t.Ok)
    (hg : ∀ i ∈ items, (∀ b ∈ i.1, b.Ok) ∧ i.2.Valid) (ha : Apart items t) :
    lexAt a (source items t) = some (placed a items) := by
  induction items generalizing a with
  | nil => exact lexAt_tail a ht
  | cons i r ih =>
    obtain ⟨g, k⟩ := i
    obtain ⟨h1, h2⟩ := hg (g, k) (by simp)
    simp only [source]
    rw [lexAt_gap a h1, lexAt_tok _ h2 ha.1, ih _ (fun i hi => hg i (by simp [hi])) ha.2]
    simp only [Option.map_some, placed, over_append]

end Bubbler.Front
