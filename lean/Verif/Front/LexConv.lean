import Verif.Front.LexTop

/-
The converse: whatever the lexer reads is a laid out sequence of tokens, each as long as possible.
-/
namespace Bubbler.Front
open Re

theorem kws_text {k : Kw × String} (hk : k ∈ kws) : Tk.text (.kw k.1) = k.2.toList := by
  have h : kws.all (fun k => Tk.text (.kw k.1) == k.2.toList) = true := by decide +kernel
  exact eq_of_beq (List.all_eq_true.mp h k hk)

theorem syms_text {k : Sym × String} (hk : k ∈ syms) : Tk.text (.sym k.1) = k.2.toList := by
  have h : syms.all (fun k => Tk.text (.sym k.1) == k.2.toList) = true := by decide +kernel
  exact eq_of_beq (List.all_eq_true.mp h k hk)

/-- Every token but a string has a greedy rule. -/
theorem Tk.rule {t : Tk} (hv : t.Valid) (hs : ∀ s, t ≠ .str s) : ∃ q ∈ rules, q.lazy = false ∧ q.re.Matches t.text := by
  cases t with
  | kw k =>
    obtain ⟨t, hk, ht⟩ := kws_mem k
    exact ⟨kwRule (k, t), List.mem_append_left _ (List.mem_map.mpr ⟨_, hk, rfl⟩), rfl, (matches_lit _ _).mpr ht⟩
  | sym k =>
    obtain ⟨t, hk, ht⟩ := syms_mem k
    exact ⟨symRule (k, t), List.mem_append_right _ (List.mem_append_left _ (List.mem_map.mpr ⟨_, hk, rfl⟩)), rfl,
      (matches_lit _ _).mpr ht⟩
  | str s => exact absurd rfl (hs s)
  | bool b => exact ⟨boolRule, by simp [rules], rfl, (matches_boolLit _).mpr (by cases b; exact .inr rfl; exact .inl rfl)⟩
  | float s => exact ⟨floatRule, by simp [rules], rfl, (matches_floatLit _).mpr hv⟩
  | int s => exact ⟨intRule, by simp [rules], rfl, (matches_intLit _).mpr hv⟩
  | ident s => exact ⟨identRule, by simp [rules], rfl, (matches_identifier _).mpr hv.1⟩

/-- What a greedy rule matches is not longer than what is taken. -/
theorem best_greedy_le {s : Str} {n : Nat} {r : Rule} (hb : best s rules = some (n, r)) {q : Rule} (hq : q ∈ rules)
    (hg : q.lazy = false) {w : Str} (hw : q.re.Matches w) (hp : w <+: s) : w.length ≤ n := by
  obtain ⟨pre, post, he, h1, h2, h3⟩ := best_some hb
  cases hl : q.len s with
  | none => exact absurd hw (Rule.len_none hl hp)
  | some m =>
    have hwm : w.length ≤ m := by
      have hl' := hl
      unfold Rule.len at hl'
      rw [hg] at hl'
      exact (longest_some hl').2 w hp hw
    rw [he] at hq
    rcases List.mem_append.mp hq with hq | hq
    · have := h2 q hq m hl; omega
    · rcases List.mem_cons.mp hq with rfl | hq
      · rw [h1] at hl; cases hl; exact hwm
      · have := h3 q hq m hl; omega

/-- A lazy rule that matches does not take more than what is taken. -/
theorem best_lazy_le {s : Str} {n : Nat} {r : Rule} (hb : best s rules = some (n, r)) {q : Rule} (hq : q ∈ rules)
    {w : Str} (hw : q.re.Matches w) (hp : w <+: s) : ∃ w', q.re.Matches w' ∧ w' <+: s ∧ w'.length ≤ n := by
  obtain ⟨pre, post, he, h1, h2, h3⟩ := best_some hb
  cases hl : q.len s with
  | none => exact absurd hw (Rule.len_none hl hp)
  | some m =>
    obtain ⟨w', u, hs, rfl, hw'⟩ := Rule.len_some hl
    refine ⟨w', hw', ⟨u, hs.symm⟩, ?_⟩
    rw [he] at hq
    rcases List.mem_append.mp hq with hq | hq
    · have := h2 q hq _ hl; omega
    · rcases List.mem_cons.mp hq with rfl | hq
      · rw [h1] at hl; cases hl; exact Nat.le_refl _
      · exact h3 q hq _ hl

theorem best_mem {s : Str} {n : Nat} {r : Rule} (hb : best s rules = some (n, r)) : r ∈ rules ∧ r.len s = some n := by
  obtain ⟨pre, post, he, h1, _, _⟩ := best_some hb
  exact ⟨by rw [he]; simp, h1⟩

theorem best_taken {x rest : Str} {r : Rule} (hb : best (x ++ rest) rules = some (x.length, r)) : Kinds r x := by
  obtain ⟨hr, hl⟩ := best_mem hb
  obtain ⟨w, u, hs, hlen, hw⟩ := Rule.len_some hl
  have : w = x := by
    have h1 : w = (x ++ rest).take w.length := (List.prefix_iff_eq_take.mp ⟨u, hs.symm⟩)
    rw [h1, hlen, List.take_left']; rfl
  exact this ▸ kinds_of hr hw

/-- The token taken is the longest. -/
theorem longest_of_best {x rest : Str} {r : Rule} (hb : best (x ++ rest) rules = some (x.length, r))
    {t : Tk} (ht : r.tok x = some t) (hx : t.text = x) : Longest t rest := by
  have hkx := best_taken hb
  obtain ⟨hr, hl⟩ := best_mem hb
  rw [Longest, hx]
  refine ⟨?_, ?_, ?_⟩
  · intro k' hv hp
    by_cases hs : ∃ s, k' = .str s
    · obtain ⟨s, rfl⟩ := hs
      have hv' : IsStr s := hv
      obtain ⟨q, b, hq, rfl, _⟩ := hv
      have hx1 : ∃ v, x = q :: v := by
        cases hxc : x with
        | nil => exact absurd hxc hkx.ne
        | cons c v =>
          rw [hxc] at hp
          obtain ⟨u, hu⟩ := hp
          exact ⟨v, by rw [(List.cons.inj (show q :: (b ++ [q] ++ u) = c :: (v ++ rest) from hu)).1]⟩
      obtain ⟨v, hx1⟩ := hx1
      have hr : r = strRule := kinds_quote (hx1 ▸ hkx) hq
      obtain ⟨u, hu⟩ := hp
      refine isStr_min hv' (w := x) (rest := u) (by have := hkx.matches; rw [hr] at this; exact this) ⟨rest, ?_⟩
      exact hu.symm
    · obtain ⟨q, hq, hg, hm⟩ := Tk.rule hv (fun s e => hs ⟨s, e⟩)
      exact best_greedy_le hb hq hg hm hp
  · intro hp
    have := best_greedy_le hb lineRule_mem rfl ((matches_lineComment _).mpr ⟨[], rfl, fun _ h => nomatch h⟩) hp
    obtain ⟨u, hu⟩ := hp
    match x, this with
    | a :: b :: v, _ =>
      simp only [List.cons_append, List.nil_append, List.cons.injEq] at hu
      obtain ⟨rfl, rfl, _⟩ := hu
      rcases kinds_slash hkx with ⟨_, rfl, _⟩ | ⟨h, _⟩
      · cases ht
      · exact absurd h (by decide)
  · intro b hp
    obtain ⟨w', hw', hp', hle⟩ := best_lazy_le hb commentRule_mem ((matches_comment _).mpr ⟨b, rfl⟩) hp
    obtain ⟨b', rfl⟩ := (matches_comment _).mp hw'
    obtain ⟨u, hu⟩ := hp'
    simp only [List.length_cons, List.length_append, List.length_nil] at hle
    match x, (show 2 ≤ x.length by omega) with
    | a :: c :: v, _ =>
      simp only [List.cons_append, List.cons.injEq] at hu
      obtain ⟨rfl, rfl, _⟩ := hu
      rcases kinds_slash hkx with ⟨h, _⟩ | ⟨_, rfl, _⟩
      · exact absurd h (by decide)
      · cases ht

/-- The token taken is a token. -/
theorem valid_of_best {x rest : Str} {r : Rule} (hb : best (x ++ rest) rules = some (x.length, r))
    {t : Tk} (ht : r.tok x = some t) : t.Valid ∧ t.text = x := by
  have hk := best_taken hb
  obtain ⟨hr, hl⟩ := best_mem hb
  cases hk with
  | kw hk => cases ht; exact ⟨trivial, kws_text hk⟩
  | sym hk => cases ht; exact ⟨trivial, syms_text hk⟩
  | @str q b hq hs =>
    cases ht
    refine ⟨⟨q, b, hq, rfl, charSeq_strBody hs ?_⟩, rfl⟩
    rintro b1 b2 h1 rfl
    have := (shortest_some (r := strLit) hl).2 (q :: (b1 ++ [q])) ⟨b2 ++ [q] ++ rest, by simp⟩
      ((matches_strLit _).mpr ⟨q, b1, hq, rfl, h1⟩)
    simp at this
  | bool h => rcases h with rfl | rfl <;> (cases ht; exact ⟨trivial, by decide⟩)
  | float h => cases ht; exact ⟨h, rfl⟩
  | int h => cases ht; exact ⟨h, rfl⟩
  | ident h =>
    cases ht
    refine ⟨⟨h, ?_⟩, rfl⟩
    intro hres
    have hnext : ∀ c, rest.head? = some c → wordC c = false := by
      intro c hc
      cases rest with
      | nil => cases hc
      | cons d rest =>
        cases hc
        rw [← Bool.not_eq_true]; intro hw
        have := (longest_some (r := identifier) hl).2 (x ++ [c]) ⟨rest, by simp⟩ ((matches_identifier _).mpr (by
          obtain ⟨e, es, rfl, he, hes⟩ := h
          refine ⟨e, es ++ [c], rfl, he, ?_⟩
          intro y hy
          rcases List.mem_append.mp hy with hy | hy
          · exact hes y hy
          · simp only [List.mem_singleton] at hy; subst hy
            simpa [wordC] using hw))
        simp at this
        omega
    have clash : ∀ t : Tk, t.Valid → t.text = x → (∀ c, wordC c = false → glues t c = false ∨ c = '.') →
        (∀ s, t ≠ .str s) → (∃ y, t = .ident y) ∨ False := by
      intro t hv hx hgl hs
      obtain ⟨r', hb', ht'⟩ := best_of_bound t hv rest (fun hs q w hkn hp => by
        rw [hx] at hp ⊢; exact bound_word h hnext hkn hp)
      rw [hx, hb] at hb'
      have : identRule = r' := (Prod.mk.inj (Option.some.inj hb')).2
      rw [hx, ← this] at ht'
      exact .inl ⟨x, (Option.some.inj ht').symm⟩
    rcases List.mem_append.mp hres with hres | hres
    · obtain ⟨k, hk, e⟩ := List.mem_map.mp hres
      rcases clash (.kw k.1) trivial ((kws_text hk).trans e) (fun c hc => .inl hc) (fun s h => nomatch h) with ⟨y, hy⟩ | h
      · cases hy
      · exact h
    · simp only [List.mem_cons, List.not_mem_nil, or_false] at hres
      have float : IsFloat x → False := by
        intro hf
        rcases clash (.float x) hf rfl (fun c hc => by
          by_cases h : c = '.'
          · exact .inr h
          · left; simp only [wordC, Bool.or_eq_false_iff] at hc; simp [glues, hc.1, hc.2, h]) (fun s h => nomatch h) with ⟨y, hy⟩ | h
        · cases hy
        · exact h
      rcases hres with e | e | e | e
      · rcases clash (.bool true) trivial e.symm (fun c hc => .inl hc) (fun s h => nomatch h) with ⟨y, hy⟩ | h
        · cases hy
        · exact h
      · rcases clash (.bool false) trivial e.symm (fun c hc => .inl hc) (fun s h => nomatch h) with ⟨y, hy⟩ | h
        · cases hy
        · exact h
      · exact float (.inr (.inr (.inl e)))
      · exact float (.inr (.inr (.inr e)))
  | ws _ _ => cases ht
  | line _ => cases ht
  | comment => cases ht

/-- The longest token is taken. -/
theorem best_of_longest (t : Tk) (hv : t.Valid) (rest : Str) (hlg : Longest t rest) :
    ∃ r, best (t.text ++ rest) rules = some (t.text.length, r) ∧ r.tok t.text = some t := by
  refine best_of_bound t hv rest fun hs q w hk hp => ?_
  obtain ⟨c, cs, e, hnb, hnq⟩ := Tk.text_first hv
  have first : ∃ v, w = c :: v := prefix_first (by rw [e] at hp; exact hp) hk.ne
  obtain ⟨v, hw⟩ := first
  obtain ⟨h1, h2, h3⟩ := hlg
  cases hk with
  | kw hk => rw [← kws_text hk] at hp ⊢; exact h1 _ trivial hp
  | sym hk => rw [← syms_text hk] at hp ⊢; exact h1 _ trivial hp
  | @str q b hq hb =>
    have := (List.cons.inj hw).1; subst this
    rcases hq with h | h
    · exact absurd h (hnq hs).1
    · exact absurd h (hnq hs).2
  | bool h =>
    rcases h with rfl | rfl
    · exact h1 (.bool true) trivial hp
    · exact h1 (.bool false) trivial hp
  | float h => exact h1 (.float w) h hp
  | int h => exact h1 (.int w) h hp
  | ident h =>
    by_cases hres : w ∈ reserved
    · rcases List.mem_append.mp hres with hres | hres
      · obtain ⟨k, hk, e⟩ := List.mem_map.mp hres
        have e' : Tk.text (.kw k.1) = w := (kws_text hk).trans e
        rw [← e'] at hp ⊢; exact h1 _ trivial hp
      · simp only [List.mem_cons, List.not_mem_nil, or_false] at hres
        rcases hres with rfl | rfl | rfl | rfl
        · exact h1 (.bool true) trivial hp
        · exact h1 (.bool false) trivial hp
        · exact h1 (.float _) (.inr (.inr (.inl rfl))) hp
        · exact h1 (.float _) (.inr (.inr (.inr rfl))) hp
    · exact h1 (.ident w) ⟨h, hres⟩ hp
  | ws _ h =>
    have := h c (by rw [hw]; simp)
    rw [hnb] at this; cases this
  | @line b h =>
    obtain ⟨u, hu⟩ := hp
    exact absurd ⟨b ++ u, by rw [← hu]; simp⟩ h2
  | @comment b => exact absurd hp (h3 b)

theorem lexAt_munch (a : At) {items : List (Gap × Tk)} {t : Tail} (ht : t.Ok)
    (hg : ∀ i ∈ items, (∀ b ∈ i.1, b.Ok) ∧ i.2.Valid) (ha : Munch items t) :
    lexAt a (source items t) = some (placed a items) := by
  induction items generalizing a with
  | nil => exact lexAt_tail a ht
  | cons i r ih =>
    obtain ⟨g, k⟩ := i
    obtain ⟨h1, h2⟩ := hg (g, k) (by simp)
    simp only [source]
    obtain ⟨q, hb, hq⟩ := best_of_longest k h2 _ ha.1
    obtain ⟨c, cs, e, _⟩ := Tk.text_first h2
    rw [lexAt_gap a h1, lexAt_step (by rw [e]; simp) hb, hq, ih _ (fun i hi => hg i (by simp [hi])) ha.2]
    simp only [Option.map_some, placed, over_append, consTok]

/-- Blanks before a source. -/
def prepend (g : Gap) : List (Gap × Tk) → Tail → List (Gap × Tk) × Tail
  | [], t => ([], ⟨g ++ t.gap, t.line⟩)
  | (g', k) :: r, t => ((g ++ g', k) :: r, t)

theorem gap_append (g g' : Gap) : Gap.text (g ++ g') = g.text ++ g'.text := List.flatMap_append ..

theorem prepend_source (g : Gap) (items : List (Gap × Tk)) (t : Tail) :
    source (prepend g items t).1 (prepend g items t).2 = g.text ++ source items t := by
  cases items with
  | nil => simp only [prepend, source, Tail.text, gap_append, List.append_assoc]
  | cons i r => obtain ⟨g', k⟩ := i; simp only [prepend, source, gap_append, List.append_assoc]

/-- What the lexer reads is laid out. -/
def Reads (a : At) (s : Str) (ts : List (Tk × At)) : Prop :=
  ∃ items t, s = source items t ∧ t.Ok ∧ (∀ i ∈ items, (∀ b ∈ i.1, b.Ok) ∧ i.2.Valid) ∧ Munch items t ∧ ts = placed a items

theorem Reads.prepend {a : At} {s : Str} {ts : List (Tk × At)} {g : Gap} (hg : ∀ b ∈ g, b.Ok) (h : Reads (a.over g.text) s ts) :
    Reads a (g.text ++ s) ts := by
  obtain ⟨items, t, rfl, ht, hi, hm, rfl⟩ := h
  refine ⟨(Front.prepend g items t).1, (Front.prepend g items t).2, (prepend_source g items t).symm, ?_⟩
  cases items with
  | nil =>
    refine ⟨⟨?_, ht.2⟩, hi, hm, rfl⟩
    intro b hb
    rcases List.mem_append.mp hb with hb | hb
    · exact hg b hb
    · exact ht.1 b hb
  | cons i r =>
    obtain ⟨g', k⟩ := i
    refine ⟨ht, ?_, hm, ?_⟩
    · intro i h
      rcases List.mem_cons.mp h with rfl | h
      · have := hi (g', k) (by simp)
        refine ⟨?_, this.2⟩
        intro b hb
        rcases List.mem_append.mp hb with hb | hb
        · exact hg b hb
        · exact this.1 b hb
      · exact hi i (by simp [h])
    · simp only [Front.prepend, placed, gap_append, over_append]

theorem chs_text (x : Str) : Gap.text (x.map Blank.ch) = x := by
  induction x with
  | nil => rfl
  | cons c x ih => show c :: Gap.text (x.map Blank.ch) = _; rw [ih]

theorem lexAt_reads {a : At} {s : Str} {ts : List (Tk × At)} (h : lexAt a s = some ts) : Reads a s ts := by
  generalize hn : s.length = n
  induction n using Nat.strongRecOn generalizing a s ts with
  | ind n ih =>
    cases s with
    | nil =>
      rw [lexAt_nil] at h; cases h
      exact ⟨[], ⟨[], none⟩, rfl, ⟨(fun _ h => nomatch h), (fun _ h => nomatch h)⟩, (fun _ h => nomatch h), trivial, rfl⟩
    | cons c s =>
      obtain ⟨x, rest, r, ts', hs, hxn, hb, hrest, hts⟩ := lexAt_some h
      have hlen : rest.length < n := by
        have := congrArg List.length hs
        have hx := List.length_pos_iff.mpr hxn
        rw [List.length_append] at this; omega
      have hrec := ih rest.length hlen hrest rfl
      rw [hs]
      have hk := best_taken hb
      cases ht : r.tok x with
      | some t =>
        obtain ⟨hv, htx⟩ := valid_of_best hb ht
        have hlg := longest_of_best hb ht htx
        rw [ht] at hts; subst hts
        obtain ⟨items, tl, rfl, htl, hi, hm, rfl⟩ := hrec
        refine ⟨([], t) :: items, tl, ?_, htl, ?_, ⟨hlg, hm⟩, ?_⟩
        · simp only [source, htx]; rfl
        · intro i h
          rcases List.mem_cons.mp h with rfl | h
          · exact ⟨(fun _ h => nomatch h), hv⟩
          · exact hi i h
        · subst htx; rfl
      | none =>
        rw [ht] at hts
        have hts : ts = ts' := hts
        subst hts
        cases hk with
        | kw _ => cases ht
        | sym _ => cases ht
        | str _ _ => cases ht
        | bool _ => cases ht
        | float _ => cases ht
        | int _ => cases ht
        | ident _ => cases ht
        | ws _ hall =>
          have e : Gap.text (x.map Blank.ch) = x := chs_text x
          rw [← e] at hrec
          have := Reads.prepend (g := x.map Blank.ch) (by
            intro b hb
            obtain ⟨c, hc, rfl⟩ := List.mem_map.mp hb
            exact blank_ch (hall c hc)) hrec
          rw [e] at this; exact this
        | @line b hb' =>
          cases rest with
          | nil =>
            rw [lexAt_nil] at hrest; cases hrest
            exact ⟨[], ⟨[], some b⟩, by simp [source, Tail.text, Gap.text], ⟨(fun _ h => nomatch h), fun b' e => by cases e; exact hb'⟩,
              (fun _ h => nomatch h), trivial, rfl⟩
          | cons nl rest =>
            have hnl : nl = '\r' ∨ nl = '\n' := by
              apply Classical.byContradiction; intro hno
              have := (longest_some (r := lineComment) (best_mem hb).2).2 ('/' :: '/' :: (b ++ [nl])) ⟨rest, by simp⟩
                ((matches_lineComment _).mpr ⟨_, rfl, by
                  intro c hc
                  rcases List.mem_append.mp hc with hc | hc
                  · exact hb' c hc
                  · simp only [List.mem_singleton] at hc; subst hc
                    exact ⟨fun h => hno (.inl h), fun h => hno (.inr h)⟩⟩)
              simp at this
              omega
            rw [lexAt_ch _ (by rcases hnl with rfl | rfl <;> decide)] at hrest
            have hrec := ih rest.length (by simp only [List.length_cons] at hlen; omega) hrest rfl
            have e : Gap.text [Blank.line b nl] = '/' :: '/' :: (b ++ [nl]) := by simp [Gap.text, Blank.text]
            have e2 : ((a.over ('/' :: '/' :: b)).after nl) = a.over (Gap.text [Blank.line b nl]) := by
              rw [e, show '/' :: '/' :: (b ++ [nl]) = ('/' :: '/' :: b) ++ [nl] by simp, over_append]; rfl
            rw [e2] at hrec
            have := Reads.prepend (g := [Blank.line b nl]) (by
              intro b' h; simp only [List.mem_singleton] at h; subst h; exact ⟨hb', hnl⟩) hrec
            rw [e] at this
            simpa using this
        | @comment b =>
          have e : Gap.text [Blank.block b] = '/' :: '*' :: (b ++ ['*', '/']) := by simp [Gap.text, Blank.text]
          rw [← e] at hrec
          have := Reads.prepend (g := [Blank.block b]) (by
            intro b' h; simp only [List.mem_singleton] at h; subst h
            rintro ⟨p, s', hp⟩
            have hsh := (shortest_some (r := Front.comment) (best_mem hb).2).2 ('/' :: '*' :: (p ++ ['*', '/']))
              ⟨s' ++ ['*', '/'] ++ rest, by rw [← hp]; simp⟩ ((matches_comment _).mpr ⟨p, rfl⟩)
            rw [← hp] at hsh
            simp at hsh) hrec
          rw [e] at this; exact this

/-- Where the lexer gives up. -/
theorem best_none_first {c : Char} {s : Str} (h : best (c :: s) rules = none) :
    ((c = '\'' ∨ c = '"') ∧ ∀ w, w <+: c :: s → ¬ IsStr w) ∨
    (isLetter c = false ∧ isDec c = false ∧ isBlank c = false ∧ c ∉ "#;=?()[]{}<>.,:+-*/%&|^~!'\"".toList) := by
  have hn := best_none h
  have hp : [c] <+: c :: s := ⟨s, rfl⟩
  by_cases hq : c = '\'' ∨ c = '"'
  · left
    refine ⟨hq, fun w hw hs => ?_⟩
    obtain ⟨q, b, hq, rfl, hb⟩ := hs
    exact Rule.len_none (hn strRule (by simp [rules])) hw ((matches_strLit _).mpr ⟨q, b, hq, rfl, strBody_charSeq hb⟩)
  · right
    refine ⟨?_, ?_, ?_, ?_⟩
    · rw [← Bool.not_eq_true]; intro hl
      exact Rule.len_none (hn identRule (by simp [rules])) hp ((matches_identifier _).mpr ⟨c, [], rfl, hl, fun _ h => nomatch h⟩)
    · rw [← Bool.not_eq_true]; intro hd
      refine Rule.len_none (hn intRule (by simp [rules])) hp ((matches_intLit _).mpr ?_)
      by_cases h0 : c = '0'
      · subst h0; exact .inr (.inl ⟨[], rfl, fun _ h => nomatch h⟩)
      · refine .inl ⟨c, [], rfl, ?_, fun _ h => nomatch h⟩
        rw [isDec_iff] at hd
        have h1 : c.toNat ≠ 48 := fun e => h0 (Char.ext (UInt32.toNat_inj.mp e))
        rw [Char.le_iff, Char.le_iff]
        exact ⟨show 49 ≤ c.toNat by omega, show c.toNat ≤ 57 by omega⟩
    · rw [← Bool.not_eq_true]; intro hb
      exact Rule.len_none (hn wsRule (by simp [rules])) hp ((matches_ws _).mpr ⟨by simp, fun x hx => by simp at hx; subst hx; exact hb⟩)
    · intro hc
      have e : "#;=?()[]{}<>.,:+-*/%&|^~!'\"".toList = "#;=?()[]{}<>.,:+-*/%&|^~!".toList ++ ['\'', '"'] := by decide
      rw [e] at hc
      rcases List.mem_append.mp hc with hc | hc
      · have hall : "#;=?()[]{}<>.,:+-*/%&|^~!".toList.all (fun c => syms.any fun k => k.2.toList == [c]) = true := by
          decide +kernel
        have := List.all_eq_true.mp hall c hc
        obtain ⟨k, hk, e⟩ := List.any_eq_true.mp this
        exact Rule.len_none (hn (symRule k) (List.mem_append_right _ (List.mem_append_left _ (List.mem_map.mpr ⟨k, hk, rfl⟩)))) hp
          ((matches_lit _ _).mpr (eq_of_beq e).symm)
      · simp only [List.mem_cons, List.not_mem_nil, or_false] at hc
        exact hq hc

theorem lexAt_none {a : At} {s : Str} (h : lexAt a s = none) : ∃ p c u, s = p ++ c :: u ∧ best (c :: u) rules = none := by
  generalize hn : s.length = n
  induction n using Nat.strongRecOn generalizing a s with
  | ind n ih =>
    cases s with
    | nil => cases h
    | cons c s =>
      cases hb : best (c :: s) rules with
      | none => exact ⟨[], c, s, rfl, hb⟩
      | some p =>
        obtain ⟨k, r⟩ := p
        obtain ⟨hr, hl⟩ := best_mem hb
        obtain ⟨w, u, hs, rfl, hw⟩ := Rule.len_some hl
        have hwn := (kinds_of hr hw).ne
        rw [hs] at hb
        rw [hs, lexAt_step hwn hb] at h
        cases hu : lexAt (a.over w) u with
        | some ts => rw [hu] at h; cases h
        | none =>
          obtain ⟨p, c', u', rfl, hb'⟩ := ih u.length (by
            have := congrArg List.length hs
            have hx := List.length_pos_iff.mpr hwn
            rw [List.length_append] at this; omega) hu rfl
          exact ⟨w ++ p, c', u', by rw [hs, List.append_assoc], hb'⟩

end Bubbler.Front
