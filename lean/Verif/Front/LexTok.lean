import Verif.Front.LexProofs

/-
What the lexer takes at a token, at a blank and at a comment.
-/
namespace Bubbler.Front
open Re

theorem mem_esc_not_oct {c : Char} (h : c ∈ ['a', 'b', 'f', 'n', 'r', 't', 'v', '\\', '\'', '"']) : isOct c = false := by
  simp only [List.mem_cons, List.not_mem_nil, or_false] at h
  rcases h with rfl | rfl | rfl | rfl | rfl | rfl | rfl | rfl | rfl | rfl <;> decide

theorem mem_esc_not_x {c : Char} (h : c ∈ ['a', 'b', 'f', 'n', 'r', 't', 'v', '\\', '\'', '"']) : ¬ (c = 'x' ∨ c = 'X') := by
  rintro (rfl | rfl) <;> revert h <;> decide

theorem strBody_charSeq {q : Char} {b : Str} (h : StrBody q b) : CharSeq b := by
  induction h with
  | nil => exact .nil
  | @plain c s _ h1 h2 h3 _ ih => exact .cons (u := [c]) ((matches_charValue _).mpr (.inr (.inr (.inr ⟨c, rfl, h1, h2, h3⟩)))) ih
  | @chr c s h _ ih => exact .cons (u := ['\\', c]) ((matches_charValue _).mpr (.inr (.inr (.inl ⟨c, rfl, h⟩)))) ih
  | @oct a b c s h1 h2 h3 _ ih =>
    exact .cons (u := ['\\', a, b, c]) ((matches_charValue _).mpr (.inr (.inl ⟨a, b, c, rfl, h1, h2, h3⟩))) ih
  | @hex x a b s h1 h2 h3 _ ih =>
    exact .cons (u := ['\\', x, a, b]) ((matches_charValue _).mpr (.inl ⟨x, a, b, rfl, h1, h2, h3⟩)) ih

/-- One character or escape is read in only one way. -/
theorem strBody_step {q : Char} {u r : Str} (hu : charValue.Matches u) (h : StrBody q (u ++ r)) : StrBody q r := by
  rcases (matches_charValue u).mp hu with ⟨x, a, b, rfl, hx, ha, hb⟩ | ⟨a, b, c, rfl, ha, hb, hc⟩ | ⟨c, rfl, hc⟩ | ⟨c, rfl, h1, h2, h3⟩
  · cases h with
    | plain _ _ _ h _ => exact absurd rfl h
    | chr h _ => exact absurd hx (mem_esc_not_x h)
    | oct h _ _ _ => exfalso; rcases hx with rfl | rfl <;> exact absurd h (by decide)
    | hex _ _ _ h => exact h
  · cases h with
    | plain _ _ _ h _ => exact absurd rfl h
    | chr h _ => rw [mem_esc_not_oct h] at ha; cases ha
    | oct _ _ _ h => exact h
    | hex h _ _ _ => exfalso; rcases h with rfl | rfl <;> exact absurd ha (by decide)
  · cases h with
    | plain _ _ _ h _ => exact absurd rfl h
    | chr _ h => exact h
    | oct h _ _ _ => rw [mem_esc_not_oct hc] at h; cases h
    | hex h _ _ _ => exact absurd h (mem_esc_not_x hc)
  · cases h with
    | plain _ _ _ _ h => exact h
    | chr _ _ => exact absurd rfl h3
    | oct _ _ _ _ => exact absurd rfl h3
    | hex _ _ _ _ => exact absurd rfl h3

/-- The inside of a string has no bare quote. -/
theorem strBody_no_quote {q : Char} (hq : q = '\'' ∨ q = '"') {b' b2 : Str} (hs : CharSeq b') : ¬ StrBody q (b' ++ q :: b2) := by
  induction hs with
  | nil =>
    intro h
    have hq' : q ≠ '\\' := by rcases hq with rfl | rfl <;> decide
    generalize hz : [] ++ q :: b2 = z at h
    cases h with
    | nil => cases hz
    | plain h _ _ _ _ => exact h (List.cons.inj hz).1.symm
    | chr _ _ => exact hq' (List.cons.inj hz).1
    | oct _ _ _ _ => exact hq' (List.cons.inj hz).1
    | hex _ _ _ _ => exact hq' (List.cons.inj hz).1
  | cons hu _ ih =>
    intro h
    rw [List.append_assoc] at h
    exact ih (strBody_step hu h)

/-- Conversely, without a bare quote it is the inside of a string. -/
theorem charSeq_strBody {q : Char} {b : Str} (hs : CharSeq b) (hn : ∀ b1 b2, CharSeq b1 → b ≠ b1 ++ q :: b2) : StrBody q b := by
  induction hs with
  | nil => exact .nil
  | @cons u v hu hv ih =>
    have ih' := ih fun b1 b2 h1 e => hn (u ++ b1) b2 (.cons hu h1) (by rw [e, List.append_assoc])
    rcases (matches_charValue u).mp hu with ⟨x, a, b, rfl, hx, ha, hb⟩ | ⟨a, b, c, rfl, ha, hb, hc⟩ | ⟨c, rfl, hc⟩ | ⟨c, rfl, h1, h2, h3⟩
    · exact .hex hx ha hb ih'
    · exact .oct ha hb hc ih'
    · exact .chr hc ih'
    · refine .plain ?_ h1 h2 h3 ih'
      rintro rfl
      exact hn [] v .nil rfl

theorem isStr_min {x w rest : Str} (hx : IsStr x) (hm : strLit.Matches w) (hp : w <+: x ++ rest) : x.length ≤ w.length := by
  obtain ⟨q, b, hq, rfl, hb⟩ := hx
  obtain ⟨q', b', hq', rfl, hb'⟩ := (matches_strLit w).mp hm
  apply Nat.le_of_not_lt; intro hl
  obtain ⟨u, hu⟩ := hp
  simp only [List.cons_append, List.cons.injEq] at hu
  obtain ⟨rfl, hu⟩ := hu
  simp only [List.length_cons, List.length_append, List.length_nil] at hl
  have hp1 : b' ++ [q'] <+: b ++ ([q'] ++ rest) := ⟨u, by simpa using hu⟩
  have hp2 : b' ++ [q'] <+: b := by
    rcases List.prefix_append_right_inj _ |>.mp (List.prefix_refl _) with _ 
    exact List.prefix_of_prefix_length_le hp1 ⟨_, rfl⟩ (by simp; omega)
  obtain ⟨b2, hb2⟩ := hp2
  rw [← hb2] at hb
  exact strBody_no_quote (b2 := b2) hq' hb' (by simpa using hb)

/-! ### Which rule wins -/

theorem best_tok {pre post : List Rule} {r : Rule} {x rest : Str} (he : rules = pre ++ r :: post)
    (hlen : r.len (x ++ rest) = some x.length)
    (hb : ∀ q w, Kinds q w → w <+: x ++ rest → q = r ∨ w.length ≤ x.length)
    (hpre : ∀ q ∈ pre, ¬ q.re.Matches x) : best (x ++ rest) rules = some (x.length, r) := by
  have bound : ∀ q ∈ rules, ∀ m, q.len (x ++ rest) = some m → m ≤ x.length ∧ (m = x.length → q = r ∨ q.re.Matches x) := by
    intro q hq m hm
    obtain ⟨w, u, hs, rfl, hw⟩ := Rule.len_some hm
    have hp : w <+: x ++ rest := ⟨u, hs.symm⟩
    rcases hb q w (kinds_of hq hw) hp with rfl | h
    · rw [hlen] at hm
      exact ⟨by rw [← Option.some.inj hm]; exact Nat.le_refl _, fun _ => .inl rfl⟩
    · refine ⟨h, fun e => .inr ?_⟩
      have : w = x := by
        have h1 : w = (x ++ rest).take w.length := (List.prefix_iff_eq_take.mp hp)
        rw [h1, e, List.take_left']; rfl
      exact this ▸ hw
  refine best_of he hlen ?_ ?_
  · intro q hq m hm
    obtain ⟨h1, h2⟩ := bound q (by rw [he]; simp [hq]) m hm
    rcases Nat.lt_or_eq_of_le h1 with h | h
    · exact h
    · exfalso
      rcases h2 h with rfl | hmx
      · obtain ⟨w, u, hs, hl, hw⟩ := Rule.len_some hlen
        have : w = x := by
          have h1 : w = (x ++ rest).take w.length := (List.prefix_iff_eq_take.mp ⟨u, hs.symm⟩)
          rw [h1, hl, List.take_left']; rfl
        exact hpre q hq (this ▸ hw)
      · exact hpre q hq hmx
  · intro q hq m hm
    exact (bound q (by rw [he]; simp [hq]) m hm).1

/-- For a greedy rule. -/
theorem best_greedy {pre post : List Rule} {r : Rule} {x rest : Str} (he : rules = pre ++ r :: post)
    (hg : r.lazy = false) (hm : r.re.Matches x)
    (hb : ∀ q w, Kinds q w → w <+: x ++ rest → w.length ≤ x.length)
    (hpre : ∀ q ∈ pre, ¬ q.re.Matches x) : best (x ++ rest) rules = some (x.length, r) :=
  best_tok he (Rule.len_greedy hg hm fun w hp hw => hb r w (kinds_of (by rw [he]; simp) hw) hp)
    (fun q w hk hp => .inr (hb q w hk hp)) hpre

theorem nodup_before {α β : Type} {f : α → β} {l pre post : List α} {k : α} (h : (l.map f).Nodup) (he : l = pre ++ k :: post) :
    ∀ k' ∈ pre, f k' ≠ f k := by
  subst he
  simp only [List.map_append, List.map_cons] at h
  intro k' hk' e
  have := (List.nodup_append.mp h).2.2 (f k') (List.mem_map.mpr ⟨k', hk', rfl⟩) (f k) (by simp)
  exact this e

theorem kws_nodup : (kws.map (·.2.toList)).Nodup := by decide +kernel
theorem syms_nodup : (syms.map (·.2.toList)).Nodup := by decide +kernel

theorem kws_mem (k : Kw) : ∃ t, (k, t) ∈ kws ∧ Tk.text (.kw k) = t.toList := by
  cases k <;> exact ⟨_, by simp [kws], rfl⟩

theorem syms_mem (k : Sym) : ∃ t, (k, t) ∈ syms ∧ Tk.text (.sym k) = t.toList := by
  cases k <;> exact ⟨_, by simp [syms], rfl⟩

/-- A token is taken if no rule takes more. -/
theorem best_of_bound (t : Tk) (hv : t.Valid) (rest : Str)
    (hb : (∀ s, t ≠ .str s) → ∀ q w, Kinds q w → w <+: t.text ++ rest → w.length ≤ t.text.length) :
    ∃ r, best (t.text ++ rest) rules = some (t.text.length, r) ∧ r.tok t.text = some t := by
  have kwNo : ∀ {x : Str}, ¬ IsWord x → ∀ q ∈ kws.map kwRule, ¬ q.re.Matches x := by
    intro x hx q hq hm
    obtain ⟨k, hk, rfl⟩ := List.mem_map.mp hq
    rw [(matches_lit _ x).mp hm] at hx; exact hx (kws_word hk)
  have symNo : ∀ {c : Char} {cs : Str}, symC c = false → ∀ q ∈ syms.map symRule, ¬ q.re.Matches (c :: cs) := by
    intro c cs hx q hq hm
    obtain ⟨k, hk, rfl⟩ := List.mem_map.mp hq
    have := (syms_chars hk).2 c (by rw [← (matches_lit _ _).mp hm]; simp)
    rw [hx] at this; cases this
  have strNo : ∀ {c : Char} {cs : Str}, c ≠ '\'' → c ≠ '"' → ¬ strLit.Matches (c :: cs) := by
    intro c cs h1 h2 hm
    obtain ⟨q, b, hq, e, _⟩ := (matches_strLit _).mp hm
    rcases hq with rfl | rfl
    · exact h1 (List.cons.inj e).1
    · exact h2 (List.cons.inj e).1
  have letterSym : ∀ {c}, isLetter c = true → symC c = false := by intro c h; simp [symC, h]
  have decSym : ∀ {c}, isDec c = true → symC c = false := by intro c h; simp [symC, h]
  have letterQ : ∀ {c}, isLetter c = true → c ≠ '\'' ∧ c ≠ '"' := by
    intro c h; constructor <;> (rintro rfl; exact absurd h (by decide))
  have decQ : ∀ {c}, isDec c = true → c ≠ '\'' ∧ c ≠ '"' := by
    intro c h; constructor <;> (rintro rfl; exact absurd h (by decide))
  cases t with
  | kw k =>
    obtain ⟨t, hk, ht⟩ := kws_mem k
    obtain ⟨pre, post, he⟩ := List.append_of_mem hk
    have hx : IsWord t.toList := kws_word hk
    refine ⟨kwRule (k, t), ?_, rfl⟩
    rw [ht]
    refine best_greedy (pre := pre.map kwRule) (post := post.map kwRule ++ (syms.map symRule ++
      [strRule, boolRule, floatRule, intRule, identRule, wsRule, lineRule, commentRule])) ?_ rfl
      ((matches_lit _ _).mpr rfl) (by rw [ht] at hb; exact hb (fun s h => nomatch h)) ?_
    · rw [rules, he]; simp
    · intro q hq hm
      obtain ⟨k', hk', rfl⟩ := List.mem_map.mp hq
      exact nodup_before kws_nodup he k' hk' ((matches_lit _ _).mp hm).symm
  | sym k =>
    obtain ⟨t, hk, ht⟩ := syms_mem k
    obtain ⟨pre, post, he⟩ := List.append_of_mem hk
    obtain ⟨hne, hch⟩ := syms_chars hk
    refine ⟨symRule (k, t), ?_, rfl⟩
    rw [ht]
    refine best_greedy (pre := kws.map kwRule ++ pre.map symRule) (post := post.map symRule ++
      [strRule, boolRule, floatRule, intRule, identRule, wsRule, lineRule, commentRule]) ?_ rfl
      ((matches_lit _ _).mpr rfl) (by rw [ht] at hb; exact hb (fun s h => nomatch h)) ?_
    · rw [rules, he]; simp
    · intro q hq hm
      rcases List.mem_append.mp hq with hq | hq
      · refine kwNo (fun hw => ?_) q hq hm
        obtain ⟨c, cs, e, hc, _⟩ := hw
        have := hch c (by rw [show t.toList = _ from e]; simp)
        rw [letterSym hc] at this; cases this
      · obtain ⟨k', hk', rfl⟩ := List.mem_map.mp hq
        exact nodup_before syms_nodup he k' hk' ((matches_lit _ _).mp hm).symm
  | str x =>
    have hx : IsStr x := hv
    refine ⟨strRule, ?_, rfl⟩
    show best (x ++ rest) rules = some (x.length, strRule)
    obtain ⟨q, b, hq, e, hb⟩ := hv
    have hm : strLit.Matches x := (matches_strLit x).mpr ⟨q, b, hq, e, strBody_charSeq hb⟩
    refine best_tok (pre := kws.map kwRule ++ syms.map symRule)
      (post := [boolRule, floatRule, intRule, identRule, wsRule, lineRule, commentRule]) ?_ ?_ ?_ ?_
    · rw [rules]; simp
    · exact Rule.len_lazy rfl hm fun w hp hw => isStr_min hx hw hp
    · intro q' w hk hp
      left
      subst e
      obtain ⟨v, rfl⟩ := prefix_first hp hk.ne
      exact kinds_quote hk hq
    · intro q' hq' hm
      subst e
      rcases List.mem_append.mp hq' with hq' | hq'
      · refine kwNo (fun hw => ?_) q' hq' hm
        have := word_first hw
        rcases hq with rfl | rfl <;> exact absurd this (by decide)
      · exact symNo (by rcases hq with rfl | rfl <;> decide) q' hq' hm
  | bool b =>
    refine ⟨boolRule, ?_, by cases b <;> decide⟩
    have hx : IsWord (Tk.text (.bool b)) := by cases b; exact false_word; exact true_word
    have hmb : boolLit.Matches (Tk.text (.bool b)) := (matches_boolLit _).mpr (by cases b; exact .inr rfl; exact .inl rfl)
    refine best_greedy (pre := kws.map kwRule ++ (syms.map symRule ++ [strRule]))
      (post := [floatRule, intRule, identRule, wsRule, lineRule, commentRule]) ?_ rfl hmb
      (hb (fun s h => nomatch h)) ?_
    · rw [rules]; simp
    · intro q hq hm
      obtain ⟨c, cs, e, hc, _⟩ := hx
      rw [e] at hm
      rcases List.mem_append.mp hq with hq | hq
      · obtain ⟨k, hk, rfl⟩ := List.mem_map.mp hq
        have h1 := (matches_lit _ _).mp hm
        rw [← e] at h1
        have h : kws.all (fun k => k.2.toList != Tk.text (.bool b)) = true := by cases b <;> decide +kernel
        have := List.all_eq_true.mp h k hk
        rw [← h1] at this; simp at this
      rcases List.mem_append.mp hq with hq | hq
      · exact symNo (letterSym hc) q hq hm
      · simp only [List.mem_singleton] at hq; subst hq
        exact strNo (letterQ hc).1 (letterQ hc).2 hm
  | float x =>
    have hx : IsFloat x := hv
    refine ⟨floatRule, ?_, rfl⟩
    show best (x ++ rest) rules = some (x.length, floatRule)
    refine best_greedy (pre := kws.map kwRule ++ (syms.map symRule ++ [strRule, boolRule]))
      (post := [intRule, identRule, wsRule, lineRule, commentRule]) ?_ rfl ((matches_floatLit x).mpr hx) ?_ ?_
    · rw [rules]; simp
    · exact hb (fun s h => nomatch h)
    · intro q hq hm
      have wordCase : IsWord x → x = "inf".toList ∨ x = "nan".toList := by
        intro hw
        rcases isFloat_num hx with h | h
        · obtain ⟨c, cs, rfl, hcd⟩ := num_first h
          have := word_first hw
          rcases hcd with hcd | rfl
          · rw [letter_not_dec this] at hcd; cases hcd
          · exact absurd this (by decide)
        · exact h
      rcases List.mem_append.mp hq with hq | hq
      · obtain ⟨k, hk, rfl⟩ := List.mem_map.mp hq
        have h1 := (matches_lit _ _).mp hm
        have h2 := wordCase (h1 ▸ kws_word hk)
        have h : kws.all (fun k => k.2.toList != "inf".toList && k.2.toList != "nan".toList) = true := by decide +kernel
        have := List.all_eq_true.mp h k hk
        rw [← h1] at this
        rcases h2 with rfl | rfl <;> exact absurd this (by decide)
      rcases List.mem_append.mp hq with hq | hq
      · obtain ⟨k, hk, rfl⟩ := List.mem_map.mp hq
        have h1 := (matches_lit _ _).mp hm
        obtain ⟨hne, hch⟩ := syms_chars hk
        obtain ⟨c, cs, e, h⟩ := isFloat_first hx
        have hc := hch c (by rw [← h1, e]; simp)
        rcases h with h | rfl | h
        · rw [decSym h] at hc; cases hc
        · have hh : syms.all (fun k => k.2.toList.head? != some '.' || k.2.toList.length == 1) = true := by decide +kernel
          have := List.all_eq_true.mp hh k hk
          rw [← h1, e] at this
          simp at this
          rw [this] at e; subst e
          rcases isFloat_num hx with ⟨m, ex, hw, hm, _, he, hd⟩ | h | h
          · rcases hx with ⟨ip, fp, ex, hw, hi, hf, hn, hx⟩ | ⟨ip, ex, hw, hi, hn, hx⟩ | h | h
            · cases ip with
              | nil =>
                simp only [List.nil_append, List.cons.injEq, true_and] at hw
                have := List.append_eq_nil_iff.mp hw.symm
                exact hn.elim (fun h => h rfl) (fun h => h this.1)
              | cons i ip =>
                simp only [List.cons_append, List.cons.injEq] at hw
                have h := hi i (by simp)
                rw [← hw.1] at h; exact absurd h (by decide)
            · cases ip with
              | nil => exact hn rfl
              | cons i ip =>
                simp only [List.cons_append, List.cons.injEq] at hw
                have h := hi i (by simp)
                rw [← hw.1] at h; exact absurd h (by decide)
            · exact absurd h (by decide)
            · exact absurd h (by decide)
          · exact absurd h (by decide)
          · exact absurd h (by decide)
        · rw [letterSym h] at hc; cases hc
      · simp only [List.mem_cons, List.not_mem_nil, or_false] at hq
        rcases hq with rfl | rfl
        · obtain ⟨c, cs, rfl, h⟩ := isFloat_first hx
          have h1 : c ≠ '\'' ∧ c ≠ '"' := by
            rcases h with h | rfl | h
            · exact decQ h
            · decide
            · exact letterQ h
          exact strNo h1.1 h1.2 hm
        · rcases (matches_boolLit _).mp hm with rfl | rfl
          · rcases wordCase true_word with h | h <;> exact absurd h (by decide)
          · rcases wordCase false_word with h | h <;> exact absurd h (by decide)
  | int x =>
    have hx : IsInt x := hv
    refine ⟨intRule, ?_, rfl⟩
    show best (x ++ rest) rules = some (x.length, intRule)
    refine best_greedy (pre := kws.map kwRule ++ (syms.map symRule ++ [strRule, boolRule, floatRule]))
      (post := [identRule, wsRule, lineRule, commentRule]) ?_ rfl ((matches_intLit x).mpr hx) ?_ ?_
    · rw [rules]; simp
    · exact hb (fun s h => nomatch h)
    · intro q hq hm
      have hall := isInt_all hx
      have hx' := hx
      obtain ⟨c, cs, rfl, hc⟩ := isInt_first hx
      have notw : ¬ IsWord (c :: cs) := fun hw => by
        have := letter_not_dec (word_first hw); rw [hc] at this; cases this
      rcases List.mem_append.mp hq with hq | hq
      · exact kwNo notw q hq hm
      rcases List.mem_append.mp hq with hq | hq
      · exact symNo (decSym hc) q hq hm
      · simp only [List.mem_cons, List.not_mem_nil, or_false] at hq
        rcases hq with rfl | rfl | rfl
        · exact strNo (decQ hc).1 (decQ hc).2 hm
        · rcases (matches_boolLit _).mp hm with h | h
          · exact notw (h ▸ true_word)
          · exact notw (h ▸ false_word)
        · rcases isFloat_num ((matches_floatLit _).mp hm) with ⟨m, ex, hw, hm, hmc, he, hd⟩ | h | h
          · have nodot : ∀ c ∈ m, isDec c = true := by
              intro y hy
              rcases hmc y hy with h | rfl
              · exact h
              · have := hall '.' (by rw [hw]; simp [hy])
                exact absurd this (by decide)
            have hexp : IsExp ex := by
              rcases he with rfl | he
              · rcases hd with h | h
                · exact absurd rfl h
                · exact absurd (nodot '.' h) (by decide)
              · exact he
            obtain ⟨y, sg, ds, rfl, hy, hs, hdn, hdd⟩ := hexp
            have hyd : isDec y = false := by rcases hy with rfl | rfl <;> decide
            cases m with
            | nil => exact hm rfl
            | cons a m =>
              rcases hx' with ⟨c', cs', e, _, hcs⟩ | ⟨cs', e, hcs⟩ | ⟨x', cs', e, hx', hn, hcs⟩
              · rw [e] at hw
                simp only [List.cons_append, List.cons.injEq] at hw
                have := hcs y (by rw [hw.2]; simp)
                rw [hyd] at this; cases this
              · rw [e] at hw
                simp only [List.cons_append, List.cons.injEq] at hw
                have := oct_dec (hcs y (by rw [hw.2]; simp))
                rw [hyd] at this; cases this
              · rw [e] at hw
                simp only [List.cons_append, List.cons.injEq] at hw
                cases m with
                | nil =>
                  simp only [List.nil_append, List.cons.injEq] at hw
                  rw [hw.2.1] at hx'
                  rcases hy with rfl | rfl <;> exact absurd hx' (by decide)
                | cons b m =>
                  simp only [List.cons_append, List.cons.injEq] at hw
                  have := nodot b (by simp)
                  rw [← hw.2.1] at this
                  rcases hx' with rfl | rfl <;> exact absurd this (by decide)
          · exact notw (h ▸ inf_word)
          · exact notw (h ▸ nan_word)
  | ident x =>
    obtain ⟨hx, hres⟩ := hv
    refine ⟨identRule, ?_, rfl⟩
    show best (x ++ rest) rules = some (x.length, identRule)
    refine best_greedy (pre := kws.map kwRule ++ (syms.map symRule ++ [strRule, boolRule, floatRule, intRule]))
      (post := [wsRule, lineRule, commentRule]) ?_ rfl ((matches_identifier x).mpr hx)
      (hb (fun s h => nomatch h)) ?_
    · rw [rules]; simp
    · intro q hq hm
      rcases List.mem_append.mp hq with hq | hq
      · obtain ⟨k, hk, rfl⟩ := List.mem_map.mp hq
        rw [(matches_lit _ _).mp hm] at hres
        exact hres (List.mem_append_left _ (List.mem_map.mpr ⟨k, hk, rfl⟩))
      have hx' := hx
      obtain ⟨c, cs, rfl, hc, _⟩ := hx
      rcases List.mem_append.mp hq with hq | hq
      · exact symNo (letterSym hc) q hq hm
      · simp only [List.mem_cons, List.not_mem_nil, or_false] at hq
        rcases hq with rfl | rfl | rfl | rfl
        · exact strNo (letterQ hc).1 (letterQ hc).2 hm
        · exact hres (List.mem_append_right _ (by
            rcases (matches_boolLit _).mp hm with h | h <;> rw [h] <;> simp))
        · rcases isFloat_num ((matches_floatLit _).mp hm) with h | h | h
          · obtain ⟨d, ds, e, hd⟩ := num_first h
            cases e
            rcases hd with hd | rfl
            · rw [letter_not_dec hc] at hd; cases hd
            · exact absurd hc (by decide)
          · exact hres (List.mem_append_right _ (by rw [h]; simp))
          · exact hres (List.mem_append_right _ (by rw [h]; simp))
        · obtain ⟨d, ds, e, hd⟩ := isInt_first ((matches_intLit _).mp hm)
          cases e
          rw [letter_not_dec hc] at hd; cases hd

/-- The text of a token begins with a character that is not a blank; with a quote only if it is a string. -/
theorem Tk.text_first {t : Tk} (hv : t.Valid) : ∃ c cs, t.text = c :: cs ∧ isBlank c = false ∧
    ((∀ s, t ≠ .str s) → c ≠ '\'' ∧ c ≠ '"') := by
  have letter : ∀ {c}, isLetter c = true → isBlank c = false ∧ (c ≠ '\'' ∧ c ≠ '"') := by
    intro c h
    refine ⟨?_, ?_, ?_⟩
    · rw [← Bool.not_eq_true]; intro hb
      simp only [isBlank, Bool.or_eq_true, beq_iff_eq] at hb
      rcases hb with (((rfl | rfl) | rfl) | rfl) | rfl <;> exact absurd h (by decide)
    · rintro rfl; exact absurd h (by decide)
    · rintro rfl; exact absurd h (by decide)
  have dec : ∀ {c}, isDec c = true → isBlank c = false ∧ (c ≠ '\'' ∧ c ≠ '"') := by
    intro c h
    refine ⟨?_, ?_, ?_⟩
    · rw [← Bool.not_eq_true]; intro hb
      simp only [isBlank, Bool.or_eq_true, beq_iff_eq] at hb
      rcases hb with (((rfl | rfl) | rfl) | rfl) | rfl <;> exact absurd h (by decide)
    · rintro rfl; exact absurd h (by decide)
    · rintro rfl; exact absurd h (by decide)
  have word : ∀ {x}, IsWord x → ∃ c cs, x = c :: cs ∧ isBlank c = false ∧ (c ≠ '\'' ∧ c ≠ '"') := by
    rintro x ⟨c, cs, rfl, hc, _⟩; exact ⟨c, cs, rfl, letter hc⟩
  cases t with
  | kw k =>
    obtain ⟨t, hk, ht⟩ := kws_mem k
    obtain ⟨c, cs, e, h1, h2⟩ := word (kws_word hk)
    exact ⟨c, cs, ht.trans e, h1, fun _ => h2⟩
  | sym k =>
    obtain ⟨t, hk, ht⟩ := syms_mem k
    obtain ⟨hne, hch⟩ := syms_chars hk
    rw [ht]
    cases hx : t.toList with
    | nil => exact absurd hx hne
    | cons c cs =>
      have h := hch c (by rw [show (k, t).2.toList = _ from hx]; simp)
      simp only [symC, Bool.and_eq_true, Bool.not_eq_true', bne_iff_ne] at h
      exact ⟨c, cs, rfl, h.2, fun _ => ⟨h.1.1.2, h.1.2⟩⟩
  | str s =>
    obtain ⟨q, b, hq, rfl, _⟩ := hv
    exact ⟨q, _, rfl, by rcases hq with rfl | rfl <;> decide, fun h => absurd rfl (h _)⟩
  | bool b =>
    obtain ⟨c, cs, e, h1, h2⟩ := word (x := Tk.text (.bool b)) (by cases b; exact false_word; exact true_word)
    exact ⟨c, cs, e, h1, fun _ => h2⟩
  | float s =>
    obtain ⟨c, cs, rfl, h⟩ := isFloat_first hv
    rcases h with h | rfl | h
    · exact ⟨c, cs, rfl, (dec h).1, fun _ => (dec h).2⟩
    · exact ⟨'.', cs, rfl, by decide, fun _ => by decide⟩
    · exact ⟨c, cs, rfl, (letter h).1, fun _ => (letter h).2⟩
  | int s =>
    obtain ⟨c, cs, rfl, h⟩ := isInt_first hv
    exact ⟨c, cs, rfl, (dec h).1, fun _ => (dec h).2⟩
  | ident s =>
    obtain ⟨c, cs, e, h1, h2⟩ := word hv.1
    exact ⟨c, cs, e, h1, fun _ => h2⟩

/-- Nothing after the token could belong to it: no rule takes more. -/
theorem bound_tok (t : Tk) (hv : t.Valid) (rest : Str) (hr : ∀ c, rest.head? = some c → glues t c = false)
    (hs : ∀ s, t ≠ .str s) (q : Rule) (w : Str) (hkn : Kinds q w) (hp : w <+: t.text ++ rest) : w.length ≤ t.text.length := by
  cases t with
  | kw k =>
    obtain ⟨t, hk, ht⟩ := kws_mem k
    rw [ht] at hp ⊢
    exact bound_word (kws_word hk) hr hkn hp
  | sym k =>
    obtain ⟨t, hk, ht⟩ := syms_mem k
    rw [ht] at hp ⊢
    refine bound_sym hk (rest := rest) (q := q) (w := w) (?_) hkn hp
   
    intro c hc
    have := hr c hc
    simp only [glues, Bool.or_eq_false_iff, ht] at this
    obtain ⟨⟨h1, h2⟩, h3⟩ := this
    refine ⟨?_, ?_, ?_⟩
    · intro o ho hp
      have := List.any_eq_false.mp h1 o ho
      exact this (List.isPrefixOf_iff_prefix.mpr hp)
    · intro e
      have hd : k = .DIV := by
        have : ∀ k t, (k, t) ∈ syms → t.toList = ['/'] → k = .DIV := by
          have h : syms.all (fun p => p.2.toList != ['/'] || p.1 == .DIV) = true := by decide +kernel
          intro k t hk e
          have := List.all_eq_true.mp h _ hk
          simpa [e] using this
        exact this k t hk e
      simpa [hd] using h2
    · intro e
      have hd : k = .DOT := by
        have : ∀ k t, (k, t) ∈ syms → t.toList = ['.'] → k = .DOT := by
          have h : syms.all (fun p => p.2.toList != ['.'] || p.1 == .DOT) = true := by decide +kernel
          intro k t hk e
          have := List.all_eq_true.mp h _ hk
          simpa [e] using this
        exact this k t hk e
      simpa [hd] using h3
  | str s => exact absurd rfl (hs s)
  | bool b =>
    exact bound_word (by cases b; exact false_word; exact true_word) hr hkn hp
  | float x =>
    have hr' : ∀ c, rest.head? = some c → wordC c = false ∧ c ≠ '.' := by
      intro c hc
      have := hr c hc
      simp only [glues, Bool.or_eq_false_iff, beq_eq_false_iff_ne] at this
      exact ⟨by simp [wordC, this.1.1, this.1.2], this.2⟩
    rcases isFloat_num hv with h | rfl | rfl
    · exact bound_num (.inr h) hr' hkn hp
    · exact bound_word inf_word (fun c hc => (hr' c hc).1) hkn hp
    · exact bound_word nan_word (fun c hc => (hr' c hc).1) hkn hp
  | int x =>
    refine bound_num (.inl hv) ?_ hkn hp
    intro c hc
    have := hr c hc
    simp only [glues, Bool.or_eq_false_iff, beq_eq_false_iff_ne] at this
    exact ⟨by simp [wordC, this.1.1, this.1.2], this.2⟩
  | ident x => exact bound_word hv.1 hr hkn hp

/-- A token is taken if nothing after it could belong to it. -/
theorem best_of_tok (t : Tk) (hv : t.Valid) (rest : Str) (hr : ∀ c, rest.head? = some c → glues t c = false) :
    ∃ r, best (t.text ++ rest) rules = some (t.text.length, r) ∧ r.tok t.text = some t :=
  best_of_bound t hv rest fun hs q w hk hp => bound_tok t hv rest hr hs q w hk hp

end Bubbler.Front
