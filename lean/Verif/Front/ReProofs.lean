import Verif.Front.Lex

/-
The execution of regular expressions by derivatives is correct: `longest` and `shortest` find the longest and the
shortest matching prefix.
-/
namespace Bubbler.Front
namespace Re

theorem nullable_iff (r : Re) : r.nullable = true ↔ r.Matches [] := by
  induction r with
  | zero => exact ⟨(fun h => nomatch h), (fun h => nomatch h)⟩
  | eps => exact ⟨fun _ => .eps, fun _ => rfl⟩
  | cls p => exact ⟨(fun h => nomatch h), (fun h => nomatch h)⟩
  | alt a b iha ihb =>
    simp only [nullable, Bool.or_eq_true, iha, ihb]
    constructor
    · exact fun h => h.elim .altL .altR
    · intro h; cases h with
      | altL h => exact .inl h
      | altR h => exact .inr h
  | seq a b iha ihb =>
    simp only [nullable, Bool.and_eq_true, iha, ihb]
    constructor
    · rintro ⟨h, h'⟩; exact .seq h h'
    · intro h
      have key : ∀ w, (Re.seq a b).Matches w → w = [] → a.Matches [] ∧ b.Matches [] := by
        intro w h hw
        cases h with
        | @seq _ _ u v h h' =>
          have e := List.append_eq_nil_iff.mp hw
          rw [e.1] at h; rw [e.2] at h'; exact ⟨h, h'⟩
      exact key _ h rfl
  | star a iha => exact ⟨fun _ => .starNil, fun _ => rfl⟩

theorem matches_alt' (a b : Re) (w : Str) : (alt' a b).Matches w ↔ a.Matches w ∨ b.Matches w := by
  have key : (Re.alt a b).Matches w ↔ a.Matches w ∨ b.Matches w := by
    constructor
    · intro h; cases h with
      | altL h => exact .inl h
      | altR h => exact .inr h
    · exact fun h => h.elim .altL .altR
  have hz : ∀ w, ¬ Re.zero.Matches w := fun w h => nomatch h
  unfold alt'
  split
  · exact ⟨fun h => .inr h, fun h => h.resolve_left (hz _)⟩
  · exact ⟨fun h => .inl h, fun h => h.resolve_right (hz _)⟩
  · exact key

theorem matches_seq (a b : Re) (w : Str) : (Re.seq a b).Matches w ↔ ∃ u v, w = u ++ v ∧ a.Matches u ∧ b.Matches v := by
  constructor
  · intro h; cases h with
    | @seq _ _ u v h h' => exact ⟨u, v, rfl, h, h'⟩
  · rintro ⟨u, v, rfl, h, h'⟩; exact .seq h h'

theorem matches_eps (w : Str) : Re.eps.Matches w ↔ w = [] := by
  constructor
  · intro h; cases h; rfl
  · rintro rfl; exact .eps

theorem matches_alt (a b : Re) (w : Str) : (Re.alt a b).Matches w ↔ a.Matches w ∨ b.Matches w := by
  constructor
  · intro h; cases h with
    | altL h => exact .inl h
    | altR h => exact .inr h
  · exact fun h => h.elim .altL .altR

theorem matches_cls (p : Char → Bool) (w : Str) : (Re.cls p).Matches w ↔ ∃ c, w = [c] ∧ p c = true := by
  constructor
  · intro h; cases h with
    | @cls _ c h => exact ⟨c, rfl, h⟩
  · rintro ⟨c, rfl, h⟩; exact .cls h

theorem matches_seq' (a b : Re) (w : Str) : (seq' a b).Matches w ↔ (Re.seq a b).Matches w := by
  unfold seq'
  split
  · constructor
    · intro h; exact nomatch h
    · rw [matches_seq]; rintro ⟨u, v, rfl, h, h'⟩; exact nomatch h
  · rw [matches_seq]
    constructor
    · intro h; exact ⟨[], w, rfl, .eps, h⟩
    · rintro ⟨u, v, rfl, h, h'⟩
      rw [matches_eps] at h; subst h; exact h'
  · exact Iff.rfl

theorem star_cons {a : Re} {c : Char} {w : Str} (h : (Re.star a).Matches (c :: w)) :
    ∃ u v, w = u ++ v ∧ a.Matches (c :: u) ∧ (Re.star a).Matches v := by
  generalize hr : Re.star a = r at h
  generalize hx : c :: w = x at h
  induction h generalizing c w with
  | starNil => cases hx
  | @starCons a' u v h h' _ ih =>
    cases hr
    cases u with
    | nil => exact ih rfl hx
    | cons d u => simp only [List.cons_append, List.cons.injEq] at hx; obtain ⟨rfl, rfl⟩ := hx; exact ⟨u, v, rfl, h, h'⟩
  | _ => cases hr

theorem deriv_iff (c : Char) (r : Re) (w : Str) : (r.deriv c).Matches w ↔ r.Matches (c :: w) := by
  induction r generalizing w with
  | zero => exact ⟨(fun h => nomatch h), (fun h => nomatch h)⟩
  | eps => exact ⟨(fun h => nomatch h), (fun h => nomatch h)⟩
  | cls p =>
    rw [matches_cls]; unfold deriv
    split
    · rename_i h; rw [matches_eps]
      constructor
      · rintro rfl; exact ⟨c, rfl, h⟩
      · rintro ⟨d, hd, _⟩; cases hd; rfl
    · rename_i h
      constructor
      · intro h; exact nomatch h
      · rintro ⟨d, hd, hp⟩; cases hd; exact absurd hp h
  | alt a b iha ihb =>
    unfold deriv; rw [matches_alt', iha, ihb, matches_alt]
  | seq a b iha ihb =>
    have e : ∀ w, (seq' (a.deriv c) b).Matches w ↔ ∃ u v, w = u ++ v ∧ a.Matches (c :: u) ∧ b.Matches v := by
      intro w; rw [matches_seq', matches_seq]
      constructor
      · rintro ⟨u, v, rfl, h, h'⟩; exact ⟨u, v, rfl, (iha u).mp h, h'⟩
      · rintro ⟨u, v, rfl, h, h'⟩; exact ⟨u, v, rfl, (iha u).mpr h, h'⟩
    unfold deriv; rw [matches_seq]
    split
    · rename_i hn
      rw [nullable_iff] at hn
      rw [matches_alt', e, ihb]
      constructor
      · rintro (⟨u, v, rfl, h, h'⟩ | h)
        · exact ⟨c :: u, v, rfl, h, h'⟩
        · exact ⟨[], c :: w, rfl, hn, h⟩
      · rintro ⟨u, v, hw, h, h'⟩
        cases u with
        | nil => right; rw [show v = c :: w from hw.symm] at h'; exact h'
        | cons d u => left; simp only [List.cons_append, List.cons.injEq] at hw; obtain ⟨rfl, rfl⟩ := hw; exact ⟨u, v, rfl, h, h'⟩
    · rename_i hn
      rw [nullable_iff] at hn
      rw [e]
      constructor
      · rintro ⟨u, v, rfl, h, h'⟩
        exact ⟨c :: u, v, rfl, h, h'⟩
      · rintro ⟨u, v, hw, h, h'⟩
        cases u with
        | nil => exact absurd h hn
        | cons d u => simp only [List.cons_append, List.cons.injEq] at hw; obtain ⟨rfl, rfl⟩ := hw; exact ⟨u, v, rfl, h, h'⟩
  | star a iha =>
    unfold deriv; rw [matches_seq', matches_seq]
    constructor
    · rintro ⟨u, v, rfl, h, h'⟩; exact .starCons ((iha u).mp h) h'
    · intro h
      obtain ⟨u, v, rfl, h, h'⟩ := star_cons h
      exact ⟨u, v, rfl, (iha u).mpr h, h'⟩

theorem dead_none {r : Re} (h : r.dead = true) (w : Str) : ¬ r.Matches w := by
  cases r with
  | zero => intro h; exact nomatch h
  | _ => cases h

theorem longest_some {r : Re} {s : Str} {n : Nat} (h : r.longest s = some n) :
    (∃ w u, s = w ++ u ∧ w.length = n ∧ r.Matches w) ∧ ∀ w, w <+: s → r.Matches w → w.length ≤ n := by
  induction s generalizing r n with
  | nil =>
    simp only [longest] at h
    split at h
    · rename_i hn; cases h
      refine ⟨⟨[], [], rfl, rfl, (nullable_iff r).mp hn⟩, ?_⟩
      intro w hw _; rw [List.prefix_nil.mp hw]; exact Nat.le_refl _
    · cases h
  | cons c s ih =>
    simp only [longest] at h
    split at h
    · cases h
    cases hd : (r.deriv c).longest s with
    | some m =>
      rw [hd] at h; simp only [Option.some.injEq] at h; subst h
      obtain ⟨⟨w, u, rfl, hl, hm⟩, hmax⟩ := ih hd
      refine ⟨⟨c :: w, u, rfl, by simp [hl], (deriv_iff c r w).mp hm⟩, ?_⟩
      intro w' hw' hm'
      cases w' with
      | nil => exact Nat.zero_le _
      | cons d w' =>
        obtain ⟨u', hu'⟩ := hw'
        simp only [List.cons_append, List.cons.injEq] at hu'
        obtain ⟨rfl, hu'⟩ := hu'
        have := hmax w' ⟨u', hu'⟩ ((deriv_iff d r w').mpr hm')
        simp only [List.length_cons]; omega
    | none =>
      rw [hd] at h; simp only at h
      split at h
      · rename_i hn; cases h
        refine ⟨⟨[], c :: s, rfl, rfl, (nullable_iff r).mp hn⟩, ?_⟩
        intro w' hw' hm'
        cases w' with
        | nil => exact Nat.zero_le _
        | cons d w' =>
          exfalso
          obtain ⟨u', hu'⟩ := hw'
          simp only [List.cons_append, List.cons.injEq] at hu'
          obtain ⟨rfl, hu'⟩ := hu'
          have hm'' := (deriv_iff d r w').mpr hm'
          exact longest_none_aux hd ⟨u', hu'⟩ hm''
      · cases h
where
  longest_none_aux {r : Re} {s w : Str} (h : r.longest s = none) (hw : w <+: s) (hm : r.Matches w) : False := by
    induction s generalizing r w with
    | nil =>
      rw [List.prefix_nil.mp hw] at hm
      simp only [longest, (nullable_iff r).mpr hm, if_true] at h; cases h
    | cons c s ih =>
      simp only [longest] at h
      split at h
      · rename_i hd; exact dead_none hd _ hm
      cases hd : (r.deriv c).longest s with
      | some m => rw [hd] at h; cases h
      | none =>
        rw [hd] at h; simp only at h
        cases w with
        | nil => rw [if_pos ((nullable_iff r).mpr hm)] at h; cases h
        | cons d w =>
          obtain ⟨u', hu'⟩ := hw
          simp only [List.cons_append, List.cons.injEq] at hu'
          obtain ⟨rfl, hu'⟩ := hu'
          exact ih hd ⟨u', hu'⟩ ((deriv_iff d r w).mpr hm)

theorem longest_none {r : Re} {s w : Str} (h : r.longest s = none) (hw : w <+: s) : ¬ r.Matches w :=
  fun hm => longest_some.longest_none_aux h hw hm

theorem shortest_spec (r : Re) (s : Str) :
    match r.shortest s with
    | some n => (∃ w u, s = w ++ u ∧ w.length = n ∧ r.Matches w) ∧ ∀ w, w <+: s → r.Matches w → n ≤ w.length
    | none => ∀ w, w <+: s → ¬ r.Matches w := by
  induction s generalizing r with
  | nil =>
    simp only [shortest]
    by_cases hn : r.nullable = true
    · simp only [hn, if_true]
      exact ⟨⟨[], [], rfl, rfl, (nullable_iff r).mp hn⟩, fun w _ _ => Nat.zero_le _⟩
    · simp only [hn]
      intro w hw hm; rw [List.prefix_nil.mp hw] at hm; exact hn ((nullable_iff r).mpr hm)
  | cons c s ih =>
    simp only [shortest]
    by_cases hd : r.dead = true
    · simp only [hd, if_true]; exact fun w _ => dead_none hd w
    simp only [hd]
    by_cases hn : r.nullable = true
    · simp only [hn, if_true]
      exact ⟨⟨[], c :: s, rfl, rfl, (nullable_iff r).mp hn⟩, fun w _ _ => Nat.zero_le _⟩
    simp only [hn]
    have key : ∀ w, w <+: c :: s → r.Matches w → ∃ w', w = c :: w' ∧ w' <+: s ∧ (r.deriv c).Matches w' := by
      intro w hw hm
      cases w with
      | nil => exact absurd ((nullable_iff r).mpr hm) hn
      | cons d w =>
        obtain ⟨u', hu'⟩ := hw
        simp only [List.cons_append, List.cons.injEq] at hu'
        obtain ⟨rfl, hu'⟩ := hu'
        exact ⟨w, rfl, ⟨u', hu'⟩, (deriv_iff d r w).mpr hm⟩
    have := ih (r.deriv c)
    cases hs : (r.deriv c).shortest s with
    | some m =>
      rw [hs] at this
      obtain ⟨⟨w, u, rfl, hl, hm⟩, hmin⟩ := this
      refine ⟨⟨c :: w, u, rfl, by simp [hl], (deriv_iff c r w).mp hm⟩, ?_⟩
      intro w' hw' hm'
      obtain ⟨w'', rfl, hp, hm''⟩ := key w' hw' hm'
      have := hmin w'' hp hm''
      simp only [List.length_cons]; omega
    | none =>
      rw [hs] at this
      intro w hw hm
      obtain ⟨w', rfl, hp, hm'⟩ := key w hw hm
      exact this w' hp hm'

theorem shortest_some {r : Re} {s : Str} {n : Nat} (h : r.shortest s = some n) :
    (∃ w u, s = w ++ u ∧ w.length = n ∧ r.Matches w) ∧ ∀ w, w <+: s → r.Matches w → n ≤ w.length := by
  have := shortest_spec r s; rw [h] at this; exact this

theorem shortest_none {r : Re} {s w : Str} (h : r.shortest s = none) (hw : w <+: s) : ¬ r.Matches w := by
  have := shortest_spec r s; rw [h] at this; exact this w hw

end Re

open Re

/-- What a rule takes is one of its matches. -/
theorem Rule.len_some {r : Rule} {s : Str} {n : Nat} (h : r.len s = some n) :
    ∃ w u, s = w ++ u ∧ w.length = n ∧ r.re.Matches w := by
  unfold Rule.len at h
  split at h
  · exact (shortest_some h).1
  · exact (longest_some h).1

theorem Rule.len_none {r : Rule} {s : Str} (h : r.len s = none) {w : Str} (hw : w <+: s) : ¬ r.re.Matches w := by
  unfold Rule.len at h
  split at h
  · exact shortest_none h hw
  · exact longest_none h hw

/-- A greedy rule takes a match if there is no longer one. -/
theorem Rule.len_greedy {r : Rule} {w u : Str} (hg : r.lazy = false) (hm : r.re.Matches w)
    (hmax : ∀ w', w' <+: w ++ u → r.re.Matches w' → w'.length ≤ w.length) : r.len (w ++ u) = some w.length := by
  have hp : w <+: w ++ u := ⟨u, rfl⟩
  have e : r.len (w ++ u) = r.re.longest (w ++ u) := by unfold Rule.len; rw [hg]; rfl
  cases h : r.len (w ++ u) with
  | none => exact absurd hm (Rule.len_none h hp)
  | some n =>
    rw [e] at h
    obtain ⟨⟨w', u', hs, hl, hm'⟩, hx⟩ := longest_some h
    have h1 := hx w hp hm
    have h2 := hmax w' ⟨u', hs.symm⟩ hm'
    rw [show n = w.length by omega]

/-- A lazy rule takes a match if there is no shorter one. -/
theorem Rule.len_lazy {r : Rule} {w u : Str} (hg : r.lazy = true) (hm : r.re.Matches w)
    (hmin : ∀ w', w' <+: w ++ u → r.re.Matches w' → w.length ≤ w'.length) : r.len (w ++ u) = some w.length := by
  have hp : w <+: w ++ u := ⟨u, rfl⟩
  have e : r.len (w ++ u) = r.re.shortest (w ++ u) := by unfold Rule.len; rw [hg]; rfl
  cases h : r.len (w ++ u) with
  | none => exact absurd hm (Rule.len_none h hp)
  | some n =>
    rw [e] at h
    obtain ⟨⟨w', u', hs, hl, hm'⟩, hx⟩ := shortest_some h
    have h1 := hx w hp hm
    have h2 := hmin w' ⟨u', hs.symm⟩ hm'
    rw [show n = w.length by omega]

theorem best_none {s : Str} {rs : List Rule} (h : best s rs = none) : ∀ r ∈ rs, r.len s = none := by
  induction rs with
  | nil => intro r hr; cases hr
  | cons q rs ih =>
    simp only [best] at h
    cases hq : q.len s with
    | none =>
      rw [hq] at h
      intro r hr
      rcases List.mem_cons.mp hr with rfl | hr
      · exact hq
      · exact ih h r hr
    | some n =>
      rw [hq] at h
      cases hb : best s rs with
      | none => rw [hb] at h; cases h
      | some x => obtain ⟨m, r'⟩ := x; rw [hb] at h; simp only at h; split at h <;> cases h

/-- The winner: it takes most, and every earlier rule takes less. -/
theorem best_some {s : Str} {rs : List Rule} {n : Nat} {r : Rule} (h : best s rs = some (n, r)) :
    ∃ pre post, rs = pre ++ r :: post ∧ r.len s = some n ∧ (∀ q ∈ pre, ∀ m, q.len s = some m → m < n) ∧
      ∀ q ∈ post, ∀ m, q.len s = some m → m ≤ n := by
  induction rs generalizing n r with
  | nil => cases h
  | cons q rs ih =>
    simp only [best] at h
    cases hq : q.len s with
    | none =>
      rw [hq] at h
      obtain ⟨pre, post, rfl, h1, h2, h3⟩ := ih h
      refine ⟨q :: pre, post, rfl, h1, ?_, h3⟩
      intro q' hq' m hm
      rcases List.mem_cons.mp hq' with rfl | hq'
      · rw [hq] at hm; cases hm
      · exact h2 q' hq' m hm
    | some k =>
      rw [hq] at h
      cases hb : best s rs with
      | none =>
        rw [hb] at h; cases h
        exact ⟨[], rs, rfl, hq, (fun _ h => nomatch h), fun q' hq' m hm => by rw [best_none hb q' hq'] at hm; cases hm⟩
      | some x =>
        obtain ⟨m, r'⟩ := x; rw [hb] at h; simp only at h
        obtain ⟨pre, post, rfl, h1, h2, h3⟩ := ih hb
        split at h
        · rename_i hlt; cases h
          refine ⟨q :: pre, post, rfl, h1, ?_, h3⟩
          intro q' hq' m' hm
          rcases List.mem_cons.mp hq' with rfl | hq'
          · rw [hq] at hm; cases hm; exact hlt
          · exact h2 q' hq' m' hm
        · rename_i hlt; cases h
          refine ⟨[], _, rfl, hq, (fun _ h => nomatch h), ?_⟩
          intro q' hq' m' hm
          rcases List.mem_append.mp hq' with hq' | hq'
          · have := h2 q' hq' m' hm; omega
          · rcases List.mem_cons.mp hq' with rfl | hq'
            · rw [h1] at hm; cases hm; omega
            · have := h3 q' hq' m' hm; omega

theorem best_of {s : Str} {rs pre post : List Rule} {n : Nat} {r : Rule} (he : rs = pre ++ r :: post)
    (hr : r.len s = some n) (hpre : ∀ q ∈ pre, ∀ m, q.len s = some m → m < n)
    (hpost : ∀ q ∈ post, ∀ m, q.len s = some m → m ≤ n) : best s rs = some (n, r) := by
  subst he
  have hp : ∀ x, best s post = some x → x.1 ≤ n := by
    intro x hx
    obtain ⟨m, q⟩ := x
    obtain ⟨_, _, rfl, h1, _, _⟩ := best_some hx
    exact hpost q (by simp) m h1
  induction pre with
  | nil =>
    simp only [List.nil_append, best, hr]
    cases hb : best s post with
    | none => rfl
    | some x =>
      obtain ⟨m, q⟩ := x
      have : m ≤ n := hp _ hb
      simp only [if_neg (Nat.not_lt.mpr this)]
  | cons q pre ih =>
    have := ih (fun q' hq' => hpre q' (by simp [hq']))
    simp only [List.cons_append, best, this]
    cases hq : q.len s with
    | none => rfl
    | some m =>
      have := hpre q (by simp) m hq
      simp only [if_pos this]

end Bubbler.Front
