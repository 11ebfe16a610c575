import Verif.Props.KeywordProps

/-
C83: names in generated code are identifiers.
-/
namespace Bubbler
open Gen Comp

/-! ### Specification -/

def identChar (c : Char) : Bool := c == '_' || Name.isLower c || Name.isUpper c || Name.isDigit c

/-- Letters, digits and underscores, and no digit in front: a name in each of the target languages -/
def Ident (n : Gen.Str) : Prop := (∀ c ∈ n, identChar c = true) ∧ ∃ c, n.head? = some c ∧ Name.isDigit c = false

/-! ### Names and their letters and digits -/

theorem upper_lower {c : Char} (h : Name.isUpper c = true) : Name.isLower (Name.toLower c) = true := by
  obtain ⟨n, hn, rfl⟩ := Name.upper_form h
  clear h
  revert n
  decide

/-- small letters and digits, with a letter in front -/
def GoodKey (k : Gen.Str) : Prop := (∀ c ∈ k, Name.isLower c = true ∨ Name.isDigit c = true) ∧ ∃ c r, k = c :: r ∧ Name.isLower c = true

instance (n : Gen.Str) : Decidable (GoodKey n) :=
  decidable_of_iff ((∀ c ∈ n, Name.isLower c = true ∨ Name.isDigit c = true) ∧ n.head?.any Name.isLower = true) <| by
    unfold GoodKey
    refine and_congr_right fun _ => ?_
    cases n with
    | nil => simp
    | cons c r => simp

theorem goodKey_append {a b : Gen.Str} (ha : a = [] ∨ GoodKey a) (hb : GoodKey b) : GoodKey (a ++ b) := by
  rcases ha with rfl | ⟨h1, c, r, rfl, h2⟩
  · exact hb
  · exact ⟨fun x hx => (List.mem_append.1 hx).elim (h1 x) (hb.1 x), c, r ++ b, rfl, h2⟩

theorem goodKey_append_right {a b : Gen.Str} (ha : GoodKey a) (hb : b = [] ∨ GoodKey b) : GoodKey (a ++ b) := by
  rcases hb with rfl | hb
  · rwa [List.append_nil]
  · exact goodKey_append (.inr ha) hb

theorem digit_not {c : Char} (h : Name.isDigit c = true) : Name.isLower c = false ∧ Name.isUpper c = false ∧ c ≠ '_' := by
  simp only [Name.isDigit, Bool.and_eq_true, decide_eq_true_eq] at h
  refine ⟨?_, ?_, ?_⟩
  · simp only [Name.isLower, Bool.and_eq_false_iff, decide_eq_false_iff_not]; omega
  · simp only [Name.isUpper, Bool.and_eq_false_iff, decide_eq_false_iff_not]; omega
  · rintro rfl; revert h; decide

theorem toLower_other {c : Char} (h : Name.isUpper c = false) : Name.toLower c = c := by
  unfold Name.toLower; rw [h]; rfl

theorem ident_of_key {n : Gen.Str} (h : GoodKey (lettersAndDigits n)) : Ident n := by
  obtain ⟨h1, c, r, h2, h3⟩ := h
  constructor
  · intro x hx
    by_cases hu : x = '_'
    · subst hu; decide
    · have hm : Name.toLower x ∈ lettersAndDigits n := List.mem_map.2 ⟨x, List.mem_filter.2 ⟨hx, by simpa using hu⟩, rfl⟩
      have := h1 _ hm
      by_cases hx' : Name.isUpper x = true
      · simp [identChar, hx']
      · rw [toLower_other (by simpa using hx')] at this
        rcases this with h | h <;> simp [identChar, h]
  · cases n with
    | nil => cases h2
    | cons x n =>
      refine ⟨x, rfl, ?_⟩
      cases hd : Name.isDigit x with
      | false => rfl
      | true =>
        obtain ⟨e1, e2, e3⟩ := digit_not hd
        have : lettersAndDigits (x :: n) = Name.toLower x :: lettersAndDigits n := by
          simp [lettersAndDigits, List.filter_cons, e3]
        rw [this, toLower_other e2, List.cons.injEq] at h2
        rw [h2.1, h3] at e1
        cases e1

theorem key_chars {n : Gen.Str} (h : ∀ c ∈ n, identChar c = true) :
    ∀ c ∈ lettersAndDigits n, Name.isLower c = true ∨ Name.isDigit c = true := by
  intro c hc
  obtain ⟨x, hx, rfl⟩ := List.mem_map.1 hc
  obtain ⟨hx, hne⟩ := List.mem_filter.1 hx
  have := h x hx
  by_cases hu : Name.isUpper x = true
  · exact .inl (upper_lower hu)
  · rw [toLower_other (by simpa using hu)]
    simp only [identChar, Bool.or_eq_true, beq_iff_eq] at this
    rcases this with ((h | h) | h) | h
    · exact absurd h (by simpa using hne)
    · exact .inl h
    · exact absurd h hu
    · exact .inr h

theorem lower_not_upper {c : Char} (h : Name.isLower c = true) : Name.isUpper c = false := by
  simp only [Name.isLower, Bool.and_eq_true, decide_eq_true_eq] at h
  simp only [Name.isUpper, Bool.and_eq_false_iff, decide_eq_false_iff_not]
  omega

theorem key_uncap {n : Gen.Str} (h : ∀ c ∈ n, identChar c = true)
    (hc : Name.isUncapitalized n = true ∨ Name.isCapitalized n = true) : GoodKey (lettersAndDigits n) := by
  refine ⟨key_chars h, ?_⟩
  clear h
  induction n with
  | nil => rcases hc with hc | hc <;> cases hc
  | cons c n ih =>
    by_cases hu : c = '_'
    · subst hu
      exact ih hc
    · simp only [Name.isUncapitalized, Name.isCapitalized, if_neg hu] at hc
      refine ⟨Name.toLower c, lettersAndDigits n, by simp [lettersAndDigits, hu], ?_⟩
      rcases hc with hc | hc
      · rw [toLower_other (lower_not_upper hc)]; exact hc
      · exact upper_lower hc

/-! ### The theorems -/

/-- **C83.** If the names in the source are made of letters, digits and underscores, as the lexer sees to, those of fields, methods and
constants uncapitalized and those of structs capitalized, as the compiler checks, then every name a generated type declares for a member
is an identifier, in every target language, with and without raw accessors.  (Constants without a name have empty names in C#, Java
and JavaScript: C79_empty_counterexample.) -/
theorem C83_members (s : StructD) (l : Lang) (minimal : Bool)
    (hn : ∀ e ∈ entries s, e ≠ .const [] → (∀ c ∈ e.name, identChar c = true) ∧ Name.isUncapitalized e.name = true)
    (hs : (∀ c ∈ s.name, identChar c = true) ∧ Name.isCapitalized s.name = true) :
    ∀ a ∈ members l minimal s, a.name ≠ [] → Ident a.name := by
  have hsk := key_uncap hs.1 (.inr hs.2)
  have hb : ∀ a, base l s.name a = [] ∨ GoodKey (base l s.name a) := by
    intro a
    unfold base
    split
    · exact .inr hsk
    · exact .inl rfl
  intro a ha hne
  rcases List.mem_append.mp ha with ha | ha
  · by_cases hi : ∀ r ∈ reservedKeys, GoodKey r
    · obtain ⟨r, hr, hr'⟩ := fixed_keyed ha
      refine ident_of_key (hr ▸ goodKey_append (hb a) ?_)
      rcases hr' with h | h | ⟨-, h⟩
      · exact hi r h
      · rw [h]; decide +kernel
      · rw [h]; exact hsk
    · exact absurd (by decide +kernel) hi
  · obtain ⟨e, he, ha⟩ := List.mem_flatMap.mp ha
    by_cases hc : e = .const []
    · subst hc
      have : a.name = [] ∨ a.name = ['_'] := by
        have h : ∀ l minimal, ∀ a ∈ made l minimal [] (.const []), a.name = [] ∨ a.name = ['_'] := by
          intro l minimal
          cases l <;> cases minimal <;> decide +kernel
        have e : made l minimal s.name (.const []) = made l minimal [] (.const []) := by cases l <;> rfl
        exact h l minimal a (e ▸ ha)
      rcases this with h | h
      · exact absurd h hne
      · rw [h]; exact ⟨by decide, '_', rfl, by decide⟩
    · obtain ⟨h1, h2⟩ := hn e he hc
      have hd : '.' ∉ e.name := fun h => absurd (h1 _ h) (by decide)
      obtain ⟨p, q, -, hp, hq, key⟩ := made_keyed hd ha
      refine ident_of_key (key ▸ goodKey_append (hb a) (goodKey_append ?_ (goodKey_append_right (key_uncap h1 (.inl h2)) ?_)))
      · rcases hp with rfl | rfl | rfl
        · exact .inl rfl
        · exact .inr (by decide +kernel)
        · exact .inr (by decide +kernel)
      · rcases hq with rfl | ⟨-, -, rfl | rfl | rfl⟩
        · exact .inl rfl
        · exact .inr (by decide +kernel)
        · exact .inr (by decide +kernel)
        · exact .inr (by decide +kernel)

/-- **C83.** So is every name the output for an accepted project declares outside of types. -/
theorem C83_globals (fs : FS) (abs : Comp.Str → Option Comp.Str) (n : Nat) (file : Comp.Str) (us : List UnitD) (u : UnitD)
    (h : compileFile fs abs n file = some (us, .ok (some u))) (hpos : ∀ q g, fs q = .parsed g → (places g).Nodup)
    (t : CTy) (ht : Defined us t) (hi : ∀ m ∈ (namesOf t).1 ++ (namesOf t).2, ∀ c ∈ m, identChar c = true) (l : Lang) (minimal : Bool)
    (hn : ∀ s, t = .struct s → ∀ e ∈ entries s, e ≠ .const [] → (∀ c ∈ e.name, identChar c = true) ∧ Name.isUncapitalized e.name = true) :
    ∀ g ∈ globals l minimal t, g.name ≠ [] → Ident g.name := by
  have hcap := C82_names_capitalized fs abs n file us u h hpos t ht
  have hk : ∀ m ∈ (namesOf t).1 ++ (namesOf t).2, Ident m := fun m hm => ident_of_key (key_uncap (hi m hm) (.inr (hcap m hm)))
  intro g hg hne
  cases t with
  | struct s =>
    have h0 := hk s.name (List.mem_singleton.mpr rfl)
    by_cases hc : l = .c
    · subst hc
      simp only [globals, List.mem_cons, List.mem_map, List.mem_filter] at hg
      rcases hg with rfl | ⟨a, ⟨ha, -⟩, rfl⟩
      · exact h0
      · exact C83_members s .c minimal (hn s rfl) ⟨hi _ (List.mem_singleton.mpr rfl), hcap _ (List.mem_singleton.mpr rfl)⟩ a ha hne
    · cases l <;> first | exact absurd rfl hc | (simp only [globals, List.mem_singleton] at hg; rw [hg]; exact h0)
  | «enum» e =>
    have h0 := hk e.name (List.mem_cons_self ..)
    have hv' : ∀ g ∈ e.values.map (fun v => (⟨false, v.1⟩ : Global)), Ident g.name := by
      intro g hg
      obtain ⟨v, hv1, rfl⟩ := List.mem_map.mp hg
      exact hk _ (List.mem_cons_of_mem _ (List.mem_map_of_mem hv1))
    cases l <;> first
      | (simp only [globals, List.mem_singleton] at hg; rw [hg]; exact h0)
      | (simp only [globals, List.mem_cons] at hg
         rcases hg with rfl | hg
         · exact h0
         · exact hv' g hg)
  | _ => cases hg

/-- A struct of an accepted project meets the conditions, with a named constant, an array and underscores. -/
example (l : Lang) (minimal : Bool) : ∃ s, InProject kwFS ['a'] s ∧ s.name = "Sensor".toList ∧ (entries s).length = 3 ∧
    ∀ a ∈ members l minimal s, a.name ≠ [] → Ident a.name := by
  have h : (structOf kwFS ['a'] "Sensor".toList).any (fun s => decide (s.name = "Sensor".toList ∧ (entries s).length = 3) &&
      (decide (∀ e ∈ entries s, e ≠ .const [] → (∀ c ∈ e.name, identChar c = true) ∧ Name.isUncapitalized e.name = true) &&
        decide ((∀ c ∈ s.name, identChar c = true) ∧ Name.isCapitalized s.name = true))) = true := by decide +kernel
  obtain ⟨s, h1, h2⟩ := structOf_project h
  simp only [Bool.and_eq_true, decide_eq_true_eq] at h2
  exact ⟨s, h1, h2.1.1, h2.1.2, C83_members s l minimal h2.2.1 h2.2.2⟩

/-- Without it a name that begins with a digit would be kept. -/
example : ¬ Ident (Name.toCamel "2d".toList) := by
  rintro ⟨-, c, h, hd⟩
  have : Name.toCamel "2d".toList = "2d".toList := by decide +kernel
  rw [this] at h
  cases h
  revert hd; decide

end Bubbler
