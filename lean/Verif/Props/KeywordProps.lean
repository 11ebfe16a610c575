import Verif.Props.GlobalProps

/-
C82: names in generated code that are keywords of the target language.
-/
set_option linter.unusedSimpArgs false
namespace Bubbler
open Gen Comp

/-! ### Specification -/

/-- The words a program in the language cannot use as names: C11 with the macros of stdbool.h; Go 1.22; C++20; C# 12 (contextual
keywords are names); Java 21; Kotlin's hard keywords; Python 3.12; strict mode of ECMAScript modules (where members may be called
by any word). -/
def keywords (l : Lang) : List Gen.Str :=
  (match l with
  | .c => ["auto", "break", "case", "char", "const", "continue", "default", "do", "double", "else", "enum", "extern", "float", "for",
      "goto", "if", "inline", "int", "long", "register", "restrict", "return", "short", "signed", "sizeof", "static", "struct",
      "switch", "typedef", "union", "unsigned", "void", "volatile", "while", "_Alignas", "_Alignof", "_Atomic", "_Bool", "_Complex",
      "_Generic", "_Imaginary", "_Noreturn", "_Static_assert", "_Thread_local", "bool", "true", "false"]
  | .go => ["break", "case", "chan", "const", "continue", "default", "defer", "else", "fallthrough", "for", "func", "go", "goto", "if",
      "import", "interface", "map", "package", "range", "return", "select", "struct", "switch", "type", "var"]
  | .cpp => ["alignas", "alignof", "and", "and_eq", "asm", "auto", "bitand", "bitor", "bool", "break", "case", "catch", "char",
      "char8_t", "char16_t", "char32_t", "class", "co_await", "co_return", "co_yield", "compl", "concept", "const", "const_cast",
      "consteval", "constexpr", "constinit", "continue", "decltype", "default", "delete", "do", "double", "dynamic_cast", "else",
      "enum", "explicit", "export", "extern", "false", "float", "for", "friend", "goto", "if", "inline", "int", "long", "mutable",
      "namespace", "new", "noexcept", "not", "not_eq", "nullptr", "operator", "or", "or_eq", "private", "protected", "public",
      "register", "reinterpret_cast", "requires", "return", "short", "signed", "sizeof", "static", "static_assert", "static_cast",
      "struct", "switch", "template", "this", "thread_local", "throw", "true", "try", "typedef", "typeid", "typename", "union",
      "unsigned", "using", "virtual", "void", "volatile", "wchar_t", "while", "xor", "xor_eq"]
  | .csharp => ["abstract", "as", "base", "bool", "break", "byte", "case", "catch", "char", "checked", "class", "const", "continue",
      "decimal", "default", "delegate", "do", "double", "else", "enum", "event", "explicit", "extern", "false", "finally", "fixed",
      "float", "for", "foreach", "goto", "if", "implicit", "in", "int", "interface", "internal", "is", "lock", "long", "namespace",
      "new", "null", "object", "operator", "out", "override", "params", "private", "protected", "public", "readonly", "ref", "return",
      "sbyte", "sealed", "short", "sizeof", "stackalloc", "static", "string", "struct", "switch", "this", "throw", "true", "try",
      "typeof", "uint", "ulong", "unchecked", "unsafe", "ushort", "using", "virtual", "void", "volatile", "while"]
  | .java => ["abstract", "assert", "boolean", "break", "byte", "case", "catch", "char", "class", "const", "continue", "default", "do",
      "double", "else", "enum", "extends", "final", "finally", "float", "for", "goto", "if", "implements", "import", "instanceof",
      "int", "interface", "long", "native", "new", "package", "private", "protected", "public", "return", "short", "static",
      "strictfp", "super", "switch", "synchronized", "this", "throw", "throws", "transient", "try", "void", "volatile", "while",
      "true", "false", "null"]
  | .kotlin => ["as", "break", "class", "continue", "do", "else", "false", "for", "fun", "if", "in", "interface", "is", "null",
      "object", "package", "return", "super", "this", "throw", "true", "try", "typealias", "typeof", "val", "var", "when", "while"]
  | .python => ["False", "None", "True", "and", "as", "assert", "async", "await", "break", "class", "continue", "def", "del", "elif",
      "else", "except", "finally", "for", "from", "global", "if", "import", "in", "is", "lambda", "nonlocal", "not", "or", "pass",
      "raise", "return", "try", "while", "with", "yield"]
  | .js => ["await", "break", "case", "catch", "class", "const", "continue", "debugger", "default", "delete", "do", "else", "enum",
      "export", "extends", "false", "finally", "for", "function", "if", "implements", "import", "in", "instanceof", "interface", "let",
      "new", "null", "package", "private", "protected", "public", "return", "static", "super", "switch", "this", "throw", "true", "try",
      "typeof", "var", "void", "while", "with", "yield"]).map String.toList

/-! ### Keywords and accessors -/

theorem kw_get (l : Lang) : ∀ k ∈ keywords l, ¬ "get".toList <+: lettersAndDigits k ∧ ¬ "set".toList <+: lettersAndDigits k := by
  cases l <;> decide +kernel

theorem kw_fixed (l : Lang) : l ≠ .c → ∀ a ∈ fixed l [], a.name ∉ keywords l := by
  cases l <;> decide +kernel

/-- what a C function ends in, or has inside of its name -/
theorem kw_c : ∀ k ∈ keywords .c, ∀ p ∈ (["_dynamic", "_size", "_encode_size", "_encode", "_decode_size", "_decode", "_get_", "_set_"] : List String),
    ∀ i ≤ k.length, ¬ p.toList <+: k.drop i := by decide +kernel

theorem not_kw_c {x p y : Gen.Str} (h : x ++ p ++ y ∈ keywords .c)
    (hp : p ∈ (["_dynamic", "_size", "_encode_size", "_encode", "_decode_size", "_decode", "_get_", "_set_"] : List String).map String.toList) : False := by
  obtain ⟨s, hs, rfl⟩ := List.mem_map.mp hp
  refine kw_c _ h s hs x.length (by simp [Nat.add_assoc]) ?_
  rw [List.append_assoc, List.drop_left]
  exact List.prefix_append _ _

theorem made_c_func {minimal : Bool} {s : Gen.Str} {e : Entry} {a : Member} (h : a ∈ made .c minimal s e) (ha : a.attr = false) :
    ∃ p y, (p = "_get_".toList ∨ p = "_set_".toList) ∧ a.name = s ++ p ++ y := by
  cases e with
  | field n arr =>
    cases minimal <;> cases arr <;>
      simp only [made, Bool.false_eq_true, if_false, if_true, List.cons_append, List.nil_append, List.append_nil, List.mem_cons,
        List.not_mem_nil, or_false] at h
    all_goals
      repeat' (refine Or.elim h (fun h => ?_) (fun h => ?_))
    all_goals
      subst h
      first
      | (cases ha; done)
      | exact ⟨_, _, .inl rfl, rfl⟩
      | exact ⟨_, _, .inr rfl, rfl⟩
      | exact ⟨_, _, .inl rfl, List.append_assoc _ _ _⟩
      | exact ⟨_, _, .inr rfl, List.append_assoc _ _ _⟩
  | group m get set own =>
    simp only [made, List.mem_append] at h
    rcases h with h | h
    · rw [mem_opt h]; exact ⟨_, _, .inl rfl, rfl⟩
    · rw [mem_opt h]; exact ⟨_, _, .inr rfl, rfl⟩
  | const n =>
    simp only [made] at h
    rw [mem_opt h] at ha; cases ha

/-! ### The theorems -/

/-- **C82.** If no name of a field, method or constant is a keyword of the target language up to case and underscores, and the name
of the struct is none, no member of the generated type is called by a keyword, with and without raw accessors. -/
theorem C82_members (s : StructD) (l : Lang) (minimal : Bool) (hi : ∀ e ∈ entries s, '.' ∉ e.name)
    (hk : ∀ e ∈ entries s, ∀ k ∈ keywords l, lettersAndDigits e.name ≠ lettersAndDigits k) (hs : s.name ∉ keywords l) :
    ∀ a ∈ members l minimal s, a.name ∉ keywords l := by
  intro a ha hkw
  rcases List.mem_append.mp ha with ha | ha
  · by_cases hc : l = .c
    · subst hc
      obtain ⟨n, hn, rfl⟩ := List.mem_map.mp ha
      simp only [func] at hkw
      rw [← List.append_nil (s.name ++ n.toList)] at hkw
      exact not_kw_c hkw (List.mem_map_of_mem (List.mem_append_left ["_get_", "_set_"] hn))
    · by_cases hs' : a = attr s.name
      · rw [hs'] at hkw; exact hs hkw
      · refine kw_fixed l hc a ?_ hkw
        cases l <;> first | exact absurd rfl hc | exact ha | skip
        simp only [fixed, List.mem_append, List.mem_cons] at ha ⊢
        rcases ha with ha | ha | ha
        · exact .inl ha
        · exact absurd ha hs'
        · exact .inr (.inr ha)
  · obtain ⟨e, he, ha⟩ := List.mem_flatMap.mp ha
    by_cases hc : l = .c ∧ a.attr = false
    · obtain ⟨rfl, hf⟩ := hc
      obtain ⟨p, y, hp, e'⟩ := made_c_func ha hf
      rw [e'] at hkw
      refine not_kw_c hkw ?_
      rcases hp with rfl | rfl <;> decide
    · obtain ⟨p, q, -, hp, hq, key⟩ := made_keyed (hi e he) ha
      simp only [base, if_neg hc, List.nil_append] at key
      rcases hp with rfl | rfl | rfl
      · rcases hq with rfl | ⟨h, -⟩
        · rw [List.nil_append, List.append_nil] at key
          exact hk e he _ hkw key.symm
        · exact h rfl
      · exact (kw_get l _ hkw).1 (key ▸ List.prefix_append _ _)
      · exact (kw_get l _ hkw).2 (key ▸ List.prefix_append _ _)

/-- **C82.** In Go no member of a generated type is called by a keyword, whatever the names in the source. -/
theorem C82_go (s : StructD) (minimal : Bool) (hi : ∀ e ∈ entries s, '.' ∉ e.name) :
    ∀ a ∈ members .go minimal s, a.name ∉ keywords .go := by
  have up : ∀ k ∈ keywords .go, ∃ c r, k = c :: r ∧ Name.isLower c = true ∧ c ≠ '_' := by
    intro k hk
    have : k.head?.any (fun c => Name.isLower c && decide (c ≠ '_')) = true := by revert k; decide +kernel
    cases k with
    | nil => cases this
    | cons c r => exact ⟨c, r, rfl, by simpa using this⟩
  have pas : ∀ n : Gen.Str, '.' ∉ n → Name.toPascal n ∉ keywords .go := by
    intro n hd hk
    obtain ⟨c, r, e, h1, h2⟩ := up _ hk
    rcases C35_style_applies n with ⟨i, rfl⟩ | ⟨i, k, j, rfl, hk', hcore⟩
    · have h3 := (C35_keeps_letters_ident _ hd).2.2.1
      rw [e] at h3
      have h4 : lettersAndDigits (Name.us i) = [] := by
        have : (Name.us i).filter (· ≠ '_') = [] := by
          rw [List.filter_eq_nil_iff]; intro x hx; rw [List.eq_of_mem_replicate hx]; decide
        rw [lettersAndDigits, this]; rfl
      rw [h4] at h3
      simp only [lettersAndDigits, List.filter_cons, h2, ne_eq, not_false_eq_true, decide_true, if_true] at h3
      cases h3
    · have hd' : '.' ∉ k := fun h => hd (List.mem_append_left _ (List.mem_append_right _ h))
      obtain ⟨-, -, ⟨c', r', e', h3, -⟩, -⟩ := C35_style k hcore hk' hd' i j
      rw [e'] at e
      cases i with
      | zero =>
        have : c' = c := (List.cons.inj e).1
        rw [this, h1] at h3; cases h3
      | succ i => exact h2 (List.cons.inj e).1.symm
  have acc : ∀ c r, Name.isLower c = false → (c :: r : Gen.Str) ∉ keywords .go := by
    intro c r hc hk
    obtain ⟨c', r', e, h1, -⟩ := up _ hk
    rw [(List.cons.inj e).1, h1] at hc; cases hc
  intro a ha
  rcases List.mem_append.mp ha with ha | ha
  · exact kw_fixed .go (by decide) a ha
  · obtain ⟨e, he, ha⟩ := List.mem_flatMap.mp ha
    have hd := hi e he
    cases e with
    | field n arr =>
      simp only [made, List.mem_cons] at ha
      rcases ha with rfl | ha
      · exact pas n hd
      · cases minimal with
        | true => cases ha
        | false =>
          simp only [Bool.false_eq_true, if_false, List.mem_cons, List.not_mem_nil, or_false] at ha
          rcases ha with rfl | rfl <;> exact acc _ _ (by decide)
    | group m get set own =>
      simp only [made, List.mem_append] at ha
      rcases ha with ha | ha <;> (rw [mem_opt ha]; exact acc _ _ (by decide))
    | const n =>
      simp only [made] at ha
      rw [mem_opt ha]; exact pas n hd

/-- The name a definition has, and the names of the values of an enum -/
def namesOf : CTy → List Gen.Str × List Gen.Str
  | .struct s => ([s.name], [])
  | .enum e => ([e.name], e.values.map (·.1))
  | _ => ([], [])

/-- **C82.** Outside of types, no name is a keyword if no type and, in C and Go, no enum value is called by one. -/
theorem C82_globals (t : CTy) (l : Lang) (minimal : Bool) (hn : ∀ n ∈ (namesOf t).1, n ∉ keywords l)
    (hv : l = .c ∨ l = .go → ∀ v ∈ (namesOf t).2, v ∉ keywords l) :
    ∀ g ∈ globals l minimal t, g.name ∉ keywords l := by
  have cf : ∀ s : StructD, ∀ a ∈ members .c minimal s, a.attr = false → a.name ∉ keywords .c := by
    intro s a ha hf hkw
    rcases List.mem_append.mp ha with ha | ha
    · obtain ⟨n, hn, rfl⟩ := List.mem_map.mp ha
      simp only [func] at hkw
      rw [← List.append_nil (s.name ++ n.toList)] at hkw
      exact not_kw_c hkw (List.mem_map_of_mem (List.mem_append_left ["_get_", "_set_"] hn))
    · obtain ⟨e, he, ha⟩ := List.mem_flatMap.mp ha
      obtain ⟨p, y, hp, e'⟩ := made_c_func ha hf
      rw [e'] at hkw
      refine not_kw_c hkw ?_
      rcases hp with rfl | rfl <;> decide
  intro g hg
  cases t with
  | struct s =>
    have h0 := hn s.name (List.mem_singleton.mpr rfl)
    by_cases hc : l = .c
    · subst hc
      simp only [globals, List.mem_cons, List.mem_map, List.mem_filter] at hg
      rcases hg with rfl | ⟨a, ⟨ha, hf⟩, rfl⟩
      · exact h0
      · exact cf s a ha (by simpa using hf)
    · cases l <;> first | exact absurd rfl hc | (simp only [globals, List.mem_singleton] at hg; rw [hg]; exact h0)
  | «enum» e =>
    have h0 := hn e.name (List.mem_singleton.mpr rfl)
    have hv' : l = .c ∨ l = .go → ∀ g ∈ e.values.map (fun v => (⟨false, v.1⟩ : Global)), g.name ∉ keywords l := by
      intro h g hg
      obtain ⟨v, hv1, rfl⟩ := List.mem_map.mp hg
      exact hv h _ (List.mem_map_of_mem hv1)
    cases l <;> first
      | (simp only [globals, List.mem_singleton] at hg; rw [hg]; exact h0)
      | (simp only [globals, List.mem_cons] at hg
         rcases hg with rfl | hg
         · exact h0
         · exact hv' (by simp) g hg)
  | _ => cases hg

/-- **C82.** Definitions have capitalized names, which are keywords of no language but C and Python. -/
theorem C82_capitalized (l : Lang) (h1 : l ≠ .c) (h2 : l ≠ .python) (n : Gen.Str) (hn : Name.isCapitalized n = true) :
    n ∉ keywords l := by
  have h : ∀ k ∈ keywords l, Name.isCapitalized k = false := by
    cases l <;> first | exact absurd rfl h1 | exact absurd rfl h2 | (clear h1 h2; decide +kernel)
  intro hk
  rw [h n hk] at hn
  cases hn

/-- **C82.** So no global name is a keyword of these languages. -/
theorem C82_globals_capitalized (t : CTy) (l : Lang) (minimal : Bool) (h1 : l ≠ .c) (h2 : l ≠ .python)
    (hn : ∀ n ∈ (namesOf t).1 ++ (namesOf t).2, Name.isCapitalized n = true) : ∀ g ∈ globals l minimal t, g.name ∉ keywords l :=
  C82_globals t l minimal (fun n h => C82_capitalized l h1 h2 n (hn n (List.mem_append_left _ h)))
    (fun _ v h => C82_capitalized l h1 h2 v (hn v (List.mem_append_right _ h)))

/-! ### Definitions have capitalized names -/

mutual
  theorem elemA_cap {Γ : Scope} : ∀ (e : ElemA) {t : CTy}, ElemOk Γ e t → ∀ n ∈ e.intro, Name.isCapitalized n = true
    | .structDef d, _, h, n, hn => by
      cases h with
      | structDef h => exact structA_cap d h n hn
    | .basic _, _, _, _, hn => nomatch hn
    | .str, _, _, _, hn => nomatch hn
    | .bytes, _, _, _, hn => nomatch hn
    | .structName _, _, _, _, hn => nomatch hn
    | .enumName _, _, _, _, hn => nomatch hn
    | .ident _, _, _, _, hn => nomatch hn
  theorem typeA_cap {Γ : Scope} : ∀ (e : TypeA) {t : CTy}, TypeOk Γ e t → ∀ n ∈ e.intro, Name.isCapitalized n = true
    | .elem e, _, h, n, hn => by
      cases h with
      | elem h => exact elemA_cap e h n hn
    | .array e _, _, h, n, hn => by
      cases h with
      | array h _ _ => exact elemA_cap e h n hn
  theorem structA_cap {Γ : Scope} : ∀ (d : StructA) {x : StructD}, StructOk Γ d x → ∀ n ∈ d.intro, Name.isCapitalized n = true
    | .mk _ _ m _ b, _, h, n, hn => by
      cases h with
      | mk h1 h2 =>
        rcases List.mem_cons.1 hn with rfl | hn
        · exact h1
        · exact bodyA_cap b h2 n hn
  theorem bodyA_cap {Γ : Scope} : ∀ (b : BodyA) {fs : List FieldD}, BodyOk Γ b fs → ∀ n ∈ b.intro, Name.isCapitalized n = true
    | .nil, _, _, _, hn => nomatch hn
    | .cons f r, _, h, n, hn => by
      cases h with
      | cons h1 h2 =>
        rcases List.mem_append.1 hn with hn | hn
        · exact fieldA_cap f h1 n hn
        · exact bodyA_cap r h2 n hn
  theorem fieldA_cap {Γ : Scope} : ∀ (f : FieldA) {fs : List FieldD}, FieldOk Γ f fs → ∀ n ∈ f.intro, Name.isCapitalized n = true
    | .normal t _ _ _ _, _, h, n, hn => by
      cases h with
      | normal h => exact typeA_cap t h n hn
    | .embedded t _, _, h, n, hn => by
      cases h with
      | embedded h => exact typeA_cap t h n hn
    | .empty, _, _, _, hn => nomatch hn
    | .void _ _, _, _, _, hn => nomatch hn
    | .const _ _ _ _ _, _, _, _, hn => nomatch hn
end

theorem numsOk_cap {Γ : Scope} {prev : Option Int} {b : List EnumElemA} {vs : List (Comp.Str × Int)} (h : NumsOk Γ prev b vs) :
    ∀ n ∈ vs.map (·.1), Name.isCapitalized n = true := by
  induction h with
  | nil => intro n hn; cases hn
  | empty _ ih => exact ih
  | next h _ _ ih => exact List.forall_mem_cons.2 ⟨h, ih⟩
  | given h _ _ _ ih => exact List.forall_mem_cons.2 ⟨h, ih⟩

theorem topA_cap {Γ : Scope} {T : TopA} {t : CTy} (h : TopOk Γ T t) : ∀ n ∈ T.intro, Name.isCapitalized n = true := by
  cases h with
  | struct h => exact structA_cap _ h
  | enum h =>
    cases h with
    | mk h1 _ h3 _ =>
      refine List.forall_mem_cons.2 ⟨h1, fun n hn => numsOk_cap h3 n ?_⟩
      rw [numsOk_names h3]
      exact hn

theorem defsOk_cap {Γ : Scope} {ts : List TopA} {ds : List CTy} (h : DefsOk Γ ts ds) :
    ∀ T ∈ ts, ∀ n ∈ T.intro, Name.isCapitalized n = true := by
  induction h with
  | nil => intro T hT; cases hT
  | cons h _ ih => exact List.forall_mem_cons.2 ⟨topA_cap h, ih⟩

/-- The name of a definition of an accepted project is capitalized, and so are the names of an enum's values. -/
theorem C82_names_capitalized (fs : FS) (abs : Comp.Str → Option Comp.Str) (n : Nat) (file : Comp.Str) (us : List UnitD) (u : UnitD)
    (h : compileFile fs abs n file = some (us, .ok (some u))) (hpos : ∀ q g, fs q = .parsed g → (places g).Nodup)
    (t : CTy) (ht : Defined us t) : ∀ n ∈ (namesOf t).1 ++ (namesOf t).2, Name.isCapitalized n = true := by
  have P := Project.of h hpos
  have R := rules_of_project h hpos
  have key : ∀ q g T, Reach fs u.path q → fs q = .parsed g → T ∈ g.tops → ∀ m ∈ T.intro, Name.isCapitalized m = true := by
    intro q g T hq hg hT
    obtain ⟨f, hf, -, hd⟩ := R.files q hq
    rw [hg] at hf
    cases hf
    exact defsOk_cap hd T hT
  have h1 : Name.isCapitalized t.customName = true := by
    obtain ⟨q, g, T, k1, k2, k3, k4⟩ := defined_type P ht
    exact key q g T k1 k2 k3 _ (topA_decls T _ k4)
  intro m hm
  cases ht with
  | struct ho =>
    simp only [namesOf, List.append_nil, List.mem_singleton] at hm
    rw [hm]; exact h1
  | @enum v k td e hv hk he =>
    simp only [namesOf, List.singleton_append, List.mem_cons] at hm
    rcases hm with rfl | hm
    · exact h1
    · obtain ⟨q, g, d, k1, k2, k3, k4, k5⟩ := defined_enum P R (.enum hv hk he)
      exact key q g _ k1 k2 k3 m (k5 ▸ List.mem_cons_of_mem _ hm)

/-- The keywords of C and Python that a definition may be called by -/
theorem kw_capitalized : (∀ k ∈ keywords .c, Name.isCapitalized k = true → k.head? = some '_') ∧
    ∀ k ∈ keywords .python, Name.isCapitalized k = true → k ∈ ["None".toList, "True".toList, "False".toList] := by
  decide +kernel

/-- **C82.** In C none is one if no type and no enum value begins with an underscore, in Python if no type is called `None`, `True` or
`False`. -/
theorem C82_project_c_python (fs : FS) (abs : Comp.Str → Option Comp.Str) (n : Nat) (file : Comp.Str) (us : List UnitD) (u : UnitD)
    (h : compileFile fs abs n file = some (us, .ok (some u))) (hpos : ∀ q g, fs q = .parsed g → (places g).Nodup)
    (t : CTy) (ht : Defined us t) (minimal : Bool) :
    ((∀ n ∈ (namesOf t).1 ++ (namesOf t).2, n.head? ≠ some '_') → ∀ g ∈ globals .c minimal t, g.name ∉ keywords .c) ∧
    (t.customName ∉ ["None".toList, "True".toList, "False".toList] → ∀ g ∈ globals .python minimal t, g.name ∉ keywords .python) := by
  have hcap := C82_names_capitalized fs abs n file us u h hpos t ht
  constructor
  · intro hu
    refine C82_globals t .c minimal (fun m hm hk => ?_) (fun _ m hm hk => ?_)
    · exact hu m (List.mem_append_left _ hm) (kw_capitalized.1 m hk (hcap m (List.mem_append_left _ hm)))
    · exact hu m (List.mem_append_right _ hm) (kw_capitalized.1 m hk (hcap m (List.mem_append_right _ hm)))
  · intro hu
    refine C82_globals t .python minimal (fun m hm hk => hu ?_) (fun hl => by rcases hl with h | h <;> cases h)
    have e : m = t.customName := by
      cases ht with
      | struct ho => exact List.mem_singleton.1 hm
      | enum _ _ _ => exact List.mem_singleton.1 hm
    exact e ▸ kw_capitalized.2 m hk (hcap m (List.mem_append_left _ hm))

/-- **C82.** Outside of types no name in the output for an accepted project is a keyword, in any language but C and Python. -/
theorem C82_project (fs : FS) (abs : Comp.Str → Option Comp.Str) (n : Nat) (file : Comp.Str) (us : List UnitD) (u : UnitD)
    (h : compileFile fs abs n file = some (us, .ok (some u))) (hpos : ∀ q g, fs q = .parsed g → (places g).Nodup)
    (t : CTy) (ht : Defined us t) (l : Lang) (hc : l ≠ .c) (hp : l ≠ .python) (minimal : Bool) :
    ∀ g ∈ globals l minimal t, g.name ∉ keywords l :=
  C82_globals_capitalized t l minimal hc hp (C82_names_capitalized fs abs n file us u h hpos t ht)

/-! ### The conditions are met, and needed -/

/-- `struct Loop { uint8 for; uint8 count; }`, `struct _Atomic { uint8 x; }`, `struct None { uint8 x; }` and
`struct Sensor { uint8 kind = 5; uint8<3> raw_values; uint8 checkSum; }` -/
def kwFS : FS := fun p => if p = ['a'] then .parsed ⟨[], [['q']], [],
  [memStruct 1 "Loop" (u8Field "for" (u8Field "count" .nil)),
   memStruct 2 "_Atomic" (u8Field "x" .nil),
   memStruct 3 "None" (u8Field "x" .nil),
   memStruct 4 "Sensor" (u8Const (some "kind") (u8Array "raw_values" (u8Field "checkSum" .nil)))]⟩ else .missing

/-- The last one meets the conditions in every language. -/
example (l : Lang) (minimal : Bool) : ∃ s, InProject kwFS ['a'] s ∧ s.name = "Sensor".toList ∧ (entries s).length = 3 ∧
    ∀ a ∈ members l minimal s, a.name ∉ keywords l := by
  have h : (structOf kwFS ['a'] "Sensor".toList).any (fun s => decide (s.name = "Sensor".toList ∧ (entries s).length = 3) &&
      (decide (∀ e ∈ entries s, '.' ∉ e.name) && (decide (∀ e ∈ entries s, ∀ k ∈ keywords l, lettersAndDigits e.name ≠ lettersAndDigits k) &&
        decide (s.name ∉ keywords l)))) = true := by cases l <;> decide +kernel
  obtain ⟨s, h1, h2⟩ := structOf_project h
  simp only [Bool.and_eq_true, decide_eq_true_eq] at h2
  exact ⟨s, h1, h2.1.1, h2.1.2, C82_members s l minimal h2.2.1 h2.2.2.1 h2.2.2.2⟩

/-- The definitions of a project of two files, `Mode` with its values among them, meet the conditions in every language. -/
example (l : Lang) (minimal : Bool) : Defined globUnits (named "Mode") ∧ 0 < (namesOf (named "Mode")).2.length ∧
    ∀ n ∈ ["Point", "A", "Mode"], ∀ g ∈ globals l minimal (named n), g.name ∉ keywords l := by
  obtain ⟨u, h⟩ := globUnits_eq
  have hpos : ∀ q g, globFS q = .parsed g → (places g).Nodup := by
    intro q g hg
    unfold globFS at hg
    split at hg
    · cases hg; decide +kernel
    · split at hg
      · cases hg; decide +kernel
      · cases hg
  refine ⟨(named_defined (by decide +kernel)).1, by decide +kernel, fun n hn => ?_⟩
  have hd : isDef (named n) = true ∧ (∀ m ∈ (namesOf (named n)).1 ++ (namesOf (named n)).2, m.head? ≠ some '_') ∧
      (named n).customName ∉ ["None".toList, "True".toList, "False".toList] := by
    revert n; decide +kernel
  have ht := (named_defined hd.1).1
  have k := C82_project_c_python globFS some 5 ['a'] _ u h hpos _ ht minimal
  by_cases h1 : l = .c
  · subst h1; exact k.1 hd.2.1
  · by_cases h2 : l = .python
    · subst h2; exact k.2 hd.2.2
    · exact C82_project globFS some 5 ['a'] _ u h hpos _ ht l h1 h2 minimal

/-- **C82.** A field `for` is accepted, and in all languages but Go and JavaScript the type has a member called by this keyword. -/
theorem C82_field_counterexample (l : Lang) (h1 : l ≠ .go) (h2 : l ≠ .js) :
    ∃ s, InProject kwFS ['a'] s ∧ s.name ∉ keywords l ∧ ∃ a ∈ members l false s, a.name = "for".toList ∧ a.name ∈ keywords l := by
  have h : (structOf kwFS ['a'] "Loop".toList).any (fun s => decide (s.name ∉ keywords l) &&
      (members l false s).any fun a => decide (a.name = "for".toList ∧ a.name ∈ keywords l)) = true := by
    cases l <;> first | exact absurd rfl h1 | exact absurd rfl h2 | (clear h1 h2; decide +kernel)
  obtain ⟨s, g1, g2⟩ := structOf_project h
  simp only [Bool.and_eq_true, decide_eq_true_eq, List.any_eq_true] at g2
  obtain ⟨g2, a, g3, g4⟩ := g2
  exact ⟨s, g1, g2, a, g3, g4⟩

/-- **C82.** A struct `_Atomic` is accepted, and C has a type called by this keyword; `None` is accepted too, and Python has a class
called by this one. -/
theorem C82_type_counterexample (l : Lang) (n : String) (hl : (l, n) = (.c, "_Atomic") ∨ (l, n) = (.python, "None")) :
    ∃ s, InProject kwFS ['a'] s ∧ ∃ g ∈ globals l false (.struct s), g.name = n.toList ∧ g.name ∈ keywords l := by
  have h : (structOf kwFS ['a'] n.toList).any (fun s => (globals l false (.struct s)).any fun g =>
      decide (g.name = n.toList ∧ g.name ∈ keywords l)) = true := by
    rcases hl with hl | hl <;> (cases hl; decide +kernel)
  obtain ⟨s, g1, g2⟩ := structOf_project h
  rw [List.any_eq_true] at g2
  obtain ⟨g, g3, g4⟩ := g2
  exact ⟨s, g1, g, g3, of_decide_eq_true g4⟩

/-- **C82.** So is an enum value `_Bool`, in C a name outside of types. -/
theorem C82_value_counterexample : ∃ e u', visitEnum ⟨1, 0, ['E'], ⟨some ['1'], none⟩,
    [.value 1 1 "_Bool".toList (some (.inl (.int false ['0'])))]⟩ Sample.u0 = (.ok e, u') ∧
    ∃ g ∈ globals .c false (.enum e), g.name = "_Bool".toList ∧ g.name ∈ keywords .c := by
  have h : (match visitEnum ⟨1, 0, ['E'], ⟨some ['1'], none⟩,
      [.value 1 1 "_Bool".toList (some (.inl (.int false ['0'])))]⟩ Sample.u0 with
    | (.ok e, _) => decide (∃ g ∈ globals .c false (.enum e), g.name = "_Bool".toList ∧ g.name ∈ keywords .c)
    | _ => false) = true := by decide +kernel
  split at h
  · rename_i e u' he
    exact ⟨e, u', he, of_decide_eq_true h⟩
  · cases h

end Bubbler
