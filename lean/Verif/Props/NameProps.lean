import Verif.Util.NameWords

/-
C35: name style conversions (util/name_style.go) and the style warnings (compiler/proto_visitor.go 259-274,
932-947, 1234-1249, 2456-2471, 2490-2505), which recommend the conversion applied twice.
-/
namespace Bubbler
open Name

/-- The characters of an identifier other than underscores, with letters in lower case: what a conversion must keep. -/
def lettersAndDigits (s : Str) : Str := (s.filter (· ≠ '_')).map toLower

/-- Number of leading underscores. -/
def leading : Str → Nat
  | '_' :: s => leading s + 1
  | _ => 0

/-- **C35.** Each conversion keeps every segment's letters and digits, in order, up to case. -/
theorem C35_keeps_letters (s : Str) :
    (Text.splitOn '.' (toSnake s)).map lettersAndDigits = (Text.splitOn '.' s).map lettersAndDigits ∧
    (Text.splitOn '.' (toAllCap s)).map lettersAndDigits = (Text.splitOn '.' s).map lettersAndDigits ∧
    (Text.splitOn '.' (toPascal s)).map lettersAndDigits = (Text.splitOn '.' s).map lettersAndDigits ∧
    (Text.splitOn '.' (toCamel s)).map lettersAndDigits = (Text.splitOn '.' s).map lettersAndDigits := by
  have key : ∀ {f g : Str → Str}, Conv f g →
      (Text.splitOn '.' (segments f s)).map lettersAndDigits = (Text.splitOn '.' s).map lettersAndDigits := by
    intro f g h
    rw [h.split s, List.map_map]
    apply List.map_congr_left
    intro l _
    exact h.seg_skel l
  exact ⟨key (conv_snake true), key (conv_snake false), key conv_pascal, key conv_camel⟩

/-- For an identifier (no dots) this reads directly. -/
theorem C35_keeps_letters_ident (s : Str) (h : '.' ∉ s) :
    lettersAndDigits (toSnake s) = lettersAndDigits s ∧ lettersAndDigits (toAllCap s) = lettersAndDigits s ∧
    lettersAndDigits (toPascal s) = lettersAndDigits s ∧ lettersAndDigits (toCamel s) = lettersAndDigits s := by
  have key : ∀ {f g : Str → Str}, Conv f g → lettersAndDigits (segments f s) = lettersAndDigits s := by
    intro f g hf
    unfold segments
    rw [Text.splitOn_single '.' s h]
    exact hf.seg_skel s
  exact ⟨key (conv_snake true), key (conv_snake false), key conv_pascal, key conv_camel⟩

example : lettersAndDigits "__Hello_World2_".toList = "helloworld2".toList := by decide +kernel

theorem leading_us (n : Nat) (k : Str) (h : ∀ c t, k = c :: t → c ≠ '_') : leading (us n ++ k) = n := by
  induction n with
  | zero =>
    cases k with
    | nil => rfl
    | cons c t =>
      show leading (c :: t) = 0
      unfold leading
      split
      · rename_i e
        cases e
        exact absurd rfl (h _ _ rfl)
      · rfl
  | succ n ih =>
    show leading ('_' :: (us n ++ k)) = n + 1
    rw [leading, ih]

/-- **C35.** Leading and trailing underscores of an identifier are kept. -/
theorem C35_keeps_underscores (s : Str) (h : '.' ∉ s) :
    (leading (toSnake s) = leading s ∧ leading (toSnake s).reverse = leading s.reverse) ∧
    (leading (toAllCap s) = leading s ∧ leading (toAllCap s).reverse = leading s.reverse) ∧
    (leading (toPascal s) = leading s ∧ leading (toPascal s).reverse = leading s.reverse) ∧
    (leading (toCamel s) = leading s ∧ leading (toCamel s).reverse = leading s.reverse) := by
  have key : ∀ {f g : Str → Str}, Conv f g →
      leading (segments f s) = leading s ∧ leading (segments f s).reverse = leading s.reverse := by
    intro f g hf
    unfold segments
    rw [Text.splitOn_single '.' s h]
    show leading (f s) = leading s ∧ leading (f s).reverse = leading s.reverse
    rcases decompose s with ⟨n, rfl⟩ | ⟨a, k, b, rfl, hk, hc⟩
    · rw [hf.us]; exact ⟨rfl, rfl⟩
    · rw [hf.core hc hk]
      have aux : ∀ k : Str, Core k → k ≠ [] → leading (us a ++ k ++ us b) = a ∧ leading (us a ++ k ++ us b).reverse = b := by
        intro k hc hk
        constructor
        · rw [List.append_assoc]
          apply leading_us
          intro c t e
          cases k with
          | nil => exact absurd rfl hk
          | cons x k => simp only [List.cons_append, List.cons.injEq] at e; exact hc.1 c k (by rw [e.1])
        · have : (us a ++ k ++ us b).reverse = us b ++ (k.reverse ++ us a) := by simp [us_reverse]
          rw [this]
          apply leading_us
          intro c t e
          obtain ⟨i, x, rfl⟩ := Text.exists_snoc k hk
          simp only [List.reverse_append, List.reverse_cons, List.reverse_nil, List.nil_append, List.cons_append,
            List.singleton_append, List.cons.injEq] at e
          rw [← e.1]
          exact hc.2 i x rfl
      have h1 := aux k hc hk
      have h2 := aux (g k) (hf.keep hc hk) (ne_nil_of_skel (hf.skel k) hk hc)
      exact ⟨by rw [h1.1, h2.1], by rw [h1.2, h2.2]⟩
  exact ⟨key (conv_snake true), key (conv_snake false), key conv_pascal, key conv_camel⟩

example : leading "__ab_".toList = 2 ∧ toPascal "__hello_world_".toList = "__HelloWorld_".toList := by decide +kernel

/-- **C35.** The converted names have the style they claim: snake_case has no upper-case letter, ALLCAP_CASE no
lower-case letter, PascalCase and camelCase no underscore between two other characters; Pascal does not start with a
lower-case letter and camel not with an upper-case one. -/
theorem C35_style (k : Str) (hc : Core k) (hk : k ≠ []) (hdot : '.' ∉ k) (a b : Nat) :
    (∀ c ∈ toSnake (us a ++ k ++ us b), isUpper c = false) ∧
    (∀ c ∈ toAllCap (us a ++ k ++ us b), isLower c = false) ∧
    (∃ c r, toPascal (us a ++ k ++ us b) = us a ++ c :: r ++ us b ∧ isLower c = false ∧ '_' ∉ c :: r) ∧
    (∃ c r, toCamel (us a ++ k ++ us b) = us a ++ c :: r ++ us b ∧ isUpper c = false ∧ '_' ∉ c :: r) := by
  have hd : '.' ∉ us a ++ k ++ us b := by
    simp only [List.mem_append, not_or]; exact ⟨⟨us_no_dot a, hdot⟩, us_no_dot b⟩
  have seg : ∀ f : Str → Str, segments f (us a ++ k ++ us b) = f (us a ++ k ++ us b) := by
    intro f; unfold segments; rw [Text.splitOn_single '.' _ hd]; rfl
  have us_mem : ∀ n c, c ∈ us n → c = '_' := by intro n c h; simp [us] at h; exact h.2
  refine ⟨?_, ?_, ?_, ?_⟩
  · intro c h
    rw [toSnake, seg, snake1_core true hc hk] at h
    simp only [List.mem_append] at h
    rcases h with (h | h) | h
    · rw [us_mem _ _ h]; rfl
    · exact snakeLoop_no_upper _ _ _ _ _ c h
    · rw [us_mem _ _ h]; rfl
  · intro c h
    rw [toAllCap, seg, snake1_core false hc hk] at h
    simp only [List.mem_append] at h
    rcases h with (h | h) | h
    · rw [us_mem _ _ h]; rfl
    · exact snakeLoop_no_lower _ _ _ _ _ c h
    · rw [us_mem _ _ h]; rfl
  · obtain ⟨c, r, e, h1, h2⟩ := pascalC_form hc hk
    exact ⟨c, r, by rw [toPascal, seg, pascal1_core hc hk, e], h1, h2⟩
  · cases k with
    | nil => exact absurd rfl hk
    | cons d k =>
      have hd := hc.1 d k rfl
      have hno := camelLoop_no_us (isAllUpper (d :: k)) (d :: k) true false false
      have e : camelC (d :: k) = toLower d :: camelLoop (isAllUpper (d :: k)) false (isUpper d) false k := by
        unfold camelC; rw [camelLoop]; simp [hd]
      refine ⟨_, _, by rw [toCamel, seg, camel1_core hc hk, e], toLower_not_upper d, ?_⟩
      rw [← e]; exact hno

/-- Every identifier that is not only underscores has the shape assumed in `C35_style`. -/
theorem C35_style_applies (s : Str) : (∃ n, s = us n) ∨ ∃ a k b, s = us a ++ k ++ us b ∧ k ≠ [] ∧ Core k := decompose s

/-- **C35.** What the conversions do, word by word (`NameSpec`): outer underscores are kept; the words between
underscores are capitalised and joined (PascalCase; camelCase lowers the first letter), or split at capitals, joined
with single underscores and put in one case (snake_case, ALLCAP_CASE). -/
theorem C35_words (k : Str) (hc : Core k) (hk : k ≠ []) (hdot : '.' ∉ k) (a b : Nat) :
    toPascal (us a ++ k ++ us b) = us a ++ NameSpec.pascal k ++ us b ∧
    toCamel (us a ++ k ++ us b) = us a ++ NameSpec.camel k ++ us b ∧
    toSnake (us a ++ k ++ us b) = us a ++ NameSpec.snake k ++ us b ∧
    toAllCap (us a ++ k ++ us b) = us a ++ NameSpec.allCap k ++ us b := by
  have hd : '.' ∉ us a ++ k ++ us b := by
    simp only [List.mem_append, not_or]; exact ⟨⟨us_no_dot a, hdot⟩, us_no_dot b⟩
  have seg : ∀ f : Str → Str, segments f (us a ++ k ++ us b) = f (us a ++ k ++ us b) := by
    intro f; unfold segments; rw [Text.splitOn_single '.' _ hd]; rfl
  refine ⟨?_, ?_, ?_, ?_⟩
  · rw [toPascal, seg, pascal1_core hc hk, pascalC_words hk]
  · rw [toCamel, seg, camel1_core hc hk, camelC_words hc hk]
  · rw [toSnake, seg, snake1_core true hc hk, snakeC_words true hc hk, conv_low]; rfl
  · rw [toAllCap, seg, snake1_core false hc hk, snakeC_words false hc hk, conv_up]; rfl

example : toSnake ("__helloWorld_".toList) = "__hello_world_".toList ∧ NameSpec.words "hello__worldWide".toList =
    ["hello".toList, "worldWide".toList] := by decide +kernel

/-- **C35.** The checks look at the first character that is not an underscore. -/
theorem C35_checks (s : Str) :
    isCapitalized s = ((s.dropWhile (· == '_')).head?.any Char.isUpper) ∧
    isUncapitalized s = ((s.dropWhile (· == '_')).head?.any Char.isLower) := by
  induction s with
  | nil => exact ⟨rfl, rfl⟩
  | cons c s ih =>
    by_cases h : c = '_'
    · subst h
      simp only [isCapitalized, isUncapitalized, List.dropWhile, beq_self_eq_true, if_true]
      exact ih
    · have : (c == '_') = false := by simp [h]
      simp only [isCapitalized, isUncapitalized, List.dropWhile, this, if_neg h, isUpper_eq, isLower_eq, List.head?_cons,
        Option.any_some]
      exact ⟨trivial, trivial⟩

/-- **C35.** The name recommended by a style warning (the conversion applied twice, proto_visitor.go 259, 932,
1234, 2456, 2490) is itself accepted without a warning: converting it twice gives it back. -/
theorem C35_recommendation_stable (s : Str) :
    (let r := toPascal (toPascal s); toPascal (toPascal r) = r) ∧
    (let r := toSnake (toSnake s); toSnake (toSnake r) = r) ∧
    (let r := toAllCap (toAllCap s); toAllCap (toAllCap r) = r) := by
  have p := conv_pascal.iterate2 (fun hc hk => pascalC_cubed hc hk)
  have q := (conv_snake true).iterate2 (fun {k} hc hk => by
    unfold snakeC; rw [snakeLoop_snake_fix, snakeLoop_snake_fix])
  have r := (conv_snake false).iterate2 (fun {k} hc hk =>
    snakeC_cap_stable (snakeC_core false hc hk) (ne_nil_of_skel (snakeLoop_skel _ _ _ _ _ _) hk hc)
      (snakeLoop_no_lower _ _ _ _ _))
  refine ⟨?_, ?_, ?_⟩
  · show segments _ _ = segments _ _
    unfold toPascal; rw [p, p]
  · show segments _ _ = segments _ _
    unfold toSnake; rw [q, q]
  · show segments _ _ = segments _ _
    unfold toAllCap; rw [r, r]

/-- **C35.** snake_case is idempotent. -/
theorem C35_snake_idempotent (s : Str) : toSnake (toSnake s) = toSnake s := by
  unfold toSnake
  rw [(conv_snake true).seg_seg]
  unfold segments
  congr 1
  apply List.map_congr_left
  intro l _
  show snake1 true (snake1 true l) = snake1 true l
  rcases decompose l with ⟨n, rfl⟩ | ⟨a, k, b, rfl, hk, hc⟩
  · simp only [snake1_us]
  · have n1 : snakeC true k ≠ [] := ne_nil_of_skel (snakeLoop_skel _ _ _ _ _ _) hk hc
    rw [snake1_core true hc hk, snake1_core true (snakeC_core true hc hk) n1]
    congr 2
    unfold snakeC
    rw [snakeLoop_snake_fix]

/-- The other two conversions are not idempotent, which is why the compiler applies them twice. -/
theorem C35_not_idempotent :
    toPascal "A_B".toList = "AB".toList ∧ toPascal "AB".toList = "Ab".toList ∧
    toAllCap "ab1c".toList = "AB1C".toList ∧ toAllCap "AB1C".toList = "AB1_C".toList := by decide +kernel

/-- Conversions are not injective: two different field names may yield the same generated name. -/
theorem C35_not_injective : ∃ s t : Str, s ≠ t ∧ toPascal s = toPascal t ∧ toSnake s = toSnake t ∧
    isUncapitalized s = true ∧ isUncapitalized t = true :=
  ⟨"hello_world".toList, "hello__world".toList, by decide +kernel⟩

end Bubbler
