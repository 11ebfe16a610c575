import Verif.Util.NameProofs

/-
The four conversions of util/name_style.go described by words: specification and proof.
-/
namespace Bubbler.NameSpec
open Name (Str)

/-! ### Specification -/

/-- The words of a name: what lies between underscores. -/
def words (k : Str) : List Str := (Text.splitOn '_' k).filter (fun w => !w.isEmpty)

/-- A name without lower-case letters (letters, digits, underscores). -/
def shouting (k : Str) : Bool := k.all (fun c => c == '_' || c.isUpper || c.isDigit)

/-- In a shouted name a letter after a capital is lowered; otherwise letters stay as they are.  `p` is the
letter before. -/
def calm (loud : Bool) (p : Char) : Str → Str
  | [] => []
  | c :: s => (if loud && p.isUpper then c.toLower else c) :: calm loud c s

/-- A word with a capital. -/
def capWord (loud : Bool) : Str → Str
  | [] => []
  | c :: s => c.toUpper :: calm loud c s

/-- `HelloWorld` -/
def pascal (k : Str) : Str := (words k).flatMap (capWord (shouting k))

/-- A text with its first letter lowered. -/
def uncap : Str → Str
  | [] => []
  | c :: s => c.toLower :: s

/-- `helloWorld` -/
def camel (k : Str) : Str := uncap (pascal k)

/-- The parts of a word that begin with a capital; capitals that follow one another in a shouted name stay together. -/
def humps (loud : Bool) : Str → List Str
  | [] => []
  | [c] => [[c]]
  | c :: d :: s =>
    if d.isUpper && !(loud && c.isUpper) then [c] :: humps loud (d :: s)
    else match humps loud (d :: s) with
      | h :: hs => (c :: h) :: hs
      | [] => [[c]]

/-- `hello_world` -/
def snake (k : Str) : Str := (Text.joinOn '_' ((words k).flatMap (humps (shouting k)))).map Char.toLower

/-- `HELLO_WORLD` -/
def allCap (k : Str) : Str := (Text.joinOn '_' ((words k).flatMap (humps (shouting k)))).map Char.toUpper

example : pascal "hello__worldWide".toList = "HelloWorldWide".toList ∧ pascal "HELLO_WORLD".toList = "HelloWorld".toList ∧
    camel "Hello_worldWide".toList = "helloWorldWide".toList ∧ snake "HelloWorld_wide".toList = "hello_world_wide".toList ∧
    snake "HELLO_World".toList = "h_e_l_l_o_world".toList ∧
    allCap "helloWorld_Wide".toList = "HELLO_WORLD_WIDE".toList ∧ snake "HELLO_WORLD".toList = "hello_world".toList := by
  decide +kernel

end Bubbler.NameSpec

namespace Bubbler.Name
open NameSpec

/-! ### Proof -/

theorem isUpper_eq (c : Char) : isUpper c = c.isUpper := by
  simp only [isUpper, Char.isUpper, Char.toNat, UInt32.le_iff_toNat_le, ge_iff_le]
  rw [Bool.eq_iff_iff]; simp

theorem isLower_eq (c : Char) : isLower c = c.isLower := by
  simp only [isLower, Char.isLower, Char.toNat, UInt32.le_iff_toNat_le, ge_iff_le]
  rw [Bool.eq_iff_iff]; simp

theorem isDigit_eq (c : Char) : isDigit c = c.isDigit := by
  simp only [isDigit, Char.isDigit, Char.toNat, UInt32.le_iff_toNat_le, ge_iff_le]
  rw [Bool.eq_iff_iff]; simp

theorem toUpper_eq (c : Char) : toUpper c = c.toUpper := by
  cases h : isLower c with
  | true =>
    obtain ⟨n, hn, rfl⟩ := lower_form h
    have : ∀ n, n < 26 → toUpper (Char.ofNat (97 + n)) = (Char.ofNat (97 + n)).toUpper := by decide +kernel
    exact this n hn
  | false =>
    rw [toUpper_of_not h]
    rw [isLower_eq] at h
    unfold Char.toUpper
    rw [dif_neg]
    intro hc
    have : c.isLower = true := by
      unfold Char.isLower; simpa using hc
    rw [this] at h; cases h

theorem toLower_eq (c : Char) : toLower c = c.toLower := by
  cases h : isUpper c with
  | true =>
    obtain ⟨n, hn, rfl⟩ := upper_form h
    have : ∀ n, n < 26 → toLower (Char.ofNat (65 + n)) = (Char.ofNat (65 + n)).toLower := by decide +kernel
    exact this n hn
  | false =>
    rw [toLower_of_not h]
    rw [isUpper_eq] at h
    unfold Char.toLower
    rw [dif_neg]
    intro hc
    have : c.isUpper = true := by
      unfold Char.isUpper; simpa using hc
    rw [this] at h; cases h

theorem shouting_eq {k : Str} (hk : k ≠ []) : shouting k = isAllUpper k := by
  rw [Bool.eq_iff_iff, isAllUpper_iff hk]
  simp only [shouting, List.all_eq_true, Bool.or_eq_true, beq_iff_eq, isUpper_eq, isDigit_eq, or_assoc]

theorem split_cons_us (s : Str) : Text.splitOn '_' ('_' :: s) = [] :: Text.splitOn '_' s := by
  simp [Text.splitOn]

theorem split_cons {c : Char} (h : c ≠ '_') {s w : Str} {ws : List Str} (e : Text.splitOn '_' s = w :: ws) :
    Text.splitOn '_' (c :: s) = (c :: w) :: ws := by
  simp [Text.splitOn, h, e]

theorem split_exists (s : Str) : ∃ w ws, Text.splitOn '_' s = w :: ws := by
  cases h : Text.splitOn '_' s with
  | nil => exact absurd h (Text.splitOn_ne_nil _ _)
  | cons w ws => exact ⟨w, ws, rfl⟩

theorem pascalLoop_words (a : Bool) : ∀ (s : Str) (up : Bool),
    pascalLoop a up true s = (Text.splitOn '_' s).flatMap (capWord a) ∧
    ∀ (p : Char) (w : Str) (ws : List Str), p.isUpper = up → Text.splitOn '_' s = w :: ws →
      pascalLoop a up false s = calm a p w ++ ws.flatMap (capWord a)
  | [], up => by
    refine ⟨rfl, ?_⟩
    intro p w ws _ e
    simp only [Text.splitOn, List.cons.injEq] at e
    rw [← e.1, ← e.2]; rfl
  | c :: s, up => by
    by_cases hc : c = '_'
    · subst hc
      have ih := (pascalLoop_words a s up).1
      rw [split_cons_us]
      refine ⟨by simp only [pascalLoop, if_true, List.flatMap_cons, capWord, List.nil_append]; exact ih, ?_⟩
      intro p w ws _ e
      simp only [List.cons.injEq] at e
      rw [← e.1, ← e.2]
      simp only [pascalLoop, if_true, calm, List.nil_append]; exact ih
    · obtain ⟨w0, ws0, e0⟩ := split_exists s
      have ih := (pascalLoop_words a s (isUpper c)).2 c w0 ws0 (isUpper_eq c).symm e0
      rw [split_cons hc e0]
      constructor
      · simp only [pascalLoop, if_neg hc, if_true, List.flatMap_cons, capWord, List.cons_append, ih, toUpper_eq]
      · intro p w ws hp e
        simp only [List.cons.injEq] at e
        rw [← e.1, ← e.2]
        simp only [pascalLoop, if_neg hc, Bool.false_eq_true, if_false, calm, List.cons_append, ih, toLower_eq, hp]
        split <;> rfl

theorem flatMap_filter_cap (a : Bool) (l : List Str) :
    (l.filter (fun w => !w.isEmpty)).flatMap (capWord a) = l.flatMap (capWord a) := by
  induction l with
  | nil => rfl
  | cons w l ih =>
    cases w with
    | nil => simp only [List.filter, List.isEmpty_nil, Bool.not_true, List.flatMap_cons, capWord, List.nil_append, ih]
    | cons c w => simp only [List.filter, List.isEmpty_cons, Bool.not_false, List.flatMap_cons, ih]

theorem pascalC_words {k : Str} (hk : k ≠ []) : pascalC k = pascal k := by
  unfold pascalC pascal words
  rw [flatMap_filter_cap, shouting_eq hk]
  exact (pascalLoop_words _ k false).1

theorem camelLoop_eq (a : Bool) : ∀ (s : Str) (up cap : Bool), camelLoop a false up cap s = pascalLoop a up cap s
  | [], _, _ => rfl
  | c :: s, up, cap => by
    simp only [camelLoop, pascalLoop, Bool.false_eq_true, if_false, camelLoop_eq a s]

theorem camelC_words {k : Str} (h : Core k) (hk : k ≠ []) : camelC k = camel k := by
  unfold camel
  rw [← pascalC_words hk]
  cases k with
  | nil => exact absurd rfl hk
  | cons c k =>
    have hc := h.1 c k rfl
    unfold camelC pascalC
    simp only [camelLoop, pascalLoop, if_neg hc, if_true, uncap, camelLoop_eq]
    rw [← toLower_eq, toLower_toUpper]

/-- Does not end in an underscore. -/
def NoTrail (s : Str) : Prop := ∀ i x, s = i ++ [x] → x ≠ '_'

theorem NoTrail.tail {c : Char} {s : Str} (h : NoTrail (c :: s)) : NoTrail s := by
  intro i x e; exact h (c :: i) x (by rw [e]; rfl)

theorem words_us (s : Str) : words ('_' :: s) = words s := by
  unfold words; rw [split_cons_us]; rfl

theorem words_cons {c : Char} (h : c ≠ '_') {s w : Str} {ws : List Str} (e : Text.splitOn '_' s = w :: ws) :
    words (c :: s) = (c :: w) :: ws.filter (fun w => !w.isEmpty) := by
  unfold words; rw [split_cons h e]; rfl

theorem words_ne_nil : ∀ (s : Str), s ≠ [] → NoTrail s → words s ≠ []
  | [], h, _ => absurd rfl h
  | c :: s, _, ht => by
    by_cases hc : c = '_'
    · subst hc
      rw [words_us]
      apply words_ne_nil s _ ht.tail
      intro e
      subst e
      exact ht [] '_' rfl rfl
    · obtain ⟨w, ws, e⟩ := split_exists s
      rw [words_cons hc e]; simp

theorem humps_ne_nil (a : Bool) : ∀ (w : Str), w ≠ [] → humps a w ≠ []
  | [], h => absurd rfl h
  | [c], _ => by simp [humps]
  | c :: d :: s, _ => by
    simp only [humps]
    split
    · simp
    · split <;> simp

/-- The unconverted text. -/
def joined (a : Bool) (s : Str) : Str := Text.joinOn '_' ((words s).flatMap (humps a))

theorem joinOn_cons_ne {h : Str} {t : List Str} (ht : t ≠ []) : Text.joinOn '_' (h :: t) = h ++ '_' :: Text.joinOn '_' t := by
  cases t with
  | nil => exact absurd rfl ht
  | cons a b => rfl

theorem joinOn_cons_cons (c : Char) (h : Str) (t : List Str) : Text.joinOn '_' ((c :: h) :: t) = c :: Text.joinOn '_' (h :: t) := by
  cases t <;> rfl

def conv (low : Bool) (c : Char) : Char := if low then toLower c else toUpper c

theorem conv_us (low : Bool) : conv low '_' = '_' := by cases low <;> decide +kernel

theorem flatMap_ne_nil {a : Bool} {s : Str} (hs : s ≠ []) (ht : NoTrail s) : (words s).flatMap (humps a) ≠ [] := by
  cases e : words s with
  | nil => exact absurd e (words_ne_nil s hs ht)
  | cons w ws =>
    intro hc
    rw [List.flatMap_cons, List.append_eq_nil_iff] at hc
    have hw : w ∈ words s := by rw [e]; simp
    have : w ≠ [] := by
      intro hn; subst hn
      unfold words at hw
      simp at hw
    exact humps_ne_nil a w this hc.1

theorem joined_us (a : Bool) {p : Char} (hp : p ≠ '_') {t : Str} (ht : t ≠ []) (hn : NoTrail t) :
    joined a (p :: '_' :: t) = p :: '_' :: joined a t := by
  unfold joined
  have e : words (p :: '_' :: t) = [p] :: words t := by
    rw [words_cons hp (split_cons_us t)]; rfl
  rw [e, List.flatMap_cons, show humps a [p] = [[p]] from rfl, List.singleton_append,
    joinOn_cons_ne (flatMap_ne_nil ht hn)]
  rfl

theorem joined_cons (a : Bool) {p c : Char} (hp : p ≠ '_') (hc : c ≠ '_') (t : Str) :
    joined a (p :: c :: t) = p :: ((if c.isUpper && !(a && p.isUpper) then ['_'] else []) ++ joined a (c :: t)) := by
  unfold joined
  obtain ⟨w, ws, e⟩ := split_exists t
  rw [words_cons hp (split_cons hc e), words_cons hc e, List.flatMap_cons, List.flatMap_cons]
  simp only [humps]
  have hne := humps_ne_nil a (c :: w) (by simp)
  split
  · simp only [List.cons_append]
    rw [joinOn_cons_ne (by simp [hne])]
    rfl
  · cases eh : humps a (c :: w) with
    | nil => exact absurd eh hne
    | cons h hs =>
      simp only [List.cons_append, List.nil_append]
      rw [joinOn_cons_cons]

theorem snakeLoop_words (low a : Bool) : ∀ (s : Str), NoTrail s →
    (∀ up, snakeLoop low a false up true s = (joined a s).map (conv low)) ∧
    (∀ p, p ≠ '_' → conv low p :: snakeLoop low a false (isUpper p) false s = (joined a (p :: s)).map (conv low))
  | [], _ => by
    refine ⟨fun _ => rfl, fun p hp => ?_⟩
    unfold joined
    rw [words_cons hp (show Text.splitOn '_' [] = [] :: [] from rfl)]
    rfl
  | c :: s, hn => by
    have ih := snakeLoop_words low a s hn.tail
    by_cases hc : c = '_'
    · subst hc
      have hs : s ≠ [] := by rintro rfl; exact hn [] '_' rfl rfl
      constructor
      · intro up
        simp only [snakeLoop, if_true, Bool.not_true, Bool.false_eq_true, if_false]
        rw [ih.1]; unfold joined; rw [words_us]
      · intro p hp
        simp only [snakeLoop, if_true, Bool.not_false]
        rw [ih.1, joined_us a hp hs hn.tail, List.map_cons, List.map_cons, conv_us]
    · have e2 := ih.2 c hc
      have hcv : (if low then c else toUpper c) = conv low c ∨ isUpper c = true := by
        cases hu : isUpper c with
        | true => exact Or.inr rfl
        | false => left; unfold conv; rw [toLower_of_not hu]
      constructor
      · intro up
        simp only [snakeLoop, if_neg hc, Bool.false_eq_true, if_false, Bool.not_true, Bool.false_and, List.nil_append]
        rw [← e2]
        cases hu : isUpper c with
        | true => rfl
        | false =>
          rcases hcv with h | h
          · simp only [Bool.false_eq_true, if_false, h]
          · rw [hu] at h; cases h
      · intro p hp
        rw [joined_cons a hp hc, List.map_cons, List.map_append, ← e2]
        simp only [snakeLoop, if_neg hc, Bool.false_eq_true, if_false, Bool.not_false, Bool.true_and]
        rw [← isUpper_eq, ← isUpper_eq]
        cases hu : isUpper c with
        | true =>
          simp only [if_true, Bool.true_and]
          congr 2
          split
          · simp only [List.map_cons, List.map_nil, conv_us]
          · rfl
        | false =>
          rcases hcv with h | h
          · simp only [Bool.false_eq_true, if_false, Bool.false_and, List.map_nil, List.nil_append, h]
          · rw [hu] at h; cases h

theorem snakeC_words (low : Bool) {k : Str} (h : Core k) (hk : k ≠ []) :
    snakeC low k = (joined (shouting k) k).map (conv low) := by
  rw [shouting_eq hk]
  cases k with
  | nil => exact absurd rfl hk
  | cons c k =>
    have hc := h.1 c k rfl
    unfold snakeC
    rw [← (snakeLoop_words low _ k (fun i x e => h.2 (c :: i) x (by rw [e]; rfl))).2 c hc]
    simp only [snakeLoop, if_neg hc, if_true]
    rfl

theorem conv_low : conv true = Char.toLower := by funext c; exact toLower_eq c
theorem conv_up : conv false = Char.toUpper := by funext c; exact toUpper_eq c

end Bubbler.Name
