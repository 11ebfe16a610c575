import Verif.Gen.Members
import Verif.Props.NameProps
import Verif.Props.EvolveProps

/-
C79: the members of a generated type have different names, if the names in the source differ in more than case and underscores
and keep off a short list.
-/
set_option linter.unusedSimpArgs false
namespace Bubbler
open Gen Comp

/-- an array -/
def Gen.Entry.isArray : Entry → Bool
  | .field _ arr => arr
  | _ => false

/-- Names all targets keep for themselves, without case and underscores -/
def reservedKeys : List Gen.Str :=
  ["dynamic", "size", "encode", "encodeto", "encodesize", "decode", "decodesize", "equals", "hashcode", "constructor", "init",
    "bbwritefieldbits", "bbreadfieldbits"].map String.toList

/-- The conditions on names (of fields, methods and constants) under which the members are different.  Names are compared without
case and underscores (`lettersAndDigits`). -/
structure Tidy (es : List Entry) (type : Gen.Str) : Prop where
  /-- no two names are the same up to case and underscores -/
  different : es.Pairwise fun a b => lettersAndDigits a.name ≠ lettersAndDigits b.name
  /-- names are identifiers (no dots) with a letter in front, which the lexer and the compiler see to if there is a name -/
  ident : ∀ e ∈ es, '.' ∉ e.name
  letter : ∀ e ∈ es, (lettersAndDigits e.name).head?.any Name.isLower = true
  /-- no name begins like an accessor -/
  noGet : ∀ e ∈ es, ¬ "get".toList <+: lettersAndDigits e.name
  noSet : ∀ e ∈ es, ¬ "set".toList <+: lettersAndDigits e.name
  /-- no name is reserved, or that of the type -/
  free : ∀ e ∈ es, lettersAndDigits e.name ∉ reservedKeys
  notType : ∀ e ∈ es, lettersAndDigits e.name ≠ lettersAndDigits type
  typeFree : lettersAndDigits type ∉ "gethashcode".toList :: reservedKeys
  /-- no name is that of an array with `item`, `length` or `at` behind it -/
  noItem : ∀ a ∈ es, a.isArray = true → ∀ e ∈ es, ∀ q ∈ ["item", "length", "at"],
    lettersAndDigits e.name ≠ lettersAndDigits a.name ++ q.toList

theorem tidy_iff {es : List Entry} {type : Gen.Str} : Tidy es type ↔
    (es.Pairwise fun a b => lettersAndDigits a.name ≠ lettersAndDigits b.name) ∧ (∀ e ∈ es, '.' ∉ e.name) ∧
    (∀ e ∈ es, (lettersAndDigits e.name).head?.any Name.isLower = true) ∧ (∀ e ∈ es, ¬ "get".toList <+: lettersAndDigits e.name) ∧
    (∀ e ∈ es, ¬ "set".toList <+: lettersAndDigits e.name) ∧ (∀ e ∈ es, lettersAndDigits e.name ∉ reservedKeys) ∧
    (∀ e ∈ es, lettersAndDigits e.name ≠ lettersAndDigits type) ∧
    (lettersAndDigits type ∉ "gethashcode".toList :: reservedKeys) ∧
    (∀ a ∈ es, a.isArray = true → ∀ e ∈ es, ∀ q ∈ ["item", "length", "at"],
      lettersAndDigits e.name ≠ lettersAndDigits a.name ++ q.toList) :=
  ⟨fun ⟨a, b, c, d, e, f, g, h, i⟩ => ⟨a, b, c, d, e, f, g, h, i⟩, fun ⟨a, b, c, d, e, f, g, h, i⟩ => ⟨a, b, c, d, e, f, g, h, i⟩⟩

instance (es : List Entry) (type : Gen.Str) : Decidable (Tidy es type) := decidable_of_iff _ tidy_iff.symm

/-! ### Keys of members -/

theorem ld_append (a b : Gen.Str) : lettersAndDigits (a ++ b) = lettersAndDigits a ++ lettersAndDigits b := by
  simp [lettersAndDigits]

theorem ld_us (s : Gen.Str) : lettersAndDigits ('_' :: s) = lettersAndDigits s := by
  simp [lettersAndDigits]

/-- The part of the key that all functions of a C struct share -/
def base (l : Lang) (s : Gen.Str) (a : Member) : Gen.Str := if l = .c ∧ a.attr = false then lettersAndDigits s else []

def isArr (e : Entry) : Prop := ∃ n, e = .field n true

/-- What the key of a member of an entry looks like -/
def Keyed (l : Lang) (s : Gen.Str) (e : Entry) (a : Member) : Prop :=
  ∃ p q : Gen.Str, (l = .csharp → p = []) ∧ (p = [] ∨ p = "get".toList ∨ p = "set".toList) ∧
    (q = [] ∨ (p ≠ [] ∧ isArr e ∧ (q = "item".toList ∨ q = "length".toList ∨ q = "at".toList))) ∧
    lettersAndDigits a.name = base l s a ++ (p ++ (lettersAndDigits e.name ++ q))

theorem ld_conv {n : Gen.Str} (h : '.' ∉ n) : lettersAndDigits (Name.toSnake n) = lettersAndDigits n ∧
    lettersAndDigits (Name.toPascal n) = lettersAndDigits n ∧ lettersAndDigits (Name.toCamel n) = lettersAndDigits n := by
  obtain ⟨h1, -, h3, h4⟩ := C35_keeps_letters_ident n h
  exact ⟨h1, h3, h4⟩

theorem ld_lits : lettersAndDigits "Get".toList = "get".toList ∧ lettersAndDigits "Set".toList = "set".toList ∧
    lettersAndDigits "get".toList = "get".toList ∧ lettersAndDigits "set".toList = "set".toList ∧
    lettersAndDigits "get_".toList = "get".toList ∧ lettersAndDigits "set_".toList = "set".toList ∧
    lettersAndDigits "_get_".toList = "get".toList ∧ lettersAndDigits "_set_".toList = "set".toList ∧
    lettersAndDigits "_item".toList = "item".toList ∧ lettersAndDigits "_length".toList = "length".toList ∧
    lettersAndDigits "At".toList = "at".toList := by decide +kernel

theorem mem_opt {b : Bool} {x a : Member} (h : a ∈ opt b x) : a = x := by
  cases b
  · cases h
  · simpa [opt] using h

section
variable {l : Lang} {s : Gen.Str} {e : Entry}

theorem keyed_attr {a : Gen.Str} (h : lettersAndDigits a = lettersAndDigits e.name) : Keyed l s e (attr a) := by
  refine ⟨[], [], fun _ => rfl, .inl rfl, .inl rfl, ?_⟩
  simp only [attr, base, Bool.true_eq_false, and_false, if_false, List.nil_append, List.append_nil, h]

theorem keyed_func (hl : l ≠ .c ∧ l ≠ .csharp) {p a : Gen.Str} (hp : p = "get".toList ∨ p = "set".toList)
    (h : lettersAndDigits a = p ++ lettersAndDigits e.name) : Keyed l s e (func a) := by
  refine ⟨p, [], fun h => absurd h hl.2, .inr hp, .inl rfl, ?_⟩
  simp only [func, base, hl.1, false_and, if_false, List.nil_append, List.append_nil, h]

theorem keyed_item (hl : l ≠ .c ∧ l ≠ .csharp) {p q a : Gen.Str} (hp : p = "get".toList ∨ p = "set".toList)
    (hq : q = "item".toList ∨ q = "length".toList ∨ q = "at".toList) (he : isArr e)
    (h : lettersAndDigits a = p ++ (lettersAndDigits e.name ++ q)) : Keyed l s e (func a) := by
  refine ⟨p, q, fun h => absurd h hl.2, .inr hp, .inr ⟨?_, he, hq⟩, ?_⟩
  · rcases hp with rfl | rfl <;> decide
  · simp only [func, base, hl.1, false_and, if_false, List.nil_append, h]

theorem keyed_cfunc {p a : Gen.Str} (hp : p = "get".toList ∨ p = "set".toList)
    (h : lettersAndDigits a = lettersAndDigits s ++ (p ++ lettersAndDigits e.name)) : Keyed .c s e (func a) := by
  refine ⟨p, [], nofun, .inr hp, .inl rfl, ?_⟩
  simp only [func, base, and_self, if_true, List.append_nil, h]

theorem keyed_citem {p q a : Gen.Str} (hp : p = "get".toList ∨ p = "set".toList)
    (hq : q = "item".toList ∨ q = "length".toList ∨ q = "at".toList) (he : isArr e)
    (h : lettersAndDigits a = lettersAndDigits s ++ (p ++ (lettersAndDigits e.name ++ q))) : Keyed .c s e (func a) := by
  refine ⟨p, q, nofun, .inr hp, .inr ⟨?_, he, hq⟩, ?_⟩
  · rcases hp with rfl | rfl <;> decide
  · simp only [func, base, and_self, if_true, h]

theorem made_keyed {minimal : Bool} (hdot : '.' ∉ e.name) {a : Member} (h : a ∈ made l minimal s e) : Keyed l s e a := by
  obtain ⟨c1, c2, c3⟩ := ld_conv hdot
  obtain ⟨k1, k2, k3, k4, k5, k6, k7, k8, k9, k10, k11⟩ := ld_lits
  cases e with
  | field n arr =>
    simp only [Entry.name] at c1 c2 c3
    have ha : arr = true → isArr (.field n arr) := by rintro rfl; exact ⟨n, rfl⟩
    cases l <;> cases minimal <;> cases arr <;>
      simp only [made, Bool.false_eq_true, if_false, if_true, List.cons_append, List.nil_append, List.append_nil, List.mem_cons,
        List.not_mem_nil, or_false] at h
    all_goals
      repeat' (refine Or.elim h (fun h => ?_) (fun h => ?_))
    all_goals
      subst h
      first
      | (refine keyed_attr ?_; simp only [Entry.name, ld_us, c1, c2, c3]; done)
      | (refine keyed_func (by decide) (.inl rfl) ?_; simp only [Entry.name, ld_append, c1, c2, c3, k1, k2, k3, k4, k5, k6]; done)
      | (refine keyed_func (by decide) (.inr rfl) ?_; simp only [Entry.name, ld_append, c1, c2, c3, k1, k2, k3, k4, k5, k6]; done)
      | (refine keyed_item (by decide) (.inl rfl) (.inl rfl) (ha rfl) ?_; simp only [Entry.name, ld_append, c1, c2, c3, k1, k2, k3, k4, k5, k6, k9, k10, k11, List.append_assoc]; done)
      | (refine keyed_item (by decide) (.inr rfl) (.inl rfl) (ha rfl) ?_; simp only [Entry.name, ld_append, c1, c2, c3, k1, k2, k3, k4, k5, k6, k9, k10, k11, List.append_assoc]; done)
      | (refine keyed_item (by decide) (.inl rfl) (.inr (.inl rfl)) (ha rfl) ?_; simp only [Entry.name, ld_append, c1, c2, c3, k1, k2, k3, k4, k5, k6, k9, k10, k11, List.append_assoc]; done)
      | (refine keyed_item (by decide) (.inl rfl) (.inr (.inr rfl)) (ha rfl) ?_; simp only [Entry.name, ld_append, c1, c2, c3, k1, k2, k3, k4, k5, k6, k9, k10, k11, List.append_assoc]; done)
      | (refine keyed_item (by decide) (.inr rfl) (.inr (.inr rfl)) (ha rfl) ?_; simp only [Entry.name, ld_append, c1, c2, c3, k1, k2, k3, k4, k5, k6, k9, k10, k11, List.append_assoc]; done)
      | (refine keyed_cfunc (.inl rfl) ?_; simp only [Entry.name, ld_append, c1, k7, k8, List.append_assoc]; done)
      | (refine keyed_cfunc (.inr rfl) ?_; simp only [Entry.name, ld_append, c1, k7, k8, List.append_assoc]; done)
      | (refine keyed_citem (.inl rfl) (.inl rfl) (ha rfl) ?_; simp only [Entry.name, ld_append, c1, k7, k8, k9, k10, List.append_assoc]; done)
      | (refine keyed_citem (.inr rfl) (.inl rfl) (ha rfl) ?_; simp only [Entry.name, ld_append, c1, k7, k8, k9, k10, List.append_assoc]; done)
      | (refine keyed_citem (.inl rfl) (.inr (.inl rfl)) (ha rfl) ?_; simp only [Entry.name, ld_append, c1, k7, k8, k9, k10, List.append_assoc]; done)
  | group m get set own =>
    simp only [Entry.name] at c1 c2 c3
    cases l <;> simp only [made, List.mem_append, List.mem_singleton] at h
    all_goals
      repeat' (refine Or.elim h (fun h => ?_) (fun h => ?_))
    all_goals
      try replace h := mem_opt h
    all_goals
      subst h
      first
      | (refine keyed_attr ?_; simp only [Entry.name, c1, c2, c3]; done)
      | (refine keyed_func (by decide) (.inl rfl) ?_; simp only [Entry.name, ld_append, c1, c2, c3, k1, k2, k3, k4, k5, k6]; done)
      | (refine keyed_func (by decide) (.inr rfl) ?_; simp only [Entry.name, ld_append, c1, c2, c3, k1, k2, k3, k4, k5, k6]; done)
      | (refine keyed_cfunc (.inl rfl) ?_; simp only [Entry.name, ld_append, c1, k7, k8, List.append_assoc]; done)
      | (refine keyed_cfunc (.inr rfl) ?_; simp only [Entry.name, ld_append, c1, k7, k8, List.append_assoc]; done)
  | const n =>
    simp only [Entry.name] at c1 c2 c3
    cases l <;> simp only [made, List.mem_singleton] at h
    all_goals
      try replace h := mem_opt h
    all_goals
      subst h
      exact keyed_attr (by simp only [Entry.name, ld_us, c1, c2, c3])
end

/-! ### Two members -/

theorem clash_key {l : Lang} (s : Gen.Str) {a b : Member} (h : clash l a b) :
    base l s a = base l s b ∧ lettersAndDigits a.name = lettersAndDigits b.name := by
  refine ⟨?_, by rw [h.1]⟩
  by_cases hl : l = .c
  · simp only [base, h.2 (.inl hl)]
  · simp only [base, hl, false_and]

theorem fixed_keyed {l : Lang} {s : Gen.Str} {a : Member} (h : a ∈ fixed l s) :
    ∃ r, lettersAndDigits a.name = base l s a ++ r ∧
      (r ∈ reservedKeys ∨ r = "gethashcode".toList ∨ (l = .csharp ∧ r = lettersAndDigits s)) := by
  by_cases hc : l = .c
  · subst hc
    obtain ⟨n, hn, rfl⟩ := List.mem_map.mp h
    refine ⟨lettersAndDigits n.toList, by simp only [func, base, and_self, if_true, ld_append], .inl ?_⟩
    clear h
    revert n; decide +kernel
  by_cases hs : a = attr s ∧ l = .csharp
  · obtain ⟨rfl, rfl⟩ := hs
    exact ⟨_, rfl, .inr (.inr ⟨rfl, rfl⟩)⟩
  refine ⟨lettersAndDigits a.name, by simp only [base, hc, false_and, if_false, List.nil_append], ?_⟩
  have key : ∀ ms : List Member, (∀ x ∈ ms, lettersAndDigits x.name ∈ reservedKeys ∨ lettersAndDigits x.name = "gethashcode".toList) →
      a ∈ ms → lettersAndDigits a.name ∈ reservedKeys ∨ lettersAndDigits a.name = "gethashcode".toList ∨
        (l = .csharp ∧ lettersAndDigits a.name = lettersAndDigits s) := by
    intro ms hm ha
    rcases hm a ha with h | h
    · exact .inl h
    · exact .inr (.inl h)
  cases l with
  | c => exact absurd rfl hc
  | csharp =>
    simp only [fixed, List.mem_append, List.mem_cons] at h
    rcases h with h | h | h
    · exact key _ (by decide +kernel) h
    · exact absurd ⟨h, rfl⟩ hs
    · exact key _ (by decide +kernel) h
  | go => exact key _ (by simp only [fixed]; decide +kernel) h
  | cpp => exact key _ (by simp only [fixed]; decide +kernel) h
  | java => exact key _ (by simp only [fixed]; decide +kernel) h
  | kotlin => exact key _ (by simp only [fixed]; decide +kernel) h
  | python => exact key _ (by simp only [fixed]; decide +kernel) h
  | js => exact key _ (by simp only [fixed]; decide +kernel) h

theorem lits : "get".toList = ['g', 'e', 't'] ∧ "set".toList = ['s', 'e', 't'] ∧ "item".toList = ['i', 't', 'e', 'm'] ∧
    "length".toList = ['l', 'e', 'n', 'g', 't', 'h'] ∧ "at".toList = ['a', 't'] ∧
    "gethashcode".toList = 'g' :: 'e' :: 't' :: "hashcode".toList ∧ "hashcode".toList = ['h', 'a', 's', 'h', 'c', 'o', 'd', 'e'] := by
  decide +kernel

/-- Last characters decide -/
theorem tails {k k' q q' : Gen.Str} (h : k ++ q = k' ++ q') (hq : q = "item".toList ∨ q = "length".toList ∨ q = "at".toList)
    (hq' : q' = "item".toList ∨ q' = "length".toList ∨ q' = "at".toList) : q = q' := by
  obtain ⟨-, -, l3, l4, l5, -, -⟩ := lits
  have h2 := congrArg List.reverse h
  simp only [List.reverse_append] at h2
  rcases hq with rfl | rfl | rfl <;> rcases hq' with rfl | rfl | rfl <;> first | rfl | skip
  all_goals
    simp only [l3, l4, l5, List.reverse_cons, List.reverse_nil, List.nil_append, List.cons_append, List.cons.injEq] at h2
    exact absurd h2.1 (by decide)

theorem across {es : List Entry} {type : Gen.Str} (ht : Tidy es type) {l : Lang} {minimal : Bool} {e e' : Entry} (he : e ∈ es)
    (he' : e' ∈ es) (hd : lettersAndDigits e.name ≠ lettersAndDigits e'.name) {a b : Member} (ha : a ∈ made l minimal type e)
    (hb : b ∈ made l minimal type e') : ¬ clash l a b := by
  intro hc
  obtain ⟨h1, h2⟩ := clash_key type hc
  obtain ⟨p, q, -, hp, hq, ka⟩ := made_keyed (ht.ident e he) ha
  obtain ⟨p', q', -, hp', hq', kb⟩ := made_keyed (ht.ident e' he') hb
  obtain ⟨l1, l2, -, -, -, -, -⟩ := lits
  rw [ka, kb, h1, List.append_cancel_left_eq] at h2
  have inner : ∀ {p p' : Gen.Str}, (q = [] ∨ (p ≠ [] ∧ isArr e ∧ (q = "item".toList ∨ q = "length".toList ∨ q = "at".toList))) →
      (q' = [] ∨ (p' ≠ [] ∧ isArr e' ∧ (q' = "item".toList ∨ q' = "length".toList ∨ q' = "at".toList))) →
      lettersAndDigits e.name ++ q = lettersAndDigits e'.name ++ q' → False := by
    intro p p' hq hq' h2
    refine Or.elim hq (fun hq => ?_) (fun hq => ?_)
    · refine Or.elim hq' (fun hq' => ?_) (fun hq' => ?_)
      · rw [hq, hq', List.append_nil, List.append_nil] at h2; exact hd h2
      · rw [hq, List.append_nil] at h2
        obtain ⟨-, ⟨n, rfl⟩, h⟩ := hq'
        rcases h with rfl | rfl | rfl
        · exact ht.noItem _ he' rfl e he "item" (by decide) h2
        · exact ht.noItem _ he' rfl e he "length" (by decide) h2
        · exact ht.noItem _ he' rfl e he "at" (by decide) h2
    · refine Or.elim hq' (fun hq' => ?_) (fun hq' => ?_)
      · rw [hq', List.append_nil] at h2
        obtain ⟨-, ⟨n, rfl⟩, h⟩ := hq
        rcases h with rfl | rfl | rfl
        · exact ht.noItem _ he rfl e' he' "item" (by decide) h2.symm
        · exact ht.noItem _ he rfl e' he' "length" (by decide) h2.symm
        · exact ht.noItem _ he rfl e' he' "at" (by decide) h2.symm
      · have := tails h2 hq.2.2 hq'.2.2
        rw [this, List.append_cancel_right_eq] at h2
        exact hd h2
  have bare : ∀ {q p : Gen.Str} {e : Entry}, p = [] →
      (q = [] ∨ (p ≠ [] ∧ isArr e ∧ (q = "item".toList ∨ q = "length".toList ∨ q = "at".toList))) → q = [] := by
    intro q p e hp h
    rcases h with h | h
    · exact h
    · exact absurd hp h.1
  refine Or.elim hp (fun e0 => ?_) (fun hp => ?_)
  · have q0 := bare e0 hq
    refine Or.elim hp' (fun e0' => ?_) (fun hp' => ?_)
    · rw [e0, e0'] at h2; exact inner hq hq' h2
    · rw [e0, q0, List.nil_append, List.append_nil] at h2
      rcases hp' with rfl | rfl
      · exact ht.noGet e he ⟨_, h2.symm⟩
      · exact ht.noSet e he ⟨_, h2.symm⟩
  · refine Or.elim hp' (fun e0' => ?_) (fun hp' => ?_)
    · have q0' := bare e0' hq'
      rw [e0', q0', List.nil_append, List.append_nil] at h2
      rcases hp with rfl | rfl
      · exact ht.noGet e' he' ⟨_, h2⟩
      · exact ht.noSet e' he' ⟨_, h2⟩
    · rcases hp with rfl | rfl <;> rcases hp' with rfl | rfl
      · exact inner hq hq' (List.append_cancel_left h2)
      · rw [l1, l2] at h2; exact absurd (List.cons.inj h2).1 (by decide)
      · rw [l1, l2] at h2; exact absurd (List.cons.inj h2).1 (by decide)
      · exact inner hq hq' (List.append_cancel_left h2)

theorem against_fixed {es : List Entry} {type : Gen.Str} (ht : Tidy es type) {l : Lang} {minimal : Bool} {e : Entry} (he : e ∈ es)
    {a b : Member} (ha : a ∈ fixed l type) (hb : b ∈ made l minimal type e) : ¬ clash l a b := by
  intro hc
  obtain ⟨h1, h2⟩ := clash_key type hc
  obtain ⟨r, kr, hr⟩ := fixed_keyed ha
  obtain ⟨p, q, hcs, hp, hq, kb⟩ := made_keyed (ht.ident e he) hb
  obtain ⟨l1, l2, l3, l4, l5, l6, l7⟩ := lits
  rw [kr, kb, h1, List.append_cancel_left_eq] at h2
  have reserved : ∀ x ∈ reservedKeys, ¬ "get".toList <+: x ∧ ¬ "set".toList <+: x := by decide +kernel
  refine Or.elim hp (fun e0 => ?_) (fun hp => ?_)
  · have q0 : q = [] := by
      rcases hq with h | h
      · exact h
      · exact absurd e0 h.1
    rw [e0, q0, List.nil_append, List.append_nil] at h2
    rcases hr with h | h | h
    · exact ht.free e he (h2 ▸ h)
    · exact ht.noGet e he ⟨"hashcode".toList, by rw [← h2, h, l6, l1]; rfl⟩
    · exact ht.notType e he (by rw [← h2, h.2])
  · rcases hr with h | h | h
    · rcases hp with rfl | rfl
      · exact (reserved r h).1 ⟨_, h2.symm⟩
      · exact (reserved r h).2 ⟨_, h2.symm⟩
    · rw [h, l6] at h2
      rcases hp with rfl | rfl
      · rw [l1] at h2
        simp only [List.cons_append, List.nil_append, List.cons.injEq, true_and] at h2
        rcases hq with rfl | ⟨-, -, hq⟩
        · rw [List.append_nil] at h2
          exact ht.free e he (by rw [← h2]; decide +kernel)
        · have h3 := congrArg List.reverse h2
          rw [l7] at h3
          rcases hq with rfl | rfl | rfl <;>
            simp only [l3, l4, l5, List.reverse_append, List.reverse_cons, List.reverse_nil, List.nil_append, List.cons_append,
              List.cons.injEq] at h3 <;>
            exact absurd h3.1 (by decide)
      · rw [l2] at h2; exact absurd (List.cons.inj h2).1 (by decide)
    · have := hcs h.1
      rcases hp with rfl | rfl
      · rw [l1] at this; cases this
      · rw [l2] at this; cases this

/-- camelCase and PascalCase of a name with a letter in front are different. -/
theorem camel_ne_pascal {n : Gen.Str} (hd : '.' ∉ n) (hl : ∃ c r, lettersAndDigits n = c :: r ∧ Name.isLower c = true) :
    Name.toCamel n ≠ Name.toPascal n := by
  intro h
  obtain ⟨x, t, hx, hlow⟩ := hl
  have hp := (ld_conv hd).2.1
  rcases C35_style_applies n with ⟨m, rfl⟩ | ⟨a, k, b, rfl, hk, hc⟩
  · have : lettersAndDigits (Name.us m) = [] := by
      simp [lettersAndDigits, Name.us]
    rw [this] at hx; cases hx
  · have hdk : '.' ∉ k := fun hh => hd (by simp [hh])
    obtain ⟨-, -, ⟨c, r, e1, u1, n1⟩, ⟨c', r', e2, u2, -⟩⟩ := C35_style k hc hk hdk a b
    rw [e1, e2, List.append_assoc, List.append_assoc] at h
    have h3 := List.append_cancel_left h
    simp only [List.cons_append, List.cons.injEq] at h3
    rw [hx, e1, List.append_assoc, ld_append] at hp
    have h0 : lettersAndDigits (Name.us a) = [] := by simp [lettersAndDigits, Name.us]
    have hne : c ≠ '_' := fun hh => n1 (by simp [hh])
    rw [h0, List.nil_append] at hp
    have : lettersAndDigits (c :: r ++ Name.us b) = Name.toLower c :: lettersAndDigits (r ++ Name.us b) := by
      simp [lettersAndDigits, hne]
    rw [this] at hp
    have hc' : Name.toLower c = x := (List.cons.inj hp).1
    rw [h3.1] at u2
    rw [Name.toLower_of_not u2] at hc'
    rw [hc', hlow] at u1; cases u1

theorem within {l : Lang} {minimal : Bool} {s : Gen.Str} {e : Entry} (hd : '.' ∉ e.name)
    (hl : ∃ c r, lettersAndDigits e.name = c :: r ∧ Name.isLower c = true) : Distinct l (made l minimal s e) := by
  have hcp := camel_ne_pascal hd hl
  have g : "Get".toList = ['G', 'e', 't'] ∧ "Set".toList = ['S', 'e', 't'] ∧ "get_".toList = ['g', 'e', 't', '_'] ∧
    "set_".toList = ['s', 'e', 't', '_'] ∧ "_get_".toList = ['_', 'g', 'e', 't', '_'] ∧ "_set_".toList = ['_', 's', 'e', 't', '_'] ∧
    "_item".toList = ['_', 'i', 't', 'e', 'm'] ∧ "_length".toList = ['_', 'l', 'e', 'n', 'g', 't', 'h'] ∧ "At".toList = ['A', 't'] := by
    decide +kernel
  obtain ⟨g1, g2, g3, g4, g5, g6, g7, g8, g9⟩ := g
  obtain ⟨l1, l2, -, -, -, -, -⟩ := lits
  cases e with
  | field n arr =>
    simp only [Entry.name] at hcp
    cases l <;> cases minimal <;> cases arr <;>
      simp [Distinct, made, clash, attr, func, g1, g2, g3, g4, g5, g6, g7, g8, g9, l1, l2, hcp]
    all_goals
      repeat' constructor
    all_goals
      intro hh
      have := congrArg List.length hh
      simp at this
      try omega
  | group m get set own =>
    cases l <;> cases get <;> cases set <;> cases own <;>
      simp [Distinct, made, clash, attr, func, opt, g1, g2, g3, g4, g5, g6, l1, l2]
  | const n =>
    cases l <;> simp [Distinct, made, opt] <;> split <;> simp

theorem fixed_distinct {l : Lang} {s : Gen.Str} (h : lettersAndDigits s ∉ "gethashcode".toList :: reservedKeys) :
    Distinct l (fixed l s) := by
  cases l with
  | c =>
    have : ["_dynamic", "_size", "_encode_size", "_encode", "_decode_size", "_decode"].Pairwise fun a b => a.toList ≠ b.toList := by
      decide +kernel
    simp only [Distinct, fixed, List.pairwise_map]
    refine this.imp fun hne hc => hne ?_
    exact List.append_cancel_left hc.1
  | csharp =>
    have ne : ∀ n : Gen.Str, lettersAndDigits n ∈ "gethashcode".toList :: reservedKeys → s ≠ n := by
      intro n hn e; exact h (e ▸ hn)
    simp only [Distinct, fixed, List.pairwise_append, List.pairwise_cons]
    refine ⟨by decide +kernel, ⟨?_, by decide +kernel⟩, ?_⟩
    · intro b hb hc
      refine ne b.name ?_ hc.1
      revert b; simp only [List.mem_map]; rintro b ⟨n, hn, rfl⟩ -
      revert n; decide +kernel
    · intro a ha b hb hc
      simp only [List.mem_cons] at hb
      rcases hb with rfl | hb
      · refine ne a.name ?_ hc.1.symm
        obtain ⟨n, hn, rfl⟩ := List.mem_map.mp ha
        clear ha hc
        revert n; decide +kernel
      · have key : ∀ a ∈ ["Dynamic", "Size"].map (fun n => attr n.toList), ∀ b ∈ ["Equals", "GetHashCode", "EncodeSize", "Encode",
            "DecodeSize", "Decode", "BbWriteFieldBits", "BbReadFieldBits"].map (fun n => func n.toList), a.name ≠ b.name := by
          decide +kernel
        exact key a ha b hb hc.1
  | go => simp only [fixed]; decide +kernel
  | cpp => simp only [fixed]; decide +kernel
  | java => simp only [fixed]; decide +kernel
  | kotlin => simp only [fixed]; decide +kernel
  | python => simp only [fixed]; decide +kernel
  | js => simp only [fixed]; decide +kernel

theorem head_letter {n : Gen.Str} (h : (lettersAndDigits n).head?.any Name.isLower = true) :
    ∃ c r, lettersAndDigits n = c :: r ∧ Name.isLower c = true := by
  cases hn : lettersAndDigits n with
  | nil => rw [hn] at h; cases h
  | cons c r => rw [hn] at h; exact ⟨c, r, rfl, h⟩

theorem distinct_of_tidy {es : List Entry} {type : Gen.Str} (ht : Tidy es type) (l : Lang) (minimal : Bool) :
    Distinct l (fixed l type ++ es.flatMap (made l minimal type)) := by
  refine List.pairwise_append.mpr ⟨fixed_distinct ht.typeFree, ?_, ?_⟩
  · refine List.pairwise_flatMap.mpr ⟨fun e he => within (ht.ident e he) (head_letter (ht.letter e he)), ?_⟩
    refine ht.different.imp_of_mem fun {e e'} he he' hd a ha b hb => across ht he he' hd ha hb
  · intro a ha b hb
    obtain ⟨e, he, hb⟩ := List.mem_flatMap.mp hb
    exact against_fixed ht he ha hb

/-! ### The theorems -/

/-- **C79.** If the names of fields, methods and constants of a struct (those of embedded structs among them) are tidy, then in
every target language, with and without raw accessors, no two members of the generated type have the same name (in C, Java and
Kotlin: no two of a kind), and none has an empty name.  These are the members made from the struct's own definition; in Go and C
the methods of its fields are declared once more for it by every struct that embeds it (finding 31). -/
theorem C79_members (s : StructD) (h : Tidy (entries s) s.name) (l : Lang) (minimal : Bool) :
    Distinct l (members l minimal s) ∧ ∀ e ∈ entries s, ∀ a ∈ made l minimal s.name e, a.name ≠ [] := by
  refine ⟨distinct_of_tidy h l minimal, fun e he a ha hn => ?_⟩
  obtain ⟨p, q, -, -, -, hk⟩ := made_keyed (h.ident e he) ha
  obtain ⟨c, r, hc, -⟩ := head_letter (h.letter e he)
  rw [hn, hc] at hk
  have : lettersAndDigits ([] : Gen.Str) = [] := rfl
  rw [this] at hk
  have := congrArg List.length hk
  simp at this

/-- **C79.** Constants without a name do no harm in Go, C, C++ and Kotlin: there the other names need to be tidy. -/
theorem C79_unnamed (s : StructD) (h : Tidy ((entries s).filter (· ≠ .const [])) s.name) (l : Lang)
    (hl : l = .go ∨ l = .c ∨ l = .cpp ∨ l = .kotlin) (minimal : Bool) : Distinct l (members l minimal s) := by
  have key : ∀ es : List Entry, es.flatMap (made l minimal s.name) = (es.filter (· ≠ .const [])).flatMap (made l minimal s.name) := by
    intro es
    induction es with
    | nil => rfl
    | cons e es ih =>
      by_cases he : e = .const []
      · subst he
        have : made l minimal s.name (.const []) = [] := by
          rcases hl with rfl | rfl | rfl | rfl <;> rfl
        simp [List.flatMap_cons, this, ih]
      · simp only [List.filter_cons, he, List.flatMap_cons, ih, ne_eq, not_false_eq_true, decide_true, if_true]
  unfold members
  rw [key]
  exact distinct_of_tidy h l minimal

/-- **C79.** Only the names count: structs with the same names in the same places have the same members. -/
theorem C79_names_only (s t : StructD) (hn : s.name = t.name) (he : entries s = entries t) (l : Lang) (minimal : Bool) :
    members l minimal s = members l minimal t := by
  unfold members
  rw [hn, he]

/-! ### Nothing is left out -/

theorem entriesFrom_mem : ∀ (fs : List FieldD) (k : Nat) (f : FieldD), f ∈ fs →
    ∃ own, (∀ x ∈ entriesOf own f, x ∈ entriesFrom k fs) ∧ (k = 0 → (∀ e os, .embedded e os ∉ fs) → own = true)
  | [], _, _, h => nomatch h
  | g :: r, 0, f, h => by
    rcases List.mem_cons.mp h with rfl | h'
    · refine ⟨true, ?_, fun _ _ => rfl⟩
      intro x hx
      cases f with
      | embedded e os => simp [entriesOf] at hx
      | _ => rw [entriesFrom]; exact List.mem_append_left _ hx; all_goals nofun
    · cases g with
      | embedded e os =>
        obtain ⟨own, h1, -⟩ := entriesFrom_mem r e.fields.length f h'
        exact ⟨own, fun x hx => by rw [entriesFrom]; exact h1 x hx, fun _ hn => absurd (List.mem_cons_self ..) (hn e os)⟩
      | _ =>
        obtain ⟨own, h1, h2⟩ := entriesFrom_mem r 0 f h'
        refine ⟨own, fun x hx => ?_, fun h0 hn => h2 rfl fun e os hm => hn e os (List.mem_cons_of_mem _ hm)⟩
        rw [entriesFrom]
        · exact List.mem_append_right _ (h1 x hx)
        · nofun
  | g :: r, k + 1, f, h => by
    rcases List.mem_cons.mp h with rfl | h'
    · exact ⟨false, fun x hx => by rw [entriesFrom]; exact List.mem_append_left _ hx, nofun⟩
    · obtain ⟨own, h1, -⟩ := entriesFrom_mem r k f h'
      exact ⟨own, fun x hx => by rw [entriesFrom]; exact List.mem_append_right _ (h1 x hx), nofun⟩

theorem mem_members {l : Lang} {minimal : Bool} {s : StructD} {e : Entry} (he : e ∈ entries s) {a : Member}
    (ha : a ∈ made l minimal s.name e) : a ∈ members l minimal s :=
  List.mem_append_right _ (List.mem_flatMap.mpr ⟨e, he, ha⟩)

/-- **C79, fields and constants.** Every field, those of embedded structs among them, and every constant with a name has an
attribute, whose name is the field's up to case and underscores, in every language. -/
theorem C79_fields (s : StructD) (l : Lang) (minimal : Bool) (n : Gen.Str) (hd : '.' ∉ n)
    (h : (∃ t b ms os, .normal n t b ms os ∈ s.fields) ∨ n ≠ [] ∧ ∃ p b v os, .const n p b v os ∈ s.fields) :
    ∃ a ∈ members l minimal s, a.attr = true ∧ lettersAndDigits a.name = lettersAndDigits n := by
  obtain ⟨c1, c2, c3⟩ := ld_conv hd
  rcases h with ⟨t, b, ms, os, h⟩ | ⟨hne, p, b, v, os, h⟩
  · obtain ⟨own, h1, -⟩ := entriesFrom_mem s.fields 0 _ h
    have he := h1 _ (List.mem_cons_self ..)
    cases l
    all_goals
      first
      | exact ⟨_, mem_members he (List.mem_cons_self ..), rfl, by simp only [attr, ld_us, c1, c2, c3]⟩
  · obtain ⟨own, h1, -⟩ := entriesFrom_mem s.fields 0 _ h
    have he := h1 _ (List.mem_cons_self ..)
    have ho : ∀ x : Member, x ∈ opt (!n.isEmpty) x := by
      intro x
      cases n with
      | nil => exact absurd rfl hne
      | cons c r => exact List.mem_cons_self ..
    cases l
    all_goals
      first
      | exact ⟨_, mem_members he (ho _), rfl, by simp only [attr, ld_us, c1, c2, c3]⟩
      | exact ⟨_, mem_members he (List.mem_cons_self ..), rfl, by simp only [attr, ld_us, c1, c2, c3]⟩

/-- **C79, methods.** Every custom getter and setter of a field has a member: a property with the method's name, or a function with
`get` or `set` and the name, up to case and underscores.  Kotlin has getters only; in Go and C the struct must embed no other. -/
theorem C79_methods (s : StructD) (l : Lang) (minimal : Bool) (n : Gen.Str) (t : CTy) (b : Int)
    (ms : List (Comp.Str × List (Bool × Prim))) (os : List (Comp.Str × Lit)) (h : .normal n t b ms os ∈ s.fields)
    (g : Comp.Str × List (Bool × Prim)) (hg : g ∈ ms) (hd : '.' ∉ g.1) (set : Bool) (p : Prim) (hm : (set, p) ∈ g.2)
    (hl : l = .go ∨ l = .c → ∀ e os, .embedded e os ∉ s.fields) (hk : l = .kotlin → set = false) :
    ∃ a ∈ members l minimal s, if a.attr then lettersAndDigits a.name = lettersAndDigits g.1 else
      lettersAndDigits a.name = (if l = .c then lettersAndDigits s.name else []) ++ (if set then "set" else "get").toList ++
        lettersAndDigits g.1 := by
  obtain ⟨c1, c2, c3⟩ := ld_conv hd
  obtain ⟨k1, k2, k3, k4, k5, k6, k7, k8, k9, k10, k11⟩ := ld_lits
  obtain ⟨own, h1, h2⟩ := entriesFrom_mem s.fields 0 _ h
  have he := h1 _ (List.mem_cons_of_mem _ (List.mem_map.mpr ⟨g, hg, rfl⟩))
  have hget : set = false → (g.2.any fun m => !m.1) = true := by
    rintro rfl; exact List.any_eq_true.mpr ⟨_, hm, rfl⟩
  have hset : set = true → (g.2.any fun m => m.1) = true := by
    rintro rfl; exact List.any_eq_true.mpr ⟨_, hm, rfl⟩
  have ho : ∀ {c : Bool} (x : Member), c = true → x ∈ opt c x := by rintro c x rfl; exact List.mem_cons_self ..
  cases l with
  | csharp => exact ⟨_, mem_members he (List.mem_cons_self ..), by simp only [attr, if_true, c2, Entry.name]⟩
  | python => exact ⟨_, mem_members he (List.mem_cons_self ..), by simp only [attr, if_true, c1]⟩
  | js => exact ⟨_, mem_members he (List.mem_cons_self ..), by simp only [attr, if_true, c3]⟩
  | kotlin => exact ⟨_, mem_members he (ho _ (hget (hk rfl))), by simp only [attr, if_true, c3]⟩
  | go =>
    have hown := h2 rfl (hl (.inl rfl))
    subst hown
    cases set
    · exact ⟨_, mem_members he (List.mem_append_left _ (ho _ (by rw [hget rfl]; rfl))), by
        simp only [func, ld_append, k1, c2]; rfl⟩
    · exact ⟨_, mem_members he (List.mem_append_right _ (ho _ (by rw [hset rfl]; rfl))), by
        simp only [func, ld_append, k2, c2]; rfl⟩
  | c =>
    have hown := h2 rfl (hl (.inr rfl))
    subst hown
    cases set
    · exact ⟨_, mem_members he (List.mem_append_left _ (ho _ (by rw [hget rfl]; rfl))), by
        simp only [func, ld_append, k7, c1]; rfl⟩
    · exact ⟨_, mem_members he (List.mem_append_right _ (ho _ (by rw [hset rfl]; rfl))), by
        simp only [func, ld_append, k8, c1]; rfl⟩
  | cpp =>
    cases set
    · exact ⟨_, mem_members he (List.mem_append_left _ (ho _ (hget rfl))), by simp only [func, ld_append, k5, c1]; rfl⟩
    · exact ⟨_, mem_members he (List.mem_append_right _ (ho _ (hset rfl))), by simp only [func, ld_append, k6, c1]; rfl⟩
  | java =>
    cases set
    · exact ⟨_, mem_members he (List.mem_append_left _ (ho _ (hget rfl))), by simp only [func, ld_append, k3, c2]; rfl⟩
    · exact ⟨_, mem_members he (List.mem_append_right _ (ho _ (hset rfl))), by simp only [func, ld_append, k4, c2]; rfl⟩

/-- **C79, the interface.** Every type has functions to encode and decode and to tell the sizes, up to case and underscores (in C with
the type's name in front); `dynamic` and `size` are members everywhere but in Kotlin and JavaScript, where they belong to the class. -/
theorem C79_codec (s : StructD) (l : Lang) (minimal : Bool) (w : String)
    (hw : w ∈ ["encode", "decode", "encodesize", "decodesize"] ∨ w ∈ ["dynamic", "size"] ∧ l ≠ .kotlin ∧ l ≠ .js) :
    ∃ a ∈ members l minimal s, (w ∈ ["encode", "decode", "encodesize", "decodesize"] → a.attr = false) ∧
      lettersAndDigits a.name = (if l = .c then lettersAndDigits s.name else []) ++ w.toList := by
  have key : ∃ a ∈ fixed l [], a.name ≠ [] ∧ (w ∈ ["encode", "decode", "encodesize", "decodesize"] → a.attr = false) ∧
      lettersAndDigits a.name = w.toList := by
    simp only [List.mem_cons, List.not_mem_nil, or_false] at hw
    cases l <;> rcases hw with (rfl | rfl | rfl | rfl) | ⟨rfl | rfl, h1, h2⟩ <;>
      first
      | exact absurd rfl h1
      | exact absurd rfl h2
      | (simp only [ne_eq] at h1 h2; clear h1 h2; decide +kernel)
      | decide +kernel
  obtain ⟨a, ha, hne, h1, h2⟩ := key
  by_cases hl : l = .c
  · subst hl
    refine ⟨func (s.name ++ a.name), List.mem_append_left _ ?_, fun _ => rfl, ?_⟩
    · simp only [fixed, List.mem_map] at ha ⊢
      obtain ⟨x, hx, rfl⟩ := ha
      exact ⟨x, hx, rfl⟩
    · rw [if_pos rfl, ← h2]
      exact ld_append _ _
  · rw [if_neg hl]
    refine ⟨a, List.mem_append_left _ ?_, h1, h2⟩
    cases l <;> first | exact absurd rfl hl | exact ha | skip
    simp only [fixed, List.mem_append, List.mem_cons] at ha ⊢
    rcases ha with ha | rfl | ha
    · exact .inl ha
    · exact absurd rfl hne
    · exact .inr (.inr ha)

/-! ### What happens without the conditions -/

def u8Field (n : String) (r : BodyA) : BodyA := .cons (.normal (.elem (.basic .u8)) n.toList none [] none) r
def u8Array (n : String) (r : BodyA) : BodyA := .cons (.normal (.array (.basic .u8) ['3']) n.toList none [] none) r
def u8Const (n : Option String) (r : BodyA) : BodyA :=
  .cons (.const .u8 (n.map String.toList) none (.inl (.int false ['5'])) []) r

def memStruct (i : Nat) (n : String) (b : BodyA) : TopA := .struct (.mk i 0 n.toList none b)

/-- `struct A { uint8 size; }`, `struct B { uint8 fooBar; uint8 foo_bar; }`, `struct C { uint8 x; uint8 get_x; }`,
`struct D { uint8<3> x; uint8 x_item; }`, `struct Point { uint8 point; }`, `struct G { uint8 x; uint8 _x; }`,
`struct H { uint8 = 5; }`, `struct Size { uint8 x; }`,
`struct Sensor { uint8 kind = 5; uint8<3> raw_values; uint8 checkSum { get first(): uint8: value; set first(uint8): value; }; }` and
`struct Outer { Sensor; }` -/
def memFS : FS := fun p => if p = ['a'] then .parsed ⟨[], [['q']], [],
  [memStruct 1 "A" (u8Field "size" .nil),
   memStruct 2 "B" (u8Field "fooBar" (u8Field "foo_bar" .nil)),
   memStruct 3 "C" (u8Field "x" (u8Field "get_x" .nil)),
   memStruct 4 "D" (u8Array "x" (u8Field "x_item" .nil)),
   memStruct 5 "Point" (u8Field "point" .nil),
   memStruct 7 "G" (u8Field "x" (u8Field "_x" .nil)),
   memStruct 8 "H" (u8Const none .nil),
   memStruct 9 "Size" (u8Field "x" .nil),
   memStruct 10 "Sensor" (u8Const (some "kind") (u8Array "raw_values" (.cons (.normal (.elem (.basic .u8)) "checkSum".toList none []
     (some [⟨false, some "first".toList, .u8, true⟩, ⟨true, some "first".toList, .u8, true⟩])) .nil))),
   memStruct 11 "Outer" (.cons (.embedded (.elem (.ident "Sensor".toList)) []) .nil)]⟩ else .missing

theorem memBad_of {l : Lang} {n : String} (h : (structOf memFS ['a'] n.toList).any
    (fun s => decide (s.name = n.toList) && !decide (Distinct l (members l false s))) = true) :
    ∃ s, InProject memFS ['a'] s ∧ s.name = n.toList ∧ ¬ Distinct l (members l false s) := by
  obtain ⟨s, h1, h2⟩ := structOf_project h
  simp only [Bool.and_eq_true, decide_eq_true_eq, Bool.not_eq_true', decide_eq_false_iff_not] at h2
  exact ⟨s, h1, h2.1, h2.2⟩

/-- **C79.** The conditions are needed; the compiler accepts all these structs.  A field `size`: Go, C++, C# and Python. -/
theorem C79_reserved_counterexample : ∀ l ∈ [Lang.go, .cpp, .csharp, .python],
    ∃ s, InProject memFS ['a'] s ∧ s.name = "A".toList ∧ ¬ Distinct l (members l false s) := by
  intro l hl
  simp only [List.mem_cons, List.not_mem_nil, or_false] at hl
  rcases hl with rfl | rfl | rfl | rfl <;> exact memBad_of (by decide +kernel)

/-- `fooBar` and `foo_bar`: all languages. -/
theorem C79_style_counterexample (l : Lang) : ∃ s, InProject memFS ['a'] s ∧ s.name = "B".toList ∧ ¬ Distinct l (members l false s) := by
  cases l <;> exact memBad_of (by decide +kernel)

/-- `x` and `get_x`: Go and C++. -/
theorem C79_getter_counterexample : ∀ l ∈ [Lang.go, .cpp],
    ∃ s, InProject memFS ['a'] s ∧ s.name = "C".toList ∧ ¬ Distinct l (members l false s) := by
  intro l hl
  simp only [List.mem_cons, List.not_mem_nil, or_false] at hl
  rcases hl with rfl | rfl <;> exact memBad_of (by decide +kernel)

/-- an array `x` and `x_item`: C and C++. -/
theorem C79_item_counterexample : ∀ l ∈ [Lang.c, .cpp],
    ∃ s, InProject memFS ['a'] s ∧ s.name = "D".toList ∧ ¬ Distinct l (members l false s) := by
  intro l hl
  simp only [List.mem_cons, List.not_mem_nil, or_false] at hl
  rcases hl with rfl | rfl <;> exact memBad_of (by decide +kernel)

/-- a field called as the type (its accessor is `Point`, as the class), and a type called `Size`: C#. -/
theorem C79_csharp_counterexample : ∀ n ∈ ["Point", "Size"],
    ∃ s, InProject memFS ['a'] s ∧ s.name = n.toList ∧ ¬ Distinct .csharp (members .csharp false s) := by
  intro l hl
  simp only [List.mem_cons, List.not_mem_nil, or_false] at hl
  rcases hl with rfl | rfl <;> exact memBad_of (by decide +kernel)

/-- `x` and `_x`: Python, where the attribute behind the property `x` is called `_x`. -/
theorem C79_python_counterexample :
    ∃ s, InProject memFS ['a'] s ∧ s.name = "G".toList ∧ ¬ Distinct .python (members .python false s) :=
  memBad_of (by decide +kernel)

/-- A constant without a name: members without a name in C#, Java and JavaScript. -/
theorem C79_empty_counterexample : ∀ l ∈ [Lang.csharp, .java, .js],
    ∃ s, InProject memFS ['a'] s ∧ s.name = "H".toList ∧ ∃ a ∈ members l false s, a.name = [] := by
  have key : ∀ l, (structOf memFS ['a'] "H".toList).any
      (fun s => decide (s.name = "H".toList) && (members l false s).any fun a => a.name.isEmpty) = true →
      ∃ s, InProject memFS ['a'] s ∧ s.name = "H".toList ∧ ∃ a ∈ members l false s, a.name = [] := by
    intro l h
    obtain ⟨s, h1, h2⟩ := structOf_project h
    simp only [Bool.and_eq_true, decide_eq_true_eq, List.any_eq_true, List.isEmpty_iff] at h2
    exact ⟨s, h1, h2⟩
  intro l hl
  simp only [List.mem_cons, List.not_mem_nil, or_false] at hl
  rcases hl with rfl | rfl | rfl <;> exact key _ (by decide +kernel)

/-- `s` has a field with a getter called `m`. -/
def hasGetter (m : Gen.Str) (s : StructD) : Bool :=
  s.fields.any fun
    | .normal _ _ _ ms _ => ms.any fun g => g.1 == m && g.2.any fun x => !x.1
    | _ => false

theorem hasGetter_iff {m : Gen.Str} {s : StructD} : hasGetter m s = true ↔
    ∃ n t b ms os, .normal n t b ms os ∈ s.fields ∧ ∃ g ∈ ms, g.1 = m ∧ ∃ p, (false, p) ∈ g.2 := by
  constructor
  · intro h
    obtain ⟨f, hf, h⟩ := List.any_eq_true.mp h
    cases f with
    | normal n t b ms os =>
      obtain ⟨g, hg, h⟩ := List.any_eq_true.mp h
      rw [Bool.and_eq_true, beq_iff_eq] at h
      obtain ⟨⟨x, p⟩, hx, hp⟩ := List.any_eq_true.mp h.2
      have : x = false := by simpa using hp
      subst this
      exact ⟨n, t, b, ms, os, hf, g, hg, h.1, p, hx⟩
    | _ => cases h
  · rintro ⟨n, t, b, ms, os, hf, g, hg, rfl, p, hp⟩
    refine List.any_eq_true.mpr ⟨_, hf, List.any_eq_true.mpr ⟨g, hg, ?_⟩⟩
    rw [Bool.and_eq_true]
    exact ⟨beq_self_eq_true _, List.any_eq_true.mpr ⟨_, hp, rfl⟩⟩

/-- In Go and C a struct has no member for a getter that comes with an embedded struct (finding 31). -/
theorem C79_embedded_counterexample : ∀ l ∈ [Lang.go, .c], ∃ s, InProject memFS ['a'] s ∧
    (∃ n t b ms os, .normal n t b ms os ∈ s.fields ∧ ∃ g ∈ ms, g.1 = "first".toList ∧ ∃ p, (false, p) ∈ g.2) ∧
    ∀ a ∈ members l false s, ¬ "first".toList <:+ lettersAndDigits a.name := by
  have key : ∀ l, (structOf memFS ['a'] "Outer".toList).any (fun s => hasGetter "first".toList s &&
      (members l false s).all fun a => !decide ("first".toList <:+ lettersAndDigits a.name)) = true →
      ∃ s, InProject memFS ['a'] s ∧
        (∃ n t b ms os, .normal n t b ms os ∈ s.fields ∧ ∃ g ∈ ms, g.1 = "first".toList ∧ ∃ p, (false, p) ∈ g.2) ∧
        ∀ a ∈ members l false s, ¬ "first".toList <:+ lettersAndDigits a.name := by
    intro l h
    obtain ⟨s, h1, h2⟩ := structOf_project h
    simp only [Bool.and_eq_true, List.all_eq_true, Bool.not_eq_true', decide_eq_false_iff_not] at h2
    exact ⟨s, h1, hasGetter_iff.1 h2.1, h2.2⟩
  intro l hl
  simp only [List.mem_cons, List.not_mem_nil, or_false] at hl
  rcases hl with rfl | rfl <;> exact key _ (by decide +kernel)

/-- A tidy struct with a constant, an array, a field with a method. -/
example : ∃ s, InProject memFS ['a'] s ∧ Tidy (entries s) s.name ∧ (entries s).length = 4 ∧ (members .java false s).length = 21 := by
  obtain ⟨s, h1, h2⟩ := structOf_project (fs := memFS) (entry := ['a']) (n := "Sensor".toList)
    (p := fun s => decide (Tidy (entries s) s.name) && decide ((entries s).length = 4) && decide ((members .java false s).length = 21))
    (by decide +kernel)
  simp only [Bool.and_eq_true, decide_eq_true_eq] at h2
  exact ⟨s, h1, h2.1.1, h2.1.2, h2.2⟩

/-- Unnamed constants alone are tidy where they do no harm. -/
example : ∃ s, InProject memFS ['a'] s ∧ entries s = [.const []] ∧ Tidy ((entries s).filter (· ≠ .const [])) s.name := by
  obtain ⟨s, h1, h2⟩ := structOf_project (fs := memFS) (entry := ['a']) (n := "H".toList)
    (p := fun s => decide (entries s = [.const []]) && decide (Tidy ((entries s).filter (· ≠ .const [])) s.name))
    (by decide +kernel)
  simp only [Bool.and_eq_true, decide_eq_true_eq] at h2
  exact ⟨s, h1, h2⟩

end Bubbler
