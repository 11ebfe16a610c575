import Verif.Expr.KtMain
import Verif.Props.ExprProps

/-
C47 for Kotlin: the text the Kotlin target writes for the expression of a custom property is read by Kotlin
(`KtReads`) as the expression the user wrote (`ExprA.ktTree`).
-/
namespace Bubbler
open Num Ex

/-- **C47, types (Kotlin).** A conversion leads to the type the user named, except `bool`. -/
theorem C47_kotlin_types (p : Prim) (t : Tree) (hp : p ≠ .bool) :
    ∃ T t', ktConv p t = .conv T t' ∧ ktKind (String.ofList T) = some (primKind p) ∧
      (t' = t ∨ ∃ U, t' = .conv U t ∧ (ktKind (String.ofList U) = some (.int true 32) ∨ ktKind (String.ofList U) = some (.int false 32))) := by
  cases p with
  | bool => exact absurd rfl hp
  | u8 => exact ⟨_, _, rfl, by decide +kernel, .inr ⟨_, rfl, .inr (by decide +kernel)⟩⟩
  | u16 => exact ⟨_, _, rfl, by decide +kernel, .inr ⟨_, rfl, .inr (by decide +kernel)⟩⟩
  | i8 => exact ⟨_, _, rfl, by decide +kernel, .inr ⟨_, rfl, .inl (by decide +kernel)⟩⟩
  | i16 => exact ⟨_, _, rfl, by decide +kernel, .inr ⟨_, rfl, .inl (by decide +kernel)⟩⟩
  | u32 => exact ⟨_, _, rfl, by decide +kernel, .inl rfl⟩
  | u64 => exact ⟨_, _, rfl, by decide +kernel, .inl rfl⟩
  | i32 => exact ⟨_, _, rfl, by decide +kernel, .inl rfl⟩
  | i64 => exact ⟨_, _, rfl, by decide +kernel, .inl rfl⟩
  | f32 => exact ⟨_, _, rfl, by decide +kernel, .inl rfl⟩
  | f64 => exact ⟨_, _, rfl, by decide +kernel, .inl rfl⟩

/-- A text has at most one reading. -/
theorem Ex.KtReads.unique {s : Str} {t t' : Tree} (h : KtReads s t) (h' : KtReads s t') : t = t' := by
  obtain ⟨ts, h1, N, h2⟩ := h
  obtain ⟨ts', h1', N', h2'⟩ := h'
  have e := Lexes.unique ktSymsOk h1 h1'
  subst e
  have a := h2 (N + N') (by omega)
  have b := h2' (N + N') (by omega)
  rw [a] at b
  simp only [Option.some.injEq, Prod.mk.injEq, and_true] at b
  exact b

theorem Ex.KGood.reads {neg : Bool} {s : Str} {toks : List Tok} {t : Tree} (h : KGood neg s toks t) : KtReads s t := by
  refine ⟨toks, ?_, ?_⟩
  · have := h.lex [] [] (by intro c e; cases e) .nil
    simpa using this
  · obtain ⟨N, hN⟩ := h.bin
    refine ⟨N, fun n hn => ?_⟩
    have := hN n hn 0 [] kstop_nil (by intro t e; cases e)
    simpa using this

theorem Ex.kNames {val : Str} (hval : val = "value".toList ∨ ∃ f, f.all isWord = true ∧ val = "this.".toList ++ f) :
    KGood false val [.word val] (.name val) := by
  rcases hval with rfl | ⟨f, hf, rfl⟩
  · exact kWord (by decide +kernel) (by decide +kernel) (by decide +kernel)
  · have hd : '.' ∈ "this.".toList ++ f := List.mem_append_left _ (by decide +kernel)
    have hk : ∀ s ∈ "true".toList :: "false".toList :: "if".toList :: ktReserved, "this.".toList ++ f ≠ s := by
      rintro s h rfl
      have := List.all_eq_true.mp (show ("true".toList :: "false".toList :: "if".toList :: ktReserved).all (fun s => !s.contains '.') = true from by decide +kernel) _ h
      rw [Bool.not_eq_true', ← Bool.not_eq_true, List.contains_iff_mem] at this
      exact this hd
    refine kWord ?_ (hk _ (by simp)) ?_
    · rw [List.all_append, hf]; decide +kernel
    · have hr : "this.".toList ++ f ∉ ktReserved := fun h => hk _ (List.mem_cons_of_mem _ (List.mem_cons_of_mem _ (List.mem_cons_of_mem _ h))) rfl
      have h1 := hk "true".toList (by simp)
      have h2 := hk "false".toList (by simp)
      rw [show "this.".toList ++ f = 't' :: ("his.".toList ++ f) from by rw [show "this.".toList = 't' :: "his.".toList from by decide +kernel]; rfl] at *
      unfold ktAtom
      rw [if_neg h1, if_neg h2, if_neg hr]
      simp only [show 't' ≠ '.' from by decide, if_false, show ('t' : Char).isDigit = false from by decide, Bool.false_eq_true]

/-- **C47 (Kotlin).** The value is the parameter of a setter or, in a getter, `this.f`. With or without `-decnum`, the text of a plain expression
has exactly one reading, the expression the user wrote. -/
theorem C47_kotlin (decnum : Bool) (ty : Prim) (e : ExprA) (hp : e.plain = true) (val : Str)
    (hval : val = "value".toList ∨ ∃ f, f.all isWord = true ∧ val = "this.".toList ++ f) :
    ∃ s, ktMethod decnum val ty e = some s ∧ ∀ t, KtReads s t ↔ t = e.ktTree (.name val) := by
  obtain ⟨x, toks, h1, h2⟩ := ExprA.ktMain decnum ty (kNames hval) e hp
  refine ⟨_, by unfold ktMethod; rw [h1]; rfl, fun t => ⟨fun h => h.unique h2.reads, ?_⟩⟩
  rintro rfl
  exact h2.reads

/-! ### Cases -/

example : ktMethod false "this.t".toList .u8 sampleExpr = some
    "(if (((((this.t * 9) / 5) + 32) > 0x64)) ((this.t shl (2).toInt())).toUInt().toUByte() else ((-this.t)).toUInt().toUByte())".toList := by decide +kernel
example : ktMethod true "value".toList .i64 wideExpr = some
    "(((value).toDouble().pow((2).toDouble()) > 5000000000) || (value == -2147483648))".toList := by decide +kernel
example : sampleExpr.ktTree (.name "this.t".toList) =
    .cond none
      (.bin .GT (.bin .ADD (.bin .DIV (.bin .MUL (.name "this.t".toList) (.num 9)) (.num 5)) (.num 32)) (.num 100))
      (.conv "UByte".toList (.conv "UInt".toList (.bin .SHL (.name "this.t".toList) (.conv "Int".toList (.num 2)))))
      (.conv "UByte".toList (.conv "UInt".toList (.un .SUB (.name "this.t".toList)))) := by
  decide +kernel
/-- `~value & bool(value) ^ 1.5` -/
example : ktMethod false "value".toList .u8 (.binary .BXOR (.binary .BAND (.unary .BNOT .value) (.cast .bool .value)) (.const (.float false "1".toList "5".toList))) = some
    "(((value).inv() and (value != 0)) xor 1.5)".toList := by decide +kernel

/-- The precedence of the reader matters: without parentheses the text would be read differently. -/
example : KtReads "a and b + 1".toList (.bin .BAND (.name ['a']) (.bin .ADD (.name ['b']) (.num 1))) := by
  refine ⟨[.word ['a'], .word ['a', 'n', 'd'], .word ['b'], .op ['+'], .word ['1']], ?_, 12, ?_⟩
  · rw [show "a and b + 1".toList = ['a'] ++ (' ' :: (['a', 'n', 'd'] ++ (' ' :: (['b'] ++ (' ' :: (['+'] ++ (' ' :: (['1'] ++ [])))))))) from by decide +kernel]
    refine Lexes.word' (by decide) (by decide) (nonword (by decide)) (Lexes.space (Lexes.word' (by decide) (by decide) (nonword (by decide)) (Lexes.space
      (Lexes.word' (by decide) (by decide) (nonword (by decide)) (Lexes.space (Lexes.sym' (by decide +kernel) (fun c hc => ?_) (Lexes.space
        (Lexes.word' (by decide) (by decide) (by simp) .nil))))))))
    simp only [List.head?_cons, Option.some.injEq] at hc
    subst hc; decide +kernel
  · intro n hn
    obtain ⟨n, rfl⟩ : ∃ m, n = m + 12 := ⟨n - 12, by omega⟩
    rfl

/-- A minus sign before a negative literal: `-(-5)` is written `(--5)`, which Kotlin cuts into `--` and `5`. -/
theorem C47_kotlin_minus_counterexample : ktMethod false "value".toList .i8 (.unary .SUB (.parens (.const (.int true "5".toList)))) = some "(--5)".toList ∧
    ∀ t, ¬ KtReads "(--5)".toList t := by
  refine ⟨by decide +kernel, ?_⟩
  rintro t ⟨ts, hl, N, hN⟩
  have hl' : Lexes ktSyms "(--5)".toList [.op ['('], .op ['-', '-'], .word ['5'], .op [')']] := by
    rw [show "(--5)".toList = ['('] ++ (['-', '-'] ++ (['5'] ++ ([')'] ++ []))) from by decide +kernel]
    exact Lexes.closed (by decide +kernel) (Lexes.closed (by decide +kernel) (Lexes.word' (by decide) (by decide) (nonword (by decide)) (Lexes.closed (by decide +kernel) .nil)))
  have e := Lexes.unique ktSymsOk hl hl'
  subst e
  have hp := hN (N + 12) (by omega)
  have : ∀ n, ktParse (n + 12) (.bin 0) [.op ['('], .op ['-', '-'], .word ['5'], .op [')']] = none := fun n => rfl
  rw [this] at hp
  cases hp

end Bubbler
