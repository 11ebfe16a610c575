import Verif.Util.CalcProofs

/-
C43: the template calculator (`calc` in the generators' templates).

Specification: `E` (expressions), `E.toks` (the arguments of `calc` that stand for an expression), `E.wf` (where parentheses are
needed), `E.eval` (the value; `none` = Go panic), all in Verif/Util/CalcProofs.lean.
-/
namespace Bubbler
open Calc

variable {O : FOps}

/-- C43: `calc` evaluates every expression, whatever its size, to its value (or panics exactly when it has none). -/
theorem C43_expression (e : E O) (hw : e.wf = true) : calculate e.toks = e.eval := by
  have h := calculate_toks e hw [] ⟨fun _ _ _ => rfl, fun _ _ => by simp⟩
  rwa [List.append_nil] at h

/-- C43: arguments after a complete expression are ignored silently, unless they begin with a binary operator or `?`. -/
theorem C43_trailing_ignored (e : E O) (hw : e.wf = true) (x : V O) (r : List (V O))
    (hx : ∀ o : Op, x ≠ .str o.text) (hq : x ≠ .str ['?']) : calculate (e.toks ++ x :: r) = e.eval := by
  refine calculate_toks e hw _ ⟨fun k _ _ => ?_, fun _ r' h => ?_⟩
  · cases x with
    | str s => exact binop_none s (fun o h => hx o (by rw [h])) k
    | _ => rfl
  · simp only [List.cons.injEq] at h
    exact hq h.1

/-- C43: parentheses change nothing but the grouping. -/
theorem C43_parentheses (e : E O) (hw : e.wf = true) : calculate (.str ['('] :: (e.toks ++ [.str [')']])) = calculate e.toks := by
  rw [C43_expression e hw]
  exact C43_expression (.paren e) hw

/-- The numbers an int64 can hold -/
def I64 (x : Int) : Prop := -2 ^ 63 ≤ x ∧ x < 2 ^ 63

theorem w64_of_I64 {x : Int} (h : I64 x) : w64 x = x := by
  obtain ⟨h1, h2⟩ := h
  unfold w64
  omega

/-- C43: two integers (of any Go integer types): the results are those of int64 arithmetic; sums, differences and products are
exact as long as they fit; quotients truncate, and division by zero panics. -/
theorem C43_integers (k l : IK) (x y : Int) (hx : I64 x) (hy : I64 y) :
    let calc2 (o : Str) : Option (V O) := calculate [.int k x, .str o, .int l y]
    (I64 (x + y) → calc2 ['+'] = some (.int .int64 (x + y))) ∧
    (I64 (x - y) → calc2 ['-'] = some (.int .int64 (x - y))) ∧
    (I64 (x * y) → calc2 ['*'] = some (.int .int64 (x * y))) ∧
    (y ≠ 0 → I64 (x.tdiv y) → calc2 ['/'] = some (.int .int64 (x.tdiv y))) ∧
    (y ≠ 0 → calc2 ['%'] = some (.int .int64 (x.tmod y))) ∧
    (y = 0 → calc2 ['/'] = none ∧ calc2 ['%'] = none) ∧
    calc2 ['<'] = some (.bool (decide (x < y))) ∧
    calc2 ['>'] = some (.bool (decide (y < x))) ∧
    calc2 ['<', '='] = some (.bool (decide (x ≤ y))) ∧
    calc2 ['>', '='] = some (.bool (decide (y ≤ x))) := by
  have key : ∀ o : Op, calculate [.int k x, .str o.text, .int l y] = o.apply (O := O) (.int k x) (.int l y) := by
    intro o
    have h : (E.bin o (.atom (.int k x)) (.atom (.int l y)) : E O).wf = true := by cases o <;> rfl
    exact C43_expression _ h
  have wx := w64_of_I64 hx
  have wy := w64_of_I64 hy
  have i2 : ∀ (f : Int → Int → Option Int), intOp (O := O) f (.int k x) (.int l y) = (f x y).map fun z => .int .int64 (w64 z) := by
    intro f
    simp only [intOp, toInt64, wx, wy, Option.bind_eq_bind, Option.bind_some]
    cases h : f x y <;> rfl
  have a2 : ∀ f g, arith (O := O) f g (.int k x) (.int l y) = (f x y).map fun z => .int .int64 (w64 z) := by
    intro f g
    simp only [arith, isFloat, Bool.or_self, Bool.false_eq_true, if_false, i2]
  have c2 : ∀ f g, Calc.compare (O := O) f g (.int k x) (.int l y) = some (.bool (f x y)) := by
    intro f g
    simp [Calc.compare, isFloat, toInt64, wx, wy]
  refine ⟨fun h => ?_, fun h => ?_, fun h => ?_, fun h0 h => ?_, fun h0 => ?_, fun h0 => ⟨?_, ?_⟩, ?_, ?_, ?_, ?_⟩
  · refine (key .add).trans ?_; simp only [Op.apply, a2, Option.map_some, w64_of_I64 h]
  · refine (key .sub).trans ?_; simp only [Op.apply, a2, Option.map_some, w64_of_I64 h]
  · refine (key .mul).trans ?_; simp only [Op.apply, a2, Option.map_some, w64_of_I64 h]
  · refine (key .div).trans ?_; simp only [Op.apply, a2, goDiv, h0, if_false, Option.map_some, w64_of_I64 h]
  · refine (key .mod).trans ?_
    have hm : I64 (x.tmod y) := by
      obtain ⟨a, b⟩ := hy
      have h1 := Int.natAbs_tmod x y
      have h2 : x.natAbs % y.natAbs < y.natAbs := Nat.mod_lt _ (by omega)
      unfold I64
      omega
    simp only [Op.apply, i2, goMod, h0, if_false, Option.map_some, w64_of_I64 hm]
  · refine (key .div).trans ?_; rw [Op.apply, a2, goDiv, if_pos h0]; rfl
  · refine (key .mod).trans ?_; rw [Op.apply, i2, goMod, if_pos h0]; rfl
  · exact (key .lt).trans (c2 _ _)
  · exact (key .gt).trans (c2 _ _)
  · exact (key .le).trans (c2 _ _)
  · exact (key .ge).trans (c2 _ _)

theorem w64_eq (x : Int) : w64 x = (BitVec.ofInt 64 x).toInt := by
  rw [BitVec.toInt_ofInt]
  unfold w64
  simp only [Int.bmod]
  split <;> omega

theorem w64_toInt (a : BitVec 64) : w64 a.toInt = a.toInt := by rw [w64_eq, BitVec.ofInt_toInt]

/-- C43: on all 64-bit operands, of whatever Go integer types, the operators are those of 64-bit two's complement arithmetic;
dividing by zero and shifting by a negative count panic, shifting by 64 or more shifts everything out. -/
theorem C43_int64 (k l : IK) (a b : BitVec 64) :
    let calc2 (o : Str) : Option (V O) := calculate [.int k a.toInt, .str o, .int l b.toInt]
    let res (r : BitVec 64) : Option (V O) := some (.int .int64 r.toInt)
    calc2 ['+'] = res (a + b) ∧ calc2 ['-'] = res (a - b) ∧ calc2 ['*'] = res (a * b) ∧
    calc2 ['/'] = (if b = 0#64 then none else res (a.sdiv b)) ∧
    calc2 ['%'] = (if b = 0#64 then none else res (a.srem b)) ∧
    calc2 ['|'] = res (a ||| b) ∧ calc2 ['^'] = res (a ^^^ b) ∧ calc2 ['&'] = res (a &&& b) ∧
    calc2 ['<', '<'] = (if b.toInt < 0 then none else res (a <<< b.toNat)) ∧
    calc2 ['>', '>'] = (if b.toInt < 0 then none else res (a.sshiftRight b.toNat)) := by
  have key : ∀ o : Op, calculate [.int k a.toInt, .str o.text, .int l b.toInt] = o.apply (O := O) (.int k a.toInt) (.int l b.toInt) := by
    intro o
    have h : (E.bin o (.atom (.int k a.toInt)) (.atom (.int l b.toInt)) : E O).wf = true := by cases o <;> rfl
    exact C43_expression _ h
  have i2 : ∀ (f : Int → Int → Option Int), intOp (O := O) f (.int k a.toInt) (.int l b.toInt) =
      (f a.toInt b.toInt).map fun z => .int .int64 (w64 z) := by
    intro f
    simp only [intOp, toInt64, w64_toInt, Option.bind_eq_bind, Option.bind_some]
    cases h : f a.toInt b.toInt <;> rfl
  have a2 : ∀ f g, arith (O := O) f g (.int k a.toInt) (.int l b.toInt) = (f a.toInt b.toInt).map fun z => .int .int64 (w64 z) := by
    intro f g
    simp only [arith, isFloat, Bool.or_self, Bool.false_eq_true, if_false, i2]
  have bz : b.toInt = 0 ↔ b = 0#64 := by
    constructor
    · intro h; exact BitVec.eq_of_toInt_eq (by rw [h]; rfl)
    · rintro rfl; rfl
  have nonneg : ¬ b.toInt < 0 → b.toInt.toNat = b.toNat := by
    intro h
    rw [BitVec.toInt_eq_toNat_cond] at h ⊢
    split at h <;> rename_i h2
    · rw [if_pos h2]; rfl
    · have := b.isLt; omega
  refine ⟨?_, ?_, ?_, ?_, ?_, ?_, ?_, ?_, ?_, ?_⟩
  · refine (key .add).trans ?_
    simp only [Op.apply, a2, Option.map_some, w64_eq, BitVec.ofInt_add, BitVec.ofInt_toInt]
  · refine (key .sub).trans ?_
    simp only [Op.apply, a2, Option.map_some, w64_eq, Int.sub_eq_add_neg, BitVec.ofInt_add, BitVec.ofInt_neg, BitVec.ofInt_toInt,
      BitVec.sub_eq_add_neg]
  · refine (key .mul).trans ?_
    simp only [Op.apply, a2, Option.map_some, w64_eq, BitVec.ofInt_mul, BitVec.ofInt_toInt]
  · refine (key .div).trans ?_
    simp only [Op.apply, a2, goDiv, bz]
    split
    · rfl
    · simp only [Option.map_some, w64_eq]
      rw [BitVec.toInt_sdiv, BitVec.toInt_ofInt]
  · refine (key .mod).trans ?_
    simp only [Op.apply, i2, goMod, bz]
    split
    · rfl
    · simp only [Option.map_some, w64_eq]
      rw [← BitVec.toInt_srem, BitVec.ofInt_toInt]
  · refine (key .bor).trans ?_
    simp only [Op.apply, i2, bitOp, Option.map_some, w64_toInt, BitVec.ofInt_toInt]
  · refine (key .xor).trans ?_
    simp only [Op.apply, i2, bitOp, Option.map_some, w64_toInt, BitVec.ofInt_toInt]
  · refine (key .band).trans ?_
    simp only [Op.apply, i2, bitOp, Option.map_some, w64_toInt, BitVec.ofInt_toInt]
  · refine (key .shl).trans ?_
    simp only [Op.apply, i2, goShl]
    split
    · rfl
    · rename_i h
      simp only [Option.map_some, w64_eq, nonneg h]
      congr 2
      split
      · rename_i h64
        rw [BitVec.shiftLeft_eq_zero (by have := nonneg h; omega)]; rfl
      · rw [BitVec.ofInt_mul, BitVec.ofInt_toInt, BitVec.shiftLeft_eq_mul_twoPow]
        congr 2
        generalize b.toNat = m
        rw [show ((2 : Int) ^ m) = ((2 ^ m : Nat) : Int) by simp, BitVec.ofInt_natCast]
        apply BitVec.eq_of_toNat_eq
        rw [BitVec.toNat_ofNat, BitVec.toNat_twoPow]
  · refine (key .shr).trans ?_
    simp only [Op.apply, i2, goShr]
    split
    · rfl
    · rename_i h
      simp only [Option.map_some, w64_eq, nonneg h]
      congr 2
      rw [show ((2 : Int) ^ b.toNat) = ((2 ^ b.toNat : Nat) : Int) by generalize b.toNat = m; simp, ← Int.shiftRight_eq_div_pow, ← BitVec.toInt_sshiftRight, BitVec.ofInt_toInt]

/-- C43: unary operators on integers, and truth values: 0 is false. -/
theorem C43_unary (k : IK) (a : BitVec 64) :
    let calc1 (o : Str) : Option (V O) := calculate [.str o, .int k a.toInt]
    calc1 ['+'] = some (.int k a.toInt) ∧ calc1 ['-'] = some (.int .int64 (-a).toInt) ∧
    calc1 ['~'] = some (.int .int64 (~~~a).toInt) ∧ calc1 ['!'] = some (.bool (decide (a = 0#64))) := by
  have key : ∀ o : Un, calculate [.str o.text, .int k a.toInt] = (E.un o (.atom (.int k a.toInt)) : E O).eval := by
    intro o
    exact C43_expression (.un o (.atom (.int k a.toInt))) (by cases o <;> rfl)
  refine ⟨key .pos, (key .neg).trans ?_, (key .compl).trans ?_, (key .not).trans ?_⟩
  · simp only [E.eval, Option.bind_some, E.isFloatAtom, isFloat, Bool.false_eq_true, if_false, toInt64, Option.map_some,
      w64_eq, BitVec.ofInt_neg, BitVec.ofInt_toInt]
  · have e : BitVec.ofInt 64 (-a.toInt - 1) = ~~~a := by
      rw [Int.sub_eq_add_neg, BitVec.ofInt_add, BitVec.ofInt_neg, BitVec.ofInt_toInt, BitVec.not_eq_neg_add, BitVec.sub_eq_add_neg]
      congr 1
    simp only [E.eval, Option.bind_some, toInt64, w64_toInt, Option.map_some]
    rw [w64_eq, e]
  · simp only [E.eval, Option.bind_some, Calc.toBool, Option.map_some]
    congr 2
    rw [Bool.eq_iff_iff]
    simp only [bne, Bool.not_not, beq_iff_eq, decide_eq_true_eq]
    constructor
    · intro h; exact BitVec.eq_of_toInt_eq (by rw [h]; rfl)
    · rintro rfl; rfl

/-- C43: logic and choice on truth values; the words `or` and `and` are the operators `||` and `&&`. -/
theorem C43_logic (p q : Bool) (y z : V O) (hy : special y = false) (hz : special z = false) :
    let calc2 (o : Str) : Option (V O) := calculate [.bool p, .str o, .bool q]
    calc2 ['|', '|'] = some (.bool (p || q)) ∧ calc2 ['o', 'r'] = some (.bool (p || q)) ∧
    calc2 ['&', '&'] = some (.bool (p && q)) ∧ calc2 ['a', 'n', 'd'] = some (.bool (p && q)) ∧
    calc2 ['=', '='] = some (.bool (p == q)) ∧ calc2 ['!', '='] = some (.bool (p != q)) ∧
    calculate [.bool p, .str ['?'], y, .str [':'], z] = some (if p then y else z) := by
  have key : ∀ o : Op, calculate [.bool p, .str o.text, .bool q] = o.apply (O := O) (.bool p) (.bool q) := by
    intro o
    have h : (E.bin o (.atom (.bool p)) (.atom (.bool q)) : E O).wf = true := by cases o <;> rfl
    exact C43_expression _ h
  refine ⟨(key .lor).trans ?_, (key .lor').trans ?_, (key .land).trans ?_, (key .land').trans ?_, (key .eq).trans ?_,
    (key .ne).trans ?_, ?_⟩
  · cases p <;> cases q <;> rfl
  · cases p <;> cases q <;> rfl
  · cases p <;> cases q <;> rfl
  · cases p <;> cases q <;> rfl
  · cases p <;> cases q <;> rfl
  · cases p <;> cases q <;> rfl
  · refine (C43_expression (.cond (.atom (.bool p)) (.atom y) (.atom z)) ?_).trans ?_
    · have hb : special (V.bool p : V O) = false := rfl
      simp [E.wf, hb, hy, hz, E.prec]
    · simp [E.eval, Calc.toBool]

/-- C43: an opening parenthesis that is not closed makes `calc` panic. -/
theorem C43_unclosed (e : E O) (hw : e.wf = true) : calculate (.str ['('] :: e.toks) = none := by
  have h := parse_toks e hw 0 (Nat.zero_le _) [] ⟨fun _ _ _ => rfl, fun _ _ => by simp⟩
  simp only [parse, if_true] at h
  rw [List.append_nil] at h
  have hu := unary_paren (O := O) e.toks
  rw [h] at hu
  have hu' : run (calcUnary (.str ['('] :: e.toks)) = none := by
    rw [hu]; cases e.eval <;> rfl
  have hb : ∀ d, d ≤ 10 → run (calcBin (10 - d) (.str ['('] :: e.toks)) = none := by
    intro d
    induction d with
    | zero => intro _; rw [Nat.sub_zero, run_bin_end, hu']
    | succ d ih =>
      intro hd
      rw [run_bin _ (by omega), show 10 - (d + 1) + 1 = 10 - d by omega, ih (by omega)]
      rfl
  have ht : run (calcTern (.str ['('] :: e.toks)) = none := by
    rw [run_tern, hb 10 (by omega)]; rfl
  unfold calculate
  unfold run at ht
  cases hc : calcTern (.str ['('] :: e.toks) with
  | none => rfl
  | some x => rw [hc] at ht; simp at ht

/-- C43: the use the generators make of it: `{{ calc .StructBitSize "/" 8 }}` is the number of bytes. -/
theorem C43_bytes (k l : IK) (n : Nat) (hn : n < 2 ^ 63) :
    calculate (O := O) [.int k n, .str ['/'], .int l 8] = some (.int .int64 (n / 8 : Nat)) := by
  have h := (C43_integers (O := O) k l n 8 ⟨by omega, by omega⟩ ⟨by omega, by omega⟩).2.2.2.1 (by omega)
    (by unfold I64; rw [Int.tdiv_eq_ediv_of_nonneg (by omega)]; omega)
  rw [Int.tdiv_eq_ediv_of_nonneg (by omega)] at h
  exact_mod_cast h

/-- C43: chains of the same operator group to the right: `a - b - c` is `a - (b - c)`, and `a / b / c` is `a / (b / c)`. -/
theorem C43_groups_right (o : Op) (a b c : E O) (ha : a.wf = true) (hb : b.wf = true) (hc : c.wf = true)
    (pa : o.level + 1 < a.prec) (pb : o.level + 1 < b.prec) (pc : o.level + 1 < c.prec) :
    calculate (a.toks ++ .str o.text :: (b.toks ++ .str o.text :: c.toks)) =
      a.eval.bind fun x => b.eval.bind fun y => c.eval.bind fun z => (o.apply y z).bind fun t => o.apply x t := by
  have hw : (E.bin o a (.bin o b c)).wf = true := by
    have e : (E.bin o b c).prec = o.level + 1 := rfl
    simp only [E.wf, ha, hb, hc, Bool.true_and, Bool.and_eq_true, decide_eq_true_eq, e]
    omega
  refine (C43_expression _ hw).trans ?_
  simp only [E.eval]
  cases a.eval <;> cases b.eval <;> cases c.eval <;> rfl

/-- C43, counterexample to the usual reading: `10 - 3 - 2` is 9. -/
theorem C43_right_counterexample :
    calculate (O := O) [.int .int 10, .str ['-'], .int .int 3, .str ['-'], .int .int 2] = some (.int .int64 9) := by
  refine (C43_groups_right .sub (.atom (.int .int 10)) (.atom (.int .int 3)) (.atom (.int .int 2)) rfl rfl rfl (by simp [E.prec, Op.level]) (by simp [E.prec, Op.level]) (by simp [E.prec, Op.level])).trans ?_
  simp [E.eval, Op.apply, arith, isFloat, intOp, toInt64, w64]

/-- C43, counterexample: `==` compares the Go types too, so `4 / 2 == 2` is false. -/
theorem C43_equality_counterexample :
    calculate (O := O) [.int .int 4, .str ['/'], .int .int 2, .str ['=', '='], .int .int 2] = some (.bool false) := by
  refine (C43_expression (.bin .eq (.bin .div (.atom (.int .int 4)) (.atom (.int .int 2))) (.atom (.int .int 2))) rfl).trans ?_
  simp [E.eval, Op.apply, arith, isFloat, intOp, toInt64, w64, goDiv, goEq]

/-- `1 + 2 * (3 - 1) < 7 ? -5 : 6` needs no further parentheses, and has the value -5. -/
example : ∃ e : E O, e.wf = true ∧ e.toks = [.int .int 1, .str ['+'], .int .int8 2, .str ['*'], .str ['('], .int .int 3, .str ['-'], .int .uint 1,
      .str [')'], .str ['<'], .int .int 7, .str ['?'], .str ['-'], .int .int 5, .str [':'], .int .int 6] ∧
    e.eval = some (.int .int64 (-5)) := by
  refine ⟨.cond (.bin .lt (.bin .add (.atom (.int .int 1)) (.bin .mul (.atom (.int .int8 2))
    (.paren (.bin .sub (.atom (.int .int 3)) (.atom (.int .uint 1)))))) (.atom (.int .int 7)))
    (.un .neg (.atom (.int .int 5))) (.atom (.int .int 6)), rfl, rfl, ?_⟩
  simp [E.eval, Op.apply, arith, Calc.compare, isFloat, intOp, toInt64, w64, Calc.toBool, E.isFloatAtom]

end Bubbler
