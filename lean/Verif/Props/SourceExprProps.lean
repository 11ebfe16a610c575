import Verif.Props.ExprProps
import Verif.Props.FrontProps
import Verif.Expr.SourceProofs

/-
C70: method expressions from the text of the source to the text of the generated code.
-/
namespace Bubbler
open Ex Num
open Front (ReadsExpr readExpr srcMethod Kept IsFloat64 Nearest64 NearestMillionth FloatValue decimal float64 fmtF halfEven)

/-- **C70, reading.** An expression is read as `e` exactly if its tokens are those of `e` and it is grouped as the precedences say; in at most one
way. -/
theorem C70_read (s : Str) (e : Front.Expr) : (readExpr s = some e ↔ ReadsExpr s e) ∧ ∀ e', ReadsExpr s e → ReadsExpr s e' → e = e' := by
  refine ⟨Front.readExpr_iff s e, fun e' h h' => ?_⟩
  rw [← Front.readExpr_iff] at h h'
  rw [h] at h'
  exact Option.some.inj h'

/-- **C70, accepted.** The compiler accepts an expression exactly if all constants in it have a value. -/
theorem C70_accepted {e : Front.Expr} (h : ∀ c ∈ e.consts, c.Token) : Front.exprOk e = true ↔ ∀ c ∈ e.consts, c.HasValue := Front.exprOk_iff h

theorem srcMethod_eq {P : Target} {val : Str} {ty : Prim} {s : Str} {e : Front.Expr} {x : ExprA} (h : ReadsExpr s e) (hx : e.ex = some x) :
    srcMethod P val ty s = P.method val ty x := by
  unfold srcMethod
  rw [(Front.readExpr_iff s e).2 h]
  simp only [hx]

/-- **C70 (Go).** The target refuses a conditional whose branches have no explicit common type; otherwise Go reads the generated text as the
written expression, and in no other way. -/
theorem C70_go (ty : Prim) {s : Str} {e : Front.Expr} (h : ReadsExpr s e) (hf : e.Fine { minus := true }) (val : Str)
    (hval : val = "value".toList ∨ ∃ f, f.all isWord = true ∧ val = "this.".toList ++ f) :
    ((srcMethod goTarget val ty s).isSome = true ↔ e.Typed ty) ∧
    ∀ g, srcMethod goTarget val ty s = some g →
      ∃ t, Kept (.name val) primName (fun a => (a.type ty).map primName) false e t ∧ ∀ t', goLang.Reads g t' ↔ t' = t := by
  obtain ⟨x, h1, h2, -, -, h5, -⟩ := Front.Expr.fine_ex _ (.name val) primName (fun a => (a.type ty).map primName)
    (fun a => (a.type ty).map primName) false (fun a y hy => by simp only [Front.Expr.ex_type ty hy]) hf
  obtain ⟨c1, c2⟩ := C47_go ty x (h5 rfl) val hval
  rw [srcMethod_eq h h1]
  exact ⟨by rw [c1]; exact Front.Expr.ex_typed ty h1, fun g hg => ⟨_, h2, c2 g hg⟩⟩

/-- **C70 (C, setter).** -/
theorem C70_c_setter (ty : Prim) {s : Str} {e : Front.Expr} (h : ReadsExpr s e) (hf : e.Fine { minus := true }) :
    ∃ g, srcMethod cTarget "value".toList ty s = some g ∧
      ∃ t, Kept (.name "value".toList) cTypeName (fun _ => none) false e t ∧ ∀ t', cLang.Reads g t' ↔ t' = t := by
  obtain ⟨x, h1, h2, -, -, h5, -⟩ := Front.Expr.fine_ex _ (.name "value".toList) cTypeName (fun _ => none) (fun _ => none) false (fun _ _ _ => rfl) hf
  rw [srcMethod_eq h h1]
  obtain ⟨g, g1, g2⟩ := C47_c_setter ty x (h5 rfl)
  exact ⟨g, g1, _, h2, g2⟩

/-- **C70 (C, getter).** -/
theorem C70_c_getter (ty : Prim) {s : Str} {e : Front.Expr} (h : ReadsExpr s e) (hf : e.Fine { minus := true })
    (f : Str) (hf0 : f ≠ []) (hfw : f.all isWord = true) :
    ∃ g, srcMethod cTarget ("ptr->".toList ++ f) ty s = some g ∧
      ∃ t, Kept (.arrow "ptr".toList f) cTypeName (fun _ => none) false e t ∧ ∀ t', cLang.Reads g t' ↔ t' = t := by
  obtain ⟨x, h1, h2, -, -, h5, -⟩ := Front.Expr.fine_ex _ (.arrow "ptr".toList f) cTypeName (fun _ => none) (fun _ => none) false (fun _ _ _ => rfl) hf
  rw [srcMethod_eq h h1]
  obtain ⟨g, g1, g2⟩ := C47_c_getter ty x (h5 rfl) f hf0 hfw
  exact ⟨g, g1, _, h2, g2⟩

/-- **C70 (C++).** -/
theorem C70_cpp (ty : Prim) {s : Str} {e : Front.Expr} (h : ReadsExpr s e) (hf : e.Fine { minus := true })
    (f : Str) (hf0 : f ≠ []) (hfw : f.all isWord = true) :
    (∃ g, srcMethod cTarget "value".toList ty s = some g ∧
      ∃ t, Kept (.name "value".toList) cTypeName (fun _ => none) false e t ∧ ∀ t', cppLang.Reads g t' ↔ t' = t) ∧
    (∃ g, srcMethod cTarget ("this->".toList ++ f) ty s = some g ∧
      ∃ t, Kept (.arrow "this".toList f) cTypeName (fun _ => none) false e t ∧ ∀ t', cppLang.Reads g t' ↔ t' = t) := by
  obtain ⟨x, h1, h2, -, -, h5, -⟩ := Front.Expr.fine_ex _ (.arrow "this".toList f) cTypeName (fun _ => none) (fun _ => none) false (fun _ _ _ => rfl) hf
  obtain ⟨x', h1', h2', -⟩ := Front.Expr.fine_ex _ (.name "value".toList) cTypeName (fun _ => none) (fun _ => none) false (fun _ _ _ => rfl) hf
  rw [h1] at h1'
  have := Option.some.inj h1'
  subst this
  rw [srcMethod_eq h h1, srcMethod_eq h h1]
  obtain ⟨⟨g, g1, g2⟩, ⟨k, k1, k2⟩⟩ := C47_cpp ty x (h5 rfl) f hf0 hfw
  exact ⟨⟨g, g1, _, h2', g2⟩, ⟨k, k1, _, h2, k2⟩⟩

/-- **C70 (C#).** -/
theorem C70_csharp (ty : Prim) {s : Str} {e : Front.Expr} (h : ReadsExpr s e) (hf : e.Fine { minus := true }) (val : Str)
    (hval : val = "value".toList ∨ ∃ f, f.all isWord = true ∧ val = "this.".toList ++ f) :
    ∃ g, srcMethod csTarget val ty s = some g ∧
      ∃ t, Kept (.name val) csTypeName (fun _ => none) false e t ∧ ∀ t', csLang.Reads g t' ↔ t' = t := by
  obtain ⟨x, h1, h2, -, -, h5, -⟩ := Front.Expr.fine_ex _ (.name val) csTypeName (fun _ => none) (fun _ => none) false (fun _ _ _ => rfl) hf
  rw [srcMethod_eq h h1]
  obtain ⟨g, g1, g2⟩ := C47_csharp ty x (h5 rfl) val hval
  exact ⟨g, g1, _, h2, g2⟩

/-- **C70 (Java).** -/
theorem C70_java (ty : Prim) {s : Str} {e : Front.Expr} (h : ReadsExpr s e) (hf : e.Fine { minus := true }) (val : Str)
    (hval : val = "value".toList ∨ ∃ f, f.all isWord = true ∧ val = "this.".toList ++ f) :
    ∃ g, srcMethod javaTarget val ty s = some g ∧
      ∃ t, Kept (.name val) javaTypeName (fun _ => none) true e t ∧ ∀ t', javaLang.Reads g t' ↔ t' = t := by
  obtain ⟨x, h1, h2, -, -, h5, -⟩ := Front.Expr.fine_ex _ (.name val) javaTypeName (fun _ => none) (fun _ => none) true (fun _ _ _ => rfl) hf
  rw [srcMethod_eq h h1]
  obtain ⟨g, g1, g2⟩ := C47_java ty x (h5 rfl) val hval
  exact ⟨g, g1, _, h2, g2⟩

/-- **C70 (JavaScript, CommonJS).** -/
theorem C70_js (ty : Prim) {s : Str} {e : Front.Expr} (h : ReadsExpr s e) (hf : e.Fine { minus := true, power := true }) (val : Str)
    (hval : val = "value".toList ∨ ∃ f, f.all isWord = true ∧ val = "this.".toList ++ f) :
    ∃ g, srcMethod jsTarget val ty s = some g ∧
      ∃ t, Kept (.name val) jsTypeName (fun _ => none) true e t ∧ ∀ t', jsLang.Reads g t' ↔ t' = t := by
  obtain ⟨x, h1, h2, -, -, -, h6, -⟩ := Front.Expr.fine_ex _ (.name val) jsTypeName (fun _ => none) (fun _ => none) true (fun _ _ _ => rfl) hf
  rw [srcMethod_eq h h1]
  obtain ⟨g, g1, g2⟩ := C47_js ty x (h6 rfl rfl) val hval
  exact ⟨g, g1, _, h2, g2⟩

/-- **C70 (Python).** -/
theorem C70_python (ty : Prim) {s : Str} {e : Front.Expr} (h : ReadsExpr s e) (hf : e.Fine { bang := true, power := true }) (val : Str)
    (hval : val = "value".toList ∨ ∃ f, f.all isWord = true ∧ val = "self._".toList ++ f) :
    ∃ g, srcMethod pyTarget val ty s = some g ∧
      ∃ t, Kept (.name val) pyTypeName (fun _ => none) false e t ∧ ∀ t', pyLang.Reads g t' ↔ t' = t := by
  obtain ⟨x, h1, h2, -, -, -, -, h7⟩ := Front.Expr.fine_ex _ (.name val) pyTypeName (fun _ => none) (fun _ => none) false (fun _ _ _ => rfl) hf
  rw [srcMethod_eq h h1]
  obtain ⟨g, g1, g2⟩ := C47_python ty x (h7 rfl rfl) val hval
  exact ⟨g, g1, _, h2, g2⟩

/-! ### Floats -/

/-- A number has one nearest float64. -/
theorem nearest64_unique {x y z : Rat} (hy : Nearest64 x y) (hz : Nearest64 x z) : y = z := by
  refine Classical.byContradiction fun hne => ?_
  obtain ⟨a1, a2⟩ := hy.2 z hz.1
  obtain ⟨b1, b2⟩ := hz.2 y hy.1
  have heq := Rat.le_antisymm a1 b1
  obtain ⟨k, hk⟩ := a2 heq (fun h => hne h.symm)
  obtain ⟨l, hl⟩ := b2 heq.symm hne
  have h1 : ((2 * k + 2 * l + 1 : Int) : Rat) * (z - y) = 0 := by
    simp only [Rat.intCast_add, Rat.intCast_mul, Rat.intCast_ofNat]
    grind
  rcases Rat.mul_eq_zero.mp h1 with h | h
  · have := Rat.intCast_eq_zero_iff.mp h
    omega
  · exact hne (by grind)

/-- A number has one nearest millionth. -/
theorem nearestMillionth_eq {y : Rat} (h0 : 0 ≤ y) {ip fp : Str} (h : NearestMillionth y ip fp) :
    decimal ip fp = decimal (fmtF y).1 (fmtF y).2 := by
  obtain ⟨-, -, -, h4, h5⟩ := h
  have hd : decimal ip fp = (((Front.positional 10 (ip ++ fp) : Nat) : Int) : Rat) / 1000000 := by
    unfold decimal
    rw [h4, show (10 : Rat) ^ 6 = 1000000 from by decide +kernel]; rfl
  have hm : (0 : Rat) < 1000000 := by decide +kernel
  rw [Front.fmtF_decimal h0]
  obtain ⟨n1, n2⟩ := Front.halfEven_near (y * 1000000) ((Front.positional 10 (ip ++ fp) : Nat) : Int)
  obtain ⟨c1, c2⟩ := h5 (halfEven (y * 1000000))
  have e : ∀ k : Int, Front.dist (y * 1000000) (k : Rat) = Front.dist y ((k : Rat) / 1000000) * 1000000 := by
    intro k
    rw [← Front.dist_mul _ _ hm, Rat.div_mul_cancel (by decide +kernel)]
  rw [e, e, ← hd] at n1 n2
  have n1 := Rat.le_of_mul_le_mul_right n1 hm
  have heq := Rat.le_antisymm n1 c1
  refine Classical.byContradiction fun hne => ?_
  have c3 := c2 heq.symm (fun h => hne h.symm)
  have n3 := n2 (by rw [heq]) (fun h => hne (by rw [hd, h]))
  omega

/-- **C70, floats.** The constant in the generated code differs from the written one by at most half a millionth and one part in 2⁵³. -/
theorem C70_float_close {t ip fp : Str} {x y : Rat} (hx : FloatValue t x) (hlim : x < 2 ^ 1024 - 2 ^ 970) (hy : Nearest64 x y)
    (hp : NearestMillionth y ip fp) : Front.dist x (decimal ip fp) ≤ 1 / 2000000 + x / 2 ^ 53 := by
  have h0 := Front.floatValue_nonneg hx
  rw [← Front.limit_cast] at hlim
  have hn := Front.float64_nearest h0 hlim
  have := nearest64_unique hy hn
  subst this
  have hy0 : 0 ≤ float64 x := by
    obtain ⟨m, e, -, -, -, h⟩ := hn.1
    rw [h]; exact Rat.mul_nonneg Rat.natCast_nonneg (Rat.le_of_lt Front.two_pos)
  rw [nearestMillionth_eq hy0 hp]
  exact Front.printed_close h0

/-- **C70, floats.** A written constant with at most six decimals is kept if it is below 2³² or a float64 (as are the integers below 2⁵³). -/
theorem C70_float_exact {t ip fp : Str} {x y : Rat} (hx : FloatValue t x) (hlim : x < 2 ^ 1024 - 2 ^ 970) (hy : Nearest64 x y)
    (hp : NearestMillionth y ip fp) (k : Nat) (hk : x = (k : Rat) / 1000000) (hs : x < 2 ^ 32 ∨ IsFloat64 x) : decimal ip fp = x := by
  have h0 := Front.floatValue_nonneg hx
  rw [← Front.limit_cast] at hlim
  have hn := Front.float64_nearest h0 hlim
  have := nearest64_unique hy hn
  subst this
  have hy0 : 0 ≤ float64 x := by
    obtain ⟨m, e, -, -, -, h⟩ := hn.1
    rw [h]; exact Rat.mul_nonneg Rat.natCast_nonneg (Rat.le_of_lt Front.two_pos)
  rw [nearestMillionth_eq hy0 hp]
  rcases hs with hs | hs
  · exact Front.printed_exact k hk hs
  · rw [Front.float64_fixed hs h0 hlim]
    exact Front.fmtF_exact k hk

theorem C70_integers (n : Nat) (h : n < 2 ^ 53) : IsFloat64 (n : Rat) := ⟨n, 0, h, by decide, by decide, by simp⟩

/-! ### Cases -/

/-- Small constants become zero. -/
theorem C70_float_counterexample : srcMethod cTarget "value".toList .f64 "value * 1e-7".toList = some "(value * 0.000000)".toList := by decide +kernel

/-- `value*9/5 + 32.5 > 0x64 ? (uint8)(value<<2) : (uint8)-value`, where the casts bind less tightly than `-`. -/
example : srcMethod goTarget "value".toList .u8 "value*9/5 + 32.5 > 0x64 ? (uint8)(value<<2) : (uint8)-value".toList =
    some "func() uint8 { if ((((value * 9) / 5) + 32.500000) > 0x64) { return uint8((value << 2)) } else { return uint8((-value)) } }()".toList := by
  decide +kernel

/-- The hypotheses are met. -/
example : ∃ e, ReadsExpr "-value * 0x1F + 2.5 ** !(value == -3)".toList e ∧ e.Fine { minus := true, power := true, bang := true } := by
  refine ⟨.binary .ADD (.binary .MUL (.unary .SUB .value) (.const (.int none "0x1F".toList)))
    (.binary .POW (.const (.float none "2.5".toList)) (.unary .NOT (.parens (.binary .EQ .value (.const (.int (some true) "3".toList)))))), ?_, ?_⟩
  · exact (Front.readExpr_iff _ _).1 (by decide +kernel)
  · have i31 : Front.IntMeans "0x1F".toList 31 :=
      .inr (.inr ⟨'x', "1F".toList, by decide +kernel, .inl rfl, by decide +kernel, of_all (by decide +kernel), by decide +kernel⟩)
    have i3 : Front.IntMeans "3".toList 3 := .inl ⟨'3', [], by decide +kernel, by decide, (fun _ h => nomatch h), by decide +kernel⟩
    have f25 : FloatValue "2.5".toList (5 / 2) := ⟨25, 0, 1,
      ⟨"2".toList, "5".toList, [], 0, of_all (by decide +kernel), of_all (by decide +kernel), .inl (by decide +kernel), .inl ⟨rfl, rfl, rfl⟩,
        .inl (by decide +kernel), by decide +kernel, by decide +kernel⟩, by decide, by decide, by decide +kernel⟩
    refine ⟨⟨⟨trivial, (fun _ _ h => h), (fun _ h => nomatch h)⟩, ⟨31, i31, by decide, (fun h => nomatch h)⟩, (fun _ h => nomatch h)⟩,
      ⟨⟨5 / 2, f25, ?_⟩, ⟨⟨trivial, ⟨3, i3, by decide, (fun _ => .inr ?_)⟩, (fun _ h => nomatch h)⟩, (fun _ h => nomatch h),
        (fun _ _ => .inl trivial)⟩, (fun _ _ h => nomatch h)⟩, (fun _ h => nomatch h)⟩
    · set_option exponentiation.threshold 2000 in decide +kernel
    · rintro ⟨x, cs, h, -⟩
      exact absurd h (by rw [show "3".toList = ['3'] from by decide +kernel]; simp)

end Bubbler
