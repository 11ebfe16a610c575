import Verif.Front.LitSpec

namespace Bubbler.Front

/-! ### Strings -/

theorem simpleEsc_iff (e : Char) (n : Nat) : simpleEsc e = some n ↔ (e, n) ∈ letterEscapes ∧ e ≠ '"' := by
  constructor
  · intro h
    unfold simpleEsc at h
    split at h <;> simp only [Option.some.injEq, reduceCtorEq] at h <;> subst h <;> exact ⟨by decide, by decide⟩
  · rintro ⟨h1, h2⟩
    simp only [letterEscapes, List.mem_cons, Prod.mk.injEq, List.not_mem_nil, or_false] at h1
    rcases h1 with ⟨rfl, rfl⟩ | ⟨rfl, rfl⟩ | ⟨rfl, rfl⟩ | ⟨rfl, rfl⟩ | ⟨rfl, rfl⟩ | ⟨rfl, rfl⟩ | ⟨rfl, rfl⟩ | ⟨rfl, rfl⟩ |
      ⟨rfl, rfl⟩ <;> first | rfl | exact absurd rfl h2

theorem simpleEsc_oct {e : Char} (h : isOct e = true) : simpleEsc e = none := by
  unfold simpleEsc
  split <;> first | rfl | exact absurd h (by decide)

theorem isOct_ne {e : Char} (h : isOct e = true) : e ≠ 'x' ∧ e ≠ '\'' ∧ e ≠ '"' := by
  refine ⟨?_, ?_, ?_⟩ <;> (rintro rfl; exact absurd h (by decide))

/-- One character or escape. -/
theorem unquoteChar_means {s r b : Str} (h : unquoteChar '"' s = some (b, r)) (hn : s.head? ≠ some '\n') :
    ∃ p, s = p ++ r ∧ p ≠ [] ∧ ∀ r' v, Means r' v → Means (p ++ r') (b ++ v) := by
  cases s with
  | nil => simp [unquoteChar] at h
  | cons c s =>
    unfold unquoteChar at h
    simp only at h
    split at h
    · cases h
    · rename_i hq
      split at h
      · rename_i hb
        simp only [Option.some.injEq, Prod.mk.injEq] at h
        obtain ⟨rfl, rfl⟩ := h
        exact ⟨[c], rfl, by simp, fun r' v hv => .plain hq hb (fun e => hn (by rw [e]; rfl)) hv⟩
      · rename_i hb
        have hb : c = '\\' := Decidable.of_not_not hb
        subst hb
        split at h
        · cases h
        · rename_i e s'
          split at h
          · rename_i n he
            simp only [Option.some.injEq, Prod.mk.injEq] at h
            obtain ⟨rfl, rfl⟩ := h
            exact ⟨['\\', e], rfl, by simp, fun r' v hv => .letter ((simpleEsc_iff e n).mp he).1 hv⟩
          · split at h
            · rename_i hx
              subst hx
              split at h
              · rename_i a b' r'
                split at h
                · rename_i hh
                  simp only [Option.some.injEq, Prod.mk.injEq] at h
                  obtain ⟨rfl, rfl⟩ := h
                  simp only [Bool.and_eq_true] at hh
                  refine ⟨['\\', 'x', a, b'], rfl, by simp, fun r' v hv => ?_⟩
                  have := Means.hex hh.1 hh.2 hv
                  rw [Nat.mul_comm 16] at this
                  exact this
                · cases h
              · cases h
            · split at h
              · rename_i ho
                split at h
                · rename_i a b' r'
                  split at h
                  · rename_i hh
                    simp only [Bool.and_eq_true] at hh
                    split at h
                    · rename_i hle
                      simp only [Option.some.injEq, Prod.mk.injEq] at h
                      obtain ⟨rfl, rfl⟩ := h
                      refine ⟨['\\', e, a, b'], rfl, by simp, fun r' v hv => ?_⟩
                      have := Means.oct ho hh.1 hh.2 (by omega) hv
                      rw [Nat.mul_comm 64, Nat.mul_comm 8] at this
                      exact this
                    · cases h
                  · cases h
                · cases h
              · split at h
                · split at h
                  · rename_i hq
                    subst hq
                    simp only [Option.some.injEq, Prod.mk.injEq] at h
                    obtain ⟨rfl, rfl⟩ := h
                    exact ⟨['\\', '"'], rfl, by simp, fun r' v hv => .letter (e := '"') (n := 34) (by decide) hv⟩
                  · cases h
                · cases h

theorem unquoteLoop_means : ∀ n s v, unquoteLoop '"' n s = some v → ∃ b, s = b ++ ['"'] ∧ Means b v
  | 0, _, _, h => by simp [unquoteLoop] at h
  | n + 1, [], _, h => by simp [unquoteLoop] at h
  | n + 1, c :: s, v, h => by
    rw [unquoteLoop] at h
    split at h
    · rename_i hc
      split at h
      · rename_i hs
        simp only [Option.some.injEq] at h
        subst h; subst hs; subst hc
        exact ⟨[], rfl, .nil⟩
      · cases h
    · rename_i hc
      split at h
      · cases h
      · rename_i hn
        split at h
        · cases h
        · rename_i b r hu
          split at h
          · cases h
          · rename_i v' hl
            simp only [Option.some.injEq] at h
            subst h
            obtain ⟨b', rfl, hm⟩ := unquoteLoop_means n _ _ hl
            obtain ⟨p, hp, -, hs⟩ := unquoteChar_means hu (by simpa using hn)
            exact ⟨p ++ b', by rw [hp, List.append_assoc], hs _ _ hm⟩

theorem unquoteLoop_of {b v : Str} (h : Means b v) : ∀ n, b.length < n → unquoteLoop '"' n (b ++ ['"']) = some v := by
  induction h with
  | nil =>
    intro n hn
    obtain ⟨k, rfl⟩ : ∃ k, n = k + 1 := ⟨n - 1, by simp at hn; omega⟩
    rfl
  | @plain c s v h1 h2 h3 hm ih =>
    intro n hn
    obtain ⟨k, rfl⟩ : ∃ k, n = k + 1 := ⟨n - 1, by simp at hn; omega⟩
    simp only [List.cons_append, unquoteLoop, if_neg h1, if_neg h3, unquoteChar, if_pos h2,
      ih k (by simp at hn; omega)]
  | @letter e m s v h1 hm ih =>
    intro n hn
    obtain ⟨k, rfl⟩ : ∃ k, n = k + 1 := ⟨n - 1, by simp at hn; omega⟩
    have hi := ih k (by simp at hn; omega)
    have hu : unquoteChar '"' ('\\' :: e :: (s ++ ['"'])) = some ([byteChar m], s ++ ['"']) := by
      simp only [letterEscapes, List.mem_cons, Prod.mk.injEq, List.not_mem_nil, or_false] at h1
      rcases h1 with ⟨rfl, rfl⟩ | ⟨rfl, rfl⟩ | ⟨rfl, rfl⟩ | ⟨rfl, rfl⟩ | ⟨rfl, rfl⟩ | ⟨rfl, rfl⟩ | ⟨rfl, rfl⟩ | ⟨rfl, rfl⟩ |
        ⟨rfl, rfl⟩ <;> rfl
    simp only [List.cons_append, unquoteLoop, if_neg (show ¬ '\\' = '"' by decide),
      if_neg (show ¬ '\\' = '\n' by decide), hu, hi]
    rfl
  | @hex a b s v h1 h2 hm ih =>
    intro n hn
    obtain ⟨k, rfl⟩ : ∃ k, n = k + 1 := ⟨n - 1, by simp at hn; omega⟩
    have hi := ih k (by simp at hn; omega)
    have hu : unquoteChar '"' ('\\' :: 'x' :: a :: b :: (s ++ ['"'])) =
        some ([byteChar (16 * hexVal a + hexVal b)], s ++ ['"']) := by
      rw [Nat.mul_comm 16]
      simp [unquoteChar, simpleEsc, h1, h2]
    simp only [List.cons_append, unquoteLoop, if_neg (show ¬ '\\' = '"' by decide),
      if_neg (show ¬ '\\' = '\n' by decide), hu, hi]
    rfl
  | @oct a b c s v h1 h2 h3 h4 hm ih =>
    intro n hn
    obtain ⟨k, rfl⟩ : ∃ k, n = k + 1 := ⟨n - 1, by simp at hn; omega⟩
    have hi := ih k (by simp at hn; omega)
    have hu : unquoteChar '"' ('\\' :: a :: b :: c :: (s ++ ['"'])) =
        some ([byteChar (64 * hexVal a + 8 * hexVal b + hexVal c)], s ++ ['"']) := by
      rw [Nat.mul_comm 64, Nat.mul_comm 8]
      have hle : hexVal a * 64 + hexVal b * 8 + hexVal c ≤ 255 := by omega
      simp [unquoteChar, simpleEsc_oct h1, h1, h2, h3, (isOct_ne h1).1, hle]
    simp only [List.cons_append, unquoteLoop, if_neg (show ¬ '\\' = '"' by decide),
      if_neg (show ¬ '\\' = '\n' by decide), hu, hi]
    rfl

theorem unquote_dq (b v : Str) : unquote ('"' :: (b ++ ['"'])) = some v ↔ Means b v := by
  change unquoteLoop '"' _ (b ++ ['"']) = some v ↔ _
  constructor
  · intro h
    obtain ⟨b', hb, hm⟩ := unquoteLoop_means _ _ _ h
    rw [List.append_left_inj] at hb
    exact hb ▸ hm
  · intro h
    exact unquoteLoop_of h _ (by simp)

/-- `VisitStrLit` on a string of the lexer. -/
theorem visitStr_iff {q : Char} (hq : q = '\'' ∨ q = '"') (b v : Str) :
    visitStr (q :: (b ++ [q])) = some v ↔ Means b v := by
  rw [← unquote_dq]
  unfold visitStr
  rcases hq with rfl | rfl
  · have h1 : ('\'' :: (b ++ ['\''])).getLast? = some '\'' := by rw [← List.cons_append, List.getLast?_append]; rfl
    have h2 : (('\'' :: (b ++ ['\''])).drop 1).dropLast = b := by rw [List.drop_one, List.tail_cons, List.dropLast_concat]
    rw [if_pos ⟨rfl, h1⟩, h2]
  · rw [if_neg (by rintro ⟨h, -⟩; simp at h)]

/-! ### Integers -/

theorem readFrom_positional (b : Nat) : ∀ (cs : Str) (acc : Nat), (∀ c ∈ cs, ∃ d, Num.digitVal c = some d ∧ d < b) →
    Num.readFrom b acc cs = some (acc * b ^ cs.length + positional b cs)
  | [], acc, _ => by simp [Num.readFrom, positional]
  | c :: cs, acc, h => by
    obtain ⟨d, hd, hlt⟩ := h c (List.mem_cons_self ..)
    have ih := readFrom_positional b cs (acc * b + d) fun x hx => h x (List.mem_cons_of_mem _ hx)
    rw [Num.readFrom, hd]
    simp only [if_pos hlt, ih, positional, hexVal, hd, Option.getD_some, List.length_cons, Nat.pow_succ]
    congr 1
    rw [Nat.add_mul, Nat.mul_assoc, Nat.mul_comm b (b ^ cs.length), Nat.add_assoc]

theorem digit_dec {c : Char} (h : isDec c = true) : ∃ d, Num.digitVal c = some d ∧ d < 10 := by
  simp only [isDec, Bool.and_eq_true, decide_eq_true_eq, Char.le_def, UInt32.le_iff_toNat_le] at h
  have h1 : 48 ≤ c.toNat := h.1
  have h2 : c.toNat ≤ 57 := h.2
  refine ⟨c.toNat - 48, ?_, by omega⟩
  simp only [Num.digitVal, if_pos (show 48 ≤ c.toNat ∧ c.toNat ≤ 57 from ⟨h1, h2⟩)]

theorem digit_oct {c : Char} (h : isOct c = true) : ∃ d, Num.digitVal c = some d ∧ d < 8 := by
  simp only [isOct, Bool.and_eq_true, decide_eq_true_eq, Char.le_def, UInt32.le_iff_toNat_le] at h
  have h1 : 48 ≤ c.toNat := h.1
  have h2 : c.toNat ≤ 55 := h.2
  refine ⟨c.toNat - 48, ?_, by omega⟩
  simp only [Num.digitVal, if_pos (show 48 ≤ c.toNat ∧ c.toNat ≤ 57 from ⟨h1, by omega⟩)]

theorem digit_hex {c : Char} (h : isHex c = true) : ∃ d, Num.digitVal c = some d ∧ d < 16 := by
  simp only [isHex, Bool.or_eq_true, Bool.and_eq_true, decide_eq_true_eq, Char.le_def, UInt32.le_iff_toNat_le] at h
  rcases h with (h | h) | h
  · have h1 : 48 ≤ c.toNat := h.1
    have h2 : c.toNat ≤ 57 := h.2
    refine ⟨c.toNat - 48, ?_, by omega⟩
    simp only [Num.digitVal, if_pos (show 48 ≤ c.toNat ∧ c.toNat ≤ 57 from ⟨h1, by omega⟩)]
  · have h1 : 65 ≤ c.toNat := h.1
    have h2 : c.toNat ≤ 70 := h.2
    refine ⟨c.toNat - 55, ?_, by omega⟩
    simp only [Num.digitVal, if_neg (show ¬ (48 ≤ c.toNat ∧ c.toNat ≤ 57) by omega),
      if_pos (show 65 ≤ c.toNat ∧ c.toNat ≤ 90 from ⟨h1, by omega⟩)]
  · have h1 : 97 ≤ c.toNat := h.1
    have h2 : c.toNat ≤ 102 := h.2
    refine ⟨c.toNat - 87, ?_, by omega⟩
    simp only [Num.digitVal, if_neg (show ¬ (48 ≤ c.toNat ∧ c.toNat ≤ 57) by omega),
      if_neg (show ¬ (65 ≤ c.toNat ∧ c.toNat ≤ 90) by omega),
      if_pos (show 97 ≤ c.toNat ∧ c.toNat ≤ 122 from ⟨h1, by omega⟩)]

theorem isDec_of_range {c : Char} (h : '1' ≤ c ∧ c ≤ '9') : isDec c = true ∧ c ≠ '0' := by
  refine ⟨?_, ?_⟩
  · simp only [isDec, Bool.and_eq_true, decide_eq_true_eq]
    exact ⟨Char.le_trans (by decide) h.1, h.2⟩
  · rintro rfl; exact absurd h.1 (by decide)

theorem isOct_ne_x {c : Char} (h : isOct c = true) :
    ¬ (c = 'x' ∨ c = 'X') ∧ ¬ (c = 'b' ∨ c = 'B') ∧ ¬ (c = 'o' ∨ c = 'O') := by
  refine ⟨?_, ?_, ?_⟩ <;> (rintro (rfl | rfl) <;> exact absurd h (by decide))

/-- `strconv.ParseInt(_, 0, 64)` on a literal of the lexer: the value in its base. -/
theorem parseNat_means {s : Str} {n : Nat} (h : IntMeans s n) : Num.parseNat s = some n := by
  rcases h with ⟨c, cs, rfl, hc, hcs, rfl⟩ | ⟨cs, rfl, hcs, rfl⟩ | ⟨x, cs, rfl, hx, hne, hcs, rfl⟩
  · have h0 := (isDec_of_range hc).2
    unfold Num.parseNat
    split
    · rename_i he; exact absurd (List.cons.inj he).1 h0
    · rename_i he; exact absurd (List.cons.inj he).1 h0
    · rename_i he; cases he
    · rw [readFrom_positional 10 _ 0 (fun x hx => ?_)]
      · simp
      · rcases List.mem_cons.mp hx with rfl | hx
        · exact digit_dec (isDec_of_range hc).1
        · exact digit_dec (hcs x hx)
  · match cs, hcs with
    | [], _ => rfl
    | [c], hcs =>
      change Num.readFrom 8 0 [c] = _
      rw [readFrom_positional 8 _ 0 (fun x hx => digit_oct (hcs x hx))]
      simp
    | c :: d :: cs, hcs =>
      obtain ⟨h1, h2, h3⟩ := isOct_ne_x (hcs c (by simp))
      simp only [Num.parseNat, if_neg h1, if_neg h2, if_neg h3]
      rw [readFrom_positional 8 _ 0 (fun x hx => digit_oct (hcs x hx))]
      simp
  · cases cs with
    | nil => exact absurd rfl hne
    | cons d cs =>
      simp only [Num.parseNat, if_pos hx]
      rw [readFrom_positional 16 _ 0 (fun x hx => digit_hex (hcs x hx))]
      simp

/-- Every integer of the lexer has a value. -/
theorem intMeans_of {s : Str} (h : IsInt s) : ∃ n, IntMeans s n := by
  rcases h with ⟨c, cs, h1, h2, h3⟩ | ⟨cs, h1, h2⟩ | ⟨x, cs, h1, h2, h3, h4⟩
  · exact ⟨_, Or.inl ⟨c, cs, h1, h2, h3, rfl⟩⟩
  · exact ⟨_, Or.inr (Or.inl ⟨cs, h1, h2, rfl⟩)⟩
  · exact ⟨_, Or.inr (Or.inr ⟨x, cs, h1, h2, h3, h4, rfl⟩)⟩

/-! ### Floats -/

theorem decVal_from : ∀ (cs : Str) (acc : Nat), cs.foldl (fun n c => n * 10 + hexVal c) acc =
    acc * 10 ^ cs.length + positional 10 cs
  | [], acc => by simp [positional]
  | c :: cs, acc => by
    rw [List.foldl_cons, decVal_from cs, positional, List.length_cons, Nat.pow_succ, Nat.add_mul, Nat.mul_assoc,
      Nat.mul_comm 10 (10 ^ cs.length), Nat.add_assoc]

theorem decVal_eq (cs : Str) : decVal cs = positional 10 cs := by
  rw [decVal, decVal_from]; simp

/-- The bound on the exponent is not reached by numbers below 100000. -/
theorem expVal_from : ∀ (cs : Str) (acc : Nat), acc * 10 ^ cs.length + positional 10 cs < 100000 →
    cs.foldl (fun e c => if e < 10000 then e * 10 + hexVal c else e) acc = acc * 10 ^ cs.length + positional 10 cs
  | [], acc, _ => by simp [positional]
  | c :: cs, acc, h => by
    have e : acc * 10 ^ (c :: cs).length + positional 10 (c :: cs) =
        (acc * 10 + hexVal c) * 10 ^ cs.length + positional 10 cs := by
      rw [positional, List.length_cons, Nat.pow_succ, Nat.add_mul, Nat.mul_assoc, Nat.mul_comm 10 (10 ^ cs.length),
        Nat.add_assoc]
    rw [e] at h ⊢
    have hp : 1 ≤ 10 ^ cs.length := Nat.one_le_pow _ _ (by decide)
    have hle : acc * 10 ≤ (acc * 10 + hexVal c) * 10 ^ cs.length + positional 10 cs :=
      calc acc * 10 ≤ acc * 10 + hexVal c := Nat.le_add_right ..
        _ ≤ (acc * 10 + hexVal c) * 10 ^ cs.length := Nat.le_mul_of_pos_right _ (by omega)
        _ ≤ _ := Nat.le_add_right ..
    rw [List.foldl_cons, if_pos (by omega)]
    exact expVal_from cs _ h

theorem expVal_eq {cs : Str} (h : positional 10 cs < 100000) : expVal cs = positional 10 cs := by
  rw [expVal, expVal_from cs 0 (by simpa using h)]; simp

theorem span_dec {ip r : Str} (h : AllC isDec ip) (hr : ∀ c, r.head? = some c → isDec c = false) :
    spanDec (ip ++ r) = (ip, r) := by
  rw [spanDec]
  congr 1
  · rw [List.takeWhile_append_of_pos h]
    cases r with
    | nil => simp
    | cons c r => simp [hr c rfl]
  · rw [List.dropWhile_append_of_pos h]
    cases r with
    | nil => simp
    | cons c r => simp [hr c rfl]

/-- What the exponent contributes. -/
def expOf : Str → Int
  | _ :: '-' :: ds => - (expVal ds : Int)
  | _ :: '+' :: ds => expVal ds
  | _ :: ds => expVal ds
  | [] => 0

theorem splitFloat_eq (s : Str) : splitFloat s =
    ((spanDec s).1, (match (spanDec s).2 with | '.' :: r => spanDec r | r => ([], r)).1,
      expOf (match (spanDec s).2 with | '.' :: r => spanDec r | r => ([], r)).2) := rfl

theorem expMeans_head {ex : Str} {up down : Nat} (h : ExpMeans ex up down) :
    ∀ c, ex.head? = some c → isDec c = false ∧ c ≠ '.' := by
  intro c hc
  rcases h with ⟨rfl, -⟩ | ⟨x, ds, hx, -, -, h⟩
  · cases hc
  · have : c = x := by
      rcases h with ⟨rfl, -⟩ | ⟨rfl, -⟩ | ⟨rfl, -⟩ <;> (simp only [List.head?_cons, Option.some.injEq] at hc; exact hc.symm)
    subst this
    rcases hx with rfl | rfl <;> decide

theorem expOf_means {ex : Str} {up down : Nat} (h : ExpMeans ex up down) (hu : up < 100000) (hd : down < 100000) :
    expOf ex = (up : Int) - down := by
  rcases h with ⟨rfl, rfl, rfl⟩ | ⟨x, ds, hx, hne, hds, h⟩
  · rfl
  · rcases h with ⟨rfl, rfl, rfl⟩ | ⟨rfl, rfl, rfl⟩ | ⟨rfl, rfl, rfl⟩
    · cases ds with
      | nil => exact absurd rfl hne
      | cons d ds =>
        have hd1 := hds d (List.mem_cons_self ..)
        have e : expOf (x :: d :: ds) = (expVal (d :: ds) : Int) := by
          unfold expOf
          split
          · rename_i he; rw [(List.cons.inj (List.cons.inj he).2).1] at hd1; exact absurd hd1 (by decide)
          · rename_i he; rw [(List.cons.inj (List.cons.inj he).2).1] at hd1; exact absurd hd1 (by decide)
          · rename_i he; rw [(List.cons.inj he).2]
          · rename_i he; cases he
        rw [e, expVal_eq hu]; simp
    · change (expVal ds : Int) = _
      rw [expVal_eq hu]; simp
    · change - (expVal ds : Int) = _
      rw [expVal_eq hd]; simp

theorem floatOk_core (m up d l L : Nat) :
    ((if 0 ≤ ((up : Int) - d) - l then decide (m * 10 ^ (((up : Int) - d) - l).toNat < L)
      else decide (m < L * 10 ^ (-(((up : Int) - d) - l)).toNat)) = true) ↔ m * 10 ^ up < L * 10 ^ (d + l) := by
  split
  · rename_i h
    have e : (((up : Int) - d) - l).toNat = up - (d + l) := by omega
    have hle : d + l ≤ up := by omega
    rw [decide_eq_true_eq, e]
    have : 10 ^ up = 10 ^ (up - (d + l)) * 10 ^ (d + l) := by rw [← Nat.pow_add]; congr 1; omega
    rw [this, ← Nat.mul_assoc]
    exact (Nat.mul_lt_mul_right (Nat.pow_pos (by decide))).symm
  · rename_i h
    have e : (-(((up : Int) - d) - l)).toNat = d + l - up := by omega
    rw [decide_eq_true_eq, e]
    have : 10 ^ (d + l) = 10 ^ (d + l - up) * 10 ^ up := by rw [← Nat.pow_add]; congr 1; omega
    rw [this, ← Nat.mul_assoc]
    exact (Nat.mul_lt_mul_right (Nat.pow_pos (by decide))).symm

theorem splitFloat_means {s : Str} {up : Nat} {ip fp ex : Str} {d : Nat} (hip : AllC isDec ip) (hfp : AllC isDec fp)
    (hex : ExpMeans ex up d) (hs : (s = ip ++ '.' :: (fp ++ ex)) ∨ (fp = [] ∧ s = ip ++ ex)) (hu : up < 100000) (hd : d < 100000) :
    splitFloat s = (ip, fp, (up : Int) - d) := by
  have hh := expMeans_head hex
  have hx := expOf_means hex hu hd
  rcases hs with rfl | ⟨rfl, rfl⟩
  · rw [splitFloat_eq, span_dec hip (fun c hc => by cases hc; decide)]
    simp only
    rw [span_dec hfp (fun c hc => (hh c hc).1), hx]
  · rw [splitFloat_eq, span_dec hip (fun c hc => (hh c hc).1)]
    simp only
    cases ex with
    | nil => rw [← hx]
    | cons c ex =>
      have h2 := (hh c rfl).2
      split
      · rename_i he; exact absurd (List.cons.inj he).1 h2
      · rw [← hx]

theorem float_not_word {s : Str} {m up down : Nat} (h : FloatMeans s m up down) : ¬ (s = "inf".toList ∨ s = "nan".toList) := by
  obtain ⟨ip, fp, ex, d, hip, hfp, hne, hex, hs, rfl, rfl⟩ := h
  have hfirst : ∀ c, s.head? = some c → isDec c = true ∨ c = '.' := by
    intro c hc
    cases ip with
    | cons a l =>
      have : c = a := by rcases hs with rfl | ⟨rfl, rfl⟩ <;> (cases hc; rfl)
      exact Or.inl (this ▸ hip a (List.mem_cons_self ..))
    | nil =>
      rcases hs with rfl | ⟨rfl, rfl⟩
      · cases hc; exact Or.inr rfl
      · exact absurd rfl (hne.resolve_left (fun h => h rfl))
  rintro (rfl | rfl)
  · exact absurd (hfirst 'i' rfl) (by decide)
  · exact absurd (hfirst 'n' rfl) (by decide)

/-- `strconv.ParseFloat` on a decimal literal of the lexer. -/
theorem floatOk_means {s : Str} {m up down : Nat} (h : FloatMeans s m up down) (hu : up < 100000)
    (hd : down < 100000) : floatOk s = true ↔ m * 10 ^ up < floatLimit * 10 ^ down := by
  have hnot := float_not_word h
  obtain ⟨ip, fp, ex, d, hip, hfp, hne, hex, hs, rfl, rfl⟩ := h
  unfold floatOk
  rw [if_neg hnot, splitFloat_means hip hfp hex hs hu (by omega)]
  simp only
  rw [decVal_eq]
  exact floatOk_core _ up d fp.length floatLimit

end Bubbler.Front
