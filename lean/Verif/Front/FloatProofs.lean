import Verif.Front.Float
import Verif.Front.FloatSpec
import Verif.Front.LitProofs

/-
Rounding: `float64` and `fmtF` are right.
-/
namespace Bubbler.Front

theorem halfEven_cases (x : Rat) :
    (x.floor : Rat) ≤ x ∧ x < (x.floor : Rat) + 1 ∧
    ((halfEven x = x.floor ∧ 2 * (x - x.floor) ≤ 1 ∧ (2 * (x - x.floor) = 1 → x.floor % 2 = 0)) ∨
     (halfEven x = x.floor + 1 ∧ 1 ≤ 2 * (x - x.floor) ∧ (2 * (x - x.floor) = 1 → (x.floor + 1) % 2 = 0))) := by
  have h1 := Rat.floor_le x
  have h2 := Rat.lt_floor_add_one x
  have e : ((x.floor + 1 : Int) : Rat) = (x.floor : Rat) + 1 := by simp
  rw [e] at h2
  refine ⟨h1, h2, ?_⟩
  unfold halfEven
  split
  · rename_i h
    refine Or.inl ⟨rfl, ?_, ?_⟩
    · rcases h with h | h
      · exact Rat.le_of_lt h
      · rw [h.1]; exact Rat.le_refl
    · intro h'; rcases h with h | h
      · rw [h'] at h; exact absurd h (Rat.lt_irrefl)
      · exact h.2
  · rename_i h
    simp only [not_or, not_and] at h
    refine Or.inr ⟨rfl, Rat.not_lt.mp h.1, fun h' => ?_⟩
    have := h.2 h'
    omega

theorem dist_le {x y c : Rat} : dist x y ≤ c ↔ x - y ≤ c ∧ y - x ≤ c := by
  unfold dist
  split <;> constructor <;> intro h <;> (try constructor) <;> grind

theorem halfEven_half (x : Rat) : 2 * dist x (halfEven x : Rat) ≤ 1 := by
  obtain ⟨h1, h2, h⟩ := halfEven_cases x
  generalize hf : (x.floor : Rat) = f at *
  rcases h with ⟨h, h3, -⟩ | ⟨h, h3, -⟩
  · rw [h, hf]; unfold dist; split <;> grind
  · rw [h, Rat.intCast_add, hf]; unfold dist; split <;> grind

theorem halfEven_near (x : Rat) (j : Int) : dist x (halfEven x : Rat) ≤ dist x (j : Rat) ∧
    (dist x (halfEven x : Rat) = dist x (j : Rat) → j ≠ halfEven x → halfEven x % 2 = 0 ∧ (j = halfEven x + 1 ∨ j = halfEven x - 1)) := by
  obtain ⟨h1, h2, h⟩ := halfEven_cases x
  have hj : j ≤ x.floor - 1 ∨ j = x.floor ∨ j = x.floor + 1 ∨ x.floor + 2 ≤ j := by omega
  have c1 : j ≤ x.floor - 1 → (j : Rat) ≤ (x.floor : Rat) - 1 := fun h => by
    have := Rat.intCast_le_intCast.mpr h; simpa using this
  have c2 : x.floor + 2 ≤ j → (x.floor : Rat) + 2 ≤ (j : Rat) := fun h => by
    have := Rat.intCast_le_intCast.mpr h; simpa using this
  have c3 : ((x.floor + 1 : Int) : Rat) = (x.floor : Rat) + 1 := by simp
  have tie : ∀ (f y z : Rat), f ≤ x → x < f + 1 → (y = f ∧ z = f + 1 ∨ y = f + 1 ∧ z = f) → dist x y = dist x z → 2 * (x - f) = 1 := by
    intro f y z a b c d
    unfold dist at d
    rcases c with ⟨rfl, rfl⟩ | ⟨rfl, rfl⟩ <;> (split at d <;> split at d <;> grind)
  rcases h with ⟨h, h3, h4⟩ | ⟨h, h3, h4⟩ <;> rcases hj with hj | hj | hj | hj
  · have := c1 hj
    rw [h]
    generalize (x.floor : Rat) = f at *
    generalize (j : Rat) = g at *
    have lt : dist x f < dist x g := by unfold dist; split <;> split <;> grind
    exact ⟨Rat.le_of_lt lt, fun e => absurd (e ▸ lt) Rat.lt_irrefl⟩
  · rw [h, hj]; exact ⟨Rat.le_refl, fun _ h => absurd rfl h⟩
  · rw [h, hj]
    refine ⟨?_, fun e _ => ⟨h4 (tie _ _ _ h1 h2 (Or.inl ⟨rfl, c3⟩) e), by omega⟩⟩
    rw [c3]
    generalize (x.floor : Rat) = f at *
    unfold dist; split <;> split <;> grind
  · have := c2 hj
    rw [h]
    generalize (x.floor : Rat) = f at *
    generalize (j : Rat) = g at *
    have lt : dist x f < dist x g := by unfold dist; split <;> split <;> grind
    exact ⟨Rat.le_of_lt lt, fun e => absurd (e ▸ lt) Rat.lt_irrefl⟩
  · have := c1 hj
    rw [h, c3]
    generalize (x.floor : Rat) = f at *
    generalize (j : Rat) = g at *
    have lt : dist x (f + 1) < dist x g := by unfold dist; split <;> split <;> grind
    exact ⟨Rat.le_of_lt lt, fun e => absurd (e ▸ lt) Rat.lt_irrefl⟩
  · rw [h, hj]
    refine ⟨?_, fun e _ => ⟨h4 (tie _ _ _ h1 h2 (Or.inr ⟨c3, rfl⟩) e), by omega⟩⟩
    rw [c3]
    generalize (x.floor : Rat) = f at *
    unfold dist; split <;> split <;> grind
  · rw [h, hj]; exact ⟨Rat.le_refl, fun _ h => absurd rfl h⟩
  · have := c2 hj
    rw [h, c3]
    generalize (x.floor : Rat) = f at *
    generalize (j : Rat) = g at *
    have lt : dist x (f + 1) < dist x g := by unfold dist; split <;> split <;> grind
    exact ⟨Rat.le_of_lt lt, fun e => absurd (e ▸ lt) Rat.lt_irrefl⟩

/-! ### Powers of two -/

theorem two_ne : (2 : Rat) ≠ 0 := by decide
theorem two_pos {e : Int} : 0 < (2 : Rat) ^ e := Rat.zpow_pos (by decide)

theorem two_split {e f : Int} (h : e ≤ f) : (2 : Rat) ^ f = ((2 ^ (f - e).toNat : Nat) : Rat) * (2 : Rat) ^ e := by
  have : f = ((f - e).toNat : Int) + e := by omega
  rw [this, Rat.zpow_add two_ne, Rat.zpow_natCast]
  congr 1
  rw [show ((f - e).toNat : Int) + e - e = ((f - e).toNat : Int) from by omega, Int.toNat_natCast]
  simp

theorem two_mono {e f : Int} (h : e ≤ f) : (2 : Rat) ^ e ≤ (2 : Rat) ^ f := by
  rw [two_split h]
  have h1 : (1 : Rat) ≤ ((2 ^ (f - e).toNat : Nat) : Rat) := by
    have := Rat.natCast_le_natCast.mpr (Nat.one_le_two_pow (n := (f - e).toNat))
    simpa using this
  have := Rat.mul_le_mul_of_nonneg_right h1 (Rat.le_of_lt (two_pos (e := e)))
  simpa using this

theorem two_double (e : Int) : (2 : Rat) ^ (e + 1) = 2 * (2 : Rat) ^ e := by
  rw [Rat.zpow_add_one two_ne, Rat.mul_comm]

theorem two_shift (e : Int) (n : Nat) : (2 : Rat) ^ (e + n) = 2 ^ n * (2 : Rat) ^ e := by
  rw [Rat.zpow_add two_ne, Rat.zpow_natCast, Rat.mul_comm]

/-- A positive number between powers of two. -/
theorem rat_log {x : Rat} (hx : 0 < x) :
    (2 : Rat) ^ ((x.num.natAbs.log2 : Int) - x.den.log2 - 1) < x ∧ x < (2 : Rat) ^ ((x.num.natAbs.log2 : Int) - x.den.log2 + 1) := by
  have hn : 0 < x.num := by
    have := Rat.lt_iff 0 x
    rw [this] at hx
    simpa using hx
  have hnn : (x.num.natAbs : Int) = x.num := by omega
  have hd : x.den ≠ 0 := x.den_nz
  have hxe : x * (x.den : Rat) = (x.num.natAbs : Rat) := by
    have h := Rat.num_divInt_den x
    rw [Rat.divInt_eq_div] at h
    have h2 : (x.num : Rat) = (x.num.natAbs : Rat) := by
      have : ((x.num.natAbs : Int) : Rat) = (x.num : Rat) := by rw [hnn]
      rw [← this]; rfl
    rw [← h2]
    have h3 : ((x.den : Int) : Rat) = (x.den : Rat) := rfl
    have h4 : (x.den : Rat) ≠ 0 := by simpa using hd
    calc x * (x.den : Rat) = (x.num : Rat) / (x.den : Rat) * (x.den : Rat) := by rw [← h3, h]
      _ = x.num := Rat.div_mul_cancel h4
  have a1 := Nat.log2_self_le (n := x.num.natAbs) (by omega)
  have a2 := Nat.lt_log2_self (n := x.num.natAbs)
  have b1 := Nat.log2_self_le hd
  have b2 := Nat.lt_log2_self (n := x.den)
  generalize x.num.natAbs.log2 = a at *
  generalize x.den.log2 = b at *
  generalize x.num.natAbs = n at *
  generalize x.den = d at *
  have a1' := Rat.natCast_le_natCast.mpr a1
  have a2' := Rat.natCast_lt_natCast.mpr a2
  have b1' := Rat.natCast_le_natCast.mpr b1
  have b2' := Rat.natCast_lt_natCast.mpr b2
  have pa : ((2 ^ a : Nat) : Rat) = (2 : Rat) ^ ((a : Int) - b - 1) * ((2 ^ (b + 1) : Nat) : Rat) := by
    rw [show ((2 ^ a : Nat) : Rat) = (2 : Rat) ^ (a : Int) from by simp [Rat.zpow_natCast],
      show ((2 ^ (b + 1) : Nat) : Rat) = (2 : Rat) ^ ((b + 1 : Nat) : Int) from by rw [Rat.zpow_natCast]; simp, ← Rat.zpow_add two_ne]
    congr 1; omega
  have pb : ((2 ^ (a + 1) : Nat) : Rat) = (2 : Rat) ^ ((a : Int) - b + 1) * ((2 ^ b : Nat) : Rat) := by
    rw [show ((2 ^ (a + 1) : Nat) : Rat) = (2 : Rat) ^ ((a + 1 : Nat) : Int) from by rw [Rat.zpow_natCast]; simp,
      show ((2 ^ b : Nat) : Rat) = (2 : Rat) ^ ((b : Nat) : Int) from by rw [Rat.zpow_natCast]; simp, ← Rat.zpow_add two_ne]
    congr 1; omega
  have dpos : (0 : Rat) < (d : Rat) := Rat.natCast_pos.mpr (by omega)
  have l1 : (2 : Rat) ^ ((a : Int) - b - 1) * (d : Rat) < x * (d : Rat) := by
    rw [hxe]
    have := Rat.mul_lt_mul_of_pos_left b2' (two_pos (e := (a : Int) - b - 1))
    rw [← pa] at this
    grind
  have l2 : x * (d : Rat) < (2 : Rat) ^ ((a : Int) - b + 1) * (d : Rat) := by
    rw [hxe]
    have := Rat.mul_le_mul_of_nonneg_left b1' (Rat.le_of_lt (two_pos (e := (a : Int) - b + 1)))
    rw [← pb] at this
    grind
  exact ⟨Rat.lt_of_mul_lt_mul_right l1 (Rat.le_of_lt dpos), Rat.lt_of_mul_lt_mul_right l2 (Rat.le_of_lt dpos)⟩

theorem floatExp_spec {x : Rat} (hpos : 0 < x) :
    -1074 ≤ floatExp x ∧ x < 2 ^ 53 * (2 : Rat) ^ floatExp x ∧ (floatExp x = -1074 ∨ 2 ^ 52 * (2 : Rat) ^ floatExp x ≤ x) := by
  have key : ∃ e : Int, floatExp x = max (-1074) e ∧ x < 2 ^ 53 * (2 : Rat) ^ e ∧ (e ≤ -1074 ∨ 2 ^ 52 * (2 : Rat) ^ e ≤ x) := by
    obtain ⟨l1, l2⟩ := rat_log hpos
    refine ⟨_, rfl, ?_⟩
    generalize (x.num.natAbs.log2 : Int) - (x.den.log2 : Int) = g at l1 l2 ⊢
    rw [show g - 1 = g - 53 + (52 : Nat) from by omega, two_shift] at l1
    rw [show g + 1 = g - 53 + (54 : Nat) from by omega, two_shift] at l2
    split
    · rename_i h; exact ⟨h, Or.inr (Rat.le_of_lt l1)⟩
    · rename_i h
      have h := Rat.not_lt.mp h
      rw [two_double]
      generalize (2 : Rat) ^ (g - 53) = u at *
      constructor
      · grind
      · right; grind
  obtain ⟨e, he, h1, h2⟩ := key
  rw [he]
  refine ⟨by omega, ?_, ?_⟩
  · have := two_mono (e := e) (f := max (-1074) e) (by omega)
    generalize (2 : Rat) ^ e = u at *
    generalize (2 : Rat) ^ (max (-1074) e) = v at *
    grind
  · rcases h2 with h2 | h2
    · left; omega
    · by_cases h : e ≤ -1074
      · left; omega
      · right; rw [show max (-1074) e = e from by omega]; exact h2

theorem dist_mul (a b : Rat) {u : Rat} (hu : 0 < u) : dist (a * u) (b * u) = dist a b * u := by
  unfold dist
  by_cases h : a ≤ b
  · rw [if_pos h, if_pos (Rat.mul_le_mul_of_nonneg_right h (Rat.le_of_lt hu))]; grind
  · have h' : ¬ a * u ≤ b * u := fun h' => h (Rat.le_of_mul_le_mul_right h' hu)
    rw [if_neg h, if_neg h']; grind

theorem dist_self (x : Rat) : dist x x = 0 := by unfold dist; split <;> grind
theorem dist_nonneg (x y : Rat) : 0 ≤ dist x y := by unfold dist; split <;> grind

theorem halfEven_nonneg {x : Rat} (h : 0 ≤ x) : 0 ≤ halfEven x := by
  have : (0 : Int) ≤ x.floor := Rat.le_floor_iff.mpr (by simpa using h)
  unfold halfEven; split <;> omega

theorem halfEven_le {x : Rat} {n : Int} (h : x < (n : Rat)) : halfEven x ≤ n := by
  have : x.floor < n := Rat.floor_lt_iff.mpr h
  unfold halfEven; split <;> omega

theorem halfEven_int (n : Int) : halfEven (n : Rat) = n := by
  unfold halfEven
  rw [Rat.floor_intCast, if_pos]
  left
  rw [Rat.sub_self]; decide +kernel

theorem float64_zero : float64 0 = 0 := by decide +kernel

set_option exponentiation.threshold 2000 in
theorem limit_eq : ((floatLimit : Nat) : Rat) = (2 ^ 53 - 1 / 2) * (2 : Rat) ^ (971 : Int) := by decide +kernel

set_option exponentiation.threshold 2000 in
theorem limit_lt : ((floatLimit : Nat) : Rat) < 2 ^ 52 * (2 : Rat) ^ (972 : Int) := by decide +kernel

theorem isFloat_zero : IsFloat64 0 := ⟨0, 0, by decide, by decide, by decide, by decide +kernel⟩

theorem float64_is {x : Rat} (hpos : 0 < x) (hlim : x < ((floatLimit : Nat) : Rat)) : IsFloat64 (float64 x) := by
  obtain ⟨e1, e2, e3⟩ := floatExp_spec hpos
  unfold float64
  generalize hee : floatExp x = e at *
  have hu := two_pos (e := e)
  have hx : x = x / (2 : Rat) ^ e * (2 : Rat) ^ e := (Rat.div_mul_cancel (by grind)).symm
  generalize ht : x / (2 : Rat) ^ e = t at *
  have hle : e ≤ 971 := by
    rcases e3 with h | h
    · omega
    · refine Int.not_lt.mp fun h' => ?_
      have := two_mono (e := 972) (f := e) (by omega)
      have l := limit_lt
      generalize (2 : Rat) ^ e = u at *
      generalize (2 : Rat) ^ (972 : Int) = v at *
      generalize ((floatLimit : Nat) : Rat) = L at *
      grind
  have t1 : t < ((2 ^ 53 : Int) : Rat) := by
    rw [show ((2 ^ 53 : Int) : Rat) = 2 ^ 53 from by decide +kernel]
    rw [hx] at e2
    exact Rat.lt_of_mul_lt_mul_right e2 (Rat.le_of_lt hu)
  have t0 : 0 ≤ t := by
    refine Rat.not_lt.mp fun h => ?_
    have := Rat.mul_lt_mul_of_pos_right h hu
    rw [← hx, Rat.zero_mul] at this
    grind
  have m0 := halfEven_nonneg t0
  have m1 := halfEven_le t1
  have mh := halfEven_half t
  generalize halfEven t = m at *
  by_cases hm : m < 2 ^ 53
  · refine ⟨m.toNat, e, by omega, e1, hle, ?_⟩
    rw [show ((m.toNat : Nat) : Rat) = (m : Rat) from by
      rw [← Rat.intCast_natCast, Int.toNat_of_nonneg m0]]
  · have hm' : m = 2 ^ 53 := by omega
    subst hm'
    refine ⟨2 ^ 52, e + 1, by decide, by omega, ?_, ?_⟩
    · refine Int.not_lt.mp fun h' => ?_
      have : e = 971 := by omega
      subst this
      rw [limit_eq, hx] at hlim
      have h3 := Rat.lt_of_mul_lt_mul_right hlim (Rat.le_of_lt hu)
      rw [show ((2 ^ 53 : Int) : Rat) = 2 ^ 53 from by decide +kernel] at mh
      unfold dist at mh
      clear e2 e3 hlim hx ht hee
      split at mh <;> grind
    · rw [two_double, show ((2 ^ 53 : Int) : Rat) = ((2 ^ 52 : Nat) : Rat) * 2 from by decide +kernel, Rat.mul_assoc]

/-- `strconv.ParseFloat` gives the nearest float64. -/
theorem float64_nearest {x : Rat} (h0 : 0 ≤ x) (hlim : x < ((floatLimit : Nat) : Rat)) : Nearest64 x (float64 x) := by
  by_cases hpos : 0 < x
  · refine ⟨float64_is hpos hlim, ?_⟩
    obtain ⟨e1, e2, e3⟩ := floatExp_spec hpos
    unfold float64
    generalize hee : floatExp x = e at *
    have hu := two_pos (e := e)
    have hx : x = x / (2 : Rat) ^ e * (2 : Rat) ^ e := (Rat.div_mul_cancel (by grind)).symm
    generalize ht : x / (2 : Rat) ^ e = t at *
    rintro z ⟨m', e', hm', he1, he2, rfl⟩
    by_cases hee' : e ≤ e'
    · have hz : (m' : Rat) * (2 : Rat) ^ e' = (((m' * 2 ^ (e' - e).toNat : Nat) : Int) : Rat) * (2 : Rat) ^ e := by
        rw [two_split hee', ← Rat.mul_assoc]; congr 1; simp; rfl
      rw [hz]
      generalize ((m' * 2 ^ (e' - e).toNat : Nat) : Int) = j at *
      obtain ⟨n1, n2⟩ := halfEven_near t j
      rw [hx, dist_mul _ _ hu, dist_mul _ _ hu]
      refine ⟨Rat.mul_le_mul_of_nonneg_right n1 (Rat.le_of_lt hu), fun heq hne => ?_⟩
      have h1 : dist t (halfEven t : Rat) = dist t (j : Rat) := by
        have a := congrArg (· / (2 : Rat) ^ e) heq
        simpa [Rat.mul_div_cancel (show (2 : Rat) ^ e ≠ 0 by grind)] using a
      obtain ⟨h2, h3⟩ := n2 h1 (fun h => hne (by rw [h]))
      generalize halfEven t = m at *
      have hm2 : (m : Rat) = 2 * ((m / 2 : Int) : Rat) := by
        have : m = 2 * (m / 2) := by omega
        have c := congrArg (fun (a : Int) => (a : Rat)) this
        simpa using c
      rcases h3 with h3 | h3
      · refine ⟨m / 2, ?_⟩
        rw [← hm2, h3]; simp; grind
      · refine ⟨-(m / 2), ?_⟩
        rw [h3]; simp; grind
    · have e3 := e3.resolve_left (by omega)
      have hlt : (m' : Rat) * (2 : Rat) ^ e' < 2 ^ 52 * (2 : Rat) ^ e := by
        have h1 : (m' : Rat) < 2 ^ 53 := by
          have := Rat.natCast_lt_natCast.mpr hm'
          rw [show ((2 ^ 53 : Nat) : Rat) = 2 ^ 53 from by decide +kernel] at this
          exact this
        have h2 := two_mono (e := e' + 1) (f := e) (by omega)
        rw [two_double] at h2
        have hu' := two_pos (e := e')
        have h4 := Rat.mul_lt_mul_of_pos_right h1 hu'
        generalize (2 : Rat) ^ e = u at *
        generalize (2 : Rat) ^ e' = u' at *
        generalize (m' : Rat) * u' = z at *
        grind
      have near := (halfEven_near t (2 ^ 52)).1
      have near' := Rat.mul_le_mul_of_nonneg_right near (Rat.le_of_lt hu)
      rw [← dist_mul _ _ hu, ← dist_mul _ _ hu, ← hx, show ((2 ^ 52 : Int) : Rat) = 2 ^ 52 from by decide +kernel] at near'
      generalize (m' : Rat) * (2 : Rat) ^ e' = z at *
      generalize (2 : Rat) ^ 52 * (2 : Rat) ^ e = w at *
      generalize (halfEven t : Rat) * (2 : Rat) ^ e = y at *
      have lt : dist x y < dist x z := by
        have : dist x w < dist x z := by unfold dist; split <;> split <;> grind
        grind
      exact ⟨Rat.le_of_lt lt, fun h => absurd (h ▸ lt) Rat.lt_irrefl⟩
  · have : x = 0 := by grind
    subst this
    rw [float64_zero]
    refine ⟨isFloat_zero, fun z _ => ⟨by rw [dist_self]; exact dist_nonneg _ _, fun h hne => ?_⟩⟩
    rw [dist_self] at h
    unfold dist at h
    split at h <;> grind

/-! ### `%f` -/

theorem hexVal_digitChar : ∀ d, d < 10 → hexVal (Num.digitChar d) = d ∧ isDec (Num.digitChar d) = true := by decide +kernel

theorem positional_append (b : Nat) : ∀ s t : Str, positional b (s ++ t) = positional b s * b ^ t.length + positional b t
  | [], t => by simp [positional]
  | c :: s, t => by
    rw [List.cons_append, positional, positional, positional_append b s t, List.length_append, Nat.pow_add, Nat.add_mul, Nat.mul_assoc, Nat.add_assoc]

theorem positional_digits (n : Nat) : positional 10 (Num.digits 10 n) = n := by
  induction n using Nat.strongRecOn with
  | ind n ih =>
    by_cases h : n < 10
    · rw [Num.digits_lt h]
      simp [positional, (hexVal_digitChar n h).1]
    · rw [Num.digits_ge (by decide) (by omega), positional_append, ih _ (by omega)]
      simp only [positional, (hexVal_digitChar _ (Nat.mod_lt n (by decide : 0 < 10))).1, List.length_cons, List.length_nil]
      omega

theorem digits_dec (n : Nat) : AllC isDec (Num.digits 10 n) := by
  intro c hc
  obtain ⟨d, hd, rfl⟩ := Num.digits_chars (by decide) (by decide) n c hc
  exact (hexVal_digitChar d hd).2

theorem six_digits {r : Nat} (h : r < 1000000) : (Num.digits 10 (1000000 + r)).drop 1 =
    [Num.digitChar (r / 100000), Num.digitChar (r / 10000 % 10), Num.digitChar (r / 1000 % 10), Num.digitChar (r / 100 % 10),
      Num.digitChar (r / 10 % 10), Num.digitChar (r % 10)] := by
  have e1 := Num.digits_ge (b := 10) (by decide) (show 10 ≤ 1000000 + r by omega)
  have e2 := Num.digits_ge (b := 10) (by decide) (show 10 ≤ (1000000 + r) / 10 by omega)
  have e3 := Num.digits_ge (b := 10) (by decide) (show 10 ≤ (1000000 + r) / 10 / 10 by omega)
  have e4 := Num.digits_ge (b := 10) (by decide) (show 10 ≤ (1000000 + r) / 10 / 10 / 10 by omega)
  have e5 := Num.digits_ge (b := 10) (by decide) (show 10 ≤ (1000000 + r) / 10 / 10 / 10 / 10 by omega)
  have e6 := Num.digits_ge (b := 10) (by decide) (show 10 ≤ (1000000 + r) / 10 / 10 / 10 / 10 / 10 by omega)
  have e7 := Num.digits_lt (b := 10) (show (1000000 + r) / 10 / 10 / 10 / 10 / 10 / 10 < 10 by omega)
  rw [e1, e2, e3, e4, e5, e6, e7]
  simp only [List.cons_append, List.nil_append, List.drop_succ_cons, List.drop_zero]
  rw [show (1000000 + r) / 10 / 10 / 10 / 10 / 10 % 10 = r / 100000 by omega, show (1000000 + r) / 10 / 10 / 10 / 10 % 10 = r / 10000 % 10 by omega,
    show (1000000 + r) / 10 / 10 / 10 % 10 = r / 1000 % 10 by omega, show (1000000 + r) / 10 / 10 % 10 = r / 100 % 10 by omega,
    show (1000000 + r) / 10 % 10 = r / 10 % 10 by omega, show (1000000 + r) % 10 = r % 10 by omega]

theorem six_spec {r : Nat} (h : r < 1000000) : ((Num.digits 10 (1000000 + r)).drop 1).length = 6 ∧
    AllC isDec ((Num.digits 10 (1000000 + r)).drop 1) ∧ positional 10 ((Num.digits 10 (1000000 + r)).drop 1) = r := by
  refine ⟨by rw [six_digits h]; rfl, fun c hc => digits_dec _ c (List.mem_of_mem_drop hc), ?_⟩
  rw [six_digits h]
  have d := fun n (h : n < 10) => (hexVal_digitChar n h).1
  simp only [positional, d (r / 100000) (by omega), d (r / 10000 % 10) (by omega), d (r / 1000 % 10) (by omega), d (r / 100 % 10) (by omega),
    d (r / 10 % 10) (by omega), d (r % 10) (by omega), List.length_cons, List.length_nil]
  omega

theorem fmtF_positional (x : Rat) : positional 10 ((fmtF x).1 ++ (fmtF x).2) = (halfEven (x * 1000000)).toNat := by
  unfold fmtF
  simp only
  generalize (halfEven (x * 1000000)).toNat = k
  obtain ⟨s1, -, s3⟩ := six_spec (r := k % 1000000) (by omega)
  rw [positional_append, positional_digits, s1, s3]
  omega

theorem fmtF_len (x : Rat) : (fmtF x).2.length = 6 := (six_spec (Nat.mod_lt _ (by decide))).1

theorem fmtF_decimal {x : Rat} (h : 0 ≤ x) : decimal (fmtF x).1 (fmtF x).2 = (halfEven (x * 1000000) : Rat) / 1000000 := by
  unfold decimal
  rw [fmtF_positional, fmtF_len, show (10 : Rat) ^ 6 = 1000000 from by decide +kernel]
  congr 1
  have := halfEven_nonneg (x := x * 1000000) (Rat.mul_nonneg h (by decide +kernel))
  rw [← Rat.intCast_natCast, Int.toNat_of_nonneg this]

/-- `%f` gives the nearest millionth. -/
theorem fmtF_nearest {x : Rat} (h : 0 ≤ x) : NearestMillionth x (fmtF x).1 (fmtF x).2 := by
  refine ⟨digits_dec _, (six_spec (Nat.mod_lt _ (by decide))).2.1, Num.digits_ne_nil, fmtF_len x, fun j => ?_⟩
  rw [fmtF_decimal h, fmtF_positional]
  have hm : (0 : Rat) < 1000000 := by decide +kernel
  obtain ⟨n1, n2⟩ := halfEven_near (x * 1000000) j
  have m0 := halfEven_nonneg (x := x * 1000000) (Rat.mul_nonneg h (by decide +kernel))
  generalize halfEven (x * 1000000) = m at *
  have e : ∀ k : Int, dist (x * 1000000) (k : Rat) = dist x ((k : Rat) / 1000000) * 1000000 := by
    intro k
    rw [← dist_mul _ _ hm, Rat.div_mul_cancel (by decide +kernel)]
  rw [e, e] at n1 n2
  refine ⟨Rat.le_of_mul_le_mul_right n1 hm, fun heq hne => ?_⟩
  have := (n2 (by rw [heq]) (fun h => hne (by rw [h]))).1
  omega

/-! ### Texts -/

theorem ten_ne : (10 : Rat) ≠ 0 := by decide

theorem floatNum_value {s : Str} {x : Rat} (h : FloatValue s x) : floatNum s = x := by
  obtain ⟨m, up, down, ⟨ip, fp, ex, d, hip, hfp, hne, hex, hs, rfl, rfl⟩, hu, hd, rfl⟩ := h
  unfold floatNum
  rw [splitFloat_means hip hfp hex hs hu (by omega)]
  simp only
  rw [decVal_eq, show (up : Int) - d - fp.length = (up : Int) + -((d + fp.length : Nat) : Int) from by omega, Rat.zpow_add ten_ne, Rat.zpow_neg,
    Rat.zpow_natCast, Rat.zpow_natCast, Rat.div_def, Rat.mul_assoc]

theorem floatValue_nonneg {s : Str} {x : Rat} (h : FloatValue s x) : 0 ≤ x := by
  obtain ⟨m, up, down, -, -, -, rfl⟩ := h
  have h10 : (0 : Rat) < 10 := by decide +kernel
  rw [Rat.div_def]
  exact Rat.mul_nonneg (Rat.mul_nonneg Rat.natCast_nonneg (Rat.pow_nonneg (Rat.le_of_lt h10))) (Rat.le_of_lt (Rat.inv_pos.mpr (Rat.pow_pos h10)))

theorem floatOk_value {s : Str} {x : Rat} (h : FloatValue s x) : (floatOk s = true ↔ x < ((floatLimit : Nat) : Rat)) ∧
    ¬ (s = "inf".toList ∨ s = "nan".toList) := by
  obtain ⟨m, up, down, hm, hu, hd, rfl⟩ := h
  refine ⟨?_, float_not_word hm⟩
  rw [floatOk_means hm hu hd]
  have h10 : (0 : Rat) < 10 := by decide +kernel
  rw [Rat.div_lt_iff (Rat.pow_pos h10), ← Rat.natCast_lt_natCast]
  simp only [Rat.natCast_mul, Rat.natCast_pow]
  rfl

/-! ### How near -/

theorem dist_triangle (x y z : Rat) : dist x z ≤ dist x y + dist y z := by
  unfold dist; split <;> split <;> split <;> grind

theorem tiny : (2 : Rat) ^ 53 * (2 : Rat) ^ (-1074 : Int) * 2000000 ≤ 1 / 2 := by decide +kernel

theorem float64_close {x : Rat} (hpos : 0 < x) :
    dist x (float64 x) * 2 ^ 53 ≤ x ∨ (x < 2 ^ 53 * (2 : Rat) ^ (-1074 : Int) ∧ float64 x ≤ 2 ^ 53 * (2 : Rat) ^ (-1074 : Int) ∧ 0 ≤ float64 x) := by
  obtain ⟨e1, e2, e3⟩ := floatExp_spec hpos
  unfold float64
  generalize floatExp x = e at *
  have hu := two_pos (e := e)
  have hx : x = x / (2 : Rat) ^ e * (2 : Rat) ^ e := (Rat.div_mul_cancel (by grind)).symm
  generalize ht : x / (2 : Rat) ^ e = t at *
  rcases e3 with rfl | e3
  · right
    refine ⟨e2, ?_, ?_⟩
    · have t1 : t < ((2 ^ 53 : Int) : Rat) := by
        rw [show ((2 ^ 53 : Int) : Rat) = 2 ^ 53 from by decide +kernel]
        rw [hx] at e2
        exact Rat.lt_of_mul_lt_mul_right e2 (Rat.le_of_lt hu)
      have := Rat.intCast_le_intCast.mpr (halfEven_le t1)
      rw [show ((2 ^ 53 : Int) : Rat) = 2 ^ 53 from by decide +kernel] at this
      exact Rat.mul_le_mul_of_nonneg_right this (Rat.le_of_lt hu)
    · have t0 : 0 ≤ t := by
        refine Rat.not_lt.mp fun h => ?_
        have := Rat.mul_lt_mul_of_pos_right h hu
        rw [← hx, Rat.zero_mul] at this
        grind
      have := Rat.intCast_le_intCast.mpr (halfEven_nonneg t0)
      exact Rat.mul_nonneg (by simpa using this) (Rat.le_of_lt hu)
  · left
    have hh := Rat.mul_le_mul_of_nonneg_right (halfEven_half t) (Rat.le_of_lt hu)
    rw [Rat.mul_assoc, ← dist_mul _ _ hu, ← hx] at hh
    generalize dist x ((halfEven t : Rat) * (2 : Rat) ^ e) = w at *
    generalize (2 : Rat) ^ e = u at *
    grind

/-- The printed number. -/
theorem printed_close {x : Rat} (h0 : 0 ≤ x) :
    dist x (decimal (fmtF (float64 x)).1 (fmtF (float64 x)).2) ≤ 1 / 2000000 + x / 2 ^ 53 := by
  have half : ∀ y : Rat, 0 ≤ y → dist y (decimal (fmtF y).1 (fmtF y).2) ≤ 1 / 2000000 := by
    intro y hy
    rw [fmtF_decimal hy]
    have h := halfEven_half (y * 1000000)
    have hm : (0 : Rat) < 1000000 := by decide +kernel
    have e : ∀ k : Int, dist (y * 1000000) (k : Rat) = dist y ((k : Rat) / 1000000) * 1000000 := by
      intro k
      rw [← dist_mul _ _ hm, Rat.div_mul_cancel (by decide +kernel)]
    rw [e] at h
    grind
  by_cases hpos : 0 < x
  · rcases float64_close hpos with h | ⟨h1, h2, h3⟩
    · have hy : 0 ≤ float64 x := by
        unfold float64
        have hu := two_pos (e := floatExp x)
        have t0 : 0 ≤ x / (2 : Rat) ^ floatExp x := by
          rw [Rat.div_def]; exact Rat.mul_nonneg h0 (Rat.le_of_lt (Rat.inv_pos.mpr hu))
        have := Rat.intCast_le_intCast.mpr (halfEven_nonneg t0)
        exact Rat.mul_nonneg (by simpa using this) (Rat.le_of_lt hu)
      have a := dist_triangle x (float64 x) (decimal (fmtF (float64 x)).1 (fmtF (float64 x)).2)
      have b := half _ hy
      have c : dist x (float64 x) ≤ x / 2 ^ 53 := by
        generalize dist x (float64 x) = w at *
        grind
      grind
    · have hz : halfEven (float64 x * 1000000) = 0 := by
        have t := tiny
        generalize (2 : Rat) ^ 53 * (2 : Rat) ^ (-1074 : Int) = w at *
        generalize float64 x = y at *
        have c1 : (0 : Int) ≤ (y * 1000000).floor := Rat.le_floor_iff.mpr (by
          show ((0 : Int) : Rat) ≤ y * 1000000
          rw [Rat.intCast_zero]; grind)
        have c2 : (y * 1000000).floor < 1 := Rat.floor_lt_iff.mpr (by
          show y * 1000000 < ((1 : Int) : Rat)
          rw [Rat.intCast_one]; grind)
        have c3 : (y * 1000000).floor = 0 := by omega
        unfold halfEven
        rw [c3, if_pos]
        left
        rw [Rat.intCast_zero]; grind
      rw [fmtF_decimal h3, hz]
      have t := tiny
      generalize (2 : Rat) ^ 53 * (2 : Rat) ^ (-1074 : Int) = w at *
      rw [Rat.intCast_zero]
      unfold dist
      split <;> grind
  · have : x = 0 := by grind
    subst this
    rw [float64_zero]; decide +kernel

/-- Multiples of a millionth below 2³² are printed exactly. -/
theorem printed_exact {x : Rat} (k : Nat) (hk : x = (k : Rat) / 1000000) (hlt : x < 2 ^ 32) :
    decimal (fmtF (float64 x)).1 (fmtF (float64 x)).2 = x := by
  have h0 : 0 ≤ x := by
    rw [hk, Rat.div_def]; exact Rat.mul_nonneg Rat.natCast_nonneg (by decide +kernel)
  have h := printed_close h0
  have hp : ∃ n : Nat, decimal (fmtF (float64 x)).1 (fmtF (float64 x)).2 = (n : Rat) / 1000000 := by
    unfold decimal
    rw [fmtF_len]
    exact ⟨_, by rw [show (10 : Rat) ^ 6 = 1000000 from by decide +kernel]⟩
  obtain ⟨n, hn⟩ := hp
  rw [hn] at h ⊢
  by_cases hnk : n = k
  · rw [hk, hnk]
  · exfalso
    have : n + 1 ≤ k ∨ k + 1 ≤ n := by omega
    have c : (n : Rat) + 1 ≤ k ∨ (k : Rat) + 1 ≤ n := by
      rcases this with h | h
      · left; have := Rat.natCast_le_natCast.mpr h; simpa using this
      · right; have := Rat.natCast_le_natCast.mpr h; simpa using this
    generalize (n : Rat) = N at *
    generalize (k : Rat) = K at *
    unfold dist at h
    rcases c with c | c <;> (split at h <;> grind)

/-- A number that is a float64 is parsed exactly. -/
theorem float64_fixed {x : Rat} (h : IsFloat64 x) (h0 : 0 ≤ x) (hlim : x < ((floatLimit : Nat) : Rat)) : float64 x = x := by
  have := ((float64_nearest h0 hlim).2 x h).1
  rw [dist_self] at this
  unfold dist at this
  split at this <;> grind

theorem fmtF_exact {y : Rat} (k : Nat) (hk : y = (k : Rat) / 1000000) : decimal (fmtF y).1 (fmtF y).2 = y := by
  have h0 : 0 ≤ y := by
    rw [hk, Rat.div_def]; exact Rat.mul_nonneg Rat.natCast_nonneg (by decide +kernel)
  rw [fmtF_decimal h0]
  have : y * 1000000 = ((k : Int) : Rat) := by
    rw [hk, Rat.div_mul_cancel (by decide +kernel)]; rfl
  rw [this, halfEven_int, hk]; rfl

end Bubbler.Front
