import Verif.Util.OrderedMapProofs

/-
C34: the ordered map is an insertion-ordered dictionary.
Specification: `specStep`/`specRun` in Verif/Util/OrderedMap.lean, on plain lists of pairs.
-/
namespace Bubbler
open OM
variable {K V : Type} [DecidableEq K]

/-- **C34.** Starting from an empty map, any sequence of calls (with non-empty keys in the keyed calls)
returns exactly what the same calls return on a list of pairs in insertion order, and leaves the same
entries; no call panics. -/
theorem C34_ordered_map (dflt : K) (ops : List (Op K V)) (hk : ∀ o ∈ ops, o.keyOk dflt) :
    ((run (new dflt) ops).1.entries, (run (new dflt) ops).2) = specRun dflt [] ops :=
  (run_refines ops (inv_new dflt) hk).2.2

theorem specRun_no_panic (dflt : K) : ∀ (ops : List (Op K V)) (l : List (K × V)), Out.panic ∉ (specRun dflt l ops).2
  | [], _ => by simp [specRun]
  | o :: os, l => by
    simp only [specRun, List.mem_cons, not_or]
    refine ⟨?_, specRun_no_panic dflt os _⟩
    cases o <;> simp only [specStep] <;> (try split) <;> simp

/-- **C34.** No call panics. -/
theorem C34_no_panic (dflt : K) (ops : List (Op K V)) (hk : ∀ o ∈ ops, o.keyOk dflt) :
    Out.panic ∉ (run (new dflt) ops).2 := by
  have h := C34_ordered_map dflt ops hk
  rw [show (run (new dflt) ops).2 = (specRun dflt [] ops).2 from congrArg Prod.snd h]
  exact specRun_no_panic dflt ops []

/-- **C34.** After any such sequence the non-empty keys are pairwise distinct. -/
theorem C34_unique_keys (dflt : K) (ops : List (Op K V)) (hk : ∀ o ∈ ops, o.keyOk dflt) (i j : Nat) (e f : K × V)
    (hi : (run (new dflt) ops).1.entries[i]? = some e) (hj : (run (new dflt) ops).1.entries[j]? = some f)
    (hij : i < j) (hd : e.1 ≠ dflt) : e.1 ≠ f.1 := by
  obtain ⟨hu, _, _⟩ := (run_refines ops (inv_new (V := V) dflt) hk).1
  rw [(run_refines ops (inv_new (V := V) dflt) hk).2.1] at hu
  rename_i h1 h2; clear h1 h2
  generalize (run (new dflt) ops).1.entries = l at *
  induction l generalizing i j with
  | nil => simp at hi
  | cons x xs ih =>
    obtain ⟨kx, vx⟩ := x
    cases j with
    | zero => omega
    | succ j =>
      rw [List.getElem?_cons_succ] at hj
      cases i with
      | zero =>
        rw [List.getElem?_cons_zero] at hi
        cases hi
        intro e
        exact hu.1 hd (List.mem_map.mpr ⟨f, List.mem_of_getElem? hj, e.symm⟩)
      | succ i =>
        rw [List.getElem?_cons_succ] at hi
        exact ih i j (by omega) hi hj hu.2

/-- **C34, Sub.** With bounds inside the map, `Sub` is the slice of the entries (negative bounds count
from the end), as a map that again behaves like a dictionary. -/
theorem C34_sub (dflt : K) (ops ops' : List (Op K V)) (hk : ∀ o ∈ ops, o.keyOk dflt) (hk' : ∀ o ∈ ops', o.keyOk dflt)
    (start stop : Int) (a b : Nat)
    (ha : (a : Int) = if start < 0 then (specRun dflt [] ops).1.length + start else start)
    (hb : (b : Int) = if stop < 0 then (specRun dflt [] ops).1.length + stop else stop)
    (hab : a ≤ b) (_hbl : b ≤ (specRun dflt [] ops).1.length) :
    ∃ s, sub (run (new dflt) ops).1 start stop = some s ∧
      s.entries = ((specRun dflt [] ops).1.take b).drop a ∧
      (s.dflt = dflt) ∧
      ((run s ops').1.entries, (run s ops').2) = specRun dflt (((specRun dflt [] ops).1.take b).drop a) ops' := by
  obtain ⟨hi, hd, he⟩ := run_refines ops (inv_new (V := V) dflt) hk
  have hd : (run (new dflt) ops).1.dflt = dflt := hd
  have he : (run (new dflt) ops).1.entries = (specRun dflt [] ops).1 := congrArg Prod.fst he
  obtain ⟨hu, _, _⟩ := hi
  rw [hd, he] at hu
  have hu2 := uniq_drop a (uniq_take b hu)
  obtain ⟨g1, g2, g3⟩ := subLoop_spec (dflt := dflt) (((specRun dflt [] ops).1.take b).drop a) (new dflt) rfl (inv_new dflt) (by simpa [new] using hu2)
  refine ⟨subLoop dflt (new dflt) (((specRun dflt [] ops).1.take b).drop a), ?_, by rw [g2]; simp [new], g3, ?_⟩
  · unfold sub
    simp only [he, hd]
    rw [← ha, ← hb]
    simp only [Int.toNat_natCast]
    rw [if_neg (by omega)]
  · have := (run_refines ops' g1 (by rw [g3]; exact hk')).2.2
    rw [g2, g3] at this
    simpa [new] using this

/-- **C34, Sub.** If the adjusted start lies after the adjusted end, `Sub` is nil. -/
theorem C34_sub_empty (m : OMap K V) (start stop : Int) (a b : Int)
    (ha : a = if start < 0 then m.entries.length + start else start)
    (hb : b = if stop < 0 then m.entries.length + stop else stop) (h : b < a) : sub m start stop = none := by
  unfold sub; simp only [← ha, ← hb]; rw [if_pos (by omega)]

/-! A run that meets the hypotheses: two keyed entries, an anonymous one, a removal, a query. -/
example : (run (new "" : OMap String Nat) [.put "a" 1, .putAnon 7, .put "b" 2, .put "a" 9, .remove "a", .rank "b", .get "b", .entries]).2
    = [.bool true, .unit, .bool true, .bool false, .unit, .int 1, .val (some 2), .list [("", 7), ("b", 2)]] := by
  rfl
example : ∀ o ∈ ([.put "a" 1, .putAnon 7, .put "b" 2, .put "a" 9, .remove "a", .rank "b", .get "b", .entries] : List (Op String Nat)),
    o.keyOk "" := by simp [Op.keyOk]
example : (sub (run (new "" : OMap String Nat) [.put "a" 1, .putAnon 7, .put "b" 2]).1 (-2) 3).map (·.entries)
    = some [("", 7), ("b", 2)] := by rfl

/-- The restriction to non-empty keys is needed: with the empty key, after a removal `Get` indexes out of
range and panics, where a dictionary would answer 2. -/
theorem C34_zero_key_counterexample :
    (run (new "" : OMap String Nat) [.put "a" 1, .put "" 2, .remove "a", .get ""]).2
      = [.bool true, .bool true, .unit, .panic] ∧
    (specRun "" [] ([.put "a" 1, .put "" 2, .remove "a", .get ""] : List (Op String Nat))).2
      = [.bool true, .bool true, .unit, .val (some 2)] := by
  exact ⟨rfl, rfl⟩

end Bubbler
