import Verif.Util.OrderedMap

set_option linter.unusedSimpArgs false
set_option linter.unusedSectionVars false
namespace Bubbler.OM
variable {K V : Type} [DecidableEq K]

/-- Keys other than the zero key are unique. -/
def Uniq (dflt : K) : List (K × V) → Prop
  | [] => True
  | (k, _) :: es => (k ≠ dflt → k ∉ es.map Prod.fst) ∧ Uniq dflt es

/-- The index holds the positions of the non-zero keys, and nothing else. -/
def Inv (m : OMap K V) : Prop :=
  Uniq m.dflt m.entries ∧ m.index m.dflt = none ∧ ∀ k, k ≠ m.dflt → m.index k = find m.entries k

theorem find_none {l : List (K × V)} {k : K} : find l k = none ↔ k ∉ l.map Prod.fst := by
  unfold find
  rw [List.findIdx?_eq_none_iff]
  simp only [decide_eq_false_iff_not, List.mem_map, not_exists, not_and]

theorem find_append {l : List (K × V)} {k k' : K} {v : V} (h : k ∉ l.map Prod.fst) :
    find (l ++ [(k, v)]) k' = if k' = k then some l.length else find l k' := by
  unfold find
  rw [List.findIdx?_append]
  by_cases e : k' = k
  · subst e
    have := find_none.mpr h
    unfold find at this
    rw [this]; simp
  · have : (decide (k = k')) = false := by simpa using fun h => e h.symm
    simp only [e, if_false, List.findIdx?_cons, this]
    simp

theorem find_append_other {l : List (K × V)} {k k' : K} {v : V} (e : k' ≠ k) :
    find (l ++ [(k, v)]) k' = find l k' := by
  unfold find
  rw [List.findIdx?_append]
  have : (decide (k = k')) = false := by simpa using fun h => e h.symm
  simp only [List.findIdx?_cons, this]
  simp

theorem uniq_append {dflt : K} : ∀ {l : List (K × V)} {k : K} {v : V}, Uniq dflt l → (k ≠ dflt → k ∉ l.map Prod.fst) →
    Uniq dflt (l ++ [(k, v)])
  | [], k, v, _, _ => ⟨fun _ => by simp, trivial⟩
  | (k0, v0) :: es, k, v, h, hk => by
    refine ⟨fun h0 => ?_, uniq_append h.2 (fun hd => by have := hk hd; simp only [List.map_cons, List.mem_cons, not_or] at this; exact this.2)⟩
    show k0 ∉ (es ++ [(k, v)]).map Prod.fst
    rw [List.map_append, List.mem_append, not_or]
    refine ⟨h.1 h0, ?_⟩
    simp only [List.map_cons, List.map_nil, List.mem_singleton]
    intro e
    subst e
    have := hk h0
    simp at this

theorem inv_new (dflt : K) : Inv (new dflt : OMap K V) :=
  ⟨trivial, rfl, fun k _ => by simp [new, find]⟩

theorem find_lt {l : List (K × V)} {k : K} {i : Nat} (h : find l k = some i) :
    i < l.length ∧ ∃ v, l[i]? = some (k, v) := by
  unfold find at h
  rw [List.findIdx?_eq_some_iff_getElem] at h
  obtain ⟨hl, h1, _⟩ := h
  refine ⟨hl, l[i].2, ?_⟩
  rw [List.getElem?_eq_getElem hl]
  simp only [decide_eq_true_eq] at h1
  rw [← h1]

theorem find_find? {l : List (K × V)} {k : K} {i : Nat} (h : find l k = some i) :
    (l[i]?).map Prod.snd = (l.find? (fun e => decide (e.1 = k))).map Prod.snd := by
  unfold find at h
  induction l generalizing i with
  | nil => simp at h
  | cons e es ih =>
    rw [List.findIdx?_cons] at h
    by_cases he : e.1 = k
    · simp only [he, decide_true, if_true, Option.some.injEq] at h
      subst h
      simp [List.find?_cons, he]
    · simp only [he, decide_false, Bool.false_eq_true, if_false] at h
      cases hf : es.findIdx? (fun e => decide (e.1 = k)) with
      | none => rw [hf] at h; cases h
      | some j =>
        rw [hf] at h
        simp only [Option.map_some, Option.some.injEq] at h
        subst h
        simp only [List.getElem?_cons_succ, List.find?_cons, he, decide_false]
        exact ih hf

theorem inv_put {m : OMap K V} (h : Inv m) (k : K) (v : V) (hk : k ≠ m.dflt) :
    Inv (put m k v).1 ∧ (put m k v).1.dflt = m.dflt ∧
    ((put m k v).1.entries, Out.bool (K := K) (V := V) (put m k v).2) = specStep m.dflt m.entries (.put k v) := by
  obtain ⟨h1, h2, h3⟩ := h
  unfold put
  rw [h3 k hk]
  cases hf : find m.entries k with
  | some i =>
    have hmem : k ∈ m.entries.map Prod.fst := by
      apply Classical.byContradiction; intro hn
      rw [← find_none, hf] at hn; cases hn
    refine ⟨⟨h1, h2, h3⟩, rfl, ?_⟩
    simp only [specStep, hmem, if_true]
  | none =>
    have hmem := find_none.mp hf
    refine ⟨⟨uniq_append h1 (fun _ => hmem), ?_, ?_⟩, rfl, ?_⟩
    · simp only [setIdx]; rw [if_neg (fun e => hk e.symm), h2]
    · intro k' hk'
      simp only [setIdx]
      rw [find_append hmem]
      split
      · rfl
      · exact h3 k' hk'
    · simp only [specStep, hmem, if_false]

theorem inv_putAnon {m : OMap K V} (h : Inv m) (v : V) : Inv (putAnon m v) := by
  obtain ⟨h1, h2, h3⟩ := h
  refine ⟨uniq_append h1 (fun e => absurd rfl e), h2, fun k hk => ?_⟩
  have hk : k ≠ m.dflt := hk
  simp only [putAnon]
  rw [find_append_other (k := m.dflt) hk]; exact h3 k hk

theorem find_set {l : List (K × V)} {k : K} {i : Nat} {v v' : V} (h : l[i]? = some (k, v')) (k' : K) :
    find (l.set i (k, v)) k' = find l k' := by
  unfold find
  induction l generalizing i with
  | nil => simp at h
  | cons e es ih =>
    cases i with
    | zero =>
      simp only [List.getElem?_cons_zero, Option.some.injEq] at h
      subst h
      simp [List.findIdx?_cons]
    | succ i =>
      simp only [List.getElem?_cons_succ] at h
      simp only [List.set_cons_succ, List.findIdx?_cons, ih h]

theorem uniq_keys {dflt : K} : ∀ {l l' : List (K × V)}, l.map Prod.fst = l'.map Prod.fst → Uniq dflt l → Uniq dflt l'
  | [], [], _, _ => trivial
  | [], _ :: _, h, _ => by simp at h
  | _ :: _, [], h, _ => by simp at h
  | (k, v) :: es, (k', v') :: es', h, hu => by
    simp only [List.map_cons, List.cons.injEq] at h
    obtain ⟨e, h⟩ := h
    subst e
    exact ⟨fun hk => by rw [← h]; exact hu.1 hk, uniq_keys h hu.2⟩

theorem map_set_keys {l : List (K × V)} {k : K} {i : Nat} {v v' : V} (h : l[i]? = some (k, v')) :
    (l.set i (k, v)).map Prod.fst = l.map Prod.fst := by
  induction l generalizing i with
  | nil => simp at h
  | cons e es ih =>
    cases i with
    | zero => simp only [List.getElem?_cons_zero, Option.some.injEq] at h; subst h; simp
    | succ i => simp only [List.getElem?_cons_succ] at h; simp [ih h]

theorem set_eq_map {dflt : K} {l : List (K × V)} {k : K} {i : Nat} {v : V} (hu : Uniq dflt l) (hk : k ≠ dflt)
    (h : find l k = some i) : l.set i (k, v) = l.map (fun e => if e.1 = k then (k, v) else e) := by
  unfold find at h
  induction l generalizing i with
  | nil => simp at h
  | cons e es ih =>
    obtain ⟨k0, v0⟩ := e
    rw [List.findIdx?_cons] at h
    by_cases he : k0 = k
    · subst he
      simp only [decide_true, if_true, Option.some.injEq] at h
      subst h
      have hn := hu.1 hk
      simp only [List.set_cons_zero, List.map_cons, if_true, List.cons.injEq, true_and]
      symm
      have : ∀ (l : List (K × V)), k0 ∉ l.map Prod.fst → l.map (fun e => if e.1 = k0 then (k0, v) else e) = l := by
        intro l
        induction l with
        | nil => simp
        | cons a as ih2 =>
          intro hn
          simp only [List.map_cons, List.mem_cons, not_or] at hn
          rw [List.map_cons, ih2 hn.2, if_neg (fun e => hn.1 e.symm)]
      exact this es hn
    · simp only [he, decide_false, Bool.false_eq_true, if_false] at h
      cases hf : es.findIdx? (fun e => decide (e.1 = k)) with
      | none => rw [hf] at h; cases h
      | some j =>
        rw [hf] at h
        simp only [Option.map_some, Option.some.injEq] at h
        subst h
        simp only [List.set_cons_succ, List.map_cons, he, if_false]
        rw [ih hu.2 hf]

theorem inv_mustPut {m : OMap K V} (h : Inv m) (k : K) (v : V) (hk : k ≠ m.dflt) :
    ∃ m', mustPut m k v = some m' ∧ Inv m' ∧ m'.dflt = m.dflt ∧
    (m'.entries, (Out.unit : Out K V)) = specStep m.dflt m.entries (.mustPut k v) := by
  have h' := h
  obtain ⟨h1, h2, h3⟩ := h'
  unfold mustPut
  rw [h3 k hk]
  cases hf : find m.entries k with
  | some i =>
    have hmem : k ∈ m.entries.map Prod.fst := by
      apply Classical.byContradiction; intro hn
      rw [← find_none, hf] at hn; cases hn
    obtain ⟨hl, v', hv⟩ := find_lt hf
    refine ⟨{ m with entries := m.entries.set i (k, v) }, by simp [setVal, hv], ⟨?_, h2, ?_⟩, rfl, ?_⟩
    · exact uniq_keys (map_set_keys hv).symm h1
    · intro k' hk'
      show m.index k' = find (m.entries.set i (k, v)) k'
      rw [find_set hv]; exact h3 k' hk'
    · simp only [specStep, hmem, if_true]
      rw [set_eq_map h1 hk hf]
  | none =>
    have hp := inv_put h k v hk
    have hmem := find_none.mp hf
    unfold put at hp
    rw [h3 k hk, hf] at hp
    refine ⟨_, rfl, hp.1, rfl, ?_⟩
    simp only [specStep, hmem, if_false]

theorem erase_filter {dflt : K} {l : List (K × V)} {k : K} {i : Nat} (hu : Uniq dflt l) (hk : k ≠ dflt)
    (h : find l k = some i) : l.take i ++ l.drop (i + 1) = l.filter (fun e => decide (e.1 ≠ k)) := by
  unfold find at h
  induction l generalizing i with
  | nil => simp at h
  | cons e es ih =>
    obtain ⟨k0, v0⟩ := e
    rw [List.findIdx?_cons] at h
    by_cases he : k0 = k
    · subst he
      simp only [decide_true, if_true, Option.some.injEq] at h
      subst h
      have hn := hu.1 hk
      simp only [List.take_zero, List.nil_append, Nat.zero_add, List.drop_succ_cons, List.drop_zero, ne_eq, not_true_eq_false, decide_false, List.filter_cons]
      symm
      rw [if_neg (by simp), List.filter_eq_self]
      intro a ha
      simp only [decide_not, Bool.not_eq_eq_eq_not, Bool.not_true, decide_eq_false_iff_not]
      intro e
      exact hn (by rw [← e]; exact List.mem_map_of_mem ha)
    · simp only [he, decide_false, Bool.false_eq_true, if_false] at h
      cases hf : es.findIdx? (fun e => decide (e.1 = k)) with
      | none => rw [hf] at h; cases h
      | some j =>
        rw [hf] at h
        simp only [Option.map_some, Option.some.injEq] at h
        subst h
        simp only [List.take_succ_cons, List.drop_succ_cons, List.cons_append, ne_eq, he, not_false_eq_true, decide_true, List.filter_cons, if_true]
        rw [ih hu.2 hf]

/-- What the re-indexing loop does. -/
theorem reindex_eq {dflt : K} : ∀ (es : List (K × V)) (ix : K → Option Nat) (i : Nat) (k : K), Uniq dflt es → k ≠ dflt →
    reindex dflt ix i es k = match find es k with | some j => some (i + j) | none => ix k
  | [], ix, i, k, _, _ => by simp [reindex, find]
  | (k0, v0) :: es, ix, i, k, hu, hk => by
    simp only [reindex]
    rw [reindex_eq es _ (i + 1) k hu.2 hk]
    by_cases he : k0 = k
    · subst he
      have hn := hu.1 hk
      rw [find_none.mpr hn]
      simp [hk, setIdx, find, List.findIdx?_cons]
    · have : find ((k0, v0) :: es) k = (find es k).map (· + 1) := by
        unfold find; rw [List.findIdx?_cons]; simp [he]
      rw [this]
      cases find es k with
      | none =>
        simp only [Option.map_none]
        split
        · simp only [setIdx]; rw [if_neg (fun e => he e.symm)]
        · rfl
      | some j => simp only [Option.map_some]; congr 1; omega

theorem reindex_dflt {dflt : K} : ∀ (es : List (K × V)) (ix : K → Option Nat) (i : Nat),
    reindex dflt ix i es dflt = ix dflt
  | [], ix, i => by simp [reindex]
  | (k0, v0) :: es, ix, i => by
    simp only [reindex]
    rw [reindex_dflt es]
    split
    · rename_i h; simp only [setIdx]; rw [if_neg (fun e => h e.symm)]
    · rfl

theorem uniq_filter {dflt : K} {p : K × V → Bool} : ∀ {l : List (K × V)}, Uniq dflt l → Uniq dflt (l.filter p)
  | [], _ => trivial
  | (k, v) :: es, h => by
    rw [List.filter_cons]
    split
    · refine ⟨fun hk hm => h.1 hk ?_, uniq_filter h.2⟩
      obtain ⟨e, he, e2⟩ := List.mem_map.mp hm
      exact List.mem_map.mpr ⟨e, (List.mem_filter.mp he).1, e2⟩
    · exact uniq_filter h.2

theorem uniq_drop {dflt : K} : ∀ {l : List (K × V)} (n : Nat), Uniq dflt l → Uniq dflt (l.drop n)
  | l, 0, h => by simpa using h
  | [], n + 1, h => by simpa using h
  | (k, v) :: es, n + 1, h => by simpa using uniq_drop n h.2

/-- Looking a key up in `a ++ b` when the part before is unchanged. -/
theorem find_split (a b : List (K × V)) (k : K) :
    find (a ++ b) k = match find a k with | some j => some j | none => (find b k).map (· + a.length) := by
  unfold find
  rw [List.findIdx?_append]
  cases List.findIdx? (fun e => decide (e.1 = k)) a <;> simp

theorem inv_remove {m : OMap K V} (h : Inv m) (k : K) (hk : k ≠ m.dflt) :
    Inv (remove m k) ∧ (remove m k).dflt = m.dflt ∧
    ((remove m k).entries, (Out.unit : Out K V)) = specStep m.dflt m.entries (.remove k) := by
  obtain ⟨h1, h2, h3⟩ := h
  unfold remove
  rw [h3 k hk]
  cases hf : find m.entries k with
  | none =>
    refine ⟨⟨h1, h2, h3⟩, rfl, ?_⟩
    simp only [specStep]
    rw [List.filter_eq_self.mpr]
    intro a ha
    have hn := find_none.mp hf
    simp only [ne_eq, decide_not, Bool.not_eq_eq_eq_not, Bool.not_true, decide_eq_false_iff_not]
    intro e
    exact hn (by rw [← e]; exact List.mem_map_of_mem ha)
  | some i =>
    have her := erase_filter h1 hk hf
    obtain ⟨hl, v', hv⟩ := find_lt hf
    refine ⟨⟨?_, ?_, ?_⟩, rfl, ?_⟩
    · simp only; rw [her]; exact uniq_filter h1
    · simp only; rw [reindex_dflt]; simp only [delIdx]; rw [if_neg (fun e => hk e.symm)]; exact h2
    · intro k' hk'
      simp only
      have hlen : (m.entries.take i).length = i := by simp; omega
      have hdrop : (m.entries.take i ++ m.entries.drop (i + 1)).drop i = m.entries.drop (i + 1) := by
        rw [List.drop_append, List.drop_of_length_le (by omega), hlen]; simp
      rw [hdrop, reindex_eq _ _ _ _ (uniq_drop _ h1) hk']
      have hsplit : m.entries = m.entries.take i ++ (k, v') :: m.entries.drop (i + 1) := by
        conv => lhs; rw [← List.take_append_drop i m.entries]
        congr 1
        rw [List.drop_eq_getElem_cons hl]
        congr 1
        rw [List.getElem?_eq_getElem hl] at hv
        exact Option.some.inj hv
      rw [find_split]
      have hmain : find m.entries k' = match find (m.entries.take i) k' with
        | some j => some j
        | none => (find ((k, v') :: m.entries.drop (i + 1)) k').map (· + i) := by
        conv => lhs; rw [hsplit]
        rw [find_split, hlen]
      -- uniqueness: k' cannot be in both parts
      cases ha : find (m.entries.take i) k' with
      | some j =>
        rw [ha] at hmain
        simp only at hmain
        have hnot : find (m.entries.drop (i + 1)) k' = none := by
          rw [find_none]
          intro hb
          have hmem : k' ∈ (m.entries.take i).map Prod.fst := by
            apply Classical.byContradiction; intro hn
            rw [← find_none, ha] at hn; cases hn
          have : ∀ (a b : List (K × V)), Uniq m.dflt (a ++ b) → k' ∈ a.map Prod.fst → k' ∉ b.map Prod.fst := by
            intro a
            induction a with
            | nil => intro b _ hm; simp at hm
            | cons x xs ih =>
              obtain ⟨kx, vx⟩ := x
              intro b hu hm
              simp only [List.map_cons, List.mem_cons] at hm
              rcases hm with e | hm
              · subst e
                have : k' ∉ (xs ++ b).map Prod.fst := hu.1 hk'
                rw [List.map_append, List.mem_append, not_or] at this
                exact this.2
              · exact ih b hu.2 hm
          have hu2 : Uniq m.dflt (m.entries.take i ++ (k, v') :: m.entries.drop (i + 1)) := by rw [← hsplit]; exact h1
          have := this _ _ hu2 hmem
          simp only [List.map_cons, List.mem_cons, not_or] at this
          exact this.2 hb
        rw [hnot]
        simp only [delIdx]
        have hne : k' ≠ k := by
          intro e; subst e
          rw [hf] at hmain
          cases hmain
          obtain ⟨hlt, _⟩ := find_lt ha
          omega
        rw [if_neg hne, h3 k' hk', hmain]
      | none =>
        rw [ha] at hmain
        simp only at hmain
        rw [hlen]
        cases hb : find (m.entries.drop (i + 1)) k' with
        | some j => simp only [Option.map_some]; congr 1; omega
        | none =>
          simp only [delIdx, Option.map_none]
          split
          · rfl
          · rename_i hne
            rw [h3 k' hk', hmain]
            have : find ((k, v') :: m.entries.drop (i + 1)) k' = none := by
              unfold find at hb ⊢
              rw [List.findIdx?_cons, hb]
              simp [fun e => hne (Eq.symm e)]
              intro e; exact absurd e.symm hne
            rw [this]; rfl
    · simp only [specStep]
      rw [her]

theorem step_refines {m : OMap K V} (h : Inv m) (o : Op K V) (ho : o.keyOk m.dflt) :
    Inv (step m o).1 ∧ (step m o).1.dflt = m.dflt ∧
    ((step m o).1.entries, (step m o).2) = specStep m.dflt m.entries o := by
  have h' := h
  obtain ⟨h1, h2, h3⟩ := h'
  cases o with
  | put k v => exact inv_put h k v ho
  | mustPut k v =>
    obtain ⟨m', e, hi, hd, hs⟩ := inv_mustPut h k v ho
    simp only [step, e]
    exact ⟨hi, hd, hs⟩
  | putAnon v => exact ⟨inv_putAnon h v, rfl, rfl⟩
  | get k =>
    have : get m k = some ((m.entries.find? (fun e => decide (e.1 = k))).map Prod.snd) := by
      unfold get
      rw [h3 k ho]
      cases hf : find m.entries k with
      | some i =>
        obtain ⟨hl, v', hv⟩ := find_lt hf
        have := find_find? hf
        rw [hv] at this
        simp only [hv, Option.map_some] at this ⊢
        rw [this]
      | none =>
        have hn := find_none.mp hf
        have : m.entries.find? (fun e => decide (e.1 = k)) = none := by
          rw [List.find?_eq_none]
          intro x hx
          simp only [decide_eq_true_eq]
          intro e
          exact hn (by rw [← e]; exact List.mem_map_of_mem hx)
        rw [this]; rfl
    simp only [step, this, specStep, and_true]
    exact h
  | has k =>
    refine ⟨h, rfl, ?_⟩
    simp only [step, has, specStep]
    rw [h3 k ho]
    congr 2
    rw [Bool.eq_iff_iff]
    simp only [decide_eq_true_eq]
    cases hf : find m.entries k with
    | none => simp [find_none.mp hf]
    | some i =>
      simp only [Option.isSome_some, true_iff]
      apply Classical.byContradiction; intro hn
      rw [← find_none, hf] at hn; cases hn
  | rank k =>
    refine ⟨h, rfl, ?_⟩
    simp only [step, rank, specStep]
    rw [h3 k ho]
  | remove k => exact inv_remove h k ho
  | clear => exact ⟨⟨trivial, rfl, fun k _ => by simp [step, clear, find]⟩, rfl, rfl⟩
  | len => exact ⟨h, rfl, rfl⟩
  | entries => exact ⟨h, rfl, rfl⟩

theorem run_refines : ∀ (os : List (Op K V)) {m : OMap K V}, Inv m → (∀ o ∈ os, o.keyOk m.dflt) →
    Inv (run m os).1 ∧ (run m os).1.dflt = m.dflt ∧
      ((run m os).1.entries, (run m os).2) = specRun m.dflt m.entries os
  | [], m, h, _ => ⟨h, rfl, rfl⟩
  | o :: os, m, h, ho => by
    obtain ⟨a1, a2, a3⟩ := step_refines h o (ho o (by simp))
    obtain ⟨b1, b2, b3⟩ := run_refines os (m := (step m o).1) a1 (by rw [a2]; exact fun o' h' => ho o' (by simp [h']))
    simp only [run]
    refine ⟨b1, by rw [b2, a2], ?_⟩
    simp only [specRun, ← a3]
    rw [a2] at b3
    simp only [← b3]

theorem subLoop_spec {dflt : K} : ∀ (es : List (K × V)) (c : OMap K V), c.dflt = dflt → Inv c → Uniq dflt (c.entries ++ es) →
    Inv (subLoop dflt c es) ∧ (subLoop dflt c es).entries = c.entries ++ es ∧ (subLoop dflt c es).dflt = dflt
  | [], c, hd, hi, _ => ⟨hi, by simp [subLoop], hd⟩
  | (k, v) :: es, c, hd, hi, hu => by
    simp only [subLoop]
    by_cases hk : k = dflt
    · subst hk
      simp only [ne_eq, not_true_eq_false, if_false]
      have hu' : Uniq k ((putAnon c v).entries ++ es) := by simpa [putAnon, hd] using hu
      obtain ⟨g1, g2, g3⟩ := subLoop_spec es (putAnon c v) hd (inv_putAnon hi v) hu'
      refine ⟨g1, ?_, g3⟩
      rw [g2]; simp [putAnon, hd]
    · simp only [ne_eq, hk, not_false_eq_true, if_true]
      obtain ⟨p1, p2, p3⟩ := inv_put hi k v (by rw [hd]; exact hk)
      have hnot : k ∉ c.entries.map Prod.fst := by
        intro hm
        have : ∀ (a b : List (K × V)), Uniq dflt (a ++ b) → k ∈ a.map Prod.fst → k ∉ b.map Prod.fst := by
          intro a
          induction a with
          | nil => intro b _ hm; simp at hm
          | cons x xs ih =>
            obtain ⟨kx, vx⟩ := x
            intro b hu hm
            simp only [List.map_cons, List.mem_cons] at hm
            rcases hm with e | hm
            · subst e
              have : k ∉ (xs ++ b).map Prod.fst := hu.1 hk
              rw [List.map_append, List.mem_append, not_or] at this
              exact this.2
            · exact ih b hu.2 hm
        have := this _ _ hu hm
        simp at this
      simp only [specStep, hnot, if_false] at p3
      have pe : (put c k v).1.entries = c.entries ++ [(k, v)] := congrArg Prod.fst p3
      obtain ⟨g1, g2, g3⟩ := subLoop_spec es (put c k v).1 (by rw [p2, hd]) p1 (by rw [pe]; simpa using hu)
      exact ⟨g1, by rw [g2, pe]; simp, g3⟩

theorem uniq_take {dflt : K} : ∀ {l : List (K × V)} (n : Nat), Uniq dflt l → Uniq dflt (l.take n)
  | l, 0, h => by simp [Uniq]
  | [], n + 1, h => by simp [Uniq]
  | (k, v) :: es, n + 1, h => by
    rw [List.take_succ_cons]
    refine ⟨fun hk hm => h.1 hk ?_, uniq_take n h.2⟩
    obtain ⟨e, he, e2⟩ := List.mem_map.mp hm
    exact List.mem_map.mpr ⟨e, List.mem_of_mem_take he, e2⟩

end Bubbler.OM
