import Verif.Compiler.Unit

/-
Lists of entries used as maps.
-/
namespace Bubbler.Comp

theorem aput_eq {α : Type} (m : List (Str × α)) (k : Str) (v : α) : aput m k v = m ∨ aput m k v = m ++ [(k, v)] := by
  unfold aput
  split
  · exact .inl rfl
  · exact .inr rfl

theorem aput_ext {α : Type} (m : List (Str × α)) (k : Str) (v : α) (P : Str × α → Prop) (h : P (k, v)) :
    ∃ x, aput m k v = m ++ x ∧ ∀ e ∈ x, P e := by
  rcases aput_eq m k v with e | e
  · exact ⟨[], by simp [e], by simp⟩
  · exact ⟨[(k, v)], e, by simpa using h⟩

theorem aget_isSome {α : Type} (m : List (Str × α)) (k : Str) : (aget m k).isSome = true ↔ k ∈ m.map (·.1) := by
  simp only [aget, Option.isSome_map, List.find?_isSome, List.mem_map]
  constructor
  · rintro ⟨e, he, h⟩; exact ⟨e, he, by simpa using h⟩
  · rintro ⟨e, he, h⟩; exact ⟨e, he, by simpa using h⟩

theorem aput_new {α : Type} (m : List (Str × α)) (k : Str) (v : α) (h : k ∉ m.map (·.1)) : aput m k v = m ++ [(k, v)] := by
  unfold aput
  rw [if_neg]
  rw [aget_isSome]
  exact h

theorem aget_some_iff {α : Type} {m : List (Str × α)} (hm : (m.map (·.1)).Nodup) {k : Str} {v : α} :
    aget m k = some v ↔ (k, v) ∈ m := by
  induction m with
  | nil => simp [aget]
  | cons e r ih =>
    obtain ⟨k', v'⟩ := e
    simp only [List.map_cons, List.nodup_cons] at hm
    unfold aget at ih ⊢
    rw [List.find?_cons]
    by_cases h : k' = k
    · subst h
      simp only [decide_true, Option.map_some, Option.some.injEq, List.mem_cons, Prod.mk.injEq, true_and]
      constructor
      · rintro rfl; exact .inl rfl
      · rintro (rfl | h)
        · rfl
        · exact absurd (List.mem_map.2 ⟨_, h, rfl⟩) hm.1
    · simp only [h, decide_false, List.mem_cons, Prod.mk.injEq, Ne.symm (Ne.intro h), false_and, false_or]
      rw [ih hm.2]

theorem aget_none_iff {α : Type} {m : List (Str × α)} {k : Str} : aget m k = none ↔ k ∉ m.map (·.1) := by
  rw [← aget_isSome]
  cases aget m k <;> simp

theorem aput_old {α : Type} (m : List (Str × α)) (k : Str) (v : α) (h : k ∈ m.map (·.1)) : aput m k v = m := by
  unfold aput
  rw [if_pos]
  rw [aget_isSome]
  exact h

theorem aput_nodup {α : Type} (m : List (Str × α)) (k : Str) (v : α) (h : (m.map (·.1)).Nodup) :
    ((aput m k v).map (·.1)).Nodup := by
  by_cases hk : k ∈ m.map (·.1)
  · rw [aput_old _ _ _ hk]; exact h
  · rw [aput_new _ _ _ hk, List.map_append, List.nodup_append]
    refine ⟨h, by simp, ?_⟩
    rintro a ha b hb rfl
    simp only [List.map_cons, List.map_nil, List.mem_singleton] at hb
    exact hk (hb ▸ ha)

theorem aput_mem {α : Type} {m : List (Str × α)} {k : Str} {v : α} {e : Str × α} (h : e ∈ aput m k v) :
    e ∈ m ∨ (e = (k, v) ∧ k ∉ m.map (·.1)) := by
  by_cases hk : k ∈ m.map (·.1)
  · rw [aput_old _ _ _ hk] at h; exact .inl h
  · rw [aput_new _ _ _ hk, List.mem_append, List.mem_singleton] at h
    exact h.imp_right fun h => ⟨h, hk⟩

theorem mem_aput {α : Type} {m : List (Str × α)} {k : Str} {v : α} {e : Str × α} (h : e ∈ m) : e ∈ aput m k v := by
  rcases aput_eq m k v with e' | e' <;> rw [e']
  · exact h
  · exact List.mem_append_left _ h

theorem aput_key {α : Type} (m : List (Str × α)) (k : Str) (v : α) : k ∈ (aput m k v).map (·.1) := by
  by_cases hk : k ∈ m.map (·.1)
  · rw [aput_old _ _ _ hk]; exact hk
  · rw [aput_new _ _ _ hk]; simp

theorem mem_sput {m : List Str} {k x : Str} : x ∈ sput m k ↔ x ∈ m ∨ x = k := by
  unfold sput
  split
  · rename_i h
    constructor
    · exact .inl
    · rintro (h' | rfl)
      · exact h'
      · exact h
  · simp

theorem sput_nodup {m : List Str} {k : Str} (h : m.Nodup) : (sput m k).Nodup := by
  unfold sput
  split
  · exact h
  · rename_i hk
    rw [List.nodup_append]
    refine ⟨h, by simp, ?_⟩
    rintro a ha b hb rfl
    simp only [List.mem_singleton] at hb
    exact hk (hb ▸ ha)

theorem mem_foldl_sput {l m : List Str} {x : Str} : x ∈ l.foldl sput m ↔ x ∈ m ∨ x ∈ l := by
  induction l generalizing m with
  | nil => simp
  | cons a r ih =>
    rw [List.foldl_cons, ih, mem_sput, List.mem_cons, or_assoc]

theorem foldl_sput_nodup {l m : List Str} (h : m.Nodup) : (l.foldl sput m).Nodup := by
  induction l generalizing m with
  | nil => exact h
  | cons a r ih => exact ih (sput_nodup h)

end Bubbler.Comp
