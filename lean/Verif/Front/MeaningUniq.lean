import Verif.Front.MeaningProofs

/-
The texts stand for at most one list of definitions, if no text sees two definitions of the same name.
-/
namespace Bubbler.Front
open Comp hiding Str

theorem IntMeans.det {t : Str} {n m : Nat} (h : IntMeans t n) (k : IntMeans t m) : n = m := by
  have a := parseNat_means h
  rw [parseNat_means k] at a
  cases a
  rfl

theorem Means.det {b : Str} {v w : Str} (h : Means b v) (k : Means b w) : v = w := by
  have a := (visitStr_iff (q := '"') (.inr rfl) b v).2 h
  have c := (visitStr_iff (q := '"') (.inr rfl) b w).2 k
  rw [a] at c
  cases c
  rfl

theorem ConstMeans.det {c : Const} {l m : Lit} (h : ConstMeans c l) (k : ConstMeans c m) : l = m := by
  cases h with
  | int h1 h2 =>
    cases k with
    | int k1 k2 => rw [h1.det k1]
  | float => cases k; rfl
  | bool => cases k; rfl
  | @str q b v h1 h2 =>
    generalize e : Const.str (q :: (b ++ [q])) = c at k
    cases k with
    | str k1 k2 =>
      simp only [Const.str.injEq, List.cons.injEq] at e
      obtain ⟨rfl, e⟩ := e
      have := List.append_cancel_right e
      subst this
      rw [h2.det k2]
    | _ => exact nomatch e

theorem SizeMeans.det {s : Size} {a b : Int} (h : SizeMeans s a) (k : SizeMeans s b) : a = b := by
  cases h with
  | bytes h1 h2 => cases k with | bytes k1 k2 => rw [h2, k2, h1.det k1]
  | both h1 h2 h3 => cases k with | both k1 k2 k3 => rw [h3, k3, h1.det k1, h2.det k2]
  | bits h1 h2 => cases k with | bits k1 k2 => rw [h2, k2, h1.det k1]

theorem OptsMean.det {os : List Opt} {l m : List (Str × Lit)} (h : OptsMean os l) (k : OptsMean os m) : l = m := by
  induction h generalizing m with
  | nil => cases k; rfl
  | cons h1 _ ih => cases k with | cons k1 k2 => rw [h1.det k1, ih k2]

theorem MethsMean.det {ms : List Meth} {a b : List (Str × List (Bool × Prim))} (h : MethsMean ms a) (k : MethsMean ms b) : a = b := by
  have key : ∀ (f : Str → List (Bool × Prim)) (a b : List (Str × List (Bool × Prim))), a.map (·.1) = b.map (·.1) →
      (∀ g ∈ a, g.2 = f g.1) → (∀ g ∈ b, g.2 = f g.1) → a = b := by
    intro f a
    induction a with
    | nil => intro b h _ _; cases b <;> simp at h ⊢
    | cons x r ih =>
      intro b h1 h2 h3
      cases b with
      | nil => simp at h1
      | cons y r' =>
        simp only [List.map_cons, List.cons.injEq] at h1
        rw [ih r' h1.2 (fun g hg => h2 g (by simp [hg])) (fun g hg => h3 g (by simp [hg]))]
        have := h2 x (by simp)
        have := h3 y (by simp)
        congr 1
        apply Prod.ext h1.1
        simp_all
  exact key (fun n => (ms.filter fun m => m.name.map (·.text) = some n).map fun m => (m.set, m.ty)) a b (h.names.trans k.names.symm) h.groups k.groups

theorem WidthIs.det {t : CTy} {a b : Int} (h : WidthIs t a) (k : WidthIs t b) : a = b := by
  induction h generalizing b with
  | array h1 _ ih =>
    cases k with
    | array k1 k2 => rw [ih k2]
    | arrayVar k1 => exact absurd k1 h1
  | arrayVar h1 =>
    cases k with
    | array k1 k2 => exact absurd h1 k1
    | arrayVar k1 => rfl
  | _ => cases k; rfl

theorem FieldSize.det {sz : Option Size} {w w' : Int → Prop} {a b : Int} (h : FieldSize sz w a) (k : FieldSize sz w' b)
    (e : w a → w' b → a = b) : a = b := by
  rcases h with ⟨rfl, h⟩ | ⟨s, rfl, h⟩ <;> rcases k with ⟨e', k⟩ | ⟨s', e', k⟩
  · exact e h k
  · exact nomatch e'
  · exact nomatch e'
  · cases e'; exact h.det k

section
variable {resolve : Str → Str → Option Str} {d : Str → Src}

theorem Uniq.down {p q : Str} {st : Stmt} (h : Uniq resolve d p) (v : Visible resolve d p q st) : Uniq resolve d q := by
  have up : ∀ r st', Visible resolve d q r st' → Visible resolve d p r st' := fun r st' k => ⟨v.1.trans k.1, k.2⟩
  exact ⟨fun a b s t n h1 h2 => h.types a b s t n (up _ _ h1) (up _ _ h2), fun a b s t n h1 h2 => h.vals a b s t n (up _ _ h1) (up _ _ h2),
    fun a e h1 => h.nodup a e (up _ _ h1)⟩

theorem Uniq.struct {p q q' : Str} {s s' : Struct} {n : Str} (h : Uniq resolve d p) (v : Visible resolve d p q (.struct s)) (v' : Visible resolve d p q' (.struct s'))
    (e : s.ident.text = n) (e' : s'.ident.text = n) : q = q' ∧ s = s' := by
  obtain ⟨h1, h2⟩ := h.types _ _ _ _ n v v' (congrArg some e) (congrArg some e')
  cases h2
  exact ⟨h1, rfl⟩

theorem Uniq.enum {p q q' : Str} {s s' : Enum} {n : Str} (h : Uniq resolve d p) (v : Visible resolve d p q (.enum s)) (v' : Visible resolve d p q' (.enum s'))
    (e : s.name.text = n) (e' : s'.name.text = n) : q = q' ∧ s = s' := by
  obtain ⟨h1, h2⟩ := h.types _ _ _ _ n v v' (congrArg some e) (congrArg some e')
  cases h2
  exact ⟨h1, rfl⟩

theorem Uniq.clash {p q q' : Str} {s : Struct} {s' : Enum} {n : Str} (h : Uniq resolve d p) (v : Visible resolve d p q (.struct s)) (v' : Visible resolve d p q' (.enum s'))
    (e : s.ident.text = n) (e' : s'.name.text = n) : False := by
  obtain ⟨h1, h2⟩ := h.types _ _ _ _ n v v' (congrArg some e) (congrArg some e')
  cases h2

theorem NumsMean.names {p : Str} {prev : Option Int} {b : List EnumElem} {vs : List (Str × Int)} (h : NumsMean resolve d p prev b vs) :
    vs.map (·.1) = b.filterMap fun | .value n _ _ _ => some n.text | .empty => none := by
  refine NumsMean.rec (resolve := resolve) (d := d) (motive_1 := fun _ _ _ _ => True) (motive_2 := fun _ _ _ _ => True)
    (motive_3 := fun _ _ _ _ => True) (motive_4 := fun _ _ _ _ => True) (motive_5 := fun _ _ _ _ => True)
    (motive_6 := fun _ _ _ _ => True) (motive_7 := fun _ _ _ _ => True)
    (motive_8 := fun _ _ b vs _ => vs.map (·.1) = b.filterMap fun | .value n _ _ _ => some n.text | .empty => none)
    ?_ ?_ ?_ ?_ ?_ ?_ ?_ ?_ ?_ ?_ ?_ ?_ ?_ ?_ ?_ ?_ ?_ ?_ ?_ ?_ ?_ ?_ ?_ ?_ ?_ ?_ ?_ h
  any_goals (intros; exact True.intro)
  · intros; rfl
  · intro p prev r vs m ih
    exact ih
  · intro p prev n os c r vs m ih
    simp only [List.map_cons, ih, List.filterMap_cons]
  · intro p prev n w os c r vs w1 m _ ih
    simp only [List.map_cons, ih, List.filterMap_cons]
  · intro p prev n w os c r vs v w1 ne m _ ih
    simp only [List.map_cons, ih, List.filterMap_cons]

theorem EnumMeans.names {p : Str} {e : Enum} {x : EnumD} (h : EnumMeans resolve d p e x) : x.values.map (·.1) = e.valNames := by
  match h with
  | .mk _ h => exact h.names

theorem pair_unique {l : List (Str × Int)} (h : (l.map (·.1)).Nodup) {n : Str} {v w : Int} (h1 : (n, v) ∈ l) (h2 : (n, w) ∈ l) : v = w := by
  induction l with
  | nil => exact nomatch h1
  | cons x r ih =>
    simp only [List.map_cons, List.nodup_cons] at h
    rcases List.mem_cons.1 h1 with rfl | g1 <;> rcases List.mem_cons.1 h2 with e | g2
    · cases e; rfl
    · exact absurd (List.mem_map.2 ⟨_, g2, rfl⟩) h.1
    · subst e; exact absurd (List.mem_map.2 ⟨(n, v), g1, rfl⟩) h.1
    · exact ih h.2 g1 g2

theorem EnumMeans.det {p : Str} {e : Enum} {x x' : EnumD} (h : EnumMeans resolve d p e x) (U : Uniq resolve d p)
    (k : EnumMeans resolve d p e x') : x = x' := by
  refine EnumMeans.rec (resolve := resolve) (d := d) (motive_1 := fun _ _ _ _ => True) (motive_2 := fun _ _ _ _ => True)
    (motive_3 := fun _ _ _ _ => True) (motive_4 := fun _ _ _ _ => True) (motive_5 := fun _ _ _ _ => True)
    (motive_6 := fun p v l _ => Uniq resolve d p → ∀ l', ValMeans resolve d p v l' → l = l')
    (motive_7 := fun p e x _ => Uniq resolve d p → ∀ x', EnumMeans resolve d p e x' → x = x')
    (motive_8 := fun p prev b vs _ => Uniq resolve d p → ∀ vs', NumsMean resolve d p prev b vs' → vs = vs')
    ?_ ?_ ?_ ?_ ?_ ?_ ?_ ?_ ?_ ?_ ?_ ?_ ?_ ?_ ?_ ?_ ?_ ?_ ?_ ?_ ?_ ?_ ?_ ?_ ?_ ?_ ?_ h U x' k
  any_goals (intros; exact True.intro)
  · intro p c l c1 U l' k
    cases k with | lit c' => exact c1.det c'
  · intro p q e x i w v m i1 ih U l' k
    cases k with
    | name v' m' i' =>
      have n1 := m.names ▸ List.mem_map.2 ⟨_, i1, rfl⟩
      have n2 := m'.names ▸ List.mem_map.2 ⟨_, i', rfl⟩
      obtain ⟨rfl, rfl⟩ := U.vals _ _ _ _ _ v v' n1 n2
      cases ih (U.down v) _ m'
      rw [pair_unique (m.names ▸ U.nodup _ _ v) i1 i']
  · intro p a n sz body b vs s m ih U x' k
    cases k with
    | mk s' m' => rw [s.det s', ih U _ m']
  · intro p prev U vs' k
    cases k; rfl
  · intro p prev r vs m ih U vs' k
    cases k with
    | empty m' => exact ih U _ m'
  · intro p prev n os c r vs m ih U vs' k
    cases k with
    | next m' => rw [ih U _ m']
  · intro p prev n w os c r vs w1 m iw ih U vs' k
    cases k with
    | minusOne w' m' => rw [ih U _ m']
    | given w' ne m' => have := iw U _ w'; simp only [Lit.int.injEq] at this; exact absurd this.symm ne
  · intro p prev n w os c r vs v w1 ne m iw ih U vs' k
    cases k with
    | minusOne w' m' => have := iw U _ w'; simp only [Lit.int.injEq] at this; exact absurd this ne
    | given w' ne m' =>
      have := iw U _ w'
      simp only [Lit.int.injEq] at this
      subst this
      rw [ih U _ m']

theorem ValMeans.det {p : Str} {v : Const ⊕ Id} {l l' : Lit} (h : ValMeans resolve d p v l) (U : Uniq resolve d p)
    (k : ValMeans resolve d p v l') : l = l' := by
  cases h with
  | lit c1 => cases k with | lit c' => exact c1.det c'
  | name v m i1 =>
    cases k with
    | name v' m' i' =>
      have n1 := m.names ▸ List.mem_map.2 ⟨_, i1, rfl⟩
      have n2 := m'.names ▸ List.mem_map.2 ⟨_, i', rfl⟩
      obtain ⟨rfl, rfl⟩ := U.vals _ _ _ _ _ v v' n1 n2
      cases m.det (U.down v) m'
      rw [pair_unique (m.names ▸ U.nodup _ _ v) i1 i']

theorem StructMeans.det {p : Str} {s : Struct} {x x' : StructD} (h : StructMeans resolve d p s x) (U : Uniq resolve d p)
    (k : StructMeans resolve d p s x') : x = x' := by
  refine StructMeans.rec (resolve := resolve) (d := d)
    (motive_1 := fun p e t _ => Uniq resolve d p → ∀ t', ElemMeans resolve d p e t' → t = t')
    (motive_2 := fun p e t _ => Uniq resolve d p → ∀ t', TyMeans resolve d p e t' → t = t')
    (motive_3 := fun p s x _ => Uniq resolve d p → ∀ x', StructMeans resolve d p s x' → x = x')
    (motive_4 := fun p b xs _ => Uniq resolve d p → ∀ xs', BodyMeans resolve d p b xs' → xs = xs')
    (motive_5 := fun p f xs _ => Uniq resolve d p → ∀ xs', FieldMeans resolve d p f xs' → xs = xs')
    (motive_6 := fun _ _ _ _ => True) (motive_7 := fun _ _ _ _ => True) (motive_8 := fun _ _ _ _ _ => True)
    ?_ ?_ ?_ ?_ ?_ ?_ ?_ ?_ ?_ ?_ ?_ ?_ ?_ ?_ ?_ ?_ ?_ ?_ ?_ ?_ ?_ ?_ ?_ ?_ ?_ ?_ ?_ h U x' k
  any_goals (intros; exact True.intro)
  · intro p t U t' k; cases k; rfl
  · intro p U t' k; cases k; rfl
  · intro p U t' k; cases k; rfl
  · intro p q a n s x v n1 m ih U t' k
    cases k with
    | structName v' n' m' =>
      obtain ⟨rfl, rfl⟩ := U.struct v v' n1 n'
      rw [ih (U.down v) _ m']
  · intro p s x m ih U t' k
    cases k with
    | structDef m' => rw [ih U _ m']
  · intro p q a n e x v n1 m _ U t' k
    cases k with
    | enumName v' n' m' =>
      obtain ⟨rfl, rfl⟩ := U.enum v v' n1 n'
      rw [m.det (U.down v) m']
  · intro p q n s x v n1 m ih U t' k
    cases k with
    | identStruct v' n' m' =>
      obtain ⟨rfl, rfl⟩ := U.struct v v' n1 n'
      rw [ih (U.down v) _ m']
    | identEnum v' n' m' => exact (U.clash v v' n1 n').elim
  · intro p q n e x v n1 m _ U t' k
    cases k with
    | identEnum v' n' m' =>
      obtain ⟨rfl, rfl⟩ := U.enum v v' n1 n'
      rw [m.det (U.down v) m']
    | identStruct v' n' m' => exact (U.clash v' v n' n1).elim
  · intro p e t m ih U t' k
    cases k with
    | elem m' => exact ih U _ m'
  · intro p e t len n m l _ _ ih U t' k
    cases k with
    | array m' l' _ _ => rw [ih U _ m', l.det l']
  · intro p a n sz b fs dyn m _ dy ih U x' k
    cases k with
    | mk m' _ dy' =>
      cases ih U _ m'
      congr 1
      exact Bool.eq_iff_iff.2 (dy.trans dy'.symm)
  · intro p U xs' k; cases k; rfl
  · intro p f r xs ys m r1 ih ih' U xs' k
    cases k with
    | cons m' r' => rw [ih U _ m', ih' U _ r']
  · intro p U xs' k; cases k; rfl
  · intro p sz os b m U xs' k
    cases k with | void m' => rw [m.det m']
  · intro p t sz v os b l opts n s m o _ U xs' k
    cases k with
    | const s' m' o' => rw [m.det U m', o.det o', s.det s' (fun a b => a.trans b.symm)]
  · intro p t os x m ih U xs' k
    cases k with
    | embedded m' => cases ih U _ m'; rfl
  · intro p t n sz os ty b opts m s o ih U xs' k
    cases k with
    | normal m' s' o' => cases ih U _ m'; rw [o.det o', s.det s' (fun a b => a.det b)]
  · intro p t n sz os ms ty b opts gs m s o g ih U xs' k
    cases k with
    | methods m' s' o' g' => cases ih U _ m'; rw [o.det o', s.det s' (fun a b => a.det b), g.det g']

theorem FileMeans.det {p : Str} {f : List Stmt} {l l' : List (Str × CTy)} (h : FileMeans resolve d p f l) (U : Uniq resolve d p)
    (k : FileMeans resolve d p f l') : l = l' := by
  induction h generalizing l' with
  | nil => cases k; rfl
  | struct m _ ih => cases k with | struct m' k => rw [m.det U m', ih k]
  | enum m _ ih => cases k with | enum m' k => rw [m.det U m', ih k]
  | imp _ ih => cases k with | imp k => exact ih k
  | package _ ih => cases k with | package k => exact ih k
  | option _ ih => cases k with | option k => exact ih k
  | empty _ ih => cases k with | empty k => exact ih k

end
end Bubbler.Front
