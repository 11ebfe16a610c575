import Verif.Codec.Decode
import Verif.Codec.EncProofs

/-
DecodeSize over unbounded integers, its relation to the exact 64-bit model, and its behaviour
under extension of the input.  Everything here is proof machinery except `Fields.sizesOk` and
`Fields.noDynArr`, which appear in property statements.
-/
set_option linter.unusedSimpArgs false
namespace Bubbler

inductive IScan where
  | ok (off : Nat)
  | ret (r : Int)
deriving DecidableEq, Repr

def iLeaf (leaf : Buf → Nat → Scan) (k : Nat) (d : Buf) (off : Nat) : IScan :=
  if d.length ≤ off + k then .ret (-((off + k + 1 : Nat) : Int))
  else match leaf d (off + k) with
    | .ok c => .ok (off + c)
    | .ret r => .ret r
    | .panic => .ret (-1)

def iSub (size : Buf → IScan) (k : Nat) (d : Buf) (off : Nat) : IScan :=
  match size (d.drop (off + k)) with
  | .ok s => .ok (off + s)
  | .ret r => .ret (r - (off + k : Nat))

def iIter (f : Nat → IScan) : Nat → Nat → IScan
  | 0, off => .ok off
  | n + 1, off =>
    match f off with
    | .ok off => iIter f n off
    | r => r

def iFinish (d : Buf) (bytes : Nat) : IScan → IScan
  | .ret r => .ret r
  | .ok off => if d.length < off + bytes then .ret (-((off + bytes : Nat) : Int)) else .ok (off + bytes)

mutual
  def Ty.iElem : (t : Ty) → (k : Nat) → Buf → Nat → IScan
    | .sc _, _, _, off => .ok off
    | .str, k, d, off => iLeaf dsStringAt k d off
    | .bytes, k, d, off => iLeaf dsBytesAt k d off
    | .struct fs, k, d, off =>
      if fs.dynamic then iSub (fun sub => iFinish sub (fs.sum / 8) (fs.iFields 0 sub 0)) k d off
      else .ok off
  def Fields.iFields : (fs : Fields) → (start : Nat) → Buf → Nat → IScan
    | .nil, _, _, off => .ok off
    | .void n r, start, d, off => r.iFields (start + n) d off
    | .const _ n _ _ r, start, d, off => r.iFields (start + n) d off
    | .one _ (some n) _ r, start, d, off => r.iFields (start + n) d off
    | .one t none _ r, start, d, off =>
      match t.iElem (start / 8) d off with
      | .ok off => r.iFields start d off
      | o => o
    | .arr _ _ (some n) _ r, start, d, off => r.iFields (start + n) d off
    | .arr t len none _ r, start, d, off =>
      match iIter (fun off => t.iElem (start / 8) d off) len off with
      | .ok off => r.iFields start d off
      | o => o
end

/-- DecodeSize without wrap-around. -/
def Fields.iSize (fs : Fields) (d : Buf) : IScan := iFinish d (fs.sum / 8) (fs.iFields 0 d 0)

mutual
  /-- Every struct's fixed size fits Go's `int64` (definition/struct.go keeps it in one). -/
  def Ty.sizesOk : Ty → Bool
    | .struct fs => fs.sizesOk && decide (fs.sum < 2 ^ 63)
    | _ => true
  def Fields.sizesOk : Fields → Bool
    | .nil => true
    | .void _ r => r.sizesOk
    | .const _ _ _ _ r => r.sizesOk
    | .one t _ _ r => t.sizesOk && r.sizesOk
    | .arr t _ _ _ r => t.sizesOk && r.sizesOk
end

mutual
  /-- No array whose elements are dynamic structs, at any depth. -/
  def Ty.noDynArr : Ty → Bool
    | .struct fs => fs.noDynArr
    | _ => true
  def Fields.noDynArr : Fields → Bool
    | .nil => true
    | .void _ r => r.noDynArr
    | .const _ _ _ _ r => r.noDynArr
    | .one t _ _ r => t.noDynArr && r.noDynArr
    | .arr t _ _ _ r => t.noDynArr && r.noDynArr &&
        match t with
        | .struct fs => !fs.dynamic
        | _ => true
end

/-! ### Bounds -/

theorem iLeaf_bound {leaf} (hl : LeafSpec leaf) {k : Nat} {d : Buf} {off o : Nat}
    (h : iLeaf leaf k d off = .ok o) : off ≤ o ∧ o + k ≤ d.length := by
  unfold iLeaf at h
  split at h
  · cases h
  · split at h
    · rename_i c hc
      have := hl.bound _ _ _ hc
      cases h; omega
    · cases h
    · cases h

theorem iFinish_bound {d : Buf} {b : Nat} {s : IScan} {o : Nat} (h : iFinish d b s = .ok o) :
    ∃ off, s = .ok off ∧ o = off + b ∧ o ≤ d.length := by
  cases s with
  | ret r => cases h
  | ok off =>
    simp only [iFinish] at h
    split at h
    · cases h
    · cases h; exact ⟨off, rfl, rfl, by omega⟩

theorem iSub_bound {size : Buf → IScan} (hs : ∀ d o, size d = .ok o → o ≤ d.length) {k : Nat} {d : Buf} {off o : Nat}
    (hoff : off ≤ d.length) (h : iSub size k d off = .ok o) : off ≤ o ∧ o ≤ d.length := by
  unfold iSub at h
  split at h
  · rename_i s hc
    have := hs _ _ hc
    rw [List.length_drop] at this
    cases h; omega
  · cases h

theorem iIter_bound {f : Nat → IScan} {L : Nat} (hf : ∀ off o, off ≤ L → f off = .ok o → off ≤ o ∧ o ≤ L) :
    ∀ (n off o : Nat), off ≤ L → iIter f n off = .ok o → off ≤ o ∧ o ≤ L := by
  intro n
  induction n with
  | zero => intro off o h e; cases e; omega
  | succ n ih =>
    intro off o h e
    simp only [iIter] at e
    split at e
    · rename_i off1 h1
      have := hf _ _ h h1
      have := ih off1 o this.2 e
      omega
    · rename_i hne; exact absurd e (hne _)

mutual
  theorem Ty.iElem_bound : ∀ (t : Ty) (k : Nat) (d : Buf) (off o : Nat), off ≤ d.length →
      t.iElem k d off = .ok o → off ≤ o ∧ o ≤ d.length
    | .sc _, k, d, off, o => by intro h e; simp only [Ty.iElem] at e; cases e; omega
    | .str, k, d, off, o => by
      intro h e; simp only [Ty.iElem] at e; have := iLeaf_bound stringLeaf e; omega
    | .bytes, k, d, off, o => by
      intro h e; simp only [Ty.iElem] at e; have := iLeaf_bound bytesLeaf e; omega
    | .struct fs, k, d, off, o => by
      intro h e
      simp only [Ty.iElem] at e
      split at e
      · exact iSub_bound (fun d o h => by obtain ⟨_, _, _, h⟩ := iFinish_bound h; exact h) h e
      · cases e; omega
  theorem Fields.iFields_bound : ∀ (fs : Fields) (start : Nat) (d : Buf) (off o : Nat), off ≤ d.length →
      fs.iFields start d off = .ok o → off ≤ o ∧ o ≤ d.length
    | .nil, start, d, off, o => by intro h e; simp only [Fields.iFields] at e; cases e; omega
    | .void n r, start, d, off, o => by
      intro h e; simp only [Fields.iFields] at e; exact Fields.iFields_bound r _ d off o h e
    | .const _ n _ _ r, start, d, off, o => by
      intro h e; simp only [Fields.iFields] at e; exact Fields.iFields_bound r _ d off o h e
    | .one _ (some n) _ r, start, d, off, o => by
      intro h e; simp only [Fields.iFields] at e; exact Fields.iFields_bound r _ d off o h e
    | .one t none _ r, start, d, off, o => by
      intro h e
      simp only [Fields.iFields] at e
      split at e
      · rename_i off1 h1
        have := Ty.iElem_bound t _ d off off1 h h1
        have := Fields.iFields_bound r _ d off1 o this.2 e
        omega
      · rename_i hne; exact absurd e (hne _)
    | .arr _ _ (some n) _ r, start, d, off, o => by
      intro h e; simp only [Fields.iFields] at e; exact Fields.iFields_bound r _ d off o h e
    | .arr t len none _ r, start, d, off, o => by
      intro h e
      simp only [Fields.iFields] at e
      split at e
      · rename_i off1 h1
        have := iIter_bound (L := d.length) (fun off o h e => Ty.iElem_bound t _ d off o h e) len off off1 h h1
        have := Fields.iFields_bound r _ d off1 o this.2 e
        omega
      · rename_i hne; exact absurd e (hne _)
end

theorem Fields.iSize_bound {fs : Fields} {d : Buf} {o : Nat} (h : fs.iSize d = .ok o) : o ≤ d.length := by
  obtain ⟨_, _, _, h⟩ := iFinish_bound h; exact h

/-! ### The exact model agrees with the ideal one while nothing wraps -/

theorem w64_id {x : Int} (h1 : -2 ^ 63 ≤ x) (h2 : x < 2 ^ 63) : w64 x = x := by
  unfold w64; rw [Int.emod_eq_of_lt] <;> omega

/-- Exact outcome `x` is the ideal outcome `i`, unless the ideal result does not fit an `int64`. -/
def Rel (x : ScanX) (i : IScan) : Prop :=
  match i with
  | .ok o => x = .ok o
  | .ret r => -2 ^ 63 ≤ r → x = .ret r

/-- Same for a whole DecodeSize. -/
def RelSize (x : Option Int) (i : IScan) : Prop :=
  match i with
  | .ok o => x = some (o : Int)
  | .ret r => -2 ^ 63 ≤ r → x = some r

theorem leafX_rel {leaf} (hl : LeafSpec leaf) {k : Nat} {d : Buf} {off : Nat} (hoff : off ≤ d.length)
    (hd : d.length < 2 ^ 62) (hk : k < 2 ^ 60) : Rel (leafX leaf k d off) (iLeaf leaf k d off) := by
  have e0 : w64 ((off : Int) + k) = ((off + k : Nat) : Int) := by rw [w64_id] <;> omega
  unfold leafX iLeaf
  simp only [e0]
  by_cases c : d.length ≤ off + k
  · have c' : (d.length : Int) ≤ ((off + k : Nat) : Int) := by omega
    rw [if_pos c, if_pos c']
    intro _
    rw [w64_id (x := ((off + k : Nat) : Int) + 1) (by omega) (by omega), w64_id (by omega) (by omega)]
    congr 1
  · have c' : ¬ (d.length : Int) ≤ ((off + k : Nat) : Int) := by omega
    rw [if_neg c, if_neg c', if_neg (by omega), Int.toNat_natCast]
    cases hc : leaf d (off + k) with
    | ok cc =>
      have := hl.bound _ _ _ hc
      simp only [Rel]
      rw [w64_id] <;> first | omega | (congr 1)
    | ret r => intro _; rfl
    | panic => exact absurd hc (hl.noPanic _ _ (by omega))

theorem subX_rel {sizeX : Buf → Option Int} {size : Buf → IScan} {k : Nat} {d : Buf} {off : Nat}
    (hs : ∀ d' : Buf, d'.length < 2 ^ 62 → RelSize (sizeX d') (size d'))
    (hb : ∀ d' o, size d' = .ok o → o ≤ d'.length)
    (hneg : ∀ d' r, size d' = .ret r → r < 0)
    (hoff : off ≤ d.length)
    (hd : d.length < 2 ^ 62) (hk : k < 2 ^ 60) : Rel (subX sizeX k d off) (iSub size k d off) := by
  have e0 : w64 ((off : Int) + k) = ((off + k : Nat) : Int) := by rw [w64_id] <;> omega
  unfold subX iSub
  simp only [e0]
  have c1 : ¬ ((d.length : Int) > ((off + k : Nat) : Int) ∧ ((off + k : Nat) : Int) < 0) := by omega
  rw [if_neg c1]
  have hsub : (if (d.length : Int) > ((off + k : Nat) : Int) then d.drop ((off + k : Nat) : Int).toNat else []) =
      d.drop (off + k) := by
    by_cases c : (d.length : Int) > ((off + k : Nat) : Int)
    · rw [if_pos c, Int.toNat_natCast]
    · rw [if_neg c]; symm; apply List.drop_eq_nil_of_le; omega
  simp only [hsub]
  have hr := hs (d.drop (off + k)) (by rw [List.length_drop]; omega)
  cases hc : size (d.drop (off + k)) with
  | ok s =>
    rw [hc] at hr
    simp only [RelSize] at hr
    have := hb _ _ hc
    rw [List.length_drop] at this
    simp only [hr, Rel]
    rw [if_neg (by omega), w64_id] <;> first | omega | (congr 1)
  | ret r =>
    rw [hc] at hr
    simp only [RelSize] at hr
    simp only [Rel]
    intro hlow
    have h0 := hneg _ _ hc
    rw [hr (by omega)]
    simp only
    rw [if_pos h0, w64_id (x := -((off + k : Nat) : Int)) (by omega) (by omega), w64_id (by omega) (by omega)]
    have e1 : -((off + k : Nat) : Int) + r = r - (off + k : Nat) := by omega
    rw [e1]

theorem iIter_rel {fX : Int → ScanX} {f : Nat → IScan} {L : Nat}
    (hf : ∀ off : Nat, off ≤ L → Rel (fX off) (f off))
    (hb : ∀ off o, off ≤ L → f off = .ok o → off ≤ o ∧ o ≤ L) :
    ∀ (n off : Nat), off ≤ L → Rel (iterX fX n off) (iIter f n off) := by
  intro n
  induction n with
  | zero => intro off _; simp [iterX, iIter, Rel]
  | succ n ih =>
    intro off h
    have h1 := hf off h
    simp only [iterX, iIter]
    cases hc : f off with
    | ok o =>
      rw [hc] at h1; simp only [Rel] at h1
      simp only [h1]
      exact ih o (hb _ _ h hc).2
    | ret r =>
      rw [hc] at h1; simp only [Rel] at h1 ⊢
      intro hl; rw [h1 hl]

theorem finish_rel {x : ScanX} {i : IScan} {d : Buf} {b : Nat} (h : Rel x i)
    (hb : ∀ o, i = .ok o → o ≤ d.length) (hd : d.length < 2 ^ 62) (hk : b < 2 ^ 60) :
    RelSize (finishX d b x) (iFinish d b i) := by
  cases i with
  | ret r =>
    simp only [Rel, iFinish, RelSize] at h ⊢
    intro hl; rw [h hl]; rfl
  | ok o =>
    simp only [Rel] at h
    have ho := hb o rfl
    simp only [h, finishX, iFinish]
    have e : w64 ((o : Int) + b) = ((o + b : Nat) : Int) := by rw [w64_id] <;> omega
    rw [e]
    by_cases c : d.length < o + b
    · have c' : (d.length : Int) < ((o + b : Nat) : Int) := by omega
      rw [if_pos c, if_pos c']
      intro _
      rw [w64_id] <;> omega
    · have c' : ¬ (d.length : Int) < ((o + b : Nat) : Int) := by omega
      rw [if_neg c, if_neg c']; rfl

/-! ### Signs of early returns -/

theorem iLeaf_neg {leaf} (hl : LeafSpec leaf) {k : Nat} {d : Buf} {off : Nat} {r : Int}
    (h : iLeaf leaf k d off = .ret r) : r < 0 := by
  unfold iLeaf at h
  split at h
  · cases h; omega
  · split at h
    · cases h
    · rename_i r' hc
      have := hl.ret _ _ _ hc
      cases h; omega
    · cases h; omega

theorem iIter_neg {f : Nat → IScan} (hf : ∀ off r, f off = .ret r → r < 0) :
    ∀ (n off : Nat) (r : Int), iIter f n off = .ret r → r < 0 := by
  intro n
  induction n with
  | zero => intro off r e; cases e
  | succ n ih =>
    intro off r e
    simp only [iIter] at e
    split at e
    · exact ih _ _ e
    · exact hf _ _ e

theorem iFinish_neg {d : Buf} {b : Nat} {s : IScan} {r : Int} (hs : ∀ r, s = .ret r → r < 0)
    (h : iFinish d b s = .ret r) : r < 0 := by
  cases s with
  | ret r' => cases h; exact hs _ rfl
  | ok off =>
    simp only [iFinish] at h
    split at h
    · cases h; omega
    · cases h

mutual
  theorem Ty.iElem_neg : ∀ (t : Ty) (k : Nat) (d : Buf) (off : Nat) (r : Int),
      t.iElem k d off = .ret r → r < 0
    | .sc _, k, d, off, r => by intro e; simp only [Ty.iElem] at e; cases e
    | .str, k, d, off, r => by intro e; simp only [Ty.iElem] at e; exact iLeaf_neg stringLeaf e
    | .bytes, k, d, off, r => by intro e; simp only [Ty.iElem] at e; exact iLeaf_neg bytesLeaf e
    | .struct fs, k, d, off, r => by
      intro e
      simp only [Ty.iElem] at e
      split at e
      · unfold iSub at e
        split at e
        · cases e
        · rename_i r' hc
          have := iFinish_neg (fun r h => Fields.iFields_neg fs _ _ _ r h) hc
          cases e; omega
      · cases e
  theorem Fields.iFields_neg : ∀ (fs : Fields) (start : Nat) (d : Buf) (off : Nat) (r : Int),
      fs.iFields start d off = .ret r → r < 0
    | .nil, start, d, off, r => by intro e; simp only [Fields.iFields] at e; cases e
    | .void n r', start, d, off, r => by
      intro e; simp only [Fields.iFields] at e; exact Fields.iFields_neg r' _ d off r e
    | .const _ n _ _ r', start, d, off, r => by
      intro e; simp only [Fields.iFields] at e; exact Fields.iFields_neg r' _ d off r e
    | .one _ (some n) _ r', start, d, off, r => by
      intro e; simp only [Fields.iFields] at e; exact Fields.iFields_neg r' _ d off r e
    | .one t none _ r', start, d, off, r => by
      intro e
      simp only [Fields.iFields] at e
      split at e
      · exact Fields.iFields_neg r' _ d _ r e
      · exact Ty.iElem_neg t _ _ _ _ e
    | .arr _ _ (some n) _ r', start, d, off, r => by
      intro e; simp only [Fields.iFields] at e; exact Fields.iFields_neg r' _ d off r e
    | .arr t len none _ r', start, d, off, r => by
      intro e
      simp only [Fields.iFields] at e
      split at e
      · exact Fields.iFields_neg r' _ d _ r e
      · exact iIter_neg (fun off r h => Ty.iElem_neg t _ _ _ _ h) _ _ _ e
end

theorem Fields.iSize_neg {fs : Fields} {d : Buf} {r : Int} (h : fs.iSize d = .ret r) : r < 0 :=
  iFinish_neg (fun r h => Fields.iFields_neg fs _ _ _ r h) h

mutual
  theorem Ty.dsElem_rel : ∀ (t : Ty) (k : Nat) (d : Buf) (off : Nat), t.sizesOk = true → off ≤ d.length →
      d.length < 2 ^ 62 → k < 2 ^ 60 → Rel (t.dsElem k d off) (t.iElem k d off)
    | .sc _, k, d, off => by intro _ _ _ _; simp [Ty.dsElem, Ty.iElem, Rel]
    | .str, k, d, off => by
      intro _ h1 h2 h3; simp only [Ty.dsElem, Ty.iElem]; exact leafX_rel stringLeaf h1 h2 h3
    | .bytes, k, d, off => by
      intro _ h1 h2 h3; simp only [Ty.dsElem, Ty.iElem]; exact leafX_rel bytesLeaf h1 h2 h3
    | .struct fs, k, d, off => by
      intro h h1 h2 h3
      simp only [Ty.sizesOk, Bool.and_eq_true, decide_eq_true_eq] at h
      simp only [Ty.dsElem, Ty.iElem]
      split
      · refine subX_rel (fun d' hd' => ?_) (fun d o h => ?_) (fun d r h => ?_) h1 h2 h3
        · exact finish_rel (Fields.dsFields_rel fs 0 d' 0 h.1 (by omega) (by omega) hd')
            (fun o ho => (Fields.iFields_bound fs 0 d' 0 o (by omega) ho).2) hd' (by omega)
        · obtain ⟨_, _, _, h⟩ := iFinish_bound h; exact h
        · exact iFinish_neg (fun r h => Fields.iFields_neg fs _ _ _ r h) h
      · simp [Rel]
  theorem Fields.dsFields_rel : ∀ (fs : Fields) (start : Nat) (d : Buf) (off : Nat), fs.sizesOk = true →
      start + fs.sum < 2 ^ 63 → off ≤ d.length → d.length < 2 ^ 62 →
      Rel (fs.dsFields start d off) (fs.iFields start d off)
    | .nil, start, d, off => by intro _ _ _ _; simp [Fields.dsFields, Fields.iFields, Rel]
    | .void n r, start, d, off => by
      intro h hs h1 h2
      simp only [Fields.sizesOk, Fields.sum] at h hs
      simp only [Fields.dsFields, Fields.iFields]
      exact Fields.dsFields_rel r _ d off h (by omega) h1 h2
    | .const _ n _ _ r, start, d, off => by
      intro h hs h1 h2
      simp only [Fields.sizesOk, Fields.sum] at h hs
      simp only [Fields.dsFields, Fields.iFields]
      exact Fields.dsFields_rel r _ d off h (by omega) h1 h2
    | .one t (some n) _ r, start, d, off => by
      intro h hs h1 h2
      simp only [Fields.sizesOk, Fields.sum, Bool.and_eq_true, Option.getD_some] at h hs
      simp only [Fields.dsFields, Fields.iFields]
      exact Fields.dsFields_rel r _ d off h.2 (by omega) h1 h2
    | .one t none _ r, start, d, off => by
      intro h hs h1 h2
      simp only [Fields.sizesOk, Fields.sum, Bool.and_eq_true, Option.getD_none] at h hs
      simp only [Fields.dsFields, Fields.iFields]
      have hr := Ty.dsElem_rel t (start / 8) d off h.1 h1 h2 (by omega)
      cases hc : t.iElem (start / 8) d off with
      | ok o =>
        rw [hc] at hr; simp only [Rel] at hr
        simp only [hr]
        exact Fields.dsFields_rel r _ d o h.2 (by omega) (Ty.iElem_bound t _ _ _ _ h1 hc).2 h2
      | ret q =>
        rw [hc] at hr; simp only [Rel] at hr ⊢
        intro hl; rw [hr hl]
    | .arr t len (some n) _ r, start, d, off => by
      intro h hs h1 h2
      simp only [Fields.sizesOk, Fields.sum, Bool.and_eq_true, Option.getD_some] at h hs
      simp only [Fields.dsFields, Fields.iFields]
      exact Fields.dsFields_rel r _ d off h.2 (by omega) h1 h2
    | .arr t len none _ r, start, d, off => by
      intro h hs h1 h2
      simp only [Fields.sizesOk, Fields.sum, Bool.and_eq_true, Option.getD_none] at h hs
      simp only [Fields.dsFields, Fields.iFields]
      have hb : ∀ off o, off ≤ d.length → t.iElem (start / 8) d off = .ok o → off ≤ o ∧ o ≤ d.length :=
        fun off o h e => Ty.iElem_bound t _ d off o h e
      have hr := iIter_rel (fX := fun off => t.dsElem (start / 8) d off) (f := fun off => t.iElem (start / 8) d off)
        (L := d.length) (fun off ho => Ty.dsElem_rel t (start / 8) d off h.1 ho h2 (by omega)) hb len off h1
      cases hc : iIter (fun off => t.iElem (start / 8) d off) len off with
      | ok o =>
        rw [hc] at hr; simp only [Rel] at hr
        simp only [hr]
        exact Fields.dsFields_rel r _ d o h.2 (by omega) (iIter_bound hb _ _ _ h1 hc).2 h2
      | ret q =>
        rw [hc] at hr; simp only [Rel] at hr ⊢
        intro hl; rw [hr hl]
end

mutual
  theorem Fields.iFields_static : ∀ (fs : Fields) (start : Nat) (d : Buf) (off : Nat),
      fs.wf start = true → fs.dynamic = false → fs.iFields start d off = .ok off
    | .nil, start, d, off => by intro _ _; rfl
    | .void n r, start, d, off => by
      intro h hd
      simp only [Fields.iFields]
      exact Fields.iFields_static r _ d off (by simpa [Fields.wf] using h) (by simpa [Fields.dynamic] using hd)
    | .const _ n _ _ r, start, d, off => by
      intro h hd
      simp only [Fields.iFields]
      simp only [Fields.wf, Bool.and_eq_true] at h
      exact Fields.iFields_static r _ d off h.2 (by simpa [Fields.dynamic] using hd)
    | .one t (some n) _ r, start, d, off => by
      intro h hd
      simp only [Fields.iFields]
      simp only [Fields.dynamic, Bool.or_eq_false_iff] at hd
      exact Fields.iFields_static r _ d off (wf_one h).2.1 hd.2
    | .one t none _ r, start, d, off => by
      intro h hd
      simp only [Fields.dynamic, Bool.or_eq_false_iff] at hd
      have := (wf_one h).2.2.2.2 rfl
      rw [hd.1] at this; cases this
    | .arr t len (some n) _ r, start, d, off => by
      intro h hd
      simp only [Fields.iFields]
      simp only [Fields.dynamic, Bool.or_eq_false_iff] at hd
      exact Fields.iFields_static r _ d off (wf_arr h).2.2.1 hd.2
    | .arr t len none _ r, start, d, off => by
      intro h hd
      simp only [Fields.dynamic, Bool.or_eq_false_iff] at hd
      have := (wf_arr h).2.2.2.2.2.2.1.mp rfl
      rw [hd.1] at this; cases this
end

/-- DecodeSize of a struct is its ideal version. -/
theorem Fields.decodeSize_rel {fs : Fields} {d : Buf} (hwf : fs.wf 0 = true) (hs : fs.sizesOk = true)
    (hsum : fs.sum < 2 ^ 63) (hd : d.length < 2 ^ 62) : RelSize (fs.decodeSize d) (fs.iSize d) := by
  unfold Fields.decodeSize Fields.iSize
  by_cases c : fs.dynamic = true
  · rw [if_pos c]
    exact finish_rel (Fields.dsFields_rel fs 0 d 0 hs (by omega) (by omega) hd)
      (fun o ho => (Fields.iFields_bound fs 0 d 0 o (by omega) ho).2) hd (by omega)
  · rw [if_neg c, Fields.iFields_static fs 0 d 0 hwf (by simpa using c)]
    simp only [iFinish, Nat.zero_add]
    split
    · simp [RelSize]
    · simp [RelSize]

end Bubbler
