import Verif.Codec.PySim

/-
Whole messages in Python: the values meant, and `decode` against the Go target.
-/
set_option linter.unusedSimpArgs false
namespace Bubbler

/-- The integers an `n`-bit scalar can hold. -/
def Sc.PyRange (s : Sc) (n : Nat) (x : Int) : Prop :=
  if s.signed then -(2 : Int) ^ (n - 1) ≤ x ∧ x < (2 : Int) ^ (n - 1) else 0 ≤ x ∧ x < (2 : Int) ^ n

mutual
  /-- Python values that fit their declaration: integers in the range of their bit width, strings that
  are UTF-8 without NUL, enum numbers that are members. -/
  def Ty.PyFits (c : PyCfg) : (t : Ty) → (ctx : List Fields) → Nat → t.PyVal → Prop
    | .sc (.prim p), _, n, (x : Int) => (Sc.prim p).PyRange n x
    | .sc (.enum b), ctx, n, (x : Int) => (Sc.enum b).PyRange n x ∧ c.member ctx x = true
    | .str, _, _, (s : List Byte) => 0#8 ∉ s ∧ c.utf8 s = true
    | .bytes, _, _, _ => True
    | .struct fs, ctx, _, v => fs.PyFits c ctx v
  def Fields.PyFits (c : PyCfg) : (fs : Fields) → (ctx : List Fields) → fs.PyVal → Prop
    | .nil, _, _ => True
    | .void _ r, ctx, v => r.PyFits c ctx v
    | .const _ _ _ _ r, ctx, v => r.PyFits c ctx v
    | .one t bits big r, ctx, (v : t.PyVal × r.PyVal) =>
      t.PyFits c (.one t bits big r :: ctx) (bits.getD 0) v.1 ∧ r.PyFits c ctx v.2
    | .arr t len bits big r, ctx, (v : List t.PyVal × r.PyVal) =>
      (∀ x ∈ v.1, t.PyFits c (.arr t len bits big r :: ctx) (bits.getD 0 / len) x) ∧ r.PyFits c ctx v.2
end

theorem Sc.PyRange.ofPy {s : Sc} {n : Nat} (h : s.wf n = true) {x : Int} (hx : s.PyRange n x) :
    s.InRange n (BitVec.ofInt s.width x) ∧
    (if s.signed then (BitVec.ofInt s.width x).toInt else ((BitVec.ofInt s.width x).toNat : Int)) = x := by
  have hf := Sc.wf_facts h
  have hw : (2 : Int) ^ (n - 1) ≤ 2 ^ (s.width - 1) := by
    have := Nat.pow_le_pow_right (n := 2) (by omega) (show n - 1 ≤ s.width - 1 by omega)
    exact_mod_cast this
  have hw2 : (2 : Int) ^ n ≤ 2 ^ s.width := by
    have := Nat.pow_le_pow_right (n := 2) (by omega) hf.2.1
    exact_mod_cast this
  have hd := two_pow_cast (n := s.width) (by omega)
  unfold Sc.PyRange at hx
  unfold Sc.InRange
  by_cases hs : s.signed = true
  · simp only [hs, if_true] at hx ⊢
    have e : (BitVec.ofInt s.width x).toInt = x := by
      rw [BitVec.toInt_ofInt]
      apply Int.bmod_eq_of_le <;> omega
    rw [e]; exact ⟨hx, rfl⟩
  · simp only [hs, if_false, Bool.false_eq_true] at hx ⊢
    have e : ((BitVec.ofInt s.width x).toNat : Int) = x := by
      rw [BitVec.toNat_ofInt]
      rw [Int.toNat_of_nonneg (Int.emod_nonneg _ (by have := Nat.two_pow_pos s.width; omega))]
      apply Int.emod_eq_of_lt hx.1
      have : ((2 ^ s.width : Nat) : Int) = (2 : Int) ^ s.width := by norm_cast
      omega
    refine ⟨?_, e⟩
    have : ((2 ^ n : Nat) : Int) = (2 : Int) ^ n := by norm_cast
    omega

mutual
  theorem Ty.PyFits.ofPy {c : PyCfg} : ∀ (t : Ty) (ctx : List Fields) (arr : Bool) (start n : Nat) (v : t.PyVal),
      t.wf = true → t.elemOk arr start n → t.PyFits c ctx n v →
      t.InRange n (t.ofPy v) ∧ t.pyAcc c ctx (t.ofPy v) = true ∧ t.toPy (t.ofPy v) = v
    | .sc (.prim p), ctx, arr, start, n, (v : Int) => by
      intro _ hok h
      simp only [Ty.elemOk] at hok
      simp only [Ty.PyFits] at h
      obtain ⟨h1, h2⟩ := h.ofPy hok.1
      refine ⟨h1, rfl, ?_⟩
      simp only [Ty.ofPy, Ty.toPy]; exact h2
    | .sc (.enum b), ctx, arr, start, n, (v : Int) => by
      intro _ hok h
      simp only [Ty.elemOk] at hok
      simp only [Ty.PyFits] at h
      obtain ⟨h1, h2⟩ := h.1.ofPy hok.1
      simp only [Sc.signed, Bool.false_eq_true, if_false] at h2
      refine ⟨h1, ?_, ?_⟩
      · simp only [Ty.ofPy, Ty.pyAcc, h2]; exact h.2
      · simp only [Ty.ofPy, Ty.toPy, Sc.signed, Bool.false_eq_true, if_false]; exact h2
    | .str, ctx, arr, start, n, (v : List Byte) => by
      intro _ _ h
      exact ⟨h.1, h.2, rfl⟩
    | .bytes, ctx, arr, start, n, (v : List Byte) => by
      intro _ _ h
      exact ⟨trivial, rfl, rfl⟩
    | .struct fs, ctx, arr, start, n, v => by
      intro hw _ h
      simp only [Ty.wf, Bool.and_eq_true] at hw
      exact Fields.PyFits.ofPy fs ctx 0 v hw.1 h
  theorem Fields.PyFits.ofPy {c : PyCfg} : ∀ (fs : Fields) (ctx : List Fields) (start : Nat) (v : fs.PyVal),
      fs.wf start = true → fs.PyFits c ctx v →
      fs.InRange (fs.ofPy v) ∧ fs.pyAcc c ctx (fs.ofPy v) = true ∧ fs.toPy (fs.ofPy v) = v
    | .nil, ctx, start, v => by intro _ _; exact ⟨trivial, rfl, rfl⟩
    | .void n r, ctx, start, v => by
      intro hw h
      simp only [Fields.wf] at hw
      exact Fields.PyFits.ofPy r ctx _ v hw h
    | .const p n big val r, ctx, start, v => by
      intro hw h
      simp only [Fields.wf, Bool.and_eq_true] at hw
      exact Fields.PyFits.ofPy r ctx _ v hw.2 h
    | .one t bits big r, ctx, start, (v : t.PyVal × r.PyVal) => by
      intro hw h
      obtain ⟨h1, h2, h3, _⟩ := wf_one hw
      obtain ⟨a1, a2, a3⟩ := Ty.PyFits.ofPy t (.one t bits big r :: ctx) false start (bits.getD 0) v.1 h1 h3 h.1
      obtain ⟨b1, b2, b3⟩ := Fields.PyFits.ofPy r ctx _ v.2 h2 h.2
      refine ⟨⟨a1, b1⟩, ?_, ?_⟩
      · simp only [Fields.ofPy, Fields.pyAcc, a2, b2, Bool.and_true]
      · simp only [Fields.ofPy, Fields.toPy, a3, b3]; rfl
    | .arr t len bits big r, ctx, start, (v : List t.PyVal × r.PyVal) => by
      intro hw h
      obtain ⟨h0, h1, h2, h3, _⟩ := wf_arr hw
      have a := fun x hx => Ty.PyFits.ofPy t (.arr t len bits big r :: ctx) true start (bits.getD 0 / len) x h1
        (by simpa using h3 0) (h.1 x hx)
      obtain ⟨b1, b2, b3⟩ := Fields.PyFits.ofPy r ctx _ v.2 h2 h.2
      refine ⟨⟨?_, b1⟩, ?_, ?_⟩
      · intro x hx
        simp only [Fields.ofPy] at hx
        obtain ⟨y, hy, rfl⟩ := List.mem_map.mp hx
        exact (a y hy).1
      · simp only [Fields.ofPy, Fields.pyAcc, b2, Bool.and_true, List.all_eq_true]
        intro x hx
        obtain ⟨y, hy, rfl⟩ := List.mem_map.mp hx
        exact (a y hy).2.1
      · simp only [Fields.ofPy, Fields.toPy, b3, List.map_map]
        have : (v.1.map ((fun x => t.toPy x) ∘ fun x => t.ofPy x)) = v.1 := by
          conv => rhs; rw [← List.map_id v.1]
          exact List.map_congr_left (fun x hx => (a x hx).2.2)
        rw [this]
end

/-- A Go value back from its Python form. -/
theorem ofPy_toPy_sc (s : Sc) (x : BitVec s.width) :
    BitVec.ofInt s.width (if s.signed then x.toInt else (x.toNat : Int)) = x := by
  split
  · exact BitVec.ofInt_toInt
  · rw [BitVec.ofInt_natCast, BitVec.ofNat_toNat, BitVec.setWidth_eq]

/-- `decode` in Python against Decode in Go (code without loops, any sign extension method). -/
theorem Fields.pyDecode_sim (cg : Cfg) (hcg : ∀ len, cg.useLoop len = false) (c : PyCfg) {fs : Fields}
    (h : fs.accepted = true) (hn : fs.noDirectDyn = true) (ha : fs.pyAligned c 0 = true) {d : Buf}
    (hd : d.length < 2 ^ 62) (hw : fs.NoWrap d) :
    PySim c.total (fun v => fs.pyAcc c [] v) (fun v => fs.toPy v) (fs.decode cg d) (fs.pyDecode c d) := by
  obtain ⟨h1, h2, h3, h4⟩ := Fields.accepted_facts h
  have hrel := Fields.decodeSize_rel (d := d) h1 h3 h4 hd
  have hrelP := Fields.pyDecodeSize_rel h1 d
  cases hs : fs.iSize d with
  | ret r =>
    rw [hs] at hrel hrelP
    have hr := hrel (hw r hs)
    have hneg := Fields.iSize_neg hs
    obtain ⟨r', hr1, hr2⟩ := hrelP
    simp only [Fields.decode, Fields.pyDecode, hr, hr2, hneg, hr1, if_true]
    exact Or.inl rfl
  | ok o =>
    rw [hs] at hrel hrelP
    simp only [RelSize] at hrel
    simp only [PRelSize] at hrelP
    obtain ⟨off, g1, g2, g3⟩ := iFinish_bound hs
    have hsim := Fields.pyDec_sim cg hcg c fs [] 0 d 0 off h1 hn h3 hd (by omega) g1 (by omega) ha
    have hm := hsim.mapOff (fun o => o + fs.sum / 8)
    have hneg : ¬ (o : Int) < 0 := by omega
    have eg : fs.decode cg d = mapOff (fun o => o + fs.sum / 8) (fs.decFields cg d 0 0) := by
      simp only [Fields.decode, hrel]
      rw [if_neg hneg]
      rcases fs.decFields cg d 0 0 with ⟨v, o⟩ | _ | _ <;> rfl
    have ep : fs.pyDecode c d = mapOff (fun o => o + fs.sum / 8) (fs.pyDecFields c [] d 0 0) := by
      simp only [Fields.pyDecode, hrelP]
      rw [if_neg hneg]
      rcases fs.pyDecFields c [] d 0 0 with ⟨v, o⟩ | _ | _ <;> rfl
    rw [eg, ep]
    exact hm

end Bubbler
