import Verif.Props.BridgeProps
import Verif.Obj.FreshProofs

/-
C73: the constants `Dynamic` and `Size` of generated types.
-/
namespace Bubbler
open Comp

/-- `Dynamic()` of the generated type (golang.go 601-603, c.go 624, cpp.go 695, csharp.go 598, java.go 535-537, python.go
380-381, commonjs.go 1213-1215, esm.go 1159-1161, kotlin.go 393): the flag of the compiler, as it is. -/
def _root_.Bubbler.Comp.StructD.dynamicConst (s : StructD) : Bool := s.dyn

/-- `Size()` of the generated type (golang.go 605-607, c.go 625, cpp.go 696, csharp.go 599, java.go 539-541, python.go
384-385, commonjs.go 1225, esm.go 1171, kotlin.go 394): the bit size of the compiler, divided by 8. -/
def _root_.Bubbler.Comp.StructD.sizeConst (s : StructD) : Int := s.bits.tdiv 8

/-! ### A message as long as wanted -/

mutual
  /-- The value with all numbers 0, all strings and byte strings of length `N`. -/
  def Ty.grown (N : Nat) : (t : Ty) → t.Val
    | .sc s => (0#(s.width) : BitVec s.width)
    | .str => List.replicate N (1#8 : Byte)
    | .bytes => List.replicate N (1#8 : Byte)
    | .struct fs => fs.grown N
  def Fields.grown (N : Nat) : (fs : Fields) → fs.Val
    | .nil => ()
    | .void _ r => r.grown N
    | .const _ _ _ _ r => r.grown N
    | .one t _ _ r => (t.grown N, r.grown N)
    | .arr t len _ _ r => (List.replicate len (t.grown N), r.grown N)
end

mutual
  theorem Ty.grown_legal {N : Nat} (hN : N ≤ maxInt) : ∀ (t : Ty), t.Legal (t.grown N)
    | .sc s => by intro _; show (0#(s.width)).toNat ≤ 1; simp
    | .str => trivial
    | .bytes => by show (List.replicate N (1#8 : Byte)).length ≤ maxInt; simpa using hN
    | .struct fs => Fields.grown_legal hN fs
  theorem Fields.grown_legal {N : Nat} (hN : N ≤ maxInt) : ∀ (fs : Fields), fs.Legal (fs.grown N)
    | .nil => trivial
    | .void _ r => Fields.grown_legal hN r
    | .const _ _ _ _ r => Fields.grown_legal hN r
    | .one t _ _ r => ⟨Ty.grown_legal hN t, Fields.grown_legal hN r⟩
    | .arr t len _ _ r => by
      have h := Ty.grown_legal hN t
      refine ⟨List.length_replicate .., fun x hx => ?_, Fields.grown_legal hN r⟩
      have hx : x ∈ List.replicate len (t.grown N) := hx
      rw [List.eq_of_mem_replicate hx]; exact h
end

mutual
  theorem Ty.grown_inRange (N : Nat) : ∀ (t : Ty) (n : Nat), t.InRange n (t.grown N)
    | .sc s, n => Sc.zero_inRange s n
    | .str, _ => by
      show 0#8 ∉ List.replicate N (1#8 : Byte)
      intro h; exact absurd (List.eq_of_mem_replicate h) (by decide)
    | .bytes, _ => trivial
    | .struct fs, _ => Fields.grown_inRange N fs
  theorem Fields.grown_inRange (N : Nat) : ∀ (fs : Fields), fs.InRange (fs.grown N)
    | .nil => trivial
    | .void _ r => Fields.grown_inRange N r
    | .const _ _ _ _ r => Fields.grown_inRange N r
    | .one t bits _ r => ⟨Ty.grown_inRange N t _, Fields.grown_inRange N r⟩
    | .arr t len bits _ r => by
      have h := Ty.grown_inRange N t (bits.getD 0 / len)
      refine ⟨fun x hx => ?_, Fields.grown_inRange N r⟩
      have hx : x ∈ List.replicate len (t.grown N) := hx
      rw [List.eq_of_mem_replicate hx]; exact h
end

mutual
  theorem Ty.grown_size (N : Nat) : ∀ (t : Ty), t.wf = true → t.dynamic = true → N < t.sizeExtra (t.grown N)
    | .sc s, _, h => by simp [Ty.dynamic] at h
    | .str, _, _ => by simp [Ty.sizeExtra, Ty.grown]
    | .bytes, _, _ => by simp [Ty.sizeExtra, Ty.grown]; omega
    | .struct fs, hw, h => by
      have hd : fs.dynamic = true := by simpa [Ty.dynamic] using h
      simp only [Ty.wf, Bool.and_eq_true] at hw
      have ih := Fields.grown_size N fs 0 hw.1 hd
      simp only [Ty.sizeExtra, Ty.grown, hd, if_true]
      omega
  theorem Fields.grown_size (N : Nat) : ∀ (fs : Fields) (start : Nat), fs.wf start = true → fs.dynamic = true →
      N < fs.sizeExtra (fs.grown N)
    | .nil, _, _, h => by simp [Fields.dynamic] at h
    | .void n r, start, hw, h => by
      simpa [Fields.sizeExtra, Fields.grown] using
        Fields.grown_size N r (start + n) (by simpa [Fields.wf] using hw) (by simpa [Fields.dynamic] using h)
    | .const p n b v r, start, hw, h => by
      simp only [Fields.wf, Bool.and_eq_true] at hw
      simpa [Fields.sizeExtra, Fields.grown] using
        Fields.grown_size N r (start + n) hw.2 (by simpa [Fields.dynamic] using h)
    | .one t bits b r, start, hw, h => by
      obtain ⟨h1, h2, _⟩ := wf_one hw
      simp only [Fields.dynamic, Bool.or_eq_true] at h
      have i1 := Ty.grown_size N t h1
      have i2 := Fields.grown_size N r _ h2
      show N < t.sizeExtra (t.grown N) + r.sizeExtra (r.grown N)
      rcases h with h | h
      · have := i1 h; omega
      · have := i2 h; omega
    | .arr t len bits b r, start, hw, h => by
      obtain ⟨h3, h1, h2, _⟩ := wf_arr hw
      simp only [Fields.dynamic, Bool.or_eq_true] at h
      have i1 := Ty.grown_size N t h1
      have i2 := Fields.grown_size N r _ h2
      show N < ((List.replicate len (t.grown N)).map (fun x => t.sizeExtra x)).sum + r.sizeExtra (r.grown N)
      rcases h with h | h
      · have := i1 h
        obtain ⟨m, rfl⟩ : ∃ m, len = m + 1 := ⟨len - 1, by omega⟩
        rw [List.replicate_succ, List.map_cons, List.sum_cons]
        omega
      · have := i2 h; omega
end

/-! ### The zero value is the shortest -/

theorem sum_replicate_le {α : Type} (f : α → Nat) (z : α) : ∀ (l : List α), (∀ x ∈ l, f z ≤ f x) →
    ((List.replicate l.length z).map f).sum ≤ (l.map f).sum
  | [], _ => by simp
  | x :: xs, h => by
    have ih := sum_replicate_le f z xs (fun y hy => h y (by simp [hy]))
    have := h x (by simp)
    simp only [List.length_cons, List.replicate_succ, List.map_cons, List.sum_cons]
    omega

mutual
  theorem Ty.zero_smallest : ∀ (t : Ty) (v : t.Val), t.Legal v → t.sizeExtra t.zero ≤ t.sizeExtra v
    | .sc s, v, _ => by simp [Ty.sizeExtra]
    | .str, v, _ => by simp [Ty.sizeExtra, Ty.zero]
    | .bytes, v, _ => by simp [Ty.sizeExtra, Ty.zero, lenExtra_zero]; omega
    | .struct fs, v, h => by
      have ih := Fields.zero_smallest fs v h
      simp only [Ty.sizeExtra, Ty.zero]
      split <;> omega
  theorem Fields.zero_smallest : ∀ (fs : Fields) (v : fs.Val), fs.Legal v → fs.sizeExtra fs.zero ≤ fs.sizeExtra v
    | .nil, _, _ => by simp [Fields.sizeExtra]
    | .void _ r, v, h => by simpa [Fields.sizeExtra, Fields.zero] using Fields.zero_smallest r v h
    | .const _ _ _ _ r, v, h => by simpa [Fields.sizeExtra, Fields.zero] using Fields.zero_smallest r v h
    | .one t _ _ r, (v1, v2), h => by
      have i1 := Ty.zero_smallest t v1 h.1
      have i2 := Fields.zero_smallest r v2 h.2
      show t.sizeExtra t.zero + r.sizeExtra r.zero ≤ t.sizeExtra v1 + r.sizeExtra v2
      omega
    | .arr t len _ _ r, (v1, v2), h => by
      obtain ⟨hl, hx, hr⟩ := h
      have i1 : ∀ x ∈ v1, t.sizeExtra t.zero ≤ t.sizeExtra x := fun x hm => Ty.zero_smallest t x (hx x hm)
      have i2 := Fields.zero_smallest r v2 hr
      have i3 := sum_replicate_le (fun x => t.sizeExtra x) t.zero v1 i1
      simp only at hl
      rw [hl] at i3
      show ((List.replicate len t.zero).map (fun x => t.sizeExtra x)).sum + r.sizeExtra r.zero ≤
        (v1.map (fun x => t.sizeExtra x)).sum + r.sizeExtra v2
      omega
end

theorem sum_replicate' {α : Type} (f : α → Nat) (x : α) (n : Nat) : ((List.replicate n x).map f).sum = n * f x := by
  induction n with
  | zero => simp
  | succ n ih => rw [List.replicate_succ, List.map_cons, List.sum_cons, ih, Nat.succ_mul]; omega

mutual
  theorem Ty.grown_longer : ∀ (t : Ty), t.wf = true → t.dynamic = true → t.sizeExtra t.zero < t.sizeExtra (t.grown 1)
    | .sc s, _, h => by simp [Ty.dynamic] at h
    | .str, _, _ => by simp [Ty.sizeExtra, Ty.grown, Ty.zero]
    | .bytes, _, _ => by simp [Ty.sizeExtra, Ty.grown, Ty.zero, lenExtra_zero]
    | .struct fs, hw, h => by
      have hd : fs.dynamic = true := by simpa [Ty.dynamic] using h
      simp only [Ty.wf, Bool.and_eq_true] at hw
      have ih := Fields.grown_longer fs 0 hw.1 hd
      simp only [Ty.sizeExtra, Ty.grown, Ty.zero, hd, if_true]
      omega
  theorem Fields.grown_longer : ∀ (fs : Fields) (start : Nat), fs.wf start = true → fs.dynamic = true →
      fs.sizeExtra fs.zero < fs.sizeExtra (fs.grown 1)
    | .nil, _, _, h => by simp [Fields.dynamic] at h
    | .void n r, start, hw, h => by
      simpa [Fields.sizeExtra, Fields.grown, Fields.zero] using
        Fields.grown_longer r (start + n) (by simpa [Fields.wf] using hw) (by simpa [Fields.dynamic] using h)
    | .const p n b v r, start, hw, h => by
      simp only [Fields.wf, Bool.and_eq_true] at hw
      simpa [Fields.sizeExtra, Fields.grown, Fields.zero] using
        Fields.grown_longer r (start + n) hw.2 (by simpa [Fields.dynamic] using h)
    | .one t bits b r, start, hw, h => by
      obtain ⟨h1, h2, _⟩ := wf_one hw
      simp only [Fields.dynamic, Bool.or_eq_true] at h
      have i1 := Ty.grown_longer t h1
      have i2 := Fields.grown_longer r _ h2
      have l1 := Ty.zero_smallest t _ (Ty.grown_legal (N := 1) (by decide) t)
      have l2 := Fields.zero_smallest r _ (Fields.grown_legal (N := 1) (by decide) r)
      show t.sizeExtra t.zero + r.sizeExtra r.zero < t.sizeExtra (t.grown 1) + r.sizeExtra (r.grown 1)
      rcases h with h | h
      · have := i1 h; omega
      · have := i2 h; omega
    | .arr t len bits b r, start, hw, h => by
      obtain ⟨h3, h1, h2, _⟩ := wf_arr hw
      simp only [Fields.dynamic, Bool.or_eq_true] at h
      have i1 := Ty.grown_longer t h1
      have i2 := Fields.grown_longer r _ h2
      have l1 := Ty.zero_smallest t _ (Ty.grown_legal (N := 1) (by decide) t)
      have l2 := Fields.zero_smallest r _ (Fields.grown_legal (N := 1) (by decide) r)
      show ((List.replicate len t.zero).map (fun x => t.sizeExtra x)).sum + r.sizeExtra r.zero <
        ((List.replicate len (t.grown 1)).map (fun x => t.sizeExtra x)).sum + r.sizeExtra (r.grown 1)
      rw [sum_replicate', sum_replicate']
      rcases h with h | h
      · have := Nat.mul_lt_mul_of_pos_left (i1 h) h3
        omega
      · have := i2 h
        have := Nat.mul_le_mul_left len l1
        omega
end

/-- One more byte at least for every variable-length part. -/
theorem Fields.dynamic_size {fs : Fields} {start : Nat} (hw : fs.wf start = true) (hd : fs.dynamic = true) (v : fs.Val)
    (hv : fs.Legal v) : 0 < fs.sizeExtra v := by
  have key : (∀ t : Ty, t.grown 0 = t.zero) ∧ True := by
    refine ⟨fun t => ?_, trivial⟩
    refine Ty.rec (motive_1 := fun t => t.grown 0 = t.zero) (motive_2 := fun fs => fs.grown 0 = fs.zero) ?_ ?_ ?_ ?_ ?_ ?_ ?_ ?_ ?_ t
    · intro s; rfl
    · rfl
    · rfl
    · intro fs ih; exact ih
    · rfl
    · intro _ r ih; exact ih
    · intro _ _ _ _ r ih; exact ih
    · intro t _ _ r i1 i2
      show (t.grown 0, r.grown 0) = (t.zero, r.zero)
      rw [i1, i2]
    · intro t len _ _ r i1 i2
      show (List.replicate len (t.grown 0), r.grown 0) = (List.replicate len t.zero, r.zero)
      rw [i1, i2]
  have h0 : fs.grown 0 = fs.zero := key.1 (.struct fs)
  have h1 := Fields.grown_size 0 fs start hw hd
  have h2 := Fields.zero_smallest fs v hv
  rw [h0] at h1
  omega

/-! ### C73 -/

/-- The definition `s` of an accepted project the Go target supports (as in C45), and its schema. -/
theorem sizeConst_eq {fs : FS} {entry : Str} {s : StructD} (h : InProject fs entry s) (hg : s.goOk = true) :
    ∃ sch, s.schema = some sch ∧ sch.accepted = true ∧ s.sizeConst = ((sch.sum / 8 : Nat) : Int) ∧
      s.dynamicConst = sch.dynamic := by
  obtain ⟨sch, h1, h2, h3, h4⟩ := C45_schema fs entry s h hg
  refine ⟨sch, h1, h2, ?_, h4.symm⟩
  unfold StructD.sizeConst
  rw [← h3, Int.tdiv_eq_ediv_of_nonneg (by omega)]
  omega

/-- **C73.** If `Dynamic()` is false, every message has `Size()` bytes: that many are encoded for every value, and
Decode reads that many, exactly if it does not return an error. -/
theorem C73_fixed (fs : FS) (entry : Str) (s : StructD) (h : InProject fs entry s) (hg : s.goOk = true)
    (hd : s.dynamicConst = false) :
    ∃ sch, s.schema = some sch ∧
      (∀ c v, sch.Legal v → ∃ d, sch.encode c v = some d ∧ (d.length : Int) = s.sizeConst) ∧
      (sch.noDirectDyn = true → ∀ c (d : Buf) v n, d.length < 2 ^ 62 → sch.NoWrap d →
        sch.decode c d = .ok (v, n) → (n : Int) = s.sizeConst) := by
  obtain ⟨sch, h1, hacc, hs, hdd⟩ := sizeConst_eq h hg
  rw [hdd] at hd
  refine ⟨sch, h1, ?_, ?_⟩
  · intro c v hv
    obtain ⟨d, e, hl⟩ := (C02_size_exact c hacc v hv).1
    refine ⟨d, e, ?_⟩
    rw [hl, hs]
    simp [Fields.encodeSize, hd]
  · intro hn c d v n hlen hw he
    obtain ⟨ws, hr, ha, hl⟩ := (Fields.decode_iff c hacc hn hlen hw v n).mp he
    obtain ⟨w1, w2, _⟩ := Fields.accepted_facts hacc
    have := Fields.Repr_length c sch 0 v ws w1 hd hr
    rw [hs]; omega

/-- **C73.** If `Dynamic()` is true, every message is longer than `Size()`, and there are messages of more bytes than
any given number (up to the largest slice Go can have). -/
theorem C73_variable (fs : FS) (entry : Str) (s : StructD) (h : InProject fs entry s) (hg : s.goOk = true)
    (hd : s.dynamicConst = true) :
    ∃ sch, s.schema = some sch ∧
      (∀ c v, sch.Legal v → ∃ d, sch.encode c v = some d ∧ s.sizeConst < (d.length : Int)) ∧
      (∀ c (N : Nat), N ≤ maxInt → ∃ v d, sch.Legal v ∧ sch.InRange v ∧ sch.encode c v = some d ∧ N < d.length) := by
  obtain ⟨sch, h1, hacc, hs, hdd⟩ := sizeConst_eq h hg
  rw [hdd] at hd
  obtain ⟨w1, w2, _⟩ := Fields.accepted_facts hacc
  refine ⟨sch, h1, ?_, ?_⟩
  · intro c v hv
    obtain ⟨d, e, hl⟩ := (C02_size_exact c hacc v hv).1
    refine ⟨d, e, ?_⟩
    have := Fields.dynamic_size w1 hd v hv
    rw [hl, hs]
    simp only [Fields.encodeSize, hd, if_true]
    omega
  · intro c N hN
    have hv := Fields.grown_legal hN sch
    obtain ⟨d, e, hl⟩ := (C02_size_exact c hacc _ hv).1
    refine ⟨sch.grown N, d, hv, Fields.grown_inRange N sch, e, ?_⟩
    have := Fields.grown_size N sch 0 w1 hd
    rw [hl]
    simp only [Fields.encodeSize, hd, if_true]
    omega

/-- **C73.** So `Dynamic()` is false exactly if all messages of the type have the same length. -/
theorem C73_dynamic_iff (fs : FS) (entry : Str) (s : StructD) (h : InProject fs entry s) (hg : s.goOk = true) (c : Cfg) :
    ∃ sch, s.schema = some sch ∧ (s.dynamicConst = false ↔
      ∀ v w d e, sch.Legal v → sch.Legal w → sch.encode c v = some d → sch.encode c w = some e → d.length = e.length) := by
  obtain ⟨sch, h1, hacc, hs, hdd⟩ := sizeConst_eq h hg
  refine ⟨sch, h1, fun hd v w d e hv hw hed hee => ?_, fun hall => ?_⟩
  · obtain ⟨sch', h1', hf, _⟩ := C73_fixed fs entry s h hg hd
    rw [h1] at h1'; cases h1'
    obtain ⟨d', e1, l1⟩ := hf c v hv
    obtain ⟨e', e2, l2⟩ := hf c w hw
    rw [hed] at e1; rw [hee] at e2
    cases e1; cases e2
    omega
  · cases hd : s.dynamicConst with
    | false => rfl
    | true =>
      exfalso
      have hz := Fields.zero_legal sch
      obtain ⟨d, e, hl⟩ := (C02_size_exact c hacc _ hz).1
      rw [hdd] at hd
      have hv := Fields.grown_legal (N := 1) (by decide) sch
      obtain ⟨d', e', hl'⟩ := (C02_size_exact c hacc _ hv).1
      have hlt := Fields.grown_longer sch 0 (Fields.accepted_facts hacc).1 hd
      have := hall _ _ _ _ hz hv e e'
      rw [hl, hl'] at this
      simp only [Fields.encodeSize, hd, if_true] at this
      omega

/-- **C73.** The zero value has the shortest message. -/
theorem C73_shortest (fs : FS) (entry : Str) (s : StructD) (h : InProject fs entry s) (hg : s.goOk = true) (c : Cfg) :
    ∃ sch, s.schema = some sch ∧ ∃ z, sch.encode c sch.zero = some z ∧
      ∀ v d, sch.Legal v → sch.encode c v = some d → z.length ≤ d.length := by
  obtain ⟨sch, h1, hacc, hs, hdd⟩ := sizeConst_eq h hg
  obtain ⟨z, e, hl⟩ := (C02_size_exact c hacc _ (Fields.zero_legal sch)).1
  refine ⟨sch, h1, z, e, fun v d hv he => ?_⟩
  obtain ⟨d', e', hl'⟩ := (C02_size_exact c hacc v hv).1
  rw [he] at e'; cases e'
  have := Fields.zero_smallest sch v hv
  rw [hl, hl']
  simp only [Fields.encodeSize]
  split <;> omega

/-- **C73.** Decode refuses everything shorter than `Size()`. -/
theorem C73_decode_needs (fs : FS) (entry : Str) (s : StructD) (h : InProject fs entry s) (hg : s.goOk = true) (c : Cfg) :
    ∃ sch, s.schema = some sch ∧ (sch.noDirectDyn = true → ∀ d : Buf, d.length < 2 ^ 62 → sch.NoWrap d →
      (d.length : Int) < s.sizeConst → sch.decode c d = .fail) := by
  obtain ⟨sch, h1, hacc, hs, hdd⟩ := sizeConst_eq h hg
  refine ⟨sch, h1, fun hn d hd hw hlt => ?_⟩
  rcases Fields.decode_cases c hacc hn hd hw with hf | ⟨v, n, ws, e, hr, ha, hl⟩
  · exact hf
  · exfalso
    obtain ⟨w1, w2, _⟩ := Fields.accepted_facts hacc
    have h1 := Fields.wire_le_repr c sch v ws hr
    obtain ⟨hv, _⟩ := Fields.Repr_ok c sch 0 v ws w1 hr
    have h2 := Fields.wire_length c _ sch 0 v w1 hv
    have h3 := ha.length_le
    rw [hs] at hlt
    omega

/-! ### Concrete definitions: `Head` (7 bytes) and `Msg` of the project of C45 -/

theorem bridge_project {n : Str} {p : StructD → Bool} (h : (bridgeStruct n).any p = true) :
    ∃ s, InProject bridgeFS ['a'] s ∧ p s = true := by
  unfold bridgeStruct at h
  cases hc : compile bridgeFS 5 ['a'] RT.new with
  | none => rw [hc] at h; cases h
  | some x =>
    obtain ⟨rt, o⟩ := x
    rw [hc] at h
    cases o with
    | ok u =>
      simp only at h
      cases ha : aget u.globalTypes n with
      | none => rw [ha] at h; cases h
      | some td =>
        rw [ha] at h
        simp only at h
        cases ht : td.ty with
        | struct s =>
          rw [ht] at h
          exact ⟨s, ⟨5, rt, u, _, td, hc, aget_mem ha, ht⟩, by simpa using h⟩
        | _ => rw [ht] at h; cases h
    | _ => cases h

/-- `Head` has a fixed size of 7 bytes, so each of its messages has 7 bytes. -/
example : ∃ s, InProject bridgeFS ['a'] s ∧ ∃ sch, s.schema = some sch ∧
    ∀ c v, sch.Legal v → ∃ d, sch.encode c v = some d ∧ (d.length : Int) = 7 := by
  obtain ⟨s, h, hp⟩ := bridge_project (n := ['H', 'e', 'a', 'd'])
    (p := fun s => s.goOk && !s.dynamicConst && decide (s.sizeConst = 7)) (by decide +kernel)
  simp only [Bool.and_eq_true, Bool.not_eq_true', decide_eq_true_eq] at hp
  obtain ⟨sch, e, h1, _⟩ := C73_fixed _ _ s h hp.1.1 hp.1.2
  rw [hp.2] at h1
  exact ⟨s, h, sch, e, h1⟩

/-- `Msg` has a variable size, and `Size()` is 11: all its messages have more bytes, some more than 1000. -/
example : ∃ s, InProject bridgeFS ['a'] s ∧ ∃ sch, s.schema = some sch ∧
    (∀ c v, sch.Legal v → ∃ d, sch.encode c v = some d ∧ (11 : Int) < d.length) ∧
    ∃ v d, sch.Legal v ∧ sch.InRange v ∧ sch.encode Sample.cfg v = some d ∧ 1000 < d.length := by
  obtain ⟨s, h, hp⟩ := bridge_project (n := ['M', 's', 'g'])
    (p := fun s => s.goOk && s.dynamicConst && decide (s.sizeConst = 11)) (by decide +kernel)
  simp only [Bool.and_eq_true, decide_eq_true_eq] at hp
  obtain ⟨sch, e, h1, h2⟩ := C73_variable _ _ s h hp.1.1 hp.1.2
  rw [hp.2] at h1
  exact ⟨s, h, sch, e, h1, h2 _ 1000 (by decide)⟩

end Bubbler
