import Verif.Codec.ScanIdeal

/-
DecodeSize on a prefix versus DecodeSize on the whole input.
-/
set_option linter.unusedSimpArgs false
namespace Bubbler

theorem drop_append' (d e : Buf) (k : Nat) : (d ++ e).drop k = d.drop k ++ e.drop (k - d.length) :=
  List.drop_append

/-! ### A successful scan is not affected by what follows -/

theorem iLeaf_ext {leaf} (hl : LeafSpec leaf) {k : Nat} {d : Buf} {off o : Nat} (e : Buf)
    (h : iLeaf leaf k d off = .ok o) : iLeaf leaf k (d ++ e) off = .ok o := by
  unfold iLeaf at h ⊢
  split at h
  · cases h
  · rename_i c
    rw [if_neg (by rw [List.length_append]; omega)]
    split at h
    · rename_i c hc
      rw [hl.ext _ e _ _ hc]; exact h
    · cases h
    · cases h

theorem iFinish_ext {d e : Buf} {b : Nat} {s s' : IScan} {o : Nat} (hs : ∀ o, s = .ok o → s' = .ok o)
    (h : iFinish d b s = .ok o) : iFinish (d ++ e) b s' = .ok o := by
  obtain ⟨off, h1, h2, h3⟩ := iFinish_bound h
  rw [hs _ h1]
  simp only [iFinish]
  rw [if_neg (by rw [List.length_append]; omega), h2]

theorem iSub_ext {size : Buf → IScan} (hs : ∀ d e o, size d = .ok o → size (d ++ e) = .ok o) {k : Nat} {d : Buf}
    {off o : Nat} (e : Buf) (h : iSub size k d off = .ok o) : iSub size k (d ++ e) off = .ok o := by
  unfold iSub at h ⊢
  split at h
  · rename_i s hc
    rw [drop_append', hs _ _ _ hc]; exact h
  · cases h

theorem iIter_ext {f g : Nat → IScan} (hf : ∀ off o, f off = .ok o → g off = .ok o) :
    ∀ (n off o : Nat), iIter f n off = .ok o → iIter g n off = .ok o := by
  intro n
  induction n with
  | zero => intro off o e; exact e
  | succ n ih =>
    intro off o e
    simp only [iIter] at e ⊢
    split at e
    · rename_i off1 h1
      rw [hf _ _ h1]; exact ih _ _ e
    · rename_i hne; exact absurd e (hne _)

mutual
  theorem Ty.iElem_ext : ∀ (t : Ty) (k : Nat) (d e : Buf) (off o : Nat),
      t.iElem k d off = .ok o → t.iElem k (d ++ e) off = .ok o
    | .sc _, k, d, e, off, o => by intro h; exact h
    | .str, k, d, e, off, o => by intro h; exact iLeaf_ext stringLeaf e h
    | .bytes, k, d, e, off, o => by intro h; exact iLeaf_ext bytesLeaf e h
    | .struct fs, k, d, e, off, o => by
      intro h
      simp only [Ty.iElem] at h ⊢
      split
      · rename_i c
        rw [if_pos c] at h
        exact iSub_ext (fun d e o h => iFinish_ext (fun o h => Fields.iFields_ext fs _ _ e _ o h) h) e h
      · rename_i c
        rw [if_neg c] at h; exact h
  theorem Fields.iFields_ext : ∀ (fs : Fields) (start : Nat) (d e : Buf) (off o : Nat),
      fs.iFields start d off = .ok o → fs.iFields start (d ++ e) off = .ok o
    | .nil, start, d, e, off, o => by intro h; exact h
    | .void n r, start, d, e, off, o => by
      intro h; simp only [Fields.iFields] at h ⊢; exact Fields.iFields_ext r _ d e off o h
    | .const _ n _ _ r, start, d, e, off, o => by
      intro h; simp only [Fields.iFields] at h ⊢; exact Fields.iFields_ext r _ d e off o h
    | .one _ (some n) _ r, start, d, e, off, o => by
      intro h; simp only [Fields.iFields] at h ⊢; exact Fields.iFields_ext r _ d e off o h
    | .one t none _ r, start, d, e, off, o => by
      intro h
      simp only [Fields.iFields] at h ⊢
      split at h
      · rename_i off1 h1
        rw [Ty.iElem_ext t _ d e off off1 h1]
        exact Fields.iFields_ext r _ d e off1 o h
      · rename_i hne; exact absurd h (hne _)
    | .arr _ _ (some n) _ r, start, d, e, off, o => by
      intro h; simp only [Fields.iFields] at h ⊢; exact Fields.iFields_ext r _ d e off o h
    | .arr t len none _ r, start, d, e, off, o => by
      intro h
      simp only [Fields.iFields] at h ⊢
      split at h
      · rename_i off1 h1
        rw [iIter_ext (fun off o h => Ty.iElem_ext t _ d e off o h) len off off1 h1]
        exact Fields.iFields_ext r _ d e off1 o h
      · rename_i hne; exact absurd h (hne _)
end

theorem Fields.iSize_ext {fs : Fields} {d : Buf} {o : Nat} (e : Buf) (h : fs.iSize d = .ok o) :
    fs.iSize (d ++ e) = .ok o :=
  iFinish_ext (fun o h => Fields.iFields_ext fs _ _ e _ o h) h

/-! ### What an early return says about longer inputs -/

/-- `r` is a sound request: whenever the scan `s` of a longer input succeeds, that input has at
least `-r` bytes; and unless no longer input succeeds, `-r` exceeds what was given. -/
def SoundReq (d : Buf) (r : Int) (s : Buf → IScan) : Prop :=
  (∀ e o, (d ++ e).length ≤ maxInt → s (d ++ e) = .ok o → -r ≤ ((d ++ e).length : Int)) ∧
  ((d.length : Int) < -r ∨ ∀ e o, (d ++ e).length ≤ maxInt → s (d ++ e) ≠ .ok o)

theorem SoundReq.mono {d : Buf} {r : Int} {s s' : Buf → IScan} (h : SoundReq d r s)
    (hs : ∀ e o, s' (d ++ e) = .ok o → ∃ o', s (d ++ e) = .ok o') : SoundReq d r s' := by
  refine ⟨fun e o he ho => ?_, ?_⟩
  · obtain ⟨o', ho'⟩ := hs e o ho
    exact h.1 e o' he ho'
  · rcases h.2 with h2 | h2
    · exact Or.inl h2
    · right
      intro e o he ho
      obtain ⟨o', ho'⟩ := hs e o ho
      exact h2 e o' he ho'

theorem iLeaf_ret {leaf} (hl : LeafSpec leaf) {k : Nat} {d : Buf} {off : Nat} {r : Int}
    (h : iLeaf leaf k d off = .ret r) : SoundReq d r (fun d => iLeaf leaf k d off) := by
  unfold iLeaf at h
  split at h
  · rename_i c
    cases h
    refine ⟨fun e o he ho => ?_, Or.inl (by omega)⟩
    simp only [iLeaf] at ho
    split at ho
    · cases ho
    · omega
  · rename_i c
    split at h
    · cases h
    · rename_i r' hc
      cases h
      obtain ⟨h1, _, h2, h3⟩ := hl.ret _ _ _ hc
      have key : ∀ e o, iLeaf leaf k (d ++ e) off = .ok o → ∃ c, leaf (d ++ e) (off + k) = .ok c := by
        intro e o ho
        simp only [iLeaf] at ho
        split at ho
        · cases ho
        · split at ho
          · rename_i c hc; exact ⟨c, hc⟩
          · cases ho
          · cases ho
      refine ⟨fun e o he ho => ?_, ?_⟩
      · obtain ⟨c, hc⟩ := key e o ho
        exact h2 e c he hc
      · rcases h3 with h3 | h3
        · exact Or.inl h3
        · right
          intro e o he ho
          obtain ⟨c, hc⟩ := key e o ho
          exact h3 e c he hc
    · rename_i hc
      exact absurd hc (hl.noPanic _ _ (by omega))

theorem iFinish_ret {d : Buf} {b : Nat} {s : Buf → IScan} {r : Int}
    (hext : ∀ e o, s d = .ok o → s (d ++ e) = .ok o)
    (hret : ∀ r, s d = .ret r → SoundReq d r s)
    (h : iFinish d b (s d) = .ret r) : SoundReq d r (fun d => iFinish d b (s d)) := by
  cases hs : s d with
  | ret r' =>
    rw [hs] at h
    cases h
    refine (hret _ hs).mono (fun e o ho => ?_)
    obtain ⟨off, h1, _⟩ := iFinish_bound ho
    exact ⟨off, h1⟩
  | ok off =>
    rw [hs] at h
    simp only [iFinish] at h
    split at h
    · cases h
      refine ⟨fun e o he ho => ?_, Or.inl (by omega)⟩
      obtain ⟨off', h1, h2, h3⟩ := iFinish_bound ho
      rw [hext e _ hs] at h1
      cases h1; omega
    · cases h

theorem iSub_ret {size : Buf → IScan} (hneg : ∀ d r, size d = .ret r → r < 0)
    (hret : ∀ d r, size d = .ret r → SoundReq d r size) {k : Nat} {d : Buf} {off : Nat} {r : Int}
    (h : iSub size k d off = .ret r) : SoundReq d r (fun d => iSub size k d off) := by
  unfold iSub at h
  split at h
  · cases h
  · rename_i r' hc
    cases h
    have hn := hneg _ _ hc
    obtain ⟨h1, h2⟩ := hret _ _ hc
    have key : ∀ e o, iSub size k (d ++ e) off = .ok o →
        ∃ c, size (d.drop (off + k) ++ e.drop (off + k - d.length)) = .ok c := by
      intro e o ho
      simp only [iSub] at ho
      split at ho
      · rename_i c hc; rw [drop_append'] at hc; exact ⟨c, hc⟩
      · cases ho
    have hlen : ∀ e : Buf, (d.drop (off + k) ++ e.drop (off + k - d.length)).length = (d ++ e).length - (off + k) := by
      intro e; rw [← drop_append', List.length_drop]
    refine ⟨fun e o he ho => ?_, ?_⟩
    · obtain ⟨c, hc⟩ := key e o ho
      have := h1 _ c (by rw [hlen]; omega) hc
      rw [hlen] at this
      omega
    · rcases h2 with h2 | h2
      · left
        rw [List.length_drop] at h2
        omega
      · right
        intro e o he ho
        obtain ⟨c, hc⟩ := key e o ho
        exact h2 _ c (by rw [hlen]; omega) hc

theorem iIter_ret {f : Buf → Nat → IScan} {d : Buf}
    (hext : ∀ e off o, f d off = .ok o → f (d ++ e) off = .ok o)
    (hret : ∀ off r, f d off = .ret r → SoundReq d r (fun d => f d off)) :
    ∀ (n off : Nat) (r : Int), iIter (f d) n off = .ret r → SoundReq d r (fun d => iIter (f d) n off) := by
  intro n
  induction n with
  | zero => intro off r e; cases e
  | succ n ih =>
    intro off r h
    simp only [iIter] at h
    split at h
    · rename_i off1 h1
      refine (ih off1 r h).mono (fun e o ho => ?_)
      simp only [iIter, hext e _ _ h1] at ho
      exact ⟨o, ho⟩
    · refine (hret _ _ h).mono (fun e o ho => ?_)
      simp only [iIter] at ho
      split at ho
      · rename_i o1 ho1; exact ⟨o1, ho1⟩
      · rename_i hne; exact absurd ho (hne _)

mutual
  theorem Ty.iElem_ret : ∀ (t : Ty) (k : Nat) (d : Buf) (off : Nat) (r : Int),
      t.iElem k d off = .ret r → SoundReq d r (fun d => t.iElem k d off)
    | .sc _, k, d, off, r => by intro h; simp only [Ty.iElem] at h; cases h
    | .str, k, d, off, r => by intro h; simp only [Ty.iElem] at h ⊢; exact iLeaf_ret stringLeaf h
    | .bytes, k, d, off, r => by intro h; simp only [Ty.iElem] at h ⊢; exact iLeaf_ret bytesLeaf h
    | .struct fs, k, d, off, r => by
      intro h
      simp only [Ty.iElem] at h ⊢
      split at h
      · rename_i c
        simp only [c, if_true]
        refine iSub_ret (fun d r h => iFinish_neg (fun r h => Fields.iFields_neg fs _ _ _ r h) h)
          (fun d r h => ?_) h
        exact iFinish_ret (s := fun d => fs.iFields 0 d 0) (fun e o h => Fields.iFields_ext fs _ _ e _ o h)
          (fun r h => Fields.iFields_ret fs _ _ _ r h) h
      · cases h
  theorem Fields.iFields_ret : ∀ (fs : Fields) (start : Nat) (d : Buf) (off : Nat) (r : Int),
      fs.iFields start d off = .ret r → SoundReq d r (fun d => fs.iFields start d off)
    | .nil, start, d, off, r => by intro h; simp only [Fields.iFields] at h; cases h
    | .void n r', start, d, off, r => by
      intro h; simp only [Fields.iFields] at h ⊢; exact Fields.iFields_ret r' _ d off r h
    | .const _ n _ _ r', start, d, off, r => by
      intro h; simp only [Fields.iFields] at h ⊢; exact Fields.iFields_ret r' _ d off r h
    | .one _ (some n) _ r', start, d, off, r => by
      intro h; simp only [Fields.iFields] at h ⊢; exact Fields.iFields_ret r' _ d off r h
    | .one t none _ r', start, d, off, r => by
      intro h
      simp only [Fields.iFields] at h
      split at h
      · rename_i off1 h1
        refine (Fields.iFields_ret r' _ d off1 r h).mono (fun e o ho => ?_)
        simp only [Fields.iFields, Ty.iElem_ext t _ d e off off1 h1] at ho
        exact ⟨o, ho⟩
      · refine (Ty.iElem_ret t _ d off r h).mono (fun e o ho => ?_)
        simp only [Fields.iFields] at ho
        split at ho
        · rename_i o1 ho1; exact ⟨o1, ho1⟩
        · rename_i hne; exact absurd ho (hne _)
    | .arr _ _ (some n) _ r', start, d, off, r => by
      intro h; simp only [Fields.iFields] at h ⊢; exact Fields.iFields_ret r' _ d off r h
    | .arr t len none _ r', start, d, off, r => by
      intro h
      simp only [Fields.iFields] at h
      split at h
      · rename_i off1 h1
        refine (Fields.iFields_ret r' _ d off1 r h).mono (fun e o ho => ?_)
        simp only [Fields.iFields] at ho
        rw [iIter_ext (fun off o h => Ty.iElem_ext t _ d e off o h) len off off1 h1] at ho
        exact ⟨o, ho⟩
      · refine (iIter_ret (f := fun d off => t.iElem (start / 8) d off)
          (fun e off o h => Ty.iElem_ext t _ d e off o h) (fun off r h => Ty.iElem_ret t _ d off r h)
          len off r h).mono (fun e o ho => ?_)
        simp only [Fields.iFields] at ho
        split at ho
        · rename_i o1 ho1; exact ⟨o1, ho1⟩
        · rename_i hne; exact absurd ho (hne _)
end

theorem Fields.iSize_ret {fs : Fields} {d : Buf} {r : Int} (h : fs.iSize d = .ret r) :
    SoundReq d r (fun d => fs.iSize d) :=
  iFinish_ret (s := fun d => fs.iFields 0 d 0) (fun e o h => Fields.iFields_ext fs _ _ e _ o h)
    (fun r h => Fields.iFields_ret fs _ _ _ r h) h

/-! ### Without arrays of dynamic structs nothing wraps -/

theorem iLeaf_low {leaf} (hl : LeafSpec leaf) {k : Nat} {d : Buf} {off : Nat} {r : Int}
    (hoff : off ≤ d.length) (hd : d.length < 2 ^ 62) (hk : k < 2 ^ 60)
    (h : iLeaf leaf k d off = .ret r) : -2 ^ 63 ≤ r := by
  unfold iLeaf at h
  split at h
  · cases h; omega
  · split at h
    · cases h
    · rename_i r' hc
      cases h
      exact (hl.ret _ _ _ hc).2.1 (by simp only [maxInt]; omega)
    · cases h; omega

theorem iIter_low {f : Nat → IScan} {L : Nat}
    (hb : ∀ off o, off ≤ L → f off = .ok o → off ≤ o ∧ o ≤ L)
    (hf : ∀ off r, off ≤ L → f off = .ret r → -2 ^ 63 ≤ r) :
    ∀ (n off : Nat) (r : Int), off ≤ L → iIter f n off = .ret r → -2 ^ 63 ≤ r := by
  intro n
  induction n with
  | zero => intro off r _ e; cases e
  | succ n ih =>
    intro off r ho e
    simp only [iIter] at e
    split at e
    · rename_i o1 h1; exact ih _ _ (hb _ _ ho h1).2 e
    · exact hf _ _ ho e

theorem Ty.iElem_low (t : Ty) (ht : ∀ fs, t = .struct fs → fs.dynamic = false) {k : Nat} {d : Buf} {off : Nat}
    {r : Int} (hoff : off ≤ d.length) (hd : d.length < 2 ^ 62) (hk : k < 2 ^ 60)
    (h : t.iElem k d off = .ret r) : -2 ^ 63 ≤ r := by
  cases t with
  | sc s => simp only [Ty.iElem] at h; cases h
  | str => exact iLeaf_low stringLeaf hoff hd hk (by simpa only [Ty.iElem] using h)
  | bytes => exact iLeaf_low bytesLeaf hoff hd hk (by simpa only [Ty.iElem] using h)
  | struct fs => simp [Ty.iElem, ht fs rfl] at h

mutual
  theorem Fields.iFields_low : ∀ (fs : Fields) (start : Nat) (d : Buf) (off : Nat) (r : Int),
      fs.wf start = true → fs.noDynArr = true → start + fs.sum < 2 ^ 63 → off ≤ d.length → d.length < 2 ^ 62 →
      fs.iFields start d off = .ret r → -2 ^ 63 ≤ r
    | .nil, start, d, off, r => by intro _ _ _ _ _ h; simp only [Fields.iFields] at h; cases h
    | .void n r', start, d, off, r => by
      intro hw hn hs h1 h2 h
      simp only [Fields.wf, Fields.noDynArr, Fields.sum, Fields.iFields] at *
      exact Fields.iFields_low r' _ d off r hw hn (by omega) h1 h2 h
    | .const _ n _ _ r', start, d, off, r => by
      intro hw hn hs h1 h2 h
      simp only [Fields.wf, Fields.noDynArr, Fields.sum, Fields.iFields, Bool.and_eq_true] at *
      exact Fields.iFields_low r' _ d off r hw.2 hn (by omega) h1 h2 h
    | .one t (some n) _ r', start, d, off, r => by
      intro hw hn hs h1 h2 h
      have hw' := wf_one hw
      simp only [Fields.noDynArr, Fields.sum, Fields.iFields, Bool.and_eq_true, Option.getD_some] at *
      exact Fields.iFields_low r' _ d off r hw'.2.1 hn.2 (by omega) h1 h2 h
    | .one t none _ r', start, d, off, r => by
      intro hw hn hs h1 h2 h
      have hw' := wf_one hw
      simp only [Fields.noDynArr, Fields.sum, Fields.iFields, Bool.and_eq_true, Option.getD_none] at *
      split at h
      · rename_i off1 ho
        exact Fields.iFields_low r' _ d _ r hw'.2.1 hn.2 (by omega) (Ty.iElem_bound t _ _ _ _ h1 ho).2 h2 h
      · refine Ty.iElem_low t (fun fs e => ?_) h1 h2 (by omega) h
        subst e
        simp [Fields.wf] at hw
    | .arr t len (some n) _ r', start, d, off, r => by
      intro hw hn hs h1 h2 h
      have hw' := wf_arr hw
      simp only [Fields.noDynArr, Fields.sum, Fields.iFields, Bool.and_eq_true, Option.getD_some] at *
      exact Fields.iFields_low r' _ d off r hw'.2.2.1 hn.1.2 (by omega) h1 h2 h
    | .arr t len none _ r', start, d, off, r => by
      intro hw hn hs h1 h2 h
      have hw' := wf_arr hw
      simp only [Fields.noDynArr, Fields.sum, Fields.iFields, Bool.and_eq_true, Option.getD_none] at *
      have hb : ∀ off o, off ≤ d.length → t.iElem (start / 8) d off = .ok o → off ≤ o ∧ o ≤ d.length :=
        fun off o h e => Ty.iElem_bound t _ d off o h e
      split at h
      · rename_i off1 ho
        exact Fields.iFields_low r' _ d _ r hw'.2.2.1 hn.1.2 (by omega) (iIter_bound hb _ _ _ h1 ho).2 h2 h
      · refine iIter_low hb (fun off r ho h => Ty.iElem_low t (fun fs e => ?_) ho h2 (by omega) h) _ _ _ h1 h
        subst e
        simpa using hn.2
end

theorem Fields.iSize_low {fs : Fields} {d : Buf} {r : Int} (hw : fs.wf 0 = true) (hn : fs.noDynArr = true)
    (hs : fs.sum < 2 ^ 63) (hd : d.length < 2 ^ 62) (h : fs.iSize d = .ret r) : -2 ^ 63 ≤ r := by
  unfold Fields.iSize at h
  cases hc : fs.iFields 0 d 0 with
  | ret r' =>
    rw [hc] at h; cases h
    exact Fields.iFields_low fs 0 d 0 _ hw hn (by omega) (by omega) hd hc
  | ok o =>
    have := Fields.iFields_bound fs 0 d 0 o (by omega) hc
    rw [hc] at h
    simp only [iFinish] at h
    split at h
    · cases h; omega
    · cases h

end Bubbler
