import Verif.Codec.DecSafe
import Verif.Codec.EncMain
import Verif.Codec.ScanExt

/-
Encode, DecodeSize and Decode of a whole message.
-/
set_option linter.unusedSimpArgs false
namespace Bubbler

/-- A struct definition the compiler accepts and the Go target supports (see `Ty.wf`), whose sizes fit
the compiler's int64 arithmetic. -/
def Fields.accepted (fs : Fields) : Bool := (Ty.struct fs).wf && (Ty.struct fs).sizesOk

theorem Fields.accepted_facts {fs : Fields} (h : fs.accepted = true) :
    fs.wf 0 = true ∧ fs.sum % 8 = 0 ∧ fs.sizesOk = true ∧ fs.sum < 2 ^ 63 := by
  simp only [Fields.accepted, Ty.wf, Ty.sizesOk, Bool.and_eq_true, decide_eq_true_eq] at h
  exact ⟨h.1.1, h.1.2, h.2.1, h.2.2⟩

/-- The size request DecodeSize makes for `d`, computed without overflow (`iSize` is DecodeSize over
unbounded integers), fits Go's 64-bit `int`. -/
def Fields.NoWrap (fs : Fields) (d : Buf) : Prop := ∀ r, fs.iSize d = .ret r → -2 ^ 63 ≤ r

theorem Fields.noWrap_of_noDynArr {fs : Fields} (h : fs.accepted = true) (hn : fs.noDynArr = true) {d : Buf}
    (hd : d.length < 2 ^ 62) : fs.NoWrap d := by
  obtain ⟨h1, _, _, h4⟩ := Fields.accepted_facts h
  exact fun r hr => Fields.iSize_low h1 hn h4 hd hr

theorem Fields.encodeTo_spec (c : Cfg) {fs : Fields} (h : fs.accepted = true) {v : fs.Val}
    (hv : fs.Valid c false v) {d : Buf} (hd : fs.encodeSize v ≤ d.length) :
    8 * fs.encodeSize v = (fs.wire v).length ∧
    ∃ d', fs.encodeTo c v d = some (d', fs.encodeSize v) ∧ Overlay d d' 0 (fs.wire v) := by
  obtain ⟨h1, h2, _, _⟩ := Fields.accepted_facts h
  have hl : 8 * fs.encodeSize v = (fs.wire v).length := by
    have hw := Fields.wire_length c false fs 0 v h1 hv
    have hs := Fields.sizeExtra_static fs v
    unfold Fields.encodeSize
    split
    · omega
    · rename_i hdyn
      rw [hs (by simpa using hdyn)] at hw
      omega
  refine ⟨hl, ?_⟩
  obtain ⟨d', off', e, o, l⟩ := Fields.encFields_spec c fs v 0 d 0 h1 hv (by omega)
  refine ⟨d', ?_, by simpa using o⟩
  simp only [Fields.encodeTo, e]
  have : off' + fs.sum / 8 = fs.encodeSize v := by omega
  rw [this]

theorem Fields.encode_spec (c : Cfg) {fs : Fields} (h : fs.accepted = true) {v : fs.Val}
    (hv : fs.Valid c false v) :
    ∃ d, fs.encode c v = some d ∧ d.length = fs.encodeSize v ∧ 8 * d.length = (fs.wire v).length ∧
      Overlay (List.replicate (fs.encodeSize v) 0#8) d 0 (fs.wire v) ∧ Agrees d 0 (fs.wire v) := by
  obtain ⟨hl, d', e, o⟩ := Fields.encodeTo_spec c h hv
    (d := List.replicate (fs.encodeSize v) 0#8) (by simp)
  have hlen : d'.length = fs.encodeSize v := by rw [o.1]; simp
  refine ⟨d', by simp only [Fields.encode, e], hlen, by omega, o, ?_⟩
  exact o.agrees (by simp; omega)

theorem Fields.decode_of_repr (c : Cfg) {fs : Fields} (h : fs.accepted = true) (hn : fs.noDirectDyn = true)
    {d : Buf} (hd : d.length < 2 ^ 62) {v : fs.Val} {ws : List (Option Bool)} (hr : fs.Repr c v ws)
    (ha : Agrees d 0 ws) :
    ∃ n, fs.decode c d = .ok (v, n) ∧ fs.decodeSize d = some (n : Int) ∧ 8 * n = ws.length := by
  obtain ⟨h1, h2, h3, h4⟩ := Fields.accepted_facts h
  have ha' : Agrees d (8 * 0 + 0) ws := by simpa using ha
  obtain ⟨o, e, l⟩ := Fields.iFields_agrees c fs v ws 0 d 0 h1 hn hr ha'
  obtain ⟨o', e', l'⟩ := Fields.decFields_agrees c fs v ws 0 d 0 h1 hn h3 hd hr ha'
  have hoo : o' = o := by omega
  subst hoo
  have hle := ha.length_le
  have hsz : fs.iSize d = .ok (o' + fs.sum / 8) := by
    simp only [Fields.iSize, e, iFinish]
    rw [if_neg (by omega)]
  have hrel := Fields.decodeSize_rel (d := d) h1 h3 h4 hd
  rw [hsz] at hrel
  simp only [RelSize] at hrel
  refine ⟨o' + fs.sum / 8, ?_, hrel, by omega⟩
  simp only [Fields.decode, hrel]
  rw [if_neg (by omega)]
  simp only [e']

theorem Fields.decode_cases (c : Cfg) {fs : Fields} (h : fs.accepted = true) (hn : fs.noDirectDyn = true)
    {d : Buf} (hd : d.length < 2 ^ 62) (hw : fs.NoWrap d) :
    fs.decode c d = .fail ∨ ∃ v n ws, fs.decode c d = .ok (v, n) ∧ fs.Repr c v ws ∧ Agrees d 0 ws ∧
      8 * n = ws.length := by
  obtain ⟨h1, h2, h3, h4⟩ := Fields.accepted_facts h
  have hrel := Fields.decodeSize_rel (d := d) h1 h3 h4 hd
  cases hs : fs.iSize d with
  | ret r =>
    rw [hs] at hrel
    have hr := hrel (hw r hs)
    have hneg := Fields.iSize_neg hs
    left
    simp only [Fields.decode, hr, hneg, if_true]
  | ok o =>
    rw [hs] at hrel
    simp only [RelSize] at hrel
    obtain ⟨off, g1, g2, g3⟩ := iFinish_bound hs
    rcases Fields.decFields_safe c fs 0 d 0 off h1 hn h3 hd (by omega) g1 (by omega) with hf | ⟨v, ws, e, hr, hag, hl⟩
    · left
      simp only [Fields.decode, hrel]
      rw [if_neg (by omega)]
      simp only [hf]
    · right
      refine ⟨v, off + fs.sum / 8, ws, ?_, hr, by simpa using hag, by omega⟩
      simp only [Fields.decode, hrel]
      rw [if_neg (by omega)]
      simp only [e]

/-- Decode accepts exactly the inputs that start with a representation of a value. -/
theorem Fields.decode_iff (c : Cfg) {fs : Fields} (h : fs.accepted = true) (hn : fs.noDirectDyn = true)
    {d : Buf} (hd : d.length < 2 ^ 62) (hw : fs.NoWrap d) (v : fs.Val) (n : Nat) :
    fs.decode c d = .ok (v, n) ↔ ∃ ws, fs.Repr c v ws ∧ Agrees d 0 ws ∧ 8 * n = ws.length := by
  constructor
  · intro hdec
    rcases Fields.decode_cases c h hn hd hw with hf | ⟨v', n', ws, e, r⟩
    · rw [hf] at hdec; cases hdec
    · rw [hdec] at e; cases e; exact ⟨ws, r⟩
  · rintro ⟨ws, hr, ha, hl⟩
    obtain ⟨n', e, _, hl'⟩ := Fields.decode_of_repr c h hn hd hr ha
    have : n' = n := by omega
    rw [e, this]

end Bubbler
