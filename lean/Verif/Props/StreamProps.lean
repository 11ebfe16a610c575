import Verif.Props.CodecA
import Verif.Props.CProps
import Verif.Props.CSizeProps
import Verif.Props.PyProps
import Verif.Props.KtProps
import Verif.Props.JsProps
import Verif.Props.JavaProps
import Verif.Props.CsProps
import Verif.Codec.KtTrunc

/-
C59: messages are read off a stream, however it is cut into pieces.
-/
namespace Bubbler

/-! ### The reader -/

/-- What a program that reads messages uses: DecodeSize and Decode (`none`: refused, or a panic). -/
structure Reader (α : Type) where
  size : Buf → Option Int
  dec : Buf → Option (α × Nat)

/-- `for len(buf) > 0 { n := DecodeSize(buf); if n <= 0 { break }; m := Decode(buf); …; buf = buf[m:] }`: the messages at the beginning of `buf`, and
what is left.  There are at most `fuel` turns. -/
def Reader.drain {α : Type} (R : Reader α) : Nat → Buf → List α × Buf
  | 0, buf => ([], buf)
  | fuel + 1, buf =>
    if buf.isEmpty then ([], buf) else
    match R.size buf with
    | none => ([], buf)
    | some n =>
      if n ≤ 0 then ([], buf) else
      match R.dec buf with
      | none => ([], buf)
      | some (v, m) => (v :: (R.drain fuel (buf.drop m)).1, (R.drain fuel (buf.drop m)).2)

/-- Pieces of the stream arrive one after the other; after each one the reader takes all messages that are there. -/
def Reader.read {α : Type} (R : Reader α) : Buf → List Buf → List α × Buf
  | buf, [] => ([], buf)
  | buf, piece :: more =>
    let r := R.drain (buf ++ piece).length (buf ++ piece)
    (r.1 ++ (R.read r.2 more).1, (R.read r.2 more).2)

/-- The reader made of the generated Go functions -/
def Fields.reader (fs : Fields) (c : Cfg) : Reader fs.Val :=
  ⟨fs.decodeSize, fun d => match fs.decode c d with | .ok r => some r | _ => none⟩

/-- The reader made of the generated C and C++ functions -/
def Fields.cReader (fs : Fields) (c : Cfg) : Reader fs.Val :=
  ⟨fs.cDecodeSize, fun d => match fs.cDecode c d with | .ok r => some r | _ => none⟩

/-- The reader made of the generated Python functions -/
def Fields.pyReader (fs : Fields) (c : PyCfg) : Reader fs.PyVal :=
  ⟨fs.pyDecodeSize, fun d => match fs.pyDecode c d with | .ok r => some r | _ => none⟩

/-- The reader made of the generated Kotlin functions (`start` is 0) -/
def Fields.ktReader (fs : Fields) (c : KtCfg) : Reader fs.KtVal :=
  ⟨fun d => fs.ktDecodeSize d 0, fun d => match fs.ktDecode c d 0 with | .ok r => some r | _ => none⟩

/-- The reader made of the generated JavaScript, Java or C# functions (`start` is 0) -/
def Fields.tReader (fs : Fields) (T : Tgt) : Reader (fs.TVal T) :=
  ⟨fun d => fs.tDecodeSize T d 0, fun d => match fs.tDecode T d 0 with | .ok r => some r | _ => none⟩

/-- The reader follows the stream of the messages `msgs`, which stand for `vs`: whatever part of the stream has arrived, in whatever
pieces, it has returned the values of the messages that are complete, in order, and holds the bytes after them. -/
def Reader.Follows {α : Type} (R : Reader α) (vs : List α) (msgs : List Buf) : Prop :=
  ∀ pieces : List Buf, pieces.flatten <+: msgs.flatten →
    ∃ k, k ≤ msgs.length ∧ (R.read [] pieces).1 = vs.take k ∧ pieces.flatten = (msgs.take k).flatten ++ (R.read [] pieces).2 ∧
      ∀ m, msgs[k]? = some m → (R.read [] pieces).2.length < m.length

/-! ### Any reader -/

/-- What the reader needs to know of the message `m` for the value `v`, in streams of fewer than `B` bytes. -/
structure Reader.Reads {α : Type} (R : Reader α) (B : Nat) (v : α) (m : Buf) : Prop where
  pos : 0 < m.length
  whole : ∀ rest, m.length + rest.length < B → R.size (m ++ rest) = some (m.length : Int) ∧ R.dec (m ++ rest) = some (v, m.length)
  part : ∀ k, k < m.length → m.length < B → ∃ n, R.size (m.take k) = some n ∧ n ≤ 0

theorem prefix_cases {α : Type} {a b c : List α} (h : a <+: b ++ c) : (∃ r, a = b ++ r ∧ r <+: c) ∨ (a.length < b.length ∧ a = b.take a.length) := by
  rcases Nat.lt_or_ge a.length b.length with hl | hl
  · refine .inr ⟨hl, ?_⟩
    have := List.prefix_of_prefix_length_le h (List.prefix_append b c) (Nat.le_of_lt hl)
    exact (List.prefix_iff_eq_take.1 this)
  · have := List.prefix_of_prefix_length_le (List.prefix_append b c) h hl
    obtain ⟨r, rfl⟩ := this
    exact .inl ⟨r, rfl, (List.prefix_append_right_inj b).1 h⟩

/-- One turn of the reader: all complete messages and nothing else. -/
theorem Reader.drain_spec {α : Type} (R : Reader α) (B : Nat) :
    ∀ (ps : List (α × Buf)) (buf : Buf) (fuel : Nat), (∀ p ∈ ps, R.Reads B p.1 p.2) → buf <+: (ps.map (·.2)).flatten → buf.length < B →
      (ps.map (·.2)).flatten.length < B → buf.length ≤ fuel →
      ∃ k, k ≤ ps.length ∧ (R.drain fuel buf).1 = (ps.take k).map (·.1) ∧ buf = ((ps.take k).map (·.2)).flatten ++ (R.drain fuel buf).2 ∧
        ∀ p, ps[k]? = some p → (R.drain fuel buf).2.length < p.2.length := by
  intro ps
  induction ps with
  | nil =>
    intro buf fuel _ hp _ _ _
    have : buf = [] := by simpa using hp
    subst this
    have hd : R.drain fuel [] = ([], []) := by
      cases fuel with
      | zero => rfl
      | succ f =>
        simp [Reader.drain]
    exact ⟨0, by simp, by simp [hd], by simp [hd], by simp⟩
  | cons p ps ih =>
    intro buf fuel hr hp hb ht hf
    obtain ⟨v, m⟩ := p
    have hm := hr (v, m) (by simp)
    simp only [List.map_cons, List.flatten_cons] at hp ht
    rcases prefix_cases hp with ⟨r, rfl, hr2⟩ | ⟨hl, he⟩
    · have hpos := hm.pos
      simp only at hpos
      rw [List.length_append] at hb hf ht
      obtain ⟨f, rfl⟩ : ∃ f, fuel = f + 1 := ⟨fuel - 1, by omega⟩
      obtain ⟨h1, h2⟩ := hm.whole r hb
      obtain ⟨k, k1, k2, k3, k4⟩ := ih r f (fun p hp => hr p (by simp [hp])) hr2 (by omega) (by omega) (by omega)
      have hd : R.drain (f + 1) (m ++ r) = (v :: (R.drain f r).1, (R.drain f r).2) := by
        have hne : (m ++ r).isEmpty = false := by
          cases m with
          | nil => simp at hpos
          | cons x m => rfl
        simp only [Reader.drain, h1, h2, hne, Bool.false_eq_true, if_false]
        rw [if_neg (by omega), List.drop_left]
      rw [hd]
      refine ⟨k + 1, by simpa using k1, by simp [k2], ?_, ?_⟩
      · simp only [List.take_succ_cons, List.map_cons, List.flatten_cons, List.append_assoc]
        rw [← k3]
      · intro p hp
        exact k4 p (by simpa using hp)
    · have hd : R.drain fuel buf = ([], buf) := by
        cases fuel with
        | zero => rfl
        | succ f =>
          rw [List.length_append] at ht
          obtain ⟨n, h1, h2⟩ := hm.part buf.length hl (by simp only; omega)
          rw [← he] at h1
          simp only [Reader.drain, h1, if_pos h2, ite_self]
      rw [hd]
      refine ⟨0, by simp, by simp, by simp, ?_⟩
      intro p hp
      simp only [List.getElem?_cons_zero, Option.some.injEq] at hp
      subst hp
      exact hl

/-- The whole stream -/
theorem Reader.read_spec {α : Type} (R : Reader α) (B : Nat) :
    ∀ (pieces : List Buf) (ps : List (α × Buf)) (buf : Buf), (∀ p ∈ ps, R.Reads B p.1 p.2) → buf ++ pieces.flatten <+: (ps.map (·.2)).flatten →
      (ps.map (·.2)).flatten.length < B → (∀ p, ps[0]? = some p → buf.length < p.2.length) →
      ∃ k, k ≤ ps.length ∧ (R.read buf pieces).1 = (ps.take k).map (·.1) ∧
        buf ++ pieces.flatten = ((ps.take k).map (·.2)).flatten ++ (R.read buf pieces).2 ∧
        ∀ p, ps[k]? = some p → (R.read buf pieces).2.length < p.2.length := by
  intro pieces
  induction pieces with
  | nil =>
    intro ps buf _ _ _ hl
    exact ⟨0, by simp, by simp [Reader.read], by simp [Reader.read], by simpa [Reader.read] using hl⟩
  | cons x more ih =>
    intro ps buf hr hp ht _
    simp only [List.flatten_cons, ← List.append_assoc] at hp
    have hp1 : buf ++ x <+: (ps.map (·.2)).flatten := (List.prefix_append _ _).trans hp
    have hlen := hp1.length_le
    obtain ⟨k, k1, k2, k3, k4⟩ := R.drain_spec B ps (buf ++ x) (buf ++ x).length hr hp1 (by omega) ht (Nat.le_refl _)
    have hsplit : (ps.map (·.2)).flatten = ((ps.take k).map (·.2)).flatten ++ ((ps.drop k).map (·.2)).flatten := by
      rw [← List.flatten_append, ← List.map_append, List.take_append_drop]
    generalize hD : R.drain (buf ++ x).length (buf ++ x) = D at k2 k3 k4
    have hread : R.read buf (x :: more) = (D.1 ++ (R.read D.2 more).1, (R.read D.2 more).2) := by
      simp only [Reader.read, hD]
    obtain ⟨j, j1, j2, j3, j4⟩ := ih (ps.drop k) D.2 (fun p hp => hr p (List.mem_of_mem_drop hp)) (by
        rw [k3, hsplit, List.append_assoc] at hp
        exact (List.prefix_append_right_inj _).1 hp) (by rw [hsplit, List.length_append] at ht; omega)
      (by intro p hp; exact k4 p (by simpa using hp))
    have htake : ps.take (k + j) = ps.take k ++ (ps.drop k).take j := by rw [List.take_add]
    rw [hread]
    refine ⟨k + j, by rw [List.length_drop] at j1; omega, ?_, ?_, ?_⟩
    · rw [htake, List.map_append, k2, j2]
    · rw [htake, List.map_append, List.flatten_append, List.append_assoc, ← j3, List.flatten_cons, ← List.append_assoc, k3, List.append_assoc]
    · intro p hp
      exact j4 p (by rw [List.getElem?_drop]; exact hp)

/-- … and so nothing is left at the end of the stream. -/
theorem Reader.Follows.all {α : Type} {R : Reader α} {vs : List α} {msgs : List Buf} (h : R.Follows vs msgs) (hl : vs.length = msgs.length)
    {pieces : List Buf} (hp : pieces.flatten = msgs.flatten) : R.read [] pieces = (vs, []) := by
  obtain ⟨k, k1, k2, k3, k4⟩ := h pieces (by rw [hp]; exact List.prefix_rfl)
  have hs : msgs.flatten = (msgs.take k).flatten ++ (msgs.drop k).flatten := by rw [← List.flatten_append, List.take_append_drop]
  rw [hp, hs, List.append_cancel_left_eq] at k3
  rcases Nat.lt_or_ge k msgs.length with hk | hk
  · have := k4 msgs[k] (List.getElem?_eq_getElem hk)
    rw [← k3, List.drop_eq_getElem_cons hk, List.flatten_cons, List.length_append] at this
    omega
  · rw [List.drop_eq_nil_of_le hk] at k3
    rw [List.take_of_length_le (by omega)] at k2
    exact Prod.ext k2 k3.symm

theorem Reader.follows_of {α β : Type} (R : Reader α) (B : Nat) (f : β → α) (enc : β → Option Buf) (vs : List β) (msgs : List Buf)
    (he : vs.map enc = msgs.map some) (hB : msgs.flatten.length < B)
    (h : ∀ v ∈ vs, ∀ m, enc v = some m → m.length < B → R.Reads B (f v) m) : R.Follows (vs.map f) msgs := by
  have hz : ∀ (vs : List β) (msgs : List Buf), vs.map enc = msgs.map some → msgs.flatten.length < B →
      (∀ v ∈ vs, ∀ m, enc v = some m → m.length < B → R.Reads B (f v) m) →
      ∃ ps : List (α × Buf), ps.map (·.1) = vs.map f ∧ ps.map (·.2) = msgs ∧ ∀ p ∈ ps, R.Reads B p.1 p.2 := by
    intro vs
    induction vs with
    | nil =>
      intro msgs he _ _
      have : msgs = [] := by simpa using he.symm
      exact ⟨[], rfl, this.symm, by simp⟩
    | cons v vs ih =>
      intro msgs he hB h
      cases msgs with
      | nil => cases he
      | cons m msgs =>
        simp only [List.map_cons, List.cons.injEq] at he
        rw [List.flatten_cons, List.length_append] at hB
        obtain ⟨ps, p1, p2, p3⟩ := ih msgs he.2 (by omega) (fun v hv => h v (by simp [hv]))
        refine ⟨(f v, m) :: ps, by simp [p1], by simp [p2], ?_⟩
        intro p hp
        rcases List.mem_cons.1 hp with rfl | hp
        · exact h v (by simp) m he.1 (by omega)
        · exact p3 p hp
  obtain ⟨ps, p1, p2, p3⟩ := hz vs msgs he hB h
  intro pieces hp
  obtain ⟨k, k1, k2, k3, k4⟩ := R.read_spec B pieces ps [] p3 (by rw [p2]; exact hp) (by rw [p2]; exact hB)
    (fun p hp => (p3 p (List.mem_of_getElem? hp)).pos)
  refine ⟨k, by rw [← p2, List.length_map]; exact k1, by rw [k2, List.map_take, p1], by rw [← p2, ← List.map_take]; exact k3, ?_⟩
  intro m hm
  rw [← p2, List.getElem?_map] at hm
  cases hq : ps[k]? with
  | none => rw [hq] at hm; cases hm
  | some p =>
    rw [hq] at hm
    cases hm
    exact k4 p hq

/-! ### The targets -/

/-- C59 for Go: the messages of any values, written one after the other, are read off the stream however it is cut. -/
theorem C59_go (ce cd : Cfg) {fs : Fields} (hacc : fs.accepted = true) (hn : fs.noDirectDyn = true) (vs : List fs.Val)
    (hv : ∀ v ∈ vs, fs.Legal v ∧ fs.InRange v ∧ 0 < fs.encodeSize v) (msgs : List Buf) (he : vs.map (fs.encode ce) = msgs.map some)
    (hsz : msgs.flatten.length < 2 ^ 62) : (fs.reader cd).Follows vs msgs := by
  have := Reader.follows_of (fs.reader cd) (2 ^ 62) id (fs.encode ce) vs msgs he hsz (fun v hmem m hm hl => ?_)
  · simpa using this
  · obtain ⟨h1, h2, h3⟩ := hv v hmem
    obtain ⟨d0, q1, q2⟩ := (C02_size_exact ce hacc v h1).1
    rw [hm] at q1; cases q1
    refine ⟨by omega, fun rest hr => ?_, fun k hk _ => ?_⟩
    · obtain ⟨d, e1, e2, e3, _⟩ := C07_stream ce cd hacc hn v h1 h2 rest (by omega)
      rw [hm] at e1; cases e1
      exact ⟨e3, by simp only [Fields.reader, e2]; rfl⟩
    · obtain ⟨d, e1, e2⟩ := C08_truncated ce cd hacc hn v h1 h2 (by omega)
      rw [hm] at e1; cases e1
      obtain ⟨_, need, e3, _⟩ := e2 k hk
      exact ⟨_, e3, by omega⟩

/-- C59 for C and C++ -/
theorem C59_c (ce cd : Cfg) {fs : Fields} (hacc : fs.accepted = true) (hn : fs.noDirectDyn = true) (vs : List fs.Val)
    (hv : ∀ v ∈ vs, fs.Legal v ∧ fs.InRange v ∧ 0 < fs.encodeSize v) (msgs : List Buf) (he : vs.map (fs.encode ce) = msgs.map some)
    (hsz : msgs.flatten.length < 2 ^ 31) : (fs.cReader cd).Follows vs msgs := by
  have := Reader.follows_of (fs.cReader cd) (2 ^ 31) id (fs.encode ce) vs msgs he hsz (fun v hmem m hm hl => ?_)
  · simpa using this
  · obtain ⟨h1, h2, h3⟩ := hv v hmem
    obtain ⟨d0, q1, q2⟩ := (C02_size_exact ce hacc v h1).1
    rw [hm] at q1; cases q1
    obtain ⟨d1, e1, e2⟩ := C17_decode_agrees cd ce hacc v h1 h2
    rw [hm] at e1; cases e1
    obtain ⟨d2, e1, e3, e4⟩ := C52_decode_size_of_encoding ce hacc hn v h1 h2
    rw [hm] at e1; cases e1
    refine ⟨by omega, fun rest hr => ?_, fun k hk _ => ?_⟩
    · refine ⟨e3 rest (by rw [List.length_append]; omega), ?_⟩
      simp only [Fields.cReader, e2 rest (by rw [List.length_append]; omega)]
      rfl
    · obtain ⟨need, e5, _⟩ := e4 (by omega) k hk
      exact ⟨_, e5, by omega⟩

/-- C59, truncated messages in Python -/
theorem C59_truncated_python (ce : Cfg) (c : PyCfg) {fs : Fields} (hacc : fs.accepted = true) (hn : fs.noDirectDyn = true)
    (v : fs.Val) (hv : fs.Legal v) (hr : fs.InRange v) {d : Buf} (he : fs.encode ce v = some d) (k : Nat) (hk : k < d.length) :
    (∃ r, fs.pyDecodeSize (d.take k) = some r ∧ r < 0) ∧ fs.pyDecode c (d.take k) = .fail := by
  obtain ⟨d', e, hl, hl8, _, ha⟩ := Fields.encode_spec ce hacc (Fields.Legal.valid ce false fs v hv)
  rw [he] at e; cases e
  have hrep := Fields.wire_repr ce fs 0 v (Fields.accepted_facts hacc).1 (Fields.Legal.valid ce false fs v hv) hr
  obtain ⟨n, hs, hnn⟩ := Fields.iSize_of_repr ce hacc hn hrep ha
  have hrel := Fields.pyDecodeSize_rel (Fields.accepted_facts hacc).1 (d.take k)
  have key : ∃ r, fs.pyDecodeSize (d.take k) = some r ∧ r < 0 := by
    cases hs' : fs.iSize (d.take k) with
    | ok o =>
      have := Fields.iSize_ext (d.drop k) hs'
      rw [List.take_append_drop, hs] at this
      have hb := Fields.iSize_bound hs'
      rw [List.length_take] at hb
      cases this
      omega
    | ret r =>
      rw [hs'] at hrel
      obtain ⟨r', h1, h2⟩ := hrel
      exact ⟨r', h2, h1⟩
  obtain ⟨r, h1, h2⟩ := key
  refine ⟨⟨r, h1, h2⟩, ?_⟩
  simp only [Fields.pyDecode, h1, if_pos h2]

/-- C59 for Python, with the restrictions of C46 -/
theorem C59_python (ce : Cfg) (c : PyCfg) {fs : Fields} (hacc : fs.accepted = true) (hn : fs.noDirectDyn = true)
    (hal : fs.pyAligned c 0 = true) (vs : List fs.Val)
    (hv : ∀ v ∈ vs, fs.Legal v ∧ fs.InRange v ∧ 0 < fs.encodeSize v ∧ fs.pyAcc c [] v = true) (msgs : List Buf)
    (he : vs.map (fs.encode ce) = msgs.map some) (hsz : msgs.flatten.length < 2 ^ 62) : (fs.pyReader c).Follows (vs.map fs.toPy) msgs := by
  refine Reader.follows_of (fs.pyReader c) (2 ^ 62) fs.toPy (fs.encode ce) vs msgs he hsz (fun v hmem m hm hl => ?_)
  obtain ⟨h1, h2, h3, h4⟩ := hv v hmem
  obtain ⟨d0, q1, q2⟩ := (C02_size_exact ce hacc v h1).1
  rw [hm] at q1; cases q1
  refine ⟨by omega, fun rest hr => ?_, fun k hk _ => ?_⟩
  · obtain ⟨d, e1, e2, e3⟩ := C46_from_go c ce hacc hn hal v h1 h2 h4 rest (by omega)
    rw [hm] at e1; cases e1
    exact ⟨e3, by simp only [Fields.pyReader, e2]⟩
  · obtain ⟨⟨r, e3, e4⟩, _⟩ := C59_truncated_python ce c hacc hn v h1 h2 hm k hk
    exact ⟨_, e3, by omega⟩

/-- C59, truncated messages in Kotlin: `decodeSize` asks for more than there is, but not for more than the message has. -/
theorem C59_truncated_kotlin (ce : Cfg) (c : KtCfg) {fs : Fields} (hacc : fs.accepted = true) (hn : fs.noDirectDyn = true)
    (v : fs.Val) (hv : fs.Legal v) (hr : fs.InRange v) (pre : Buf) (hsz : pre.length + fs.encodeSize v < 2 ^ 30)
    {d : Buf} (he : fs.encode ce v = some d) (k : Nat) (hk : k < d.length) :
    fs.ktDecode c (pre ++ d.take k) pre.length = .fail ∧
    ∃ need : Nat, fs.ktDecodeSize (pre ++ d.take k) pre.length = some (-(need : Int)) ∧ k < need ∧ need ≤ d.length :=
  Fields.kt_truncated ce hacc hn v (Fields.Legal.valid ce false fs v hv) hr pre hsz he k hk c

/-- C59 for Kotlin -/
theorem C59_kotlin (ce : Cfg) (c : KtCfg) {fs : Fields} (hacc : fs.accepted = true) (hn : fs.noDirectDyn = true) (vs : List fs.Val)
    (hv : ∀ v ∈ vs, fs.Legal v ∧ fs.InRange v ∧ 0 < fs.encodeSize v) (msgs : List Buf)
    (he : vs.map (fs.encode ce) = msgs.map some) (hsz : msgs.flatten.length < 2 ^ 30) : (fs.ktReader c).Follows (vs.map (fs.toKt c [])) msgs := by
  refine Reader.follows_of (fs.ktReader c) (2 ^ 30) (fs.toKt c []) (fs.encode ce) vs msgs he hsz (fun v hmem m hm hl => ?_)
  obtain ⟨h1, h2, h3⟩ := hv v hmem
  obtain ⟨d0, q1, q2⟩ := (C02_size_exact ce hacc v h1).1
  rw [hm] at q1; cases q1
  refine ⟨by omega, fun rest hr => ?_, fun k hk _ => ?_⟩
  · obtain ⟨d, e1, e2, e3⟩ := C49_from_go ce c hacc hn v h1 h2 [] rest (by simp only [List.length_nil]; omega)
    rw [hm] at e1; cases e1
    simp only [List.nil_append, List.length_nil] at e2 e3
    exact ⟨e3, by simp only [Fields.ktReader, e2]⟩
  · obtain ⟨_, need, e3, _⟩ := C59_truncated_kotlin ce c hacc hn v h1 h2 [] (by simp only [List.length_nil]; omega) hm k hk
    exact ⟨_, e3, by omega⟩

/-- C59, truncated messages in JavaScript -/
theorem C59_truncated_js (ce : Cfg) (c : JsCfg) {fs : Fields} (hacc : fs.accepted = true) (hn : fs.noDirectDyn = true)
    (v : fs.Val) (hv : fs.Legal v) (hr : fs.InRange v) (pre : Buf) (hsz : pre.length + fs.encodeSize v < 2 ^ 28)
    {d : Buf} (he : fs.encode ce v = some d) (k : Nat) (hk : k < d.length) :
    fs.tDecode (jsTgt c) (pre ++ d.take k) pre.length = .fail ∧
    ∃ need : Nat, fs.tDecodeSize (jsTgt c) (pre ++ d.take k) pre.length = some (-(need : Int)) ∧ k < need ∧ need ≤ d.length := by
  obtain ⟨need, h1, h2, h3⟩ := Fields.t_truncated_go (S := (jsDecSpec c).lax) (jsDecSpec_len c) (fun _ _ _ _ _ => trivial) (fun _ => trivial) rfl
    (jsDecSpec_ok c).scan (jsTruncOk c).lax ce hacc hn v (Fields.Legal.valid ce false fs v hv) hr pre hsz he k hk
  exact ⟨Fields.t_refuses rfl h1 (by omega), need, h1, h2, h3⟩

/-- C59, truncated messages in Java -/
theorem C59_truncated_java (ce : Cfg) (c : JavaCfg) {fs : Fields} (hacc : fs.accepted = true) (hn : fs.noDirectDyn = true)
    (v : fs.Val) (hv : fs.Legal v) (hr : fs.InRange v) (pre : Buf) (hsz : pre.length + fs.encodeSize v < 2 ^ 30)
    {d : Buf} (he : fs.encode ce v = some d) (k : Nat) (hk : k < d.length) :
    fs.tDecode c.tgt (pre ++ d.take k) pre.length = .fail ∧
    ∃ need : Nat, fs.tDecodeSize c.tgt (pre ++ d.take k) pre.length = some (-(need : Int)) ∧ k < need ∧ need ≤ d.length := by
  obtain ⟨need, h1, h2, h3⟩ := Fields.t_truncated_go (S := (mgDecSpec c.mg).lax) (mgDecSpec_len c.mg) (fun _ _ _ _ _ => trivial) (fun _ => trivial) rfl
    (mgDecSpec_ok c.mg).scan (mgTruncOk c.mg (by simp [JavaCfg.mg])).lax ce hacc hn v (Fields.Legal.valid ce false fs v hv) hr pre hsz he k hk
  exact ⟨Fields.t_refuses rfl h1 (by omega), need, h1, h2, h3⟩

/-- C59, truncated messages in C#, with `-memcpy` (without it: `C54_slice_counterexample`) -/
theorem C59_truncated_csharp (ce : Cfg) (c : CsCfg) (hm : c.memcpy = true) {fs : Fields} (hacc : fs.accepted = true) (hn : fs.noDirectDyn = true)
    (v : fs.Val) (hv : fs.Legal v) (hr : fs.InRange v) (pre : Buf) (hsz : pre.length + fs.encodeSize v < 2 ^ 30)
    {d : Buf} (he : fs.encode ce v = some d) (k : Nat) (hk : k < d.length) :
    fs.tDecode c.tgt (pre ++ d.take k) pre.length = .fail ∧
    ∃ need : Nat, fs.tDecodeSize c.tgt (pre ++ d.take k) pre.length = some (-(need : Int)) ∧ k < need ∧ need ≤ d.length := by
  obtain ⟨need, h1, h2, h3⟩ := Fields.t_truncated_go (S := (mgDecSpec c.mg).lax) (mgDecSpec_len c.mg) (fun _ _ _ _ _ => trivial) (fun _ => trivial) rfl
    (mgDecSpec_ok c.mg).scan (mgTruncOk c.mg (by simp [CsCfg.mg, hm])).lax ce hacc hn v (Fields.Legal.valid ce false fs v hv) hr pre hsz he k hk
  exact ⟨Fields.t_refuses rfl h1 (by omega), need, h1, h2, h3⟩

/-- C59 for JavaScript, with the restrictions of C50 -/
theorem C59_js (ce : Cfg) (c : JsCfg) {fs : Fields} (hacc : fs.accepted = true) (hn : fs.noDirectDyn = true)
    (hk : fs.tDecOk (jsDecSpec c) false = true) (vs : List fs.Val)
    (hv : ∀ v ∈ vs, fs.Legal v ∧ fs.InRange v ∧ 0 < fs.encodeSize v ∧ fs.DFits (jsDecSpec c) [] v) (msgs : List Buf)
    (he : vs.map (fs.encode ce) = msgs.map some) (hsz : msgs.flatten.length < 2 ^ 28) : (fs.tReader (jsTgt c)).Follows (vs.map (fs.toJs c)) msgs := by
  refine Reader.follows_of (fs.tReader (jsTgt c)) (2 ^ 28) (fs.toJs c) (fs.encode ce) vs msgs he hsz (fun v hmem m hm hl => ?_)
  obtain ⟨h1, h2, h3, h4⟩ := hv v hmem
  obtain ⟨d0, q1, q2⟩ := (C02_size_exact ce hacc v h1).1
  rw [hm] at q1; cases q1
  refine ⟨by omega, fun rest hr => ?_, fun k hk _ => ?_⟩
  · obtain ⟨d, e1, _, e2, e3⟩ := C50_from_go ce c hacc hn hk v h1 h2 h4 [] rest (by simp only [List.length_nil]; omega)
    rw [hm] at e1; cases e1
    simp only [List.nil_append, List.length_nil] at e2 e3
    exact ⟨e3, by simp only [Fields.tReader, e2]⟩
  · obtain ⟨_, need, e3, _⟩ := C59_truncated_js ce c hacc hn v h1 h2 [] (by simp only [List.length_nil]; omega) hm k hk
    exact ⟨_, e3, by omega⟩

/-- C59 for Java, with the restrictions of C53 -/
theorem C59_java (ce : Cfg) (c : JavaCfg) {fs : Fields} (hacc : fs.accepted = true) (hn : fs.noDirectDyn = true)
    {top : Bool} (hk : fs.tDecOk (mgDecSpec c.mg) top = true) (vs : List fs.Val)
    (hv : ∀ v ∈ vs, fs.Legal v ∧ fs.InRange v ∧ 0 < fs.encodeSize v ∧ fs.DFits (mgDecSpec c.mg) [] v) (msgs : List Buf)
    (he : vs.map (fs.encode ce) = msgs.map some) (hsz : msgs.flatten.length < 2 ^ 30) : (fs.tReader c.tgt).Follows (vs.map (fs.toJava c)) msgs := by
  refine Reader.follows_of (fs.tReader c.tgt) (2 ^ 30) (fs.toJava c) (fs.encode ce) vs msgs he hsz (fun v hmem m hm hl => ?_)
  obtain ⟨h1, h2, h3, h4⟩ := hv v hmem
  obtain ⟨d0, q1, q2⟩ := (C02_size_exact ce hacc v h1).1
  rw [hm] at q1; cases q1
  refine ⟨by omega, fun rest hr => ?_, fun k hk _ => ?_⟩
  · obtain ⟨d, e1, _, e2, e3⟩ := C53_from_go ce c hacc hn hk v h1 h2 h4 [] rest (fun _ => rfl) (by simp only [List.length_nil]; omega)
    rw [hm] at e1; cases e1
    simp only [List.nil_append, List.length_nil] at e2 e3
    exact ⟨e3, by simp only [Fields.tReader, e2]⟩
  · obtain ⟨_, need, e3, _⟩ := C59_truncated_java ce c hacc hn v h1 h2 [] (by simp only [List.length_nil]; omega) hm k hk
    exact ⟨_, e3, by omega⟩

/-- C59 for C# with `-memcpy`, with the restrictions of C54 -/
theorem C59_csharp (ce : Cfg) (c : CsCfg) (hmc : c.memcpy = true) {fs : Fields} (hacc : fs.accepted = true) (hn : fs.noDirectDyn = true)
    (hk : fs.tDecOk (mgDecSpec c.mg) false = true) (vs : List fs.Val)
    (hv : ∀ v ∈ vs, fs.Legal v ∧ fs.InRange v ∧ 0 < fs.encodeSize v ∧ fs.DFits (mgDecSpec c.mg) [] v) (msgs : List Buf)
    (he : vs.map (fs.encode ce) = msgs.map some) (hsz : msgs.flatten.length < 2 ^ 30) : (fs.tReader c.tgt).Follows (vs.map (fs.toCs c)) msgs := by
  refine Reader.follows_of (fs.tReader c.tgt) (2 ^ 30) (fs.toCs c) (fs.encode ce) vs msgs he hsz (fun v hmem m hm hl => ?_)
  obtain ⟨h1, h2, h3, h4⟩ := hv v hmem
  obtain ⟨d0, q1, q2⟩ := (C02_size_exact ce hacc v h1).1
  rw [hm] at q1; cases q1
  refine ⟨by omega, fun rest hr => ?_, fun k hk _ => ?_⟩
  · obtain ⟨d, e1, _, e2, e3⟩ := C54_from_go ce c hacc hn hk v h1 h2 h4 [] rest (by simp only [List.length_nil]; omega)
    rw [hm] at e1; cases e1
    simp only [List.nil_append, List.length_nil] at e2 e3
    exact ⟨e3, by simp only [Fields.tReader, e2]⟩
  · obtain ⟨_, need, e3, _⟩ := C59_truncated_csharp ce c hmc hacc hn v h1 h2 [] (by simp only [List.length_nil]; omega) hm k hk
    exact ⟨_, e3, by omega⟩

/-! ### Two consequences -/

/-- C59, no message is the beginning of another one of the same type. -/
theorem C59_prefix_free (ce : Cfg) {fs : Fields} (hacc : fs.accepted = true) (hn : fs.noDirectDyn = true) (v w : fs.Val)
    (hv : fs.Legal v ∧ fs.InRange v) (hw : fs.Legal w ∧ fs.InRange w) {d e : Buf} (hd : fs.encode ce v = some d) (he : fs.encode ce w = some e)
    (hsz : fs.encodeSize w < 2 ^ 62) (hp : d <+: e) : v = w ∧ d = e := by
  obtain ⟨r, rfl⟩ := hp
  obtain ⟨e', q1, q2⟩ := (C02_size_exact ce hacc w hw.1).1
  rw [he] at q1; cases q1
  obtain ⟨d', q3, q4⟩ := (C02_size_exact ce hacc v hv.1).1
  rw [hd] at q3; cases q3
  rw [List.length_append] at q2
  obtain ⟨d1, e1, e2, _⟩ := C07_stream ce ce hacc hn v hv.1 hv.2 r (by omega)
  rw [hd] at e1; cases e1
  obtain ⟨d2, e3, e4, _⟩ := C07_stream ce ce hacc hn w hw.1 hw.2 [] (by simpa using hsz)
  rw [he] at e3; cases e3
  rw [List.append_nil, e2] at e4
  injection e4 with e4
  simp only [Prod.mk.injEq, List.length_append] at e4
  have : r = [] := List.eq_nil_of_length_eq_zero (by omega)
  exact ⟨e4.1, by rw [this, List.append_nil]⟩

/-- C59, a stream of messages has only one reading. -/
theorem C59_unique (ce : Cfg) {fs : Fields} (hacc : fs.accepted = true) (hn : fs.noDirectDyn = true) (vs ws : List fs.Val)
    (hv : ∀ v ∈ vs, fs.Legal v ∧ fs.InRange v ∧ 0 < fs.encodeSize v) (hw : ∀ v ∈ ws, fs.Legal v ∧ fs.InRange v ∧ 0 < fs.encodeSize v)
    {ms ns : List Buf} (hm : vs.map (fs.encode ce) = ms.map some) (hs : ws.map (fs.encode ce) = ns.map some)
    (hsz : ms.flatten.length < 2 ^ 62) (h : ms.flatten = ns.flatten) : vs = ws := by
  have h1 := (C59_go ce ce hacc hn vs hv ms hm hsz).all (by simpa using congrArg List.length hm) (pieces := [ms.flatten]) (by simp)
  have h2 := (C59_go ce ce hacc hn ws hw ns hs (by rw [← h]; exact hsz)).all (by simpa using congrArg List.length hs) (pieces := [ms.flatten]) (by simp [h])
  rw [h1] at h2
  exact (Prod.mk.inj h2).1

/-! ### The hypotheses are met -/

open Sample

theorem msg_stream_ok : ∀ v ∈ [msgVal, msgVal, msgVal], msg.Legal v ∧ msg.InRange v ∧ 0 < msg.encodeSize v := by
  intro v hv
  have : v = msgVal := by simpa using hv
  subst this
  exact ⟨msg_legal, msg_inRange, by rw [msg_size_eq]; decide⟩

theorem msg_stream (d : Buf) (h : msg.encode cfg msgVal = some d) :
    [msgVal, msgVal, msgVal].map (msg.encode cfg) = [d, d, d].map some ∧ [d, d, d].flatten.length = 75 := by
  obtain ⟨d', q1, q2⟩ := (C02_size_exact cfg msg_accepted msgVal msg_legal).1
  rw [h] at q1; cases q1
  rw [msg_size_eq] at q2
  exact ⟨by simp [h], by simp [q2]⟩

/-- Three messages, cut anywhere into three pieces -/
example (d : Buf) (h : msg.encode cfg msgVal = some d) (i j : Nat) :
    (msg.reader cfg').read [] [[d, d, d].flatten.take i, ([d, d, d].flatten.drop i).take j, ([d, d, d].flatten.drop i).drop j] =
      ([msgVal, msgVal, msgVal], []) :=
  (C59_go cfg cfg' msg_accepted msg_noDirectDyn _ msg_stream_ok _ (msg_stream d h).1 (by rw [(msg_stream d h).2]; decide)).all rfl
    (by simp only [List.flatten_cons, List.flatten_nil, List.append_nil, List.take_append_drop])

example (d : Buf) (h : msg.encode cfg msgVal = some d) : (msg.cReader cfg').Follows [msgVal, msgVal, msgVal] [d, d, d] :=
  C59_c cfg cfg' msg_accepted msg_noDirectDyn _ msg_stream_ok _ (msg_stream d h).1 (by rw [(msg_stream d h).2]; decide)

example (d : Buf) (h : msg.encode cfg msgVal = some d) : (msg.ktReader ktCfg).Follows ([msgVal, msgVal, msgVal].map (msg.toKt ktCfg [])) [d, d, d] :=
  C59_kotlin cfg ktCfg msg_accepted msg_noDirectDyn _ msg_stream_ok _ (msg_stream d h).1 (by rw [(msg_stream d h).2]; decide)

/-- As `msg_stream_ok`, with what a target asks for -/
theorem msg_stream_and {P : msg.Val → Prop} (h : P msgVal) : ∀ v ∈ [msgVal, msgVal, msgVal], msg.Legal v ∧ msg.InRange v ∧ 0 < msg.encodeSize v ∧ P v := by
  intro v hv
  have : v = msgVal := by simpa using hv
  subst this
  exact ⟨msg_legal, msg_inRange, by rw [msg_size_eq]; decide, h⟩

example (d : Buf) (h : msg.encode cfg msgVal = some d) : (msg.pyReader pyCfg).Follows ([msgVal, msgVal, msgVal].map msg.toPy) [d, d, d] :=
  C59_python cfg pyCfg msg_accepted msg_noDirectDyn msg_pyAligned _ (msg_stream_and (P := fun v => msg.pyAcc pyCfg [] v = true) msg_pyAcc) _
    (msg_stream d h).1 (by rw [(msg_stream d h).2]; decide)

example (d : Buf) (h : msg.encode cfg msgVal = some d) :
    (msg.tReader (jsTgt jsCfg)).Follows ([msgVal, msgVal, msgVal].map (msg.toJs jsCfg)) [d, d, d] :=
  C59_js cfg jsCfg msg_accepted msg_noDirectDyn jsMsg_tDecOk _ (msg_stream_and msg_jsDFits) _
    (msg_stream d h).1 (by rw [(msg_stream d h).2]; decide)

example (d : Buf) (h : msg.encode cfg msgVal = some d) :
    (msg.tReader javaCfg.tgt).Follows ([msgVal, msgVal, msgVal].map (msg.toJava javaCfg)) [d, d, d] :=
  C59_java (top := true) cfg javaCfg msg_accepted msg_noDirectDyn (by decide +kernel) _ (msg_stream_and msg_javaDFits) _
    (msg_stream d h).1 (by rw [(msg_stream d h).2]; decide)

example (d : Buf) (h : msg.encode cfg msgVal = some d) :
    (msg.tReader (csCfg true).tgt).Follows ([msgVal, msgVal, msgVal].map (msg.toCs (csCfg true))) [d, d, d] :=
  C59_csharp cfg (csCfg true) rfl msg_accepted msg_noDirectDyn (by decide +kernel) _ (msg_stream_and (msg_csDFits true)) _
    (msg_stream d h).1 (by rw [(msg_stream d h).2]; decide)

end Bubbler
