import Verif.Props.CProps
import Verif.Props.PyProps
import Verif.Props.KtProps
import Verif.Props.JsProps
import Verif.Props.JavaProps
import Verif.Props.CsProps

/-
C76: a message written by a program in any of the target languages is read by programs in all of them.

`Written fs v d` says that a program in one of the nine target languages (C and C++ share a model, and so do the two kinds of
JavaScript modules) has encoded, as `d`, an object that stands for the value `v`; the conditions on definitions under which a
target's writer is right are those of C17, C46, C49, C50, C53 and C54.  `ReadEverywhere fs v d rest` says what the decoders of all
targets return for `d` followed by other bytes.
-/
set_option linter.unusedSimpArgs false
namespace Bubbler
open Sample

/-- `d` is the message for `v` written by some program. -/
inductive Written (fs : Fields) (v : fs.Val) (d : Buf) : Prop
  | go (c : Cfg) (h : fs.encode c v = some d)
  | c (c : Cfg) (hal : fs.cAligned 0 = true) (n : Nat)
      (h : fs.cEncodeTo c v (List.replicate (fs.encodeSize v) 0#8) = some (d, n))
  | python (c : PyCfg) (p : fs.PyVal) (e : fs.ofPy p = v) (h : fs.pyEncode c p = some d)
  | kotlin (k : fs.KtVal) (hk : fs.KtLegal k) (e : fs.ofKt k = v) (hs : fs.ktEncodeSize k < 2 ^ 31) (h : fs.ktEncode k = some d)
  | javascript (c : JsCfg) (hok : fs.tOk (jsSpec c) false 0 = true) (j : fs.TVal (jsTgt c)) (hj : fs.TLegal (jsSpec c) [] j)
      (e : fs.ofJs c j = v) (hs : fs.tEncodeSize (jsTgt c) j < 2 ^ 28) (h : fs.tEncode (jsTgt c) j = some d)
  | java (c : JavaCfg) (hok : fs.tOk (mgSpec c.mg) true 0 = true) (j : fs.TVal c.tgt) (hj : fs.TLegal (mgSpec c.mg) [] j)
      (e : fs.ofJava c j = v) (hs : fs.tEncodeSize c.tgt j < 2 ^ 30) (h : fs.tEncode c.tgt j = some d)
  | csharp (c : CsCfg) (hok : fs.tOk (mgSpec c.mg) false 0 = true) (j : fs.TVal c.tgt) (hj : fs.TLegal (mgSpec c.mg) [] j)
      (e : fs.ofCs c j = v) (hs : fs.tEncodeSize c.tgt j < 2 ^ 30) (h : fs.tEncode c.tgt j = some d)

/-- What programs in all languages get when they decode `d` followed by `rest`: the object standing for `v`, and the length of
`d`.  Each line has the conditions under which that target reads such a value. -/
structure ReadEverywhere (fs : Fields) (v : fs.Val) (d rest : Buf) : Prop where
  go : ∀ c : Cfg, fs.decode c (d ++ rest) = .ok (v, d.length)
  c : ∀ c : Cfg, fs.cDecode c (d ++ rest) = .ok (v, d.length)
  python : ∀ c : PyCfg, fs.pyAligned c 0 = true → fs.pyAcc c [] v = true →
    fs.pyDecode c (d ++ rest) = .ok (fs.toPy v, d.length)
  kotlin : ∀ c : KtCfg, fs.ktDecode c (d ++ rest) 0 = .ok (fs.toKt c [] v, d.length)
  javascript : ∀ c : JsCfg, fs.tDecOk (jsDecSpec c) false = true → fs.DFits (jsDecSpec c) [] v →
    fs.tDecode (jsTgt c) (d ++ rest) 0 = .ok (fs.toJs c v, d.length)
  java : ∀ c : JavaCfg, fs.tDecOk (mgDecSpec c.mg) true = true → fs.DFits (mgDecSpec c.mg) [] v →
    fs.tDecode c.tgt (d ++ rest) 0 = .ok (fs.toJava c v, d.length)
  csharp : ∀ c : CsCfg, fs.tDecOk (mgDecSpec c.mg) false = true → fs.DFits (mgDecSpec c.mg) [] v →
    fs.tDecode c.tgt (d ++ rest) 0 = .ok (fs.toCs c v, d.length)

/-- C76: for one value there is one message, whoever writes it. -/
theorem C76_one_message {fs : Fields} (hacc : fs.accepted = true) (hn : fs.noDirectDyn = true) (v : fs.Val) (hv : fs.Legal v)
    (d : Buf) (h : Written fs v d) (cg : Cfg) : fs.encode cg v = some d := by
  cases h with
  | go c h => rw [(C06_encode_option_independent cg c hacc v hv).1, h]
  | c c hal n h =>
    obtain ⟨d', e, hk⟩ := C17_encode_agrees c cg hacc hal v hv
    obtain ⟨d2, e2, l2⟩ := (C02_size_exact cg hacc v hv).1
    rw [e] at e2; cases e2
    have := hk 0
    rw [Nat.add_zero, l2, h] at this
    simp only [List.replicate_zero, List.append_nil, Option.some.injEq, Prod.mk.injEq] at this
    rw [e, this.1]
  | python c p e h =>
    subst e
    rw [← (C46_encode_agrees c cg hacc p hv).1, h]
  | kotlin k hk e hs h =>
    subst e
    rw [← (C49_encode_agrees cg hacc (C49_safe hacc hn) k hk).2.2 hs, h]
  | javascript c hok j hj e hs h =>
    subst e
    rw [← (C50_encode_agrees cg c hacc hok j hj).2.2 hs, h]
  | java c hok j hj e hs h =>
    subst e
    rw [← (C53_encode_agrees cg c hacc hok j hj).2.2 hs, h]
  | csharp c hok j hj e hs h =>
    subst e
    rw [← (C54_encode_agrees cg c hacc hok j hj).2.2 hs, h]

/-- C76: whatever language wrote a message, programs in every language read it, and know where it ends. -/
theorem C76_exchange {fs : Fields} (hacc : fs.accepted = true) (hn : fs.noDirectDyn = true) (v : fs.Val) (hv : fs.Legal v)
    (hr : fs.InRange v) (d : Buf) (h : Written fs v d) (rest : Buf) (hsz : (d ++ rest).length < 2 ^ 28) :
    ReadEverywhere fs v d rest := by
  have one := C76_one_message hacc hn v hv d h
  rw [List.length_append] at hsz
  have len : d.length = fs.encodeSize v := by
    obtain ⟨d2, e2, l2⟩ := (C02_size_exact cfg hacc v hv).1
    rw [one] at e2; cases e2
    exact l2
  constructor
  · intro c
    obtain ⟨d', e, h', -⟩ := C07_stream c c hacc hn v hv hr rest (by omega)
    rw [one] at e; cases e
    exact h'
  · intro c
    obtain ⟨d', e, h'⟩ := C17_decode_agrees c c hacc v hv hr
    rw [one] at e; cases e
    exact h' rest (by rw [List.length_append]; omega)
  · intro c h1 h2
    obtain ⟨d', e, h', -⟩ := C46_from_go c cfg hacc hn h1 v hv hr h2 rest (by omega)
    rw [one] at e; cases e
    exact h'
  · intro c
    obtain ⟨d', e, h', -⟩ := C49_from_go cfg c hacc hn v hv hr [] rest (by simp only [List.length_nil]; omega)
    rw [one] at e; cases e
    exact h'
  · intro c h1 h2
    obtain ⟨d', e, -, h', -⟩ := C50_from_go cfg c hacc hn h1 v hv hr h2 [] rest (by simp only [List.length_nil]; omega)
    rw [one] at e; cases e
    exact h'
  · intro c h1 h2
    obtain ⟨d', e, -, h', -⟩ := C53_from_go cfg c hacc hn h1 v hv hr h2 [] rest (fun _ => rfl) (by simp only [List.length_nil]; omega)
    rw [one] at e; cases e
    exact h'
  · intro c h1 h2
    obtain ⟨d', e, -, h', -⟩ := C54_from_go cfg c hacc hn h1 v hv hr h2 [] rest (by simp only [List.length_nil]; omega)
    rw [one] at e; cases e
    exact h'

/-- C76: two different values never have the same message, whatever the languages. -/
theorem C76_unambiguous {fs : Fields} (hacc : fs.accepted = true) (hn : fs.noDirectDyn = true) (v w : fs.Val) (hv : fs.Legal v)
    (hw : fs.Legal w) (hrv : fs.InRange v) (hrw : fs.InRange w) (d : Buf) (h1 : Written fs v d) (h2 : Written fs w d)
    (hsz : d.length < 2 ^ 28) : v = w := by
  have r1 := (C76_exchange hacc hn v hv hrv d h1 [] (by simpa using hsz)).go cfg
  have r2 := (C76_exchange hacc hn w hw hrw d h2 [] (by simpa using hsz)).go cfg
  rw [r1] at r2
  cases r2
  rfl

/-! ### The hypotheses are met: one message, from every writer to every reader -/

/-- The message of `msgVal` (every kind of field) as written by Go -/
theorem msg_bytes : ∃ d, msg.encode cfg msgVal = some d ∧ d.length = 25 := by
  obtain ⟨d, e, l⟩ := (C02_size_exact cfg msg_accepted msgVal msg_legal).1
  exact ⟨d, e, by rw [l, msg_size_eq]⟩

/-- Programs in Python, Kotlin, C, Java and C# write the same bytes for their objects. -/
example : ∃ d, Written msg msgVal d ∧ msg.pyEncode pyCfg pyMsg = some d ∧ msg.ktEncode ktMsg = some d ∧
    msg.tEncode javaCfg.tgt (javaMsg javaCfg) = some d ∧ msg.tEncode (csCfg true).tgt (csMsg (csCfg true)) = some d ∧
    msg.cEncodeTo cfg msgVal (List.replicate 25 0#8) = some (d, 25) := by
  obtain ⟨d, e, l⟩ := msg_bytes
  have hj := (Fields.TFits.facts (mgGood_ok javaCfg.mg) msg [] 0 (javaMsg javaCfg) (Fields.accepted_facts msg_accepted).1
    (javaMsg_fits _ rfl rfl)).1
  have hc := (Fields.TFits.facts (mgGood_ok (csCfg true).mg) msg [] 0 (csMsg (csCfg true)) (Fields.accepted_facts msg_accepted).1
    (csMsg_fits _ rfl)).1
  have hk := (Fields.KtFits.facts msg [] 0 ktMsg (Fields.accepted_facts msg_accepted).1 ktMsg_fits).1
  refine ⟨d, .go cfg e, ?_, ?_, ?_, ?_, ?_⟩
  · rw [(C46_encode_agrees pyCfg cfg msg_accepted pyMsg msg_legal).1]
    exact e
  · rw [(C49_encode_agrees cfg msg_accepted (C49_safe msg_accepted msg_noDirectDyn) ktMsg hk).2.2 (by rw [ktMsg_size]; decide)]
    exact e
  · rw [(C53_encode_agrees (top := true) cfg javaCfg msg_accepted (by decide +kernel) (javaMsg javaCfg) hj).2.2
      (by rw [show msg.tEncodeSize javaCfg.tgt (javaMsg javaCfg) = 25 by decide +kernel]; decide)]
    exact e
  · rw [(C54_encode_agrees cfg (csCfg true) msg_accepted (by decide +kernel) (csMsg (csCfg true)) hc).2.2
      (by rw [show msg.tEncodeSize (csCfg true).tgt (csMsg (csCfg true)) = 25 by decide +kernel]; decide)]
    exact e
  · obtain ⟨d', e', h'⟩ := C17_encode_agrees cfg cfg msg_accepted msg_cAligned msgVal msg_legal
    rw [e] at e'; cases e'
    have := h' 0
    rw [Nat.add_zero, l] at this
    simpa using this

/-- What a Python program wrote is read by programs in Go, C, Kotlin, Java, C# and JavaScript, from a stream that goes on. -/
example : ∃ d, msg.pyEncode pyCfg pyMsg = some d ∧ ReadEverywhere msg msgVal d [1#8, 2#8] ∧
    msg.ktDecode ktCfg (d ++ [1#8, 2#8]) 0 = .ok (msg.toKt ktCfg [] msgVal, 25) ∧
    msg.tDecode javaCfg.tgt (d ++ [1#8, 2#8]) 0 = .ok (msg.toJava javaCfg msgVal, 25) ∧
    msg.tDecode (jsTgt jsCfg) (d ++ [1#8, 2#8]) 0 = .ok (msg.toJs jsCfg msgVal, 25) := by
  obtain ⟨d, e, l⟩ := msg_bytes
  have h : msg.pyEncode pyCfg pyMsg = some d := by
    rw [(C46_encode_agrees pyCfg cfg msg_accepted pyMsg msg_legal).1]
    exact e
  have hr := C76_exchange msg_accepted msg_noDirectDyn msgVal msg_legal msg_inRange d (.python pyCfg pyMsg pyMsg_ofPy h) [1#8, 2#8]
    (by rw [List.length_append, l]; decide)
  have h1 := hr.kotlin ktCfg
  have h2 := hr.java javaCfg (by decide +kernel) msg_javaDFits
  have h3 := hr.javascript jsCfg jsMsg_tDecOk msg_jsDFits
  rw [l] at h1 h2 h3
  exact ⟨d, h, hr, h1, h2, h3⟩

end Bubbler
