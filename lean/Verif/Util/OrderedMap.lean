/-
Model of util/ordered_map.go: an association list with an index from keys to positions.
A Go map is a function to `Option`.  Slices returned by Entries() alias the map's storage in Go;
aliasing is not modelled.
-/
namespace Bubbler.OM

variable {K V : Type} [DecidableEq K]

/-- `OrderedMap[K, V]` (util/ordered_map.go 8-13). `dflt` is `defaultK`, the zero key. -/
structure OMap (K V : Type) where
  dflt : K
  entries : List (K × V)
  index : K → Option Nat

/-- `NewOrderedMap` (15-20). -/
def new (dflt : K) : OMap K V := ⟨dflt, [], fun _ => none⟩

/-- `m.index[k] = i` -/
def setIdx (ix : K → Option Nat) (k : K) (i : Nat) : K → Option Nat := fun k' => if k' = k then some i else ix k'

/-- `delete(m.index, k)` -/
def delIdx (ix : K → Option Nat) (k : K) : K → Option Nat := fun k' => if k' = k then none else ix k'

/-- `Put` (54-61). -/
def put (m : OMap K V) (k : K) (v : V) : OMap K V × Bool :=
  match m.index k with
  | some _ => (m, false)
  | none => ({ m with index := setIdx m.index k m.entries.length, entries := m.entries ++ [(k, v)] }, true)

/-- `m.entries[i].Value = v`; `none` = index out of range panic. -/
def setVal (es : List (K × V)) (i : Nat) (v : V) : Option (List (K × V)) :=
  match es[i]? with
  | none => none
  | some (k, _) => some (es.set i (k, v))

/-- `MustPut` (63-70); `none` = panic. -/
def mustPut (m : OMap K V) (k : K) (v : V) : Option (OMap K V) :=
  match m.index k with
  | some i => (setVal m.entries i v).map fun es => { m with entries := es }
  | none => some { m with index := setIdx m.index k m.entries.length, entries := m.entries ++ [(k, v)] }

/-- `Get` (72-77): outer `none` = panic, inner `none` = `(defaultV, false)`. -/
def get (m : OMap K V) (k : K) : Option (Option V) :=
  match m.index k with
  | some i => (m.entries[i]?).map fun e => some e.2
  | none => some none

/-- `Has` (86-89). -/
def has (m : OMap K V) (k : K) : Bool := (m.index k).isSome

/-- `Rank` (91-96). -/
def rank (m : OMap K V) (k : K) : Int :=
  match m.index k with
  | some i => i
  | none => -1

/-- `Clear` (98-101). -/
def clear (m : OMap K V) : OMap K V := { m with entries := [], index := fun _ => none }

/-- The loop of `Remove` (107-111): positions from `i` on, for entries `es`. -/
def reindex (dflt : K) (ix : K → Option Nat) : Nat → List (K × V) → K → Option Nat
  | _, [] => ix
  | i, (k, _) :: es => reindex dflt (if k ≠ dflt then setIdx ix k i else ix) (i + 1) es

/-- `Remove` (103-113). -/
def remove (m : OMap K V) (k : K) : OMap K V :=
  match m.index k with
  | some i =>
    let es := m.entries.take i ++ m.entries.drop (i + 1)
    { m with entries := es, index := reindex m.dflt (delIdx m.index k) i (es.drop i) }
  | none => m

/-- `PutAnonymous` (144-146). -/
def putAnon (m : OMap K V) (v : V) : OMap K V := { m with entries := m.entries ++ [(m.dflt, v)] }

/-- The loop of `Sub` (33-39). -/
def subLoop (dflt : K) : OMap K V → List (K × V) → OMap K V
  | c, [] => c
  | c, (k, v) :: es => subLoop dflt (if k ≠ dflt then (put c k v).1 else putAnon c v) es

/-- `Sub` (22-41): `none` = nil.  Only for bounds inside the map (`0 ≤ start`, `end ≤ len` after the
adjustment of negative arguments); outside, Go slices up to the capacity or panics (not modelled). -/
def sub (m : OMap K V) (start stop : Int) : Option (OMap K V) :=
  let start := if start < 0 then m.entries.length + start else start
  let stop := if stop < 0 then m.entries.length + stop else stop
  if start > stop then none
  else some (subLoop m.dflt (new m.dflt) ((m.entries.take stop.toNat).drop start.toNat))

/-! ### Operations -/

inductive Op (K V : Type)
  | put (k : K) (v : V) | mustPut (k : K) (v : V) | putAnon (v : V)
  | get (k : K) | has (k : K) | rank (k : K) | remove (k : K) | clear | len | entries

inductive Out (K V : Type)
  | unit | bool (b : Bool) | int (i : Int) | val (v : Option V) | list (l : List (K × V)) | panic

/-- One call on the map: new state and what the caller sees. -/
def step (m : OMap K V) : Op K V → OMap K V × Out K V
  | .put k v => let (m, b) := put m k v; (m, .bool b)
  | .mustPut k v => match mustPut m k v with
    | none => (m, .panic)
    | some m => (m, .unit)
  | .putAnon v => (putAnon m v, .unit)
  | .get k => match get m k with
    | none => (m, .panic)
    | some r => (m, .val r)
  | .has k => (m, .bool (has m k))
  | .rank k => (m, .int (rank m k))
  | .remove k => (remove m k, .unit)
  | .clear => (clear m, .unit)
  | .len => (m, .int m.entries.length)
  | .entries => (m, .list m.entries)

def run (m : OMap K V) : List (Op K V) → OMap K V × List (Out K V)
  | [] => (m, [])
  | o :: os => let (m, r) := step m o; let (m, rs) := run m os; (m, r :: rs)

/-! ### Specification: a list of pairs in insertion order -/

/-- Position of the first pair with key `k`. -/
def find (l : List (K × V)) (k : K) : Option Nat := l.findIdx? (fun e => decide (e.1 = k))

/-- What each call should do on a list of pairs. -/
def specStep (dflt : K) (l : List (K × V)) : Op K V → List (K × V) × Out K V
  | .put k v => if k ∈ l.map Prod.fst then (l, .bool false) else (l ++ [(k, v)], .bool true)
  | .mustPut k v =>
    if k ∈ l.map Prod.fst then (l.map (fun e => if e.1 = k then (k, v) else e), .unit) else (l ++ [(k, v)], .unit)
  | .putAnon v => (l ++ [(dflt, v)], .unit)
  | .get k => (l, .val ((l.find? (fun e => decide (e.1 = k))).map Prod.snd))
  | .has k => (l, .bool (decide (k ∈ l.map Prod.fst)))
  | .rank k => (l, .int (match find l k with | some i => i | none => -1))
  | .remove k => (l.filter (fun e => decide (e.1 ≠ k)), .unit)
  | .clear => ([], .unit)
  | .len => (l, .int l.length)
  | .entries => (l, .list l)

def specRun (dflt : K) (l : List (K × V)) : List (Op K V) → List (K × V) × List (Out K V)
  | [] => (l, [])
  | o :: os => let (l, r) := specStep dflt l o; let (l, rs) := specRun dflt l os; (l, r :: rs)

/-- The keyed calls of `o` use a non-empty (non-zero) key. -/
def Op.keyOk (dflt : K) : Op K V → Prop
  | .put k _ | .mustPut k _ | .get k | .has k | .rank k | .remove k => k ≠ dflt
  | _ => True

end Bubbler.OM
