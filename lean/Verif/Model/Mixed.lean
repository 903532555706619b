import Verif.Model.Share
/-
Goroutines that make reading calls of several kinds at the same time, with slices of the same array: `Get`, `LongestPrefix`
and `SeekPrefix` of an iterator.  The first two begin with `append(key, '$')` (tree.go:71, 86), which may write to the array;
`SeekPrefix` reads the slice it is given (iterator.go:106-157).

A step of a goroutine is the beginning of the call (the `append`, and for `LongestPrefix` the look at the root,
tree.go:87-99), or one round of its loop.
-/
set_option autoImplicit false
namespace Art
variable {V : Type}

/-- Which call is made. -/
inductive AskKind where
  | get
  | longest
  | seek
  deriving DecidableEq, Repr

/-- Does the call append to the slice it is given? -/
def AskKind.appends : AskKind → Bool
  | .get | .longest => true
  | .seek => false

/-- What the calls return; for `SeekPrefix`, the node that the iterator is positioned at. -/
inductive Answer (V : Type) where
  | value (r : Option V)
  | pair (r : Option (Key × V))
  | node (a : Addr)
  deriving DecidableEq, Repr

/-- tree.go:100-134: one round of the loop of `LongestPrefix`. -/
def lpRound (h : Heap V) (key : Key) (a : Addr) (depth : Nat) (last : Option Addr) :
    R (Option Addr ⊕ Addr × Nat × Option Addr) := do
  let c ← rd h a
  let bail ← prefixBails c key depth
  if bail then pure (.inl last)
  else if depth + c.partialLen ≥ key.length then pure (.inl last)
  else do
    let last ← lpOwn h key c last
    let last ← lpChildren h key c.children last
    let b ← byteAt key (depth + c.partialLen)
    match ← c.findChild b with
    | (none, _) => pure (.inl last)
    | (some child, _) => pure (.inr (child, depth + c.partialLen + 1, last))

/-- tree.go:135-140: the pair that `LongestPrefix` returns. -/
def lpAnswer (h : Heap V) (last : Option Addr) : R (Option (Key × V)) :=
  match last with
  | none => pure none
  | some l => do
    let lc ← rdLeaf h l
    pure (some (getKey lc.key, lc.value))

/-- iterator.go:117-156: one round of the loop of `SeekPrefix`. -/
def seekRound (h : Heap V) (pre : Key) (a : Addr) (depth : Nat) : R (Addr ⊕ Addr × Nat) := do
  let c ← rd h a
  let (stop, depth) ← seekStep h a c pre depth
  if stop then pure (.inl a)
  else if depth ≥ pre.length then pure (.inl a)
  else
    let b ← byteAt pre depth
    match ← c.findChild b with
    | (none, _) => pure (.inl a)
    | (some child, _) => pure (.inr (child, depth + 1))

/-- One round of a call.  Only `LongestPrefix` uses `last`. -/
def mixRound (h : Heap V) (k : AskKind) (key : Key) (a : Addr) (depth : Nat) (last : Option Addr) :
    R (Answer V ⊕ Addr × Nat × Option Addr) :=
  match k with
  | .get => do
    match ← searchRound h key a depth with
    | .inl hit => pure (.inl (.value hit.val))
    | .inr q => pure (.inr (q.1, q.2, last))
  | .longest => do
    match ← lpRound h key a depth last with
    | .inl last => do
      let r ← lpAnswer h last
      pure (.inl (.pair r))
    | .inr q => pure (.inr q)
  | .seek => do
    match ← seekRound h key a depth with
    | .inl n => pure (.inl (.node n))
    | .inr q => pure (.inr (q.1, q.2, last))

/-- tree.go:87-99: what is read before the loop; only `LongestPrefix` reads something, the leaf of the root. -/
def mixStart (h : Heap V) (k : AskKind) (t : Tree) : R (Option Addr) :=
  match k with
  | .longest => do
    let c ← rd h t.root
    pure c.nodeLeaf
  | _ => pure none

/-- How far a call has come. -/
inductive MixState (V : Type) where
  | waiting
  | running (win : Slice) (fuel : Nat) (a : Addr) (depth : Nat) (last : Option Addr)
  | done (r : R (Answer V))

/-- A call of a goroutine on tree `t` with the slice `s`. -/
structure Mixer (V : Type) where
  kind : AskKind
  t : Tree
  s : Slice
  st : MixState V

/-- The slice that the loop reads, and the memory once it is made. -/
def mixWindow (extra : Nat → Nat) (m : Mem) (k : AskKind) (s : Slice) : Mem × Slice :=
  if k.appends then goAppend extra m s 36 else (m, s)

/-- The state in which the loop begins. -/
def mixBegin (r : R (Option Addr)) (win : Slice) (root : Addr) : MixState V :=
  match r with
  | .error e => .done (.error e)
  | .ok last => .running win (win.len + 1) root 0 last

/-- One step of one goroutine. -/
def mixStep (extra : Nat → Nat) (h : Heap V) (m : Mem) (p : Mixer V) : Mem × Mixer V :=
  match p.st with
  | .waiting =>
    ((mixWindow extra m p.kind p.s).1, { p with st := mixBegin (mixStart h p.kind p.t) (mixWindow extra m p.kind p.s).2 p.t.root })
  | .running win fuel a depth last =>
    match fuel with
    | 0 => (m, { p with st := .done (.error .fuel) })
    | fuel + 1 =>
      match mixRound h p.kind (win.read m) a depth last with
      | .error e => (m, { p with st := .done (.error e) })
      | .ok (.inl r) => (m, { p with st := .done (.ok r) })
      | .ok (.inr q) => (m, { p with st := .running win fuel q.1 q.2.1 q.2.2 })
  | .done _ => (m, p)

/-- The goroutines take steps in the order of the schedule. -/
def mixRun (extra : Nat → Nat) (h : Heap V) : Mem → List (Mixer V) → List Nat → Mem × List (Mixer V)
  | m, ps, [] => (m, ps)
  | m, ps, j :: js =>
    match ps[j]? with
    | none => mixRun extra h m ps js
    | some p => mixRun extra h (mixStep extra h m p).1 (ps.set j (mixStep extra h m p).2) js

/-- The calls before they begin. -/
def mixAll (cs : List (AskKind × Tree × Slice)) : List (Mixer V) := cs.map fun c => ⟨c.1, c.2.1, c.2.2, .waiting⟩

end Art
