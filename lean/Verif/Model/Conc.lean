import Verif.Model.World
/-
Races inside a call: goroutines that take single atomic steps in an arbitrary order.  Two pieces of the code are
built for that: `getMutateCh`, which creates the channel of a node on first use, and the loop of `slowNotify`,
which closes channels.  A schedule is the list of the goroutines in the order in which they take steps; an entry
that names no goroutine, or one that has returned, is a pause.
-/
set_option autoImplicit false
namespace Art
variable {V : Type}

/-! ### getMutateCh -/

/-- Where a goroutine is in `getMutateCh` (node_4.go:151-166, and the same text in node_16.go, node_48.go,
node_256.go and node_leaf.go). -/
inductive WatchPC where
  /-- before the first `Load` (line 152) -/
  | start
  /-- it saw nil; before `make(chan struct{})` (line 158) -/
  | make
  /-- before `CompareAndSwap(nil, &newCh)` (line 160) -/
  | swap (new : ChanId)
  /-- it lost; before the second `Load` (line 165) -/
  | reload
  /-- returned this channel -/
  | done (c : ChanId)
  /-- dereferenced the nil that the second `Load` gave -/
  | crash
  deriving DecidableEq, Repr

/-- The `mutateCh` of the node, the number of channels made so far, and the goroutines. -/
structure Watchers where
  cell : Option ChanId
  chans : Nat
  pcs : List WatchPC
  deriving DecidableEq, Repr

/-- `n` goroutines about to call `getMutateCh`, the node holding `cell`, `chans` channels in existence. -/
def Watchers.init (cell : Option ChanId) (chans n : Nat) : Watchers :=
  { cell := cell, chans := chans, pcs := List.replicate n .start }

/-- One atomic step of goroutine `i`. -/
def Watchers.step (s : Watchers) (i : Nat) : Watchers :=
  match s.pcs[i]? with
  | some .start =>
    match s.cell with
    | some c => { s with pcs := s.pcs.set i (.done c) }
    | none => { s with pcs := s.pcs.set i .make }
  | some .make => { s with chans := s.chans + 1, pcs := s.pcs.set i (.swap s.chans) }
  | some (.swap new) =>
    match s.cell with
    | none => { s with cell := some new, pcs := s.pcs.set i (.done new) }
    | some _ => { s with pcs := s.pcs.set i .reload }
  | some .reload =>
    match s.cell with
    | some c => { s with pcs := s.pcs.set i (.done c) }
    | none => { s with pcs := s.pcs.set i .crash }
  | _ => s

/-- A schedule. -/
def Watchers.run (s : Watchers) (sched : List Nat) : Watchers := sched.foldl Watchers.step s

/-! ### slowNotify -/

/-- A goroutine in the loop of `slowNotify` (txn.go:404-411): the channels still to be visited, and whether it is
between `isClosed(ch)`, which said no, and `close(ch)` for the first of them. -/
structure Notifier where
  todo : List ChanId
  closing : Bool
  deriving DecidableEq, Repr

/-- The channels (true: closed), the goroutines, and whether one of them closed a closed channel, which is a
panic. -/
structure Notifiers where
  chans : List Bool
  gs : List Notifier
  panicked : Bool
  deriving DecidableEq, Repr

/-- Is the channel closed (txn.go:592-599)? -/
def Notifiers.isClosed (s : Notifiers) (c : ChanId) : Bool := (s.chans[c]?).getD false

/-- One atomic step of goroutine `i`: check the next channel, or close it. -/
def Notifiers.step (s : Notifiers) (i : Nat) : Notifiers :=
  match s.gs[i]? with
  | some ⟨c :: cs, false⟩ =>
    if s.isClosed c then { s with gs := s.gs.set i ⟨cs, false⟩ }
    else { s with gs := s.gs.set i ⟨c :: cs, true⟩ }
  | some ⟨c :: cs, true⟩ =>
    if s.isClosed c then { s with gs := s.gs.set i ⟨[], false⟩, panicked := true }
    else { s with chans := s.chans.set c true, gs := s.gs.set i ⟨cs, false⟩ }
  | _ => s

/-- A schedule. -/
def Notifiers.run (s : Notifiers) (sched : List Nat) : Notifiers := sched.foldl Notifiers.step s

/-- Goroutines that notify for the given transactions of a program, each its own (txn.go:372-378: nothing is done
for a transaction that does not track). -/
def World.notifiers (w : World V) (xs : List Nat) : Notifiers :=
  { chans := w.chans
    gs := xs.map fun x =>
      match w.txns[x]? with
      | some r => ⟨if r.st.trackMutate then r.st.trackChnSlice else [], false⟩
      | none => ⟨[], false⟩
    panicked := false }

/-- No two goroutines have a channel in common. -/
def Notifiers.Disjoint (s : Notifiers) : Prop :=
  ∀ (i j : Nat) g g', i ≠ j → s.gs[i]? = some g → s.gs[j]? = some g' → ∀ c ∈ g.todo, c ∉ g'.todo

/-- The schedule never lets another goroutine run between the check of a channel and its closing. -/
def Notifiers.calm (s : Notifiers) : List Nat → Bool
  | [] => true
  | i :: is => (s.gs.zipIdx.all fun p => p.2 == i || !p.1.closing) && (s.step i).calm is

end Art
