import Verif.Model.World
/-
Goroutines that work at the same time, each in a transaction of its own.  They share the nodes and the channels; their
code (`M.code`) is cut into single steps, each of which reads or writes one node at most, and a schedule says who takes
the next step.
-/
set_option autoImplicit false
namespace Art
variable {V : Type}

/-! ### What a goroutine does -/

/-- A call that a goroutine makes in its transaction.  `GetWatch` is here without the channel that it returns: which channel
that is depends on the others.  `peek` is `RadixTree.Get` on tree number `t`. -/
inductive Call (V : Type) where
  | insert (k : Key) (v : V)
  | delete (k : Key)
  | deletePrefix (k : Key)
  | get (k : Key)
  | getWatch (k : Key)
  | track (b : Bool)
  | notify
  | peek (t : Nat) (k : Key)
  deriving DecidableEq

/-- A goroutine's work: start a transaction on tree number `tree`, make the calls, `Commit` or `CommitOnly`. -/
structure Session (V : Type) where
  tree : Nat
  calls : List (Call V)
  /-- `Commit`, which notifies, and not `CommitOnly` -/
  notify : Bool
  deriving DecidableEq

/-- The code of a call; `ts` are the trees that all goroutines know. -/
def Call.code [Inhabited V] (ts : List Tree) : Call V → M V (Out V)
  | .insert k v => do
    let r ← txnInsert k v
    pure (.updated r.1 r.2)
  | .delete k => do
    let r ← txnDelete k
    pure (.updated r.1 r.2)
  | .deletePrefix k => do
    let r ← txnDeletePrefix k
    pure (.flag r)
  | .get k => do
    let r ← txnGet k
    pure (.value r)
  | .getWatch k => do
    let t ← txnSt
    let r ← treeGetWatch { root := t.root, size := t.treeSize, maxNodeId := t.maxNodeId } k
    pure (.value r.2)
  | .track b => do
    txnTrackMutate b
    pure .done
  | .notify => do
    txnNotify
    pure .done
  | .peek t k =>
    match ts[t]? with
    | none => pure .noSuch
    | some t => do
      let s ← M.get
      let r ← M.lift (treeGet s.heap t k)
      pure (.value r)

/-- One call after the other. -/
def callAll [Inhabited V] (ts : List Tree) : List (Call V) → M V (List (Out V))
  | [] => pure []
  | c :: cs => do
    let o ← c.code ts
    let os ← callAll ts cs
    pure (o :: os)

/-- `Commit` or `CommitOnly`. -/
def txnEnd (notify : Bool) : M V Tree := if notify then txnCommit else txnCommitOnly

/-- The whole work of a goroutine, on the tree `t`: the results of the calls and the new tree.  A panic ends the goroutine. -/
def session [Inhabited V] (ts : List Tree) (t : Tree) (cs : List (Call V)) (notify : Bool) : M V (List (Out V) × Tree) := do
  let x ← beginTxn t
  withTxn x do
    let os ← callAll ts cs
    let nt ← txnEnd notify
    pure (os, nt)

/-- The same from the numbers of the trees. -/
def Session.code [Inhabited V] (ts : List Tree) (g : Session V) : M V (List (Out V) × Tree) :=
  match ts[g.tree]? with
  | none => M.throw .nilDeref
  | some t => session ts t g.calls g.notify

/-! ### Schedules -/

/-- A goroutine: what is left of its code, its transaction, and, while it is in a function that only reads, what it has
seen of memory so far. -/
structure Proc (V α : Type) where
  code : Code V α
  txn : TxnSt
  view : Option (Heap V)

/-- Memory and goroutines. -/
structure Pool (V α : Type) where
  heap : Heap V
  chans : List Bool
  procs : List (Proc V α)

/-- What may happen next. -/
inductive Event where
  /-- goroutine `i` takes a step -/
  | step (i : Nat)
  /-- goroutine `i`, being in a function that only reads, sees node `a` as it is now -/
  | look (i : Nat) (a : Addr)
  /-- somebody else, outside of the pool, sets the channel of node `a` -/
  | chan (a : Addr) (k : ChanId)

/-- One step of a goroutine by itself: memory, channels and the goroutine afterwards. -/
def Proc.step {α : Type} (h : Heap V) (cs : List Bool) (p : Proc V α) : Heap V × List Bool × Proc V α :=
  match p.code with
  | .done _ => (h, cs, p)
  | .look k =>
    match p.view with
    | none => (h, cs, { p with view := some h })
    | some v => (h, cs, { p with code := k { heap := v, chans := cs, txn := p.txn }, view := none })
  | .read a k => (h, cs, { p with code := k h[a]? })
  | .write a c k => (h.set a c, cs, { p with code := k })
  | .store a ch k => (setChan h a ch, cs, { p with code := k })
  | .alloc c k => (h ++ [c], cs, { p with code := k h.length })
  | .make k => (h, cs ++ [false], { p with code := k cs.length })
  | .own f k => (h, cs, { p with code := k (f p.txn), txn := f p.txn })
  | .claim a ch k =>
    match chanOf h a with
    | none => (setChan h a ch, cs, { p with code := k ch })
    | some _ => (h, cs, { p with code := .load a ch k })
  | .load a ch k => (h, cs, { p with code := k ((chanOf h a).getD ch) })
  | .test c k => (h, cs, { p with code := k (cs[c]? == some true) })
  | .shut c k =>
    match cs[c]? == some true with
    | true => (h, cs, p)
    | false => (h, cs.set c true, { p with code := k })

/-- The goroutine is about to close a channel that is closed: "close of closed channel".  In Go this ends the whole
program; here the goroutine is stuck, and the others may still take steps. -/
def Proc.crashes {α : Type} (cs : List Bool) (p : Proc V α) : Prop :=
  match p.code with
  | .shut c _ => cs[c]? = some true
  | _ => False

instance {α : Type} (cs : List Bool) (p : Proc V α) : Decidable (p.crashes cs) := by
  unfold Proc.crashes
  split <;> infer_instance

/-- The node that the goroutine is going to write to. -/
def Proc.writes {α : Type} (p : Proc V α) : Option Addr :=
  match p.code with
  | .write a _ _ => some a
  | _ => none

/-- The node that the goroutine is going to read. -/
def Proc.reads {α : Type} (p : Proc V α) : Option Addr :=
  match p.code with
  | .read a _ => some a
  | _ => none

/-- See a node as it is now. -/
def Proc.look {α : Type} (h : Heap V) (a : Addr) (p : Proc V α) : Proc V α :=
  match p.view, h[a]? with
  | some v, some c => { p with view := some (v.set a c) }
  | _, _ => p

/-- One action. -/
def Pool.act {α : Type} (P : Pool V α) : Event → Pool V α
  | .step i =>
    match P.procs[i]? with
    | none => P
    | some p =>
      let r := p.step P.heap P.chans
      { heap := r.1, chans := r.2.1, procs := P.procs.set i r.2.2 }
  | .look i a =>
    match P.procs[i]? with
    | none => P
    | some p => { P with procs := P.procs.set i (p.look P.heap a) }
  | .chan a k => { P with heap := setChan P.heap a k }

/-- A schedule. -/
def Pool.run {α : Type} (P : Pool V α) (acts : List Event) : Pool V α := acts.foldl Pool.act P

/-- Goroutines about to start in a world. -/
def World.pool [Inhabited V] (w : World V) (gs : List (Session V)) : Pool V (List (Out V) × Tree) :=
  { heap := w.heap, chans := w.chans, procs := gs.map fun g => { code := (g.code w.trees).code, txn := default, view := none } }

/-- Goroutine `i` panics with "close of closed channel". -/
def Pool.Crash {α : Type} (P : Pool V α) (i : Nat) : Prop := ∃ p, P.procs[i]? = some p ∧ p.crashes P.chans

/-- What goroutine `i` has returned, if it has. -/
def Pool.result {α : Type} (P : Pool V α) (i : Nat) : Option (R α) :=
  match P.procs[i]? with
  | some { code := .done r, .. } => some r
  | _ => none

/-! ### Goroutines that start while others run -/

/-- A goroutine that was started: from which goroutine (`none`: from the program that was there before), the trees that it
knows, and its work. -/
structure Job (V : Type) where
  src : Option Nat
  known : List Tree
  work : Session V

/-- The goroutines, the trees from before, and who was started. -/
structure Team (V : Type) where
  pool : Pool V (List (Out V) × Tree)
  trees : List Tree
  jobs : List (Job V)

/-- What may happen next. -/
inductive Turn (V : Type) where
  | act (x : Event)
  /-- a goroutine starts to do the work `g`, with the trees of the program from before, or with those that goroutine `i`,
  which has returned, knew, and the tree that it returned -/
  | start (src : Option Nat) (g : Session V)

/-- The trees that a goroutine gets to know that is started from there. -/
def Team.known (T : Team V) : Option Nat → Option (List Tree)
  | none => some T.trees
  | some i =>
    match T.jobs[i]?, T.pool.result i with
    | some j, some (.ok (_, t)) => some (j.known ++ [t])
    | _, _ => none

/-- One turn. -/
def Team.turn [Inhabited V] (T : Team V) : Turn V → Team V
  | .act x => { T with pool := T.pool.act x }
  | .start src g =>
    match T.known src with
    | none => T
    | some ts => { T with
        pool := { T.pool with procs := T.pool.procs ++ [{ code := (g.code ts).code, txn := default, view := none }] }
        jobs := T.jobs ++ [{ src := src, known := ts, work := g }] }

/-- A schedule. -/
def Team.run [Inhabited V] (T : Team V) (turns : List (Turn V)) : Team V := turns.foldl Team.turn T

/-- A world in which nobody has started yet. -/
def World.team (w : World V) : Team V := { pool := { heap := w.heap, chans := w.chans, procs := [] }, trees := w.trees, jobs := [] }

end Art
