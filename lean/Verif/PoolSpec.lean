import Verif.Spec
import Verif.Model.Pool
/-
What goroutines that work at the same time are compared with: the same calls, made one after the other in a history.
-/
set_option autoImplicit false
namespace Art
variable {V : Type}

/-- What the goroutine does, as calls of a history in which its transaction has number `x`. -/
def Call.toOp (x : Nat) : Call V → Op V
  | .insert k v => .txnInsert x k v
  | .delete k => .txnDelete x k
  | .deletePrefix k => .txnDeletePrefix x k
  | .get k => .txnGet x k
  | .getWatch k => .txnGetWatch x k
  | .track b => .trackMutate x b
  | .notify => .notify x
  | .peek t k => .get t k

/-- The last call. -/
def Session.last (x : Nat) (g : Session V) : Op V := if g.notify then .commit x else .commitOnly x

/-- The same for all of it. -/
def Session.ops (x : Nat) (g : Session V) : List (Op V) := .begin g.tree :: (g.calls.map (Call.toOp x) ++ [g.last x])

/-- The goroutine calls `TrackMutate(true)`. -/
def Session.tracks (g : Session V) : Prop := .track true ∈ g.calls

/-- The goroutine may close channels: it calls `TrackMutate(true)`, and `Notify` or `Commit`. -/
def Session.rings (g : Session V) : Prop := .track true ∈ g.calls ∧ (g.notify = true ∨ .notify ∈ g.calls)

/-- The goroutine ends with `Commit`, and does not call `TrackMutate(false)`. -/
def Session.tells (g : Session V) : Prop := g.notify = true ∧ .track false ∉ g.calls

/-- Leave out the channel. -/
def Out.plain : Out V → Out V
  | .chan _ r => .value r
  | o => o

section
variable [Inhabited V]

/-- The pool of the goroutines `gs` after the history `ops` and the schedule `acts`. -/
def poolAfter (ops : List (Op V)) (gs : List (Session V)) (acts : List Event) : Pool V (List (Out V) × Tree) :=
  ((execAll World.init ops).2.pool gs).run acts

/-- The team after the history `ops` and the schedule `turns`. -/
def teamAfter (ops : List (Op V)) (turns : List (Turn V)) : Team V := (execAll World.init ops).2.team.run turns

/-- The history, with the calls of the goroutine added. -/
def Session.after (ops : List (Op V)) (g : Session V) : List (Op V) := ops ++ g.ops (execAll World.init ops).2.txns.length

/-- Results and world when the goroutine makes its calls alone, right after the history, one call after the other. -/
def aloneAfter (ops : List (Op V)) (g : Session V) : List (Out V) × World V :=
  execAll (execAll World.init ops).2 (g.ops (execAll World.init ops).2.txns.length)

/-- The histories that the goroutines continue: the calls of the goroutine from which it was started come first, before those
the calls of the goroutine from which that one was started, and so on; `ops` is at the beginning. -/
def lineage (ops : List (Op V)) (jobs : List (Job V)) : List (List (Op V) × Session V) :=
  jobs.foldl (fun l j => l ++ [(match j.src.bind (l[·]?) with | none => ops | some (h, g) => g.after h, j.work)]) []
end

/-- Goroutine `i` may close channels and has not returned. -/
def Team.Ringing (T : Team V) (i : Nat) : Prop := T.pool.result i = none ∧ ∃ j, T.jobs[i]? = some j ∧ j.work.rings

/-- Those outside of the team put only channels into nodes that have been made. -/
def Honest [Inhabited V] (ops : List (Op V)) (turns : List (Turn V)) : Prop := ∀ (n : Nat) (a : Addr) (c : ChanId),
  turns[n]? = some (.act (.chan a c)) → c < (teamAfter ops (turns.take n)).pool.chans.length

/-- Channel `c` is closed. -/
def Pool.Closed {α : Type} (P : Pool V α) (c : ChanId) : Prop := P.chans[c]? = some true

/-- Goroutine `i` has `c` on the list of the channels that it is going to close. -/
def Pool.Tracks {α : Type} (P : Pool V α) (i : Nat) (c : ChanId) : Prop := ∃ p, P.procs[i]? = some p ∧ c ∈ p.txn.trackChnSlice

/-- Two goroutines are about to access the same node, and one of them is going to write to it.  (Atomic stores of channels are
not races.) -/
def Pool.Race {α : Type} (P : Pool V α) : Prop :=
  ∃ (i j : Nat) (p q : Proc V α) (a : Nat), i ≠ j ∧ P.procs[i]? = some p ∧ P.procs[j]? = some q ∧ a < P.heap.length ∧
    p.writes = some a ∧ (q.writes = some a ∨ q.reads = some a)

end Art
