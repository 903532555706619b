import Verif.Model.Extra
/-
Writing calls on the private tree of a running transaction.

`Txn.GetTree` (txn.go:359-361) returns the pointer `t.tree`, the tree the transaction is working on.  Its type is the type
of all trees, so a program can also call `Insert`, `Delete`, `DeletePrefix`, `Clone` and `Txn` on it, as in
`txn.GetTree().Insert(k, v)`.  Reads of this tree are `TxnSt.getTree` in `Model/Extra.lean`; its `Get` and `GetWatch` are
`Txn.Get` and `Txn.GetWatch` (txn.go:81-84, 365-367), which do nothing but call them.
-/
namespace Art
variable {V : Type}

/-- A call on the tree that `GetTree` returned. -/
inductive TreeCall (V : Type) where
  | clone
  | insert (k : Key) (v : V)
  | delete (k : Key)
  | deletePrefix (k : Key)
  | txn
  deriving DecidableEq, Repr

/-- A call of the API, or a call on the private tree of transaction `x`, read when the call is made. -/
inductive LeakCall (V : Type) where
  | api (op : Op V)
  | leak (x : Nat) (c : TreeCall V)
  deriving DecidableEq, Repr

/-- Run a call on the private tree of transaction `x`.  What is recorded about the transaction is what is recorded when it
is copied with `Txn.Clone` (a mark that Go does not have). -/
def World.onLeak {α : Type} (w : World V) (x : Nat) (f : Tree → M V α) (out : α → Out V × List Tree) : Out V × World V :=
  match w.txns[x]? with
  | none => (.noSuch, w)
  | some r =>
    match f r.st.getTree (w.st default) with
    | (.ok a, s) => ((out a).1, { w.put s with trees := w.trees ++ (out a).2, txns := w.txns.set x r.cloned })
    | (.error e, s) => (.panic e, { w.put s with txns := w.txns.set x r.cloned })

/-- One call. -/
def execCall [Inhabited V] (w : World V) : LeakCall V → Out V × World V
  | .api op => exec w op
  | .leak x .clone => w.onLeak x treeClone fun nt => (.done, [nt])
  | .leak x (.insert k v) => w.onLeak x (treeInsert · k v) fun (nt, old, did) => (.updated old did, [nt])
  | .leak x (.delete k) => w.onLeak x (treeDelete · k) fun (nt, old, did) => (.updated old did, [nt])
  | .leak x (.deletePrefix k) => w.onLeak x (treeDeletePrefix · k) fun (nt, did) => (.flag did, [nt])
  | .leak x .txn =>
    match w.txns[x]? with
    | none => (.noSuch, w)
    | some r => ({ w with txns := w.txns.set x r.cloned }).addTxn (beginTxn r.st.getTree (w.st default))

/-- Run a sequence of calls: their results, in order, and the final state. -/
def execCalls [Inhabited V] (w : World V) : List (LeakCall V) → List (Out V) × World V
  | [] => ([], w)
  | c :: cs =>
    let (o, w') := execCall w c
    let (os, w'') := execCalls w' cs
    (o :: os, w'')

end Art
