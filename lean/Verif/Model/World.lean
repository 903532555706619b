import Verif.Model.Iter
/-
A program that uses the package: any number of trees and transactions alive at once, over one heap, driven
by an arbitrary sequence of API calls.  Every call is one step of `exec`, whatever transaction it belongs
to, so the histories are all interleavings of whole calls (calls that race inside one call are the subject
of `Model/Conc.lean`).
-/
namespace Art
variable {V : Type}

/-- A transaction handle.  `ended` is not a field of the Go struct: it records that `Commit` or `CommitOnly`
was called, `copied` that `Txn.Clone` was called on it when it had already made nodes (see `TxnRec.cloned`), so that
histories respecting the documentation can be told apart. -/
structure TxnRec where
  st : TxnSt
  ended : Bool
  copied : Bool
  deriving DecidableEq, Repr

/-- Note that `Txn.Clone` was called on the transaction.  One that has not made any node yet (its `maxNodeId` is still
that of the tree it started from) shares nothing with the clone that it could change later, and is not marked. -/
def TxnRec.cloned (r : TxnRec) : TxnRec := { r with copied := r.copied || r.st.maxNodeId != r.st.oldMaxNodeId }

/-- The state of the program: heap, channels, and the handles obtained so far. -/
structure World (V : Type) where
  heap : Heap V
  chans : List Bool
  trees : List Tree
  txns : List TxnRec
  deriving DecidableEq, Repr

/-- The program before its first call. -/
def World.init : World V := { heap := [], chans := [], trees := [], txns := [] }

/-- API calls.  A tree or transaction is named by its position in the order of creation. -/
inductive Op (V : Type) where
  | newTree
  | cloneTree (t : Nat)
  | insert (t : Nat) (k : Key) (v : V)
  | delete (t : Nat) (k : Key)
  | deletePrefix (t : Nat) (k : Key)
  | get (t : Nat) (k : Key)
  | getWatch (t : Nat) (k : Key)
  | seekPrefixWatch (t : Nat) (p : Key)
  | len (t : Nat)
  | begin (t : Nat)
  | txnClone (x : Nat)
  | trackMutate (x : Nat) (b : Bool)
  | txnInsert (x : Nat) (k : Key) (v : V)
  | txnDelete (x : Nat) (k : Key)
  | txnDeletePrefix (x : Nat) (k : Key)
  | txnGet (x : Nat) (k : Key)
  | txnGetWatch (x : Nat) (k : Key)
  | commit (x : Nat)
  | commitOnly (x : Nat)
  | notify (x : Nat)
  deriving DecidableEq, Repr

/-- What a call returns.  A new tree or transaction gets the next free number, so it is not repeated here. -/
inductive Out (V : Type) where
  | done
  | value (r : Option V)
  | updated (old : V) (did : Bool)
  | flag (b : Bool)
  | number (n : Int)
  | chan (c : ChanId) (r : Option V)
  | watch (c : ChanId)
  | panic (e : Err)
  | noSuch
  deriving DecidableEq, Repr

/-- Store the heap and channels a call left behind. -/
def World.put (w : World V) (s : St V) : World V := { w with heap := s.heap, chans := s.chans }

/-- The store in which a call of transaction state `ts` runs. -/
def World.st (w : World V) (ts : TxnSt) : St V := { heap := w.heap, chans := w.chans, txn := ts }

/-- Run a call on tree number `t`.  On return the trees in the list are added to the known ones. -/
def World.onTree {α : Type} (w : World V) (t : Nat) (f : Tree → M V α) (out : α → Out V × List Tree) :
    Out V × World V :=
  match w.trees[t]? with
  | none => (.noSuch, w)
  | some tr =>
    match f tr (w.st default) with
    | (.ok a, s) => ((out a).1, { w.put s with trees := w.trees ++ (out a).2 })
    | (.error e, s) => (.panic e, w.put s)

/-- Run a call on transaction number `x`; its private state is stored back even if the call panics. -/
def World.onTxn {α : Type} (w : World V) (x : Nat) (f : M V α) (out : α → Out V × List Tree)
    (mark : TxnRec → TxnRec := id) : Out V × World V :=
  match w.txns[x]? with
  | none => (.noSuch, w)
  | some r =>
    match f (w.st r.st) with
    | (.ok a, s) =>
      ((out a).1, { w.put s with
        trees := w.trees ++ (out a).2, txns := w.txns.set x (mark { r with st := s.txn }) })
    | (.error e, s) => (.panic e, { w.put s with txns := w.txns.set x (mark { r with st := s.txn }) })

/-- Run a call that makes a new transaction. -/
def World.addTxn (w : World V) (p : R TxnSt × St V) : Out V × World V :=
  match p with
  | (.ok ts, s) => (.done, { w.put s with txns := w.txns ++ [{ st := ts, ended := false, copied := false }] })
  | (.error e, s) => (.panic e, w.put s)

/-- One API call. -/
def exec [Inhabited V] (w : World V) : Op V → Out V × World V
  | .newTree =>
    match newRadixTree (w.st default) with
    | (.ok t, s) => (.done, { w.put s with trees := w.trees ++ [t] })
    | (.error e, s) => (.panic e, w.put s)
  | .cloneTree t => w.onTree t treeClone fun nt => (.done, [nt])
  | .insert t k v => w.onTree t (treeInsert · k v) fun (nt, old, did) => (.updated old did, [nt])
  | .delete t k => w.onTree t (treeDelete · k) fun (nt, old, did) => (.updated old did, [nt])
  | .deletePrefix t k => w.onTree t (treeDeletePrefix · k) fun (nt, did) => (.flag did, [nt])
  | .get t k => w.onTree t (fun tr => do let s ← M.get; M.lift (treeGet s.heap tr k)) fun r => (.value r, [])
  | .getWatch t k => w.onTree t (treeGetWatch · k) fun (c, r) => (.chan c r, [])
  | .seekPrefixWatch t p => w.onTree t (fun tr => seekPrefixWatch (mkIter tr.root) p) fun (_, c) => (.watch c, [])
  | .len t => w.onTree t (fun tr => pure (treeLen tr)) fun n => (.number n, [])
  | .begin t =>
    match w.trees[t]? with
    | none => (.noSuch, w)
    | some tr => w.addTxn (beginTxn tr (w.st default))
  | .txnClone x =>
    match w.txns[x]? with
    | none => (.noSuch, w)
    | some r => ({ w with txns := w.txns.set x r.cloned }).addTxn (txnClone (w.st r.st))
  | .trackMutate x b => w.onTxn x (txnTrackMutate b) fun _ => (.done, [])
  | .txnInsert x k v => w.onTxn x (txnInsert k v) fun (old, did) => (.updated old did, [])
  | .txnDelete x k => w.onTxn x (txnDelete k) fun (old, did) => (.updated old did, [])
  | .txnDeletePrefix x k => w.onTxn x (txnDeletePrefix k) fun did => (.flag did, [])
  | .txnGet x k => w.onTxn x (txnGet k) fun r => (.value r, [])
  | .txnGetWatch x k =>
    w.onTxn x (do
      let t ← txnSt
      treeGetWatch { root := t.root, size := t.treeSize, maxNodeId := t.maxNodeId } k) fun (c, r) => (.chan c r, [])
  | .commit x => w.onTxn x txnCommit (fun nt => (.done, [nt])) (fun r => { r with ended := true })
  | .commitOnly x => w.onTxn x txnCommitOnly (fun nt => (.done, [nt])) (fun r => { r with ended := true })
  | .notify x => w.onTxn x txnNotify fun _ => (.done, [])

/-! ### What can be seen while a call is running -/

/-- The writes to memory that the call makes, in order. -/
def World.seenTree {α : Type} (w : World V) (t : Nat) (f : Tree → M V α) : List (Write V) :=
  match w.trees[t]? with
  | none => []
  | some tr => (f tr).seen (w.st default)

/-- The same for a call of a transaction. -/
def World.seenTxn {α : Type} (w : World V) (x : Nat) (f : M V α) : List (Write V) :=
  match w.txns[x]? with
  | none => []
  | some r => f.seen (w.st r.st)

/-- The writes to memory that one API call makes, in order.  The calls left out do not write to nodes. -/
def execSeen [Inhabited V] (w : World V) : Op V → List (Write V)
  | .newTree => newRadixTree.seen (w.st default)
  | .cloneTree t => w.seenTree t treeClone
  | .insert t k v => w.seenTree t (treeInsert · k v)
  | .delete t k => w.seenTree t (treeDelete · k)
  | .deletePrefix t k => w.seenTree t (treeDeletePrefix · k)
  | .getWatch t k => w.seenTree t (treeGetWatch · k)
  | .seekPrefixWatch t p => w.seenTree t fun tr => seekPrefixWatch (mkIter tr.root) p
  | .begin t => w.seenTree t beginTxn
  | .txnClone x => w.seenTxn x txnClone
  | .txnInsert x k v => w.seenTxn x (txnInsert k v)
  | .txnDelete x k => w.seenTxn x (txnDelete k)
  | .txnDeletePrefix x k => w.seenTxn x (txnDeletePrefix k)
  | .txnGetWatch x k => w.seenTxn x (do
      let t ← txnSt
      treeGetWatch { root := t.root, size := t.treeSize, maxNodeId := t.maxNodeId } k)
  | _ => []

/-- Run a sequence of calls: their results, in order, and the final state. -/
def execAll [Inhabited V] (w : World V) : List (Op V) → List (Out V) × World V
  | [] => ([], w)
  | op :: ops =>
    let (o, w') := exec w op
    let (os, w'') := execAll w' ops
    (o :: os, w'')

/-- The writes to memory that the calls make, one call after the other. -/
def seenAll [Inhabited V] (w : World V) : List (Op V) → List (Write V)
  | [] => []
  | op :: ops => execSeen w op ++ seenAll (exec w op).2 ops

end Art
