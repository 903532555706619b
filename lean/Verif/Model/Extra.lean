import Verif.Model.World
/-
Reads of running transactions, depth first search, and the watches of reverse iterators.
-/
namespace Art
variable {V : Type}

/-- txn.go:359-361 `Txn.GetTree` (and 355-357 `Txn.Root`): the private tree of the transaction, as a reader sees it now.
`Txn.LongestPrefix` (txn.go:413-415) is `longestPrefix` of it, the iterators of `Txn.Root()` are those of its root.  In Go
the pointer goes on showing the current state of the transaction; here the caller asks again after each write. -/
def TxnSt.getTree (t : TxnSt) : Tree := { root := t.root, size := t.treeSize, maxNodeId := t.maxNodeId }

/-- reverse_iterator.go:25-27 `SeekPrefixWatch` of a reverse iterator, which is also what its `SeekPrefix`
(reverse_iterator.go:30-32) calls. -/
def revSeekPrefixWatch (it : RevIter) (pre : Key) : M V (RevIter × ChanId) := do
  let (fwd, ch) ← seekPrefixWatch { path := it.path, node := it.node, stack := it.stack.getD [], seenMismatch := false } pre
  pure ({ it with path := fwd.path, node := fwd.node, stack := some fwd.stack }, ch)

/-- tree.go:254-265: as `searchLeaf`, but the leaf of the node is used without the test for nil of line 172, so a bare
`NodeLeaf` with another key makes the search panic. -/
def watchLeaf (h : Heap V) (a : Addr) (c : Cell V) (key : Key) : R (Option (Hit V)) :=
  if c.isLeaf then
    match c with
    | .leaf l => if leafMatches l.key key then pure (some { val := some l.value, watch := a }) else .error .nilDeref
    | .inner n =>
      match n.leaf with
      | none => .error .nilDeref
      | some l => do
        let lc ← rdLeaf h l
        pure (if leafMatches lc.key key then some { val := some lc.value, watch := l } else none)
  else pure none

/-- tree.go:240-327 `iterativeSearchWithWatch`, by itself.  `C59_same` shows that `searchLoopAt` may stand for both. -/
def watchLoopAt (h : Heap V) (key : Key) : Nat → Addr → Nat → R (Hit V)
  | 0, _, _ => .error .fuel
  | fuel + 1, a, depth => do
    let c ← rd h a
    match ← watchLeaf h a c key with
    | some hit => pure hit
    | none =>
      let bail ← prefixBails c key depth
      if bail then searchStop h a c key
      else if depth + c.partialLen ≥ key.length then searchStop h a c key
      else do
        let b ← byteAt key (depth + c.partialLen)
        match ← c.findChild b with
        | (none, _) => searchStop h a c key
        | (some child, _) => watchLoopAt h key fuel child (depth + c.partialLen + 1)

/-- `iterativeSearchWithWatch` from the root for the given user key. -/
def searchWatch (h : Heap V) (root : Addr) (key : Key) : R (Hit V) :=
  watchLoopAt h (getTreeKey key) ((getTreeKey key).length + 1) root 0

/-- tree.go:409-414: the loop over the children, of which the first `numChildren` slots are visited. -/
def dfsChildren (rec : Addr → R (List Addr)) (c : Cell V) : List Nat → R (List Addr)
  | [] => .ok []
  | i :: rest => do
    match ← c.getChild i with
    | none => dfsChildren rec c rest
    | some a =>
      let l1 ← rec a
      let l2 ← dfsChildren rec c rest
      pure (l1 ++ l2)

/-- tree.go:404-415 `DFSNode`: the nodes that the caller's function is called with, in order.  The first argument bounds
the recursion depth. -/
def dfsNode (h : Heap V) : Nat → Addr → R (List Addr)
  | 0, _ => .error .fuel
  | fuel + 1, a => do
    let c ← rd h a
    let l ← dfsChildren (dfsNode h fuel) c (List.range c.numChildren.toNat)
    pure (a :: l)

/-- tree.go:351-353 `DFS`. -/
def treeDFS (h : Heap V) (t : Tree) : R (List Addr) := dfsNode h (h.length + 1) t.root

end Art
