import Verif.Model.Txn
/-
tree.go: the exported tree operations, and the transaction life cycle of txn.go.
-/
namespace Art
variable {V : Type}

/-- tree.go:24-28: a `RadixTree` value.  Its three fields are never assigned once the value has been
returned by an exported function (for `Txn.GetTree`, which leaks the private tree of a running transaction,
see `TxnSt.getTree` in `Model/Extra.lean`). -/
structure Tree where
  root : Addr
  size : UInt64
  maxNodeId : Nat
  deriving DecidableEq, Repr, Inhabited

/-- tree.go:35-44 `NewRadixTree`: a `Node4` with nil `partial` whose leaf has a nil key. -/
def newRadixTree [Inhabited V] : M V Tree := do
  let l ← newCell (.leaf { id := 1, value := default, key := [], ch := none })
  let r ← newCell (.inner {
    kind := .n4, id := 0, partialLen := 0, numChildren := 0, part := [],
    keys := List.replicate 4 0, children := List.replicate 4 none, leaf := some l, ch := none })
  pure { root := r, size := 0, maxNodeId := 1 }

/-- tree.go:46-53 `RadixTree.Clone`. -/
def treeClone (t : Tree) : M V Tree := do
  let r ← cloneNode t.root true
  pure { t with root := r }

/-- tree.go:56-58 `Len`: `int(t.size)`, i.e. the 64-bit pattern read as a signed number. -/
def treeLen (t : Tree) : Int := t.size.toInt64.toInt

/-- txn.go:40-53 `RadixTree.Txn`. -/
def beginTxn (t : Tree) : M V TxnSt := do
  let r ← cloneNode t.root true
  pure { root := r, treeSize := t.size, maxNodeId := t.maxNodeId, size := t.size,
         oldMaxNodeId := t.maxNodeId, trackMutate := false, trackChnSlice := [] }

/-- txn.go:57-70 `Txn.Clone` (of the running transaction). -/
def txnClone : M V TxnSt := do
  let t ← txnSt
  let r ← cloneNode t.root true
  pure { root := r, treeSize := t.size, maxNodeId := t.maxNodeId, size := t.size,
         oldMaxNodeId := t.maxNodeId, trackMutate := false, trackChnSlice := [] }

/-- txn.go:75-77 `TrackMutate`. -/
def txnTrackMutate (b : Bool) : M V Unit := modTxn fun t => { t with trackMutate := b }

/-- txn.go:392-399 `CommitOnly`. -/
def txnCommitOnly : M V Tree := do
  let t ← txnSt
  pure { root := t.root, size := t.size, maxNodeId := t.maxNodeId }

/-- txn.go:382-388 `Commit` (line 384 repeats the test that `Notify` makes). -/
def txnCommit : M V Tree := do
  let nt ← txnCommitOnly
  txnNotify
  pure nt

/-- Run code with the given transaction as the running one. -/
def withTxn {α : Type} (ts : TxnSt) (m : M V α) : M V α := do
  modTxn fun _ => ts
  m

/-- tree.go:64-68 `RadixTree.Insert`. -/
def treeInsert [Inhabited V] (t : Tree) (key : Key) (v : V) : M V (Tree × V × Bool) := do
  let ts ← beginTxn t
  withTxn ts do
    let (old, ok) ← txnInsert key v
    let nt ← txnCommit
    pure (nt, old, ok)

/-- tree.go:74-78 `RadixTree.Delete`. -/
def treeDelete [Inhabited V] (t : Tree) (key : Key) : M V (Tree × V × Bool) := do
  let ts ← beginTxn t
  withTxn ts do
    let (old, ok) ← txnDelete key
    let nt ← txnCommit
    pure (nt, old, ok)

/-- tree.go:329-333 `RadixTree.DeletePrefix`. -/
def treeDeletePrefix [Inhabited V] (t : Tree) (key : Key) : M V (Tree × Bool) := do
  let ts ← beginTxn t
  withTxn ts do
    let ok ← txnDeletePrefix key
    let nt ← txnCommit
    pure (nt, ok)

/-! ### Get and GetWatch

Both functions walk the same path (tree.go:151-238 and 240-327, line for line the same except for the
watch).  A lookup never writes; the channel of the node named in the result is then obtained with
`getMutateCh`. -/

/-- Outcome of a search: the value, and the node whose mutate channel `GetWatch` returns. -/
structure Hit (V : Type) where
  val : Option V
  watch : Addr
  deriving DecidableEq, Repr

/-- tree.go:187-194, 206-213, 225-232: look for the key among the node leaves of the children. -/
def searchChildren (h : Heap V) (key : Key) : List (Option Addr) → R (Option (V × Addr))
  | [] => .ok none
  | none :: rest => searchChildren h key rest
  | some ch :: rest => do
    let c ← rd h ch
    match c.nodeLeaf with
    | none => searchChildren h key rest
    | some l =>
      let lc ← rdLeaf h l
      if leafMatches lc.key key then pure (some (lc.value, l)) else searchChildren h key rest

/-- tree.go:182-186, 201-205, 220-224: does the node's own leaf hold the key? -/
def searchOwn (h : Heap V) (c : Cell V) (key : Key) : R (Option (V × Addr)) :=
  match c.nodeLeaf with
  | none => pure none
  | some l => do
    let lc ← rdLeaf h l
    pure (if leafMatches lc.key key then some (lc.value, l) else none)

/-- tree.go:182-195, 201-214, 220-233: the last resort when the search stops at node `a`. -/
def searchStop (h : Heap V) (a : Addr) (c : Cell V) (key : Key) : R (Hit V) := do
  match ← searchOwn h c key with
  | some (v, l) => pure { val := some v, watch := l }
  | none =>
    match ← searchChildren h key c.children with
    | some (v, l) => pure { val := some v, watch := l }
    | none => pure { val := none, watch := a }

/-- tree.go:165-176 / 254-265: the test made when the node is a leaf. -/
def searchLeaf (h : Heap V) (a : Addr) (c : Cell V) (key : Key) : R (Option (Hit V)) :=
  if c.isLeaf then
    match c with
    | .leaf l => pure (if leafMatches l.key key then some { val := some l.value, watch := a } else none)
    | .inner n =>
      match n.leaf with
      | none => pure none
      | some l => do
        let lc ← rdLeaf h l
        pure (if leafMatches lc.key key then some { val := some lc.value, watch := l } else none)
  else pure none

/-- tree.go:151-238 `iterativeSearch` and 240-327 `iterativeSearchWithWatch`; the first argument bounds the
loop, each round of which consumes a byte of the key.  (For a bare `NodeLeaf` line 262 would
dereference nil; `searchWatch` in `Model/Extra.lean` is the second function by itself.) -/
def searchLoopAt (h : Heap V) (key : Key) : Nat → Addr → Nat → R (Hit V)
  | 0, _, _ => .error .fuel
  | fuel + 1, a, depth => do
    let c ← rd h a
    match ← searchLeaf h a c key with
    | some hit => pure hit
    | none =>
      let bail ← prefixBails c key depth
      if bail then searchStop h a c key
      else if depth + c.partialLen ≥ key.length then searchStop h a c key
      else do
        let b ← byteAt key (depth + c.partialLen)
        match ← c.findChild b with
        | (none, _) => searchStop h a c key
        | (some child, _) => searchLoopAt h key fuel child (depth + c.partialLen + 1)

/-- The search from the root for the given user key. -/
def search (h : Heap V) (root : Addr) (key : Key) : R (Hit V) :=
  searchLoopAt h (getTreeKey key) ((getTreeKey key).length + 1) root 0

/-- tree.go:70-72 `RadixTree.Get` (`none` = not found). -/
def treeGet (h : Heap V) (t : Tree) (key : Key) : R (Option V) := do
  let hit ← search h t.root key
  pure hit.val

/-- txn.go:81-84 `Txn.Get`. -/
def txnGet (key : Key) : M V (Option V) := do
  let s ← M.get
  let hit ← M.lift (search s.heap s.txn.root key)
  pure hit.val

/-- tree.go:80-83 `RadixTree.GetWatch`. -/
def treeGetWatch (t : Tree) (key : Key) : M V (ChanId × Option V) := do
  let s ← M.get
  let hit ← M.lift (search s.heap t.root key)
  let ch ← getMutateCh hit.watch
  pure (ch, hit.val)

/-! ### LongestPrefix -/

/-- tree.go:119-125: among the children, the last one whose node leaf is a prefix of the key. -/
def lpChildren (h : Heap V) (key : Key) : List (Option Addr) → Option Addr → R (Option Addr)
  | [], last => .ok last
  | none :: rest, last => lpChildren h key rest last
  | some ch :: rest, last => do
    let c ← rd h ch
    match c.nodeLeaf with
    | none => lpChildren h key rest last
    | some l =>
      let lc ← rdLeaf h l
      lpChildren h key rest (if hasPrefixB (getKey key) (getKey lc.key) then some l else last)

/-- tree.go:115-117: the node's own leaf, if it is a prefix of the key. -/
def lpOwn (h : Heap V) (key : Key) (c : Cell V) (last : Option Addr) : R (Option Addr) :=
  match c.nodeLeaf with
  | none => pure last
  | some l => do
    let lc ← rdLeaf h l
    pure (if hasPrefixB (getKey key) (getKey lc.key) then some l else last)

/-- tree.go:100-134: the loop of `LongestPrefix`; the first argument bounds it. -/
def lpLoop (h : Heap V) (key : Key) : Nat → Addr → Nat → Option Addr → R (Option Addr)
  | 0, _, _, _ => .error .fuel
  | fuel + 1, a, depth, last => do
    let c ← rd h a
    let bail ← prefixBails c key depth
    if bail then pure last
    else if depth + c.partialLen ≥ key.length then pure last
    else do
      let last ← lpOwn h key c last
      let last ← lpChildren h key c.children last
      let b ← byteAt key (depth + c.partialLen)
      match ← c.findChild b with
      | (none, _) => pure last
      | (some child, _) => lpLoop h key fuel child (depth + c.partialLen + 1) last

/-- tree.go:85-141 `LongestPrefix`. -/
def longestPrefix (h : Heap V) (t : Tree) (k : Key) : R (Option (Key × V)) := do
  let key := getTreeKey k
  let c ← rd h t.root
  let last ← lpLoop h key (key.length + 1) t.root 0 c.nodeLeaf
  match last with
  | none => pure none
  | some l =>
    let lc ← rdLeaf h l
    pure (some (getKey lc.key, lc.value))

/-! ### Minimum, Maximum, Walk -/

/-- The leaf behind a pointer, as `(key with its '$', value)`. -/
def leafPair (h : Heap V) (a : Option Addr) : R (Option (Key × V)) :=
  match a with
  | none => .ok none
  | some a => do
    let l ← rdLeaf h a
    pure (some (l.key, l.value))

/-- tree.go:143-145 `Minimum`; the result is the stored leaf: its tree key (with `'$'`) and value. -/
def treeMinimum (h : Heap V) (t : Tree) : R (Option (Key × V)) := do
  leafPair h (← minimum h (some t.root))

/-- tree.go:147-149 `Maximum`. -/
def treeMaximum (h : Heap V) (t : Tree) : R (Option (Key × V)) := do
  leafPair h (← maximum h (some t.root))

/-- tree.go:389-396: walk the non-nil slots of `getChildren()`, stopping when the walk is aborted.  The
accumulator is the list of calls of `fn` so far. -/
def walkChildren (rec : Addr → R (List (Key × V) × Bool)) :
    List (Option Addr) → R (List (Key × V) × Bool)
  | [] => .ok ([], false)
  | none :: rest => walkChildren rec rest
  | some ch :: rest => do
    let (l1, stop) ← rec ch
    if stop then pure (l1, true)
    else
      let (l2, stop2) ← walkChildren rec rest
      pure (l1 ++ l2, stop2)

/-- tree.go:382-386: the visit of one node.  The value passed is `n.getValue()`, which for an inner node is
the zero value. -/
def walkOwn [Inhabited V] (h : Heap V) (c : Cell V) (fn : Key → V → Bool) : R (List (Key × V) × Bool) :=
  match c.isLeaf, c.nodeLeaf with
  | true, some l => do
    let lc ← rdLeaf h l
    pure ([(getKey lc.key, c.value)], fn (getKey lc.key) c.value)
  | _, _ => pure ([], false)

/-- tree.go:381-398 `recursiveWalk`.  `fn` is the caller's function; the result lists the arguments it was
called with, and whether the walk was aborted.  The first argument bounds the recursion depth. -/
def recursiveWalk [Inhabited V] (h : Heap V) (fn : Key → V → Bool) : Nat → Addr → R (List (Key × V) × Bool)
  | 0, _ => .error .fuel
  | fuel + 1, a => do
    let c ← rd h a
    let (calls, stop) ← walkOwn h c fn
    if stop then pure (calls, true)
    else
      let (l, stop) ← walkChildren (recursiveWalk h fn fuel) c.children
      pure (calls ++ l, stop)

/-- tree.go:346-349 `Walk`: the calls made to `fn`, in order. -/
def treeWalk [Inhabited V] (h : Heap V) (t : Tree) (fn : Key → V → Bool) : R (List (Key × V)) := do
  let (l, _) ← recursiveWalk h fn (h.length + 1) t.root
  pure l

end Art
