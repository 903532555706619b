import Verif.Model.Basic
/-
helpers.go and txn.go: the code that searches, splits, grows, shrinks and copies nodes.
-/
namespace Art
variable {V : Type}

/-! ### Pure helpers of helpers.go -/

/-- helpers.go:11-20 `checkPrefix`.  `len(key)-depth` may be negative in Go; the loop then does not run,
as with the truncated subtraction here. -/
def checkPrefix (part : List Byte) (partialLen : Nat) (key : Key) (depth : Nat) : R Nat := do
  let maxCmp := min (min partialLen maxPrefixLen) (key.length - depth)
  let (idx, _) ← scanEq part (key.drop depth) maxCmp 0
  pure idx

/-- helpers.go:32-44 `longestCommonPrefix` of the keys of two leaves. -/
def longestCommonPrefix (k1 k2 : Key) (depth : Nat) : R Nat := do
  let maxCmp := if k1.length < k2.length then k1.length - depth else k2.length - depth
  let (idx, _) ← scanEq (k1.drop depth) (k2.drop depth) maxCmp 0
  pure idx

/-- The scan `for idx < 256 && keys[idx] == 0 {idx++}` of helpers.go:229-232. -/
def firstKey48 (keys : List Byte) : Nat := keys.findIdx (· != 0)

/-- helpers.go:200-252 `minimum`; the first argument bounds the recursion depth. -/
def minimumAux (h : Heap V) : Nat → Option Addr → R (Option Addr)
  | _, none => .ok none
  | 0, some _ => .error .fuel
  | fuel + 1, some a => do
    match ← rd h a with
    | .leaf _ => pure (some a)
    | .inner n =>
      if n.isLeaf then pure n.leaf
      else
        if n.leaf.isSome then pure n.leaf
        else
          match n.kind with
          | .n4 | .n16 => minimumAux h fuel (← n.getChild 0)
          | .n48 =>
            let k ← n.getKeyAtIdx (firstKey48 n.keys)
            let idx := (k - 1).toNat
            if idx < 48 then minimumAux h fuel (← n.getChild idx) else pure none
          | .n256 =>
            let idx := n.children.findIdx (·.isSome)
            if idx < 256 then minimumAux h fuel (← n.getChild idx) else pure none

/-- helpers.go:200-252 `minimum`.  A path in an acyclic heap visits each cell at most once, so the size of
the heap bounds the recursion depth. -/
def minimum (h : Heap V) (a : Option Addr) : R (Option Addr) := minimumAux h (h.length + 1) a

/-- The downward scan `idx = 255; for idx >= 0 && p(idx) {idx--}`: the largest index below the first
argument whose entry satisfies `p`. -/
def lastIdx {α : Type} (xs : List α) (p : α → Bool) : Nat → Option Nat
  | 0 => none
  | i + 1 => match xs[i]? with
    | some x => if p x then some i else lastIdx xs p i
    | none => lastIdx xs p i

/-- helpers.go:254-295 `maximum`; the first argument bounds the recursion depth. -/
def maximumAux (h : Heap V) : Nat → Option Addr → R (Option Addr)
  | _, none => .ok none
  | 0, some _ => .error .fuel
  | fuel + 1, some a => do
    match ← rd h a with
    | .leaf _ => pure (some a)
    | .inner n =>
      if n.isLeaf then pure n.leaf
      else
        match n.kind with
        | .n4 | .n16 => maximumAux h fuel (← n.getChild (n.numChildren - 1).toNat)
        | .n48 =>
          match lastIdx n.keys (· != 0) 256 with
          | none => .error .index
          | some i =>
            let k ← n.getKeyAtIdx i
            let idx := (k - 1).toNat
            if idx < 48 then maximumAux h fuel (← n.getChild idx) else pure none
        | .n256 =>
          match lastIdx n.children (·.isSome) 256 with
          | none => pure none
          | some i => maximumAux h fuel (← n.getChild i)

/-- helpers.go:254-295 `maximum`. -/
def maximum (h : Heap V) (a : Option Addr) : R (Option Addr) := maximumAux h (h.length + 1) a

/-- helpers.go:173-198 `prefixMismatch`. -/
def prefixMismatch (h : Heap V) (a : Addr) (key : Key) (keyLen depth : Nat) : R Nat := do
  let c ← rd h a
  let maxCmp := min (min maxPrefixLen c.partialLen) (keyLen - depth)
  let (idx, stopped) ← scanEq c.part (key.drop depth) maxCmp 0
  if stopped then pure idx
  else if c.partialLen > maxPrefixLen then
    match ← minimum h (some a) with
    | none => pure idx
    | some l =>
      let lc ← rdLeaf h l
      let maxCmp := min lc.key.length keyLen - depth
      let (idx, _) ← scanEq (lc.key.drop depth) (key.drop depth) (maxCmp - idx) idx
      pure idx
  else pure idx

/-! ### Channels and copying -/

/-- `getMutateCh` (node_4.go:151-166, node_leaf.go:154-172, ...): create the channel on first use.  When another goroutine
was faster, use the channel that it created (see also `Model/Conc.lean`). -/
def getMutateCh (a : Addr) : M V ChanId := do
  let c ← cell a
  match c.ch with
  | some k => pure k
  | none =>
    let k ← newChan
    claimCh a k

/-- txn.go:566-589 `trackChannel`. -/
def trackChannel (a : Option Addr) : M V Unit := do
  let t ← txnSt
  if !t.trackMutate then pure ()
  else
    match a with
    | none => pure ()
    | some a =>
      let ch ← getMutateCh a
      modTxn fun t => { t with trackChnSlice := t.trackChnSlice ++ [ch] }
      let fresh ← newChan
      wrCh a fresh

/-- Ten zero bytes: `make([]byte, maxPrefixLen)`. -/
def zeroPartial : List Byte := List.replicate maxPrefixLen 0

/-- The channel a clone starts with: `if keepWatch { newNode.setMutateCh(n.getMutateCh()) }`. -/
def keepCh (a : Addr) (keepWatch : Bool) : M V (Option ChanId) :=
  if keepWatch then (do let k ← getMutateCh a; pure (some k)) else pure none

/-- `clone(keepWatch)`: node_4.go:90-110, node_16.go:91-111, node_48.go:99-119, node_256.go:99-118,
node_leaf.go:121-132.  The new slice `newPartial` has ten bytes, into which `n.partial` is copied. -/
def cloneNode (a : Addr) (keepWatch : Bool) : M V Addr := do
  let ch ← keepCh a keepWatch
  match ← cell a with
  | .leaf l => newCell (.leaf { l with ch := ch })
  | .inner n => newCell (.inner { n with part := goCopy zeroPartial 0 n.part, ch := ch })

/-- `t.tree.maxNodeId++; n.setId(t.tree.maxNodeId)`. -/
def bumpId (a : Addr) : M V Unit := do
  modTxn fun t => { t with maxNodeId := t.maxNodeId + 1 }
  let t ← txnSt
  let c ← cell a
  wr a (c.setId t.maxNodeId)

/-- txn.go:25-30: the tracking part of `writeNode` (`trackChannel` of no node does nothing, like the nil
test of line 27). -/
def trackNode (a : Addr) (trackCh : Bool) : M V Unit :=
  if trackCh then (do
    trackChannel (some a)
    let c ← cell a
    trackChannel c.nodeLeaf) else pure ()

/-- txn.go:24-38 `writeNode`. -/
def writeNode (a : Addr) (trackCh : Bool) : M V Addr := do
  trackNode a trackCh
  let c ← cell a
  let t ← txnSt
  if c.id > t.oldMaxNodeId then pure a
  else
    let nc ← cloneNode a (!trackCh)
    bumpId nc
    pure nc

/-- An all-zero inner node of the given kind (Go's zero value) with `partial = make([]byte, 10)` and
`partialLen = 10`, as `allocNode` leaves it. -/
def blankInner (k : Kind) : Inner :=
  { kind := k, id := 0, partialLen := maxPrefixLen, numChildren := 0, part := zeroPartial,
    keys := List.replicate k.keysLen 0, children := List.replicate k.childrenLen none,
    leaf := none, ch := none }

/-- txn.go:541-564 `allocNode` for the inner node types. -/
def allocInner (k : Kind) : M V Addr := do
  let a ← newCell (.inner (blankInner k))
  bumpId a
  pure a

/-- txn.go:541-564 `allocNode(leafType)` followed by `setKey` and `setValue`, as every caller does
(txn.go:102-104, 118-120, 521-532). -/
def allocLeaf (key : Key) (v : V) : M V Addr := do
  let a ← newCell (.leaf { id := 0, value := v, key := key, ch := none })
  bumpId a
  pure a

/-- `setNodeLeaf` (node_4.go:204-206, ...). -/
def setNodeLeaf (a : Addr) (l : Option Addr) : M V Unit := do
  let n ← innerAt a
  wr a (.inner { n with leaf := l })

/-- `node.setChild(i, c)` on the heap. -/
def setChildAt (a : Addr) (i : Nat) (c : Option Addr) : M V Unit := do
  let n ← innerAt a
  let n' ← M.lift (n.setChild i c)
  wr a (.inner n')

/-- txn.go:519-539 `makeLeaf`: a leaf wrapped in a childless `Node4`.  The wrapper keeps
`partialLen = 10` and ten zero bytes from `allocNode`. -/
def makeLeaf (key : Key) (v : V) : M V Addr := do
  let l ← allocLeaf key v
  bumpId l
  let n4 ← allocInner .n4
  setNodeLeaf n4 (some l)
  bumpId n4
  pure n4

/-- helpers.go:158-164 `copyHeader`.  Slicing `src.partial[:length]` panics when the slice is shorter. -/
def copyHeader (dest src : Addr) : M V Unit := do
  let s ← innerAt src
  let d ← innerAt dest
  let length := min maxPrefixLen s.partialLen
  if length > s.part.length ∨ length > d.part.length then M.throw .index
  else wr dest (.inner { d with
    numChildren := s.numChildren, partialLen := s.partialLen,
    part := goCopy d.part 0 (s.part.take length) })

/-- The idiom `if n.leaf != nil { nL := t.writeNode(n.leaf, true); newNode.setNodeLeaf(nL) }`
(helpers.go:81-84, 110-113, 137-140, 454-457, 475-478, 503-506). -/
def moveLeaf (newNode n : Addr) : M V Unit := do
  let c ← innerAt n
  match c.leaf with
  | none => pure ()
  | some l =>
    let nL ← writeNode l true
    setNodeLeaf newNode (some nL)

/-! ### addChild -/

/-- helpers.go:151-156 `addChild256`. -/
def addChild256 (a : Addr) (c : Byte) (child : Addr) : M V Addr := do
  let n ← innerAt a
  let n' ← M.lift (({ n with numChildren := n.numChildren + 1 }).setChild c.toNat (some child))
  wr a (.inner n')
  pure a

/-- helpers.go:141-145: the children of a `Node48`, laid out by byte for a `Node256`. -/
def children48to256 (n : Inner) : List (Option Addr) :=
  (List.range 256).map fun (i : Nat) =>
    match n.keys[i]? with
    | some k => if k ≠ 0 then (n.children[(k - 1).toNat]?).getD none else none
    | none => none

/-- helpers.go:124-149 `addChild48`. -/
def addChild48 (a : Addr) (c : Byte) (child : Addr) : M V Addr := do
  let n ← innerAt a
  if n.numChildren < 48 then
    let pos := n.children.findIdx (·.isNone)
    let n1 ← M.lift (n.setChild pos (some child))
    let n2 ← M.lift (n1.setKeyAtIdx c.toNat (UInt8.ofNat (pos + 1)))
    wr a (.inner { n2 with numChildren := n2.numChildren + 1 })
    pure a
  else
    let newNode ← allocInner .n256
    moveLeaf newNode a
    let n ← innerAt a
    let m ← innerAt newNode
    wr newNode (.inner { m with children := children48to256 n })
    copyHeader newNode a
    addChild256 newNode c child

/-- The index found by `sort.Search(numChildren, keys[i] > c)` (helpers.go:65-67, 95-97). -/
def insertPos (n : Inner) (c : Byte) : Nat :=
  goSearch n.numChildren.toNat (fun i => (n.keys[i]?).getD 0 > c)

/-- helpers.go:65-77 and 95-107: insert into the sorted arrays of a `Node4`/`Node16` that has room. -/
def Inner.insertSorted (n : Inner) (c : Byte) (child : Addr) : R Inner := do
  let idx := insertPos n c
  let length := n.numChildren.toNat - idx
  let n1 := { n with
    keys := goCopy n.keys (idx + 1) ((n.keys.drop idx).take length),
    children := goCopy n.children (idx + 1) ((n.children.drop idx).take length) }
  let n2 ← n1.setKeyAtIdx idx c
  let n3 ← n2.setChild idx (some child)
  pure { n3 with numChildren := n3.numChildren + 1 }

/-- helpers.go:116-118: the key index of a new `Node48` from the keys of a full `Node16`. -/
def keys16to48 (n : Inner) : List Byte :=
  (List.range n.numChildren.toNat).foldl
    (fun ks i => match n.keys[i]? with
      | some k => ks.set k.toNat (UInt8.ofNat (i + 1))
      | none => ks)
    (List.replicate 256 0)

/-- helpers.go:92-122 `addChild16`. -/
def addChild16 (a : Addr) (c : Byte) (child : Addr) : M V Addr := do
  let n ← innerAt a
  if n.numChildren < 16 then
    let n' ← M.lift (n.insertSorted c child)
    wr a (.inner n')
    pure a
  else
    let newNode ← allocInner .n48
    moveLeaf newNode a
    let n ← innerAt a
    let m ← innerAt newNode
    wr newNode (.inner { m with
      children := goCopy m.children 0 (n.children.take n.numChildren.toNat),
      keys := keys16to48 n })
    copyHeader newNode a
    addChild48 newNode c child

/-- helpers.go:62-90 `addChild4`. -/
def addChild4 (a : Addr) (c : Byte) (child : Addr) : M V Addr := do
  let n ← innerAt a
  if n.numChildren < 4 then
    let n' ← M.lift (n.insertSorted c child)
    wr a (.inner n')
    pure a
  else
    let newNode ← allocInner .n16
    moveLeaf newNode a
    let n ← innerAt a
    let m ← innerAt newNode
    wr newNode (.inner { m with
      children := goCopy m.children 0 (n.children.take n.numChildren.toNat),
      keys := goCopy m.keys 0 (n.keys.take n.numChildren.toNat) })
    copyHeader newNode a
    addChild16 newNode c child

/-- helpers.go:46-60 `addChild`. -/
def addChild (a : Addr) (c : Byte) (child : Addr) : M V Addr := do
  match ← cell a with
  | .leaf _ => M.throw .badType
  | .inner n =>
    match n.kind with
    | .n4 => addChild4 a c child
    | .n16 => addChild16 a c child
    | .n48 => addChild48 a c child
    | .n256 => addChild256 a c child

/-! ### removeChild -/

/-- The index found by `sort.Search(numChildren, keys[i] >= c)` (helpers.go:373-375, 424-426). -/
def removePos (n : Inner) (c : Byte) : Nat :=
  goSearch n.numChildren.toNat (fun i => (n.keys[i]?).getD 0 ≥ c)

/-- helpers.go:377-387, 428-438: shift the children left over position `pos`, as the two-index loop does
on the aliased array.  The slot `numChildren - 1` keeps its old content. -/
def shiftChildren (ch : List (Option Addr)) (pos num : Nat) : List (Option Addr) :=
  (List.range num).foldl
    (fun (acc : List (Option Addr) × Nat) itr =>
      if itr = pos then acc
      else (acc.1.set acc.2 ((acc.1[itr]?).getD none), acc.2 + 1))
    (ch, 0) |>.1

/-- helpers.go:388-393, 439-444 (trackChannel of a nil child does nothing): `for ; itr < len(children); itr++ { trackChannel; setChild(itr, nil) }`. -/
def clearTail (a : Addr) : Nat → Nat → M V Unit
  | 0, _ => pure ()
  | k + 1, itr => do
    let n ← innerAt a
    if itr < n.children.length then
      trackChannel ((n.children[itr]?).getD none)
      setChildAt a itr none
      clearTail a k (itr + 1)
    else pure ()

/-- helpers.go:372-395 and 423-445: the part of `removeChild4`/`removeChild16` before resizing.
`copy(keys[pos:], keys[pos+1:])` panics when `pos+1` exceeds the array. -/
def removeSorted (a : Addr) (c : Byte) : M V Unit := do
  let n ← innerAt a
  let pos := removePos n c
  M.assert (pos + 1 ≤ n.keys.length) .index
  let num := n.numChildren.toNat
  M.assert (num ≤ n.children.length) .index
  wr a (.inner { n with
    keys := goCopy n.keys pos (n.keys.drop (pos + 1)),
    children := shiftChildren n.children pos num })
  clearTail a (n.children.length) num
  let n ← innerAt a
  wr a (.inner { n with numChildren := n.numChildren - 1 })

/-- helpers.go:402-411: the prefix of a collapsed node and of its only child, joined in `n.partial`: what is there
afterwards, and the variable `prefix`.  Storing `partial[prefix]` and slicing panic on a nil slice. -/
def joinPrefix (n child : Inner) : R (List Byte × Nat) := do
  let pre := n.partialLen
  let k0 ← n.getKeyAtIdx 0
  let (part, pre) ←
    if pre < maxPrefixLen then
      if pre < n.part.length then Except.ok (n.part.set pre k0, pre + 1) else Except.error .index
    else Except.ok (n.part, pre)
  if pre < maxPrefixLen then
    let sub := min child.partialLen (maxPrefixLen - pre)
    if sub > child.part.length ∨ pre > part.length then Except.error .index
    else Except.ok (goCopy part pre (child.part.take sub), pre + sub)
  else Except.ok (part, pre)

/-- helpers.go:414-415: the joined prefix, copied to the child. -/
def takePrefix (n child : Inner) (pre : Nat) : R Inner :=
  let m := min pre maxPrefixLen
  if m > n.part.length then Except.error .index
  else pure { child with
    part := goCopy child.part 0 (n.part.take m),
    partialLen := child.partialLen + n.partialLen + 1 }

/-- helpers.go:372-421 `removeChild4`.  `n` itself is a `Node4`, so the test of line 400 is true.  The code
joins the prefixes in `n.partial` (lines 404, 409), which keeps them although the node is discarded.  The
child is never a bare `NodeLeaf`: every `setChild` stores an inner node. -/
def removeChild4 (a : Addr) (c : Byte) : M V Addr := do
  removeSorted a c
  let n ← innerAt a
  if n.numChildren = 1 ∧ n.leaf = none then
    match ← M.lift (n.getChild 0) with
    | none => M.throw .nilDeref
    | some ch =>
      let ret ← writeNode ch false
      let n ← innerAt a
      let m ← innerAt ret
      let joined ← M.lift (joinPrefix n m)
      wr a (.inner { n with part := joined.1 })
      let n ← innerAt a
      let m ← innerAt ret
      let m' ← M.lift (takePrefix n m joined.2)
      wr ret (.inner m')
      trackChannel (some a)
      pure ret
  else pure a

/-- helpers.go:423-462 `removeChild16`. -/
def removeChild16 (a : Addr) (c : Byte) : M V Addr := do
  removeSorted a c
  let n ← innerAt a
  if n.numChildren = 3 then
    trackChannel (some a)
    let newNode ← allocInner .n4
    copyHeader newNode a
    let n ← innerAt a
    let m ← innerAt newNode
    wr newNode (.inner { m with
      keys := goCopy m.keys 0 (n.keys.take 4),
      children := goCopy m.children 0 (n.children.take 4) })
    moveLeaf newNode a
    setNodeLeaf newNode n.leaf
    pure newNode
  else pure a

/-- helpers.go:479-487: the children of a `Node48` in byte order. -/
def compact48 (n : Inner) : List (Byte × Option Addr) :=
  (List.range 256).filterMap fun (i : Nat) =>
    match n.keys[i]? with
    | some k => if k ≠ 0 then some (UInt8.ofNat i, (n.children[(k - 1).toNat]?).getD none) else none
    | none => none

/-- helpers.go:464-491 `removeChild48`. -/
def removeChild48 (a : Addr) (c : Byte) : M V Addr := do
  let n ← innerAt a
  let pos ← M.lift (n.getKeyAtIdx c.toNat)
  let n1 ← M.lift (n.setKeyAtIdx c.toNat 0)
  wr a (.inner n1)
  let ch ← M.lift (n1.getChild ((pos - 1).toNat : Nat))
  trackChannel ch
  setChildAt a (pos - 1).toNat none
  let n ← innerAt a
  wr a (.inner { n with numChildren := n.numChildren - 1 })
  let n ← innerAt a
  if n.numChildren = 12 then
    let newNode ← allocInner .n16
    trackChannel (some a)
    copyHeader newNode a
    moveLeaf newNode a
    let n ← innerAt a
    let m ← innerAt newNode
    let cs := compact48 n
    M.assert (cs.length ≤ 16) .index
    wr newNode (.inner { m with
      keys := goCopy m.keys 0 (cs.map (·.1)),
      children := goCopy m.children 0 (cs.map (·.2)) })
    pure newNode
  else pure a

/-- helpers.go:507-514: positions of the children of a `Node256` in byte order. -/
def compact256 (n : Inner) : List (Byte × Addr) :=
  (List.range 256).filterMap fun (i : Nat) =>
    match n.children[i]? with
    | some (some ch) => some (UInt8.ofNat i, ch)
    | _ => none

/-- helpers.go:507-514: the key index of the new `Node48`. -/
def index48 (cs : List (Byte × Addr)) : List Byte :=
  (cs.zipIdx).foldl (fun ks p => ks.set p.1.1.toNat (UInt8.ofNat (p.2 + 1))) (List.replicate 256 0)

/-- helpers.go:493-518 `removeChild256`. -/
def removeChild256 (a : Addr) (c : Byte) : M V Addr := do
  setChildAt a c.toNat none
  let n ← innerAt a
  wr a (.inner { n with numChildren := n.numChildren - 1 })
  let n ← innerAt a
  if n.numChildren = 37 then
    let newNode ← allocInner .n48
    copyHeader newNode a
    trackChannel (some a)
    moveLeaf newNode a
    let n ← innerAt a
    let m ← innerAt newNode
    let cs := compact256 n
    M.assert (cs.length ≤ 48) .index
    wr newNode (.inner { m with
      keys := index48 cs,
      children := goCopy m.children 0 (cs.map fun p => some p.2) })
    pure newNode
  else pure a

/-- helpers.go:357-370 `removeChild`. -/
def removeChild (a : Addr) (c : Byte) : M V Addr := do
  match ← cell a with
  | .leaf _ => M.throw .badType
  | .inner n =>
    match n.kind with
    | .n4 => removeChild4 a c
    | .n16 => removeChild16 a c
    | .n48 => removeChild48 a c
    | .n256 => removeChild256 a c

/-! ### Insert -/

/-- What `recursiveInsert` returns: the node, `oldVal`, the flag `*old`, and `mutated`. -/
structure InsRes (V : Type) where
  node : Addr
  oldVal : V
  old : Bool
  mutated : Bool

/-- `key[depth]`. -/
def byteAt (key : Key) (i : Nat) : R Byte :=
  match key[i]? with
  | some b => .ok b
  | none => .error .index

/-- `if len(key) > i { node = t.addChild(node, key[i], child) }` (txn.go:152-160, 206-209, 237-239). -/
def addChildAt (node : Addr) (key : Key) (i : Nat) (child : Addr) : M V Addr :=
  if key.length > i then (do
    let b ← M.lift (byteAt key i)
    addChild node b child) else pure node

/-- txn.go:112-124: the key is already stored in the leaf `nodeLeaf` of the childless `node`. -/
def insertUpdateLeaf (node : Addr) (oldVal : V) (key : Key) (v : V) : M V (InsRes V) := do
  let node ← writeNode node true
  let newLeaf ← allocLeaf key v
  setNodeLeaf node (some newLeaf)
  pure { node := node, oldVal := oldVal, old := true, mutated := true }

/-- txn.go:138-161: the new `Node4` is filled with the old leaf (key `oldKey`) and the new one.  `node` is the
old childless node, `newLeaf2` the new one, `newLeaf2L` its leaf, `i = depth + longestPrefix`. -/
def insertPair (newNode node nodeLeaf newLeaf2 newLeaf2L : Addr) (oldKey key : Key) (i : Nat) : M V Addr :=
  if hasPrefixB (getKey oldKey) (getKey key) then do
    trackChannel (some nodeLeaf)
    setNodeLeaf newNode (some newLeaf2L)
    let b ← M.lift (byteAt oldKey i)
    addChild newNode b node
  else if hasPrefixB (getKey key) (getKey oldKey) then do
    setNodeLeaf newNode (some nodeLeaf)
    let b ← M.lift (byteAt key i)
    addChild newNode b newLeaf2
  else do
    let newNode ← addChildAt newNode oldKey i node
    addChildAt newNode key i newLeaf2

/-- txn.go:126-162: split a leaf into a `Node4` with two entries. -/
def insertSplitLeaf [Inhabited V] (node nodeLeaf : Addr) (oldKey key : Key) (v : V) (depth : Nat) :
    M V (InsRes V) := do
  let newLeaf2 ← makeLeaf key v
  let w ← innerAt newLeaf2
  match w.leaf with
  | none => M.throw .nilDeref
  | some newLeaf2L =>
    trackChannel (some node)
    let node ← writeNode node false
    let lp ← M.lift (longestCommonPrefix key oldKey depth)
    let newNode ← allocInner .n4
    let m ← innerAt newNode
    wr newNode (.inner { m with
      partialLen := lp, part := goCopy m.part 0 ((key.drop depth).take (min maxPrefixLen lp)) })
    let newNode ← insertPair newNode node nodeLeaf newLeaf2 newLeaf2L oldKey key (depth + lp)
    pure { node := newNode, oldVal := default, old := false, mutated := true }

/-- txn.go:109-163: the node is a leaf (childless, with a node leaf). -/
def insertAtLeaf [Inhabited V] (node nodeLeaf : Addr) (key : Key) (v : V) (depth : Nat) :
    M V (InsRes V) := do
  let nl ← leafAt nodeLeaf
  if key.length = nl.key.length ∧ nl.key = key then insertUpdateLeaf node nl.value key v
  else insertSplitLeaf node nodeLeaf nl.key key v depth

/-- txn.go:194-196: the test whether the leaf of `node` extends the new key. -/
def leafClash (n : Inner) (key : Key) : M V Bool :=
  match n.leaf with
  | none => pure false
  | some l => do
    let nL ← leafAt l
    pure (nL.key.length != 0 && hasPrefixB (getKey nL.key) (getKey key))

/-- txn.go:192-212: the whole prefix of `node` matches and no child continues the key (`depth` already
includes the prefix).  The conversion `newLeaf.(*NodeLeaf[T])` of line 200 is applied to the `*Node4` made
by `makeLeaf`, so it panics. -/
def insertNoChild [Inhabited V] (node : Addr) (key : Key) (v : V) (depth : Nat) : M V (InsRes V) := do
  let newLeaf ← makeLeaf key v
  let n ← innerAt node
  let clash ← leafClash n key
  trackChannel (some node)
  let node ← writeNode node false
  if clash then do
    let _ ← allocInner (V := V) .n4
    M.throw .typeAssert
  else do
    let node ← addChildAt node key depth newLeaf
    pure { node := node, oldVal := default, old := false, mutated := true }

/-- txn.go:222-226: the old node moves below the new one, its prefix (of at most ten bytes) is shortened. -/
def splitShort (newNode node : Addr) (prefixDiff : Nat) : M V Addr := do
  let n ← innerAt node
  let b ← M.lift (byteAt n.part prefixDiff)
  let newNode ← addChild newNode b node
  let n ← innerAt node
  let pl := n.partialLen - (prefixDiff + 1)
  let length := min maxPrefixLen pl
  M.assert (prefixDiff + 1 + length ≤ n.part.length) .index
  wr node (.inner { n with
    partialLen := pl, part := goCopy n.part 0 ((n.part.drop (prefixDiff + 1)).take length) })
  pure newNode

/-- The bytes in the array behind the key slice of a leaf, from the end of the slice up to its capacity.  Nothing is
known about them: they depend on the allocator and on the caller of `Insert`.  Here they are an unknown function of the
leaf's number, value and key, so that they do not change with the place of the leaf in memory. -/
opaque spareBytes (id : Nat) (value : V) (key : Key) : Key

/-- The bytes that a slice expression `l.key[lo:hi]` can reach: up to the capacity, not only the length. -/
def leafBytes (l : LeafC V) (hi : Nat) : Key :=
  if hi ≤ l.key.length then l.key else l.key ++ spareBytes l.id l.value l.key

/-- txn.go:227-233: the same for a longer prefix, whose bytes come from the smallest leaf below. -/
def splitLong (newNode node : Addr) (depth prefixDiff : Nat) : M V Addr := do
  let n ← innerAt node
  wr node (.inner { n with partialLen := n.partialLen - (prefixDiff + 1) })
  let s ← M.get
  match ← M.lift (minimum s.heap (some node)) with
  | none => M.throw .nilDeref
  | some l =>
    let lc ← leafAt l
    let b ← M.lift (byteAt lc.key (depth + prefixDiff))
    let newNode ← addChild newNode b node
    let n ← innerAt node
    let length := min maxPrefixLen n.partialLen
    let bytes := leafBytes lc (depth + prefixDiff + 1 + length)
    M.assert (depth + prefixDiff + 1 + length ≤ bytes.length) .index
    wr node (.inner { n with
      part := goCopy n.part 0 ((bytes.drop (depth + prefixDiff + 1)).take length) })
    pure newNode

/-- txn.go:222-233. -/
def splitChild (newNode node : Addr) (partialLen depth prefixDiff : Nat) : M V Addr :=
  if partialLen ≤ maxPrefixLen then splitShort newNode node prefixDiff
  else splitLong newNode node depth prefixDiff

/-- txn.go:215-240: the prefix of `node` differs from the key at `prefixDiff`; split it. -/
def insertSplit [Inhabited V] (node : Addr) (key : Key) (v : V) (depth prefixDiff : Nat) :
    M V (InsRes V) := do
  let newNode ← allocInner .n4
  let n ← innerAt node
  let m ← innerAt newNode
  M.assert (min maxPrefixLen prefixDiff ≤ n.part.length) .index
  wr newNode (.inner { m with
    partialLen := prefixDiff, part := goCopy m.part 0 (n.part.take (min maxPrefixLen prefixDiff)) })
  trackChannel (some node)
  let node ← writeNode node false
  let newNode ← splitChild newNode node n.partialLen depth prefixDiff
  let newLeaf ← makeLeaf key v
  let newNode ← addChildAt newNode key (depth + prefixDiff) newLeaf
  pure { node := newNode, oldVal := default, old := false, mutated := true }

/-- txn.go:184-189, 247-252: put the new child into the node. -/
def insertReplace (node child : Addr) (idx : Nat) (r : InsRes V) : M V (InsRes V) :=
  if r.mutated ∨ r.node ≠ child then do
    trackChannel (some node)
    let node ← writeNode node false
    setChildAt node idx (some r.node)
    pure { node := node, oldVal := r.oldVal, old := r.old, mutated := r.mutated }
  else pure { node := node, oldVal := r.oldVal, old := r.old, mutated := r.mutated }

/-- txn.go:165, 304-306: the leaf of the node, if it holds the key. -/
def leafHit (c : Cell V) (key : Key) : M V (Option Addr) :=
  match c.nodeLeaf with
  | none => pure none
  | some l => do
    let lc ← leafAt l
    pure (if leafMatches lc.key key then some l else none)

/-- txn.go:166-170: the key is held by the leaf `l` of the inner node `node`. -/
def insertHit [Inhabited V] (node l : Addr) (v : V) : M V (InsRes V) := do
  let newLeaf ← writeNode l true
  let lc ← leafAt newLeaf
  wr newLeaf (.leaf { lc with value := v })
  let node ← writeNode node true
  setNodeLeaf node (some newLeaf)
  pure { node := node, oldVal := default, old := false, mutated := true }

/-- txn.go:254-261: no child, and the node has no prefix. -/
def insertNew [Inhabited V] (node : Addr) (key : Key) (v : V) (depth : Nat) : M V (InsRes V) := do
  let newLeaf ← makeLeaf key v
  if depth < key.length then do
    trackChannel (some node)
    let node ← writeNode node false
    let b ← M.lift (byteAt key depth)
    let node ← addChild node b newLeaf
    pure { node := node, oldVal := default, old := false, mutated := true }
  else pure { node := node, oldVal := default, old := false, mutated := false }

/-- txn.go:100-107: the tree is empty. -/
def insertEmpty [Inhabited V] (node : Addr) (key : Key) (v : V) : M V (InsRes V) := do
  let node ← writeNode node true
  let newLeaf ← allocLeaf key v
  setNodeLeaf node (some newLeaf)
  pure { node := node, oldVal := default, old := false, mutated := true }

/-- txn.go:97-262 `recursiveInsert`.  The first argument bounds the recursion; every recursive call
consumes a byte of the key, so `len(key)` is enough. -/
def recursiveInsert [Inhabited V] : Nat → Addr → Key → V → Nat → M V (InsRes V)
  | 0, _, _, _, _ => M.throw .fuel
  | fuel + 1, node, key, v, depth => do
    let t ← txnSt
    if t.treeSize = 0 then insertEmpty node key v                  -- txn.go:100-107
    else do
      let c ← cell node
      match c.isLeaf, c.nodeLeaf with
      | true, some nodeLeaf => insertAtLeaf node nodeLeaf key v depth  -- txn.go:110-163
      | _, _ => do
        match ← leafHit c key with                                  -- txn.go:165
        | some l => insertHit node l v                               -- txn.go:166-170
        | none =>
          if c.partialLen > 0 then do                                -- txn.go:174
            let s ← M.get
            let prefixDiff ← M.lift (prefixMismatch s.heap node key key.length depth)
            if prefixDiff ≥ c.partialLen then                        -- txn.go:177
              if depth + c.partialLen < key.length then do
                let b ← M.lift (byteAt key (depth + c.partialLen))
                match ← M.lift (c.findChild b) with
                | (some child, idx) => do
                  let r ← recursiveInsert fuel child key v (depth + c.partialLen + 1)
                  insertReplace node child idx r
                | (none, _) => insertNoChild node key v (depth + c.partialLen)
              else insertNoChild node key v (depth + c.partialLen)
            else insertSplit node key v depth prefixDiff
          else do                                                    -- txn.go:243-261
            let b ← M.lift (byteAt key depth)
            match ← M.lift (c.findChild b) with
            | (some child, idx) => do
              let r ← recursiveInsert fuel child key v (depth + 1)
              insertReplace node child idx r
            | (none, _) => insertNew node key v depth

/-- txn.go:86-95 `Txn.Insert`; the result is `(oldVal, didUpdate)`. -/
def txnInsert [Inhabited V] (key : Key) (v : V) : M V (V × Bool) := do
  let t ← txnSt
  let r ← recursiveInsert ((getTreeKey key).length + 1) t.root (getTreeKey key) v 0
  modTxn fun t =>
    if r.old then { t with root := r.node }
    else { t with root := r.node, size := t.size + 1, treeSize := t.treeSize + 1 }
  pure (r.oldVal, r.old)

/-! ### Delete -/

/-- What `recursiveDelete` returns: the node (nil if gone), the deleted leaf, `mutate`. -/
structure DelRes where
  node : Option Addr
  leaf : Option Addr
  mutate : Bool
  deriving DecidableEq

/-- txn.go:318-322, tree.go:178-181: does the compressed prefix of the node differ from the key? -/
def prefixBails (c : Cell V) (key : Key) (depth : Nat) : R Bool :=
  if c.partialLen > 0 then (do
    let prefixLen ← checkPrefix c.part c.partialLen key depth
    pure (prefixLen != min maxPrefixLen c.partialLen)) else pure false

/-- txn.go:307-313: the key is held by the leaf `nodeL` of `node`. -/
def deleteHit (node nodeL : Addr) : M V DelRes := do
  let node ← writeNode node true
  setNodeLeaf node none
  let n ← innerAt node
  if n.numChildren > 0 then pure { node := some node, leaf := some nodeL, mutate := true }
  else pure { node := none, leaf := some nodeL, mutate := false }

/-- txn.go:335-342: store the new child, or remove the edge `b` if there is none. -/
def deleteReplace (node child : Addr) (idx : Nat) (b : Byte) (r : DelRes) : M V Addr :=
  if r.node ≠ some child ∨ r.leaf.isSome then do
    trackChannel (some node)
    let node ← writeNode node false
    setChildAt node idx r.node
    if r.node = none then removeChild node b else pure node
  else pure node

/-- txn.go:344-352: a node without children and leaf disappears. -/
def deleteFinish (node : Addr) (r : DelRes) : M V DelRes := do
  let c ← cell node
  if c.numChildren = 0 ∧ c.nodeLeaf = none then pure { node := none, leaf := r.leaf, mutate := r.mutate }
  else pure { node := some node, leaf := r.leaf, mutate := r.mutate }

/-- txn.go:289-353 `recursiveDelete`; the first argument bounds the recursion as in `recursiveInsert`.
(`trackChannel` of no node does nothing, line 296.) -/
def recursiveDelete : Nat → Addr → Key → Nat → M V DelRes
  | 0, _, _, _ => M.throw .fuel
  | fuel + 1, node, key, depth => do
    let c ← cell node
    trackChannel (if c.isLeaf then some node else none)              -- txn.go:296-297
    if c.isLeaf ∧ leafMatches c.key key then
      pure { node := none, leaf := some node, mutate := true }       -- txn.go:298-300
    else do
      match ← leafHit c key with                                    -- txn.go:304-306
      | some nodeL => deleteHit node nodeL                           -- txn.go:307-313
      | none =>
        let bail ← M.lift (prefixBails c key depth)                  -- txn.go:318-322
        if bail then pure { node := some node, leaf := none, mutate := false }
        else do
          let b ← M.lift (byteAt key (depth + c.partialLen))         -- txn.go:323, 327
          match ← M.lift (c.findChild b) with
          | (none, _) => pure { node := none, leaf := none, mutate := false }
          | (some child, idx) => do
            let r ← recursiveDelete fuel child key (depth + c.partialLen + 1)  -- txn.go:333
            let node ← deleteReplace node child idx b r
            deleteFinish node r

/-- txn.go:268-275 and 422-429: the fresh empty root.  Its `partial` is nil and its leaf has a nil key and
the zero value; `id` is the current `maxNodeId`. -/
def resetRoot [Inhabited V] : M V Unit := do
  let t ← txnSt
  let l ← newCell (.leaf { id := t.maxNodeId + 1, value := default, key := [], ch := none })
  let r ← newCell (.inner {
    kind := .n4, id := t.maxNodeId, partialLen := 0, numChildren := 0, part := [],
    keys := List.replicate 4 0, children := List.replicate 4 none, leaf := some l, ch := none })
  modTxn fun t => { t with root := r, maxNodeId := t.maxNodeId + 2 }

/-- txn.go:267-278, 421-432: install the new root, or an empty one. -/
def setRoot [Inhabited V] (a : Option Addr) : M V Unit :=
  match a with
  | none => resetRoot
  | some n => modTxn fun t => { t with root := n }

/-- txn.go:264-287 `Txn.Delete`; the result is `(oldVal, found)`. -/
def txnDelete [Inhabited V] (key : Key) : M V (V × Bool) := do
  let t ← txnSt
  let r ← recursiveDelete ((getTreeKey key).length + 1) t.root (getTreeKey key) 0
  setRoot r.node
  match r.leaf with
  | none => pure (default, false)
  | some l =>
    let t ← txnSt
    trackChannel (some t.root)
    modTxn fun t => { t with size := t.size - 1, treeSize := t.treeSize - 1 }
    let lc ← cell l
    pure (lc.value, true)

/-! ### DeletePrefix -/

/-- txn.go:495-510: compact the first `numChildren` slots using the map of new children (`some none` = the
child was removed, `none` = no entry).  The arguments are the remaining iterations, `itr`, and the state
`(children, slow)`; `numCh` of the code equals `slow`. -/
def compactSlots (a : Addr) (m : List (Nat × Option Addr)) : Nat → Nat → Nat → M V Nat
  | 0, _, slow => pure slow
  | k + 1, itr, slow => do
    match m.lookup itr with
    | some none => compactSlots a m k (itr + 1) slow
    | some (some ch) =>
      setChildAt a slow (some ch)
      compactSlots a m k (itr + 1) (slow + 1)
    | none =>
      let n ← innerAt a
      let ch ← M.lift (n.getChild itr)
      setChildAt a slow ch
      compactSlots a m k (itr + 1) (slow + 1)

/-- txn.go:511-513: clear the slots from `itr` on. -/
def clearFrom (a : Addr) (itr : Nat) : M V Unit := do
  let n ← innerAt a
  wr a (.inner { n with children := n.children.take itr ++ List.replicate (n.children.length - itr) none })

/-- txn.go:479-488: recurse on every non-nil slot of `getChildren()`. -/
def deletePrefixChildren (rec : Addr → M V (Option Addr × Nat)) :
    List (Option Addr × Nat) → M V (List (Nat × Option Addr) × Nat)
  | [] => pure ([], 0)
  | (none, _) :: rest => deletePrefixChildren rec rest
  | (some ch, idx) :: rest => do
    let (newCh, del) ← rec ch
    trackChannel (if del > 0 then some ch else none)
    let (m, total) ← deletePrefixChildren rec rest
    pure ((idx, newCh) :: m, del + total)

/-- txn.go:461-466: the depth passed on (it has no effect on the result). -/
def deletePrefixDepth (c : Cell V) (key : Key) (depth : Nat) : R Nat :=
  if c.partialLen > 0 then (do
    let prefixLen ← checkPrefix c.part c.partialLen key depth
    pure (if prefixLen < min maxPrefixLen (getKey key).length then depth + prefixLen else depth))
  else pure depth

/-- txn.go:470-475: count the node's own leaf. -/
def deletePrefixOwn (c : Cell V) (key : Key) : M V Nat :=
  match c.nodeLeaf with
  | none => pure 0
  | some l => do
    let lc ← leafAt l
    if hasPrefixB (getKey lc.key) (getKey key) then (do
      trackChannel (some l)
      pure 1) else pure 0

/-- txn.go:450-458: a childless node. -/
def deletePrefixLeaf (node : Addr) (c : Cell V) (key : Key) : M V (Option Addr × Nat) :=
  match c.nodeLeaf with
  | none => pure (some node, 0)
  | some l => do
    let lc ← leafAt l
    if hasPrefixB (getKey lc.key) (getKey key) then (do
      trackChannel (some node)
      trackChannel (some l)
      pure (none, 1)) else pure (some node, 0)

/-- txn.go:493-514: rebuild the node from the map of new children. -/
def deletePrefixRebuild (node : Addr) (m : List (Nat × Option Addr)) : M V Addr := do
  let node ← writeNode node true
  let n ← innerAt node
  let slow ← compactSlots node m n.numChildren.toNat 0 0
  clearFrom node slow
  let n ← innerAt node
  wr node (.inner { n with numChildren := UInt8.ofNat slow })
  pure node

/-- txn.go:444-517 `deletePrefix`; the first argument bounds the recursion depth. -/
def deletePrefix : Nat → Option Addr → Key → Nat → M V (Option Addr × Nat)
  | _, none, _, _ => pure (none, 0)
  | 0, some _, _, _ => M.throw .fuel
  | fuel + 1, some node, key, depth => do
    let c ← cell node
    if c.isLeaf then deletePrefixLeaf node c key                     -- txn.go:450-458
    else do
      let depth' ← M.lift (deletePrefixDepth c key depth)            -- txn.go:461-466
      let own ← deletePrefixOwn c key                                -- txn.go:470-475
      let (m, del) ← deletePrefixChildren (fun ch => deletePrefix fuel (some ch) key (depth' + 1))
        c.children.zipIdx                                            -- txn.go:478-488
      let node ← deletePrefixRebuild node m                          -- txn.go:493-514
      pure (some node, own + del)

/-- txn.go:417-442 `Txn.DeletePrefix`. -/
def txnDeletePrefix [Inhabited V] (pre : Key) : M V Bool := do
  let s ← M.get
  let (newRoot, numDel) ← deletePrefix (s.heap.length + 1) (some s.txn.root) (getTreeKey pre) 0
  setRoot newRoot
  if numDel ≠ 0 then
    let t ← txnSt
    trackChannel (some t.root)
    modTxn fun t => { t with treeSize := t.treeSize - UInt64.ofNat numDel }
    modTxn fun t => { t with size := t.treeSize }
    pure true
  else pure false

/-! ### Notify -/

/-- txn.go:404-410: test every channel, and close it if it is open; forget the channels. -/
def closeAll : List ChanId → Code V Unit
  | [] => .own (fun t => { t with trackChnSlice := [] }) fun _ => .done (.ok ())
  | c :: cs => .test c fun b =>
    match b with
    | true => closeAll cs
    | false => .shut c (closeAll cs)

theorem closeAll_run (cs : List ChanId) (s : St V) : (closeAll cs : Code V Unit).run s =
    (.ok (), { s with chans := cs.foldl (fun cs k => cs.set k true) s.chans, txn := { s.txn with trackChnSlice := [] } }) := by
  induction cs generalizing s with
  | nil => rfl
  | cons c cs ih =>
    simp only [closeAll, Code.run, List.foldl_cons]
    cases h : s.chans[c]? == some true with
    | true =>
      have e : s.chans.set c true = s.chans := by
        have h := beq_iff_eq.1 h
        obtain ⟨h1, h2⟩ := List.getElem?_eq_some_iff.1 h
        rw [← h2]
        exact List.set_getElem_self h1
      rw [e]
      exact ih s
    | false => exact ih _

theorem closeAll_seen (cs : List ChanId) (s : St V) : (closeAll cs : Code V Unit).seen s = [] := by
  induction cs generalizing s with
  | nil => rfl
  | cons c cs ih =>
    simp only [closeAll, Code.seen]
    cases s.chans[c]? == some true with
    | true => exact ih s
    | false => exact ih _

/-- txn.go:401-411 `slowNotify`: close every tracked channel that is not yet closed. -/
def slowNotify : M V Unit where
  run := fun s =>
    (.ok (), { s with
      chans := s.txn.trackChnSlice.foldl (fun cs k => cs.set k true) s.chans,
      txn := { s.txn with trackChnSlice := [] } })
  seen := fun _ => []
  trail := fun _ => rfl
  code := .own (fun t => t) fun t => closeAll t.trackChnSlice
  runs := fun s => closeAll_run s.txn.trackChnSlice s
  sees := fun s => closeAll_seen s.txn.trackChnSlice s

/-- txn.go:372-378 `Notify`. -/
def txnNotify : M V Unit := do
  let t ← txnSt
  if !t.trackMutate then pure ()
  else slowNotify

end Art
