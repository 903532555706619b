/-
Basic vocabulary of the model: bytes, heap cells, the Go runtime fragments the code uses
(`copy`, `sort.Search`, `bytes.Compare`, `bytes.HasPrefix`), the store and the monad in which
mutating code runs.

All line numbers refer to /repo at the pinned commit.
-/
namespace Art

/-- A Go `byte`. -/
abbrev Byte := UInt8
/-- The contents of a Go `[]byte` (aliasing of backing arrays is modelled apart, in `Model/Slice.lean`). -/
abbrev Key := List Byte
/-- A pointer to a node: an index into the heap. -/
notation "Addr" => Nat
/-- A Go channel (`chan struct{}`): an index into the table of channels. -/
abbrev ChanId := Nat

/-- tree.go:12 `const maxPrefixLen = 10`. -/
def maxPrefixLen : Nat := 10

/-- helpers.go:346: the byte `'$'` that `getTreeKey` appends. -/
def dollar : Byte := 0x24

/-- tree.go:14-22: the four inner node types (`leafType` is the other `Cell` constructor). -/
inductive Kind where
  | n4 | n16 | n48 | n256
  deriving DecidableEq, Repr, Inhabited

/-- Length of the `keys` array: node_4.go:17, node_16.go:17, node_48.go:16; `Node256` has none (node_256.go:10-18). -/
def Kind.keysLen : Kind → Nat
  | .n4 => 4 | .n16 => 16 | .n48 => 256 | .n256 => 0

/-- Length of the `children` array: node_4.go:18, node_16.go:18, node_48.go:17, node_256.go:15. -/
def Kind.childrenLen : Kind → Nat
  | .n4 => 4 | .n16 => 16 | .n48 => 48 | .n256 => 256

/-- The struct `Node4/Node16/Node48/Node256` (node_4.go:12-21, node_16.go:12-21, node_48.go:11-20,
node_256.go:10-18).  `part` is the field `partial` (`[]` for a nil slice).  `partialLen` (uint32) and
`id` (uint64) are unbounded here: keys are shorter than 2^32 bytes, fewer than 2^64 nodes are ever
allocated, and the sums at helpers.go:415 stay below 2^32.  `numChildren` is the real `uint8`, because its wrap-around at 256 is reachable.  `ch` is the
`atomic.Pointer` of the mutate channel, `none` while no channel was created. -/
structure Inner where
  kind : Kind
  id : Nat
  partialLen : Nat
  numChildren : UInt8
  part : List Byte
  keys : List Byte
  children : List (Option Addr)
  leaf : Option Addr
  ch : Option ChanId
  deriving DecidableEq, Repr, Inhabited

/-- The struct `NodeLeaf` (node_leaf.go:11-16). -/
structure LeafC (V : Type) where
  id : Nat
  value : V
  key : Key
  ch : Option ChanId
  deriving DecidableEq, Repr, Inhabited

/-- A heap object implementing the interface `Node[T]` (node.go:6-41). -/
inductive Cell (V : Type) where
  | leaf (l : LeafC V)
  | inner (n : Inner)
  deriving DecidableEq, Repr

abbrev Heap (V : Type) := List (Cell V)

/-- Ways in which a call does not return: a Go run-time panic, or (never in Go) the model's loop bound. -/
inductive Err where
  | index      -- index or slice bounds out of range
  | nilDeref   -- nil pointer dereference
  | typeAssert -- failed interface conversion
  | badType    -- panic("Unknown node type") / panic("invalid node type")
  | fuel       -- the model ran out of the loop bound it was given
  deriving DecidableEq, Repr

/-- The outcome of a call: a value or a panic. -/
abbrev R (α : Type) := Except Err α

deriving instance DecidableEq for Except

/-! ### Go run-time helpers -/

/-- Go's builtin `copy(dst[off:], src)`, the result being the whole array `dst`. -/
def goCopy {α : Type} (dst : List α) (off : Nat) (src : List α) : List α :=
  dst.take off ++ src.take (dst.length - off) ++ dst.drop (off + src.length)

/-- The loop of `sort.Search` (Go standard library), bounded by the first argument. -/
def searchLoop (f : Nat → Bool) : Nat → Nat → Nat → Nat
  | 0, i, _ => i
  | fuel + 1, i, j =>
    if i < j then
      let m := (i + j) / 2
      if f m then searchLoop f fuel i m else searchLoop f fuel (m + 1) j
    else i

/-- `sort.Search(n, f)`: binary search in `[0, n)`. -/
def goSearch (n : Nat) (f : Nat → Bool) : Nat := searchLoop f (n + 1) 0 n

/-- `bytes.Compare`. -/
def cmpBytes : Key → Key → Ordering
  | [], [] => .eq
  | [], _ :: _ => .lt
  | _ :: _, [] => .gt
  | a :: as, b :: bs => if a < b then .lt else if b < a then .gt else cmpBytes as bs

/-- `bytes.Compare(a, b) >= 0`. -/
def geBytes (a b : Key) : Bool := cmpBytes a b != .lt
/-- `bytes.Compare(a, b) <= 0`. -/
def leBytes (a b : Key) : Bool := cmpBytes a b != .gt

/-- `bytes.HasPrefix(key, prefix)`. -/
def hasPrefixB (key pre : Key) : Bool := pre.isPrefixOf key

/-- helpers.go:520-525 `hasPrefix`. -/
def hasPrefix (key pre : Key) : Bool :=
  if pre.length = 0 then true else hasPrefixB key pre

/-- helpers.go:345-347 `getTreeKey` (contents only; for the aliasing of `append` see `Model/Slice.lean`). -/
def getTreeKey (key : Key) : Key := key ++ [dollar]

/-- helpers.go:349-355 `getKey`. -/
def getKey (key : Key) : Key := if key.length = 0 then key else key.take (key.length - 1)

/-- helpers.go:22-29 `leafMatches(nodeKey, key) == 0`. -/
def leafMatches (nodeKey key : Key) : Bool :=
  if nodeKey.length ≠ key.length then false else cmpBytes nodeKey key == .eq

/-- The comparing loop `for idx < maxCmp { if xs[idx] != ys[idx] {return idx}; idx++ }` shared by
`checkPrefix`, `longestCommonPrefix` and `prefixMismatch`.  First argument: remaining iterations.
The Boolean says whether the loop returned early.  Reading past either slice panics. -/
def scanEq (xs ys : Key) : Nat → Nat → R (Nat × Bool)
  | 0, idx => .ok (idx, false)
  | k + 1, idx =>
    match xs[idx]?, ys[idx]? with
    | some x, some y => if x ≠ y then .ok (idx, true) else scanEq xs ys k (idx + 1)
    | _, _ => .error .index

/-! ### Node accessors (node.go interface methods) -/

variable {V : Type}

/-- `getId` (node_4.go:23-25 and the same method of the other types). -/
def Cell.id : Cell V → Nat
  | .leaf l => l.id
  | .inner n => n.id

/-- `setId`. -/
def Cell.setId (c : Cell V) (i : Nat) : Cell V :=
  match c with
  | .leaf l => .leaf { l with id := i }
  | .inner n => .inner { n with id := i }

/-- `getPartialLen`; 0 for a leaf (node_leaf.go:26-29). -/
def Cell.partialLen : Cell V → Nat
  | .leaf _ => 0
  | .inner n => n.partialLen

/-- `getPartial`; empty for a leaf (node_leaf.go:75-78). -/
def Cell.part : Cell V → List Byte
  | .leaf _ => []
  | .inner n => n.part

/-- `getNumChildren`; 0 for a leaf (node_leaf.go:39-41). -/
def Cell.numChildren : Cell V → UInt8
  | .leaf _ => 0
  | .inner n => n.numChildren

/-- `getNodeLeaf`; nil for a leaf (node_leaf.go:190-192). -/
def Cell.nodeLeaf : Cell V → Option Addr
  | .leaf _ => none
  | .inner n => n.leaf

/-- `getKey`; empty for the inner types (node_4.go:124-127 etc.), node_leaf.go:67-69. -/
def Cell.key : Cell V → Key
  | .leaf l => l.key
  | .inner _ => []

/-- `getValue`; the zero value for the inner types (node_4.go:129-133 etc.), node_leaf.go:51-53. -/
def Cell.value [Inhabited V] : Cell V → V
  | .leaf l => l.value
  | .inner _ => default

/-- `getChildren`; nil for a leaf (node_leaf.go:146-148). -/
def Cell.children : Cell V → List (Option Addr)
  | .leaf _ => []
  | .inner n => n.children

/-- The raw `mutateCh` pointer. -/
def Cell.ch : Cell V → Option ChanId
  | .leaf l => l.ch
  | .inner n => n.ch

/-- `setMutateCh` (node_4.go:196-198, node_leaf.go:186-188, ...). -/
def Cell.setCh (c : Cell V) (k : Option ChanId) : Cell V :=
  match c with
  | .leaf l => .leaf { l with ch := k }
  | .inner n => .inner { n with ch := k }

/-- `isLeaf` of an inner node: `numChildren == 0 && leaf != nil` (node_4.go:59-64, node_16.go:59-64,
node_48.go:58-63, node_256.go:64-69). -/
def Inner.isLeaf (n : Inner) : Bool := n.numChildren == 0 && n.leaf.isSome

/-- `isLeaf`; always true for a leaf (node_leaf.go:47-49). -/
def Cell.isLeaf : Cell V → Bool
  | .leaf _ => true
  | .inner n => n.isLeaf

/-- `getChild(index)`: node_4.go:86-88, node_16.go:87-89, node_48.go:95-97 index the array (a bad index
panics); node_256.go:92-97 returns nil for an index outside the array. -/
def Inner.getChild (n : Inner) (i : Int) : R (Option Addr) :=
  match n.kind with
  | .n256 => if i < 0 ∨ i ≥ 256 then .ok none else .ok ((n.children[i.toNat]?).getD none)
  | _ =>
    if i < 0 then .error .index else
      match n.children[i.toNat]? with
      | some c => .ok c
      | none => .error .index

/-- `getChild`; nil for a leaf (node_leaf.go:117-119). -/
def Cell.getChild (c : Cell V) (i : Int) : R (Option Addr) :=
  match c with
  | .leaf _ => .ok none
  | .inner n => n.getChild i

/-- `setChild(index, child)` (node_4.go:120-122, node_16.go:121-123, node_48.go:129-131,
node_256.go:120-122): an array store, a bad index panics. -/
def Inner.setChild (n : Inner) (i : Nat) (c : Option Addr) : R Inner :=
  if i < n.children.length then .ok { n with children := n.children.set i c } else .error .index

/-- `getKeyAtIdx` (node_4.go:135-137, node_16.go:135-137, node_48.go:144-146); 0 for `Node256`
(node_256.go:135-137). -/
def Inner.getKeyAtIdx (n : Inner) (i : Nat) : R Byte :=
  match n.kind with
  | .n256 => .ok 0
  | _ => match n.keys[i]? with
    | some b => .ok b
    | none => .error .index

/-- `getKeyAtIdx`; 0 for a leaf (node_leaf.go:138-141). -/
def Cell.getKeyAtIdx (c : Cell V) (i : Nat) : R Byte :=
  match c with
  | .leaf _ => .ok 0
  | .inner n => n.getKeyAtIdx i

/-- `setKeyAtIdx` (node_4.go:139-141, node_16.go:139-141, node_48.go:148-150); a no-op for `Node256`
(node_256.go:139-140). -/
def Inner.setKeyAtIdx (n : Inner) (i : Nat) (b : Byte) : R Inner :=
  match n.kind with
  | .n256 => .ok n
  | _ => if i < n.keys.length then .ok { n with keys := n.keys.set i b } else .error .index

/-- helpers.go:305-343 `findChild`.  `sort.Search` only reads `keys[i]` with `i < numChildren`, and
`numChildren` never exceeds the array of a `Node4`/`Node16`; the model reads 0 past the array. -/
def Inner.findChild (n : Inner) (c : Byte) : R (Option Addr × Nat) :=
  match n.kind with
  | .n4 | .n16 => do
    let idx := goSearch n.numChildren.toNat (fun i => (n.keys[i]?).getD 0 > c)
    if idx ≥ 1 ∧ n.keys[idx - 1]? = some c then
      let ch ← n.getChild (idx - 1 : Nat)
      pure (ch, idx - 1)
    else pure (none, 0)
  | .n48 => do
    let i ← n.getKeyAtIdx c.toNat
    if i ≠ 0 then
      let ch ← n.getChild ((i - 1).toNat : Nat)
      pure (ch, (i - 1).toNat)
    else pure (none, 0)
  | .n256 => do
    let ch ← n.getChild c.toNat
    if ch.isSome then pure (ch, c.toNat) else pure (none, 0)

/-- helpers.go:305-343 `findChild`; helpers.go:336-338 for a leaf. -/
def Cell.findChild (c : Cell V) (b : Byte) : R (Option Addr × Nat) :=
  match c with
  | .leaf _ => .ok (none, 0)
  | .inner n => n.findChild b

/-- node_48.go:183-190 `getLowerBoundCh` of a `Node48`: from byte `i` up, the first slot whose child is
present.  `getChild(int(keys[i]) - 1)` is evaluated also when `keys[i] == 0`, i.e. at index -1. -/
def Inner.lowerBound48 (n : Inner) : Nat → Nat → R Int
  | 0, _ => .ok (-1)
  | fuel + 1, i =>
    if i < 256 then do
      let k ← n.getKeyAtIdx i
      let ch ← n.getChild ((k.toNat : Int) - 1)
      if ch.isSome then pure ((k - 1).toNat : Int) else n.lowerBound48 fuel (i + 1)
    else .ok (-1)

/-- node_256.go:174-181 `getLowerBoundCh` of a `Node256`. -/
def Inner.lowerBound256 (n : Inner) : Nat → Nat → R Int
  | 0, _ => .ok (-1)
  | fuel + 1, i =>
    if i < 256 then do
      let ch ← n.getChild (i : Nat)
      if ch.isSome then pure (i : Int) else n.lowerBound256 fuel (i + 1)
    else .ok (-1)

/-- `getLowerBoundCh`: node_4.go:175-185, node_16.go:175-185, node_48.go:183-190, node_256.go:174-181. -/
def Inner.getLowerBoundCh (n : Inner) (c : Byte) : R Int :=
  match n.kind with
  | .n4 | .n16 =>
    let nCh := n.numChildren.toNat
    let idx := goSearch nCh (fun i => (n.keys[i]?).getD 0 ≥ c)
    .ok (if idx < nCh then (idx : Int) else -1)
  | .n48 => n.lowerBound48 257 c.toNat
  | .n256 => n.lowerBound256 257 c.toNat

/-- `getLowerBoundCh`; -1 for a leaf (node_leaf.go:174-176). -/
def Cell.getLowerBoundCh (c : Cell V) (b : Byte) : R Int :=
  match c with
  | .leaf _ => .ok (-1)
  | .inner n => n.getLowerBoundCh b

/-! ### Reading the heap -/

/-- Dereference a node pointer. -/
def rd (h : Heap V) (a : Addr) : R (Cell V) :=
  match h[a]? with
  | some c => .ok c
  | none => .error .nilDeref

/-- Dereference a pointer to an inner node. -/
def rdInner (h : Heap V) (a : Addr) : R Inner :=
  match h[a]? with
  | some (.inner n) => .ok n
  | _ => .error .nilDeref

/-- Dereference a `*NodeLeaf`. -/
def rdLeaf (h : Heap V) (a : Addr) : R (LeafC V) :=
  match h[a]? with
  | some (.leaf l) => .ok l
  | _ => .error .nilDeref

/-! ### The store and the monad of mutating code -/

/-- The private state of one `Txn` (txn.go:12-22) together with the `RadixTree` it points to
(tree.go:24-28): `treeSize`, `maxNodeId` and `root` are the fields of `t.tree`. -/
structure TxnSt where
  root : Addr
  treeSize : UInt64
  maxNodeId : Nat
  size : UInt64
  oldMaxNodeId : Nat
  trackMutate : Bool
  trackChnSlice : List ChanId
  deriving DecidableEq, Repr, Inhabited

/-- Everything a running transaction can see: the heap of nodes, the channels (`true` = closed), and
the state of the running transaction. -/
structure St (V : Type) where
  heap : Heap V
  chans : List Bool
  txn : TxnSt
  deriving DecidableEq, Repr

/-- One write to memory: the node written to, whether it is an atomic store of its channel (`mutateCh` is an
`atomic.Pointer`, node_4.go:19, all other fields are plain memory), and the heap that results. -/
structure Write (V : Type) where
  addr : Addr
  chan : Bool
  heap : Heap V
  deriving DecidableEq, Repr

/-- The writes are made one after the other from `h` on, in place or to a new node, and result in `h'`. -/
def Trail (h : Heap V) : List (Write V) → Heap V → Prop
  | [], h' => h' = h
  | e :: l, h' =>
    ((∃ c, e.heap = h.set e.addr c) ∨ e.chan = false ∧ e.addr = h.length ∧ ∃ c, e.heap = h ++ [c]) ∧ Trail e.heap l h'

theorem Trail.append {l l' : List (Write V)} {h h' h'' : Heap V} (h1 : Trail h l h') (h2 : Trail h' l' h'') :
    Trail h (l ++ l') h'' := by
  induction l generalizing h with
  | nil => cases h1; exact h2
  | cons x l ih => exact ⟨h1.1, ih h1.2⟩

/-- Set the channel of a node. -/
def setChan (h : Heap V) (a : Addr) (k : ChanId) : Heap V :=
  match h[a]? with
  | some c => h.set a (c.setCh (some k))
  | none => h

theorem setChan_some {h : Heap V} {a : Addr} {c : Cell V} (hc : h[a]? = some c) (k : ChanId) : setChan h a k = h.set a (c.setCh (some k)) := by
  unfold setChan
  rw [hc]

theorem setChan_set (h : Heap V) (a : Addr) (k : ChanId) : ∃ c, setChan h a k = h.set a c := by
  unfold setChan
  cases hc : h[a]? with
  | some c => exact ⟨_, rfl⟩
  | none => exact ⟨.inner default, by rw [List.set_eq_of_length_le (List.getElem?_eq_none_iff.1 hc)]⟩

/-- The channel of a node. -/
def chanOf (h : Heap V) (a : Addr) : Option ChanId := h[a]?.bind Cell.ch

/-- Set the channel of a node that has none. -/
def casChan (h : Heap V) (a : Addr) (k : ChanId) : Heap V :=
  match chanOf h a with
  | none => setChan h a k
  | some _ => h

/-- The write of `casChan`, if it makes one. -/
def casSeen (h : Heap V) (a : Addr) (k : ChanId) : List (Write V) :=
  match chanOf h a with
  | none => [{ addr := a, chan := true, heap := setChan h a k }]
  | some _ => []

/-- Code as a sequence of single steps, each of which reads or writes one node, or reads several of them (`look`), makes or
closes channels, or uses the fields of the running transaction.  Between two steps other goroutines may take steps of theirs
(`Model/Pool.lean`). -/
inductive Code (V : Type) (α : Type) where
  /-- return, or panic -/
  | done (r : R α)
  /-- read nodes with a function that does not write -/
  | look (k : St V → Code V α)
  /-- read a node -/
  | read (a : Addr) (k : Option (Cell V) → Code V α)
  /-- overwrite a node -/
  | write (a : Addr) (c : Cell V) (k : Code V α)
  /-- set the channel of a node (an atomic operation, which leaves the other fields alone) -/
  | store (a : Addr) (ch : ChanId) (k : Code V α)
  /-- allocate a node -/
  | alloc (c : Cell V) (k : Addr → Code V α)
  /-- make a channel -/
  | make (k : ChanId → Code V α)
  /-- assign to the transaction's own fields, and read them -/
  | own (f : TxnSt → TxnSt) (k : TxnSt → Code V α)
  /-- `CompareAndSwap(nil, &ch)`: set the channel of a node if it has none, and go on with `ch`; if it has one, the next
  step is `load a ch k` -/
  | claim (a : Addr) (ch : ChanId) (k : ChanId → Code V α)
  /-- the `Load` after a `CompareAndSwap` that has failed: go on with the channel that the node has now (it has one: no code
  removes the channel of a node, and `ch` stands in only to make this total) -/
  | load (a : Addr) (ch : ChanId) (k : ChanId → Code V α)
  /-- is the channel closed? -/
  | test (c : ChanId) (k : Bool → Code V α)
  /-- close a channel; when it is closed already, this is a panic that no code here recovers from (`Model/Pool.lean`) -/
  | shut (c : ChanId) (k : Code V α)

namespace Code
variable {α β : Type}

/-- Sequencing. -/
def bind (p : Code V α) (f : α → Code V β) : Code V β :=
  match p with
  | done (.ok a) => f a
  | done (.error e) => done (.error e)
  | look k => look fun s => (k s).bind f
  | read a k => read a fun c => (k c).bind f
  | write a c k => write a c (k.bind f)
  | store a ch k => store a ch (k.bind f)
  | alloc c k => alloc c fun a => (k a).bind f
  | make k => make fun c => (k c).bind f
  | own g k => own g fun t => (k t).bind f
  | claim a ch k => claim a ch fun c => (k c).bind f
  | load a ch k => load a ch fun c => (k c).bind f
  | test c k => test c fun b => (k b).bind f
  | shut c k => shut c (k.bind f)

/-- All steps one after the other, without any other goroutine. -/
def run : Code V α → St V → R α × St V
  | done r, s => (r, s)
  | look k, s => (k s).run s
  | read a k, s => (k s.heap[a]?).run s
  | write a c k, s => k.run { s with heap := s.heap.set a c }
  | store a ch k, s => k.run { s with heap := setChan s.heap a ch }
  | alloc c k, s => (k s.heap.length).run { s with heap := s.heap ++ [c] }
  | make k, s => (k s.chans.length).run { s with chans := s.chans ++ [false] }
  | own f k, s => (k (f s.txn)).run { s with txn := f s.txn }
  | claim a ch k, s => (k ((chanOf s.heap a).getD ch)).run { s with heap := casChan s.heap a ch }
  | load a ch k, s => (k ((chanOf s.heap a).getD ch)).run s
  | test c k, s => (k (s.chans[c]? == some true)).run s
  | shut c k, s => k.run { s with chans := s.chans.set c true }

/-- The writes to memory that these steps make. -/
def seen : Code V α → St V → List (Write V)
  | done _, _ => []
  | look k, s => (k s).seen s
  | read a k, s => (k s.heap[a]?).seen s
  | write a c k, s => { addr := a, chan := false, heap := s.heap.set a c } :: k.seen { s with heap := s.heap.set a c }
  | store a ch k, s => { addr := a, chan := true, heap := setChan s.heap a ch } :: k.seen { s with heap := setChan s.heap a ch }
  | alloc c k, s => { addr := s.heap.length, chan := false, heap := s.heap ++ [c] } ::
      (k s.heap.length).seen { s with heap := s.heap ++ [c] }
  | make k, s => (k s.chans.length).seen { s with chans := s.chans ++ [false] }
  | own f k, s => (k (f s.txn)).seen { s with txn := f s.txn }
  | claim a ch k, s => casSeen s.heap a ch ++ (k ((chanOf s.heap a).getD ch)).seen { s with heap := casChan s.heap a ch }
  | load a ch k, s => (k ((chanOf s.heap a).getD ch)).seen s
  | test c k, s => (k (s.chans[c]? == some true)).seen s
  | shut c k, s => k.seen { s with chans := s.chans.set c true }

theorem run_bind (p : Code V α) (f : α → Code V β) (s : St V) : (p.bind f).run s =
    match p.run s with | (.ok a, s') => (f a).run s' | (.error e, s') => (.error e, s') := by
  induction p generalizing s with
  | done r => cases r <;> rfl
  | _ => simp only [bind, run, *]

theorem seen_bind (p : Code V α) (f : α → Code V β) (s : St V) : (p.bind f).seen s =
    match p.run s with | (.ok a, s') => p.seen s ++ (f a).seen s' | (.error _, _) => p.seen s := by
  induction p generalizing s with
  | done r => cases r <;> rfl
  | write a c k ih | store a ch k ih | alloc c k ih => simp only [bind, run, seen, ih]; split <;> rfl
  | claim a ch k ih => simp only [bind, run, seen, ih]; split <;> simp only [List.append_assoc]
  | _ => simp only [bind, run, seen, *]

theorem bind_assoc {γ : Type} (p : Code V α) (f : α → Code V β) (g : β → Code V γ) : (p.bind f).bind g = p.bind fun a => (f a).bind g := by
  induction p with
  | done r => cases r <;> rfl
  | _ => simp only [bind, *]

end Code

/-- Mutating code.  `run` is a function on stores that returns a value or panics; writes made before a panic stay.
`seen` lists the writes to memory that the code makes, in order: this is what other goroutines may see while it is
running.  `trail` says that it is complete.  `code` is the same as a sequence of steps. -/
structure M (V : Type) (α : Type) where
  run : St V → R α × St V
  seen : St V → List (Write V)
  trail : ∀ s, Trail s.heap (seen s) (run s).2.heap
  code : Code V α
  runs : ∀ s, code.run s = run s
  sees : ∀ s, code.seen s = seen s

namespace M

instance {α : Type} : CoeFun (M V α) (fun _ => St V → R α × St V) := ⟨M.run⟩

/-- `return a`. -/
def ret {α : Type} (a : α) : M V α where
  run := fun s => (.ok a, s)
  seen := fun _ => []
  trail := fun _ => rfl
  code := .done (.ok a)
  runs := fun _ => rfl
  sees := fun _ => rfl

/-- Sequencing; a panic skips the rest and keeps the store. -/
def bnd {α β : Type} (m : M V α) (f : α → M V β) : M V β where
  run := fun s =>
    match m s with
    | (.ok a, s') => f a s'
    | (.error e, s') => (.error e, s')
  seen := fun s =>
    match m s with
    | (.ok a, s') => m.seen s ++ (f a).seen s'
    | (.error _, _) => m.seen s
  trail := fun s => by
    have h := m.trail s
    match hm : m s with
    | (.ok a, s') => rw [hm] at h; exact h.append ((f a).trail s')
    | (.error e, s') => rw [hm] at h; exact h
  code := m.code.bind fun a => (f a).code
  runs := fun s => by
    rw [Code.run_bind, m.runs]
    match m.run s with
    | (.ok a, s') => exact (f a).runs s'
    | (.error e, s') => rfl
  sees := fun s => by
    rw [Code.seen_bind, m.runs, m.sees]
    match m.run s with
    | (.ok a, s') => exact congrArg _ ((f a).sees s')
    | (.error e, s') => rfl

instance : Monad (M V) where
  pure := ret
  bind := bnd

/-- Raise a panic. -/
def throw {α : Type} (e : Err) : M V α where
  run := fun s => (.error e, s)
  seen := fun _ => []
  trail := fun _ => rfl
  code := .done (.error e)
  runs := fun _ => rfl
  sees := fun _ => rfl

/-- Run a computation that cannot write. -/
def lift {α : Type} (r : R α) : M V α where
  run := fun s =>
    match r with
    | .ok a => (.ok a, s)
    | .error e => (.error e, s)
  seen := fun _ => []
  trail := fun s => by cases r <;> rfl
  code := .done r
  runs := fun s => by cases r <;> rfl
  sees := fun _ => rfl

/-- Panic unless the condition holds. -/
def assert (p : Prop) [Decidable p] (e : Err) : M V Unit where
  run := fun s => if p then (.ok (), s) else (.error e, s)
  seen := fun _ => []
  trail := fun s => by split <;> rfl
  code := .done (if p then .ok () else .error e)
  runs := fun s => by by_cases h : p <;> simp [h, Code.run]
  sees := fun _ => rfl

/-- The current store. -/
def get : M V (St V) where
  run := fun s => (.ok s, s)
  seen := fun _ => []
  trail := fun _ => rfl
  code := .look fun s => .done (.ok s)
  runs := fun _ => rfl
  sees := fun _ => rfl

end M

/-- Read a node. -/
def cell (a : Addr) : M V (Cell V) where
  run := fun s => (rd s.heap a, s)
  seen := fun _ => []
  trail := fun _ => rfl
  code := .read a fun c => .done (match c with | some c => .ok c | none => .error .nilDeref)
  runs := fun s => by simp only [Code.run, rd]
  sees := fun _ => rfl
/-- Read an inner node. -/
def innerAt (a : Addr) : M V Inner where
  run := fun s => (rdInner s.heap a, s)
  seen := fun _ => []
  trail := fun _ => rfl
  code := .read a fun c => .done (match c with | some (.inner n) => .ok n | _ => .error .nilDeref)
  runs := fun s => by simp only [Code.run, rdInner]
  sees := fun _ => rfl
/-- Read a leaf. -/
def leafAt (a : Addr) : M V (LeafC V) where
  run := fun s => (rdLeaf s.heap a, s)
  seen := fun _ => []
  trail := fun _ => rfl
  code := .read a fun c => .done (match c with | some (.leaf l) => .ok l | _ => .error .nilDeref)
  runs := fun s => by simp only [Code.run, rdLeaf]
  sees := fun _ => rfl
/-- Overwrite a node in place. -/
def wr (a : Addr) (c : Cell V) : M V Unit where
  run := fun s => (.ok (), { s with heap := s.heap.set a c })
  seen := fun s => [{ addr := a, chan := false, heap := s.heap.set a c }]
  trail := fun _ => ⟨.inl ⟨c, rfl⟩, rfl⟩
  code := .write a c (.done (.ok ()))
  runs := fun _ => rfl
  sees := fun _ => rfl
/-- Set the channel of a node, and nothing else. -/
def wrCh (a : Addr) (k : ChanId) : M V Unit where
  run := fun s => (.ok (), { s with heap := setChan s.heap a k })
  seen := fun s => [{ addr := a, chan := true, heap := setChan s.heap a k }]
  trail := fun s => ⟨.inl (setChan_set s.heap a k), rfl⟩
  code := .store a k (.done (.ok ()))
  runs := fun _ => rfl
  sees := fun _ => rfl
/-- `mutateCh.CompareAndSwap(nil, &newCh)`, and, when it fails, `mutateCh.Load()`: the channel that the node has then.  As code these are
two steps (`Code.claim`, `Code.load`, see `Proc.step`); alone, nothing comes in between. -/
def claimCh (a : Addr) (k : ChanId) : M V ChanId where
  run := fun s =>
    match chanOf s.heap a with
    | none => (.ok k, { s with heap := setChan s.heap a k })
    | some j => (.ok j, s)
  seen := fun s => casSeen s.heap a k
  trail := fun s => by
    unfold casSeen
    cases chanOf s.heap a with
    | none => exact ⟨.inl (setChan_set s.heap a k), rfl⟩
    | some j => rfl
  code := .claim a k fun c => .done (.ok c)
  runs := fun s => by
    simp only [Code.run, casChan]
    cases chanOf s.heap a <;> rfl
  sees := fun s => by simp only [Code.seen, List.append_nil]

theorem claimCh_run {s : St V} {a : Addr} {c : Cell V} (hc : s.heap[a]? = some c) (hn : c.ch = none) (k : ChanId) :
    claimCh a k s = (.ok k, { s with heap := s.heap.set a (c.setCh (some k)) }) := by
  simp only [claimCh, chanOf, hc, Option.bind_some, hn, setChan]

theorem claimCh_seen {s : St V} {a : Addr} {c : Cell V} (hc : s.heap[a]? = some c) (hn : c.ch = none) (k : ChanId) :
    (claimCh a k : M V ChanId).seen s = [{ addr := a, chan := true, heap := s.heap.set a (c.setCh (some k)) }] := by
  simp only [claimCh, casSeen, chanOf, hc, Option.bind_some, hn, setChan]

/-- Allocate a node. -/
def newCell (c : Cell V) : M V Addr where
  run := fun s => (.ok s.heap.length, { s with heap := s.heap ++ [c] })
  seen := fun s => [{ addr := s.heap.length, chan := false, heap := s.heap ++ [c] }]
  trail := fun _ => ⟨.inr ⟨rfl, rfl, c, rfl⟩, rfl⟩
  code := .alloc c fun a => .done (.ok a)
  runs := fun _ => rfl
  sees := fun _ => rfl
/-- `make(chan struct{})`. -/
def newChan : M V ChanId where
  run := fun s => (.ok s.chans.length, { s with chans := s.chans ++ [false] })
  seen := fun _ => []
  trail := fun _ => rfl
  code := .make fun c => .done (.ok c)
  runs := fun _ => rfl
  sees := fun _ => rfl
/-- The transaction's own fields. -/
def txnSt : M V TxnSt where
  run := fun s => (.ok s.txn, s)
  seen := fun _ => []
  trail := fun _ => rfl
  code := .own (fun t => t) fun t => .done (.ok t)
  runs := fun _ => rfl
  sees := fun _ => rfl
/-- Assign to the transaction's own fields. -/
def modTxn (f : TxnSt → TxnSt) : M V Unit where
  run := fun s => (.ok (), { s with txn := f s.txn })
  seen := fun _ => []
  trail := fun _ => rfl
  code := .own f fun _ => .done (.ok ())
  runs := fun _ => rfl
  sees := fun _ => rfl

end Art
