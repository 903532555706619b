import Verif.Model.World
/-
Printing a tree.
-/
namespace Art
variable {V : Type}

/-- What `DFSPrintTreeUtil` prints about one node: the indentation counts the depth, `kind` is the number of the node's type (`none` for
`leafType`).  The channels are printed as pointers. -/
structure Line where
  node : Addr
  depth : Nat
  id : Nat
  kind : Option Kind
  key : Key
  part : List Byte
  numCh : UInt8
  keys : List Byte
  ch : ChanId
  leaf : Option (Key × ChanId)
  deriving DecidableEq

/-- `getArtNodeType` (node_4.go:39-41, ..., node_leaf.go:35-37). -/
def Cell.kind : Cell V → Option Kind
  | .leaf _ => none
  | .inner n => some n.kind

/-- `getKeys` (node_4.go:147-149, node_16.go:147-149, node_48.go:156-158; nil for node_256.go:146-148 and node_leaf.go:150-152). -/
def Cell.keys : Cell V → List Byte
  | .leaf _ => []
  | .inner n => match n.kind with
    | .n256 => []
    | _ => n.keys

/-- tree.go:366-369: the leaf of the node. -/
def printLeaf : Option Addr → M V (Option (Key × ChanId))
  | none => pure none
  | some a => do
    let l ← leafAt a
    let k ← getMutateCh a
    pure (some (l.key, k))

/-- tree.go:370-374: all children that are not nil. -/
def printChildren (rec : Addr → M V (List Line)) : List (Option Addr) → M V (List Line)
  | [] => pure []
  | none :: rest => printChildren rec rest
  | some a :: rest => do
    let l1 ← rec a
    let l2 ← printChildren rec rest
    pure (l1 ++ l2)

/-- tree.go:355-375 `DFSPrintTreeUtil`.  The first argument bounds the recursion depth. -/
def printNode : Nat → Addr → Nat → M V (List Line)
  | 0, _, _ => M.throw .fuel
  | fuel + 1, a, depth => do
    let c ← cell a
    let k ← getMutateCh a
    let lf ← printLeaf c.nodeLeaf
    let l ← printChildren (fun b => printNode fuel b (depth + 1)) c.children
    pure ({ node := a, depth := depth, id := c.id, kind := c.kind, key := c.key, part := c.part, numCh := c.numChildren, keys := c.keys,
            ch := k, leaf := lf } :: l)

/-- tree.go:377-379 `DFSPrintTree`. -/
def treePrint (t : Tree) : M V (List Line) := do
  let s ← M.get
  printNode (s.heap.length + 1) t.root 0

end Art
