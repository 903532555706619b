import Verif.Model.Print
/-
What is said about printing a tree.
-/
set_option autoImplicit false
namespace Art
variable {V : Type}

/-- From the node `r` one comes to the node `a` in `n` steps from a node to a child in one of its slots. -/
inductive Under (h : Heap V) (r : Addr) : Nat → Addr → Prop where
  | here : Under h r 0 r
  | child {k : Nat} {a b : Addr} {n : Inner} : Under h r k a → h[a]? = some (.inner n) → some b ∈ n.children → Under h r (k + 1) b

/-- Nodes without a channel may have got one. -/
structure Lit (s s' : St V) : Prop where
  len : s'.heap.length = s.heap.length
  cell : ∀ (a : Addr) c, s.heap[a]? = some c → ∃ k, s'.heap[a]? = some (c.setCh k) ∧ ∀ x, c.ch = some x → k = some x
  chans : ∃ n, s'.chans = s.chans ++ List.replicate n false
  txn : s'.txn = s.txn

/-- The line says what is stored in the node. -/
structure Line.Of (h : Heap V) (x : Line) : Prop where
  cell : ∃ c, h[x.node]? = some c ∧ x.id = c.id ∧ x.kind = c.kind ∧ x.key = c.key ∧ x.part = c.part ∧ x.numCh = c.numChildren ∧ x.keys = c.keys
  leaf : ∀ c, h[x.node]? = some c → match c.nodeLeaf with
    | none => x.leaf = none
    | some b => ∃ l k, h[b]? = some (.leaf l) ∧ x.leaf = some (l.key, k)

/-- The line says which channels the node and its leaf have. -/
structure Line.Shows (h : Heap V) (x : Line) : Prop where
  ch : chanOf h x.node = some x.ch
  leaf : ∀ c, h[x.node]? = some c → ∀ b, c.nodeLeaf = some b → ∃ k, x.leaf.map Prod.snd = some k ∧ chanOf h b = some k

/-- The nodes below the given slots, with their depths: slot by slot, each node before the nodes below it. -/
inductive Listed (h : Heap V) : Nat → List (Option Addr) → List (Addr × Nat) → Prop where
  | nil {d : Nat} : Listed h d [] []
  | empty {d : Nat} {rest : List (Option Addr)} {l : List (Addr × Nat)} : Listed h d rest l → Listed h d (none :: rest) l
  | leaf {d : Nat} {a : Addr} {x : LeafC V} {rest : List (Option Addr)} {l : List (Addr × Nat)} :
      h[a]? = some (.leaf x) → Listed h d rest l → Listed h d (some a :: rest) ((a, d) :: l)
  | inner {d : Nat} {a : Addr} {n : Inner} {rest : List (Option Addr)} {l l' : List (Addr × Nat)} :
      h[a]? = some (.inner n) → Listed h (d + 1) n.children l → Listed h d rest l' → Listed h d (some a :: rest) ((a, d) :: (l ++ l'))

/-- What is printed below the node `a` at depth `d`. -/
structure Printed (h h' : Heap V) (a : Addr) (d : Nat) (l : List Line) : Prop where
  head : ∃ x r, l = x :: r ∧ x.node = a ∧ x.depth = d
  order : Listed h d [some a] (l.map fun x => (x.node, x.depth))
  sound : ∀ x ∈ l, ∃ n, Under h a n x.node ∧ x.depth = d + n
  complete : ∀ n b, Under h a n b → ∃ x ∈ l, x.node = b ∧ x.depth = d + n
  of : ∀ x ∈ l, x.Of h
  shows : ∀ x ∈ l, x.Shows h'

end Art
