import Verif.Model.Iter
/-
Iterators as the caller holds them: objects that can be positioned and stepped any number of times, in any order.
`Iter.lean` has the single methods; here are the fields that one call leaves behind for the next one.
-/
set_option autoImplicit false
namespace Art
variable {V : Type}

/-! ### Iterator (iterator.go) -/

/-- A call on a forward iterator. -/
inductive FwdCall where
  | seek (p : Key)
  | next

/-- Forward iterators: the pairs that the calls of `Next` return (`none` for false), and the iterator afterwards.
`SeekPrefix` starts at the node where the call before it stopped (iterator.go:107, 127, 138, 147). -/
def fwdCalls (h : Heap V) (fuel : Nat) : Iter → List FwdCall → R (List (Option (Key × V)) × Iter)
  | it, [] => .ok ([], it)
  | it, .seek p :: cs => do
    let r ← seekPrefix h it p
    fwdCalls h fuel r.1 cs
  | it, .next :: cs => do
    let r ← iterNext h fuel it
    let rest ← fwdCalls h fuel r.2 cs
    pure (r.1 :: rest.1, rest.2)

/-! ### LowerBoundIterator (lower_bound_iterator.go) -/

/-- lower_bound_iterator.go:13-20.  `path` and `seenMismatch` are set by each call of `SeekLowerBound` that reads them,
`depth` and `pos` are never read. -/
structure LowIter where
  node : Option Addr
  stack : List (Option Addr)
  deriving DecidableEq, Repr

/-- `node.LowerBoundIterator()` (node_4.go:207-211, ...). -/
def mkLowIter (a : Addr) : LowIter := { node := some a, stack := [] }

/-- lower_bound_iterator.go:168-356: the loop of `SeekLowerBound` as `lbLoop`, with a second result: whether it set `i.node`
to nil (line 212). -/
def lowLoop (h : Heap V) (prefix' : Key) :
    Nat → Option Addr → Option Addr → Nat → Bool → List (Option Addr) → R (List (Option Addr) × Bool)
  | 0, _, _, _, _, _ => .error .fuel
  | fuel + 1, node, parent, depth, seen, stack =>
    match node with
    | none =>
      match parent with
      | none => .ok (stack, false)
      | some p => do
        let c ← rd h p
        match c.nodeLeaf with
        | none => pure (stack, false)
        | some l => pure (some l :: stack, false)
    | some a => do
      let c ← rd h a
      let prefixCmp ← lbCmp c prefix' depth
      if prefixCmp = .gt ∧ !seen then do
        let stack ← lbPushBoth h prefix' a parent stack
        pure (stack, false)
      else if prefixCmp = .lt ∧ !seen then do
        let stack ← lbPushParent h prefix' parent stack
        pure (stack, true)                                            -- 212
      else do
        let lk ← nodeLeafKey h a
        if c.isLeaf ∧ lk.any (fun k => geBytes k prefix') then do
          let stack ← lbPushBoth h prefix' a parent stack
          pure (stack, false)
        else do
          let (stop, seen, depth) ← lbSkip h a c prefix' seen depth
          if stop then pure (stack, false)
          else if depth ≥ prefix'.length then do
            let stack ← lbPushBoth h prefix' a parent stack
            pure (stack, false)
          else do
            let b ← byteAt prefix' depth
            let idx0 ← c.getLowerBoundCh b
            if idx0 = -1 ∧ !seen then pure (stack, false)
            else if idx0 = -1 then do
              let stack ← lbNoChild h prefix' a c lk parent stack
              pure (stack, false)
            else do
              let idx : Nat := if seen then 0 else idx0.toNat
              let parentLeaf ← parentLeafKey h parent
              if seen ∧ parentLeaf.isSome then do
                let stack ← lbTakeAll h prefix' a c lk parent stack
                pure (stack, false)
              else do
                let stack ← lbPushChildren h prefix' c (idx + 1) false c.numChildren.toNat stack
                let kb ← c.getKeyAtIdx idx
                let child ← c.getChild idx
                lowLoop h prefix' fuel child (some a) (depth + 1) (seen || (kb != b)) stack

/-- lower_bound_iterator.go:122-358 `SeekLowerBound`. -/
def lowSeek (h : Heap V) (it : LowIter) (prefixKey : Key) : R LowIter :=
  if prefixKey.length = 0 then .ok { it with stack := [it.node] }
  else do
    let r ← lowLoop h (getTreeKey prefixKey) ((getTreeKey prefixKey).length + 1) it.node none 0 false []
    pure { node := if r.2 then none else it.node, stack := r.1 }

/-- A call on a lower bound iterator. -/
inductive LowCall where
  | seek (q : Key)
  | next

/-- Lower bound iterators. -/
def lowCalls (h : Heap V) (fuel : Nat) : LowIter → List LowCall → R (List (Option (Key × V)) × LowIter)
  | it, [] => .ok ([], it)
  | it, .seek q :: cs => do
    let r ← lowSeek h it q
    lowCalls h fuel r cs
  | it, .next :: cs => do
    let r ← lbNext h fuel it.stack
    let rest ← lowCalls h fuel { it with stack := r.2 } cs
    pure (r.1 :: rest.1, rest.2)

/-! ### ReverseIterator (reverse_iterator.go) -/

/-- A call on a reverse iterator; `extra` as in `revCmp`. -/
inductive RevCall where
  | seekPrefix (p : Key)
  | seekLower (q extra : Key)
  | previous

/-- Reverse iterators. -/
def revCalls (h : Heap V) (fuel : Nat) : RevIter → List RevCall → R (List (Option (Key × V)) × RevIter)
  | it, [] => .ok ([], it)
  | it, .seekPrefix p :: cs => do
    let r ← revSeekPrefix h it p
    revCalls h fuel r cs
  | it, .seekLower q extra :: cs => do
    let r ← seekReverseLowerBound h it q extra
    revCalls h fuel r cs
  | it, .previous :: cs => do
    let r ← revPrevious h fuel it
    let rest ← revCalls h fuel r.2 cs
    pure (r.1 :: rest.1, rest.2)

/-! ### Iterators that are held for some time -/

/-- Calls on one iterator, each with the memory as it is at the time of the call. -/
def overCalls {σ κ α : Type} (calls : Heap V → σ → List κ → R (List α × σ)) : σ → List (Heap V × κ) → R (List α × σ)
  | it, [] => .ok ([], it)
  | it, hc :: rest => do
    let r ← calls hc.1 it [hc.2]
    let q ← overCalls calls r.2 rest
    pure (r.1 ++ q.1, q.2)

end Art
