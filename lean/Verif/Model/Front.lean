import Verif.Model.Handle
/-
The two methods of iterators that tell where they are: `Front` and `Path`, and the function of the tests that relies on
the first.
-/
set_option autoImplicit false
namespace Art
variable {V : Type}

/-- A call on an iterator, of either kind. -/
inductive ItCall where
  | seek (p : Key)
  | next
  | front
  | path
  deriving DecidableEq, Repr

/-- What the calls return: the pair of `Next` (`none` for false), the node of `Front` (`none` for nil), the string of
`Path`. -/
inductive ItOut (V : Type) where
  | pair (r : Option (Key × V))
  | node (a : Option Addr)
  | text (s : Key)
  deriving DecidableEq, Repr

/-- iterator.go:9-16 with the field `pos`.  (`depth` is neither read nor written.) -/
structure FwdObj where
  it : Iter
  pos : Option Addr
  deriving DecidableEq, Repr

/-- node_4.go:68-72, ...: the literal sets the field `node` only. -/
def mkFwdObj (a : Addr) : FwdObj := { it := mkIter a, pos := none }

/-- iterator.go:18-147.  `Path` is `string(i.path)`; `i.path` is the slice that was given to `SeekPrefix`, whose bytes the
caller is assumed not to change.  No method assigns to `pos`. -/
def fwdObjCalls (h : Heap V) (fuel : Nat) : FwdObj → List ItCall → R (List (ItOut V) × FwdObj)
  | o, [] => .ok ([], o)
  | o, .seek p :: cs => do
    let r ← seekPrefix h o.it p
    fwdObjCalls h fuel { o with it := r.1 } cs
  | o, .next :: cs => do
    let r ← iterNext h fuel o.it
    let q ← fwdObjCalls h fuel { o with it := r.2 } cs
    pure (.pair r.1 :: q.1, q.2)
  | o, .front :: cs => do
    let q ← fwdObjCalls h fuel o cs
    pure (.node o.pos :: q.1, q.2)
  | o, .path :: cs => do
    let q ← fwdObjCalls h fuel o cs
    pure (.text o.it.path :: q.1, q.2)

/-- lower_bound_iterator.go:13-20 with the fields `path` and `pos`. -/
structure LowObj where
  it : LowIter
  path : Key
  pos : Option Addr
  deriving DecidableEq, Repr

/-- node_4.go:207-211, ... -/
def mkLowObj (a : Addr) : LowObj := { it := mkLowIter a, path := [], pos := none }

/-- lower_bound_iterator.go:22-358.  `SeekLowerBound` of the empty bound returns in line 129, before line 160 assigns to
`i.path`; the other bounds are stored with the `'$'` of `getTreeKey`. -/
def lowObjCalls (h : Heap V) (fuel : Nat) : LowObj → List ItCall → R (List (ItOut V) × LowObj)
  | o, [] => .ok ([], o)
  | o, .seek q :: cs => do
    let r ← lowSeek h o.it q
    lowObjCalls h fuel { o with it := r, path := if q.length = 0 then o.path else getTreeKey q } cs
  | o, .next :: cs => do
    let r ← lbNext h fuel o.it.stack
    let q ← lowObjCalls h fuel { o with it := { o.it with stack := r.2 } } cs
    pure (.pair r.1 :: q.1, q.2)
  | o, .front :: cs => do
    let q ← lowObjCalls h fuel o cs
    pure (.node o.pos :: q.1, q.2)
  | o, .path :: cs => do
    let q ← lowObjCalls h fuel o cs
    pure (.text o.path :: q.1, q.2)

/-- Is the channel of the node closed?  (A node without a channel gets an open one.) -/
def nodeClosed (h : Heap V) (chans : List Bool) (a : Addr) : R Bool := do
  let c ← rd h a
  match c.ch with
  | none => pure false
  | some ch => pure (chans.getD ch false)

/-- tree_test.go:1196-1210 `hasAnyClosedMutateCh`, the loop: `for ; iter.Front() != nil; iter.Next()`. -/
def closedLoop (h : Heap V) (chans : List Bool) (fuel : Nat) : Nat → FwdObj → R Bool
  | 0, _ => .error .fuel
  | rounds + 1, o =>
    match o.pos with
    | none => .ok false
    | some a => do
      let b ← nodeClosed h chans a
      if b then pure true
      else do
        let r ← iterNext h fuel o.it
        closedLoop h chans fuel rounds { o with it := r.2 }

/-- tree_test.go:1196-1210 `hasAnyClosedMutateCh`.  The second test of the loop body (line 1204) repeats the first. -/
def hasAnyClosedMutateCh (h : Heap V) (chans : List Bool) (fuel rounds : Nat) (t : Tree) : R Bool := do
  let r ← iterNext h fuel (mkIter t.root)
  closedLoop h chans fuel rounds { mkFwdObj t.root with it := r.2 }

end Art
