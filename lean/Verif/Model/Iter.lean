import Verif.Model.Tree
/-
iterator.go, path_iter.go, lower_bound_iterator.go, reverse_iterator.go.

A stack is a list whose head is the element popped next.  An entry is `none` for a nil interface value.
The loops `for len(stack) > 0` take an explicit bound (`fuel`).
-/
namespace Art
variable {V : Type}

/-! ### Iterator (iterator.go) -/

/-- iterator.go:9-16; `pos`, `depth` are never read. -/
structure Iter where
  path : Key
  node : Option Addr
  stack : List (Option Addr)
  seenMismatch : Bool
  deriving DecidableEq, Repr, Inhabited

/-- `node.Iterator()` (node_4.go:68-72, ...): no stack. -/
def mkIter (a : Addr) : Iter := { path := [], node := some a, stack := [], seenMismatch := false }

/-- The children a forward iterator pushes for an inner node, in the order in which they will be popped:
iterator.go:43-45, 52-54 (all of the first `numChildren` slots, nil included), 61-71, 78-84. -/
def Inner.iterChildren (n : Inner) : List (Option Addr) :=
  match n.kind with
  | .n4 | .n16 => n.children.take n.numChildren.toNat
  | .n48 => (compact48 n).filterMap fun p => p.2.map some
  | .n256 => n.children.filterMap fun c => c.map some

/-- iterator.go:27-99 `Iterator.Next`. -/
def iterNext (h : Heap V) : Nat → Iter → R (Option (Key × V) × Iter)
  | 0, _ => .error .fuel
  | fuel + 1, it =>
    match it.stack with
    | [] => .ok (none, it)
    | none :: rest => .ok (none, { it with stack := rest })
    | some a :: rest => do
      match ← rd h a with
      | .leaf l =>                                                    -- iterator.go:88-95
        let it' := { it with stack := rest }
        if l.key.length ≠ 0 ∧ hasPrefixB l.key it.path ∧ hasPrefix l.key it.path then
          pure (some (getKey l.key, l.value), it')
        else iterNext h fuel it'
      | .inner n =>
        let it' := { it with stack := n.iterChildren ++ rest }
        match n.leaf with
        | none => iterNext h fuel it'
        | some l =>
          let lc ← rdLeaf h l
          if hasPrefix lc.key it.path then pure (some (getKey lc.key, lc.value), it')
          else iterNext h fuel it'

/-- Call `Next` until it returns false; the results in order. -/
def iterCollect (h : Heap V) : Nat → Iter → R (List (Key × V))
  | 0, _ => .error .fuel
  | fuel + 1, it => do
    let (r, it') ← iterNext h (fuel + 1) it
    match r with
    | none => pure []
    | some kv =>
      let rest ← iterCollect h fuel it'
      pure (kv :: rest)

/-- iterator.go:121-131: compare the compressed prefix; does the loop stop here, and the new depth. -/
def seekStep (h : Heap V) (a : Addr) (c : Cell V) (pre : Key) (depth : Nat) : R (Bool × Nat) :=
  if !c.isLeaf ∧ c.partialLen > 0 then (do
    let mismatchIdx ← prefixMismatch h a pre pre.length depth
    pure (if mismatchIdx < c.partialLen then (true, depth) else (false, depth + c.partialLen)))
  else pure (false, depth)

/-- iterator.go:117-156: the loop of `SeekPrefix`; the result is the node it stops at. -/
def seekLoop (h : Heap V) (pre : Key) : Nat → Addr → Nat → R Addr
  | 0, _, _ => .error .fuel
  | fuel + 1, a, depth => do
    let c ← rd h a
    let (stop, depth) ← seekStep h a c pre depth
    if stop then pure a
    else if depth ≥ pre.length then pure a
    else
      let b ← byteAt pre depth
      match ← c.findChild b with
      | (none, _) => pure a
      | (some child, _) => seekLoop h pre fuel child (depth + 1)

/-- iterator.go:106-157 `SeekPrefix`: the iterator positioned, and the node returned. -/
def seekPrefix (h : Heap V) (it : Iter) (pre : Key) : R (Iter × Addr) :=
  match it.node with
  | none => .error .nilDeref
  | some a => do
    let n ← seekLoop h pre (pre.length + 1) a 0
    pure ({ it with path := pre, node := some n, stack := [some n] }, n)

/-- iterator.go:101-104 `SeekPrefixWatch`: `SeekPrefix`, then the channel of the node it returned. -/
def seekPrefixWatch (it : Iter) (pre : Key) : M V (Iter × ChanId) := do
  let s ← M.get
  let (it', a) ← M.lift (seekPrefix s.heap it pre)
  let ch ← getMutateCh a
  pure (it', ch)

/-! ### PathIterator (path_iter.go) -/

/-- path_iter.go:9-14. -/
structure PathIter where
  path : Key
  stack : List Addr
  deriving DecidableEq, Repr

/-- tree.go:60-62 `GetPathIterator`, node_4.go:74-80 `PathIterator`. -/
def getPathIterator (t : Tree) (path : Key) : PathIter := { path := getTreeKey path, stack := [t.root] }

/-- node_leaf.go:84-93 `prefixContainsMatch`. -/
def prefixContainsMatch (leafKey key : Key) : Bool :=
  if key.length = 0 ∨ leafKey.length = 0 then false else hasPrefixB (getKey key) (getKey leafKey)

/-- The non-nil children in the order in which `PathIterator` will pop them: path_iter.go:39-49, 55-65,
71-85, 91-101. -/
def Inner.pathChildren (n : Inner) : List Addr :=
  match n.kind with
  | .n4 | .n16 => (n.children.take n.numChildren.toNat).filterMap _root_.id
  | .n48 => (compact48 n).filterMap (·.2)
  | .n256 => n.children.filterMap _root_.id

/-- path_iter.go:16-108 `PathIterator.Next`. -/
def pathNext (h : Heap V) : Nat → PathIter → R (Option (Key × V) × PathIter)
  | 0, _ => .error .fuel
  | fuel + 1, it =>
    match it.stack with
    | [] => .ok (none, it)
    | a :: rest => do
      match ← rd h a with
      | .leaf l =>
        let it' := { it with stack := rest }
        if prefixContainsMatch l.key it.path then pure (some (getKey l.key, l.value), it')
        else pathNext h fuel it'
      | .inner n =>
        pathNext h fuel { it with stack := n.leaf.toList ++ n.pathChildren ++ rest }

/-- Call `Next` until it returns false. -/
def pathCollect (h : Heap V) : Nat → PathIter → R (List (Key × V))
  | 0, _ => .error .fuel
  | fuel + 1, it => do
    let (r, it') ← pathNext h (fuel + 1) it
    match r with
    | none => pure []
    | some kv =>
      let rest ← pathCollect h fuel it'
      pure (kv :: rest)

/-! ### LowerBoundIterator (lower_bound_iterator.go) -/

/-- lower_bound_iterator.go:31-98 `Next`: as `Iterator.Next` without the prefix filter. -/
def lbNext (h : Heap V) : Nat → List (Option Addr) → R (Option (Key × V) × List (Option Addr))
  | 0, _ => .error .fuel
  | fuel + 1, stack =>
    match stack with
    | [] => .ok (none, [])
    | none :: rest => .ok (none, rest)
    | some a :: rest => do
      match ← rd h a with
      | .leaf l => pure (some (getKey l.key, l.value), rest)
      | .inner n =>
        match n.leaf with
        | none => lbNext h fuel (n.iterChildren ++ rest)
        | some l =>
          let lc ← rdLeaf h l
          pure (some (getKey lc.key, lc.value), n.iterChildren ++ rest)

/-- Call `Next` until it returns false. -/
def lbCollect (h : Heap V) : Nat → List (Option Addr) → R (List (Key × V))
  | 0, _ => .error .fuel
  | fuel + 1, st => do
    let (r, st') ← lbNext h (fuel + 1) st
    match r with
    | none => pure []
    | some kv =>
      let rest ← lbCollect h fuel st'
      pure (kv :: rest)

/-- The key of the node leaf of node `a`, if any. -/
def nodeLeafKey (h : Heap V) (a : Addr) : R (Option Key) := do
  let c ← rd h a
  match c.nodeLeaf with
  | none => pure none
  | some l =>
    let lc ← rdLeaf h l
    pure (some lc.key)

/-- lower_bound_iterator.go:134-150 `found` (and the tests of 192-199): push the node unless its leaf is
below the bound. -/
def lbPush (h : Heap V) (path : Key) (a : Addr) (stack : List (Option Addr)) : R (List (Option Addr)) := do
  match ← nodeLeafKey h a with
  | none => pure (some a :: stack)
  | some k => pure (if geBytes k path then some a :: stack else stack)

/-- lower_bound_iterator.go:200-203, 213-217, 223-227, 255-259: push the parent's leaf if it is not below
the bound. -/
def lbPushParent (h : Heap V) (path : Key) (parent : Option Addr) (stack : List (Option Addr)) :
    R (List (Option Addr)) :=
  match parent with
  | none => .ok stack
  | some p => do
    let c ← rd h p
    match c.nodeLeaf with
    | none => pure stack
    | some l =>
      let lc ← rdLeaf h l
      pure (if geBytes lc.key path then some l :: stack else stack)

/-- lower_bound_iterator.go:279-289, 308-320, 328-340: push the children with indices `lo .. numChildren-1`,
the largest first.  With `strict`, a nil child is dereferenced (line 281). -/
def lbPushChildren (h : Heap V) (path : Key) (c : Cell V) (lo : Nat) (strict : Bool) :
    Nat → List (Option Addr) → R (List (Option Addr))
  | 0, stack => .ok stack
  | k + 1, stack =>                       -- itr = k
    if k < lo then .ok stack
    else do
      match ← c.getChild k with
      | none => if strict then .error .nilDeref else lbPushChildren h path c lo strict k stack
      | some ch =>
        let stack ← lbPush h path ch stack
        lbPushChildren h path c lo strict k stack

/-- `s[lo:hi]` with the bounds check of Go (`hi` up to the capacity, here the length). -/
def goSlice (s : Key) (lo hi : Nat) : R Key :=
  if lo ≤ hi ∧ hi ≤ s.length then .ok ((s.take hi).drop lo) else .error .index

/-- lower_bound_iterator.go:179-186: compare the node's prefix with the bound. -/
def lbCmp (c : Cell V) (prefix' : Key) (depth : Nat) : R Ordering :=
  if c.isLeaf then .ok .eq
  else do
    let part ← goSlice c.part 0 c.partialLen
    let q ← goSlice prefix' depth
      (if c.partialLen < prefix'.length then min prefix'.length (depth + c.partialLen) else prefix'.length)
    pure (cmpBytes part q)

/-- lower_bound_iterator.go:192-203, 222-227, 247-259: push the node, then its parent's leaf. -/
def lbPushBoth (h : Heap V) (path : Key) (a : Addr) (parent : Option Addr) (stack : List (Option Addr)) :
    R (List (Option Addr)) := do
  let stack ← lbPush h path a stack
  lbPushParent h path parent stack

/-- lower_bound_iterator.go:233-244: skip the node's prefix: stop?, the new `seenMismatch`, the new depth. -/
def lbSkip (h : Heap V) (a : Addr) (c : Cell V) (prefix' : Key) (seen : Bool) (depth : Nat) :
    R (Bool × Bool × Nat) :=
  match c with
  | .leaf _ => .ok (false, seen, depth)
  | .inner n => do
    let mismatchIdx ← prefixMismatch h a prefix' prefix'.length depth
    pure (if mismatchIdx < n.partialLen ∧ !seen then (true, seen, depth)
      else (false, seen || mismatchIdx > 0, depth + n.partialLen))

/-- lower_bound_iterator.go:273-296: no child is at or above the bound but a mismatch was seen before. -/
def lbNoChild (h : Heap V) (path : Key) (a : Addr) (c : Cell V) (lk : Option Key) (parent : Option Addr)
    (stack : List (Option Addr)) : R (List (Option Addr)) := do
  let stack ← match lk with
    | some k => .ok (if geBytes k path then some a :: stack else stack)
    | none => lbPushChildren h path c 0 true c.numChildren.toNat stack
  match parent with
  | none => .error .nilDeref
  | some _ => lbPushParent h path parent stack

/-- lower_bound_iterator.go:299-326: everything below the node is above the bound. -/
def lbTakeAll (h : Heap V) (path : Key) (a : Addr) (c : Cell V) (lk : Option Key) (parent : Option Addr)
    (stack : List (Option Addr)) : R (List (Option Addr)) := do
  let stack ← if lk.any (fun k => geBytes k path) then .ok (some a :: stack)
    else lbPushChildren h path c 0 false c.numChildren.toNat stack
  lbPushParent h path parent stack

/-- lower_bound_iterator.go:298: the parent's leaf key, if there is a parent with a leaf. -/
def parentLeafKey (h : Heap V) (parent : Option Addr) : R (Option Key) :=
  match parent with
  | none => .ok none
  | some p => nodeLeafKey h p

/-- lower_bound_iterator.go:168-356: the loop of `SeekLowerBound`. -/
def lbLoop (h : Heap V) (prefix' : Key) :
    Nat → Option Addr → Option Addr → Nat → Bool → List (Option Addr) → R (List (Option Addr))
  | 0, _, _, _, _, _ => .error .fuel
  | fuel + 1, node, parent, depth, seen, stack =>
    match node with
    | none =>                                                         -- 172-177
      match parent with
      | none => .ok stack
      | some p => do
        let c ← rd h p
        match c.nodeLeaf with
        | none => pure stack
        | some l => pure (some l :: stack)
    | some a => do
      let c ← rd h a
      let prefixCmp ← lbCmp c prefix' depth                           -- 179-186
      if prefixCmp = .gt ∧ !seen then lbPushBoth h prefix' a parent stack        -- 188-207
      else if prefixCmp = .lt ∧ !seen then lbPushParent h prefix' parent stack   -- 209-219
      else do
        let lk ← nodeLeafKey h a
        if c.isLeaf ∧ lk.any (fun k => geBytes k prefix') then        -- 221-229
          lbPushBoth h prefix' a parent stack
        else do
          let (stop, seen, depth) ← lbSkip h a c prefix' seen depth   -- 233-244
          if stop then pure stack
          else if depth ≥ prefix'.length then lbPushBoth h prefix' a parent stack   -- 246-261
          else do
            let b ← byteAt prefix' depth
            let idx0 ← c.getLowerBoundCh b
            if idx0 = -1 ∧ !seen then pure stack                      -- 265-267
            else if idx0 = -1 then lbNoChild h prefix' a c lk parent stack          -- 273-296
            else do
              let idx : Nat := if seen then 0 else idx0.toNat         -- 269-271
              let parentLeaf ← parentLeafKey h parent
              if seen ∧ parentLeaf.isSome then lbTakeAll h prefix' a c lk parent stack  -- 298-326
              else do
                let stack ← lbPushChildren h prefix' c (idx + 1) false c.numChildren.toNat stack  -- 328-340
                let kb ← c.getKeyAtIdx idx                            -- 342-344
                let child ← c.getChild idx
                lbLoop h prefix' fuel child (some a) (depth + 1) (seen || (kb != b)) stack

/-- lower_bound_iterator.go:122-358 `SeekLowerBound`: the stack it leaves. -/
def seekLowerBound (h : Heap V) (root : Addr) (prefixKey : Key) : R (List (Option Addr)) :=
  if prefixKey.length = 0 then .ok [some root]
  else lbLoop h (getTreeKey prefixKey) ((getTreeKey prefixKey).length + 1) (some root) none 0 false []

/-! ### ReverseIterator (reverse_iterator.go) -/

/-- reverse_iterator.go:9-21.  `stack = none` is the nil slice of an iterator that was never positioned. -/
structure RevIter where
  path : Key
  node : Option Addr
  stack : Option (List (Option Addr))
  expanded : List Addr
  deriving DecidableEq, Repr

/-- `node.ReverseIterator()` (node_4.go:187-194, ...). -/
def mkRevIter (a : Addr) : RevIter := { path := [], node := some a, stack := none, expanded := [] }

/-- The children a reverse iterator pushes, in the order in which they will be popped (largest byte first):
reverse_iterator.go:226-228, 243-245, 260-270, 285-291. -/
def Inner.revChildren (n : Inner) : List (Option Addr) :=
  n.iterChildren.reverse

/-- Read an optional leaf. -/
def leafOf (h : Heap V) (l : Option Addr) : R (Option (Addr × LeafC V)) :=
  match l with
  | none => pure none
  | some l => do
    let lc ← rdLeaf h l
    pure (some (l, lc))

/-- reverse_iterator.go:217-221, 234-238, 251-255, 276-280: push the node's leaf if it is not above the
bound. -/
def revLeafPush (path : Key) (lf : Option (Addr × LeafC V)) (rest : List (Option Addr)) : List (Option Addr) :=
  match lf with
  | some (l, lc) => if leBytes lc.key path ∨ path.length = 0 then some l :: rest else rest
  | none => rest

/-- reverse_iterator.go:200-297: the loop of `Previous`. -/
def revNext (h : Heap V) (path : Key) (expanded : List Addr) :
    Nat → List (Option Addr) → R (Option (Key × V) × List (Option Addr))
  | 0, _ => .error .fuel
  | fuel + 1, stack =>
    match stack with
    | [] => .ok (none, [])
    | none :: rest => .ok (none, rest)
    | some a :: rest => do
      match ← rd h a with
      | .leaf l =>
        if leBytes (getKey l.key) (getKey path) then pure (some (getKey l.key, l.value), rest)
        else revNext h path expanded fuel rest
      | .inner n =>
        let lf ← leafOf h n.leaf
        if expanded.contains a then revNext h path expanded fuel (revLeafPush path lf rest)
        else
          match lf with
          | some (_, lc) =>
            if hasPrefix (getKey lc.key) path then
              pure (some (getKey lc.key, lc.value), n.revChildren ++ revLeafPush path lf rest)
            else revNext h path expanded fuel (n.revChildren ++ revLeafPush path lf rest)
          | none => revNext h path expanded fuel (n.revChildren ++ revLeafPush path lf rest)

/-- reverse_iterator.go:187-298 `Previous`. -/
def revPrevious (h : Heap V) (fuel : Nat) (it : RevIter) : R (Option (Key × V) × RevIter) := do
  let stack := match it.stack, it.node with
    | some s, _ => s
    | none, some a => [some a]
    | none, none => []
  let (r, stack') ← revNext h it.path it.expanded fuel stack
  pure (r, { it with stack := some stack' })

/-- Call `Previous` until it returns false. -/
def revCollect (h : Heap V) : Nat → RevIter → R (List (Key × V))
  | 0, _ => .error .fuel
  | fuel + 1, it => do
    let (r, it') ← revPrevious h (fuel + 1) it
    match r with
    | none => pure []
    | some kv =>
      let rest ← revCollect h fuel it'
      pure (kv :: rest)

/-- reverse_iterator.go:23-32 `SeekPrefix` of a reverse iterator (delegates to the forward iterator). -/
def revSeekPrefix (h : Heap V) (it : RevIter) (pre : Key) : R RevIter :=
  match it.node with
  | none => .error .nilDeref
  | some a => do
    let n ← seekLoop h pre (pre.length + 1) a 0
    pure { it with path := pre, node := some n, stack := some [some n] }

/-- reverse_iterator.go:69-74: compare the node's prefix with the bound.  `extra` are the bytes of the
backing array of `prefix` past its length, which `prefix[depth:depth+n]` (line 71) can reach. -/
def revCmp (c : Cell V) (prefix' extra : Key) (depth : Nat) : R Ordering := do
  let part ← goSlice c.part 0 c.partialLen
  let q ← if c.partialLen < prefix'.length then goSlice (prefix' ++ extra) depth (depth + c.partialLen)
    else goSlice prefix' depth prefix'.length
  pure (cmpBytes part q)

/-- reverse_iterator.go:90-99, 132-141: push the node's own leaf. -/
def revPushLeaf (c : Cell V) (stack : List (Option Addr)) : List (Option Addr) :=
  match c.nodeLeaf with
  | some l => some l :: stack
  | none => stack

/-- reverse_iterator.go:105-123: a leaf at or below the bound ends the descent. -/
def revLeafDone (c : Cell V) (lk : Option Key) (key : Key) : R Bool :=
  if c.isLeaf then
    match lk with
    | none => .error .nilDeref
    | some k => .ok (leBytes (getKey k) key)
  else .ok false

/-- reverse_iterator.go:129-144: skip the node's prefix: stop?, the new `seenMismatch`, the new depth. -/
def revSkip (h : Heap V) (a : Addr) (c : Cell V) (prefix' : Key) (seen : Bool) (depth : Nat) :
    R (Bool × Bool × Nat) :=
  if c.partialLen > 0 then do
    let mismatchIdx ← prefixMismatch h a prefix' prefix'.length depth
    pure (if mismatchIdx < c.partialLen ∧ !seen then (true, seen, depth)
      else (false, seen || mismatchIdx > 0, depth + c.partialLen))
  else .ok (false, seen, depth)

/-- reverse_iterator.go:155-163: the child to descend into (before lines 165-167) and the new
`seenMismatch`. -/
def revPick (c : Cell V) (prefix' : Key) (depth : Nat) (seen : Bool) : R (Int × Bool) := do
  let b ← byteAt prefix' depth
  let idx ← c.getLowerBoundCh b
  let idx : Int := if idx = -1 ∨ depth = prefix'.length - 1 then (c.numChildren.toNat : Int) - 1 else idx
  if idx ≥ 0 then do
    let kb ← c.getKeyAtIdx idx.toNat
    pure (idx, seen || (kb != b))
  else pure (idx, seen)

/-- reverse_iterator.go:64-183: the loop of `SeekReverseLowerBound`.  The result is the stack and the
expanded parents. -/
def revLoop (h : Heap V) (key prefix' extra : Key) :
    Nat → Option Addr → Nat → Bool → List (Option Addr) → List Addr → R (List (Option Addr) × List Addr)
  | 0, _, _, _, _, _ => .error .fuel
  | fuel + 1, node, depth, seen, stack, expanded =>
    match node with
    | none => .ok (stack, expanded)
    | some a => do
      let c ← rd h a
      let prefixCmp ← revCmp c prefix' extra depth                    -- 69-74
      if prefixCmp = .lt then pure (some a :: stack, expanded)        -- 76-88
      else if prefixCmp = .gt ∧ !seen then pure (revPushLeaf c stack, expanded)  -- 90-99
      else do
        let lk ← nodeLeafKey h a
        let done ← revLeafDone c lk key                               -- 105-123
        if done then pure (some a :: stack, expanded)
        else do
          let (stop, seen, depth) ← revSkip h a c prefix' seen depth  -- 129-144
          if stop then pure (revPushLeaf c stack, expanded)
          else if depth ≥ prefix'.length then pure (some a :: stack, expanded)  -- 146-149
          else do
            let stack := if c.nodeLeaf.isSome then some a :: stack else stack   -- 151-153
            let (idx, seen) ← revPick c prefix' depth seen            -- 155-163
            let idx : Int := if seen then (c.numChildren.toNat : Int) - 1 else idx  -- 165-167
            let chs ← (List.range idx.toNat).mapM (fun (i : Nat) => c.getChild i)   -- 169-173
            let stack := (chs.filterMap (fun (o : Option Addr) => o.map some)).reverse ++ stack
            if idx = -1 then pure (stack, expanded)                   -- 175-177
            else do
              let child ← c.getChild idx
              revLoop h key prefix' extra fuel child (depth + 1) seen stack (a :: expanded)

/-- reverse_iterator.go:38-185 `SeekReverseLowerBound`. -/
def seekReverseLowerBound (h : Heap V) (it : RevIter) (key extra : Key) : R RevIter := do
  let (stack, expanded) ← revLoop h key (getTreeKey key) extra ((getTreeKey key).length + 1) it.node 0 false
    [] it.expanded
  pure { path := getTreeKey key, node := none, stack := some stack, expanded := expanded }

end Art
