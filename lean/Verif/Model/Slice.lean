import Verif.Model.World
/-
Byte slices.  In the rest of the model a key is a list of bytes; here a key is a Go slice, a window into an array
that others may hold windows into as well.  The package appends `'$'` to the key slice it is given
(helpers.go:345-347) and stores the resulting slice in the leaf without copying it (txn.go:103, 119, 532), so that
a leaf can share its key bytes with the caller.

The state of the program is that of `World.lean` together with the arrays, and for every leaf the slice that its
`key` field holds.  Before a call the keys of the leaves are read from the arrays.

The key slices that iterators return (`getKey`, helpers.go:349-355) are windows into the arrays of the leaves; what a
caller may do with them is at the end of this file.  The capacity of a grown array is an arbitrary function of the length.
-/
set_option autoImplicit false
namespace Art
variable {V : Type}

/-- The arrays, by number. -/
abbrev Mem := List (List Byte)

/-- A slice `arr[off : off+len : off+cap]`. -/
structure Slice where
  arr : Nat
  off : Nat
  len : Nat
  cap : Nat
  deriving DecidableEq, Repr

/-- The content of an array. -/
def Mem.bytes (m : Mem) (i : Nat) : List Byte := (m[i]?).getD []

/-- The content of a slice. -/
def Slice.read (m : Mem) (s : Slice) : Key := ((m.bytes s.arr).drop s.off).take s.len

/-- Write one byte of an array. -/
def Mem.write (m : Mem) (i j : Nat) (b : Byte) : Mem := m.modify i (·.set j b)

/-- `append(s, b)`: in place if the slice has spare capacity, otherwise into a new array, which has room for
`extra s.len` more bytes. -/
def goAppend (extra : Nat → Nat) (m : Mem) (s : Slice) (b : Byte) : Mem × Slice :=
  if s.len < s.cap then (m.write s.arr (s.off + s.len) b, { s with len := s.len + 1 })
  else (m ++ [s.read m ++ [b] ++ List.replicate (extra s.len) 0],
    { arr := m.length, off := 0, len := s.len + 1, cap := s.len + 1 + extra s.len })

/-- Does the call use `getTreeKey` on its key (txn.go:88, 266, 420, tree.go:71, 81)?  `SeekPrefix` does not. -/
def Op.appends : Op V → Bool
  | .insert .. | .delete .. | .deletePrefix .. | .get .. | .getWatch .. => true
  | .txnInsert .. | .txnDelete .. | .txnDeletePrefix .. | .txnGet .. | .txnGetWatch .. => true
  | _ => false

/-- Does the call store its key in the tree? -/
def Op.stores : Op V → Bool
  | .insert .. | .txnInsert .. => true
  | _ => false

/-- The call with another key. -/
def Op.withKey (k : Key) : Op V → Op V
  | .insert t _ v => .insert t k v
  | .delete t _ => .delete t k
  | .deletePrefix t _ => .deletePrefix t k
  | .get t _ => .get t k
  | .getWatch t _ => .getWatch t k
  | .seekPrefixWatch t _ => .seekPrefixWatch t k
  | .txnInsert x _ v => .txnInsert x k v
  | .txnDelete x _ => .txnDelete x k
  | .txnDeletePrefix x _ => .txnDeletePrefix x k
  | .txnGet x _ => .txnGet x k
  | .txnGetWatch x _ => .txnGetWatch x k
  | op => op

/-- A program with its arrays: `own` are the arrays that the caller made, `held` the slices in the `key` fields of
the leaves. -/
structure Prog (V : Type) where
  w : World V
  mem : Mem
  own : List Nat
  held : Nat → Option Slice

/-- Before the first call. -/
def Prog.init : Prog V := { w := World.init, mem := [], own := [], held := fun _ => none }

/-- The leaf with the key that its slice shows now. -/
def Cell.refresh (m : Mem) (s : Option Slice) : Cell V → Cell V
  | .leaf l =>
    match s with
    | some s => .leaf { l with key := s.read m }
    | none => .leaf l
  | c => c

/-- The program with all keys read from the arrays. -/
def Prog.look (p : Prog V) (m : Mem) : World V :=
  { p.w with heap := p.w.heap.mapIdx fun a c => c.refresh m (p.held a) }

/-- The slices in the leaves after a call with the tree key `K`, held by the slice `ts` if the call is an insertion: a
leaf that was there before keeps its slice (no call writes the key of an existing leaf), a new leaf with the key `K`
holds `ts`, other new leaves are copies with an array of their own (node_leaf.go:121-132).  When txn.go:163-166 replaces the value of
a leaf, the new leaf with the key `K` is such a copy too; here it is taken to hold `ts`. -/
def heldAfter (h h' : Heap V) (held : Nat → Option Slice) (K : Key) (ts : Option Slice)
    (a : Nat) : Option Slice :=
  match h'[a]? with
  | some (.leaf l') =>
    match h[a]? with
    | some (.leaf l) => if l.key = l'.key then held a else none
    | _ => if l'.key = K then ts else none
  | _ => none

/-- A call with the slice `s` as its key. -/
def Prog.call [Inhabited V] (extra : Nat → Nat) (p : Prog V) (op : Op V) (s : Slice) : Out V × Prog V :=
  let k := s.read p.mem
  let r := if op.appends then goAppend extra p.mem s dollar else (p.mem, s)
  let w := p.look r.1
  let e := exec w (op.withKey k)
  let ts := if op.stores then some r.2 else none
  (e.1, { w := e.2, mem := r.1, own := p.own, held := heldAfter w.heap e.2.heap p.held (getTreeKey k) ts })

/-- What the caller does: make an array, write a byte of one of its arrays, make a call. -/
inductive Act (V : Type) where
  | alloc (bytes : List Byte)
  | poke (arr i : Nat) (b : Byte)
  | call (op : Op V) (s : Slice)

/-- One action; the result if it is a call. -/
def Prog.act [Inhabited V] (extra : Nat → Nat) (p : Prog V) : Act V → Option (Out V) × Prog V
  | .alloc bytes => (none, { p with mem := p.mem ++ [bytes], own := p.own ++ [p.mem.length] })
  | .poke arr i b => (none, if arr ∈ p.own then { p with mem := p.mem.write arr i b } else p)
  | .call op s => (some (p.call extra op s).1, (p.call extra op s).2)

/-- Results of the calls, and the final state. -/
def Prog.run [Inhabited V] (extra : Nat → Nat) (p : Prog V) : List (Act V) → List (Out V) × Prog V
  | [] => ([], p)
  | a :: as => ((p.act extra a).1.toList ++ ((p.act extra a).2.run extra as).1, ((p.act extra a).2.run extra as).2)

/-- The calls that an action list makes, with the keys as they are when the calls are made. -/
def Prog.calls [Inhabited V] (extra : Nat → Nat) (p : Prog V) : List (Act V) → List (Op V)
  | [] => []
  | .call op s :: as => op.withKey (s.read p.mem) :: (p.act extra (.call op s)).2.calls extra as
  | a :: as => (p.act extra a).2.calls extra as

/-- The slice is a window into an array of the caller. -/
def Prog.owns (p : Prog V) (s : Slice) : Prop :=
  s.arr ∈ p.own ∧ s.len ≤ s.cap ∧ s.off + s.cap ≤ (p.mem.bytes s.arr).length

/-- All actions are valid: every slice that is passed is a window into an array of the caller. -/
def Prog.valid [Inhabited V] (extra : Nat → Nat) (p : Prog V) : List (Act V) → Prop
  | [] => True
  | a :: as => (∀ op s, a = .call op s → p.owns s) ∧ (p.act extra a).2.valid extra as

/-! ### Keys that the package has returned -/

/-- `getKey` (helpers.go:349-355) on a slice: the capacity stays, so the returned slice has room for the `'$'`, which is
still there. -/
def Slice.getKey (s : Slice) : Slice := if s.len = 0 then s else { s with len := s.len - 1 }

/-- The leaf at `a` has an array: a leaf that was copied (node_leaf.go:121-132) has one of its own, which gets a number
when it is first needed. -/
def Prog.reveal (p : Prog V) (a : Nat) : Prog V :=
  match p.w.heap[a]?, p.held a with
  | some (.leaf l), none =>
    { p with mem := p.mem ++ [l.key],
             held := fun x => if x = a then some ⟨p.mem.length, 0, l.key.length, l.key.length⟩ else p.held x }
  | _, _ => p

/-- The key slice that iterators, `LongestPrefix` and `Walk` hand out for the leaf at `a`. -/
def Prog.kept (p : Prog V) (a : Nat) : Option Slice :=
  match p.w.heap[a]? with
  | some (.leaf _) => (p.held a).map Slice.getKey
  | _ => none

/-- What a caller may do with a key `k` that it was given for the leaf at `a`, besides the rest. -/
inductive Use (V : Type) where
  | plain (x : Act V)
  /-- make a call with `k[:n:c]` -/
  | call (op : Op V) (a n c : Nat)
  /-- `k[i] = b` -/
  | write (a i : Nat) (b : Byte)
  /-- `append(k, b)` -/
  | append (a : Nat) (b : Byte)

/-- One action; the result if it is a call. -/
def Prog.use [Inhabited V] (extra : Nat → Nat) (p : Prog V) : Use V → Option (Out V) × Prog V
  | .plain x => p.act extra x
  | .call op a n c =>
    match (p.reveal a).kept a with
    | some k => (some ((p.reveal a).call extra op { k with len := n, cap := c }).1, ((p.reveal a).call extra op { k with len := n, cap := c }).2)
    | none => (none, p)
  | .write a i b =>
    match (p.reveal a).kept a with
    | some k => (none, if i < k.len then { p.reveal a with mem := (p.reveal a).mem.write k.arr (k.off + i) b } else p)
    | none => (none, p)
  | .append a b =>
    match (p.reveal a).kept a with
    | some k => (none, { p.reveal a with mem := (goAppend extra (p.reveal a).mem k b).1 })
    | none => (none, p)

/-- Results of the calls, and the final state. -/
def Prog.uses [Inhabited V] (extra : Nat → Nat) (p : Prog V) : List (Use V) → List (Out V) × Prog V
  | [] => ([], p)
  | a :: as => ((p.use extra a).1.toList ++ ((p.use extra a).2.uses extra as).1, ((p.use extra a).2.uses extra as).2)

/-- The call that an action makes, with the key as it is when the call is made. -/
def Prog.asks [Inhabited V] (p : Prog V) : Use V → List (Op V)
  | .plain (.call op s) => [op.withKey (s.read p.mem)]
  | .call op a n c =>
    match (p.reveal a).kept a with
    | some k => [op.withKey ({ k with len := n, cap := c }.read (p.reveal a).mem)]
    | none => []
  | _ => []

/-- The calls that a list of actions makes. -/
def Prog.asksAll [Inhabited V] (extra : Nat → Nat) (p : Prog V) : List (Use V) → List (Op V)
  | [] => []
  | a :: as => p.asks a ++ (p.use extra a).2.asksAll extra as

/-- The action is valid: slices that are passed are windows into arrays of the caller or into the returned key. -/
def Prog.fine [Inhabited V] (p : Prog V) : Use V → Prop
  | .plain (.call _ s) => p.owns s
  | .call _ a n c => ∀ k, (p.reveal a).kept a = some k → n ≤ c ∧ c ≤ k.cap ∧ n ≤ k.len
  | _ => True

/-- All actions are valid. -/
def Prog.fineAll [Inhabited V] (extra : Nat → Nat) (p : Prog V) : List (Use V) → Prop
  | [] => True
  | a :: as => p.fine a ∧ (p.use extra a).2.fineAll extra as

end Art
