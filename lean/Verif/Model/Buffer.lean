import Verif.Model.Slice
/-
Iterators whose prefix lies in an array of the caller.

`SeekPrefix` stores the slice that it is given (iterator.go:109, also for reverse iterators), and `Next` and `Previous`
read it again with every call.  `SeekReverseLowerBound` (reverse_iterator.go:49-50) and `PathIterator` (node_4.go:74-80,
...) store what `getTreeKey` returns, which is a window into the same array if the slice has room for the `'$'`.
(`SeekLowerBound` stores it too, lower_bound_iterator.go:160, but `Next` of this iterator does not read it.)
-/
set_option autoImplicit false
namespace Art
variable {V : Type}

/-- What a caller does while it holds the iterator: call `Next` (or `Previous`), or write byte `j` of array `i`. -/
inductive BufAct where
  | next
  | write (i j : Nat) (b : Byte)
  deriving DecidableEq, Repr

/-- The results of `Next`; each call reads the window `win` as it is then. -/
def holdActs {σ : Type} (next : σ → R (Option (Key × V) × σ)) (aim : σ → Key → σ) (win : Slice) :
    Mem → σ → List BufAct → R (List (Option (Key × V)))
  | _, _, [] => .ok []
  | m, it, .next :: as => do
    let r ← next (aim it (win.read m))
    let rest ← holdActs next aim win m r.2 as
    pure (r.1 :: rest)
  | m, it, .write i j b :: as => holdActs next aim win (m.write i j b) it as

/-- A new forward iterator, positioned with `SeekPrefix(s)`. -/
def fwdBuf (h : Heap V) (fuel : Nat) (a : Addr) (m : Mem) (s : Slice) (acts : List BufAct) : R (List (Option (Key × V))) := do
  let r ← seekPrefix h (mkIter a) (s.read m)
  holdActs (iterNext h fuel) (fun it k => { it with path := k }) s m r.1 acts

/-- A new reverse iterator, positioned with `SeekPrefix(s)`. -/
def revBuf (h : Heap V) (fuel : Nat) (a : Addr) (m : Mem) (s : Slice) (acts : List BufAct) : R (List (Option (Key × V))) := do
  let r ← revSeekPrefix h (mkRevIter a) (s.read m)
  holdActs (revPrevious h fuel) (fun it k => { it with path := k }) s m r acts

/-- A new reverse iterator, positioned with `SeekReverseLowerBound(s)`; `x` as in `revCmp`. -/
def revLowBuf (extra : Nat → Nat) (h : Heap V) (fuel : Nat) (a : Addr) (x : Key) (m : Mem) (s : Slice) (acts : List BufAct) :
    R (List (Option (Key × V))) := do
  let r ← seekReverseLowerBound h (mkRevIter a) (s.read m) x
  holdActs (revPrevious h fuel) (fun it k => { it with path := k }) (goAppend extra m s 36).2 (goAppend extra m s 36).1 r acts

/-- `PathIterator(s)`. -/
def pathBuf (extra : Nat → Nat) (h : Heap V) (fuel : Nat) (t : Tree) (m : Mem) (s : Slice) (acts : List BufAct) : R (List (Option (Key × V))) :=
  holdActs (pathNext h fuel) (fun it k => { it with path := k }) (goAppend extra m s 36).2 (goAppend extra m s 36).1
    (getPathIterator t (s.read m)) acts

end Art
