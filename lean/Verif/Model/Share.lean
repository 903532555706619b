import Verif.Model.Slice
/-
Goroutines that call `Get` at the same time with slices of the same array.

`Get(key)` begins with `append(key, '$')` (tree.go:71, helpers.go:345-347), which writes to the array of the caller if the slice has
room, and then searches with the resulting slice, whose bytes it reads round by round.  So a call that only reads the tree writes to
memory that another goroutine may be reading its own key from.

The tree does not change, and the keys of its leaves are in arrays of their own.  A step of a goroutine is the `append`, or one round of
the loop of `iterativeSearch`.
-/
set_option autoImplicit false
namespace Art
variable {V : Type}

/-- tree.go:162-237: one round of `iterativeSearch`; what it returns, or the next node and depth. -/
def searchRound (h : Heap V) (key : Key) (a : Addr) (depth : Nat) : R (Hit V ⊕ Addr × Nat) := do
  let c ← rd h a
  match ← searchLeaf h a c key with
  | some hit => pure (.inl hit)
  | none =>
    let bail ← prefixBails c key depth
    if bail then do
      let r ← searchStop h a c key
      pure (.inl r)
    else if depth + c.partialLen ≥ key.length then do
      let r ← searchStop h a c key
      pure (.inl r)
    else do
      let b ← byteAt key (depth + c.partialLen)
      match ← c.findChild b with
      | (none, _) => do
        let r ← searchStop h a c key
        pure (.inl r)
      | (some child, _) => pure (.inr (child, depth + c.partialLen + 1))

/-- How far a call of `Get` has come. -/
inductive AskState (V : Type) where
  | waiting
  | running (win : Slice) (fuel : Nat) (a : Addr) (depth : Nat)
  | done (r : R (Option V))

/-- A call `t.Get(s)` of a goroutine. -/
structure Asker (V : Type) where
  t : Tree
  s : Slice
  st : AskState V

/-- One step of one goroutine. -/
def askStep (extra : Nat → Nat) (h : Heap V) (m : Mem) (p : Asker V) : Mem × Asker V :=
  match p.st with
  | .waiting =>
    ((goAppend extra m p.s 36).1, { p with st := .running (goAppend extra m p.s 36).2 ((goAppend extra m p.s 36).2.len + 1) p.t.root 0 })
  | .running win fuel a depth =>
    match fuel with
    | 0 => (m, { p with st := .done (.error .fuel) })
    | fuel + 1 =>
      match searchRound h (win.read m) a depth with
      | .error e => (m, { p with st := .done (.error e) })
      | .ok (.inl hit) => (m, { p with st := .done (.ok hit.val) })
      | .ok (.inr (a', d')) => (m, { p with st := .running win fuel a' d' })
  | .done _ => (m, p)

/-- The goroutines take steps in the order of the schedule. -/
def askRun (extra : Nat → Nat) (h : Heap V) : Mem → List (Asker V) → List Nat → Mem × List (Asker V)
  | m, ps, [] => (m, ps)
  | m, ps, j :: js =>
    match ps[j]? with
    | none => askRun extra h m ps js
    | some p => askRun extra h (askStep extra h m p).1 (ps.set j (askStep extra h m p).2) js

/-- The calls before they begin. -/
def askAll (cs : List (Tree × Slice)) : List (Asker V) := cs.map fun c => ⟨c.1, c.2, .waiting⟩

end Art
