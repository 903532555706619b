import Verif.Model.Mixed
/-
Goroutines that make reading calls of any kind at the same time, with slices of the same array.  A call is described by
what it does: whether it appends `'$'` to its slice, what it reads before its loop, and a round of the loop, given the bytes of its
slice at that moment.  The calls here are those of `Model/Mixed.lean` and `SeekLowerBound`.
-/
set_option autoImplicit false
namespace Art
variable {V ρ : Type}

/-- A reading call that returns a `ρ`; `σ` is what its loop keeps from one round to the next. -/
structure Reading (ρ : Type) : Type 1 where
  σ : Type
  appends : Bool
  start : R σ
  round : Key → σ → R (ρ ⊕ σ)

/-- How far a call has come. -/
inductive ReadState (σ ρ : Type) where
  | waiting
  | running (win : Slice) (fuel : Nat) (x : σ)
  | done (r : R ρ)

/-- A call of a goroutine with the slice `s`. -/
structure Reader (ρ : Type) : Type 1 where
  call : Reading ρ
  s : Slice
  st : ReadState call.σ ρ

/-- The slice that the loop reads, and the memory once it is made. -/
def readWindow (extra : Nat → Nat) (m : Mem) (b : Bool) (s : Slice) : Mem × Slice :=
  if b then goAppend extra m s 36 else (m, s)

/-- The state in which the loop begins. -/
def readBegin {σ : Type} (r : R σ) (win : Slice) : ReadState σ ρ :=
  match r with
  | .error e => .done (.error e)
  | .ok x => .running win (win.len + 1) x

/-- The state after a round. -/
def readNext {σ : Type} (win : Slice) (fuel : Nat) (r : R (ρ ⊕ σ)) : ReadState σ ρ :=
  match r with
  | .error e => .done (.error e)
  | .ok (.inl r) => .done (.ok r)
  | .ok (.inr x) => .running win fuel x

/-- One step of one goroutine: the beginning of the call, or a round. -/
def readStep (extra : Nat → Nat) (m : Mem) (p : Reader ρ) : Mem × Reader ρ :=
  match p.st with
  | .waiting =>
    ((readWindow extra m p.call.appends p.s).1, ⟨p.call, p.s, readBegin p.call.start (readWindow extra m p.call.appends p.s).2⟩)
  | .running _ 0 _ => (m, ⟨p.call, p.s, .done (.error .fuel)⟩)
  | .running win (fuel + 1) x => (m, ⟨p.call, p.s, readNext win fuel (p.call.round (win.read m) x)⟩)
  | .done _ => (m, p)

/-- The goroutines take steps in the order of the schedule. -/
def readRun (extra : Nat → Nat) : Mem → List (Reader ρ) → List Nat → Mem × List (Reader ρ)
  | m, ps, [] => (m, ps)
  | m, ps, j :: js =>
    match ps[j]? with
    | none => readRun extra m ps js
    | some p => readRun extra (readStep extra m p).1 (ps.set j (readStep extra m p).2) js

/-- The calls before they begin. -/
def readAll (cs : List (Reading ρ × Slice)) : List (Reader ρ) := cs.map fun c => ⟨c.1, c.2, .waiting⟩

/-! ### The calls -/

/-- What the calls return; for `SeekLowerBound`, the stack that the iterator is left with. -/
inductive Reply (V : Type) where
  | answer (r : Answer V)
  | stack (l : List (Option Addr))
  deriving DecidableEq, Repr

/-- `Get`, `LongestPrefix`, `SeekPrefix` (`Model/Mixed.lean`). -/
def mixReading (h : Heap V) (k : AskKind) (t : Tree) : Reading (Reply V) where
  σ := Addr × Nat × Option Addr
  appends := k.appends
  start := (mixStart h k t).bind fun last => .ok (t.root, 0, last)
  round := fun key x => (mixRound h k key x.1 x.2.1 x.2.2).bind fun
    | .inl r => .ok (.inl (.answer r))
    | .inr q => .ok (.inr q)

/-- What the loop of `SeekLowerBound` keeps: node, parent, depth, `seenMismatch`, stack. -/
abbrev LowState := Option Addr × Option Addr × Nat × Bool × List (Option Addr)

/-- lower_bound_iterator.go:168-356: one round of `SeekLowerBound`. -/
def lbRound (h : Heap V) (prefix' : Key) (x : LowState) : R (List (Option Addr) ⊕ LowState) :=
  match x with
  | (node, parent, depth, seen, stack) =>
    match node with
    | none =>                                                         -- 172-177
      match parent with
      | none => .ok (.inl stack)
      | some p => do
        let c ← rd h p
        match c.nodeLeaf with
        | none => pure (.inl stack)
        | some l => pure (.inl (some l :: stack))
    | some a => do
      let c ← rd h a
      let prefixCmp ← lbCmp c prefix' depth                           -- 179-186
      if prefixCmp = .gt ∧ !seen then (lbPushBoth h prefix' a parent stack).map .inl        -- 188-207
      else if prefixCmp = .lt ∧ !seen then (lbPushParent h prefix' parent stack).map .inl   -- 209-219
      else do
        let lk ← nodeLeafKey h a
        if c.isLeaf ∧ lk.any (fun k => geBytes k prefix') then        -- 221-229
          (lbPushBoth h prefix' a parent stack).map .inl
        else do
          let (stop, seen, depth) ← lbSkip h a c prefix' seen depth   -- 233-244
          if stop then pure (.inl stack)
          else if depth ≥ prefix'.length then (lbPushBoth h prefix' a parent stack).map .inl   -- 246-261
          else do
            let b ← byteAt prefix' depth
            let idx0 ← c.getLowerBoundCh b
            if idx0 = -1 ∧ !seen then pure (.inl stack)                      -- 265-267
            else if idx0 = -1 then (lbNoChild h prefix' a c lk parent stack).map .inl          -- 273-296
            else do
              let idx : Nat := if seen then 0 else idx0.toNat         -- 269-271
              let parentLeaf ← parentLeafKey h parent
              if seen ∧ parentLeaf.isSome then (lbTakeAll h prefix' a c lk parent stack).map .inl  -- 298-326
              else do
                let stack ← lbPushChildren h prefix' c (idx + 1) false c.numChildren.toNat stack  -- 328-340
                let kb ← c.getKeyAtIdx idx                            -- 342-344
                let child ← c.getChild idx
                pure (.inr (child, some a, depth + 1, seen || (kb != b), stack))

/-- lower_bound_iterator.go:122-358 `SeekLowerBound` with a slice of length `n`; nothing is appended to an empty one (127-130). -/
def lowReading (h : Heap V) (root : Addr) (n : Nat) : Reading (Reply V) where
  σ := LowState
  appends := n != 0
  start := .ok (some root, none, 0, false, [])
  round := fun key x =>
    if n = 0 then .ok (.inl (.stack [some root]))
    else (lbRound h key x).bind fun
      | .inl l => .ok (.inl (.stack l))
      | .inr q => .ok (.inr q)

end Art
