import Verif.MixedSpec
import Verif.Model.Rounds
/-
What reading calls return when they are made alone.
-/
namespace Art
variable {V : Type}

/-- A reading call of the API on a tree. -/
inductive ReadCall where
  | mixed (k : AskKind) (t : Tree)
  | lower (t : Tree)
  deriving DecidableEq, Repr

/-- The tree that the call reads. -/
def ReadCall.tree : ReadCall → Tree
  | .mixed _ t => t
  | .lower t => t

/-- The call, made alone with the bytes `key`. -/
def ReadCall.alone (h : Heap V) (c : ReadCall) (key : Key) : R (Reply V) :=
  match c with
  | .mixed k t => (mixCall h k t key).map .answer
  | .lower t => (seekLowerBound h t.root key).map .stack

/-- The steps of the call, made with the slice `s`. -/
def ReadCall.steps (h : Heap V) (c : ReadCall) (s : Slice) : Reading (Reply V) :=
  match c with
  | .mixed k t => mixReading h k t
  | .lower t => lowReading h t.root s.len

/-- The call appends to a slice of length `n`. -/
def ReadCall.appends (c : ReadCall) (n : Nat) : Bool :=
  match c with
  | .mixed k _ => k.appends
  | .lower _ => n != 0

end Art
