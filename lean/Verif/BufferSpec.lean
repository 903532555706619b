import Verif.Model.Buffer
/-
What the calls should return: what they return when nobody writes to the array.
-/
namespace Art
variable {V : Type}

/-- The results of so many calls of `Next`. -/
def nextN {σ : Type} (next : σ → R (Option (Key × V) × σ)) : σ → Nat → R (List (Option (Key × V)))
  | _, 0 => .ok []
  | it, n + 1 => do
    let r ← next it
    let rest ← nextN next r.2 n
    pure (r.1 :: rest)

/-- How often `Next` is called. -/
def stepsOf : List BufAct → Nat
  | [] => 0
  | .next :: as => stepsOf as + 1
  | .write .. :: as => stepsOf as

/-- A slice that lies in its array. -/
def Slice.Lies (s : Slice) (m : Mem) : Prop := s.len ≤ s.cap ∧ s.off + s.cap ≤ (m.bytes s.arr).length

instance (s : Slice) (m : Mem) : Decidable (s.Lies m) := inferInstanceAs (Decidable (_ ∧ _))

/-- The write is outside the window. -/
def BufAct.misses (s : Slice) : BufAct → Prop
  | .next => True
  | .write i j _ => i ≠ s.arr ∨ j < s.off ∨ s.off + s.len ≤ j

/-- The write is to an array that existed when the iterator was made. -/
def BufAct.known (m : Mem) : BufAct → Prop
  | .next => True
  | .write i _ _ => i < m.length

end Art
