import Verif.Spec
import Verif.Model.Leak
/-
Which calls are ordinary use when programs may also write through the tree that `Txn.GetTree` returns.
-/
namespace Art
variable {V : Type}

/-- The call does not write to a transaction that was committed, or that had made nodes when it was copied with `Txn.Clone`
or its private tree was used for a writing call. -/
def World.permits (w : World V) : LeakCall V → Bool
  | .api op => w.allows op
  | .leak .. => true

/-- The transaction that the call writes to.  Calls on private trees write to none: they make a new tree or transaction. -/
def LeakCall.writes : LeakCall V → Option Nat
  | .api op => op.writes
  | .leak .. => none

/-- Every call is of this kind at the moment it is made. -/
def Polite [Inhabited V] : World V → List (LeakCall V) → Prop
  | _, [] => True
  | w, c :: cs => w.permits c = true ∧ Polite (execCall w c).2 cs

instance [Inhabited V] : (w : World V) → (cs : List (LeakCall V)) → Decidable (Polite w cs)
  | _, [] => isTrue trivial
  | w, c :: cs =>
    have := instDecidablePolite (execCall w c).2 cs
    inferInstanceAs (Decidable (w.permits c = true ∧ Polite (execCall w c).2 cs))

end Art
