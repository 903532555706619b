import Verif.ShareSpec
import Verif.Model.Mixed
/-
What reading calls return when they are made alone.
-/
namespace Art
variable {V : Type}

/-- The bytes that the loop of a call with the key `key` should read. -/
def AskKind.seen (k : AskKind) (key : Key) : Key := if k.appends then key ++ [36] else key

/-- The call, made alone with the bytes `key`. -/
def mixCall (h : Heap V) (k : AskKind) (t : Tree) (key : Key) : R (Answer V) :=
  match k with
  | .get => (treeGet h t key).map .value
  | .longest => (longestPrefix h t key).map .pair
  | .seek => (seekPrefix h (mkIter t.root) key).map fun r => .node r.2

end Art
