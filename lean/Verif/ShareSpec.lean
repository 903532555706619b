import Verif.BufferSpec
import Verif.Model.Share
/-
When calls of `Get` with slices of one array disturb each other.
-/
namespace Art

/-- Appending a byte to `s` overwrites a byte of `s'`. -/
def Slice.spoils (s s' : Slice) : Prop :=
  s.len < s.cap ∧ s.arr = s'.arr ∧ s'.off ≤ s.off + s.len ∧ s.off + s.len < s'.off + s'.len

instance (s s' : Slice) : Decidable (s.spoils s') := inferInstanceAs (Decidable (_ ∧ _))

/-- A slice of an array that exists. -/
def Slice.Real (s : Slice) (m : Mem) : Prop := s.arr < m.length ∧ s.Lies m

instance (s : Slice) (m : Mem) : Decidable (s.Real m) := inferInstanceAs (Decidable (_ ∧ _))

end Art
