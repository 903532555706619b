import Verif.Model.Front
/-
What `Front` and `Path` of an iterator should return.
-/
namespace Art
variable {V : Type}

/-- What each call of `Path` should return: the key of the last seek before it. -/
def soughtAll : List ItCall → Key → List Key
  | [], _ => []
  | .seek p :: cs, _ => soughtAll cs p
  | .path :: cs, d => d :: soughtAll cs d
  | _ :: cs, d => soughtAll cs d

/-- What `Path` of a lower bound iterator returns: the last bound that was not empty, with its `'$'`. -/
def boundAll : List ItCall → Key → List Key
  | [], _ => []
  | .seek q :: cs, d => boundAll cs (if q = [] then d else q ++ [36])
  | .path :: cs, d => d :: boundAll cs d
  | _ :: cs, d => boundAll cs d

/-- The results of `Front`. -/
def ItOut.fronts : List (ItOut V) → List (Option Addr)
  | [] => []
  | .node a :: os => a :: fronts os
  | _ :: os => fronts os

/-- The results of `Path`. -/
def ItOut.paths : List (ItOut V) → List Key
  | [] => []
  | .text s :: os => s :: paths os
  | _ :: os => paths os

/-- After each call of `Next` that returned a pair, and before the next call that moves the iterator, `Front` is not nil. -/
def ItOut.follows : Bool → List (ItOut V) → Prop
  | _, [] => True
  | _, .pair r :: os => follows r.isSome os
  | b, .node a :: os => (b = true → a ≠ none) ∧ follows b os
  | b, .text _ :: os => follows b os

end Art
