import Verif.Props.Isolation
import Verif.Proofs.Front
/-
C83: what `Front` and `Path` of iterators tell.
-/
set_option autoImplicit false
set_option linter.unusedVariables false
namespace Art
variable {V : Type} [Inhabited V]

/-- C83: `Front` "returns the current node that has been iterated to" (iterator.go:18, lower_bound_iterator.go:22), and
`Path` the key that the iterator was positioned with.  For calls that seek first and then step. -/
def C83_Full (V : Type) [Inhabited V] : Prop := ∀ ops : List (Op V), Ordinary ops → ∀ (i : Nat) (t : Tree) (fuel : Nat) (p : Key)
    (cs : List ItCall), treeAfter ops i = some t → (∀ c ∈ cs, ∀ q, c ≠ .seek q) →
  (∀ os o, fwdObjCalls (heapAfter ops) fuel (mkFwdObj t.root) (.seek p :: cs) = .ok (os, o) →
    ItOut.follows false os ∧ ItOut.paths os = soughtAll (.seek p :: cs) []) ∧
  (∀ os o, lowObjCalls (heapAfter ops) fuel (mkLowObj t.root) (.seek p :: cs) = .ok (os, o) →
    ItOut.follows false os ∧ ItOut.paths os = soughtAll (.seek p :: cs) [])

/-- What the calls return on the tree of the example. -/
def busyFwd : List ItCall → List (ItOut Nat) := fun cs =>
  match fwdObjCalls (heapAfter busy) 20 (mkFwdObj (treeOf busy 3).root) cs with | .ok r => r.1 | .error _ => []
def busyLow : List ItCall → List (ItOut Nat) := fun cs =>
  match lowObjCalls (heapAfter busy) 20 (mkLowObj (treeOf busy 3).root) cs with | .ok r => r.1 | .error _ => []

/-- The iterator has returned foo, and `Front` is nil. -/
theorem C83_false : ¬ C83_Full Nat := fun h => by
  have h1 : busyFwd [.seek kFoo, .next, .front] = [.pair (some (kFoo, 1)), .node none] := by decide +kernel
  unfold busyFwd at h1
  have h2 := (h busy ⟨by decide +kernel, by decide +kernel⟩ 3 (treeOf busy 3) 20 kFoo [.next, .front] (by decide +kernel) (by simp)).1
  split at h1
  · next r hr =>
    have h3 := (h2 r.1 r.2 hr).1
    rw [h1] at h3
    exact h3.1 rfl rfl
  · cases h1

/-- `Path` of a lower bound iterator is not the bound that was asked for, but has a `'$'` at the end. -/
theorem C83_path_false : ¬ C83_Full Nat := fun h => by
  have h1 : busyLow [.seek kFoo, .path] = [.text (kFoo ++ [36])] := by decide +kernel
  unfold busyLow at h1
  have h2 := (h busy ⟨by decide +kernel, by decide +kernel⟩ 3 (treeOf busy 3) 20 kFoo [.path] (by decide +kernel) (by simp)).2
  split at h1
  · next r hr =>
    have h3 := (h2 r.1 r.2 hr).2
    rw [h1] at h3
    exact absurd h3 (by decide)
  · cases h1

/-- `Front` of a new iterator is nil, whatever calls are made on it before, in any memory. -/
theorem C83_front (h : Heap V) (fuel : Nat) (a : Addr) (cs : List ItCall) :
    (∀ os o, fwdObjCalls h fuel (mkFwdObj a) cs = .ok (os, o) → ∀ f ∈ ItOut.fronts os, f = none) ∧
    (∀ os o, lowObjCalls h fuel (mkLowObj a) cs = .ok (os, o) → ∀ f ∈ ItOut.fronts os, f = none) :=
  ⟨fun os o e => (fwdObjCalls_obs cs _ o os e).1, fun os o e => (lowObjCalls_obs cs _ o os e).1⟩

example : ItOut.fronts (busyFwd [.front, .seek [], .next, .front, .next, .next, .front, .next, .front]) = [none, none, none, none] := by decide +kernel
example : busyFwd [.seek [], .next, .next, .next, .next] =
    [.pair (some (kA, 3)), .pair (some (kFoo, 1)), .pair (some (kFoobar, 2)), .pair none] := by decide +kernel

/-- So the function with which the tests ask whether a tree has closed channels answers "no" for every tree. -/
theorem C83_helper (h : Heap V) (chans : List Bool) (fuel rounds : Nat) (t : Tree) (b : Bool)
    (e : hasAnyClosedMutateCh h chans fuel rounds t = .ok b) : b = false := hasAnyClosed_false chans rounds t b e

/-- A tree whose root is watched, and whose channel is then closed by a transaction with tracking. -/
def shutRoot : List (Op Nat) := [.newTree, .getWatch 0 kA, .begin 0, .trackMutate 0 true, .txnInsert 0 kA 1, .commit 0]

example : nodeClosed (heapAfter shutRoot) (execAll World.init shutRoot).2.chans (treeOf shutRoot 0).root = .ok true ∧
    hasAnyClosedMutateCh (heapAfter shutRoot) (execAll World.init shutRoot).2.chans 10 10 (treeOf shutRoot 0) = .ok false := by decide +kernel

/-- C83, for `Path`: a forward iterator returns the prefix of the last seek; a lower bound iterator the last bound that was
not empty, with the `'$'` that the package appends.  Any memory, any sequence of calls. -/
theorem C83_partial (h : Heap V) (fuel : Nat) (a : Addr) (cs : List ItCall) :
    (∀ os o, fwdObjCalls h fuel (mkFwdObj a) cs = .ok (os, o) → ItOut.paths os = soughtAll cs []) ∧
    (∀ os o, lowObjCalls h fuel (mkLowObj a) cs = .ok (os, o) → ItOut.paths os = boundAll cs []) :=
  ⟨fun os o e => (fwdObjCalls_obs cs _ o os e).2, fun os o e => (lowObjCalls_obs cs _ o os e).2⟩

example : ItOut.paths (busyFwd [.path, .seek kA, .path, .next, .path]) = [[], kA, kA] ∧
    ItOut.paths (busyLow [.path, .seek kA, .path, .next, .seek [], .path]) = [[], kA ++ [36], kA ++ [36]] := by decide +kernel

end Art
