import Verif.Props.Negations
import Verif.Proofs.Slices
/-
C39: the array behind a key slice that a caller passes in.
-/
set_option autoImplicit false
namespace Art
variable {V : Type}

/-- C39: no call changes an array of the caller, and the calls answer as if every key had been copied when the call
was made, whatever the caller wrote into its arrays later.  `extra` is how much `append` over-allocates. -/
def C39_Full (V : Type) [Inhabited V] : Prop := ∀ (extra : Nat → Nat) (acts : List (Act V)),
  (Prog.init : Prog V).valid extra acts →
  (Prog.init.run extra acts).1 = (execAll World.init (Prog.init.calls extra acts)).1 ∧
  ∀ op s, (Prog.init.run extra acts).2.owns s → ∀ i ∈ (Prog.init.run extra acts).2.own,
    ((Prog.init.run extra acts).2.call extra op s).2.mem.bytes i = (Prog.init.run extra acts).2.mem.bytes i

/-- An array "abX", and a call with the slice "ab" of it. -/
def bufActs : List (Act Nat) := [.alloc (ascii ['a', 'b', 'X']), .call .newTree ⟨0, 0, 0, 0⟩]

/-- `Get` with the first two bytes of "abX" overwrites the third by `'$'`. -/
theorem C39_false : ¬ C39_Full Nat := fun h => by
  have h2 := (h (fun _ => 0) bufActs
    ⟨nofun, fun _ s hs => by cases hs; exact ⟨by decide +kernel, by decide +kernel, by decide +kernel⟩, trivial⟩).2
    (.get 0 []) ⟨0, 0, 2, 3⟩ ⟨by decide +kernel, by decide +kernel, by decide +kernel⟩ 0 (by decide +kernel)
  exact absurd h2 (by decide +kernel)

/-- Insert "ab" from the array "abX", then overwrite the array by "cbX": the tree has lost "ab" and has "cb". -/
def bufActs2 : List (Act Nat) :=
  bufActs ++ [.call (.insert 0 [] 7) ⟨0, 0, 2, 3⟩, .poke 0 0 (Char.toNat 'c').toUInt8,
    .alloc (ascii ['a', 'b']), .call (.get 1 []) ⟨1, 0, 2, 2⟩]

theorem C39_false_later : ∃ acts : List (Act Nat), (Prog.init : Prog Nat).valid (fun _ => 0) acts ∧
    (Prog.init.run (fun _ => 0) acts).1 ≠ (execAll World.init (Prog.init.calls (fun _ => 0) acts)).1 :=
  ⟨bufActs2, by
    refine ⟨nofun, fun _ s hs => ?_, fun _ s hs => ?_, nofun, nofun, fun _ s hs => ?_, trivial⟩ <;> cases hs <;>
      exact ⟨by decide +kernel, by decide +kernel, by decide +kernel⟩, by decide +kernel⟩

/-- C39 for callers that pass slices without spare capacity (`s[:len(s):len(s)]`, or a literal converted to a
slice of its exact size).  Missing for the full statement: slices with spare capacity, for which it is false. -/
theorem C39_partial [Inhabited V] (extra : Nat → Nat) (acts : List (Act V)) (hv : (Prog.init : Prog V).valid extra acts)
    (ht : tight acts) :
    (Prog.init.run extra acts).1 = (execAll World.init (Prog.init.calls extra acts)).1 ∧
    ∀ op s, (Prog.init.run extra acts).2.owns s → s.len = s.cap → ∀ i ∈ (Prog.init.run extra acts).2.own,
      ((Prog.init.run extra acts).2.call extra op s).2.mem.bytes i = (Prog.init.run extra acts).2.mem.bytes i :=
  have h := Apart.run extra acts _ Apart.init hv ht
  ⟨h.1, fun op s hs hl => (h.2.call extra op s hs hl).2.2.2.1⟩

/-- Insert "ab" from an array of that size, overwrite the array, ask for "ab" again: the hypotheses hold, and the
value is found. -/
def tightActs : List (Act Nat) :=
  [.alloc (ascii ['a', 'b']), .call .newTree ⟨0, 0, 0, 0⟩, .call (.insert 0 [] 7) ⟨0, 0, 2, 2⟩,
    .poke 0 0 120, .alloc (ascii ['a', 'b']), .call (.get 1 []) ⟨2, 0, 2, 2⟩]

example : (Prog.init : Prog Nat).valid (fun _ => 3) tightActs ∧ tight tightActs ∧
    (Prog.init.run (fun _ => 3) tightActs).1 = [.done, .updated 0 false, .value (some 7)] := by
  refine ⟨?_, ?_, by decide +kernel⟩
  · refine ⟨nofun, fun _ s hs => ?_, fun _ s hs => ?_, nofun, nofun, fun _ s hs => ?_, trivial⟩ <;> cases hs <;>
      exact ⟨by decide +kernel, by decide +kernel, by decide +kernel⟩
  · intro op s hm
    simp only [tightActs, List.mem_cons, Act.call.injEq, reduceCtorEq, false_or, List.not_mem_nil, or_false] at hm
    rcases hm with ⟨-, rfl⟩ | ⟨-, rfl⟩ | ⟨-, rfl⟩ <;> rfl

end Art
