import Verif.Props.Negations
import Verif.Proofs.Kept
/-
C81: the key slices that the package returns.  An iterator returns `getKey(leaf.key)` (helpers.go:349-355), which is a window into the
array of the leaf, and the byte behind it is the `'$'` of the leaf.
-/
set_option autoImplicit false
set_option linter.unusedVariables false
namespace Art
variable {V : Type} [Inhabited V]

/-- C81, in full: whatever a caller does with the keys that it was given (write to them, append to them, pass them or parts of them to
calls), all calls answer as if every key had been copied. -/
def C81_Full (V : Type) [Inhabited V] : Prop := ∀ (extra : Nat → Nat) (us : List (Use V)), (Prog.init : Prog V).fineAll extra us →
  (Prog.init.uses extra us).1 = (execAll World.init (Prog.init.asksAll extra us)).1

/-- A tree with the key "foobar". -/
def keptActs : List (Use Nat) :=
  [.plain (.alloc (ascii ['f', 'o', 'o', 'b', 'a', 'r'])), .plain (.call .newTree ⟨0, 0, 0, 0⟩), .plain (.call (.insert 0 [] 7) ⟨0, 0, 6, 6⟩)]

/-- `Get("foobar")`. -/
def askAgain : List (Use Nat) := [.plain (.call (.get 1 []) ⟨0, 0, 6, 6⟩)]

/-- The iterator returns that key; it comes from the leaf at address 4. -/
example : (do
      let p := (Prog.init.uses (fun _ => 0) keptActs).2
      let t ← p.w.trees[1]?
      ((iterPrefix p.w.heap t [] 20).toOption.map fun l => (l, p.kept 4, p.w.heap.length))) =
    some ([(ascii ['f', 'o', 'o', 'b', 'a', 'r'], 7)], some ⟨1, 0, 6, 7⟩, 5) := by decide +kernel

/-- It is enough to ask the package about a part of the returned key: `Get(k[:3])` writes `'$'` over the fourth byte of the key in the
tree, and "foobar" is lost. -/
def keptPart : List (Use Nat) := keptActs ++ [.call (.get 1 []) 4 3 7] ++ askAgain

/-- All actions up to a use of the returned key are valid. -/
theorem keptActs_fine (us : List (Use Nat)) (h : (Prog.init.uses (fun _ => 0) keptActs).2.fineAll (fun _ => 0) us) :
    (Prog.init : Prog Nat).fineAll (fun _ => 0) (keptActs ++ us) :=
  ⟨trivial, ⟨by decide +kernel, by decide +kernel, by decide +kernel⟩, ⟨by decide +kernel, by decide +kernel, by decide +kernel⟩, h⟩

theorem keptPart_fine : (Prog.init : Prog Nat).fineAll (fun _ => 0) keptPart :=
  keptActs_fine _ ⟨fun k hk => by
    have e : ((Prog.init.uses (fun _ => 0) keptActs).2.reveal 4).kept 4 = some ⟨1, 0, 6, 7⟩ := by decide +kernel
    cases e.symm.trans hk
    decide, ⟨by decide +kernel, by decide +kernel, by decide +kernel⟩, trivial⟩

theorem C81_false : ¬ C81_Full Nat := fun h => absurd (h (fun _ => 0) keptPart keptPart_fine) (by decide +kernel)

/-- So does `append(k, 'x')`. -/
theorem C81_append_false : ∃ us : List (Use Nat), (Prog.init : Prog Nat).fineAll (fun _ => 0) us ∧
    (Prog.init.asksAll (fun _ => 0) us).getLast? = some (.get 1 (ascii ['f', 'o', 'o', 'b', 'a', 'r'])) ∧
    (∀ u ∈ us, ∀ op a n c, u ≠ .call op a n c) ∧ (∀ u ∈ us, ∀ a i b, u ≠ .write a i b) ∧
    (Prog.init.uses (fun _ => 0) us).1.getLast? = some (.value none) ∧
    (execAll World.init (Prog.init.asksAll (fun _ => 0) us)).1.getLast? = some (.value (some 7)) :=
  ⟨keptActs ++ .append 4 120 :: askAgain, keptActs_fine _ ⟨trivial, ⟨by decide +kernel, by decide +kernel, by decide +kernel⟩, trivial⟩,
    by decide +kernel, by simp [keptActs, askAgain], by simp [keptActs, askAgain], by decide +kernel, by decide +kernel⟩

/-- Writing to the returned key changes the key in the tree. -/
theorem C81_write_false : ∃ us : List (Use Nat), (Prog.init : Prog Nat).fineAll (fun _ => 0) us ∧
    (Prog.init.asksAll (fun _ => 0) us).getLast? = some (.get 1 (ascii ['f', 'o', 'o', 'b', 'a', 'r'])) ∧
    (∀ u ∈ us, ∀ op a n c, u ≠ .call op a n c) ∧ (∀ u ∈ us, ∀ a b, u ≠ .append a b) ∧
    (Prog.init.uses (fun _ => 0) us).1.getLast? = some (.value none) ∧
    (execAll World.init (Prog.init.asksAll (fun _ => 0) us)).1.getLast? = some (.value (some 7)) :=
  ⟨keptActs ++ .write 4 0 120 :: askAgain, keptActs_fine _ ⟨trivial, ⟨by decide +kernel, by decide +kernel, by decide +kernel⟩, trivial⟩,
    by decide +kernel, by simp [keptActs, askAgain], by simp [keptActs, askAgain], by decide +kernel, by decide +kernel⟩

/-- C81 for callers that only read the keys that they are given and pass them to calls as a whole (`Get(k)`, `Insert(k, v)`), or cut to a
capacity without room (`Get(k[:n:n])`); their own slices have no room either (as in C39).  All calls answer as if the keys had been
copied, and passing a returned key changes no array.  Missing for the full statement: parts of a returned key with the rest as room, `append`, and
writes, for all of which it is false. -/
theorem C81_partial (extra : Nat → Nat) (us : List (Use V)) (hf : (Prog.init : Prog V).fineAll extra us) (hw : (Prog.init : Prog V).wholeAll extra us) :
    (Prog.init.uses extra us).1 = (execAll World.init (Prog.init.asksAll extra us)).1 ∧
    ∀ u, (Prog.init.uses extra us).2.fine u → u.whole (Prog.init.uses extra us).2 → (∀ x, u ≠ .plain x) →
      ∀ i, i < (Prog.init.uses extra us).2.mem.length →
        ((Prog.init.uses extra us).2.use extra u).2.mem.bytes i = (Prog.init.uses extra us).2.mem.bytes i :=
  have h := Shares.uses extra us Shares.init hf hw
  ⟨h.1, fun u h1 h2 => (h.2.use extra u h1 h2).2.2⟩

/-- Nevertheless it is a write: the `'$'` goes into the array of the leaf, where it is already.  Goroutines that pass returned keys to `Get`
write to the same byte without synchronisation (a data race in the sense of Go). -/
theorem C81_write_again (extra : Nat → Nat) (us : List (Use V)) (hf : (Prog.init : Prog V).fineAll extra us) (hw : (Prog.init : Prog V).wholeAll extra us)
    (a : Nat) (s : Slice) (l : LeafC V) (hs : (Prog.init.uses extra us).2.held a = some s)
    (hl : (Prog.init.uses extra us).2.w.heap[a]? = some (.leaf l)) (hk : l.key ≠ []) :
    goAppend extra (Prog.init.uses extra us).2.mem s.getKey dollar = ((Prog.init.uses extra us).2.mem, s) ∧ s.getKey.len < s.getKey.cap := by
  obtain ⟨-, h⟩ := Shares.uses extra us Shares.init hf hw
  obtain ⟨h1, h2⟩ := h.held a s hs
  have hl' := hl
  rw [h.hist] at hl'
  have e := (leafKey_form _ hl').resolve_left hk
  rw [h2 l hl] at e
  refine ⟨(goAppend_again extra h1 e).2, ?_⟩
  have h3 : s.len ≠ 0 := fun e0 => hk (by rw [h2 l hl]; exact List.eq_nil_of_length_eq_zero (h1.read_length.trans e0))
  have h4 := h1.len
  unfold Slice.getKey
  rw [if_neg h3]
  show s.len - 1 < s.cap
  omega

/-- The returned key is inserted again with another value, and a part of it without room is asked for. -/
def keptWhole : List (Use Nat) := keptActs ++ [.call (.insert 1 [] 8) 4 6 7, .call (.get 2 []) 4 3 3, .plain (.call (.get 2 []) ⟨0, 0, 6, 6⟩)]

example : (Prog.init : Prog Nat).fineAll (fun _ => 0) keptWhole ∧ (Prog.init : Prog Nat).wholeAll (fun _ => 0) keptWhole ∧
    (Prog.init.uses (fun _ => 0) keptWhole).1 = [.done, .updated 0 false, .updated 7 true, .value none, .value (some 8)] := by
  have e1 : ((Prog.init.uses (fun _ => 0) keptActs).2.reveal 4).kept 4 = some ⟨1, 0, 6, 7⟩ := by decide +kernel
  have e2 : ((Prog.init.uses (fun _ => 0) (keptActs ++ [.call (.insert 1 [] 8) 4 6 7])).2.reveal 4).kept 4 = some ⟨1, 0, 6, 7⟩ := by decide +kernel
  refine ⟨keptActs_fine _ ⟨fun k hk => ?_, fun k hk => ?_, ⟨by decide +kernel, by decide +kernel, by decide +kernel⟩, trivial⟩,
    ⟨trivial, rfl, rfl, fun k hk => ?_, fun k hk => .inr rfl, rfl, trivial⟩, by decide +kernel⟩
  · cases e1.symm.trans hk; decide
  · cases e2.symm.trans hk; decide
  · cases e1.symm.trans hk; exact .inl ⟨rfl, rfl⟩
end Art
