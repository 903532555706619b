import Verif.Props.Team
/-
Several goroutines at the same time, each in a transaction of its own, that start together.  After a lawful history `ops`,
the goroutines `gs` run in a pool: they share memory, and any schedule `acts` decides who takes the next single step.
-/
set_option autoImplicit false
set_option linter.unusedVariables false
set_option linter.unusedSimpArgs false
set_option linter.unusedSectionVars false
namespace Art
variable {V : Type} [Inhabited V]

/-- C65: transactions on different goroutines do not disturb each other.  When a goroutine has returned, its results, its
new tree and its panics are those that it has when it is alone; all reads of the new tree give the same. -/
theorem C65 (ops : List (Op V)) (hl : Lawful World.init ops) (gs : List (Session V)) (acts : List Event) (i : Nat) (g : Session V)
    (hg : gs[i]? = some g) (ht : g.tree < (execAll World.init ops).2.trees.length) (x : R (List (Out V) × Tree))
    (hx : (poolAfter ops gs acts).result i = some x) :
    match (generalizing := false) x with
    | .ok (os, t) => (aloneAfter ops g).1.map Out.plain = .done :: os ++ [.done] ∧
        ∃ t', (aloneAfter ops g).2.trees = (execAll World.init ops).2.trees ++ [t'] ∧ t.size = t'.size ∧ t.maxNodeId = t'.maxNodeId ∧
          SameReads (aloneAfter ops g).2.heap t' (poolAfter ops gs acts).heap t ∧
          SameSeeks (aloneAfter ops g).2.heap t' (poolAfter ops gs acts).heap t
    | .error e => ∃ os rest, (∀ o ∈ os, ∀ e, o ≠ .panic e) ∧ (aloneAfter ops g).1 = os ++ .panic e :: rest := by
  have hne : (execAll World.init ops).2.trees ≠ [] := List.length_pos_iff.1 (Nat.lt_of_le_of_lt (Nat.zero_le _) ht)
  have h := C68 ops hl hne (gs.map (.start none) ++ acts.map .act) i ops g
    (by rw [poolAfter_team, lineage_flat, List.getElem?_map, hg]; rfl) ht x (by rw [poolAfter_team]; exact hx)
  rw [poolAfter_team] at h
  exact h

/-- C65 for the trees that existed before: at every moment of the schedule they answer all reads as before. -/
theorem C65_old (ops : List (Op V)) (hl : Lawful World.init ops) (gs : List (Session V)) (acts : List Event) (j : Nat) (t : Tree)
    (ht : treeAfter ops j = some t) :
    SameReads (heapAfter ops) t (poolAfter ops gs acts).heap t ∧ SameSeeks (heapAfter ops) t (poolAfter ops gs acts).heap t := by
  have h := C68_old ops hl (gs.map (.start none) ++ acts.map .act) j t ht
  rw [poolAfter_team] at h
  exact h

/-- C66: no goroutine waits for another one.  However the goroutines are scheduled, a goroutine that gets to take steps again
and again returns (and by C65 with the results that it has when it is alone), or closes a channel that another goroutine has
just closed, which is a panic in `Notify` (C71 says when this cannot happen). -/
theorem C66 (ops : List (Op V)) (gs : List (Session V)) (f : Nat → Event) (i : Nat) (hi : i < gs.length)
    (hf : ∀ n, ∃ m, n ≤ m ∧ f m = .step i) : ∃ n,
      (∃ x, (poolAfter ops gs ((List.range n).map f)).result i = some x) ∨ (poolAfter ops gs ((List.range n).map f)).Crash i :=
  Pool.ends _ f hf 0 (p := { code := (gs[i].code (execAll World.init ops).2.trees).code, txn := default, view := none }) (by
    show (gs.map _)[i]? = _
    rw [List.getElem?_map, List.getElem?_eq_getElem hi]; rfl)

/-- C67: no schedule leads to a data race on a node; every node that is written to was made by the goroutine that writes to
it, during the schedule. -/
theorem C67 (ops : List (Op V)) (hl : Lawful World.init ops) (hne : (execAll World.init ops).2.trees ≠ []) (gs : List (Session V))
    (acts : List Event) : ¬ (poolAfter ops gs acts).Race ∧
      ∀ (i : Nat) (p : Proc V (List (Out V) × Tree)) (a : Nat), (poolAfter ops gs acts).procs[i]? = some p → p.writes = some a →
        a < (poolAfter ops gs acts).heap.length → a ∈ ((execAll World.init ops).2.pool gs).made acts i ∧ (heapAfter ops).length ≤ a := by
  have h := C69_race ops hl hne (gs.map (.start none) ++ acts.map .act)
  rw [poolAfter_team] at h
  simp only [team_made] at h
  exact h

/-! ### Examples -/

/-- Two goroutines that start from the same tree (a, foo, foobar): one inserts b and deletes foo; the other deletes what
begins with foo, puts foobar back and looks into the tree that it started from. -/
def crew : List (Session Nat) :=
  [⟨3, [.insert kB 7, .delete kFoo, .get kB], false⟩, ⟨3, [.deletePrefix kFoo, .insert kFoobar 9, .getWatch kFoobar, .peek 3 kFoo], true⟩]

/-- They take turns. -/
def turns : List Event := (List.range 130).flatMap fun _ => [.step 0, .step 1]

/-- Both return, each with its own results and tree; the old tree is as it was. -/
example : ((poolAfter busy crew turns).result 0).any (fun x => x.toOption.any fun p =>
      (p.2.size, [kA, kB, kFoo, kFoobar].map fun k => treeGet (poolAfter busy crew turns).heap p.2 k) =
        (3, [.ok (some 3), .ok (some 7), .ok none, .ok (some 2)])) = true ∧
    ((poolAfter busy crew turns).result 1).any (fun x => x.toOption.any fun p =>
      p.1 = [.flag true, .updated 0 false, .value (some 9), .value (some 1)] ∧
      [kA, kB, kFoobar].map (fun k => treeGet (poolAfter busy crew turns).heap p.2 k) = [.ok (some 3), .ok none, .ok (some 9)]) = true ∧
    treeGet (poolAfter busy crew turns).heap (treeOf busy 3) kFoo = .ok (some 1) := by decide +kernel

/-- After thirty steps each they are in the middle of their work. -/
example : (poolAfter busy crew (turns.take 60)).result 0 = none ∧ (poolAfter busy crew (turns.take 60)).result 1 = none ∧
    (((execAll World.init busy).2.pool crew).made (turns.take 60) 0) = [15, 17, 18] := by decide +kernel

example (acts : List Event) (x : R (List (Out Nat) × Tree)) (hx : (poolAfter busy crew acts).result 0 = some x) :
    ∃ os t, x = .ok (os, t) := by
  have h := C65 busy (by decide +kernel) crew acts 0 _ rfl (by decide +kernel) x hx
  have hn : ∀ e : Err, Out.panic e ∉ (aloneAfter busy ⟨3, [.insert kB 7, .delete kFoo, .get kB], false⟩).1 := by
    have : (aloneAfter busy ⟨3, [.insert kB 7, .delete kFoo, .get kB], false⟩).1 = [.done, .updated 0 false, .updated 1 true, .value (some 7), .done] := by
      decide +kernel
    rw [this]
    intro e he
    simp at he
  cases x with
  | ok p => exact ⟨p.1, p.2, rfl⟩
  | error e =>
    obtain ⟨os, rest, -, h2⟩ := h
    exact absurd (by rw [h2]; simp) (hn e)

/-- The race-freedom is not trivial: there are moments at which a goroutine is about to write to a node. -/
example : ((List.range 120).filter fun n => ((poolAfter busy crew (turns.take n)).procs[0]?).any fun p => p.writes.isSome).length = 16 := by decide +kernel

end Art
