import Verif.Proofs.RankStop
/-
C43: reads terminate.
-/
set_option autoImplicit false
set_option linter.unusedSectionVars false
namespace Art
variable {V : Type} [Inhabited V]

/-- C43: every call of every history ends, the heap never contains a cycle and every read and iterator reaches its
end. -/
theorem C43 : C43_Full V := by
  intro ops
  obtain ⟨h1, rk, hj⟩ := execAll_fine (rk := fun _ => 0) (w := World.init) .init (fun a c b h _ => by cases h) ops
  exact ⟨h1, fun a hp => Nat.lt_irrefl _ (hj.acyclic hp), hj.readsStop⟩

-- the heap of such a history has nodes with pointers, and its iterators do return pairs ...
example :
    let ops : List (Op Nat) := [.newTree, .insert 0 [97] 1, .insert 1 [98] 2]
    (∃ a b, PathTo (execAll World.init ops).2.heap a b) ∧
    (treeAfter ops 2).map (fun t => iterPrefix (heapAfter ops) t [] 20) = some (.ok [([97], 1), ([98], 2)]) := by
  refine ⟨?_, by decide +kernel⟩
  have : ∃ a ∈ List.range 20, (((execAll World.init [.newTree, .insert 0 [97] 1, .insert 1 [98] 2]).2 : World Nat).heap[a]?.elim false fun c =>
      match c with | .inner n => n.leaf.isSome | .leaf _ => false) = true := by decide +kernel
  obtain ⟨a, _, ha⟩ := this
  generalize hh : (execAll World.init [.newTree, .insert 0 [97] 1, .insert 1 [98] 2]).2.heap[a]? = c at ha
  match c, ha with
  | some (.inner n), ha =>
    obtain ⟨b, hb⟩ := Option.isSome_iff_exists.1 ha
    exact ⟨a, b, .leaf a n b hh hb⟩

-- ... and a heap with a cycle, on which a read exhausts every bound, exists: it is the histories that exclude it
example :
    let h : Heap Nat := [.inner { (default : Inner) with kind := .n4, numChildren := 1, keys := [97, 0, 0, 0], children := [some 0, none, none, none] }]
    PathTo h 0 0 ∧ treeMinimum h { root := 0, size := 1, maxNodeId := 1 } = .error .fuel :=
  ⟨.child 0 _ 0 rfl (by decide), by decide +kernel⟩

end Art
