import Verif.Props.Isolation
import Verif.Proofs.Leak
/-
C82: trees made from the private tree of a running transaction.
-/
set_option autoImplicit false
set_option linter.unusedVariables false
namespace Art
variable {V : Type} [Inhabited V]

/-- The program after calls of which some are made on private trees. -/
def callsAfter (cs : List (LeakCall V)) : World V := (execCalls World.init cs).2

/-- C82: a tree made by a call on `txn.GetTree()` is like every other tree: writing to the transaction does not change it. -/
def C82_Full (V : Type) [Inhabited V] : Prop := ∀ (ops : List (Op V)) (x : Nat) (c : TreeCall V) (t : Tree) (k : Key) (v : V) (q : Key),
  (callsAfter (ops.map .api ++ [.leak x c])).trees[(execAll World.init ops).2.trees.length]? = some t →
  treeGet (callsAfter (ops.map .api ++ [.leak x c, .api (.txnInsert x k v)])).heap t q =
    treeGet (callsAfter (ops.map .api ++ [.leak x c])).heap t q

/-- A transaction that has inserted a, ab and abc. -/
def leaky : List (Op Nat) := [.newTree, .begin 0, .txnInsert 0 kA 1, .txnInsert 0 kAB 2, .txnInsert 0 (ascii ['a', 'b', 'c']) 3]

def kABD : Key := ascii ['a', 'b', 'd']

/-- `txn.GetTree().Insert(z)` makes a tree with a, ab, abc and z. -/
def leakyMade : List (LeakCall Nat) := leaky.map .api ++ [.leak 0 (.insert (ascii ['z']) 9)]

/-- Then abd, inserted into the transaction, is in that tree too. -/
def leakyLater : List (LeakCall Nat) := leaky.map .api ++ [.leak 0 (.insert (ascii ['z']) 9), .api (.txnInsert 0 kABD 4)]

theorem C82_false : ¬ C82_Full Nat := fun h => by
  have h1 : ((callsAfter leakyMade).trees[(execAll World.init leaky).2.trees.length]?).any
      (fun t => !decide (treeGet (callsAfter leakyLater).heap t kABD = treeGet (callsAfter leakyMade).heap t kABD)) = true := by decide +kernel
  have h2 : ∀ t, (callsAfter leakyMade).trees[(execAll World.init leaky).2.trees.length]? = some t →
      treeGet (callsAfter leakyLater).heap t kABD = treeGet (callsAfter leakyMade).heap t kABD := fun t ht =>
    h leaky 0 (.insert (ascii ['z']) 9) t kABD 4 kABD ht
  exact refute h1 h2

/-- C82, with the restriction that a transaction whose private tree was used in this way is not written to any more (if it
had made nodes), and neither is one that was committed or cloned: whatever calls are made, on trees, transactions and
private trees, every tree stays as it was. -/
theorem C82_partial (cs ds : List (LeakCall V)) (hp : Polite World.init (cs ++ ds)) (i : Nat) (t : Tree) (ht : (callsAfter cs).trees[i]? = some t) :
    (callsAfter (cs ++ ds)).trees[i]? = some t ∧
    SameReads (callsAfter cs).heap t (callsAfter (cs ++ ds)).heap t ∧ SameSeeks (callsAfter cs).heap t (callsAfter (cs ++ ds)).heap t := by
  obtain ⟨hp1, hp2⟩ := hp.append
  obtain ⟨ops, ix, l1, -, -, m1⟩ := Mimics.init.calls ⟨[], rfl⟩ cs hp1
  obtain ⟨more, ix', l2, -, -, m2⟩ := m1.calls ⟨ops, rfl⟩ ds hp2
  rw [← execAll_append] at m2
  have h := C06 ops more (l1.extend l2) i t (by unfold treeAfter; rw [m1.trees]; exact ht)
  unfold treeAfter heapAfter at h
  rw [m2.trees, m1.heap, m2.heap, ← execCalls_append] at h
  exact h

/-- The other direction: no calls on private trees, of this transaction or others, change what is read in a transaction.
(Nor do any other calls that do not write to it.) -/
theorem C82_txn_partial (cs ds : List (LeakCall V)) (hp : Polite World.init (cs ++ ds)) (x : Nat) (r : TxnRec)
    (hx : (callsAfter cs).txns[x]? = some r) (hw : ∀ c ∈ ds, c.writes ≠ some x) :
    ∃ r', (callsAfter (cs ++ ds)).txns[x]? = some r' ∧ r'.st.size = r.st.size ∧
      SameReads (callsAfter cs).heap r.st.tree (callsAfter (cs ++ ds)).heap r'.st.tree ∧
      SameSeeks (callsAfter cs).heap r.st.tree (callsAfter (cs ++ ds)).heap r'.st.tree := by
  obtain ⟨hp1, hp2⟩ := hp.append
  obtain ⟨ops, ix, l1, -, -, m1⟩ := Mimics.init.calls ⟨[], rfl⟩ cs hp1
  obtain ⟨more, ix', l2, g, -, m2⟩ := m1.calls ⟨ops, rfl⟩ ds hp2
  rw [← execAll_append] at m2
  have hj := m1.at hx
  obtain ⟨hj', hn⟩ := g x _ hj
  obtain ⟨-, r', h1, h2, h3, h4⟩ := C08 ops more (l1.extend l2) _ r ((m1.look x).trans hx) (hn hw)
  unfold heapAfter at h3 h4
  obtain ⟨r2, q1, q2⟩ := m2.txn x _ hj'
  rw [h1] at q2
  cases q2
  rw [m1.heap, m2.heap, ← execCalls_append] at h3 h4
  rw [← execCalls_append] at q1
  exact ⟨r', q1, h2, h3, h4⟩

/-- Calls on private trees add nothing that programs could not do with `Txn.Clone`: there is a program without them that
ends with the same memory, channels and trees, and whose results include all results of the first, in order.  So what is
proved about the trees of all histories is also true of these. -/
theorem C82_clone_partial (cs : List (LeakCall V)) (hp : Polite World.init cs) : ∃ ops : List (Op V), Lawful World.init ops ∧
    (execCalls World.init cs).1.Sublist (execAll World.init ops).1 ∧
    (execAll World.init ops).2.heap = (callsAfter cs).heap ∧ (execAll World.init ops).2.chans = (callsAfter cs).chans ∧
    (execAll World.init ops).2.trees = (callsAfter cs).trees := by
  obtain ⟨ops, ix, l1, -, h, m⟩ := Mimics.init.calls ⟨[], rfl⟩ cs hp
  exact ⟨ops, l1, h, m.heap, m.chans, m.trees⟩

/-! The tree made above, while the private tree is used again, the original tree is written to and the transaction is
committed. -/

def leakyMore : List (LeakCall Nat) :=
  [.leak 0 (.delete kA), .leak 0 .txn, .api (.txnInsert 1 kABD 4), .leak 1 .clone, .leak 0 (.deletePrefix kAB), .api (.insert 0 kB 5), .api (.commit 0)]

example : Polite World.init (leakyMade ++ leakyMore) := by decide +kernel
example : (execCalls World.init (leakyMade ++ leakyMore)).1 =
    [.done, .done, .updated 0 false, .updated 0 false, .updated 0 false, .updated 0 false, .updated 1 true, .done, .updated 0 false, .done,
      .flag true, .updated 0 false, .done] := by decide +kernel
example (t : Tree) (ht : (callsAfter leakyMade).trees[1]? = some t) :
    treeGet (callsAfter (leakyMade ++ leakyMore)).heap t kABD = treeGet (callsAfter leakyMade).heap t kABD :=
  (C82_partial leakyMade leakyMore (by decide +kernel) 1 t ht).2.1.get kABD
example (r : TxnRec) (hr : (callsAfter leakyMade).txns[0]? = some r) :
    ∃ r', (callsAfter (leakyMade ++ leakyMore)).txns[0]? = some r' ∧
      treeGet (callsAfter (leakyMade ++ leakyMore)).heap r'.st.tree kA = treeGet (callsAfter leakyMade).heap r.st.tree kA := by
  obtain ⟨r', h1, -, h3, -⟩ := C82_txn_partial leakyMade leakyMore (by decide +kernel) 0 r hr (by decide)
  exact ⟨r', h1, h3.get kA⟩
example : (callsAfter leakyMade).txns.map (fun r => treeGet (callsAfter leakyMade).heap r.st.tree kA) = [.ok (some 1)] := by decide +kernel
example : (callsAfter leakyMade).trees.map (fun t => [kA, kABD, ascii ['z']].map (treeGet (callsAfter leakyMade).heap t)) =
    [[.ok none, .ok none, .ok none], [.ok (some 1), .ok none, .ok (some 9)]] := by decide +kernel
example : ¬ Polite World.init leakyLater := by decide +kernel

end Art
