import Verif.Proofs.PruneTxn
import Verif.Props.CleanTidy
/-
`DeletePrefix` on trees of broad histories that never lost a key.
-/
set_option autoImplicit false
namespace Art
variable {V : Type} [Inhabited V]

/-- C27 on broad histories, for trees that never lost a key since they were last empty: `DeletePrefix(p)` removes exactly the keys with the prefix `p`, if

* no key with the prefix is a proper prefix of another key,
* all keys have the prefix, or none is the only one with the prefix,
* no node needs more than 37 children (no `Node256`), and
* the tree has a key or the prefix is not empty.

(Missing for the full statement: other trees and prefixes, see `C27_false`; after deletions stale child slots are
visited.  `C27_last` and `C27_wide` show that the second and the third condition cannot be dropped.) -/
theorem C27_partial (ops : List (Op V)) (hc : Broad ops) (i : Nat) (hu : Uncut ops i) (p : Key) (m : Map V)
    (hm : mapAfter ops i = some m) (hne : m ≠ [] ∨ p ≠ []) (hw : m.Narrow 37) (hf : m.FreeBelow p) (hs : m.Several p) (t : Tree)
    (ht : (exec (execAll World.init ops).2 (.deletePrefix i p)).2.trees.getLast? = some t) (k : Key) :
    treeGet (exec (execAll World.init ops).2 (.deletePrefix i p)).2.heap t k = .ok ((m.delPrefix p).get k) := by
  obtain ⟨t', -, h1, -, h2⟩ := tree_prune hc.marked hu hm hne
  rw [h1, List.getLast?_append] at ht
  cases ht
  exact h2 hw hf hs k

/-- The same inside a transaction. -/
theorem C27_partial_txn (ops : List (Op V)) (hc : Broad ops) (x : Nat) (hu : UncutTxn ops x) (p : Key) (q : STxn V)
    (hq : (sexecAll SWorld.init ops).2.txns[x]? = some q) (hne : q.map ≠ [] ∨ p ≠ []) (hw : q.map.Narrow 37) (hf : q.map.FreeBelow p)
    (hs : q.map.Several p) (k : Key) :
    (exec (exec (execAll World.init ops).2 (.txnDeletePrefix x p)).2 (.txnGet x k)).1 = .value ((q.map.delPrefix p).get k) :=
  (txn_prune hc hu hq hne).2 hw hf hs k

/-- C28 on broad histories, for trees that never lost a key since they were last empty: `DeletePrefix(p)` reports whether a key has the prefix `p`, and `Len` of
the new tree is the number of the other keys (at least, if the history is not clean), unless the tree and `p` are both empty.  (Missing for the full statement:
that case and histories with deletions, see `C28_empty` and `C28_false`.) -/
theorem C28_partial (ops : List (Op V)) (hc : Broad ops) (i : Nat) (hu : Uncut ops i) (p : Key) (m : Map V)
    (hm : mapAfter ops i = some m) (hne : m ≠ [] ∨ p ≠ []) :
    (exec (execAll World.init ops).2 (.deletePrefix i p)).1 = .flag (m.any fun e => p.isPrefixOf e.1) ∧
    ∀ t, (exec (execAll World.init ops).2 (.deletePrefix i p)).2.trees.getLast? = some t → (m.delPrefix p).length ≤ treeLen t ∧ (Clean ops → treeLen t = (m.delPrefix p).length) := by
  obtain ⟨t', h0, h1, h2, -⟩ := tree_prune hc.marked hu hm hne
  refine ⟨h0, fun t ht => ?_⟩
  rw [h1, List.getLast?_append] at ht
  cases ht
  refine ⟨h2.1, fun hcl => ?_⟩
  obtain ⟨t2, -, h3, h4, -⟩ := tree_prune hcl.marked hu hm hne
  rw [h1] at h3
  cases List.append_cancel_left h3
  exact h4.2 rfl

/-- The flag inside a transaction. -/
theorem C28_partial_txn (ops : List (Op V)) (hc : Broad ops) (x : Nat) (hu : UncutTxn ops x) (p : Key) (q : STxn V)
    (hq : (sexecAll SWorld.init ops).2.txns[x]? = some q) (hne : q.map ≠ [] ∨ p ≠ []) :
    (exec (execAll World.init ops).2 (.txnDeletePrefix x p)).1 = .flag (q.map.any fun e => p.isPrefixOf e.1) :=
  (txn_prune hc hu hq hne).1

/-! ### A tree with four keys, two of which start with "ab" -/

def demo4 : List (Op Nat) := build [kA, ascii ['a', 'b', 'c'], ascii ['b'], ascii ['a', 'b', 'd']]
def demo4Map : Map Nat := [(ascii ['a', 'b', 'd'], 4), (ascii ['b'], 3), (ascii ['a', 'b', 'c'], 2), (kA, 1)]

theorem demo4_free : demo4Map.FreeBelow kAB := by
  rintro k ⟨v, hk⟩ hp k' ⟨v', hk'⟩ hp'
  have h : ∀ e ∈ demo4Map, kAB.isPrefixOf e.1 = true → ∀ e' ∈ demo4Map, e.1.isPrefixOf e'.1 = true → e'.1 = e.1 := by decide +kernel
  exact h _ hk (List.isPrefixOf_iff_prefix.2 hp) _ hk' (List.isPrefixOf_iff_prefix.2 hp')

theorem demo4_several : demo4Map.Several kAB := by
  refine Or.inr ?_
  rintro k ⟨v, hk⟩ hp
  have h : ∀ e ∈ demo4Map, kAB.isPrefixOf e.1 = true → ∃ e' ∈ demo4Map, kAB.isPrefixOf e'.1 = true ∧ e'.1 ≠ e.1 := by decide +kernel
  obtain ⟨e', h1, h2, h3⟩ := h _ hk (List.isPrefixOf_iff_prefix.2 hp)
  exact ⟨e'.1, ⟨_, h1⟩, List.isPrefixOf_iff_prefix.1 h2, h3⟩

example : ∃ t, (exec (execAll World.init demo4).2 (.deletePrefix 4 kAB)).2.trees.getLast? = some t ∧
    treeGet (exec (execAll World.init demo4).2 (.deletePrefix 4 kAB)).2.heap t kA = .ok (some 1) ∧
    treeGet (exec (execAll World.init demo4).2 (.deletePrefix 4 kAB)).2.heap t (ascii ['a', 'b', 'c']) = .ok none := by
  obtain ⟨t, -, h1, -⟩ := tree_prune (ops := demo4) (Clean.of_plain (by decide +kernel)).marked (i := 4) (pre := kAB) (m := demo4Map) (by decide +kernel) (by decide +kernel) (by decide)
  have hl : (exec (execAll World.init demo4).2 (.deletePrefix 4 kAB)).2.trees.getLast? = some t := by rw [h1, List.getLast?_append]; rfl
  refine ⟨t, hl, ?_, ?_⟩ <;> rw [C27_partial demo4 (.of_loose (by decide +kernel)) 4 (by decide +kernel) kAB demo4Map (by decide +kernel) (by decide)
    (.of_length (by decide)) demo4_free demo4_several t hl] <;> decide +kernel

example : (exec (execAll World.init demo4).2 (.deletePrefix 4 kAB)).1 = .flag true :=
  (C28_partial demo4 (.of_loose (by decide +kernel)) 4 (by decide +kernel) kAB demo4Map (by decide +kernel) (by decide)).1

/-- The same keys in a transaction. -/
def demo4Txn : List (Op Nat) := [.newTree, .begin 0, .txnInsert 0 kA 1, .txnInsert 0 (ascii ['a', 'b', 'c']) 2, .txnInsert 0 (ascii ['b']) 3,
  .txnInsert 0 (ascii ['a', 'b', 'd']) 4]

example : (exec (execAll World.init demo4Txn).2 (.txnDeletePrefix 0 kAB)).1 = .flag true ∧
    (exec (exec (execAll World.init demo4Txn).2 (.txnDeletePrefix 0 kAB)).2 (.txnGet 0 kA)).1 = .value (some 1) ∧
    (exec (exec (execAll World.init demo4Txn).2 (.txnDeletePrefix 0 kAB)).2 (.txnGet 0 (ascii ['a', 'b', 'd']))).1 = .value none := by
  have hc : Broad demo4Txn := .of_loose (by decide +kernel)
  refine ⟨C28_partial_txn demo4Txn hc 0 (by decide +kernel) kAB ⟨demo4Map, false, false, false⟩ (by decide +kernel) (by decide), ?_, ?_⟩ <;>
    rw [C27_partial_txn demo4Txn hc 0 (by decide +kernel) kAB ⟨demo4Map, false, false, false⟩ (by decide +kernel) (by decide) (.of_length (by decide)) demo4_free
      demo4_several] <;> decide +kernel

/-! ### The conditions are needed -/

/-- {a, b, c}: `DeletePrefix(a)`, with "a" the only match, also loses "b": the children move to the left, the key
bytes of the node do not. -/
theorem C27_last : ((exec (execAll World.init (build [kA, kB, kC])).2 (.deletePrefix 3 kA)).2.trees.getLast?.map
    fun t => treeGet (exec (execAll World.init (build [kA, kB, kC])).2 (.deletePrefix 3 kA)).2.heap t kB) = some (.ok none) := by
  decide +kernel

/-- 49 keys of one byte. -/
def wide49 : List (Op Nat) := build ((List.range 49).map fun i => [UInt8.ofNat (100 + i)])

set_option maxRecDepth 10000 in
/-- `DeletePrefix` with a prefix of no key at all reports that it did nothing, but loses the keys below a `Node256`, which
stores a child at the index of its byte. -/
theorem C27_wide : (exec (execAll World.init wide49).2 (.deletePrefix 49 kAB)).1 = .flag false ∧
    treeGet (heapAfter wide49) (treeOf wide49 49) [100] = .ok (some 1) ∧
    ((exec (execAll World.init wide49).2 (.deletePrefix 49 kAB)).2.trees.getLast?.map
      fun t => treeGet (exec (execAll World.init wide49).2 (.deletePrefix 49 kAB)).2.heap t [100]) = some (.ok none) := by
  decide +kernel

/-- The empty tree: `DeletePrefix("")` reports success, and `Len` is -1. -/
theorem C28_empty : (exec (execAll World.init [.newTree]).2 (.deletePrefix (V := Nat) 0 [])).1 = .flag true ∧
    ((exec (execAll World.init [.newTree]).2 (.deletePrefix (V := Nat) 0 [])).2.trees.map treeLen).getLast? = some (-1) := by
  decide +kernel

/-- {a, b, c}: after `Delete(b)`, `DeletePrefix(c)` counts c twice, since the child slot behind the live ones still holds it:
`Len` is 0, but a is there.  So the tree must not have lost a key. -/
theorem C28_cut : Broad cutOps ∧ ((exec (execAll World.init cutOps).2 (.deletePrefix 4 kC)).2.trees.getLast?.map
    fun t => (treeLen t, treeGet (exec (execAll World.init cutOps).2 (.deletePrefix 4 kC)).2.heap t kA)) = some (0, .ok (some 1)) :=
  ⟨.of_loose (by decide +kernel), by decide +kernel⟩

/-- Keys may have been deleted in other trees. -/
def demo4Cut : List (Op Nat) := demo4 ++ [.delete 4 (ascii ['b'])]

example : (exec (execAll World.init demo4Cut).2 (.deletePrefix 4 kAB)).1 = .flag true :=
  (C28_partial demo4Cut (.of_loose (by decide +kernel)) 4 (by decide +kernel) kAB demo4Map (by decide +kernel) (by decide)).1

end Art
