import Verif.Props.Watch
import Verif.Proofs.Grow
import Verif.Model.Extra
/-
Further properties of all histories: how much a write copies, and what a commit publishes.
-/
set_option autoImplicit false
namespace Art
variable {V : Type} [Inhabited V]

/-- C45: the number of nodes that a call may allocate, whatever the trees contain.  `DeletePrefix` is not bounded. -/
def Op.copies {V : Type} : Op V → Option Nat
  | .insert _ k _ => some (k.length + 18)
  | .delete _ k => some (3 * k.length + 9)
  | .txnInsert _ k _ => some (k.length + 17)
  | .txnDelete _ k => some (3 * k.length + 8)
  | .newTree => some 2
  | .cloneTree _ | .begin _ | .txnClone _ => some 1
  | .deletePrefix _ _ | .txnDeletePrefix _ _ => none
  | .get _ _ | .getWatch _ _ | .seekPrefixWatch _ _ | .len _ | .trackMutate _ _ | .txnGet _ _ | .txnGetWatch _ _ | .commit _
  | .commitOnly _ | .notify _ => some 0

/-- C45: `Insert` and `Delete` copy a path: what they allocate depends on the length of the key only, not on the size of
the tree.  Starting a transaction and cloning cost one node, reads and commits none. -/
theorem C45 (ops : List (Op V)) (op : Op V) (n : Nat) (hn : op.copies = some n) :
    (exec (execAll World.init ops).2 op).2.heap.length ≤ (execAll World.init ops).2.heap.length + n := by
  generalize (execAll World.init ops).2 = w
  cases op <;> cases hn
  case newTree =>
    have := (show Grows 2 (newRadixTree : M V Tree) by
      unfold newRadixTree
      exact Grows.bind1 (Grows.newCell (n := 0) _) fun _ => Grows.bind1 (Grows.newCell (n := 0) _) fun _ => Grows.pure _).le (w.st default)
    simp only [exec]
    split
    · next h => rw [h] at this; exact this
    · next h => rw [h] at this; exact this
  case cloneTree t => exact Grows.onTree fun tr => Grows.bind1 (Grows.cloneNode (n := 0) _ _) fun _ => Grows.pure _
  case insert t k v =>
    refine Grows.onTree fun tr => ?_
    unfold treeInsert
    refine Grows.bind1 (n := k.length + 17) (Grows.beginTxn (n := 0) _) fun ts => Grows.withTxn ?_ ts
    exact Grows.bind' (Grows.txnInsert k v) (fun _ => Grows.bind Grows.txnCommit fun _ => Grows.pure (n := 0) _) (by omega)
  case delete t k =>
    refine Grows.onTree fun tr => ?_
    unfold treeDelete
    refine Grows.bind1 (n := 3 * k.length + 8) (Grows.beginTxn (n := 0) _) fun ts => Grows.withTxn ?_ ts
    exact Grows.bind' (Grows.txnDelete k) (fun _ => Grows.bind Grows.txnCommit fun _ => Grows.pure (n := 0) _) (by omega)
  case get t k => exact Grows.onTree fun tr => Grows.bind Grows.get fun _ => Grows.lift _
  case getWatch t k => exact Grows.onTree fun tr => Grows.treeGetWatch _ _
  case seekPrefixWatch t p => exact Grows.onTree fun tr => Grows.seekPrefixWatch _ _
  case len t => exact Grows.onTree fun tr => Grows.pure _
  case begin t =>
    simp only [exec]
    split
    · exact Nat.le_add_right _ _
    · exact Grows.addTxn (Grows.beginTxn (n := 0) _)
  case txnClone x =>
    simp only [exec]
    split
    · exact Nat.le_add_right _ _
    · refine Grows.addTxn (m := txnClone) (n := 1) ?_
      unfold txnClone
      exact Grows.bind Grows.txnSt fun _ => Grows.bind1 (Grows.cloneNode (n := 0) _ _) fun _ => Grows.pure _
  case trackMutate x b => exact Grows.onTxn (Grows.modTxn _)
  case txnInsert x k v => exact Grows.onTxn (Grows.txnInsert k v)
  case txnDelete x k => exact Grows.onTxn (Grows.txnDelete k)
  case txnGet x k => exact Grows.onTxn (Grows.bind Grows.get fun _ => Grows.bind (Grows.lift _) fun _ => Grows.pure _)
  case txnGetWatch x k => exact Grows.onTxn (Grows.bind Grows.txnSt fun _ => Grows.treeGetWatch _ _)
  case commit x => exact Grows.onTxn Grows.txnCommit
  case commitOnly x => exact Grows.onTxn Grows.txnCommitOnly
  case notify x => exact Grows.onTxn Grows.txnNotify

/-- Two keys below each of twelve bytes. -/
def bushOps : List (Op Nat) :=
  inserts ((List.range 24).map fun (i : Nat) => ([UInt8.ofNat (97 + i / 2), UInt8.ofNat (97 + i % 2)], i))

/-- Inserting into this tree copies the root (twice: to start the transaction and to write) and one node below it, and
makes a leaf with its node. -/
example : (exec (execAll World.init bushOps).2 (.insert 24 (ascii ['a', 'x']) 1)).2.heap.length =
    (execAll World.init bushOps).2.heap.length + 5 := by decide +kernel

/-- `DeletePrefix` is not bounded like that: with a prefix of one byte that no key has, it removes nothing and still
copies all inner nodes, which are more than the twelve that `Delete` may copy for such a key. -/
theorem C45_deletePrefix : (exec (execAll World.init bushOps).2 (.deletePrefix 24 [122])).1 = .flag false ∧
    (exec (execAll World.init bushOps).2 (.deletePrefix 24 [122])).2.heap.length = (execAll World.init bushOps).2.heap.length + 14 := by
  decide +kernel

omit [Inhabited V] in
theorem Tree.sameReads [Inhabited V] {h : Heap V} {t t' : Tree} (hr : t'.root = t.root) : SameReads h t h t' := by
  cases t; cases t'; cases hr
  exact ⟨fun _ => rfl, rfl, rfl, fun _ => rfl, fun _ => rfl, fun _ _ => rfl, fun _ _ => rfl, fun _ => rfl⟩

omit [Inhabited V] in
theorem Tree.sameSeeks {h : Heap V} {t t' : Tree} (hr : t'.root = t.root) : SameSeeks h t h t' := by
  cases t; cases t'; cases hr
  exact ⟨fun _ _ => rfl, fun _ _ => rfl, fun _ _ _ => rfl⟩

/-- C46: `Commit` and `CommitOnly` publish what the transaction reads, in any history: the new tree answers `Get` as the
transaction did, every other way of reading it gives what reading the transaction gave, and the heap is as before. -/
theorem C46 (ops : List (Op V)) (x : Nat) (r : TxnRec) (hx : (execAll World.init ops).2.txns[x]? = some r) (op : Op V)
    (hop : op = .commit x ∨ op = .commitOnly x) :
    let w := (execAll World.init ops).2
    let w' := (exec w op).2
    (exec w op).1 = .done ∧
    (∀ k, (exec w' (.get w.trees.length k)).1 = (exec w (.txnGet x k)).1) ∧
    (∀ k, (exec w' (.txnGet x k)).1 = (exec w (.txnGet x k)).1) ∧
    (∀ i, i < w.trees.length → w'.trees[i]? = w.trees[i]?) ∧
    ∃ t, w'.trees[w.trees.length]? = some t ∧ SameReads w.heap r.st.getTree w'.heap t ∧ SameSeeks w.heap r.st.getTree w'.heap t := by
  intro w w'
  have hlt := (List.getElem?_eq_some_iff.1 hx).1
  have key : (exec w op).1 = .done ∧ w'.heap = w.heap ∧ w'.trees = w.trees ++ [{ root := r.st.root, size := r.st.size, maxNodeId := r.st.maxNodeId }] ∧
      ∃ r' : TxnRec, w'.txns[x]? = some r' ∧ r'.st.root = r.st.root := by
    rcases hop with rfl | rfl
    · simp only [w', w, exec, World.onTxn, hx, commit_run, notify_run, World.put, World.st, List.getElem?_set_self hlt]
      refine ⟨trivial, trivial, trivial, _, rfl, ?_⟩
      cases r.st.trackMutate <;> rfl
    · simp only [w', w, exec, World.onTxn, hx, txnCommitOnly, bind_run, txnSt, pure_run, World.put, World.st, List.getElem?_set_self hlt]
      exact ⟨trivial, trivial, trivial, _, rfl, rfl⟩
  obtain ⟨h1, h2, h3, r', h4, h5⟩ := key
  have htx : ∀ k, (exec w (.txnGet x k)).1 = match search w.heap r.st.root k with
      | .ok hit => .value hit.val
      | .error e => .panic e := fun k => by
    simp only [w, exec, World.onTxn, hx, txnGet, bind_run, M.get, lift_run, World.st]
    cases search (execAll World.init ops).2.heap r.st.root k <;> rfl
  have ht : w'.trees[w.trees.length]? = some { root := r.st.root, size := r.st.size, maxNodeId := r.st.maxNodeId } := by
    rw [h3, List.getElem?_append_right (Nat.le_refl _), Nat.sub_self]; rfl
  refine ⟨h1, fun k => ?_, fun k => ?_, fun i hi => ?_, _, ht, ?_, ?_⟩
  · rw [htx k]
    simp only [exec, World.onTree, ht, bind_run, M.get, lift_run, World.st, treeGet, h2]
    cases search w.heap r.st.root k <;> rfl
  · rw [htx k]
    simp only [exec, World.onTxn, h4, txnGet, bind_run, M.get, lift_run, World.st, h2, h5]
    cases search w.heap r.st.root k <;> rfl
  · rw [h3, List.getElem?_append_left hi]
  · rw [h2]; exact Tree.sameReads rfl
  · rw [h2]; exact Tree.sameSeeks rfl

/-- A history with a reused transaction; what the transaction reads is not what the tree it was begun on reads. -/
example :
    let ops : List (Op Nat) := [.newTree, .insert 0 [97] 1, .begin 1, .txnInsert 0 [98] 2, .commit 0, .txnInsert 0 [98, 99] 3, .txnDelete 0 [97]]
    (execAll World.init ops).2.trees.length = 3 ∧
    (exec (exec (execAll World.init ops).2 (.commit 0)).2 (.get 3 [98, 99])).1 = .value (some 3) ∧
    (exec (exec (execAll World.init ops).2 (.commit 0)).2 (.get 3 [97])).1 = .value none ∧
    (exec (execAll World.init ops).2 (.get 1 [97])).1 = .value (some 1) := by decide +kernel

/-- C47: once fired, a watch stays fired, whatever is called afterwards; and no call takes a channel away. -/
theorem C47 (ops later : List (Op V)) (c : ChanId) :
    ((execAll World.init ops).2.chans[c]? = some true → (execAll World.init (ops ++ later)).2.chans[c]? = some true) ∧
    (c < (execAll World.init ops).2.chans.length → c < (execAll World.init (ops ++ later)).2.chans.length) := by
  refine ⟨closed_forever ops later c, fun h => ?_⟩
  rw [execAll_append]
  exact Nat.lt_of_lt_of_le h (execAll_closed (worldAfter_ok ops) later).1

/-- The watch of a key fires with the commit of a tracked update, and goes on doing so while the key is deleted and
inserted again. -/
example :
    let ops : List (Op Nat) := [.newTree, .insert 0 [97] 1, .getWatch 1 [97], .begin 1, .trackMutate 0 true, .txnInsert 0 [97] 2, .commit 0]
    (execAll World.init ops).1[2]? = some (.chan 1 (some 1)) ∧ (execAll World.init ops).2.chans[1]? = some true ∧
    (execAll World.init (ops ++ [.delete 2 [97], .insert 3 [97] 1])).2.chans[1]? = some true := by decide +kernel

end Art
