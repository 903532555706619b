import Verif.Props.Calm
import Verif.Props.Isolation
import Verif.Props.Stops
import Verif.Proofs.CloneRead
/-
Copies: `Txn.Clone`, `RadixTree.Clone`, and the transaction that `RadixTree.Txn` starts.
-/
set_option autoImplicit false
set_option linter.unusedVariables false
set_option linter.unusedSimpArgs false
namespace Art
variable {V : Type} [Inhabited V]

/-! ### Txn.Clone -/

/-- C09, one of the two directions: after `Txn.Clone` of transaction `x`, whatever is done with the clone (and with
anything else) is invisible through `x`, as long as `x` itself is not written to.  Missing: if both the original
and the clone go on writing, they can see each other's writes (`C09_false`); but see `C09_untouched_partial`. -/
theorem C09_partial (ops more : List (Op V)) (x : Nat) (r : TxnRec) (hx : (execAll World.init ops).2.txns[x]? = some r)
    (hl : Lawful World.init ((ops ++ [.txnClone x]) ++ more)) (hw : ∀ op ∈ more, op.writes ≠ some x) :
    ∀ k, (exec (execAll World.init ((ops ++ [.txnClone x]) ++ more)).2 (.txnGet x k)).1 =
      (exec (execAll World.init ops).2 (.txnGet x k)).1 := fun k => by
  rw [List.append_assoc] at hl ⊢
  exact (C08 ops ([.txnClone x] ++ more) hl x r hx (fun op ho => by
    rcases List.mem_append.1 ho with h | h
    · rw [List.mem_singleton.1 h]; simp [Op.writes]
    · exact hw op h)).1 k

example :
    let ops := busy ++ [.begin 3, .txnInsert 0 kA 7]
    let more : List (Op Nat) := [.txnInsert 1 kA 8, .txnDelete 1 kFoo]
    Lawful World.init ((ops ++ [.txnClone 0]) ++ more) ∧ (∀ op ∈ more, op.writes ≠ some 0) ∧
    (exec (execAll World.init ((ops ++ [.txnClone 0]) ++ more)).2 (.txnGet 0 kA)).1 = .value (some 7) ∧
    (exec (execAll World.init ((ops ++ [.txnClone 0]) ++ more)).2 (.txnGet 1 kA)).1 = .value (some 8) := by
  decide +kernel

/-- C09 for a transaction that was not written to before `Txn.Clone`: original and clone may both go on writing.  Neither
sees an insertion of the other (the two halves of `C09_Full`), and whatever is done in a lawful continuation, what is
read through one of them changes only by its own writes.  (A lawful continuation may write to both: the original is not
marked as copied.)  Missing: originals that wrote before (`C09_false`). -/
theorem C09_untouched_partial (ops : List (Op V)) (hl : Lawful World.init ops) (x y : Nat) (r : TxnRec)
    (hx : (execAll World.init ops).2.txns[x]? = some r) (hy : y = (execAll World.init ops).2.txns.length)
    (hu : ∀ op ∈ ops, op.writes ≠ some x) :
    let w := (exec (execAll World.init ops).2 (.txnClone x)).2
    (r.ended = false → r.copied = false → ∀ k v k',
      (exec (exec w (.txnInsert x k v)).2 (.txnGet y k')).1 = (exec w (.txnGet y k')).1 ∧
      (exec (exec w (.txnInsert y k v)).2 (.txnGet x k')).1 = (exec w (.txnGet x k')).1) ∧
    (∀ r', w.txns[x]? = some r' → r'.copied = r.copied) ∧
    ∀ more, Lawful w more → ∀ z, z = x ∨ z = y → (∀ op ∈ more, op.writes ≠ some z) → ∀ k,
      (exec (execAll w more).2 (.txnGet z k)).1 = (exec w (.txnGet z k)).1 := by
  have hw : (execAll World.init (ops ++ [.txnClone x])).2 = (exec (execAll World.init ops).2 (.txnClone x)).2 := execAll_snoc _ _ _
  have hpri : r.st.maxNodeId = r.st.oldMaxNodeId := untouched ops (w := World.init) (fun r h => by simp [World.init] at h) hu r hx
  have hcl : r.cloned = r := by
    unfold TxnRec.cloned
    rw [hpri]; simp
  obtain ⟨c, hc⟩ : ∃ ts, (exec (execAll World.init ops).2 (.txnClone x)).2.txns = (execAll World.init ops).2.txns ++ [ts] ∧ ts.ended = false ∧ ts.copied = false := by
    obtain ⟨n, hn⟩ := (C51 (V := V) ops).2.2 r (List.mem_of_getElem? hx)
    have hrun := cloneNode_run (V := V) r.st.root ((execAll World.init ops).2.st r.st)
    rw [show ((execAll World.init ops).2.st r.st).heap[r.st.root]? = some (.inner n) from hn] at hrun
    simp only at hrun
    simp only [exec, hx]
    rw [show (txnClone : M V TxnSt) ((execAll World.init ops).2.st r.st) =
      beginTxn ⟨r.st.root, r.st.size, r.st.maxNodeId⟩ ((execAll World.init ops).2.st r.st) from rfl, beginTxn_run, hrun, hcl]
    refine ⟨⟨startTxn ⟨r.st.root, r.st.size, r.st.maxNodeId⟩ (heapAfter ops).length, false, false⟩, ?_, rfl, rfl⟩
    show ((execAll World.init ops).2.txns.set x r) ++ [_] = _
    rw [set_same hx]; rfl
  have hxw : (execAll World.init (ops ++ [.txnClone x])).2.txns[x]? = some r := by
    rw [hw, hc.1, List.getElem?_append_left (List.getElem?_eq_some_iff.1 hx).1]; exact hx
  have hyw : (execAll World.init (ops ++ [.txnClone x])).2.txns[y]? = some c := by
    rw [hw, hc.1, hy]; simp
  have key : ∀ more, Lawful (exec (execAll World.init ops).2 (.txnClone x)).2 more → ∀ z, z = x ∨ z = y → (∀ op ∈ more, op.writes ≠ some z) → ∀ k,
      (exec (execAll (exec (execAll World.init ops).2 (.txnClone x)).2 more).2 (.txnGet z k)).1 =
        (exec (exec (execAll World.init ops).2 (.txnClone x)).2 (.txnGet z k)).1 := by
    intro more hm z hz hwr k
    have hlaw : Lawful World.init ((ops ++ [.txnClone x]) ++ more) :=
      (hl.snoc (by simp [World.allows, Op.writes])).extend (by rw [hw]; exact hm)
    have hz' : ∃ r', (execAll World.init (ops ++ [.txnClone x])).2.txns[z]? = some r' := by
      rcases hz with rfl | rfl
      · exact ⟨_, hxw⟩
      · exact ⟨_, hyw⟩
    obtain ⟨r', hr'⟩ := hz'
    have := (C08 (ops ++ [.txnClone x]) more hlaw z r' hr' hwr).1 k
    rw [execAll_append, hw] at this
    exact this
  have hne : x ≠ y := fun h => by
    have := (List.getElem?_eq_some_iff.1 hx).1
    omega
  refine ⟨fun he hcp k v k' => ⟨?_, ?_⟩, fun r' hr' => ?_, key⟩
  · refine key [.txnInsert x k v] ⟨?_, trivial⟩ y (.inr rfl) (fun op ho => ?_) k'
    · rw [← hw]; simp [World.allows, Op.writes, hxw, he, hcp]
    · rw [List.mem_singleton.1 ho]; simp [Op.writes, hne]
  · refine key [.txnInsert y k v] ⟨?_, trivial⟩ x (.inl rfl) (fun op ho => ?_) k'
    · rw [← hw]; simp [World.allows, Op.writes, hyw, hc.2.1, hc.2.2]
    · rw [List.mem_singleton.1 ho]; simp [Op.writes, Ne.symm hne]
  · rw [← hw, hxw] at hr'; cases hr'; rfl

/-- Both write the same keys, alternately. -/
example :
    let ops := busy ++ [.begin 3]
    let more : List (Op Nat) := [.txnInsert 0 kA 7, .txnInsert 1 kA 8, .txnDelete 0 kFoo, .txnInsert 1 kAB 9, .txnInsert 0 kAB 5]
    Lawful World.init ops ∧ (∀ op ∈ ops, op.writes ≠ some 0) ∧ Lawful (exec (execAll World.init ops).2 (.txnClone 0)).2 more ∧
    (execAll (exec (execAll World.init ops).2 (.txnClone 0)).2 (more ++ [.txnGet 0 kA, .txnGet 1 kA, .txnGet 0 kAB, .txnGet 1 kAB, .txnGet 0 kFoo, .txnGet 1 kFoo])).1.drop 5 =
      [.value (some 7), .value (some 8), .value (some 5), .value (some 9), .value none, .value (some 1)] := by
  decide +kernel

/-! ### RadixTree.Clone -/

/-- A transaction deletes its only key, inserts foo and fob and deletes fob.  In the committed tree `Get(foox)`
panics; in a clone of it, it does not. -/
theorem C10_false : ¬ C10_Full Nat := fun h =>
  absurd (h [.newTree, .insert 0 (ascii ['f', 'o']) 1, .begin 1, .txnDelete 0 (ascii ['f', 'o']), .txnInsert 0 kFoo 2,
      .txnInsert 0 (ascii ['f', 'o', 'b']) 3, .txnDelete 0 (ascii ['f', 'o', 'b']), .commit 0]
    ⟨by decide +kernel, by decide +kernel⟩ 2 (ascii ['f', 'o', 'o', 'x']) (by decide +kernel)) (by decide +kernel)

/-- C10, for trees whose root is whole: the clone answers all reads, and `Len`, as the original did, and goes on to do so.
Missing: trees with a damaged root (`C10_false`). -/
theorem C10_partial (ops more : List (Op V)) (i : Nat) (t : Tree) (ht : treeAfter ops i = some t)
    (hwh : t.Whole (heapAfter ops)) (hl : Lawful World.init ((ops ++ [.cloneTree i]) ++ more)) :
    ∃ t', treeAfter ((ops ++ [.cloneTree i]) ++ more) (execAll World.init ops).2.trees.length = some t' ∧
      treeLen t' = treeLen t ∧ SameReads (heapAfter ops) t (heapAfter ((ops ++ [.cloneTree i]) ++ more)) t' ∧
      SameSeeks (heapAfter ops) t (heapAfter ((ops ++ [.cloneTree i]) ++ more)) t' := by
  obtain ⟨t', h1, h2, h3, h4⟩ := clone_tree ops i t ht hwh
  obtain ⟨b1, r2, s2⟩ := C06 (ops ++ [.cloneTree i]) more hl _ t' h1
  exact ⟨t', b1, h2, h3.trans r2, h4.trans s2⟩

example : Lawful World.init ((busy ++ [.cloneTree 3]) ++ [.insert 3 kA 7, .insert 4 kA 8]) ∧
    (treeAfter busy 3).any (fun t => ((heapAfter busy)[t.root]?).any fun c => c.partialLen = 0) = true ∧
    (execAll World.init ((busy ++ [.cloneTree 3]) ++ [.insert 3 kA 7, .insert 4 kA 8, .get 3 kA, .get 4 kA, .get 5 kA, .get 6 kA])).1.drop 7 =
      [.value (some 3), .value (some 3), .value (some 7), .value (some 8)] := by decide +kernel

/-- C10 for all histories, with panics and any misuse: at the moment it is made, the clone of a tree with a whole root
answers all reads, and `Len`, as the original did; if no transaction of the history deletes, all roots are whole. -/
theorem C10_moment_partial (ops : List (Op V)) (i : Nat) (t : Tree) (ht : treeAfter ops i = some t)
    (hwh : t.Whole (heapAfter ops) ∨ ∀ op ∈ ops, op.NoTxnDelete) :
    ∃ t', treeAfter (ops ++ [.cloneTree i]) (execAll World.init ops).2.trees.length = some t' ∧
      treeLen t' = treeLen t ∧ SameReads (heapAfter ops) t (heapAfter (ops ++ [.cloneTree i])) t' ∧
      SameSeeks (heapAfter ops) t (heapAfter (ops ++ [.cloneTree i])) t' := by
  refine clone_tree ops i t ht (hwh.elim (fun h => h) fun h => ?_)
  have hs := saneAfter True ops fun _ => h
  obtain ⟨n, hn, -⟩ := hs.trees t (List.mem_of_getElem? ht)
  exact ⟨n, hn, hs.heap.part hn⟩

/-! ### C56: where a transaction starts -/

/-- C56: a new transaction reads what its tree holds, and a clone of a transaction reads what the original reads, at the
moment it is made. -/
def C56_Full (V : Type) [Inhabited V] : Prop := ∀ ops : List (Op V), Ordinary ops → ∀ k,
  (∀ i, i < (execAll World.init ops).2.trees.length →
    (exec (exec (execAll World.init ops).2 (.begin i)).2 (.txnGet (execAll World.init ops).2.txns.length k)).1 =
      (exec (execAll World.init ops).2 (.get i k)).1) ∧
  ∀ x, x < (execAll World.init ops).2.txns.length →
    (exec (exec (execAll World.init ops).2 (.txnClone x)).2 (.txnGet (execAll World.init ops).2.txns.length k)).1 =
      (exec (execAll World.init ops).2 (.txnGet x k)).1

/-- The tree of `C10_false`: `Get(foox)` panics in the tree but not in a transaction on it. -/
theorem C56_false : ¬ C56_Full Nat := fun h =>
  absurd ((h [.newTree, .insert 0 (ascii ['f', 'o']) 1, .begin 1, .txnDelete 0 (ascii ['f', 'o']), .txnInsert 0 kFoo 2,
      .txnInsert 0 (ascii ['f', 'o', 'b']) 3, .txnDelete 0 (ascii ['f', 'o', 'b']), .commit 0]
    ⟨by decide +kernel, by decide +kernel⟩ (ascii ['f', 'o', 'o', 'x'])).1 2 (by decide +kernel)) (by decide +kernel)

/-- C56 for whole roots (all roots, if no transaction of the history deletes), in all histories, with panics and any
misuse, and for all reads: through the new transaction (its number is the next free one) and through the tree it would
commit, everything is answered as through the source: the tree given to `Txn`, or the original of `Txn.Clone`.
Missing: damaged roots (`C56_false`). -/
theorem C56_partial (ops : List (Op V)) (t : Tree)
    (hwh : t.Whole (heapAfter ops) ∨ ∀ op ∈ ops, op.NoTxnDelete) (op : Op V)
    (hop : (∃ i, op = .begin i ∧ treeAfter ops i = some t) ∨
      ∃ x r, op = .txnClone x ∧ (execAll World.init ops).2.txns[x]? = some r ∧ t = r.st.tree) :
    ∃ r', (execAll World.init (ops ++ [op])).2.txns[(execAll World.init ops).2.txns.length]? = some r' ∧
      r'.st.size = t.size ∧ (∀ k, (exec (execAll World.init (ops ++ [op])).2 (.txnGet (execAll World.init ops).2.txns.length k)).1 =
        match treeGet (heapAfter ops) t k with | .ok v => .value v | .error e => .panic e) ∧
      SameReads (heapAfter ops) t (heapAfter (ops ++ [op])) r'.st.tree ∧
      SameSeeks (heapAfter ops) t (heapAfter (ops ++ [op])) r'.st.tree := by
  have hwh' : t.Whole (heapAfter ops) := hwh.elim (fun h => h) fun h => by
    have hs := saneAfter True ops fun _ => h
    rcases hop with ⟨i, -, hi⟩ | ⟨x, r, -, hx, rfl⟩
    · obtain ⟨n, hn, -⟩ := hs.trees t (List.mem_of_getElem? hi)
      exact ⟨n, hn, hs.heap.part hn⟩
    · obtain ⟨n, hn, -⟩ := hs.txns r (List.mem_of_getElem? hx)
      exact ⟨n, hn, hs.heap.part hn⟩
  have key : ∀ (w0 : World V) (ts : TxnSt), w0.heap = heapAfter ops → w0.chans = (execAll World.init ops).2.chans →
      w0.txns.length = (execAll World.init ops).2.txns.length →
      (exec (execAll World.init ops).2 op).2 = (w0.addTxn (beginTxn t ((execAll World.init ops).2.st ts))).2 → _ := fun w0 ts e1 e2 e3 e4 =>
    clone_begin ops t hwh' op w0 ts e1 e2 e3 e4
  obtain ⟨r', h1, h2, h3, h4, h5⟩ : ∃ r', (execAll World.init (ops ++ [op])).2.txns[(execAll World.init ops).2.txns.length]? = some r' ∧
      r'.st.size = t.size ∧ r'.st.maxNodeId = t.maxNodeId ∧
      SameReads (heapAfter ops) t (heapAfter (ops ++ [op])) r'.st.tree ∧
      SameSeeks (heapAfter ops) t (heapAfter (ops ++ [op])) r'.st.tree := by
    rcases hop with ⟨i, rfl, hi⟩ | ⟨x, r, rfl, hx, rfl⟩
    · refine key (execAll World.init ops).2 default rfl rfl rfl ?_
      simp only [exec, show (execAll World.init ops).2.trees[i]? = some t from hi]
    · refine key { (execAll World.init ops).2 with txns := (execAll World.init ops).2.txns.set x r.cloned } r.st rfl rfl (by simp) ?_
      simp only [exec, hx]
      rfl
  refine ⟨r', h1, h2, fun k => ?_, h4, h5⟩
  rw [← h4.get k]
  have hg : (txnGet k ((execAll World.init (ops ++ [op])).2.st r'.st)).1 = treeGet (heapAfter (ops ++ [op])) r'.st.tree k := by
    simp only [txnGet, bind_run, M.get, lift_run, World.st]
    unfold treeGet
    rw [show r'.st.tree.root = r'.st.root from rfl]
    unfold heapAfter
    cases search (execAll World.init (ops ++ [op])).2.heap r'.st.root k <;> rfl
  rw [← hg]
  simp only [exec, World.onTxn, h1]
  rcases txnGet k ((execAll World.init (ops ++ [op])).2.st r'.st) with ⟨_ | _, _⟩ <;> rfl

example :
    let ops := busy ++ [.begin 3, .txnInsert 0 kAB 5, .txnClone 0, .begin 3]
    (treeAfter busy 3).any (fun t => ((heapAfter busy)[t.root]?).any fun c => c.partialLen = 0) = true ∧
    (execAll World.init (ops ++ [.txnGet 1 kAB, .txnGet 1 kFoo, .txnGet 2 kAB, .txnGet 2 kFoo])).1.drop 8 =
      [.value (some 5), .value (some 1), .value none, .value (some 1)] := by decide +kernel

end Art
