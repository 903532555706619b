import Verif.Proofs.Twin2
import Verif.Proofs.RankWorld
import Verif.Proofs.Counts
/-
Reading a fresh copy of a root.
-/
set_option autoImplicit false
set_option linter.unusedVariables false
set_option linter.unusedSimpArgs false
set_option linter.unusedSectionVars false
namespace Art
variable {V : Type} [Inhabited V]

theorem SameReads.trans {h h' h'' : Heap V} {t t' t'' : Tree} (h1 : SameReads h t h' t') (h2 : SameReads h' t' h'' t'') : SameReads h t h'' t'' :=
  ⟨fun k => (h2.get k).trans (h1.get k), h2.minimum.trans h1.minimum, h2.maximum.trans h1.maximum,
   fun k => (h2.longest k).trans (h1.longest k), fun fn => (h2.walk fn).trans (h1.walk fn),
   fun p f => (h2.iter p f).trans (h1.iter p f), fun q f => (h2.path q f).trans (h1.path q f),
   fun f => (h2.reverse f).trans (h1.reverse f)⟩

theorem SameSeeks.trans {h h' h'' : Heap V} {t t' t'' : Tree} (h1 : SameSeeks h t h' t') (h2 : SameSeeks h' t' h'' t'') : SameSeeks h t h'' t'' :=
  ⟨fun k f => (h2.lower k f).trans (h1.lower k f), fun p f => (h2.reversePrefix p f).trans (h1.reversePrefix p f),
   fun k e f => (h2.reverseLower k e f).trans (h1.reverseLower k e f)⟩

/-- The heap after every history is acyclic. -/
theorem worldAfter_ranked (ops : List (Op V)) : ∃ rk, Ranked rk (heapAfter ops) :=
  (execAll_fine (rk := fun _ => 0) (w := (World.init : World V)) .init (fun a c b h _ => by cases h) ops).2

/-- The copy answers as the original did. -/
theorem clone_reads {h : Heap V} {rk : Rank} (hj : Ranked rk h) {t t' : Tree} {n : Inner} {k : Option ChanId}
    (hn : h[t.root]? = some (.inner n)) (hp : n.part.length = 10 ∨ n.partialLen = 0) (ht' : t'.root = h.length) :
    SameReads h t (h.set t.root ((Cell.inner n).setCh k) ++ [(Cell.inner n).copy k]) t' ∧
    SameSeeks h t (h.set t.root ((Cell.inner n).setCh k) ++ [(Cell.inner n).copy k]) t' := by
  have hw := Swap.of_ranked hj (k := k) hn hp
  have hlt := (List.getElem?_eq_some_iff.1 hn).1
  have hs : Same h (h.set t.root ((Cell.inner n).setCh k) ++ [(Cell.inner n).copy k]) (· < h.length) := by
    refine ⟨fun a ha => ⟨_, List.getElem?_eq_getElem ha, fun b hb => (hj a _ b (List.getElem?_eq_getElem ha) hb).1⟩, ?_⟩
    exact (AgreeAll.setCh hn k).trans (.append _ _)
  have r1 := hs.reads (by simp) (t := t) hlt
  have s1 := hs.seeks (by simp) (t := t) hlt
  rw [← ht'] at hw
  generalize h.set t.root ((Cell.inner n).setCh k) ++ [(Cell.inner n).copy k] = h1 at hw r1 s1
  have htw := hw.twin
  refine ⟨r1.trans ⟨fun k => ?_, ?_, ?_, fun k => ?_, fun fn => ?_, fun p fuel => ?_, fun q fuel => ?_, fun fuel => ?_⟩,
    s1.trans ⟨fun k f => ?_, fun p f => ?_, fun k e f => ?_⟩⟩
  · rw [treeGet_eq_map, search_twin htw, ← treeGet_eq_map]
  · unfold treeMinimum; rw [minimum_twin htw]
  · unfold treeMaximum; rw [maximum_twin htw]
  · rw [longestPrefix_twin htw rfl rfl]
  · rw [treeWalk_twin htw rfl rfl]
  · rw [iterPrefix_twin htw rfl rfl]
  · rw [pathCollect_twin htw rfl rfl]
  · rw [revCollect_twin htw]
  · exact hw.iterLowerBound
  · exact hw.iterReversePrefix
  · exact hw.iterReverseLowerBound

theorem clone_tree (ops : List (Op V)) (i : Nat) (t : Tree) (ht : treeAfter ops i = some t) (hwh : t.Whole (heapAfter ops)) :
    ∃ t', treeAfter (ops ++ [.cloneTree i]) (execAll World.init ops).2.trees.length = some t' ∧
      treeLen t' = treeLen t ∧ SameReads (heapAfter ops) t (heapAfter (ops ++ [.cloneTree i])) t' ∧
      SameSeeks (heapAfter ops) t (heapAfter (ops ++ [.cloneTree i])) t' := by
  obtain ⟨n, hn, hp⟩ := hwh
  obtain ⟨rk, hj⟩ := worldAfter_ranked ops
  have htr : (execAll World.init ops).2.trees[i]? = some t := ht
  have hw1 : (execAll World.init (ops ++ [.cloneTree i])).2 = (exec (execAll World.init ops).2 (.cloneTree i)).2 :=
    execAll_snoc _ _ _
  have hrun := cloneNode_run (V := V) t.root ((execAll World.init ops).2.st default)
  rw [show ((execAll World.init ops).2.st default).heap[t.root]? = some (.inner n) from hn] at hrun
  simp only at hrun
  generalize hk : (watchCh ((execAll World.init ops).2.st default) (.inner n)) = k at hrun
  let t' : Tree := { t with root := (heapAfter ops).length }
  have hex : (exec (execAll World.init ops).2 (.cloneTree i)).2.trees = (execAll World.init ops).2.trees ++ [t'] ∧
      (exec (execAll World.init ops).2 (.cloneTree i)).2.heap =
        (heapAfter ops).set t.root ((Cell.inner n).setCh (some k.1)) ++ [(Cell.inner n).copy (some k.1)] := by
    simp only [exec, World.onTree, htr, treeClone, bind_run, hrun, pure_run]
    exact ⟨rfl, rfl⟩
  refine ⟨t', ?_, rfl, ?_⟩
  · unfold treeAfter
    rw [hw1, hex.1]; simp
  · have hheap : heapAfter (ops ++ [.cloneTree i]) =
        (heapAfter ops).set t.root ((Cell.inner n).setCh (some k.1)) ++ [(Cell.inner n).copy (some k.1)] := by
      unfold heapAfter
      rw [hw1, hex.2]; rfl
    rw [hheap]
    exact clone_reads hj hn hp rfl

/-- A call that starts a transaction on (a copy of) the root of `t`. -/
theorem clone_begin (ops : List (Op V)) (t : Tree) (hwh : t.Whole (heapAfter ops)) (op : Op V) (w0 : World V) (ts : TxnSt)
    (e1 : w0.heap = heapAfter ops) (e2 : w0.chans = (execAll World.init ops).2.chans)
    (e3 : w0.txns.length = (execAll World.init ops).2.txns.length)
    (e4 : (exec (execAll World.init ops).2 op).2 = (w0.addTxn (beginTxn t ((execAll World.init ops).2.st ts))).2) :
    ∃ r', (execAll World.init (ops ++ [op])).2.txns[(execAll World.init ops).2.txns.length]? = some r' ∧
      r'.st.size = t.size ∧ r'.st.maxNodeId = t.maxNodeId ∧
      SameReads (heapAfter ops) t (heapAfter (ops ++ [op])) { root := r'.st.root, size := r'.st.size, maxNodeId := r'.st.maxNodeId } ∧
      SameSeeks (heapAfter ops) t (heapAfter (ops ++ [op])) { root := r'.st.root, size := r'.st.size, maxNodeId := r'.st.maxNodeId } := by
  obtain ⟨n, hn, hp⟩ := hwh
  obtain ⟨rk, hj⟩ := worldAfter_ranked ops
  have hw1 : (execAll World.init (ops ++ [op])).2 = (exec (execAll World.init ops).2 op).2 := execAll_snoc _ _ _
  have hrun := cloneNode_run (V := V) t.root ((execAll World.init ops).2.st ts)
  rw [show ((execAll World.init ops).2.st ts).heap[t.root]? = some (.inner n) from hn] at hrun
  simp only at hrun
  generalize hk : (watchCh ((execAll World.init ops).2.st ts) (.inner n)) = k at hrun
  rw [beginTxn_run, hrun] at e4
  have e5 : (exec (execAll World.init ops).2 op).2.heap = (heapAfter ops).set t.root ((Cell.inner n).setCh (some k.1)) ++ [(Cell.inner n).copy (some k.1)] := by
    rw [e4]; rfl
  have e6 : (exec (execAll World.init ops).2 op).2.txns = w0.txns ++ [{ st := startTxn t (heapAfter ops).length, ended := false, copied := false }] := by
    rw [e4]; rfl
  refine ⟨{ st := startTxn t (heapAfter ops).length, ended := false, copied := false }, ?_, rfl, rfl, ?_⟩
  · rw [hw1, e6, ← e3]; simp
  · have hheap : heapAfter (ops ++ [op]) =
        (heapAfter ops).set t.root ((Cell.inner n).setCh (some k.1)) ++ [(Cell.inner n).copy (some k.1)] := by
      unfold heapAfter
      rw [hw1, e5]; rfl
    rw [hheap]
    exact clone_reads hj hn hp rfl
end Art
