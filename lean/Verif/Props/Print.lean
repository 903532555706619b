import Verif.Proofs.Print
import Verif.Props.Dfs
import Verif.Proofs.CloneRead
/-
C76: printing a tree.
-/
set_option autoImplicit false
set_option linter.unusedSectionVars false
namespace Art
variable {V : Type} [Inhabited V]

/-- The store of the world, as a call sees it that belongs to no transaction. -/
def printStore (ops : List (Op V)) : St V := (execAll World.init ops).2.st default

/-- C76: `DFSPrintTree` returns, prints every node of the tree exactly once with its contents, its depth and its channels, and changes
nothing except that nodes without a channel get one. -/
def C76_Full (V : Type) [Inhabited V] : Prop := ∀ ops : List (Op V), Ordinary ops → ∀ i t, treeAfter ops i = some t →
  ∃ l s', treePrint t (printStore ops) = (.ok l, s') ∧ Lit (printStore ops) s' ∧ Printed (heapAfter ops) s'.heap t.root 0 l ∧
    (l.map (·.node)).Nodup

theorem printed_of (ops : List (Op V)) (t : Tree) (hr : ∃ n, (heapAfter ops)[t.root]? = some (.inner n)) :
    ∃ l s', treePrint t (printStore ops) = (.ok l, s') ∧ Lit (printStore ops) s' ∧ Printed (heapAfter ops) s'.heap t.root 0 l ∧
      l.map (·.node) = kindred (heapAfter ops) ((heapAfter ops).length + 1) t.root := by
  obtain ⟨rk, hj⟩ := worldAfter_ranked ops
  obtain ⟨n, hn⟩ := hr
  have hf : Firmly (heapAfter ops) := fun a n ha => by
    have := (C51 (V := V) ops).1 a n ha
    exact ⟨this.leaf, fun b hb => let ⟨m, hm⟩ := this.child b hb; ⟨_, hm⟩⟩
  exact printNode_lit (s0 := printStore ops) hj.squeeze hf ((heapAfter ops).length + 1) t.root 0 (printStore ops)
    (Nat.lt_succ_of_le (squeeze_le _ _ _)) ⟨_, hn⟩ (.refl _)

/-- C76 for the trees of every history, with panics and misuse of any sort, except that a node may be printed more than once.  All trees
read as before.  (Missing for the full statement: the slots behind the live children of a `Node4` or `Node16` may still hold a child, see
`C76_false`; it is then printed once more.) -/
theorem C76_partial (ops : List (Op V)) (i : Nat) (t : Tree) (ht : treeAfter ops i = some t) :
    ∃ l s', treePrint t (printStore ops) = (.ok l, s') ∧ Lit (printStore ops) s' ∧ Printed (heapAfter ops) s'.heap t.root 0 l ∧
      ∀ j t', treeAfter ops j = some t' → SameReads (heapAfter ops) t' s'.heap t' ∧ SameSeeks (heapAfter ops) t' s'.heap t' := by
  obtain ⟨l, s', h1, h2, h3, -⟩ := printed_of ops t ((C51 (V := V) ops).2.1 t (List.mem_of_getElem? ht))
  refine ⟨l, s', h1, h2, h3, fun j t' ht' => ?_⟩
  obtain ⟨rk, hj⟩ := worldAfter_ranked ops
  obtain ⟨n, hn⟩ := (C51 (V := V) ops).2.1 t' (List.mem_of_getElem? ht')
  have hs : Same (heapAfter ops) s'.heap (· < (heapAfter ops).length) := by
    refine ⟨fun a ha => ⟨_, List.getElem?_eq_getElem ha, fun b hb => (hj a _ b (List.getElem?_eq_getElem ha) hb).1⟩, fun a ha => ?_⟩
    obtain ⟨k, hk, -⟩ := h2.cell a _ (List.getElem?_eq_getElem ha)
    rw [hk, List.getElem?_eq_getElem ha, Option.map_some, Option.map_some, Cell.setCh_setCh]
  have hlt : t'.root < (heapAfter ops).length := (List.getElem?_eq_some_iff.1 hn).1
  exact ⟨hs.reads (Nat.le_of_eq h2.len.symm) hlt, hs.seeks (Nat.le_of_eq h2.len.symm) hlt⟩

/-- C76 for a tree with a key that never lost a key since it was last empty: the nodes that a search can come to are printed, each of
them once. -/
theorem C76_uncut_partial (ops : List (Op V)) (hc : Broad ops) (i : Nat) (hu : Uncut ops i) (t : Tree) (m : Map V)
    (ht : treeAfter ops i = some t) (hm : mapAfter ops i = some m) (hne : m ≠ []) :
    ∃ l s', treePrint t (printStore ops) = (.ok l, s') ∧ Lit (printStore ops) s' ∧ Printed (heapAfter ops) s'.heap t.root 0 l ∧
      (l.map (·.node)).Nodup ∧ ∀ a, a ∈ l.map (·.node) ↔ Leads (heapAfter ops) t.root a := by
  obtain ⟨l, s', h1, h2, h3, h4⟩ := printed_of ops t ((C51 (V := V) ops).2.1 t (List.mem_of_getElem? ht))
  letI : Removals := ⟨False⟩
  obtain ⟨E, N, hr, ha⟩ := (hc.uncut hu ht hm).entries hne
  have h5 := hr.kindred (fun h => h) _ (Nat.le_succ_of_le hr.lengthN)
  rw [← h4] at h5
  exact ⟨l, s', h1, h2, h3, h5.nodup_iff.2 hr.nodupN, fun a => h5.mem_iff.trans (hr.leads a)⟩

/-- {a, b, c}: after `Delete(b)` the node of c is printed twice. -/
theorem C76_false : ¬ C76_Full Nat := fun h => by
  obtain ⟨l, s', h1, -, -, h2⟩ := h cutOps ⟨by decide +kernel, by decide +kernel⟩ 4 (treeOf cutOps 4) (by decide +kernel)
  have h3 : ¬ (((treePrint (treeOf cutOps 4) (printStore cutOps)).1.toOption.getD []).map (·.node)).Nodup := by decide +kernel
  rw [h1] at h3
  exact h3 h2

-- the tree of demo5 has five keys, some of them prefixes of others, and a root with a channel; six nodes are printed, at depths up to three, and nine channels are made
example : ∃ l s', treePrint (treeOf demo5 5) (printStore demo5) = (.ok l, s') ∧ (l.map (·.node)).Nodup ∧ l.length = 6 ∧
    (∃ x ∈ l, x.depth = 2) ∧ s'.chans.length = (printStore demo5).chans.length + 9 := by
  obtain ⟨l, s', h1, -, -, h2, -⟩ := C76_uncut_partial demo5 (.of_loose (by decide +kernel)) 5 (by decide +kernel) (treeOf demo5 5) demo5Map
    (by decide +kernel) (by decide +kernel) (by decide)
  have h3 : ((treePrint (treeOf demo5 5) (printStore demo5)).1.toOption.getD []).length = 6 ∧
      (∃ x ∈ (treePrint (treeOf demo5 5) (printStore demo5)).1.toOption.getD [], x.depth = 2) ∧
      (treePrint (treeOf demo5 5) (printStore demo5)).2.chans.length = (printStore demo5).chans.length + 9 := by decide +kernel
  rw [h1] at h3
  exact ⟨l, s', h1, h2, h3⟩

end Art
