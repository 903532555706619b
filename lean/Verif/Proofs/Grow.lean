import Verif.Proofs.RankWorld
/-
How many nodes a call allocates: `Grows n m` says that `m`, wherever it is run and however it ends, leaves a heap
that has at most `n` more cells.
-/
set_option autoImplicit false
set_option linter.unusedVariables false
set_option linter.unusedSimpArgs false
set_option linter.unusedSectionVars false
namespace Art
variable {V : Type} {α β : Type}

/-- `m` allocates at most `n` cells. -/
structure Grows (n : Nat) (m : M V α) : Prop where
  le : ∀ s, (m s).2.heap.length ≤ s.heap.length + n

variable {n a b : Nat} {m : M V α} {f : α → M V β}

theorem Grows.mono (h : Grows a m) (hab : a ≤ b) : Grows b m := ⟨fun s => Nat.le_trans (h.le s) (Nat.add_le_add_left hab _)⟩

theorem Grows.bind' (h : Grows a m) (hf : ∀ x, Grows b (f x)) (hn : a + b ≤ n) : Grows n (m >>= f) := ⟨fun s => by
  rw [bind_run]
  have h1 := h.le s
  match hm : m s with
  | (.ok x, s') =>
    rw [hm] at h1
    have h2 := (hf x).le s'
    simp only at h1 h2 ⊢
    omega
  | (.error e, s') =>
    rw [hm] at h1
    simp only at h1 ⊢
    omega⟩

/-- The first part allocates nothing. -/
theorem Grows.bind (h : Grows 0 m) (hf : ∀ x, Grows n (f x)) : Grows n (m >>= f) := Grows.bind' h hf (by omega)
/-- The first part allocates one cell. -/
theorem Grows.bind1 (h : Grows 1 m) (hf : ∀ x, Grows n (f x)) : Grows (n + 1) (m >>= f) := Grows.bind' h hf (by omega)
/-- The first part allocates two cells. -/
theorem Grows.bind2 (h : Grows 2 m) (hf : ∀ x, Grows n (f x)) : Grows (n + 2) (m >>= f) := Grows.bind' h hf (by omega)

theorem Grows.pure (x : α) : Grows n (Pure.pure x : M V α) := ⟨fun s => Nat.le_add_right _ _⟩
theorem Grows.throw (e : Err) : Grows n (M.throw e : M V α) := ⟨fun s => Nat.le_add_right _ _⟩
theorem Grows.lift (r : R α) : Grows n (M.lift r : M V α) := ⟨fun s => by rw [lift_run]; exact Nat.le_add_right _ _⟩
theorem Grows.get : Grows n (M.get : M V (St V)) := ⟨fun s => Nat.le_add_right _ _⟩
theorem Grows.txnSt : Grows n (Art.txnSt : M V TxnSt) := ⟨fun s => Nat.le_add_right _ _⟩
theorem Grows.modTxn (f : TxnSt → TxnSt) : Grows n (Art.modTxn f : M V Unit) := ⟨fun s => Nat.le_add_right _ _⟩
theorem Grows.assert (p : Prop) [Decidable p] (e : Err) : Grows n (M.assert p e : M V Unit) := ⟨fun s => by
  unfold M.assert
  split <;> exact Nat.le_add_right _ _⟩
theorem Grows.cell (x : Addr) : Grows n (Art.cell x : M V (Cell V)) := ⟨fun s => by
  unfold Art.cell
  exact Nat.le_add_right _ _⟩
theorem Grows.innerAt (x : Addr) : Grows n (Art.innerAt x : M V Inner) := ⟨fun s => by
  unfold Art.innerAt
  exact Nat.le_add_right _ _⟩
theorem Grows.leafAt (x : Addr) : Grows n (Art.leafAt x : M V (LeafC V)) := ⟨fun s => by
  unfold Art.leafAt
  exact Nat.le_add_right _ _⟩
theorem Grows.wr (x : Addr) (c : Cell V) : Grows n (Art.wr x c : M V Unit) := ⟨fun s => by
  show (s.heap.set x c).length ≤ _
  rw [List.length_set]
  exact Nat.le_add_right _ _⟩
theorem Grows.wrCh (x : Addr) (k : ChanId) : Grows n (Art.wrCh x k : M V Unit) := ⟨fun s => by
  obtain ⟨c, hc⟩ := setChan_set s.heap x k
  show (setChan s.heap x k).length ≤ _
  rw [hc, List.length_set]
  exact Nat.le_add_right _ _⟩
theorem Grows.claimCh (x : Addr) (k : ChanId) : Grows n (Art.claimCh x k : M V ChanId) := ⟨fun s => by
  obtain ⟨c, hc⟩ := setChan_set s.heap x k
  unfold Art.claimCh
  dsimp only
  split
  · show (setChan s.heap x k).length ≤ _
    rw [hc, List.length_set]
    exact Nat.le_add_right _ _
  · exact Nat.le_add_right _ _⟩
theorem Grows.newCell (c : Cell V) : Grows (n + 1) (Art.newCell c : M V Addr) := ⟨fun s => by
  show (s.heap ++ [c]).length ≤ _
  rw [List.length_append, List.length_singleton]
  omega⟩
theorem Grows.newChan : Grows n (Art.newChan : M V ChanId) := ⟨fun s => Nat.le_add_right _ _⟩

/-- Take the code apart; parts that may allocate are left to the caller. -/
macro "grow" : tactic => `(tactic| repeat' (with_reducible first
  | exact Grows.pure _ | exact Grows.throw _ | exact Grows.lift _ | exact Grows.get | exact Grows.txnSt | exact Grows.modTxn _
  | exact Grows.assert _ _ | exact Grows.cell _ | exact Grows.innerAt _ | exact Grows.leafAt _ | exact Grows.wr _ _ | exact Grows.wrCh _ _ | exact Grows.claimCh _ _ | exact Grows.newChan
  | refine Grows.bind (Grows.lift _) fun _ => ?_ | refine Grows.bind Grows.get fun _ => ?_ | refine Grows.bind Grows.txnSt fun _ => ?_
  | refine Grows.bind (Grows.modTxn _) fun _ => ?_ | refine Grows.bind (Grows.assert _ _) fun _ => ?_
  | refine Grows.bind (Grows.cell _) fun _ => ?_ | refine Grows.bind (Grows.innerAt _) fun _ => ?_
  | refine Grows.bind (Grows.leafAt _) fun _ => ?_ | refine Grows.bind (Grows.wr _ _) fun _ => ?_ | refine Grows.bind (Grows.wrCh _ _) fun _ => ?_
  | refine Grows.bind Grows.newChan fun _ => ?_ | split | dsimp only))

theorem Grows.getMutateCh (x : Addr) : Grows n (Art.getMutateCh x : M V ChanId) := by unfold Art.getMutateCh; grow
theorem Grows.trackChannel (x : Option Addr) : Grows n (Art.trackChannel x : M V Unit) := by
  unfold Art.trackChannel
  grow
  refine Grows.bind (Grows.getMutateCh _) fun _ => ?_
  grow
theorem Grows.keepCh (x : Addr) (k : Bool) : Grows n (Art.keepCh x k : M V _) := by
  unfold Art.keepCh
  grow
  refine Grows.bind (Grows.getMutateCh _) fun _ => ?_
  grow
theorem Grows.cloneNode (x : Addr) (k : Bool) : Grows (n + 1) (Art.cloneNode x k : M V Addr) := by
  unfold Art.cloneNode
  refine Grows.bind (Grows.keepCh _ _) fun _ => ?_
  grow
  · exact Grows.newCell _
  · exact Grows.newCell _
theorem Grows.bumpId (x : Addr) : Grows n (Art.bumpId x : M V Unit) := by unfold Art.bumpId; grow
theorem Grows.trackNode (x : Addr) (k : Bool) : Grows n (Art.trackNode x k : M V Unit) := by
  unfold Art.trackNode
  grow
  refine Grows.bind (Grows.trackChannel _) fun _ => ?_
  grow
  exact Grows.trackChannel _
theorem Grows.writeNode (x : Addr) (k : Bool) : Grows (n + 1) (Art.writeNode x k : M V Addr) := by
  unfold Art.writeNode
  refine Grows.bind (Grows.trackNode _ _) fun _ => ?_
  grow
  refine Grows.bind1 (Grows.cloneNode (n := 0) _ _) fun _ => Grows.bind (Grows.bumpId _) fun _ => Grows.pure _
theorem Grows.allocInner (k : Kind) : Grows (n + 1) (Art.allocInner k : M V Addr) := by
  unfold Art.allocInner
  exact Grows.bind1 (Grows.newCell (n := 0) _) fun _ => Grows.bind (Grows.bumpId _) fun _ => Grows.pure _
theorem Grows.allocLeaf (k : Key) (v : V) : Grows (n + 1) (Art.allocLeaf k v : M V Addr) := by
  unfold Art.allocLeaf
  exact Grows.bind1 (Grows.newCell (n := 0) _) fun _ => Grows.bind (Grows.bumpId _) fun _ => Grows.pure _
theorem Grows.setNodeLeaf (x : Addr) (l : Option Addr) : Grows n (Art.setNodeLeaf x l : M V Unit) := by unfold Art.setNodeLeaf; grow
theorem Grows.setChildAt (x : Addr) (i : Nat) (c : Option Addr) : Grows n (Art.setChildAt x i c : M V Unit) := by unfold Art.setChildAt; grow
theorem Grows.makeLeaf (k : Key) (v : V) : Grows (n + 2) (Art.makeLeaf k v : M V Addr) := by
  unfold Art.makeLeaf
  refine Grows.bind1 (Grows.allocLeaf (n := 0) _ _) fun l => Grows.bind (Grows.bumpId _) fun _ => ?_
  refine Grows.bind1 (Grows.allocInner (n := 0) _) fun x => Grows.bind (Grows.setNodeLeaf _ _) fun _ => Grows.bind (Grows.bumpId _) fun _ => Grows.pure _
theorem Grows.copyHeader (x y : Addr) : Grows n (Art.copyHeader x y : M V Unit) := by unfold Art.copyHeader; grow
theorem Grows.moveLeaf (x y : Addr) : Grows (n + 1) (Art.moveLeaf x y : M V Unit) := by
  unfold Art.moveLeaf
  grow
  exact Grows.bind1 (Grows.writeNode (n := 0) _ _) fun _ => Grows.setNodeLeaf _ _

theorem Grows.addChild256 (x : Addr) (c : Byte) (y : Addr) : Grows n (Art.addChild256 x c y : M V Addr) := by unfold Art.addChild256; grow
theorem Grows.addChild48 (x : Addr) (c : Byte) (y : Addr) : Grows (n + 2) (Art.addChild48 x c y : M V Addr) := by
  unfold Art.addChild48
  grow
  refine Grows.bind1 (Grows.allocInner (n := 0) _) fun _ => Grows.bind1 (Grows.moveLeaf (n := 0) _ _) fun _ => ?_
  grow
  exact Grows.bind (Grows.copyHeader _ _) fun _ => Grows.addChild256 ..
theorem Grows.addChild16 (x : Addr) (c : Byte) (y : Addr) : Grows (n + 4) (Art.addChild16 x c y : M V Addr) := by
  unfold Art.addChild16
  grow
  refine Grows.bind1 (Grows.allocInner (n := 0) _) fun _ => Grows.bind1 (Grows.moveLeaf (n := 0) _ _) fun _ => ?_
  grow
  exact Grows.bind (Grows.copyHeader _ _) fun _ => Grows.addChild48 ..
theorem Grows.addChild4 (x : Addr) (c : Byte) (y : Addr) : Grows (n + 6) (Art.addChild4 x c y : M V Addr) := by
  unfold Art.addChild4
  grow
  refine Grows.bind1 (Grows.allocInner (n := 0) _) fun _ => Grows.bind1 (Grows.moveLeaf (n := 0) _ _) fun _ => ?_
  grow
  exact Grows.bind (Grows.copyHeader _ _) fun _ => Grows.addChild16 ..
theorem Grows.addChild (x : Addr) (c : Byte) (y : Addr) : Grows (n + 6) (Art.addChild x c y : M V Addr) := by
  unfold Art.addChild
  grow
  · exact Grows.addChild4 ..
  · exact (Grows.addChild16 (n := n) ..).mono (by omega)
  · exact (Grows.addChild48 (n := n) ..).mono (by omega)
  · exact Grows.addChild256 ..
theorem Grows.addChildAt (x : Addr) (k : Key) (i : Nat) (y : Addr) : Grows (n + 6) (Art.addChildAt x k i y : M V Addr) := by
  unfold Art.addChildAt
  grow
  exact Grows.addChild ..

theorem Grows.clearTail (x : Addr) : ∀ (k i : Nat), Grows n (Art.clearTail x k i : M V Unit)
  | 0, _ => Grows.pure _
  | k + 1, i => by
    unfold Art.clearTail
    grow
    exact Grows.bind (Grows.trackChannel _) fun _ => Grows.bind (Grows.setChildAt _ _ _) fun _ => Grows.clearTail x k _
theorem Grows.removeSorted (x : Addr) (c : Byte) : Grows n (Art.removeSorted x c : M V Unit) := by
  unfold Art.removeSorted
  grow
  refine Grows.bind (Grows.clearTail _ _ _) fun _ => ?_
  grow
theorem Grows.removeChild4 (x : Addr) (c : Byte) : Grows (n + 1) (Art.removeChild4 x c : M V Addr) := by
  unfold Art.removeChild4
  refine Grows.bind (Grows.removeSorted _ _) fun _ => ?_
  grow
  refine Grows.bind1 (Grows.writeNode (n := 0) _ _) fun _ => ?_
  grow
  exact Grows.bind (Grows.trackChannel _) fun _ => Grows.pure _
theorem Grows.removeChild16 (x : Addr) (c : Byte) : Grows (n + 2) (Art.removeChild16 x c : M V Addr) := by
  unfold Art.removeChild16
  refine Grows.bind (Grows.removeSorted _ _) fun _ => ?_
  grow
  refine Grows.bind (Grows.trackChannel _) fun _ => Grows.bind1 (Grows.allocInner (n := 0) _) fun _ => Grows.bind (Grows.copyHeader _ _) fun _ => ?_
  grow
  exact Grows.bind1 (Grows.moveLeaf (n := 0) _ _) fun _ => Grows.bind (Grows.setNodeLeaf _ _) fun _ => Grows.pure _
theorem Grows.removeChild48 (x : Addr) (c : Byte) : Grows (n + 2) (Art.removeChild48 x c : M V Addr) := by
  unfold Art.removeChild48
  grow
  refine Grows.bind (Grows.trackChannel _) fun _ => Grows.bind (Grows.setChildAt _ _ _) fun _ => ?_
  grow
  refine Grows.bind1 (Grows.allocInner (n := 0) _) fun _ => Grows.bind (Grows.trackChannel _) fun _ => Grows.bind (Grows.copyHeader _ _) fun _ =>
    Grows.bind1 (Grows.moveLeaf (n := 0) _ _) fun _ => ?_
  grow
theorem Grows.removeChild256 (x : Addr) (c : Byte) : Grows (n + 2) (Art.removeChild256 x c : M V Addr) := by
  unfold Art.removeChild256
  refine Grows.bind (Grows.setChildAt _ _ _) fun _ => ?_
  grow
  refine Grows.bind1 (Grows.allocInner (n := 0) _) fun _ => Grows.bind (Grows.copyHeader _ _) fun _ => Grows.bind (Grows.trackChannel _) fun _ =>
    Grows.bind1 (Grows.moveLeaf (n := 0) _ _) fun _ => ?_
  grow
theorem Grows.removeChild (x : Addr) (c : Byte) : Grows (n + 2) (Art.removeChild x c : M V Addr) := by
  unfold Art.removeChild
  grow
  · exact (Grows.removeChild4 (n := n) ..).mono (by omega)
  · exact Grows.removeChild16 ..
  · exact Grows.removeChild48 ..
  · exact Grows.removeChild256 ..

section
variable [Inhabited V]

theorem Grows.insertUpdateLeaf (x : Addr) (o : V) (k : Key) (v : V) : Grows (n + 2) (Art.insertUpdateLeaf x o k v : M V (InsRes V)) := by
  unfold Art.insertUpdateLeaf
  exact Grows.bind1 (Grows.writeNode (n := 0) _ _) fun _ => Grows.bind1 (Grows.allocLeaf (n := 0) _ _) fun _ => Grows.bind (Grows.setNodeLeaf _ _) fun _ => Grows.pure _
theorem Grows.insertPair (x y z u w : Addr) (k k' : Key) (i : Nat) : Grows (n + 12) (Art.insertPair x y z u w k k' i : M V Addr) := by
  unfold Art.insertPair
  grow
  · refine Grows.bind (Grows.trackChannel _) fun _ => Grows.bind (Grows.setNodeLeaf _ _) fun _ => Grows.bind (Grows.lift _) fun _ => ?_
    exact (Grows.addChild (n := n) _ _ _).mono (by omega)
  · refine Grows.bind (Grows.setNodeLeaf _ _) fun _ => Grows.bind (Grows.lift _) fun _ => ?_
    exact (Grows.addChild (n := n) _ _ _).mono (by omega)
  · exact Grows.bind' (Grows.addChildAt (n := 0) _ _ _ _) (fun _ => Grows.addChildAt (n := n) _ _ _ _) (by omega)
theorem Grows.insertSplitLeaf (x y : Addr) (k k' : Key) (v : V) (d : Nat) : Grows (n + 16) (Art.insertSplitLeaf x y k k' v d : M V (InsRes V)) := by
  unfold Art.insertSplitLeaf
  refine Grows.bind2 (n := n + 14) (Grows.makeLeaf (n := 0) _ _) fun _ => ?_
  grow
  refine Grows.bind (Grows.trackChannel _) fun _ => Grows.bind1 (n := n + 13) (Grows.writeNode (n := 0) _ _) fun _ => Grows.bind (Grows.lift _) fun _ =>
    Grows.bind1 (n := n + 12) (Grows.allocInner (n := 0) _) fun _ => ?_
  grow
  exact Grows.bind' (Grows.insertPair (n := 0) ..) (fun _ => Grows.pure (n := n) _) (by omega)
theorem Grows.insertAtLeaf (x y : Addr) (k : Key) (v : V) (d : Nat) : Grows (n + 16) (Art.insertAtLeaf x y k v d : M V (InsRes V)) := by
  unfold Art.insertAtLeaf
  grow
  · exact (Grows.insertUpdateLeaf (n := n) ..).mono (by omega)
  · exact Grows.insertSplitLeaf ..
theorem Grows.leafClash (i : Inner) (k : Key) : Grows n (Art.leafClash i k : M V Bool) := by unfold Art.leafClash; grow
theorem Grows.insertNoChild (x : Addr) (k : Key) (v : V) (d : Nat) : Grows (n + 9) (Art.insertNoChild x k v d : M V (InsRes V)) := by
  unfold Art.insertNoChild
  refine Grows.bind2 (n := n + 7) (Grows.makeLeaf (n := 0) _ _) fun _ => ?_
  grow
  refine Grows.bind (Grows.leafClash _ _) fun _ => Grows.bind (Grows.trackChannel _) fun _ => Grows.bind1 (n := n + 6) (Grows.writeNode (n := 0) _ _) fun _ => ?_
  grow
  · exact Grows.bind' (Grows.allocInner (n := 0) _) (fun _ => Grows.throw (n := 0) _) (by omega)
  · exact Grows.bind' (Grows.addChildAt (n := 0) ..) (fun _ => Grows.pure (n := n) _) (by omega)
theorem Grows.splitChild (x y : Addr) (p d q : Nat) : Grows (n + 6) (Art.splitChild x y p d q : M V Addr) := by
  unfold Art.splitChild Art.splitShort Art.splitLong
  grow
  · refine Grows.bind' (Grows.addChild (n := 0) ..) (b := n) (fun _ => ?_) (by omega)
    grow
  · refine Grows.bind' (Grows.addChild (n := 0) ..) (b := n) (fun _ => ?_) (by omega)
    grow
theorem Grows.insertSplit (x : Addr) (k : Key) (v : V) (d q : Nat) : Grows (n + 16) (Art.insertSplit x k v d q : M V (InsRes V)) := by
  unfold Art.insertSplit
  refine Grows.bind1 (n := n + 15) (Grows.allocInner (n := 0) _) fun _ => ?_
  grow
  refine Grows.bind (Grows.trackChannel _) fun _ => Grows.bind1 (n := n + 14) (Grows.writeNode (n := 0) _ _) fun _ => ?_
  refine Grows.bind' (Grows.splitChild (n := 0) ..) (b := n + 8) (fun _ => ?_) (by omega)
  refine Grows.bind2 (n := n + 6) (Grows.makeLeaf (n := 0) _ _) fun _ => ?_
  exact Grows.bind' (Grows.addChildAt (n := 0) ..) (fun _ => Grows.pure (n := n) _) (by omega)
theorem Grows.insertReplace (x y : Addr) (i : Nat) (r : InsRes V) : Grows (n + 1) (Art.insertReplace x y i r : M V (InsRes V)) := by
  unfold Art.insertReplace
  grow
  exact Grows.bind (Grows.trackChannel _) fun _ => Grows.bind1 (Grows.writeNode (n := 0) _ _) fun _ => Grows.bind (Grows.setChildAt _ _ _) fun _ => Grows.pure _
omit [Inhabited V] in
theorem Grows.leafHit (c : Cell V) (k : Key) : Grows n (Art.leafHit c k : M V (Option Addr)) := by unfold Art.leafHit; grow
theorem Grows.insertHit (x l : Addr) (v : V) : Grows (n + 2) (Art.insertHit x l v : M V (InsRes V)) := by
  unfold Art.insertHit
  refine Grows.bind1 (Grows.writeNode (n := 0) _ _) fun _ => ?_
  grow
  exact Grows.bind1 (Grows.writeNode (n := 0) _ _) fun _ => Grows.bind (Grows.setNodeLeaf _ _) fun _ => Grows.pure _
theorem Grows.insertNew (x : Addr) (k : Key) (v : V) (d : Nat) : Grows (n + 9) (Art.insertNew x k v d : M V (InsRes V)) := by
  unfold Art.insertNew
  refine Grows.bind2 (n := n + 7) (Grows.makeLeaf (n := 0) _ _) fun _ => ?_
  grow
  refine Grows.bind (Grows.trackChannel _) fun _ => Grows.bind1 (n := n + 6) (Grows.writeNode (n := 0) _ _) fun _ => Grows.bind (Grows.lift _) fun _ => ?_
  exact Grows.bind' (Grows.addChild (n := 0) ..) (fun _ => Grows.pure (n := n) _) (by omega)
theorem Grows.insertEmpty (x : Addr) (k : Key) (v : V) : Grows (n + 2) (Art.insertEmpty x k v : M V (InsRes V)) := by
  unfold Art.insertEmpty
  exact Grows.bind1 (Grows.writeNode (n := 0) _ _) fun _ => Grows.bind1 (Grows.allocLeaf (n := 0) _ _) fun _ => Grows.bind (Grows.setNodeLeaf _ _) fun _ => Grows.pure _

/-- Going down one edge costs one cell, the end of the path at most sixteen. -/
theorem Grows.recursiveInsert (k : Key) (v : V) : ∀ (f : Nat) (x : Addr) (d : Nat), Grows (f + 15) (Art.recursiveInsert f x k v d : M V (InsRes V))
  | 0, _, _ => by unfold Art.recursiveInsert; exact Grows.throw _
  | f + 1, x, d => by
    have h16 : ∀ {m : M V (InsRes V)}, Grows 16 m → Grows (f + 1 + 15) m := fun h => h.mono (by omega)
    unfold Art.recursiveInsert
    refine Grows.bind Grows.txnSt fun t => ?_
    split
    · exact h16 ((Grows.insertEmpty (n := 0) ..).mono (by omega))
    refine Grows.bind (Grows.cell _) fun c => ?_
    split
    · exact h16 (Grows.insertAtLeaf (n := 0) ..)
    refine Grows.bind (Grows.leafHit _ _) fun l => ?_
    split
    · exact h16 ((Grows.insertHit (n := 0) ..).mono (by omega))
    grow
    · exact Grows.bind' (Grows.recursiveInsert k v f _ _) (fun _ => Grows.insertReplace (n := 0) ..) (by omega)
    · exact h16 ((Grows.insertNoChild (n := 0) ..).mono (by omega))
    · exact h16 ((Grows.insertNoChild (n := 0) ..).mono (by omega))
    · exact h16 (Grows.insertSplit (n := 0) ..)
    · exact Grows.bind' (Grows.recursiveInsert k v f _ _) (fun _ => Grows.insertReplace (n := 0) ..) (by omega)
    · exact h16 ((Grows.insertNew (n := 0) ..).mono (by omega))

theorem Grows.txnInsert (k : Key) (v : V) : Grows (k.length + 17) (Art.txnInsert k v : M V (V × Bool)) := by
  unfold Art.txnInsert
  refine Grows.bind Grows.txnSt fun t => ?_
  refine Grows.bind' (Grows.recursiveInsert (getTreeKey k) v _ _ _) (b := 0) (fun _ => ?_) (by simp [getTreeKey])
  grow

end

/-! ### Delete -/

theorem Grows.deleteHit (x l : Addr) : Grows (n + 1) (Art.deleteHit x l : M V DelRes) := by
  unfold Art.deleteHit
  refine Grows.bind1 (Grows.writeNode (n := 0) _ _) fun _ => Grows.bind (Grows.setNodeLeaf _ _) fun _ => ?_
  grow
theorem Grows.deleteReplace (x y : Addr) (i : Nat) (b : Byte) (r : DelRes) : Grows (n + 3) (Art.deleteReplace x y i b r : M V Addr) := by
  unfold Art.deleteReplace
  by_cases hr : r.node ≠ some y ∨ r.leaf.isSome
  case neg => rw [if_neg hr]; exact Grows.pure _
  rw [if_pos hr]
  refine Grows.bind (Grows.trackChannel _) fun _ => Grows.bind1 (n := n + 2) (Grows.writeNode (n := 0) _ _) fun _ => Grows.bind (Grows.setChildAt _ _ _) fun _ => ?_
  grow
  exact Grows.removeChild ..
theorem Grows.deleteFinish (x : Addr) (r : DelRes) : Grows n (Art.deleteFinish x r : M V DelRes) := by unfold Art.deleteFinish; grow

/-- Going up one edge costs at most three cells. -/
theorem Grows.recursiveDelete (k : Key) : ∀ (f : Nat) (x : Addr) (d : Nat), Grows (3 * f) (Art.recursiveDelete f x k d : M V DelRes)
  | 0, _, _ => by unfold Art.recursiveDelete; exact Grows.throw _
  | f + 1, x, d => by
    unfold Art.recursiveDelete
    refine Grows.bind (Grows.cell _) fun c => Grows.bind (Grows.trackChannel _) fun _ => ?_
    split
    · exact Grows.pure _
    refine Grows.bind (Grows.leafHit _ _) fun l => ?_
    split
    · exact (Grows.deleteHit (n := 0) ..).mono (by omega)
    grow
    refine Grows.bind' (Grows.recursiveDelete k f _ _) (b := 3) (fun _ => ?_) (by omega)
    exact Grows.bind' (Grows.deleteReplace (n := 0) ..) (fun _ => Grows.deleteFinish (n := 0) ..) (by omega)

section
variable [Inhabited V]

theorem Grows.setRoot (x : Option Addr) : Grows (n + 2) (Art.setRoot x : M V Unit) := by
  unfold Art.setRoot Art.resetRoot
  grow
  refine Grows.bind1 (Grows.newCell (n := 0) _) fun _ => Grows.bind1 (Grows.newCell (n := 0) _) fun _ => ?_
  grow

theorem Grows.txnDelete (k : Key) : Grows (3 * k.length + 8) (Art.txnDelete k : M V (V × Bool)) := by
  unfold Art.txnDelete
  refine Grows.bind Grows.txnSt fun t => ?_
  refine Grows.bind' (Grows.recursiveDelete (getTreeKey k) _ _ _) (b := 2) (fun _ => ?_) (by simp [getTreeKey]; omega)
  refine Grows.bind2 (Grows.setRoot (n := 0) _) fun _ => ?_
  grow
  refine Grows.bind (Grows.trackChannel _) fun _ => ?_
  grow

end

/-! ### Calls -/

theorem Grows.txnNotify : Grows n (Art.txnNotify : M V Unit) := ⟨fun s => by
  rw [notify_run]
  exact Nat.le_add_right _ _⟩
theorem Grows.txnCommitOnly : Grows n (Art.txnCommitOnly : M V Tree) := by unfold Art.txnCommitOnly; grow
theorem Grows.txnCommit : Grows n (Art.txnCommit : M V Tree) := by
  unfold Art.txnCommit
  exact Grows.bind Grows.txnCommitOnly fun _ => Grows.bind Grows.txnNotify fun _ => Grows.pure _
theorem Grows.beginTxn (t : Tree) : Grows (n + 1) (Art.beginTxn t : M V TxnSt) := by
  unfold Art.beginTxn
  exact Grows.bind1 (Grows.cloneNode (n := 0) _ _) fun _ => Grows.pure _
theorem Grows.withTxn (h : Grows n m) (ts : TxnSt) : Grows n (Art.withTxn ts m) := by
  unfold Art.withTxn
  exact Grows.bind (Grows.modTxn _) fun _ => h
theorem Grows.treeGetWatch (t : Tree) (k : Key) : Grows n (Art.treeGetWatch t k : M V _) := by
  unfold Art.treeGetWatch
  grow
  exact Grows.bind (Grows.getMutateCh _) fun _ => Grows.pure _
theorem Grows.seekPrefixWatch (i : Iter) (k : Key) : Grows n (Art.seekPrefixWatch i k : M V _) := by
  unfold Art.seekPrefixWatch
  grow
  exact Grows.bind (Grows.getMutateCh _) fun _ => Grows.pure _

theorem Grows.onTree {w : World V} {t : Nat} {f : Tree → M V α} {out : α → Out V × List Tree} (hf : ∀ tr, Grows n (f tr)) :
    (w.onTree t f out).2.heap.length ≤ w.heap.length + n := by
  unfold World.onTree
  split
  · exact Nat.le_add_right _ _
  · next tr _ =>
    have := (hf tr).le (w.st default)
    split
    · next h => rw [h] at this; exact this
    · next h => rw [h] at this; exact this
theorem Grows.onTxn {w : World V} {x : Nat} {out : α → Out V × List Tree} {mark : TxnRec → TxnRec} (hf : Grows n m) :
    (w.onTxn x m out mark).2.heap.length ≤ w.heap.length + n := by
  unfold World.onTxn
  split
  · exact Nat.le_add_right _ _
  · next r _ =>
    have := hf.le (w.st r.st)
    split
    · next h => rw [h] at this; exact this
    · next h => rw [h] at this; exact this
theorem Grows.addTxn {w : World V} {m : M V TxnSt} {s : St V} (hf : Grows n m) : (w.addTxn (m s)).2.heap.length ≤ s.heap.length + n := by
  have := hf.le s
  unfold World.addTxn
  split
  · next h => rw [h] at this; exact this
  · next h => rw [h] at this; exact this

end Art
