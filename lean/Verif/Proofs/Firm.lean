import Verif.Proofs.PoolInv
/-
What the code does to the channels when it runs alone: the channels that it makes are new, it sets the channel of a node only
if the node has none or gets a new one, and it closes only channels that it tracks.
-/
set_option autoImplicit false
set_option linter.unusedVariables false
set_option linter.unusedSimpArgs false
set_option linter.unusedSectionVars false
namespace Art
variable {V : Type} {α β : Type} [Lim]

theorem Code.Firm.bind {p : Code V α} {f : α → Code V β} {s : St V} (h : p.Firm s) (hl : Lim.limit ≤ s.chans.length)
    (hf : ∀ a (s' : St V), Lim.limit ≤ s'.chans.length → (f a).Firm s') : (p.bind f).Firm s := by
  induction p generalizing s with
  | done r =>
    cases r with
    | ok a => exact hf a s hl
    | error e => exact trivial
  | look k ih => exact ih _ h hl
  | read a k ih => exact ih _ h hl
  | write a c k ih => exact ih h hl
  | store a c k ih => exact ih h hl
  | alloc c k ih => exact ih _ h hl
  | make k ih => exact ⟨h.1, ih _ h.2 (by simp only [List.length_append]; exact Nat.le_add_right_of_le hl)⟩
  | own g k ih => exact ih _ h hl
  | claim a c k ih => exact ⟨h.1, ih _ h.2 hl⟩
  | load a c k ih => exact ⟨h.1, ih _ h.2 hl⟩
  | test c k ih => exact ih _ h hl
  | shut c k ih => exact ⟨h.1, ih h.2 (by simp only [List.length_set]; exact hl)⟩

/-- Code that is firm when all compared channels are there. -/
class Firms (m : M V α) : Prop where
  firm : ∀ s : St V, Lim.limit ≤ s.chans.length → m.code.Firm s

instance Firms.bind {m : M V α} {f : α → M V β} [h : Firms m] [hf : ∀ a, Firms (f a)] : Firms (m >>= f) :=
  ⟨fun s hl => (h.firm s hl).bind hl fun a s' hl' => (hf a).firm s' hl'⟩
instance Firms.pure (a : α) : Firms (Pure.pure a : M V α) := ⟨fun _ _ => trivial⟩
instance Firms.throw (e : Err) : Firms (M.throw e : M V α) := ⟨fun _ _ => trivial⟩
instance Firms.lift (r : R α) : Firms (M.lift r : M V α) := ⟨fun _ _ => trivial⟩
instance Firms.assert (p : Prop) [Decidable p] (e : Err) : Firms (M.assert p e : M V Unit) := ⟨fun _ _ => trivial⟩
instance Firms.get : Firms (M.get : M V (St V)) := ⟨fun _ _ => trivial⟩
instance Firms.cell (a : Addr) : Firms (Art.cell a : M V (Cell V)) := ⟨fun _ _ => trivial⟩
instance Firms.innerAt (a : Addr) : Firms (Art.innerAt a : M V Inner) := ⟨fun _ _ => trivial⟩
instance Firms.leafAt (a : Addr) : Firms (Art.leafAt a : M V (LeafC V)) := ⟨fun _ _ => trivial⟩
instance Firms.wr (a : Addr) (c : Cell V) : Firms (Art.wr a c : M V Unit) := ⟨fun _ _ => trivial⟩
instance Firms.wrCh (a : Addr) (k : ChanId) : Firms (Art.wrCh a k : M V Unit) := ⟨fun _ _ => trivial⟩
instance Firms.newCell (c : Cell V) : Firms (Art.newCell c : M V Addr) := ⟨fun _ _ => trivial⟩
instance Firms.newChan : Firms (Art.newChan : M V ChanId) := ⟨fun _ hl => ⟨hl, trivial⟩⟩
instance Firms.txnSt : Firms (Art.txnSt : M V TxnSt) := ⟨fun _ _ => trivial⟩
instance Firms.modTxn (f : TxnSt → TxnSt) : Firms (Art.modTxn f : M V Unit) := ⟨fun _ _ => trivial⟩

/-- Take the code apart. -/
macro "firms" : tactic => `(tactic| repeat' (first
  | infer_instance | refine @Firms.bind _ _ _ _ _ _ ?_ fun _ => ?_ | split | dsimp only))

instance Firms.getMutateCh (a : Addr) : Firms (Art.getMutateCh a : M V ChanId) := ⟨fun s hl => by
  unfold Art.getMutateCh
  show Code.Firm (Code.bind (Code.done (match s.heap[a]? with | some c => .ok c | none => .error .nilDeref)) _) s
  cases hc : s.heap[a]? with
  | none => exact trivial
  | some c =>
    show Code.Firm (M.code (match c.ch with | some k => _ | none => _)) s
    cases hk : c.ch with
    | some k => exact trivial
    | none =>
      refine ⟨hl, ?_, trivial⟩
      show Lim.limit ≤ (chanOf s.heap a).getD s.chans.length
      unfold chanOf
      rw [hc]
      show Lim.limit ≤ c.ch.getD s.chans.length
      rw [hk]
      exact hl⟩

instance Firms.trackChannel (a : Option Addr) : Firms (Art.trackChannel a : M V Unit) := by unfold Art.trackChannel; firms

/-! ### Function by function -/

instance Firms.keepCh (a : Addr) (b : Bool) : Firms (Art.keepCh a b : M V _) := by unfold Art.keepCh; firms
instance Firms.cloneNode (a : Addr) (b : Bool) : Firms (Art.cloneNode a b : M V _) := by unfold Art.cloneNode; firms
instance Firms.bumpId (a : Addr) : Firms (Art.bumpId a : M V _) := by unfold Art.bumpId; firms
instance Firms.trackNode (a : Addr) (b : Bool) : Firms (Art.trackNode a b : M V _) := by unfold Art.trackNode; firms
instance Firms.writeNode (a : Addr) (b : Bool) : Firms (Art.writeNode a b : M V _) := by unfold Art.writeNode; firms
instance Firms.allocInner (k : Kind) : Firms (Art.allocInner k : M V _) := by unfold Art.allocInner; firms
instance Firms.allocLeaf (k : Key) (v : V) : Firms (Art.allocLeaf k v : M V _) := by unfold Art.allocLeaf; firms
instance Firms.setNodeLeaf (a : Addr) (l : Option Addr) : Firms (Art.setNodeLeaf a l : M V _) := by unfold Art.setNodeLeaf; firms
instance Firms.setChildAt (a : Addr) (i : Nat) (c : Option Addr) : Firms (Art.setChildAt a i c : M V _) := by unfold Art.setChildAt; firms
instance Firms.makeLeaf (k : Key) (v : V) : Firms (Art.makeLeaf k v : M V _) := by unfold Art.makeLeaf; firms
instance Firms.copyHeader (a b : Addr) : Firms (Art.copyHeader a b : M V _) := by unfold Art.copyHeader; firms
instance Firms.moveLeaf (a b : Addr) : Firms (Art.moveLeaf a b : M V _) := by unfold Art.moveLeaf; firms
instance Firms.addChild256 (a : Addr) (c : Byte) (x : Addr) : Firms (Art.addChild256 a c x : M V _) := by unfold Art.addChild256; firms
instance Firms.addChild48 (a : Addr) (c : Byte) (x : Addr) : Firms (Art.addChild48 a c x : M V _) := by unfold Art.addChild48; firms
instance Firms.addChild16 (a : Addr) (c : Byte) (x : Addr) : Firms (Art.addChild16 a c x : M V _) := by unfold Art.addChild16; firms
instance Firms.addChild4 (a : Addr) (c : Byte) (x : Addr) : Firms (Art.addChild4 a c x : M V _) := by unfold Art.addChild4; firms
instance Firms.addChild (a : Addr) (c : Byte) (x : Addr) : Firms (Art.addChild a c x : M V _) := by unfold Art.addChild; firms
theorem Firms.clearTail (a : Addr) : ∀ k i : Nat, Firms (Art.clearTail a k i : M V Unit)
  | 0, _ => by unfold Art.clearTail; infer_instance
  | k + 1, i => by
    have := Firms.clearTail a k
    unfold Art.clearTail
    firms
attribute [instance] Firms.clearTail
instance Firms.removeSorted (a : Addr) (c : Byte) : Firms (Art.removeSorted a c : M V _) := by unfold Art.removeSorted; firms
instance Firms.removeChild4 (a : Addr) (c : Byte) : Firms (Art.removeChild4 a c : M V _) := by unfold Art.removeChild4; firms
instance Firms.removeChild16 (a : Addr) (c : Byte) : Firms (Art.removeChild16 a c : M V _) := by unfold Art.removeChild16; firms
instance Firms.removeChild48 (a : Addr) (c : Byte) : Firms (Art.removeChild48 a c : M V _) := by unfold Art.removeChild48; firms
instance Firms.removeChild256 (a : Addr) (c : Byte) : Firms (Art.removeChild256 a c : M V _) := by unfold Art.removeChild256; firms
instance Firms.removeChild (a : Addr) (c : Byte) : Firms (Art.removeChild a c : M V _) := by unfold Art.removeChild; firms
instance Firms.addChildAt (a : Addr) (k : Key) (i : Nat) (x : Addr) : Firms (Art.addChildAt a k i x : M V _) := by unfold Art.addChildAt; firms
instance Firms.insertUpdateLeaf (a : Addr) (o : V) (k : Key) (v : V) : Firms (Art.insertUpdateLeaf a o k v : M V _) := by unfold Art.insertUpdateLeaf; firms
instance Firms.insertPair (a b c d e : Addr) (k l : Key) (i : Nat) : Firms (Art.insertPair a b c d e k l i : M V _) := by unfold Art.insertPair; firms
instance Firms.insertSplitLeaf [Inhabited V] (a b : Addr) (k l : Key) (v : V) (d : Nat) : Firms (Art.insertSplitLeaf a b k l v d : M V _) := by unfold Art.insertSplitLeaf; firms
instance Firms.insertAtLeaf [Inhabited V] (a b : Addr) (k : Key) (v : V) (d : Nat) : Firms (Art.insertAtLeaf a b k v d : M V _) := by unfold Art.insertAtLeaf; firms
instance Firms.leafClash (n : Inner) (k : Key) : Firms (Art.leafClash n k : M V _) := by unfold Art.leafClash; firms
instance Firms.insertNoChild [Inhabited V] (a : Addr) (k : Key) (v : V) (d : Nat) : Firms (Art.insertNoChild a k v d : M V _) := by unfold Art.insertNoChild; firms
instance Firms.splitShort (a b : Addr) (d : Nat) : Firms (Art.splitShort a b d : M V _) := by unfold Art.splitShort; firms
instance Firms.splitLong (a b : Addr) (d e : Nat) : Firms (Art.splitLong a b d e : M V _) := by unfold Art.splitLong; firms
instance Firms.splitChild (a b : Addr) (p d e : Nat) : Firms (Art.splitChild a b p d e : M V _) := by unfold Art.splitChild; firms
instance Firms.insertSplit [Inhabited V] (a : Addr) (k : Key) (v : V) (d e : Nat) : Firms (Art.insertSplit a k v d e : M V _) := by unfold Art.insertSplit; firms
instance Firms.insertReplace (a b : Addr) (i : Nat) (r : InsRes V) : Firms (Art.insertReplace a b i r : M V _) := by unfold Art.insertReplace; firms
instance Firms.leafHit (c : Cell V) (k : Key) : Firms (Art.leafHit c k : M V _) := by unfold Art.leafHit; firms
instance Firms.insertHit [Inhabited V] (a b : Addr) (v : V) : Firms (Art.insertHit a b v : M V _) := by unfold Art.insertHit; firms
instance Firms.insertNew [Inhabited V] (a : Addr) (k : Key) (v : V) (d : Nat) : Firms (Art.insertNew a k v d : M V _) := by unfold Art.insertNew; firms
instance Firms.insertEmpty [Inhabited V] (a : Addr) (k : Key) (v : V) : Firms (Art.insertEmpty a k v : M V _) := by unfold Art.insertEmpty; firms
theorem Firms.recursiveInsert [Inhabited V] (k : Key) (v : V) : ∀ (f : Nat) (a : Addr) (d : Nat), Firms (Art.recursiveInsert f a k v d : M V _)
  | 0, _, _ => by unfold Art.recursiveInsert; infer_instance
  | f + 1, a, d => by
    have := Firms.recursiveInsert k v f
    unfold Art.recursiveInsert
    firms
attribute [instance] Firms.recursiveInsert
instance Firms.txnInsert [Inhabited V] (k : Key) (v : V) : Firms (Art.txnInsert k v : M V _) := by unfold Art.txnInsert; firms
instance Firms.deleteHit (a b : Addr) : Firms (Art.deleteHit a b : M V _) := by unfold Art.deleteHit; firms
instance Firms.deleteReplace (a b : Addr) (i : Nat) (c : Byte) (r : DelRes) : Firms (Art.deleteReplace a b i c r : M V _) := by unfold Art.deleteReplace; firms
instance Firms.deleteFinish (a : Addr) (r : DelRes) : Firms (Art.deleteFinish a r : M V _) := by unfold Art.deleteFinish; firms
theorem Firms.recursiveDelete (k : Key) : ∀ (f : Nat) (a : Addr) (d : Nat), Firms (Art.recursiveDelete f a k d : M V _)
  | 0, _, _ => by unfold Art.recursiveDelete; infer_instance
  | f + 1, a, d => by
    have := Firms.recursiveDelete k f
    unfold Art.recursiveDelete
    firms
attribute [instance] Firms.recursiveDelete
instance Firms.resetRoot [Inhabited V] : Firms (Art.resetRoot  : M V _) := by unfold Art.resetRoot; firms
instance Firms.setRoot [Inhabited V] (a : Option Addr) : Firms (Art.setRoot a : M V _) := by unfold Art.setRoot; firms
instance Firms.txnDelete [Inhabited V] (k : Key) : Firms (Art.txnDelete k : M V _) := by unfold Art.txnDelete; firms
theorem Firms.compactSlots (a : Addr) (m : List (Nat × Option Addr)) : ∀ k i s : Nat, Firms (Art.compactSlots a m k i s : M V Nat)
  | 0, _, _ => by unfold Art.compactSlots; infer_instance
  | k + 1, i, s => by
    have := Firms.compactSlots a m k
    unfold Art.compactSlots
    firms
attribute [instance] Firms.compactSlots
instance Firms.clearFrom (a : Addr) (i : Nat) : Firms (Art.clearFrom a i : M V _) := by unfold Art.clearFrom; firms
theorem Firms.deletePrefixChildren {rec : Addr → M V (Option Addr × Nat)} (hr : ∀ a, Firms (rec a)) :
    ∀ cs : List (Option Addr × Nat), Firms (Art.deletePrefixChildren rec cs)
  | [] => by unfold Art.deletePrefixChildren; infer_instance
  | (none, _) :: cs => by
    have := Firms.deletePrefixChildren hr cs
    unfold Art.deletePrefixChildren
    firms
  | (some _, _) :: cs => by
    have := Firms.deletePrefixChildren hr cs
    unfold Art.deletePrefixChildren
    firms
instance Firms.deletePrefixOwn (c : Cell V) (k : Key) : Firms (Art.deletePrefixOwn c k : M V _) := by unfold Art.deletePrefixOwn; firms
instance Firms.deletePrefixLeaf (a : Addr) (c : Cell V) (k : Key) : Firms (Art.deletePrefixLeaf a c k : M V _) := by unfold Art.deletePrefixLeaf; firms
instance Firms.deletePrefixRebuild (a : Addr) (m : List (Nat × Option Addr)) : Firms (Art.deletePrefixRebuild a m : M V _) := by unfold Art.deletePrefixRebuild; firms
theorem Firms.deletePrefix (k : Key) : ∀ (f : Nat) (a : Option Addr) (d : Nat), Firms (Art.deletePrefix f a k d : M V _)
  | _, none, _ => by unfold Art.deletePrefix; infer_instance
  | 0, some _, _ => by unfold Art.deletePrefix; infer_instance
  | f + 1, some a, d => by
    have h := Firms.deletePrefix k f
    have := fun d => Firms.deletePrefixChildren (rec := fun ch => Art.deletePrefix f (some ch) k (d + 1)) fun a => h (some a) (d + 1)
    unfold Art.deletePrefix
    firms
attribute [instance] Firms.deletePrefix
instance Firms.txnDeletePrefix [Inhabited V] (k : Key) : Firms (Art.txnDeletePrefix k : M V _) := by unfold Art.txnDeletePrefix; firms
instance Firms.txnGet (k : Key) : Firms (Art.txnGet k : M V _) := by unfold Art.txnGet; firms
instance Firms.treeGetWatch (t : Tree) (k : Key) : Firms (Art.treeGetWatch t k : M V _) := by unfold Art.treeGetWatch; firms
instance Firms.txnCommitOnly : Firms (Art.txnCommitOnly  : M V _) := by unfold Art.txnCommitOnly; firms

/-! ### Notify -/

theorem closeAll_firm (l : List ChanId) : ∀ (s : St V), (∀ c ∈ l, c ∈ s.txn.trackChnSlice) → (closeAll l : Code V Unit).Firm s := by
  induction l with
  | nil => exact fun s _ => trivial
  | cons c l ih =>
    intro s hs
    have h2 : ∀ x ∈ l, x ∈ s.txn.trackChnSlice := fun x hx => hs x (List.mem_cons_of_mem _ hx)
    unfold closeAll Code.Firm
    cases s.chans[c]? == some true with
    | true => exact ih s h2
    | false => exact ⟨hs c List.mem_cons_self, ih _ h2⟩

instance Firms.slowNotify : Firms (Art.slowNotify : M V Unit) := ⟨fun s _ => closeAll_firm _ s fun _ h => h⟩
instance Firms.txnNotify : Firms (Art.txnNotify : M V Unit) := by unfold Art.txnNotify; firms
instance Firms.txnTrackMutate (b : Bool) : Firms (Art.txnTrackMutate b : M V Unit) := by unfold Art.txnTrackMutate; firms

theorem Firms.call [Inhabited V] (ts : List Tree) (c : Call V) : Firms (c.code ts) := by
  cases c with
  | peek t k =>
    unfold Call.code
    dsimp only
    cases ts[t]? <;> firms
  | _ => unfold Call.code; firms

theorem Firms.callAll [Inhabited V] (ts : List Tree) : ∀ cs : List (Call V), Firms (Art.callAll ts cs)
  | [] => by unfold Art.callAll; infer_instance
  | c :: cs => by
    have := Firms.call ts c
    have := Firms.callAll ts cs
    unfold Art.callAll
    firms

theorem Firms.session [Inhabited V] (ts : List Tree) (g : Session V) : Firms (g.code ts) := by
  have := Firms.callAll ts g.calls
  unfold Session.code
  cases ts[g.tree]? with
  | none => dsimp only; firms
  | some t => dsimp only [Art.session, beginTxn, withTxn, txnEnd, txnCommit]; firms

end Art
