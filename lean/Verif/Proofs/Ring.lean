import Verif.PoolSpec
/-
What the code does to the channels, whatever other goroutines do: it closes a channel only right after it has found it open, and
only in `Notify`; and it does not forget a channel that it has tracked before the channel is closed.
-/
set_option autoImplicit false
set_option linter.unusedVariables false
set_option linter.unusedSimpArgs false
set_option linter.unusedSectionVars false
namespace Art
variable {V : Type} {α β : Type}

/-- The steps of the code, from a transaction `t` on and when the channels in `C` are closed: a channel is closed only if `A`,
and only when it has just been found open; channels of nodes are replaced only if `B`; the channels that are tested and closed are tracked ones; if `S`, a channel leaves the
tracked ones only when it is closed.  `Q` holds at the end.  Nothing is assumed about the nodes. -/
inductive Neat (A B S : Prop) (Q : R α → TxnSt → Prop) : Code V α → TxnSt → (ChanId → Prop) → Prop
  | done {r : R α} {t : TxnSt} {C : ChanId → Prop} (h : Q r t) : Neat A B S Q (.done r) t C
  | look {k : St V → Code V α} {t : TxnSt} {C : ChanId → Prop} (h : ∀ s : St V, s.txn = t → Neat A B S Q (k s) t C) : Neat A B S Q (.look k) t C
  | read {a : Addr} {k : Option (Cell V) → Code V α} {t : TxnSt} {C : ChanId → Prop} (h : ∀ c, Neat A B S Q (k c) t C) : Neat A B S Q (.read a k) t C
  | write {a : Addr} {c : Cell V} {k : Code V α} {t : TxnSt} {C : ChanId → Prop} (h : Neat A B S Q k t C) : Neat A B S Q (.write a c k) t C
  | store {a : Addr} {c : ChanId} {k : Code V α} {t : TxnSt} {C : ChanId → Prop} (hB : B) (h : Neat A B S Q k t C) : Neat A B S Q (.store a c k) t C
  | alloc {c : Cell V} {k : Addr → Code V α} {t : TxnSt} {C : ChanId → Prop} (h : ∀ a, Neat A B S Q (k a) t C) : Neat A B S Q (.alloc c k) t C
  | make {k : ChanId → Code V α} {t : TxnSt} {C : ChanId → Prop} (h : ∀ c, Neat A B S Q (k c) t C) : Neat A B S Q (.make k) t C
  | own {f : TxnSt → TxnSt} {k : TxnSt → Code V α} {t : TxnSt} {C : ChanId → Prop}
      (hs : S → ∀ c ∈ t.trackChnSlice, c ∈ (f t).trackChnSlice ∨ C c) (h : Neat A B S Q (k (f t)) (f t) C) : Neat A B S Q (.own f k) t C
  | claim {a : Addr} {c : ChanId} {k : ChanId → Code V α} {t : TxnSt} {C : ChanId → Prop} (h : ∀ c, Neat A B S Q (k c) t C) :
      Neat A B S Q (.claim a c k) t C
  | load {a : Addr} {c : ChanId} {k : ChanId → Code V α} {t : TxnSt} {C : ChanId → Prop} (h : ∀ c, Neat A B S Q (k c) t C) :
      Neat A B S Q (.load a c k) t C
  | test {c : ChanId} {k : Bool → Code V α} {k2 : Code V α} {t : TxnSt} {C : ChanId → Prop} (hA : A) (hc : c ∈ t.trackChnSlice)
      (h1 : Neat A B S Q (k true) t (fun x => x = c ∨ C x)) (e : k false = .shut c k2) (h2 : Neat A B S Q k2 t (fun x => x = c ∨ C x)) :
      Neat A B S Q (.test c k) t C

theorem Neat.mono {A B S : Prop} {Q Q' : R α → TxnSt → Prop} {p : Code V α} {t : TxnSt} {C C' : ChanId → Prop} (h : Neat A B S Q p t C)
    (hC : ∀ c, C c → C' c) (hQ : ∀ r t, Q r t → Q' r t) : Neat A B S Q' p t C' := by
  induction h generalizing C' with
  | done h => exact .done (hQ _ _ h)
  | look h ih => exact .look fun s hs => ih s hs hC
  | read h ih => exact .read fun c => ih c hC
  | write h ih => exact .write (ih hC)
  | store hB h ih => exact .store hB (ih hC)
  | alloc h ih => exact .alloc fun c => ih c hC
  | make h ih => exact .make fun c => ih c hC
  | own hs h ih => exact .own (fun s c hc => (hs s c hc).imp_right (hC c)) (ih hC)
  | claim h ih => exact .claim fun c => ih c hC
  | load h ih => exact .load fun c => ih c hC
  | test hA hc h1 e h2 ih1 ih2 => exact .test hA hc (ih1 fun x hx => hx.imp_right (hC x)) e (ih2 fun x hx => hx.imp_right (hC x))

theorem Neat.bind {A B S : Prop} {Q : R α → TxnSt → Prop} {Q' : R β → TxnSt → Prop} {p : Code V α} {f : α → Code V β} {t : TxnSt}
    {C : ChanId → Prop} (h : Neat A B S Q p t C) (hf : ∀ a t', Q (.ok a) t' → Neat A B S Q' (f a) t' fun _ => False)
    (he : ∀ e t', Q (.error e) t' → Q' (.error e) t') : Neat A B S Q' (p.bind f) t C := by
  induction h with
  | @done r t C h =>
    cases r with
    | ok a => exact (hf a t h).mono (fun _ => False.elim) fun _ _ h => h
    | error e => exact .done (he e t h)
  | look h ih => exact .look ih
  | read h ih => exact .read ih
  | write h ih => exact .write ih
  | store hB h ih => exact .store hB ih
  | alloc h ih => exact .alloc ih
  | make h ih => exact .make ih
  | own hs h ih => exact .own hs ih
  | claim h ih => exact .claim ih
  | load h ih => exact .load ih
  | @test c k k2 t C hA hc h1 e h2 ih1 ih2 =>
    exact .test (k2 := k2.bind f) hA hc ih1 (by show (k false).bind f = _; rw [e]; rfl) ih2

/-- What is said about a transaction stays true when more channels are tracked, which happens only after `TrackMutate(true)`, and
when other fields are assigned to; and mutations are tracked only if `B`. -/
class Stable (B : Prop) (T : TxnSt → Prop) : Prop where
  tracks : ∀ t : TxnSt, T t → t.trackMutate = true → B
  keep : ∀ t t' : TxnSt, T t → t'.trackMutate = t.trackMutate →
    (t'.trackChnSlice = t.trackChnSlice ∨ t.trackMutate = true ∧ ∀ c ∈ t.trackChnSlice, c ∈ t'.trackChnSlice) → T t'

/-- Code that is neat and leaves `T` true. -/
class Rings (A B S : Prop) (T : TxnSt → Prop) (m : M V α) : Prop where
  neat : ∀ t, T t → Neat A B S (fun _ t' => T t') m.code t fun _ => False

section
variable {A B S : Prop} {T : TxnSt → Prop}

instance Rings.bind {m : M V α} {f : α → M V β} [h : Rings A B S T m] [hf : ∀ a, Rings A B S T (f a)] : Rings A B S T (m >>= f) :=
  ⟨fun t ht => (h.neat t ht).bind (fun a t' h' => (hf a).neat t' h') fun _ _ h => h⟩
instance Rings.pure (a : α) : Rings A B S T (Pure.pure a : M V α) := ⟨fun _ h => .done h⟩
instance Rings.throw (e : Err) : Rings A B S T (M.throw e : M V α) := ⟨fun _ h => .done h⟩
instance Rings.lift (r : R α) : Rings A B S T (M.lift r : M V α) := ⟨fun _ h => .done h⟩
instance Rings.assert (p : Prop) [Decidable p] (e : Err) : Rings A B S T (M.assert p e : M V Unit) := ⟨fun _ h => .done h⟩
instance Rings.get : Rings A B S T (M.get : M V (St V)) := ⟨fun _ h => .look fun _ _ => .done h⟩
instance Rings.cell (a : Addr) : Rings A B S T (Art.cell a : M V (Cell V)) := ⟨fun _ h => .read fun _ => .done h⟩
instance Rings.innerAt (a : Addr) : Rings A B S T (Art.innerAt a : M V Inner) := ⟨fun _ h => .read fun _ => .done h⟩
instance Rings.leafAt (a : Addr) : Rings A B S T (Art.leafAt a : M V (LeafC V)) := ⟨fun _ h => .read fun _ => .done h⟩
instance Rings.wr (a : Addr) (c : Cell V) : Rings A B S T (Art.wr a c : M V Unit) := ⟨fun _ h => .write (.done h)⟩
theorem Rings.wrCh (hB : B) (a : Addr) (k : ChanId) : Rings A B S T (Art.wrCh a k : M V Unit) := ⟨fun _ h => .store hB (.done h)⟩
instance Rings.claimCh (a : Addr) (k : ChanId) : Rings A B S T (Art.claimCh a k : M V ChanId) := ⟨fun _ h => .claim fun _ => .done h⟩
instance Rings.newCell (c : Cell V) : Rings A B S T (Art.newCell c : M V Addr) := ⟨fun _ h => .alloc fun _ => .done h⟩
instance Rings.newChan : Rings A B S T (Art.newChan : M V ChanId) := ⟨fun _ h => .make fun _ => .done h⟩
instance Rings.txnSt : Rings A B S T (Art.txnSt : M V TxnSt) := ⟨fun _ h => .own (fun _ c hc => .inl hc) (.done h)⟩
theorem Rings.mod {f : TxnSt → TxnSt} (hT : ∀ t, T t → T (f t)) (hs : ∀ t, T t → S → ∀ c ∈ t.trackChnSlice, c ∈ (f t).trackChnSlice) :
    Rings A B S T (Art.modTxn f : M V Unit) := ⟨fun t h => .own (fun s c hc => .inl (hs t h s c hc)) (.done (hT t h))⟩

theorem Rings.field [hT : Stable B T] {f : TxnSt → TxnSt} (h1 : ∀ t, (f t).trackMutate = t.trackMutate) (h2 : ∀ t, (f t).trackChnSlice = t.trackChnSlice) :
    Rings A B S T (Art.modTxn f : M V Unit) :=
  .mod (fun t h => hT.keep t _ h (h1 t) (.inl (h2 t))) fun t _ _ c hc => (h2 t).symm ▸ hc

/-- Take the code apart. -/
macro "rings" : tactic => `(tactic| repeat' (first
  | infer_instance | refine @Rings.bind _ _ _ _ _ _ _ _ _ ?_ fun _ => ?_ | exact Rings.field (fun _ => rfl) (fun _ => rfl)
  | split | dsimp only))

variable [hT : Stable B T]

instance Rings.getMutateCh (a : Addr) : Rings A B S T (Art.getMutateCh a : M V ChanId) := by unfold Art.getMutateCh; rings

instance Stable.and_track : Stable B fun t => T t ∧ t.trackMutate = true :=
  ⟨fun t h => hT.tracks t h.1, fun t t' h h1 h2 => ⟨hT.keep t t' h.1 h1 h2, h1.trans h.2⟩⟩

instance Rings.trackChannel (a : Option Addr) : Rings A B S T (Art.trackChannel a : M V Unit) := by
  unfold Art.trackChannel
  refine ⟨fun t ht => .own (fun _ c hc => .inl hc) ?_⟩
  show Neat A B S _ (M.code (if (!t.trackMutate) = true then _ else _)) t _
  cases h : t.trackMutate with
  | false => exact .done ht
  | true =>
    cases a with
    | none => exact .done ht
    | some a =>
      have h2 : Rings A B S (fun t => T t ∧ t.trackMutate = true) (do
          let ch ← Art.getMutateCh a
          Art.modTxn fun t => { t with trackChnSlice := t.trackChnSlice ++ [ch] }
          let fresh ← Art.newChan
          Art.wrCh a fresh : M V Unit) := by
        refine @Rings.bind _ _ _ _ _ _ _ _ _ inferInstance fun ch => @Rings.bind _ _ _ _ _ _ _ _ _ (.mod (fun t h => ?_) fun t _ _ c hc => ?_) fun _ =>
          @Rings.bind _ _ _ _ _ _ _ _ _ inferInstance fun c => .wrCh (hT.tracks t ht h) a c
        · exact ⟨hT.keep t _ h.1 rfl (.inr ⟨h.2, fun c hc => List.mem_append_left _ hc⟩), h.2⟩
        · exact List.mem_append_left _ hc
      exact (h2.neat t ⟨ht, h⟩).mono (fun _ h => h) fun _ _ h => h.1

/-! ### Function by function -/

instance Rings.keepCh (a : Addr) (b : Bool) : Rings A B S T (Art.keepCh a b : M V _) := by unfold Art.keepCh; rings
instance Rings.cloneNode (a : Addr) (b : Bool) : Rings A B S T (Art.cloneNode a b : M V _) := by unfold Art.cloneNode; rings
instance Rings.bumpId (a : Addr) : Rings A B S T (Art.bumpId a : M V _) := by unfold Art.bumpId; rings
instance Rings.trackNode (a : Addr) (b : Bool) : Rings A B S T (Art.trackNode a b : M V _) := by unfold Art.trackNode; rings
instance Rings.writeNode (a : Addr) (b : Bool) : Rings A B S T (Art.writeNode a b : M V _) := by unfold Art.writeNode; rings
instance Rings.allocInner (k : Kind) : Rings A B S T (Art.allocInner k : M V _) := by unfold Art.allocInner; rings
instance Rings.allocLeaf (k : Key) (v : V) : Rings A B S T (Art.allocLeaf k v : M V _) := by unfold Art.allocLeaf; rings
instance Rings.setNodeLeaf (a : Addr) (l : Option Addr) : Rings A B S T (Art.setNodeLeaf a l : M V _) := by unfold Art.setNodeLeaf; rings
instance Rings.setChildAt (a : Addr) (i : Nat) (c : Option Addr) : Rings A B S T (Art.setChildAt a i c : M V _) := by unfold Art.setChildAt; rings
instance Rings.makeLeaf (k : Key) (v : V) : Rings A B S T (Art.makeLeaf k v : M V _) := by unfold Art.makeLeaf; rings
instance Rings.copyHeader (a b : Addr) : Rings A B S T (Art.copyHeader a b : M V _) := by unfold Art.copyHeader; rings
instance Rings.moveLeaf (a b : Addr) : Rings A B S T (Art.moveLeaf a b : M V _) := by unfold Art.moveLeaf; rings
instance Rings.addChild256 (a : Addr) (c : Byte) (x : Addr) : Rings A B S T (Art.addChild256 a c x : M V _) := by unfold Art.addChild256; rings
instance Rings.addChild48 (a : Addr) (c : Byte) (x : Addr) : Rings A B S T (Art.addChild48 a c x : M V _) := by unfold Art.addChild48; rings
instance Rings.addChild16 (a : Addr) (c : Byte) (x : Addr) : Rings A B S T (Art.addChild16 a c x : M V _) := by unfold Art.addChild16; rings
instance Rings.addChild4 (a : Addr) (c : Byte) (x : Addr) : Rings A B S T (Art.addChild4 a c x : M V _) := by unfold Art.addChild4; rings
instance Rings.addChild (a : Addr) (c : Byte) (x : Addr) : Rings A B S T (Art.addChild a c x : M V _) := by unfold Art.addChild; rings
theorem Rings.clearTail (a : Addr) : ∀ k i : Nat, Rings A B S T (Art.clearTail a k i : M V Unit)
  | 0, _ => by unfold Art.clearTail; infer_instance
  | k + 1, i => by
    have := Rings.clearTail a k
    unfold Art.clearTail
    rings
attribute [instance] Rings.clearTail
instance Rings.removeSorted (a : Addr) (c : Byte) : Rings A B S T (Art.removeSorted a c : M V _) := by unfold Art.removeSorted; rings
instance Rings.removeChild4 (a : Addr) (c : Byte) : Rings A B S T (Art.removeChild4 a c : M V _) := by unfold Art.removeChild4; rings
instance Rings.removeChild16 (a : Addr) (c : Byte) : Rings A B S T (Art.removeChild16 a c : M V _) := by unfold Art.removeChild16; rings
instance Rings.removeChild48 (a : Addr) (c : Byte) : Rings A B S T (Art.removeChild48 a c : M V _) := by unfold Art.removeChild48; rings
instance Rings.removeChild256 (a : Addr) (c : Byte) : Rings A B S T (Art.removeChild256 a c : M V _) := by unfold Art.removeChild256; rings
instance Rings.removeChild (a : Addr) (c : Byte) : Rings A B S T (Art.removeChild a c : M V _) := by unfold Art.removeChild; rings
instance Rings.addChildAt (a : Addr) (k : Key) (i : Nat) (x : Addr) : Rings A B S T (Art.addChildAt a k i x : M V _) := by unfold Art.addChildAt; rings
instance Rings.insertUpdateLeaf (a : Addr) (o : V) (k : Key) (v : V) : Rings A B S T (Art.insertUpdateLeaf a o k v : M V _) := by unfold Art.insertUpdateLeaf; rings
instance Rings.insertPair (a b c d e : Addr) (k l : Key) (i : Nat) : Rings A B S T (Art.insertPair a b c d e k l i : M V _) := by unfold Art.insertPair; rings
instance Rings.insertSplitLeaf [Inhabited V] (a b : Addr) (k l : Key) (v : V) (d : Nat) : Rings A B S T (Art.insertSplitLeaf a b k l v d : M V _) := by unfold Art.insertSplitLeaf; rings
instance Rings.insertAtLeaf [Inhabited V] (a b : Addr) (k : Key) (v : V) (d : Nat) : Rings A B S T (Art.insertAtLeaf a b k v d : M V _) := by unfold Art.insertAtLeaf; rings
instance Rings.leafClash (n : Inner) (k : Key) : Rings A B S T (Art.leafClash n k : M V _) := by unfold Art.leafClash; rings
instance Rings.insertNoChild [Inhabited V] (a : Addr) (k : Key) (v : V) (d : Nat) : Rings A B S T (Art.insertNoChild a k v d : M V _) := by unfold Art.insertNoChild; rings
instance Rings.splitShort (a b : Addr) (d : Nat) : Rings A B S T (Art.splitShort a b d : M V _) := by unfold Art.splitShort; rings
instance Rings.splitLong (a b : Addr) (d e : Nat) : Rings A B S T (Art.splitLong a b d e : M V _) := by unfold Art.splitLong; rings
instance Rings.splitChild (a b : Addr) (p d e : Nat) : Rings A B S T (Art.splitChild a b p d e : M V _) := by unfold Art.splitChild; rings
instance Rings.insertSplit [Inhabited V] (a : Addr) (k : Key) (v : V) (d e : Nat) : Rings A B S T (Art.insertSplit a k v d e : M V _) := by unfold Art.insertSplit; rings
instance Rings.insertReplace (a b : Addr) (i : Nat) (r : InsRes V) : Rings A B S T (Art.insertReplace a b i r : M V _) := by unfold Art.insertReplace; rings
instance Rings.leafHit (c : Cell V) (k : Key) : Rings A B S T (Art.leafHit c k : M V _) := by unfold Art.leafHit; rings
instance Rings.insertHit [Inhabited V] (a b : Addr) (v : V) : Rings A B S T (Art.insertHit a b v : M V _) := by unfold Art.insertHit; rings
instance Rings.insertNew [Inhabited V] (a : Addr) (k : Key) (v : V) (d : Nat) : Rings A B S T (Art.insertNew a k v d : M V _) := by unfold Art.insertNew; rings
instance Rings.insertEmpty [Inhabited V] (a : Addr) (k : Key) (v : V) : Rings A B S T (Art.insertEmpty a k v : M V _) := by unfold Art.insertEmpty; rings
theorem Rings.recursiveInsert [Inhabited V] (k : Key) (v : V) : ∀ (f : Nat) (a : Addr) (d : Nat), Rings A B S T (Art.recursiveInsert f a k v d : M V _)
  | 0, _, _ => by unfold Art.recursiveInsert; infer_instance
  | f + 1, a, d => by
    have := Rings.recursiveInsert k v f
    unfold Art.recursiveInsert
    rings
attribute [instance] Rings.recursiveInsert
instance Rings.txnInsert [Inhabited V] (k : Key) (v : V) : Rings A B S T (Art.txnInsert k v : M V _) := by unfold Art.txnInsert; rings
instance Rings.deleteHit (a b : Addr) : Rings A B S T (Art.deleteHit a b : M V _) := by unfold Art.deleteHit; rings
instance Rings.deleteReplace (a b : Addr) (i : Nat) (c : Byte) (r : DelRes) : Rings A B S T (Art.deleteReplace a b i c r : M V _) := by unfold Art.deleteReplace; rings
instance Rings.deleteFinish (a : Addr) (r : DelRes) : Rings A B S T (Art.deleteFinish a r : M V _) := by unfold Art.deleteFinish; rings
theorem Rings.recursiveDelete (k : Key) : ∀ (f : Nat) (a : Addr) (d : Nat), Rings A B S T (Art.recursiveDelete f a k d : M V _)
  | 0, _, _ => by unfold Art.recursiveDelete; infer_instance
  | f + 1, a, d => by
    have := Rings.recursiveDelete k f
    unfold Art.recursiveDelete
    rings
attribute [instance] Rings.recursiveDelete
instance Rings.resetRoot [Inhabited V] : Rings A B S T (Art.resetRoot  : M V _) := by unfold Art.resetRoot; rings
instance Rings.setRoot [Inhabited V] (a : Option Addr) : Rings A B S T (Art.setRoot a : M V _) := by unfold Art.setRoot; rings
instance Rings.txnDelete [Inhabited V] (k : Key) : Rings A B S T (Art.txnDelete k : M V _) := by unfold Art.txnDelete; rings
theorem Rings.compactSlots (a : Addr) (m : List (Nat × Option Addr)) : ∀ k i s : Nat, Rings A B S T (Art.compactSlots a m k i s : M V Nat)
  | 0, _, _ => by unfold Art.compactSlots; infer_instance
  | k + 1, i, s => by
    have := Rings.compactSlots a m k
    unfold Art.compactSlots
    rings
attribute [instance] Rings.compactSlots
instance Rings.clearFrom (a : Addr) (i : Nat) : Rings A B S T (Art.clearFrom a i : M V _) := by unfold Art.clearFrom; rings
theorem Rings.deletePrefixChildren {rec : Addr → M V (Option Addr × Nat)} (hr : ∀ a, Rings A B S T (rec a)) :
    ∀ cs : List (Option Addr × Nat), Rings A B S T (Art.deletePrefixChildren rec cs)
  | [] => by unfold Art.deletePrefixChildren; infer_instance
  | (none, _) :: cs => by
    have := Rings.deletePrefixChildren hr cs
    unfold Art.deletePrefixChildren
    rings
  | (some _, _) :: cs => by
    have := Rings.deletePrefixChildren hr cs
    unfold Art.deletePrefixChildren
    rings
instance Rings.deletePrefixOwn (c : Cell V) (k : Key) : Rings A B S T (Art.deletePrefixOwn c k : M V _) := by unfold Art.deletePrefixOwn; rings
instance Rings.deletePrefixLeaf (a : Addr) (c : Cell V) (k : Key) : Rings A B S T (Art.deletePrefixLeaf a c k : M V _) := by unfold Art.deletePrefixLeaf; rings
instance Rings.deletePrefixRebuild (a : Addr) (m : List (Nat × Option Addr)) : Rings A B S T (Art.deletePrefixRebuild a m : M V _) := by unfold Art.deletePrefixRebuild; rings
theorem Rings.deletePrefix (k : Key) : ∀ (f : Nat) (a : Option Addr) (d : Nat), Rings A B S T (Art.deletePrefix f a k d : M V _)
  | _, none, _ => by unfold Art.deletePrefix; infer_instance
  | 0, some _, _ => by unfold Art.deletePrefix; infer_instance
  | f + 1, some a, d => by
    have h := Rings.deletePrefix k f
    have := fun d => Rings.deletePrefixChildren (rec := fun ch => Art.deletePrefix f (some ch) k (d + 1)) fun a => h (some a) (d + 1)
    unfold Art.deletePrefix
    rings
attribute [instance] Rings.deletePrefix
instance Rings.txnDeletePrefix [Inhabited V] (k : Key) : Rings A B S T (Art.txnDeletePrefix k : M V _) := by unfold Art.txnDeletePrefix; rings
instance Rings.txnGet (k : Key) : Rings A B S T (Art.txnGet k : M V _) := by unfold Art.txnGet; rings
instance Rings.treeGetWatch (t : Tree) (k : Key) : Rings A B S T (Art.treeGetWatch t k : M V _) := by unfold Art.treeGetWatch; rings
instance Rings.txnCommitOnly : Rings A B S T (Art.txnCommitOnly  : M V _) := by unfold Art.txnCommitOnly; rings
end

/-! ### Notify -/

section
variable {A B S : Prop} {T : TxnSt → Prop}

theorem closeAll_neat {Q : R Unit → TxnSt → Prop} (hA : A) {t : TxnSt} (hq : Q (.ok ()) { t with trackChnSlice := [] }) (l : List ChanId) (C : ChanId → Prop)
    (hl : ∀ c ∈ l, c ∈ t.trackChnSlice) (hC : ∀ c ∈ t.trackChnSlice, c ∈ l ∨ C c) : Neat A B S Q (closeAll l : Code V Unit) t C := by
  induction l generalizing C with
  | nil => exact .own (fun _ c hc => .inr ((hC c hc).resolve_left (by simp))) (.done hq)
  | cons c l ih =>
    have hl' : ∀ x ∈ l, x ∈ t.trackChnSlice := fun x hx => hl x (List.mem_cons_of_mem _ hx)
    have hC' : ∀ x ∈ t.trackChnSlice, x ∈ l ∨ (x = c ∨ C x) := fun x hx => by
      rcases hC x hx with h | h
      · rcases List.mem_cons.1 h with h | h
        · exact .inr (.inl h)
        · exact .inl h
      · exact .inr (.inr h)
    exact .test hA (hl c (List.mem_cons_self ..)) (ih _ hl' hC') rfl (ih _ hl' hC')

/-- What is true of the transaction of a goroutine at all times: no channels are tracked before `TrackMutate(true)`, when this
is never called off. -/
def Tracking (B S : Prop) (t : TxnSt) : Prop := (¬ B → t.trackMutate = false) ∧ (S → t.trackMutate = true ∨ t.trackChnSlice = [])

instance : Stable B (Tracking B S) := ⟨fun t h ht => Classical.byContradiction fun hB => (by rw [h.1 hB] at ht; cases ht), fun t t' h h1 h2 => ⟨fun a => h1.trans (h.1 a), fun s => by
  rcases h.2 s with h3 | h3
  · exact .inl (h1.trans h3)
  · rcases h2 with h2 | ⟨h2, -⟩
    · exact .inr (h2.trans h3)
    · exact .inl (h1.trans h2)⟩⟩

/-- `B`: somebody calls `TrackMutate(true)`. -/
theorem notify_neat (hA : B → A) {t : TxnSt} (ht : Tracking B S t) (C : ChanId → Prop) :
    Neat A B S (fun r t' => Tracking B S t' ∧ (S → t'.trackChnSlice = [])) (txnNotify : M V Unit).code t C := by
  refine .own (fun _ c hc => .inl hc) ?_
  show Neat A B S _ (M.code (if (!t.trackMutate) = true then _ else _)) t _
  cases h : t.trackMutate with
  | false => exact .done ⟨ht, fun s => (ht.2 s).resolve_left (by rw [h]; nofun)⟩
  | true =>
    have hB : B := Classical.byContradiction fun hB => by rw [ht.1 hB] at h; cases h
    exact .own (fun _ c hc => .inl hc) (closeAll_neat (hA hB) ⟨⟨ht.1, fun _ => .inr rfl⟩, fun _ => rfl⟩ _ _ (fun _ h => h) fun _ h => .inl h)
end

section
variable [Inhabited V]

theorem call_rings {A B S : Prop} (ts : List Tree) (c : Call V) (h1 : c = .track true → B) (h2 : c = .track false → ¬ S) (h3 : c = .notify → B → A) :
    Rings A B S (Tracking B S) (c.code ts) := by
  cases c with
  | insert k v => unfold Call.code; rings
  | delete k => unfold Call.code; rings
  | deletePrefix k => unfold Call.code; rings
  | get k => unfold Call.code; rings
  | getWatch k => unfold Call.code; rings
  | peek t k =>
    unfold Call.code
    dsimp only
    cases ts[t]? <;> rings
  | track b =>
    refine @Rings.bind _ _ _ _ _ _ _ _ _ (.mod (fun t h => ?_) fun _ _ _ _ h => h) fun _ => inferInstance
    cases b with
    | true => exact ⟨fun hb => absurd (h1 rfl) hb, fun _ => .inl rfl⟩
    | false => exact ⟨fun _ => rfl, fun s => absurd s (h2 rfl)⟩
  | notify =>
    exact @Rings.bind _ _ _ _ _ _ _ _ _ ⟨fun t ht => (notify_neat (h3 rfl) ht _).mono (fun _ h => h) fun _ _ h => h.1⟩ fun _ => inferInstance

theorem calls_rings {A B S : Prop} (ts : List Tree) : ∀ (cs : List (Call V)), (.track true ∈ cs → B) → (.track false ∈ cs → ¬ S) →
    (.notify ∈ cs → B → A) → Rings A B S (Tracking B S) (callAll ts cs)
  | [], _, _, _ => by unfold callAll; infer_instance
  | c :: cs, h1, h2, h3 => by
    have := call_rings ts c (fun e => h1 (e ▸ List.mem_cons_self ..)) (fun e => h2 (e ▸ List.mem_cons_self ..)) (fun e => h3 (e ▸ List.mem_cons_self ..))
    have := calls_rings ts cs (fun h => h1 (List.mem_cons_of_mem _ h)) (fun h => h2 (List.mem_cons_of_mem _ h)) (fun h => h3 (List.mem_cons_of_mem _ h))
    unfold callAll
    rings

/-- A goroutine from its start on. -/
theorem session_neat (ts : List Tree) (g : Session V) : Neat g.rings g.tracks g.tells (fun r t => g.tells → ∀ a, r = .ok a → t.trackChnSlice = [])
    (g.code ts).code default fun _ => False := by
  unfold Session.code
  cases ts[g.tree]? with
  | none => exact .done fun _ a h => by cases h
  | some t0 =>
    dsimp only [session, beginTxn]
    let T0 : TxnSt → Prop := fun t => t.trackMutate = false ∧ t.trackChnSlice = []
    have : Stable g.tracks T0 := ⟨fun t h ht => (by rw [h.1] at ht; cases ht), fun t t' h h1 h2 => ⟨h1.trans h.1, by
      rcases h2 with h2 | ⟨h2, -⟩
      · exact h2.trans h.2
      · rw [h.1] at h2; cases h2⟩⟩
    refine Neat.bind (Q := fun r t => T0 t ∧ ∀ x, r = .ok x → T0 x) ?_ (fun x t h => ?_) fun e t _ _ a h => by cases h
    · refine Neat.bind (Q := fun _ t => T0 t) ((Rings.cloneNode (T := T0) t0.root true).neat default ⟨rfl, rfl⟩) (fun a t h => .done ⟨h, fun x hx => ?_⟩) (fun e t h => ⟨h, fun _ h => by cases h⟩)
      cases hx
      exact ⟨rfl, rfl⟩
    · have hx := h.2 x rfl
      refine .own (fun _ c hc => by rw [h.1.2] at hc; cases hc) ?_
      have hc := calls_rings (A := g.rings) (B := g.tracks) (S := g.tells) ts g.calls (fun h => h) (fun h s => s.2 h) fun h b => ⟨b, .inr h⟩
      show Neat _ _ _ _ ((callAll ts g.calls).code.bind _) x _
      refine Neat.bind (hc.neat x ⟨fun _ => hx.1, fun _ => .inr hx.2⟩) (fun os t ht => ?_) fun e t _ _ a h => by cases h
      unfold txnEnd
      cases hn : g.notify with
      | false =>
        have := Rings.txnCommitOnly (V := V) (A := g.rings) (B := g.tracks) (S := g.tells) (T := Tracking g.tracks g.tells)
        refine Neat.bind (this.neat t ht) (fun nt t ht => .done fun s => ?_) fun e t _ _ a h => by cases h
        exact absurd s.1 (by rw [hn]; nofun)
      | true =>
        have := Rings.txnCommitOnly (V := V) (A := g.rings) (B := g.tracks) (S := g.tells) (T := Tracking g.tracks g.tells)
        refine Neat.bind (Q := fun r t => g.tells → ∀ a, r = .ok a → t.trackChnSlice = []) ?_ (fun nt t h => .done fun s _ _ => h s nt rfl)
          fun e t _ _ a h => by cases h
        refine Neat.bind (this.neat t ht) (fun nt t ht => ?_) fun e t _ _ a h => by cases h
        exact Neat.bind (notify_neat (fun b => ⟨b, .inl hn⟩) ht _) (fun _ t h => .done fun s _ _ => h.2 s) fun _ _ _ _ _ h => by cases h
end

end Art
