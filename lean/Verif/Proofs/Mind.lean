import Verif.Proofs.RingPool
/-
What the code knows about the channels, whatever other goroutines do: the channels that it puts into nodes and on its list are
there, and when it replaces the channel of a node, this channel is on its list.
-/
set_option autoImplicit false
set_option linter.unusedVariables false
set_option linter.unusedSimpArgs false
set_option linter.unusedSectionVars false
namespace Art
variable {V : Type} {α β : Type}

/-- The channel of the node is one of the first `N`. -/
def Cell.Within (N : Nat) (c : Cell V) : Prop := ∀ k, c.ch = some k → k < N

/-- The tracked channels are among the first `N`. -/
def TxnSt.Within (N : Nat) (t : TxnSt) : Prop := ∀ c ∈ t.trackChnSlice, c < N

/-- What is known about the channels of the nodes, with node `a` changed. -/
def known (K : Addr → Option ChanId) (a : Addr) (o : Option ChanId) : Addr → Option ChanId := fun x => if x = a then o else K x

theorem known_known (K : Addr → Option ChanId) (a : Addr) (o o' : Option ChanId) : known (known K a o) a o' = known K a o' := by
  funext x
  unfold known
  by_cases h : x = a
  · rw [if_pos h, if_pos h]
  · rw [if_neg h, if_neg h, if_neg h]

theorem known_self (K : Addr → Option ChanId) (a : Addr) (o : Option ChanId) : known K a o a = o := if_pos rfl

/-- The steps of the code, from a transaction `t` on and when `K` is known about the channels of the first `B` nodes: all channels
that go into nodes and onto the list are among the first `N`; when the channel of one of the first `B` nodes is replaced, it is
known and on the list.  `Q` holds at the end. -/
def Code.Mind (N B : Nat) (Q : R α → (Addr → Option ChanId) → TxnSt → Prop) : Code V α → (Addr → Option ChanId) → TxnSt → Prop
  | .done r, K, t => Q r K t
  | .look k, K, t => ∀ s, (k s).Mind N B Q K t
  | .read a k, K, t => ∀ o : Option (Cell V), (∀ c, o = some c → c.Within N) → (a < B → ∀ x, K a = some x → o.bind Cell.ch = some x) →
    (k o).Mind N B Q (known K a (o.bind Cell.ch)) t
  | .write a c k, K, t => c.Within N ∧ k.Mind N B Q (known K a none) t
  | .store a ch k, K, t => ch < N ∧ (a < B → ∃ c, K a = some c ∧ c ∈ t.trackChnSlice) ∧ k.Mind N B Q (known K a (some ch)) t
  | .alloc c k, K, t => c.Within N ∧ ∀ a, (k a).Mind N B Q K t
  | .make k, K, t => ∀ c, c < N → (k c).Mind N B Q K t
  | .own f k, K, t => (f t).Within N ∧ (k (f t)).Mind N B Q K (f t)
  | .claim a ch k, K, t => ch < N ∧ ∀ x, x < N → (a < B → ∀ y, K a = some y → x = y) → (k x).Mind N B Q (known K a (some x)) t
  | .load a ch k, K, t => ch < N ∧ (a < B → ∃ y, K a = some y) ∧ ∀ x, x < N → (a < B → ∀ y, K a = some y → x = y) → (k x).Mind N B Q (known K a (some x)) t
  | .test c k, K, t => ∀ b, (k b).Mind N B Q K t
  | .shut c k, K, t => k.Mind N B Q K t

section
variable {N B : Nat}

theorem Code.Mind.bind {Q : R α → (Addr → Option ChanId) → TxnSt → Prop} {Q' : R β → (Addr → Option ChanId) → TxnSt → Prop} {p : Code V α}
    {f : α → Code V β} {K : Addr → Option ChanId} {t : TxnSt} (h : p.Mind N B Q K t) (hf : ∀ a K' t', Q (.ok a) K' t' → (f a).Mind N B Q' K' t')
    (he : ∀ e K' t', Q (.error e) K' t' → Q' (.error e) K' t') : (p.bind f).Mind N B Q' K t := by
  induction p generalizing K t with
  | done r =>
    cases r with
    | ok a => exact hf a K t h
    | error e => exact he e K t h
  | look k ih => exact fun s => ih s (h s)
  | read a k ih => exact fun o h1 h2 => ih o (h o h1 h2)
  | write a c k ih => exact ⟨h.1, ih h.2⟩
  | store a c k ih => exact ⟨h.1, h.2.1, ih h.2.2⟩
  | alloc c k ih => exact ⟨h.1, fun a => ih a (h.2 a)⟩
  | make k ih => exact fun c hc => ih c (h c hc)
  | own g k ih => exact ⟨h.1, ih _ h.2⟩
  | claim a c k ih => exact ⟨h.1, fun x h1 h2 => ih x (h.2 x h1 h2)⟩
  | load a c k ih => exact ⟨h.1, h.2.1, fun x h1 h2 => ih x (h.2.2 x h1 h2)⟩
  | test c k ih => exact fun b => ih b (h b)
  | shut c k ih => exact ih h

/-- Code that minds the channels. -/
class Minds (N B : Nat) (m : M V α) : Prop where
  mind : ∀ (K : Addr → Option ChanId) (t : TxnSt), t.Within N → m.code.Mind N B (fun _ _ t' => t'.Within N) K t

instance Minds.bind {m : M V α} {f : α → M V β} [h : Minds N B m] [hf : ∀ a, Minds N B (f a)] : Minds N B (m >>= f) :=
  ⟨fun K t ht => (h.mind K t ht).bind (fun a K' t' h' => (hf a).mind K' t' h') fun _ _ _ h => h⟩
instance Minds.pure (a : α) : Minds N B (Pure.pure a : M V α) := ⟨fun _ _ h => h⟩
instance Minds.throw (e : Err) : Minds N B (M.throw e : M V α) := ⟨fun _ _ h => h⟩
instance Minds.lift (r : R α) : Minds N B (M.lift r : M V α) := ⟨fun _ _ h => h⟩
instance Minds.assert (p : Prop) [Decidable p] (e : Err) : Minds N B (M.assert p e : M V Unit) := ⟨fun _ _ h => h⟩
instance Minds.get : Minds N B (M.get : M V (St V)) := ⟨fun _ _ h _ => h⟩
instance Minds.cell (a : Addr) : Minds N B (Art.cell a : M V (Cell V)) := ⟨fun _ _ h _ _ _ => h⟩
instance Minds.innerAt (a : Addr) : Minds N B (Art.innerAt a : M V Inner) := ⟨fun _ _ h _ _ _ => h⟩
instance Minds.leafAt (a : Addr) : Minds N B (Art.leafAt a : M V (LeafC V)) := ⟨fun _ _ h _ _ _ => h⟩
theorem Minds.wr {a : Addr} {c : Cell V} (hc : c.Within N) : Minds N B (Art.wr a c : M V Unit) := ⟨fun _ _ h => ⟨hc, h⟩⟩
theorem Minds.newCell {c : Cell V} (hc : c.Within N) : Minds N B (Art.newCell c : M V Addr) := ⟨fun _ _ h => ⟨hc, fun _ => h⟩⟩
instance Minds.newChan : Minds N B (Art.newChan : M V ChanId) := ⟨fun _ _ h _ _ => h⟩
instance Minds.txnSt : Minds N B (Art.txnSt : M V TxnSt) := ⟨fun _ _ h => ⟨h, h⟩⟩
theorem Minds.mod {f : TxnSt → TxnSt} (hf : ∀ t, TxnSt.Within N t → (f t).Within N) : Minds N B (Art.modTxn f : M V Unit) :=
  ⟨fun _ t h => ⟨hf t h, hf t h⟩⟩
theorem Minds.field {f : TxnSt → TxnSt} (hf : ∀ t, (f t).trackChnSlice = t.trackChnSlice) : Minds N B (Art.modTxn f : M V Unit) :=
  .mod fun t h => by unfold TxnSt.Within; rw [hf]; exact h

theorem Minds.bindCell {a : Addr} {f : Cell V → M V β} (hf : ∀ c, c.Within N → Minds N B (f c)) : Minds N B (Art.cell a >>= f) :=
  ⟨fun K t ht => Code.Mind.bind (Q := fun r _ t' => t'.Within N ∧ ∀ c, r = .ok c → c.Within N)
    (fun o h1 h2 => ⟨ht, fun c hc => by
      cases o with
      | none => cases hc
      | some d => cases hc; exact h1 _ rfl⟩)
    (fun c K' t' h => (hf c (h.2 c rfl)).mind K' t' h.1) fun _ _ _ h => h.1⟩

theorem Minds.bindInner {a : Addr} {f : Inner → M V β} (hf : ∀ n, (Cell.inner n : Cell V).Within N → Minds N B (f n)) : Minds N B (Art.innerAt a >>= f) :=
  ⟨fun K t ht => Code.Mind.bind (Q := fun r _ t' => t'.Within N ∧ ∀ n, r = .ok n → (Cell.inner n : Cell V).Within N)
    (fun o h1 h2 => ⟨ht, fun c hc => by
      cases o with
      | none => cases hc
      | some d =>
        cases d with
        | leaf l => cases hc
        | inner n => cases hc; exact h1 _ rfl⟩)
    (fun c K' t' h => (hf c (h.2 c rfl)).mind K' t' h.1) fun _ _ _ h => h.1⟩

theorem Minds.bindLeaf {a : Addr} {f : LeafC V → M V β} (hf : ∀ l, (Cell.leaf l : Cell V).Within N → Minds N B (f l)) : Minds N B (Art.leafAt a >>= f) :=
  ⟨fun K t ht => Code.Mind.bind (Q := fun r _ t' => t'.Within N ∧ ∀ l, r = .ok l → (Cell.leaf l : Cell V).Within N)
    (fun o h1 h2 => ⟨ht, fun c hc => by
      cases o with
      | none => cases hc
      | some d =>
        cases d with
        | inner l => cases hc
        | leaf n => cases hc; exact h1 _ rfl⟩)
    (fun c K' t' h => (hf c (h.2 c rfl)).mind K' t' h.1) fun _ _ _ h => h.1⟩

theorem Minds.bindLift {r : R α} {f : α → M V β} (hf : ∀ a, r = .ok a → Minds N B (f a)) : Minds N B (M.lift r >>= f) :=
  ⟨fun K t ht => Code.Mind.bind (Q := fun r' _ t' => t'.Within N ∧ r' = r) ⟨ht, rfl⟩ (fun a K' t' h => (hf a h.2.symm).mind K' t' h.1) fun _ _ _ h => h.1⟩

/-! ### Nodes with the channel of another node -/

theorem Cell.Within.setId {c : Cell V} (h : c.Within N) (i : Nat) : (c.setId i).Within N := by cases c <;> exact h
theorem Cell.Within.nil {c : Cell V} (h : c.ch = none) : c.Within N := fun k hk => by rw [h] at hk; cases hk

theorem Cell.Within.setChild {n n' : Inner} {i : Nat} {c : Option Addr} (h : n.setChild i c = .ok n') (hn : (Cell.inner n : Cell V).Within N) :
    (Cell.inner n' : Cell V).Within N := by
  unfold Inner.setChild at h
  split at h
  · cases h; exact hn
  · cases h

theorem Cell.Within.setKeyAtIdx {n n' : Inner} {i : Nat} {b : Byte} (h : n.setKeyAtIdx i b = .ok n') (hn : (Cell.inner n : Cell V).Within N) :
    (Cell.inner n' : Cell V).Within N := by
  unfold Inner.setKeyAtIdx at h
  split at h
  · cases h; exact hn
  · split at h
    · cases h; exact hn
    · cases h

theorem R.bind_okM {x : R α} {f : α → R β} {b : β} (h : (x >>= f) = .ok b) : ∃ a, x = .ok a ∧ f a = .ok b := by
  cases x with
  | error e => cases h
  | ok a => exact ⟨a, rfl, h⟩

theorem Cell.Within.insertSorted {n n' : Inner} {c : Byte} {a : Addr} (h : n.insertSorted c a = .ok n') (hn : (Cell.inner n : Cell V).Within N) :
    (Cell.inner n' : Cell V).Within N := by
  unfold Inner.insertSorted at h
  dsimp only at h
  obtain ⟨n2, h2, h⟩ := R.bind_okM h
  obtain ⟨n3, h3, h⟩ := R.bind_okM h
  have e : (Cell.inner n3 : Cell V).Within N := .setChild h3 (.setKeyAtIdx h2 hn)
  cases h
  exact e

theorem Cell.Within.takePrefix {n m m' : Inner} {k : Nat} (h : Art.takePrefix n m k = .ok m') (hm : (Cell.inner m : Cell V).Within N) :
    (Cell.inner m' : Cell V).Within N := by
  unfold Art.takePrefix at h
  dsimp only at h
  split at h
  · cases h
  · cases h; exact hm

/-- The channel of the node is there. -/
macro "within" : tactic => `(tactic| repeat' (first
  | assumption | exact Cell.Within.nil rfl | exact Cell.Within.setId ‹_› _
  | refine Cell.Within.setChild ‹_› ?_ | refine Cell.Within.setKeyAtIdx ‹_› ?_ | refine Cell.Within.insertSorted ‹_› ?_
  | refine Cell.Within.takePrefix ‹_› ?_))

/-- Take the code apart. -/
macro "minds" : tactic => `(tactic| repeat' (first
  | infer_instance | refine Minds.bindCell fun _ _ => ?_ | refine Minds.bindInner fun _ _ => ?_ | refine Minds.bindLeaf fun _ _ => ?_
  | refine Minds.bindLift fun _ _ => ?_ | refine @Minds.bind _ _ _ _ _ _ _ ?_ fun _ => ?_
  | exact Minds.field (fun _ => rfl) | (refine Minds.wr ?_; (within; done)) | (refine Minds.newCell ?_; (within; done)) | split | dsimp only))

/-! ### Channels -/

theorem getMutateCh_mind (a : Addr) {K : Addr → Option ChanId} {t : TxnSt} (ht : t.Within N) :
    (Art.getMutateCh a : M V ChanId).code.Mind N B (fun r K' t' => t' = t ∧ ∀ x, r = .ok x → x < N ∧ K' a = some x) K t := by
  unfold Art.getMutateCh
  intro o h1 h2
  cases o with
  | none => exact ⟨rfl, fun x hx => by cases hx⟩
  | some c =>
    show Code.Mind N B _ (M.code (match c.ch with | some k => _ | none => _)) (known K a c.ch) t
    cases hk : c.ch with
    | some k => exact ⟨rfl, fun x hx => by cases hx; exact ⟨h1 c rfl k hk, known_self ..⟩⟩
    | none => exact fun k hk => ⟨hk, fun x h3 h4 => ⟨rfl, fun y hy => by cases hy; exact ⟨h3, known_self ..⟩⟩⟩

instance Minds.getMutateCh (a : Addr) : Minds N B (Art.getMutateCh a : M V ChanId) :=
  ⟨fun K t ht => by
    have := Code.Mind.bind (Q' := fun _ _ t' => t'.Within N) (f := Code.done ∘ Except.ok) (getMutateCh_mind (V := V) (N := N) (B := B) a (K := K) ht)
      (fun a K' t' h => h.1 ▸ ht) fun e K' t' h => h.1 ▸ ht
    have e : ∀ p : Code V ChanId, p.bind (Code.done ∘ Except.ok) = p := fun p => by
      induction p with
      | done r => cases r <;> rfl
      | _ => simp only [Code.bind, *]
    rw [e] at this
    exact this⟩

instance Minds.trackChannel (a : Option Addr) : Minds N B (Art.trackChannel a : M V Unit) := by
  unfold Art.trackChannel
  refine ⟨fun K t ht => ⟨ht, ?_⟩⟩
  show Code.Mind N B _ (M.code (if (!t.trackMutate) = true then _ else _)) K t
  cases h : t.trackMutate with
  | false => exact ht
  | true =>
    cases a with
    | none => exact ht
    | some a =>
      refine Code.Mind.bind (getMutateCh_mind a ht) (fun ch K' t' hq => ?_) fun e K' t' h => h.1 ▸ ht
      obtain ⟨rfl, hq⟩ := hq
      obtain ⟨h1, h2⟩ := hq ch rfl
      have h3 : TxnSt.Within N { t' with trackChnSlice := t'.trackChnSlice ++ [ch] } := fun c hc => by
        rcases List.mem_append.1 hc with hc | hc
        · exact ht c hc
        · rw [List.mem_singleton.1 hc]; exact h1
      exact ⟨h3, fun fresh hfr => ⟨hfr, fun _ => ⟨ch, h2, List.mem_append_right _ (List.mem_singleton.2 rfl)⟩, h3⟩⟩

theorem keepCh_mind (a : Addr) (b : Bool) {K : Addr → Option ChanId} {t : TxnSt} (ht : t.Within N) :
    (Art.keepCh a b : M V (Option ChanId)).code.Mind N B (fun r _ t' => t'.Within N ∧ ∀ o, r = .ok o → ∀ x, o = some x → x < N) K t := by
  unfold Art.keepCh
  cases b with
  | false => exact ⟨ht, fun o ho x hx => by cases ho; cases hx⟩
  | true =>
    refine Code.Mind.bind (getMutateCh_mind a ht) (fun ch K' t' hq => ?_) fun e K' t' h => ⟨h.1 ▸ ht, fun o ho => by cases ho⟩
    obtain ⟨rfl, hq⟩ := hq
    exact ⟨ht, fun o ho x hx => by cases ho; cases hx; exact (hq ch rfl).1⟩

instance Minds.cloneNode (a : Addr) (b : Bool) : Minds N B (Art.cloneNode a b : M V Addr) := by
  unfold Art.cloneNode
  refine ⟨fun K t ht => Code.Mind.bind (keepCh_mind a b ht) (fun ch K' t' hq => ?_) fun e K' t' h => h.1⟩
  have hc := hq.2 ch rfl
  have h2 : Minds N B (do
      match ← Art.cell a with
      | .leaf l => Art.newCell (.leaf { l with ch := ch })
      | .inner n => Art.newCell (.inner { n with part := goCopy zeroPartial 0 n.part, ch := ch }) : M V Addr) := by
    refine Minds.bindCell fun c _ => ?_
    cases c with
    | leaf l => exact Minds.newCell hc
    | inner n => exact Minds.newCell hc
  exact h2.mind K' t' hq.1

/-! ### Function by function -/

instance Minds.bumpId (a : Addr) : Minds N B (Art.bumpId a : M V _) := by unfold Art.bumpId; minds
instance Minds.trackNode (a : Addr) (b : Bool) : Minds N B (Art.trackNode a b : M V _) := by unfold Art.trackNode; minds
instance Minds.writeNode (a : Addr) (b : Bool) : Minds N B (Art.writeNode a b : M V _) := by unfold Art.writeNode; minds
instance Minds.allocInner (k : Kind) : Minds N B (Art.allocInner k : M V _) := by unfold Art.allocInner; minds
instance Minds.allocLeaf (k : Key) (v : V) : Minds N B (Art.allocLeaf k v : M V _) := by unfold Art.allocLeaf; minds
instance Minds.setNodeLeaf (a : Addr) (l : Option Addr) : Minds N B (Art.setNodeLeaf a l : M V _) := by unfold Art.setNodeLeaf; minds
instance Minds.setChildAt (a : Addr) (i : Nat) (c : Option Addr) : Minds N B (Art.setChildAt a i c : M V _) := by unfold Art.setChildAt; minds
instance Minds.makeLeaf (k : Key) (v : V) : Minds N B (Art.makeLeaf k v : M V _) := by unfold Art.makeLeaf; minds
instance Minds.copyHeader (a b : Addr) : Minds N B (Art.copyHeader a b : M V _) := by unfold Art.copyHeader; minds
instance Minds.moveLeaf (a b : Addr) : Minds N B (Art.moveLeaf a b : M V _) := by unfold Art.moveLeaf; minds
instance Minds.addChild256 (a : Addr) (c : Byte) (x : Addr) : Minds N B (Art.addChild256 a c x : M V _) := by unfold Art.addChild256; minds
instance Minds.addChild48 (a : Addr) (c : Byte) (x : Addr) : Minds N B (Art.addChild48 a c x : M V _) := by
  unfold Art.addChild48
  minds
  have h : (Cell.inner ‹Inner› : Cell V).Within N := Cell.Within.setKeyAtIdx ‹_› (Cell.Within.setChild ‹_› ‹_›)
  exact Minds.wr h
instance Minds.addChild16 (a : Addr) (c : Byte) (x : Addr) : Minds N B (Art.addChild16 a c x : M V _) := by unfold Art.addChild16; minds
instance Minds.addChild4 (a : Addr) (c : Byte) (x : Addr) : Minds N B (Art.addChild4 a c x : M V _) := by unfold Art.addChild4; minds
instance Minds.addChild (a : Addr) (c : Byte) (x : Addr) : Minds N B (Art.addChild a c x : M V _) := by unfold Art.addChild; minds
theorem Minds.clearTail (a : Addr) : ∀ k i : Nat, Minds N B (Art.clearTail a k i : M V Unit)
  | 0, _ => by unfold Art.clearTail; infer_instance
  | k + 1, i => by
    have := Minds.clearTail a k
    unfold Art.clearTail
    minds
attribute [instance] Minds.clearTail
instance Minds.removeSorted (a : Addr) (c : Byte) : Minds N B (Art.removeSorted a c : M V _) := by unfold Art.removeSorted; minds
instance Minds.removeChild4 (a : Addr) (c : Byte) : Minds N B (Art.removeChild4 a c : M V _) := by unfold Art.removeChild4; minds
instance Minds.removeChild16 (a : Addr) (c : Byte) : Minds N B (Art.removeChild16 a c : M V _) := by unfold Art.removeChild16; minds
instance Minds.removeChild48 (a : Addr) (c : Byte) : Minds N B (Art.removeChild48 a c : M V _) := by unfold Art.removeChild48; minds
instance Minds.removeChild256 (a : Addr) (c : Byte) : Minds N B (Art.removeChild256 a c : M V _) := by unfold Art.removeChild256; minds
instance Minds.removeChild (a : Addr) (c : Byte) : Minds N B (Art.removeChild a c : M V _) := by unfold Art.removeChild; minds
instance Minds.addChildAt (a : Addr) (k : Key) (i : Nat) (x : Addr) : Minds N B (Art.addChildAt a k i x : M V _) := by unfold Art.addChildAt; minds
instance Minds.insertUpdateLeaf (a : Addr) (o : V) (k : Key) (v : V) : Minds N B (Art.insertUpdateLeaf a o k v : M V _) := by unfold Art.insertUpdateLeaf; minds
instance Minds.insertPair (a b c d e : Addr) (k l : Key) (i : Nat) : Minds N B (Art.insertPair a b c d e k l i : M V _) := by unfold Art.insertPair; minds
instance Minds.insertSplitLeaf [Inhabited V] (a b : Addr) (k l : Key) (v : V) (d : Nat) : Minds N B (Art.insertSplitLeaf a b k l v d : M V _) := by unfold Art.insertSplitLeaf; minds
instance Minds.insertAtLeaf [Inhabited V] (a b : Addr) (k : Key) (v : V) (d : Nat) : Minds N B (Art.insertAtLeaf a b k v d : M V _) := by unfold Art.insertAtLeaf; minds
instance Minds.leafClash (n : Inner) (k : Key) : Minds N B (Art.leafClash n k : M V _) := by unfold Art.leafClash; minds
instance Minds.insertNoChild [Inhabited V] (a : Addr) (k : Key) (v : V) (d : Nat) : Minds N B (Art.insertNoChild a k v d : M V _) := by unfold Art.insertNoChild; minds
instance Minds.splitShort (a b : Addr) (d : Nat) : Minds N B (Art.splitShort a b d : M V _) := by unfold Art.splitShort; minds
instance Minds.splitLong (a b : Addr) (d e : Nat) : Minds N B (Art.splitLong a b d e : M V _) := by unfold Art.splitLong; minds
instance Minds.splitChild (a b : Addr) (p d e : Nat) : Minds N B (Art.splitChild a b p d e : M V _) := by unfold Art.splitChild; minds
instance Minds.insertSplit [Inhabited V] (a : Addr) (k : Key) (v : V) (d e : Nat) : Minds N B (Art.insertSplit a k v d e : M V _) := by unfold Art.insertSplit; minds
instance Minds.insertReplace (a b : Addr) (i : Nat) (r : InsRes V) : Minds N B (Art.insertReplace a b i r : M V _) := by unfold Art.insertReplace; minds
instance Minds.leafHit (c : Cell V) (k : Key) : Minds N B (Art.leafHit c k : M V _) := by unfold Art.leafHit; minds
instance Minds.insertHit [Inhabited V] (a b : Addr) (v : V) : Minds N B (Art.insertHit a b v : M V _) := by unfold Art.insertHit; minds
instance Minds.insertNew [Inhabited V] (a : Addr) (k : Key) (v : V) (d : Nat) : Minds N B (Art.insertNew a k v d : M V _) := by unfold Art.insertNew; minds
instance Minds.insertEmpty [Inhabited V] (a : Addr) (k : Key) (v : V) : Minds N B (Art.insertEmpty a k v : M V _) := by unfold Art.insertEmpty; minds
theorem Minds.recursiveInsert [Inhabited V] (k : Key) (v : V) : ∀ (f : Nat) (a : Addr) (d : Nat), Minds N B (Art.recursiveInsert f a k v d : M V _)
  | 0, _, _ => by unfold Art.recursiveInsert; infer_instance
  | f + 1, a, d => by
    have := Minds.recursiveInsert k v f
    unfold Art.recursiveInsert
    minds
attribute [instance] Minds.recursiveInsert
instance Minds.txnInsert [Inhabited V] (k : Key) (v : V) : Minds N B (Art.txnInsert k v : M V _) := by unfold Art.txnInsert; minds
instance Minds.deleteHit (a b : Addr) : Minds N B (Art.deleteHit a b : M V _) := by unfold Art.deleteHit; minds
instance Minds.deleteReplace (a b : Addr) (i : Nat) (c : Byte) (r : DelRes) : Minds N B (Art.deleteReplace a b i c r : M V _) := by unfold Art.deleteReplace; minds
instance Minds.deleteFinish (a : Addr) (r : DelRes) : Minds N B (Art.deleteFinish a r : M V _) := by unfold Art.deleteFinish; minds
theorem Minds.recursiveDelete (k : Key) : ∀ (f : Nat) (a : Addr) (d : Nat), Minds N B (Art.recursiveDelete f a k d : M V _)
  | 0, _, _ => by unfold Art.recursiveDelete; infer_instance
  | f + 1, a, d => by
    have := Minds.recursiveDelete k f
    unfold Art.recursiveDelete
    minds
attribute [instance] Minds.recursiveDelete
instance Minds.resetRoot [Inhabited V] : Minds N B (Art.resetRoot  : M V _) := by unfold Art.resetRoot; minds
instance Minds.setRoot [Inhabited V] (a : Option Addr) : Minds N B (Art.setRoot a : M V _) := by unfold Art.setRoot; minds
instance Minds.txnDelete [Inhabited V] (k : Key) : Minds N B (Art.txnDelete k : M V _) := by unfold Art.txnDelete; minds
theorem Minds.compactSlots (a : Addr) (m : List (Nat × Option Addr)) : ∀ k i s : Nat, Minds N B (Art.compactSlots a m k i s : M V Nat)
  | 0, _, _ => by unfold Art.compactSlots; infer_instance
  | k + 1, i, s => by
    have := Minds.compactSlots a m k
    unfold Art.compactSlots
    minds
attribute [instance] Minds.compactSlots
instance Minds.clearFrom (a : Addr) (i : Nat) : Minds N B (Art.clearFrom a i : M V _) := by unfold Art.clearFrom; minds
theorem Minds.deletePrefixChildren {rec : Addr → M V (Option Addr × Nat)} (hr : ∀ a, Minds N B (rec a)) :
    ∀ cs : List (Option Addr × Nat), Minds N B (Art.deletePrefixChildren rec cs)
  | [] => by unfold Art.deletePrefixChildren; infer_instance
  | (none, _) :: cs => by
    have := Minds.deletePrefixChildren hr cs
    unfold Art.deletePrefixChildren
    minds
  | (some _, _) :: cs => by
    have := Minds.deletePrefixChildren hr cs
    unfold Art.deletePrefixChildren
    minds
instance Minds.deletePrefixOwn (c : Cell V) (k : Key) : Minds N B (Art.deletePrefixOwn c k : M V _) := by unfold Art.deletePrefixOwn; minds
instance Minds.deletePrefixLeaf (a : Addr) (c : Cell V) (k : Key) : Minds N B (Art.deletePrefixLeaf a c k : M V _) := by unfold Art.deletePrefixLeaf; minds
instance Minds.deletePrefixRebuild (a : Addr) (m : List (Nat × Option Addr)) : Minds N B (Art.deletePrefixRebuild a m : M V _) := by unfold Art.deletePrefixRebuild; minds
theorem Minds.deletePrefix (k : Key) : ∀ (f : Nat) (a : Option Addr) (d : Nat), Minds N B (Art.deletePrefix f a k d : M V _)
  | _, none, _ => by unfold Art.deletePrefix; infer_instance
  | 0, some _, _ => by unfold Art.deletePrefix; infer_instance
  | f + 1, some a, d => by
    have h := Minds.deletePrefix k f
    have := fun d => Minds.deletePrefixChildren (rec := fun ch => Art.deletePrefix f (some ch) k (d + 1)) fun a => h (some a) (d + 1)
    unfold Art.deletePrefix
    minds
attribute [instance] Minds.deletePrefix
instance Minds.txnDeletePrefix [Inhabited V] (k : Key) : Minds N B (Art.txnDeletePrefix k : M V _) := by unfold Art.txnDeletePrefix; minds
instance Minds.txnGet (k : Key) : Minds N B (Art.txnGet k : M V _) := by unfold Art.txnGet; minds
instance Minds.treeGetWatch (t : Tree) (k : Key) : Minds N B (Art.treeGetWatch t k : M V _) := by unfold Art.treeGetWatch; minds
instance Minds.txnCommitOnly : Minds N B (Art.txnCommitOnly  : M V _) := by unfold Art.txnCommitOnly; minds

/-! ### Notify -/

theorem closeAll_mind (l : List ChanId) (K : Addr → Option ChanId) (t : TxnSt) :
    (closeAll l : Code V Unit).Mind N B (fun _ _ t' => t'.Within N) K t := by
  induction l with
  | nil => exact ⟨fun c hc => (by cases hc), fun c hc => (by cases hc)⟩
  | cons c l ih =>
    intro b
    cases b with
    | true => exact ih
    | false => exact ih

instance Minds.slowNotify : Minds N B (Art.slowNotify : M V Unit) := ⟨fun K t ht => ⟨ht, closeAll_mind _ K t⟩⟩
instance Minds.txnNotify : Minds N B (Art.txnNotify : M V Unit) := by unfold Art.txnNotify; minds
instance Minds.txnTrackMutate (b : Bool) : Minds N B (Art.txnTrackMutate b : M V Unit) := by unfold Art.txnTrackMutate; minds

theorem Minds.call [Inhabited V] (ts : List Tree) (c : Call V) : Minds N B (c.code ts) := by
  cases c with
  | peek t k =>
    unfold Call.code
    dsimp only
    cases ts[t]? <;> minds
  | _ => unfold Call.code; minds

theorem Minds.callAll [Inhabited V] (ts : List Tree) : ∀ cs : List (Call V), Minds N B (Art.callAll ts cs)
  | [] => by unfold Art.callAll; infer_instance
  | c :: cs => by
    have := Minds.call (N := N) (B := B) ts c
    have := Minds.callAll ts cs
    unfold Art.callAll
    minds

theorem session_mind [Inhabited V] (ts : List Tree) (g : Session V) (K : Addr → Option ChanId) :
    (g.code ts).code.Mind N B (fun _ _ _ => True) K default := by
  unfold Session.code
  cases ts[g.tree]? with
  | none => exact trivial
  | some t0 =>
    dsimp only [Art.session, beginTxn]
    refine Code.Mind.bind (Q := fun r K' t' => ∀ x, r = .ok x → TxnSt.Within N x) ?_ (fun x K' t' h => ?_) fun _ _ _ _ => trivial
    · refine Code.Mind.bind ((Minds.cloneNode (N := N) (B := B) t0.root true).mind K default fun c hc => by cases hc) (fun a K' t' h x hx => ?_) fun e K' t' h x hx => by cases hx
      cases hx
      exact fun c hc => by cases hc
    · have hx := h x rfl
      refine ⟨hx, ?_⟩
      have := Minds.callAll (N := N) (B := B) ts g.calls
      have h2 : Minds N B (do
          let os ← Art.callAll ts g.calls
          let nt ← txnEnd g.notify
          Pure.pure (os, nt) : M V (List (Out V) × Tree)) := by dsimp only [txnEnd, txnCommit]; minds
      have h3 := Code.Mind.bind (Q' := fun _ _ _ => True) (f := Code.done ∘ Except.ok) (h2.mind K' x hx) (fun _ _ _ _ => trivial) fun _ _ _ _ => trivial
      have e : ∀ p : Code V (List (Out V) × Tree), p.bind (Code.done ∘ Except.ok) = p := fun p => by
        induction p with
        | done r => cases r <;> rfl
        | _ => simp only [Code.bind, *]
      rw [e] at h3
      exact h3
end

end Art
