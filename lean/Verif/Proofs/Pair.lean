import Verif.Model.Pool
/-
The code does not depend on where nodes are in memory, nor on channels: two runs, whose nodes correspond under a renaming
of addresses, go through corresponding steps.  `Pair` relates the code of the two runs step by step; only the handling of
channels may differ in the number of steps.  One lemma for every function of the model.
-/
set_option autoImplicit false
set_option linter.unusedVariables false
set_option linter.unusedSimpArgs false
set_option linter.unusedSectionVars false
namespace Art
variable {V : Type} {α β γ δ : Type}

/-! ### Results side by side -/

/-- Both fail in the same way, or both succeed with related results; or the first ran out of the model's loop bound. -/
inductive Par (Q : α → β → Prop) : R α → R β → Prop
  | fuel (y : R β) : Par Q (.error .fuel) y
  | error (e : Err) : Par Q (.error e) (.error e)
  | ok {a : α} {b : β} (h : Q a b) : Par Q (.ok a) (.ok b)

section
variable {Q : α → β → Prop} {Q' : γ → δ → Prop}

theorem Par.bind {x : R α} {y : R β} {f : α → R γ} {g : β → R δ} (h : Par Q x y)
    (hf : ∀ a b, Q a b → Par Q' (f a) (g b)) : Par Q' (x >>= f) (y >>= g) := by
  cases h with
  | fuel y => exact .fuel _
  | error e => exact .error e
  | ok h => exact hf _ _ h

theorem Par.pure {a : α} {b : β} (h : Q a b) : Par Q (Pure.pure a : R α) (Pure.pure b : R β) := .ok h

theorem Par.same (x : R α) : Par (fun a b => b = a) x x := by
  cases x with
  | error e => exact .error e
  | ok a => exact .ok rfl

theorem Par.mono {Q1 : α → β → Prop} {x : R α} {y : R β} (h : Par Q x y) (hq : ∀ a b, Q a b → Q1 a b) : Par Q1 x y := by
  cases h with
  | fuel y => exact .fuel _
  | error e => exact .error e
  | ok h => exact .ok (hq _ _ h)

theorem Par.of_map {g : α → β} {x : R α} {y : R β} (h : y = x.map g) : Par (fun a b => b = g a) x y := by
  subst h
  cases x with
  | error e => exact .error e
  | ok a => exact .ok rfl
end

/-! ### Nodes -/

/-- The node with its pointers renamed and with another channel. -/
def Inner.ren (σ : Addr → Addr) (k : Option ChanId) (n : Inner) : Inner :=
  { n with children := n.children.map (Option.map σ), leaf := n.leaf.map σ, ch := k }

/-- The channels that are compared: those with numbers below `limit`.  With the limit 0 none is.  `mark` is what is to be shown
of those that the first run tracks. -/
class Lim where
  limit : Nat
  mark : ChanId → Prop

section
variable [Lim]

/-- What the second run may have where the first has the channel `x`: the same channel, if `x` is one of the compared. -/
def ChKin (x y : Option ChanId) : Prop := ∀ c : ChanId, x = some c → c < Lim.limit → y = some c

/-- The channels that the second run may have where the first has `x`. -/
def Kins (x : Option ChanId) : Type := { y : Option ChanId // ChKin x y }

/-- The lists that the second run may have where the first has `l`: the compared channels of `l` are in it. -/
def Sups (l : List ChanId) : Type := { l' : List ChanId // ∀ c ∈ l, c < Lim.limit → c ∈ l' }

instance (x : Option ChanId) : CoeOut (Kins x) (Option ChanId) := ⟨fun k => k.1⟩
instance (l : List ChanId) : CoeOut (Sups l) (List ChanId) := ⟨fun k => k.1⟩

theorem ChKin.none (y : Option ChanId) : ChKin Option.none y := fun _ h => nomatch h
theorem ChKin.big {c : ChanId} (h : Lim.limit ≤ c) (y : Option ChanId) : ChKin (some c) y := fun d e hd => by cases e; exact absurd hd (Nat.not_lt.2 h)
theorem ChKin.refl (x : Option ChanId) : ChKin x x := fun _ h _ => h

/-- The same for a node with the same channel. -/
def Kins.on {x y : Option ChanId} (k : Kins x) (h : y = x) : Kins y := ⟨k.1, h ▸ k.2⟩

/-- The same node, up to renaming and channels. -/
inductive CRel (σ : Addr → Addr) : Cell V → Cell V → Prop
  | leaf (l : LeafC V) (k : Kins l.ch) : CRel σ (.leaf l) (.leaf { l with ch := k })
  | inner (n : Inner) (k : Kins n.ch) : CRel σ (.inner n) (.inner (n.ren σ k))

/-- The same for an address that may be dangling. -/
inductive ORel (σ : Addr → Addr) : Option (Cell V) → Option (Cell V) → Prop
  | none : ORel σ none none
  | some {c c' : Cell V} (h : CRel σ c c') : ORel σ (some c) (some c')

/-- The heaps hold the same nodes. -/
def HRel (σ : Addr → Addr) (h h' : Heap V) : Prop := ∀ a : Addr, ORel σ h[a]? h'[σ a]?

/-- The transactions are the same. -/
def TRel (σ : Addr → Addr) (t t' : TxnSt) : Prop := ∃ l : Sups t.trackChnSlice, t' = { t with root := σ t.root, trackChnSlice := l }

/-- The stores are the same. -/
structure SRel (σ : Addr → Addr) (s s' : St V) : Prop where
  heap : HRel σ s.heap s'.heap
  len : s.heap.length ≤ s'.heap.length
  txn : TRel σ s.txn s'.txn

/-! ### Code side by side -/

/-- The two pieces of code take corresponding steps; those that make, load, set, test or close channels are not compared. -/
inductive Pair (σ : Addr → Addr) (Q : α → β → Prop) : Code V α → Code V β → Prop
  | fuel (p' : Code V β) : Pair σ Q (.done (.error .fuel)) p'
  | done {r : R α} {r' : R β} (h : Par Q r r') : Pair σ Q (.done r) (.done r')
  | look {k : St V → Code V α} {k' : St V → Code V β} (h : ∀ s s', SRel σ s s' → Pair σ Q (k s) (k' s')) : Pair σ Q (.look k) (.look k')
  | read {a : Addr} {k : Option (Cell V) → Code V α} {k' : Option (Cell V) → Code V β}
      (h : ∀ c c', ORel σ c c' → Pair σ Q (k c) (k' c')) : Pair σ Q (.read a k) (.read (σ a) k')
  | write {a : Addr} {c c' : Cell V} {k : Code V α} {k' : Code V β} (hc : CRel σ c c') (h : Pair σ Q k k') :
      Pair σ Q (.write a c k) (.write (σ a) c' k')
  | alloc {c c' : Cell V} {k : Addr → Code V α} {k' : Addr → Code V β} (hc : CRel σ c c') (h : ∀ a, Pair σ Q (k a) (k' (σ a))) :
      Pair σ Q (.alloc c k) (.alloc c' k')
  | own {f f' : TxnSt → TxnSt} {k : TxnSt → Code V α} {k' : TxnSt → Code V β}
      (ht : ∀ t t', TRel σ t t' → TRel σ (f t) (f' t')) (h : ∀ t t', TRel σ t t' → Pair σ Q (k t) (k' t')) :
      Pair σ Q (.own f k) (.own f' k')
  | store {a : Addr} {ch ch' : ChanId} {k : Code V α} {k' : Code V β} (hc : Lim.limit ≤ ch) (h : Pair σ Q k k') :
      Pair σ Q (.store a ch k) (.store (σ a) ch' k')
  | makeL {k : ChanId → Code V α} {p' : Code V β} (h : ∀ c, Lim.limit ≤ c → Pair σ Q (k c) p') : Pair σ Q (.make k) p'
  | makeR {p : Code V α} {k' : ChanId → Code V β} (h : ∀ c, Pair σ Q p (k' c)) : Pair σ Q p (.make k')
  | claimL {a : Addr} {ch : ChanId} {k : ChanId → Code V α} {p' : Code V β} (h : ∀ x, Lim.limit ≤ x → Pair σ Q (k x) p') : Pair σ Q (.claim a ch k) p'
  | loadL {a : Addr} {ch : ChanId} {k : ChanId → Code V α} {p' : Code V β} (h : ∀ x, Lim.limit ≤ x → Pair σ Q (k x) p') : Pair σ Q (.load a ch k) p'
  | claimR {a : Addr} {ch : ChanId} {p : Code V α} {k' : ChanId → Code V β} (h : ∀ x, Pair σ Q p (k' x)) : Pair σ Q p (.claim a ch k')
  | loadR {a : Addr} {ch : ChanId} {p : Code V α} {k' : ChanId → Code V β} (h : ∀ x, Pair σ Q p (k' x)) : Pair σ Q p (.load a ch k')
  | testL {c : ChanId} {k : Bool → Code V α} {p' : Code V β} (h : ∀ x, Pair σ Q (k x) p') : Pair σ Q (.test c k) p'
  | testR {c : ChanId} {p : Code V α} {k' : Bool → Code V β} (h : ∀ x, Pair σ Q p (k' x)) : Pair σ Q p (.test c k')
  | shutL {c : ChanId} {k : Code V α} {p' : Code V β} (h : Pair σ Q k p') : Pair σ Q (.shut c k) p'
  | shutR {c : ChanId} {p : Code V α} {k' : Code V β} (h : Pair σ Q p k') : Pair σ Q p (.shut c k')

theorem Pair.bind {σ : Addr → Addr} {Q : α → β → Prop} {Q' : γ → δ → Prop} {p : Code V α} {p' : Code V β} {f : α → Code V γ} {f' : β → Code V δ}
    (h : Pair σ Q p p') (hf : ∀ a b, Q a b → Pair σ Q' (f a) (f' b)) : Pair σ Q' (p.bind f) (p'.bind f') := by
  induction h with
  | fuel p' => exact .fuel _
  | done h =>
    cases h with
    | fuel y => exact .fuel _
    | error e => exact .done (.error e)
    | ok h => exact hf _ _ h
  | look h ih => exact .look ih
  | read h ih => exact .read ih
  | write hc h ih => exact .write hc ih
  | alloc hc h ih => exact .alloc hc ih
  | own ht h ih => exact .own ht ih
  | store hc h ih => exact .store hc ih
  | makeL h ih => exact .makeL ih
  | makeR h ih => exact .makeR ih
  | claimL h ih => exact .claimL ih
  | loadL h ih => exact .loadL ih
  | claimR h ih => exact .claimR ih
  | loadR h ih => exact .loadR ih
  | testL h ih => exact .testL ih
  | testR h ih => exact .testR ih
  | shutL h ih => exact .shutL ih
  | shutR h ih => exact .shutR ih

/-- The same for functions of the model. -/
def Peer (σ : Addr → Addr) (Q : α → β → Prop) (m : M V α) (m' : M V β) : Prop := Pair σ Q m.code m'.code

section
variable {σ : Addr → Addr} {Q : α → β → Prop} {Q' : γ → δ → Prop}

theorem Peer.bind {m : M V α} {m' : M V β} {f : α → M V γ} {f' : β → M V δ} (h : Peer σ Q m m')
    (hf : ∀ a b, Q a b → Peer σ Q' (f a) (f' b)) : Peer σ Q' (m >>= f) (m' >>= f') := Pair.bind h hf

theorem Peer.mono {Q1 : α → β → Prop} {m : M V α} {m' : M V β} (h : Peer σ Q m m') (hq : ∀ a b, Q a b → Q1 a b) : Peer σ Q1 m m' := by
  unfold Peer at h ⊢
  generalize m.code = p at h
  generalize m'.code = p' at h
  induction h with
  | fuel p' => exact .fuel _
  | done h => exact .done (h.mono hq)
  | look h ih => exact .look ih
  | read h ih => exact .read ih
  | write hc h ih => exact .write hc ih
  | alloc hc h ih => exact .alloc hc ih
  | own ht h ih => exact .own ht ih
  | store hc h ih => exact .store hc ih
  | makeL h ih => exact .makeL ih
  | makeR h ih => exact .makeR ih
  | claimL h ih => exact .claimL ih
  | loadL h ih => exact .loadL ih
  | claimR h ih => exact .claimR ih
  | loadR h ih => exact .loadR ih
  | testL h ih => exact .testL ih
  | testR h ih => exact .testR ih
  | shutL h ih => exact .shutL ih
  | shutR h ih => exact .shutR ih

theorem Peer.pure {a : α} {b : β} (h : Q a b) : Peer σ Q (Pure.pure a : M V α) (Pure.pure b : M V β) := .done (.ok h)
theorem Peer.throw (e : Err) : Peer σ Q (M.throw e : M V α) (M.throw e : M V β) := .done (.error e)
theorem Peer.fuel (m' : M V β) : Peer σ Q (M.throw .fuel : M V α) m' := Pair.fuel _
theorem Peer.lift {r : R α} {r' : R β} (h : Par Q r r') : Peer σ Q (M.lift r : M V α) (M.lift r' : M V β) := .done h

theorem Peer.bindLift {Q : α → β → Prop} {r : R α} {r' : R β} {f : α → M V γ} {f' : β → M V δ} (h : Par Q r r')
    (hf : ∀ a b, Q a b → Peer σ Q' (f a) (f' b)) : Peer σ Q' (M.lift r >>= f) (M.lift r' >>= f') := .bind (.lift h) hf

/-- The same pure computation on both sides. -/
theorem Peer.bindSame {r : R α} {f : α → M V γ} {f' : α → M V δ}
    (hf : ∀ a, Peer σ Q' (f a) (f' a)) : Peer σ Q' (M.lift r >>= f) (M.lift r >>= f') :=
  .bindLift (.same r) fun a b h => h ▸ hf a

theorem Peer.bindAssert {p : Prop} [Decidable p] {e : Err} {f : Unit → M V γ} {f' : Unit → M V δ}
    (hf : Peer σ Q' (f ()) (f' ())) : Peer σ Q' (M.assert p e >>= f) (M.assert p e >>= f') := by
  refine .bind (Q := fun _ _ => True) (.done ?_) fun _ _ _ => hf
  split
  · exact .ok trivial
  · exact .error e

theorem Peer.bindGet {f : St V → M V γ} {f' : St V → M V δ} (hf : ∀ s s', SRel σ s s' → Peer σ Q' (f s) (f' s')) :
    Peer σ Q' (M.get >>= f) (M.get >>= f') := .look hf

theorem Peer.bindCell {a : Addr} {f : Cell V → M V γ} {f' : Cell V → M V δ} (hf : ∀ c c', CRel σ c c' → Peer σ Q' (f c) (f' c')) :
    Peer σ Q' (cell a >>= f) (cell (σ a) >>= f') := by
  refine .read fun c c' h => ?_
  cases h with
  | none => exact .done (.error _)
  | some h => exact hf _ _ h

theorem Peer.bindInner {a : Addr} {f : Inner → M V γ} {f' : Inner → M V δ} (hf : ∀ (n : Inner) (k : Kins n.ch), Peer σ Q' (f n) (f' (n.ren σ k))) :
    Peer σ Q' (innerAt a >>= f) (innerAt (σ a) >>= f') := by
  refine .read fun c c' h => ?_
  cases h with
  | none => exact .done (.error _)
  | some h =>
    cases h with
    | leaf l k => exact .done (.error _)
    | inner n k => exact hf n k

theorem Peer.bindLeaf {a : Addr} {f : LeafC V → M V γ} {f' : LeafC V → M V δ} (hf : ∀ (l : LeafC V) (k : Kins l.ch), Peer σ Q' (f l) (f' { l with ch := k })) :
    Peer σ Q' (leafAt a >>= f) (leafAt (σ a) >>= f') := by
  refine .read fun c c' h => ?_
  cases h with
  | none => exact .done (.error _)
  | some h =>
    cases h with
    | leaf l k => exact hf l k
    | inner n k => exact .done (.error _)

theorem Peer.wr {a : Addr} {c c' : Cell V} (hc : CRel σ c c') : Peer σ (fun _ _ => True) (wr a c) (wr (σ a) c') := .write hc (.done (.ok trivial))

theorem Peer.bindWr {a : Addr} {c c' : Cell V} {f : Unit → M V γ} {f' : Unit → M V δ} (hc : CRel σ c c')
    (hf : Peer σ Q' (f ()) (f' ())) : Peer σ Q' (Art.wr a c >>= f) (Art.wr (σ a) c' >>= f') := .bind (.wr hc) fun _ _ _ => hf

theorem Peer.newCell {c c' : Cell V} (hc : CRel σ c c') : Peer σ (fun a a' => a' = σ a) (newCell c) (newCell c') :=
  .alloc hc fun _ => .done (.ok rfl)

theorem Peer.bindTxn {f : TxnSt → M V γ} {f' : TxnSt → M V δ}
    (hf : ∀ (t : TxnSt) (l : Sups t.trackChnSlice), Peer σ Q' (f t) (f' { t with root := σ t.root, trackChnSlice := l })) : Peer σ Q' (txnSt >>= f) (txnSt >>= f') :=
  .own (fun _ _ h => h) fun t t' ⟨l, h⟩ => h ▸ hf t l

theorem Peer.modTxn {f f' : TxnSt → TxnSt} (h : ∀ (t : TxnSt) (l : Sups t.trackChnSlice), TRel σ (f t) (f' { t with root := σ t.root, trackChnSlice := l })) :
    Peer σ (fun _ _ => True) (modTxn f : M V Unit) (modTxn f') :=
  .own (fun t t' ⟨l, ht⟩ => ht ▸ h t l) fun _ _ _ => .done (.ok trivial)

theorem Peer.bindMod {f f' : TxnSt → TxnSt} {g : Unit → M V γ} {g' : Unit → M V δ}
    (h : ∀ (t : TxnSt) (l : Sups t.trackChnSlice), TRel σ (f t) (f' { t with root := σ t.root, trackChnSlice := l })) (hf : Peer σ Q' (g ()) (g' ())) :
    Peer σ Q' (Art.modTxn f >>= g) (Art.modTxn f' >>= g') := .bind (.modTxn h) fun _ _ _ => hf

theorem Peer.ite {p : Prop} [Decidable p] {m n : M V α} {m' n' : M V β} (h1 : p → Peer σ Q m m') (h2 : ¬ p → Peer σ Q n n') :
    Peer σ Q (if p then m else n) (if p then m' else n') := by
  split
  · exact h1 ‹_›
  · exact h2 ‹_›

/-! ### Channels and copying -/

theorem CRel.kin {c c' : Cell V} (h : CRel σ c c') : ChKin c.ch c'.ch := by
  cases h with
  | leaf l k => exact k.2
  | inner n k => exact k.2

theorem Peer.getMutateCh (a : Addr) : Peer σ (fun k k' => k < Lim.limit → k' = k) (getMutateCh a : M V ChanId) (getMutateCh (σ a)) := by
  unfold Art.getMutateCh
  refine .bindCell fun c c' h => ?_
  have hk := h.kin
  cases hc : c.ch with
  | some k =>
    rw [hc] at hk
    cases hc' : c'.ch with
    | some k' => exact .pure fun hlt => Option.some.inj (hc' ▸ hk k rfl hlt)
    | none => exact .makeR fun _ => .claimR fun _ => .done (.ok fun hlt => nomatch hc' ▸ hk k rfl hlt)
  | none =>
    cases c'.ch with
    | some k' => exact .makeL fun _ _ => .claimL fun x hx => .done (.ok fun hlt => absurd hx (Nat.not_le.2 hlt))
    | none => exact .makeL fun _ _ => .claimL fun x hx => .makeR fun _ => .claimR fun _ => .done (.ok fun hlt => absurd hx (Nat.not_le.2 hlt))

theorem Peer.trackChannel (a : Option Addr) : Peer σ (fun _ _ => True) (trackChannel a : M V Unit) (trackChannel (a.map σ)) := by
  unfold Art.trackChannel
  refine .bindTxn fun t l => .ite (fun _ => .pure trivial) fun _ => ?_
  cases a with
  | none => exact .pure trivial
  | some a =>
    refine .bind (.getMutateCh a) fun k k' hk => .bindMod (fun t l => ⟨⟨_, fun c hc hlt => ?_⟩, rfl⟩) ?_
    · rcases List.mem_append.1 hc with h | h
      · exact List.mem_append_left _ (l.2 c h hlt)
      · cases List.mem_singleton.1 h
        exact List.mem_append_right _ (by rw [hk hlt]; exact List.mem_singleton.2 rfl)
    exact .makeL fun _ hc => .makeR fun _ => .store hc (.done (.ok trivial))

theorem Peer.keepCh (a : Addr) (b : Bool) : Peer σ ChKin (keepCh a b : M V (Option ChanId)) (keepCh (σ a) b) := by
  unfold Art.keepCh
  exact .ite (fun _ => .bind (.getMutateCh a) fun k k' hk => .pure fun c e hlt => by cases e; rw [hk hlt]) fun _ => .pure (.none _)

theorem Peer.cloneNode (a : Addr) (b : Bool) : Peer σ (fun a a' => a' = σ a) (cloneNode a b : M V Addr) (cloneNode (σ a) b) := by
  unfold Art.cloneNode
  refine .bind (.keepCh a b) fun k k' hk => .bindCell fun c c' h => ?_
  cases h with
  | leaf l j => exact .newCell (.leaf { l with ch := k } ⟨k', hk⟩)
  | inner n j => exact .newCell (.inner { n with part := goCopy zeroPartial 0 n.part, ch := k } ⟨k', hk⟩)

theorem CRel.setId {c c' : Cell V} (h : CRel σ c c') (i : Nat) : CRel σ (c.setId i) (c'.setId i) := by
  cases h with
  | leaf l k => exact .leaf { l with id := i } k
  | inner n k => exact .inner { n with id := i } k

theorem CRel.id {c c' : Cell V} (h : CRel σ c c') : c'.id = c.id := by cases h <;> rfl
theorem CRel.isLeaf {c c' : Cell V} (h : CRel σ c c') : c'.isLeaf = c.isLeaf := by
  cases h with
  | leaf l k => rfl
  | inner n k => show (n.numChildren == 0 && (n.leaf.map σ).isSome) = _; rw [Option.isSome_map]; rfl
theorem CRel.partialLen {c c' : Cell V} (h : CRel σ c c') : c'.partialLen = c.partialLen := by cases h <;> rfl
theorem CRel.part {c c' : Cell V} (h : CRel σ c c') : c'.part = c.part := by cases h <;> rfl
theorem CRel.numChildren {c c' : Cell V} (h : CRel σ c c') : c'.numChildren = c.numChildren := by cases h <;> rfl
theorem CRel.nodeLeaf {c c' : Cell V} (h : CRel σ c c') : c'.nodeLeaf = c.nodeLeaf.map σ := by cases h <;> rfl
theorem CRel.key {c c' : Cell V} (h : CRel σ c c') : c'.key = c.key := by cases h <;> rfl
theorem CRel.value [Inhabited V] {c c' : Cell V} (h : CRel σ c c') : c'.value = c.value := by cases h <;> rfl
theorem CRel.children {c c' : Cell V} (h : CRel σ c c') : c'.children = c.children.map (Option.map σ) := by cases h <;> rfl

theorem Peer.bumpId (a : Addr) : Peer σ (fun _ _ => True) (bumpId a : M V Unit) (bumpId (σ a)) := by
  unfold Art.bumpId
  exact .bindMod (fun t l => ⟨_, rfl⟩) (.bindTxn fun t l => .bindCell fun c c' h => .wr (h.setId _))

theorem Peer.trackNode (a : Addr) (b : Bool) : Peer σ (fun _ _ => True) (trackNode a b : M V Unit) (trackNode (σ a) b) := by
  unfold Art.trackNode
  refine .ite (fun _ => ?_) fun _ => .pure trivial
  refine .bind (.trackChannel (some a)) fun _ _ _ => .bindCell fun c c' h => ?_
  rw [h.nodeLeaf]
  exact .trackChannel _

theorem Peer.writeNode (a : Addr) (b : Bool) : Peer σ (fun a a' => a' = σ a) (writeNode a b : M V Addr) (writeNode (σ a) b) := by
  unfold Art.writeNode
  refine .bind (.trackNode a b) fun _ _ _ => .bindCell fun c c' h => .bindTxn fun t l => ?_
  rw [h.id]
  refine .ite (fun _ => .pure rfl) fun _ => ?_
  exact .bind (.cloneNode a _) fun x x' hx => hx ▸ .bind (.bumpId x) fun _ _ _ => .pure rfl

theorem Peer.allocInner (k : Kind) : Peer σ (fun a a' => a' = σ a) (allocInner k : M V Addr) (allocInner k) := by
  unfold Art.allocInner
  refine .bind (Q := fun a a' => a' = σ a) (.newCell ?_) fun a a' h => h ▸ .bind (.bumpId a) fun _ _ _ => .pure rfl
  have := CRel.inner (V := V) (σ := σ) (blankInner k) ⟨none, .none _⟩
  simpa [Inner.ren, blankInner] using this

theorem Peer.allocLeaf (key : Key) (v : V) : Peer σ (fun a a' => a' = σ a) (allocLeaf key v : M V Addr) (allocLeaf key v) := by
  unfold Art.allocLeaf
  exact .bind (Q := fun a a' => a' = σ a) (.newCell (.leaf { id := 0, value := v, key := key, ch := none } ⟨none, .none _⟩)) fun a a' h =>
    h ▸ .bind (.bumpId a) fun _ _ _ => .pure rfl

theorem Peer.setNodeLeaf (a : Addr) (l : Option Addr) : Peer σ (fun _ _ => True) (setNodeLeaf a l : M V Unit) (setNodeLeaf (σ a) (l.map σ)) := by
  unfold Art.setNodeLeaf
  exact .bindInner fun n k => .wr (.inner { n with leaf := l } k)

theorem ren_setChild (n : Inner) (k : Option ChanId) (i : Nat) (c : Option Addr) :
    Par (fun m m' => m' = m.ren σ k ∧ m.ch = n.ch) (n.setChild i c) ((n.ren σ k).setChild i (c.map σ)) := by
  unfold Inner.setChild
  rw [show (n.ren σ k).children.length = n.children.length from List.length_map ..]
  split
  · refine .ok ⟨?_, rfl⟩
    simp only [Inner.ren, List.map_set]
  · exact .error _

theorem Peer.setChildAt (a : Addr) (i : Nat) (c : Option Addr) :
    Peer σ (fun _ _ => True) (setChildAt a i c : M V Unit) (setChildAt (σ a) i (c.map σ)) := by
  unfold Art.setChildAt
  exact .bindInner fun n k => .bindLift (ren_setChild n k i c) fun m m' h => h.1 ▸ .wr (.inner m (k.on h.2))

theorem Peer.makeLeaf (key : Key) (v : V) : Peer σ (fun a a' => a' = σ a) (makeLeaf key v : M V Addr) (makeLeaf key v) := by
  unfold Art.makeLeaf
  refine .bind (.allocLeaf key v) fun l l' h => h ▸ .bind (.bumpId l) fun _ _ _ => .bind (.allocInner .n4) fun n n' hn => hn ▸ ?_
  exact .bind (.setNodeLeaf n (some l)) fun _ _ _ => .bind (.bumpId n) fun _ _ _ => .pure rfl

theorem Peer.copyHeader (d a : Addr) : Peer σ (fun _ _ => True) (copyHeader d a : M V Unit) (copyHeader (σ d) (σ a)) := by
  unfold Art.copyHeader
  refine .bindInner fun s k => .bindInner fun d k' => .ite (fun _ => .throw _) fun _ => .wr ?_
  exact .inner { d with numChildren := s.numChildren, partialLen := s.partialLen, part := goCopy d.part 0 (s.part.take (min maxPrefixLen s.partialLen)) } k'

theorem Peer.moveLeaf (d a : Addr) : Peer σ (fun _ _ => True) (moveLeaf d a : M V Unit) (moveLeaf (σ d) (σ a)) := by
  unfold Art.moveLeaf
  refine .bindInner fun n k => ?_
  rw [show (n.ren σ k).leaf = n.leaf.map σ from rfl]
  cases n.leaf with
  | none => exact .pure trivial
  | some l => exact .bind (.writeNode l true) fun x x' h => h ▸ .setNodeLeaf d (some x)
end

end

end Art
