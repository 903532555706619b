import Verif.Proofs.Pair3
/-
Deletion and whole sessions, run side by side (see `Proofs/Pair.lean`).
-/
set_option autoImplicit false
set_option linter.unusedVariables false
set_option linter.unusedSimpArgs false
set_option linter.unusedSectionVars false
namespace Art
variable {V : Type} {σ : Addr → Addr}
variable [Lim]

/-! ### Delete -/

/-- Deletion from the two trees gave the same. -/
abbrev DRel (σ : Addr → Addr) (r r' : DelRes) : Prop := r' = { r with node := r.node.map σ, leaf := r.leaf.map σ }

theorem Peer.deleteHit (node l : Addr) : Peer σ (DRel σ) (deleteHit node l : M V DelRes) (deleteHit (σ node) (σ l)) := by
  unfold Art.deleteHit
  refine .bind (.writeNode node true) fun x x' h => h ▸ .bind (.setNodeLeaf x none) fun _ _ _ => .bindInner fun n k => ?_
  exact .ite (fun _ => .pure rfl) fun _ => .pure rfl

theorem Peer.deleteReplace (hσ : ∀ a b, σ a = σ b → a = b) (node child : Addr) (i : Nat) (b : Byte) (r : DelRes) :
    Peer σ (fun a a' => a' = σ a) (deleteReplace node child i b r : M V Addr)
      (deleteReplace (σ node) (σ child) i b { r with node := r.node.map σ, leaf := r.leaf.map σ }) := by
  unfold Art.deleteReplace
  have e : (r.node.map σ ≠ some (σ child) ∨ (r.leaf.map σ).isSome = true) = (r.node ≠ some child ∨ r.leaf.isSome = true) := by
    rw [Option.isSome_map]
    refine propext (or_congr_left (not_congr ⟨fun h => ?_, fun h => by rw [h]; rfl⟩))
    cases hn : r.node with
    | none => rw [hn] at h; cases h
    | some x => rw [hn] at h; rw [hσ _ _ (Option.some.inj h)]
  simp only [e, Option.map_eq_none_iff]
  refine .ite (fun _ => ?_) fun _ => .pure rfl
  refine .bind (.trackChannel (some node)) fun _ _ _ => .bind (.writeNode node false) fun x x' h => h ▸ .bind (.setChildAt x i r.node) fun _ _ _ => ?_
  exact .ite (fun _ => .removeChild x b) fun _ => .pure rfl

theorem Peer.deleteFinish (node : Addr) (r : DelRes) :
    Peer σ (DRel σ) (deleteFinish node r : M V DelRes) (deleteFinish (σ node) { r with node := r.node.map σ, leaf := r.leaf.map σ }) := by
  unfold Art.deleteFinish
  refine .bindCell fun c c' hc => ?_
  simp only [hc.numChildren, hc.nodeLeaf, Option.map_eq_none_iff]
  exact .ite (fun _ => .pure rfl) fun _ => .pure rfl

theorem Peer.recursiveDelete (hσ : ∀ a b, σ a = σ b → a = b) (f : Nat) (node : Addr) (key : Key) (d : Nat) :
    Peer σ (DRel σ) (recursiveDelete f node key d : M V DelRes) (recursiveDelete f (σ node) key d) := by
  induction f generalizing node d with
  | zero => exact .fuel _
  | succ f ih =>
    unfold Art.recursiveDelete
    refine .bindCell fun c c' hc => ?_
    have e : prefixBails c' key d = prefixBails c key d := by unfold prefixBails; rw [hc.partialLen, hc.part]
    have e2 : (if c.isLeaf then some (σ node) else none) = (if c.isLeaf then some node else none).map σ := by split <;> rfl
    simp only [hc.isLeaf, hc.key, hc.partialLen, e, e2]
    refine .bind (.trackChannel _) fun _ _ _ => .ite (fun _ => .pure rfl) fun _ => ?_
    refine .bind (.leafHit hc key) fun o o' h => h ▸ ?_
    cases o with
    | some l => exact .deleteHit node l
    | none =>
      refine .bindSame fun bail => .ite (fun _ => .pure rfl) fun _ => .bindSame fun b => .bindLift (hc.findChild b) fun p p' h => h ▸ ?_
      obtain ⟨o, i⟩ := p
      cases o with
      | none => exact .pure rfl
      | some child =>
        exact .bind (ih child _) fun r r' h => h ▸ .bind (.deleteReplace hσ node child i b r) fun x x' h => h ▸ .deleteFinish x r

section
variable [Inhabited V]

theorem Peer.resetRoot : Peer σ (fun _ _ => True) (resetRoot : M V Unit) resetRoot := by
  unfold Art.resetRoot
  refine .bindTxn fun t l => .bind (Q := fun a a' => a' = σ a) (.newCell (.leaf { id := t.maxNodeId + 1, value := default, key := [], ch := none } ⟨none, .none _⟩)) fun x x' h => h ▸ ?_
  refine .bind (Q := fun a a' => a' = σ a) (.newCell ?_) fun y y' h => h ▸ .modTxn fun t l => ⟨l, rfl⟩
  have := CRel.inner (V := V) (σ := σ) {
    kind := .n4, id := t.maxNodeId, partialLen := 0, numChildren := 0, part := [],
    keys := List.replicate 4 0, children := List.replicate 4 none, leaf := some x, ch := none } ⟨none, .none _⟩
  simpa [Inner.ren] using this

theorem Peer.setRoot (a : Option Addr) : Peer σ (fun _ _ => True) (setRoot a : M V Unit) (setRoot (a.map σ)) := by
  unfold Art.setRoot
  cases a with
  | none => exact .resetRoot
  | some n => exact .modTxn fun t l => ⟨l, rfl⟩

theorem Peer.txnDelete (hσ : ∀ a b, σ a = σ b → a = b) (key : Key) : Peer σ (fun r r' => r' = r) (txnDelete key : M V (V × Bool)) (txnDelete key) := by
  unfold Art.txnDelete
  refine .bindTxn fun t l => .bind (.recursiveDelete hσ _ t.root _ 0) fun r r' h => h ▸ .bind (.setRoot r.node) fun _ _ _ => ?_
  dsimp only
  cases r.leaf with
  | none => exact .pure rfl
  | some l =>
    refine .bindTxn fun t _ => .bind (.trackChannel (some t.root)) fun _ _ _ => .bindMod (fun t l => ⟨l, rfl⟩) (.bindCell fun c c' hc => ?_)
    rw [hc.value]
    exact .pure rfl
end

/-! ### DeletePrefix -/

/-- The table of new children with renamed addresses. -/
abbrev renTab (σ : Addr → Addr) (m : List (Nat × Option Addr)) : List (Nat × Option Addr) := m.map fun p => (p.1, p.2.map σ)

theorem renTab_lookup (m : List (Nat × Option Addr)) (i : Nat) : (renTab σ m).lookup i = (m.lookup i).map (Option.map σ) := by
  induction m with
  | nil => rfl
  | cons p m ih =>
    obtain ⟨j, o⟩ := p
    show List.lookup i ((j, o.map σ) :: renTab σ m) = _
    simp only [List.lookup_cons]
    cases i == j with
    | true => rfl
    | false => exact ih

theorem Peer.compactSlots (a : Addr) (m : List (Nat × Option Addr)) (k i s : Nat) :
    Peer σ (fun n n' => n' = n) (compactSlots a m k i s : M V Nat) (compactSlots (σ a) (renTab σ m) k i s) := by
  induction k generalizing i s with
  | zero => exact .pure rfl
  | succ k ih =>
    unfold Art.compactSlots
    rw [renTab_lookup]
    cases m.lookup i with
    | none =>
      exact .bindInner fun n j => .bindLift (ren_getChild n j _) fun o o' h => h ▸ .bind (.setChildAt a s o) fun _ _ _ => ih _ _
    | some o =>
      cases o with
      | none => exact ih _ _
      | some ch => exact .bind (.setChildAt a s (some ch)) fun _ _ _ => ih _ _

theorem Peer.clearFrom (a : Addr) (i : Nat) : Peer σ (fun _ _ => True) (clearFrom a i : M V Unit) (clearFrom (σ a) i) := by
  unfold Art.clearFrom
  refine .bindInner fun n k => .wr ?_
  have := CRel.inner (V := V) (σ := σ) { n with children := n.children.take i ++ List.replicate (n.children.length - i) none } k
  simp only [Inner.ren, List.map_append, List.map_take, List.map_replicate, Option.map_none] at this
  simp only [Inner.ren, List.length_map]
  exact this

/-- What `deletePrefix` returns. -/
abbrev PRel (σ : Addr → Addr) (r r' : Option Addr × Nat) : Prop := r' = (r.1.map σ, r.2)

theorem Peer.deletePrefixChildren {rec rec' : Addr → M V (Option Addr × Nat)} (hr : ∀ a, Peer σ (PRel σ) (rec a) (rec' (σ a))) (cs : List (Option Addr × Nat)) :
    Peer σ (fun r r' => r' = (renTab σ r.1, r.2)) (deletePrefixChildren rec cs) (deletePrefixChildren rec' (cs.map fun p => (p.1.map σ, p.2))) := by
  induction cs with
  | nil => exact .pure rfl
  | cons p cs ih =>
    obtain ⟨o, i⟩ := p
    cases o with
    | none => exact ih
    | some ch =>
      show Peer _ _ (Art.deletePrefixChildren rec ((some ch, i) :: cs)) (Art.deletePrefixChildren rec' ((some (σ ch), i) :: cs.map _))
      unfold Art.deletePrefixChildren
      refine .bind (hr ch) fun r r' h => h ▸ ?_
      obtain ⟨nc, del⟩ := r
      dsimp only
      have e : (if del > 0 then some (σ ch) else none) = (if del > 0 then some ch else none).map σ := by split <;> rfl
      rw [e]
      exact .bind (.trackChannel _) fun _ _ _ => .bind ih fun q q' h => h ▸ .pure rfl

theorem Peer.deletePrefixOwn {c c' : Cell V} (hc : CRel σ c c') (key : Key) :
    Peer σ (fun n n' => n' = n) (deletePrefixOwn c key) (deletePrefixOwn c' key) := by
  unfold Art.deletePrefixOwn
  rw [hc.nodeLeaf]
  cases c.nodeLeaf with
  | none => exact .pure rfl
  | some l => exact .bindLeaf fun x k => .ite (fun _ => .bind (.trackChannel (some l)) fun _ _ _ => .pure rfl) fun _ => .pure rfl

theorem Peer.deletePrefixLeaf (node : Addr) {c c' : Cell V} (hc : CRel σ c c') (key : Key) :
    Peer σ (PRel σ) (deletePrefixLeaf node c key) (deletePrefixLeaf (σ node) c' key) := by
  unfold Art.deletePrefixLeaf
  rw [hc.nodeLeaf]
  cases c.nodeLeaf with
  | none => exact .pure rfl
  | some l =>
    exact .bindLeaf fun x k => .ite (fun _ => .bind (.trackChannel (some node)) fun _ _ _ => .bind (.trackChannel (some l)) fun _ _ _ => .pure rfl) fun _ => .pure rfl

theorem Peer.deletePrefixRebuild (node : Addr) (m : List (Nat × Option Addr)) :
    Peer σ (fun a a' => a' = σ a) (deletePrefixRebuild node m : M V Addr) (deletePrefixRebuild (σ node) (renTab σ m)) := by
  unfold Art.deletePrefixRebuild
  refine .bind (.writeNode node true) fun x x' h => h ▸ .bindInner fun n k => .bind (.compactSlots x m _ 0 0) fun s s' h => h ▸ ?_
  refine .bind (.clearFrom x _) fun _ _ _ => .bindInner fun n k => .bindWr ?_ (.pure rfl)
  exact .inner { n with numChildren := UInt8.ofNat _ } k

theorem Peer.deletePrefix (f f' : Nat) (hf : f ≤ f') (o : Option Addr) (key : Key) (d : Nat) :
    Peer σ (PRel σ) (deletePrefix f o key d : M V (Option Addr × Nat)) (deletePrefix f' (o.map σ) key d) := by
  induction f generalizing f' o d with
  | zero =>
    cases o with
    | none => cases f' <;> exact .pure rfl
    | some a => exact .fuel _
  | succ f ih =>
    cases o with
    | none => cases f' <;> exact .pure rfl
    | some a =>
      obtain ⟨g, rfl⟩ : ∃ g, f' = g + 1 := ⟨f' - 1, by omega⟩
      show Peer σ (PRel σ) (Art.deletePrefix (f + 1) (some a) key d) (Art.deletePrefix (g + 1) (some (σ a)) key d)
      unfold Art.deletePrefix
      refine .bindCell fun c c' hc => ?_
      have e : deletePrefixDepth c' key d = deletePrefixDepth c key d := by unfold deletePrefixDepth; rw [hc.partialLen, hc.part]
      simp only [hc.isLeaf, e, hc.children, List.zipIdx_map]
      refine .ite (fun _ => .deletePrefixLeaf a hc key) fun _ => .bindSame fun d' => .bind (.deletePrefixOwn hc key) fun n n' h => h ▸ ?_
      refine .bind (.deletePrefixChildren (fun ch => ih g (by omega) (some ch) _) c.children.zipIdx) fun r r' h => h ▸ ?_
      exact .bind (.deletePrefixRebuild a r.1) fun x x' h => h ▸ .pure rfl

/-! ### Sessions -/

section
variable [Inhabited V]

theorem Peer.txnDeletePrefix (key : Key) : Peer σ (fun b b' => b' = b) (txnDeletePrefix key : M V Bool) (txnDeletePrefix key) := by
  unfold Art.txnDeletePrefix
  refine .bindGet fun s s' hs => ?_
  obtain ⟨l, ht⟩ := hs.txn
  rw [ht]
  refine .bind (.deletePrefix _ _ (Nat.add_le_add_right hs.len 1) (some s.txn.root) _ 0) fun r r' h => h ▸ ?_
  refine .bind (.setRoot r.1) fun _ _ _ => .ite (fun _ => ?_) fun _ => .pure rfl
  exact .bindTxn fun t _ => .bind (.trackChannel (some t.root)) fun _ _ _ => .bindMod (fun t l => ⟨l, rfl⟩) (.bindMod (fun t l => ⟨l, rfl⟩) (.pure rfl))

theorem Peer.txnGet (key : Key) : Peer σ (fun o o' => o' = o) (txnGet key : M V (Option V)) (txnGet key) := by
  unfold Art.txnGet
  refine .bindGet fun s s' hs => ?_
  obtain ⟨l, ht⟩ := hs.txn
  rw [ht]
  exact .bindLift (hs.heap.search s.txn.root key) fun x x' h => h ▸ .pure rfl

theorem Peer.treeGetWatch (t t' : Tree) (ht : t'.root = σ t.root) (key : Key) :
    Peer σ (fun r r' => r'.2 = r.2) (treeGetWatch t key : M V (ChanId × Option V)) (treeGetWatch t' key) := by
  unfold Art.treeGetWatch
  refine .bindGet fun s s' hs => ?_
  rw [ht]
  exact .bindLift (hs.heap.search t.root key) fun x x' h => h ▸ .bind (.getMutateCh x.watch) fun _ _ _ => .pure rfl

theorem Pair.closeAll (l l' : List ChanId) : Pair σ (fun _ _ => True) (closeAll l : Code V Unit) (closeAll l') := by
  induction l with
  | cons c l ih =>
    refine .testL fun b => ?_
    cases b with
    | true => exact ih
    | false => exact .shutL ih
  | nil =>
    induction l' with
    | nil => exact .own (fun t t' ⟨l, h⟩ => ⟨⟨[], fun _ h => nomatch h⟩, by rw [h]⟩) fun _ _ _ => .done (.ok trivial)
    | cons c l' ih =>
      refine .testR fun b => ?_
      cases b with
      | true => exact ih
      | false => exact .shutR ih

theorem Peer.txnNotify : Peer σ (fun _ _ => True) (txnNotify : M V Unit) txnNotify := by
  unfold Art.txnNotify
  refine .bindTxn fun t l => .ite (fun _ => .pure trivial) fun _ => ?_
  exact Pair.own (fun _ _ h => h) fun _ _ _ => Pair.closeAll _ _

/-- The same tree in the other memory. -/
def Tree.ren (σ : Addr → Addr) (t : Tree) : Tree := { t with root := σ t.root }

theorem Peer.call (hσ : ∀ a b, σ a = σ b → a = b) (ts : List Tree) (c : Call V) :
    Peer σ (fun o o' => o' = o) (c.code ts) (c.code (ts.map (Tree.ren σ))) := by
  cases c with
  | insert k v => exact .bind (.txnInsert hσ k v) fun r r' h => h ▸ .pure rfl
  | delete k => exact .bind (.txnDelete hσ k) fun r r' h => h ▸ .pure rfl
  | deletePrefix k => exact .bind (.txnDeletePrefix k) fun r r' h => h ▸ .pure rfl
  | get k => exact .bind (.txnGet k) fun r r' h => h ▸ .pure rfl
  | getWatch k => exact .bindTxn fun t l => .bind (.treeGetWatch _ _ rfl k) fun r r' h => h ▸ .pure rfl
  | track b => exact .bind (.modTxn fun t l => ⟨l, rfl⟩) fun _ _ _ => .pure rfl
  | notify => exact .bind .txnNotify fun _ _ _ => .pure rfl
  | peek i k =>
    show Peer σ _ (match ts[i]? with | none => _ | some t => _) (match (ts.map (Tree.ren σ))[i]? with | none => _ | some t => _)
    rw [List.getElem?_map]
    cases hi : ts[i]? with
    | none => exact .pure rfl
    | some t => exact .bindGet fun s s' hs => .bindLift (hs.heap.treeGet t k (t.ren σ) rfl) fun r r' h => h ▸ .pure rfl

theorem Peer.callAll (hσ : ∀ a b, σ a = σ b → a = b) (ts : List Tree) (cs : List (Call V)) :
    Peer σ (fun o o' => o' = o) (callAll ts cs) (callAll (ts.map (Tree.ren σ)) cs) := by
  induction cs with
  | nil => exact .pure rfl
  | cons c cs ih =>
    unfold Art.callAll
    exact .bind (.call hσ ts c) fun o o' h => h ▸ .bind ih fun os os' h => h ▸ .pure rfl

/-- What a session returns: the same outputs, and the same tree up to renaming. -/
def SessRel (σ : Addr → Addr) (r r' : List (Out V) × Tree) : Prop := r' = (r.1, r.2.ren σ)

theorem Peer.session (hσ : ∀ a b, σ a = σ b → a = b) (ts : List Tree) (g : Session V) :
    Peer σ (SessRel σ) (g.code ts) (g.code (ts.map (Tree.ren σ))) := by
  unfold Session.code
  rw [List.getElem?_map]
  cases hi : ts[g.tree]? with
  | none => exact .throw _
  | some t =>
    show Peer σ (SessRel σ) (Art.session ts t g.calls g.notify) (Art.session (ts.map (Tree.ren σ)) (t.ren σ) g.calls g.notify)
    unfold Art.session Art.beginTxn Art.withTxn
    have h0 := Peer.cloneNode (V := V) (σ := σ) t.root true
    refine .bind (Q := TRel σ) (.bind h0 fun r r' h => h ▸ .pure ⟨⟨[], fun _ h => nomatch h⟩, rfl⟩) fun ts ts' h => .bindMod (fun _ _ => h) ?_
    refine .bind (.callAll hσ _ g.calls) fun os os' h => h ▸ ?_
    have hc : Peer σ (fun (x x' : Tree) => x' = x.ren σ) (Art.txnCommitOnly : M V Tree) Art.txnCommitOnly := by
      unfold Art.txnCommitOnly
      exact .bindTxn fun t l => .pure rfl
    refine .bind (Q := fun (x x' : Tree) => x' = x.ren σ) ?_ fun x x' h => h ▸ .pure rfl
    unfold Art.txnEnd
    refine .ite (fun _ => ?_) fun _ => hc
    unfold Art.txnCommit
    exact .bind hc fun x x' h => .bind .txnNotify fun _ _ _ => h ▸ .pure rfl
end

end Art
