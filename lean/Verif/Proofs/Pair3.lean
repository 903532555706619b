import Verif.Proofs.Pair2
/-
The functions that only read, and insertion, run side by side (see `Proofs/Pair.lean`).
-/
set_option autoImplicit false
set_option linter.unusedVariables false
set_option linter.unusedSimpArgs false
set_option linter.unusedSectionVars false
namespace Art
variable {V : Type} {σ : Addr → Addr}
variable [Lim]

/-! ### Reading -/

section
variable {h h' : Heap V} (H : HRel σ h h')
include H

theorem HRel.rd (a : Addr) : Par (CRel σ) (rd h a) (rd h' (σ a)) := by
  unfold Art.rd
  have h1 := H a
  revert h1
  generalize h[a]? = o
  generalize h'[σ a]? = o'
  intro h1
  cases h1 with
  | none => exact .error _
  | some hc => exact .ok hc

theorem HRel.rdLeaf (a : Addr) : Par (fun l l' => ∃ k, l' = { l with ch := k }) (rdLeaf h a) (rdLeaf h' (σ a)) := by
  unfold Art.rdLeaf
  have h1 := H a
  revert h1
  generalize h[a]? = o
  generalize h'[σ a]? = o'
  intro h1
  cases h1 with
  | none => exact .error _
  | some hc =>
    cases hc with
    | leaf l k => exact .ok ⟨k, rfl⟩
    | inner n k => exact .error _

theorem HRel.minimumAux (f f' : Nat) (hf : f ≤ f') (o : Option Addr) :
    Par (fun o o' => o' = o.map σ) (minimumAux h f o) (minimumAux h' f' (o.map σ)) := by
  induction f generalizing f' o with
  | zero =>
    cases o with
    | none => cases f' <;> exact .ok rfl
    | some a => exact .fuel _
  | succ f ih =>
    cases o with
    | none => cases f' <;> exact .ok rfl
    | some a =>
      obtain ⟨g, rfl⟩ : ∃ g, f' = g + 1 := ⟨f' - 1, by omega⟩
      have hf' : f ≤ g := by omega
      show Par _ (Art.minimumAux h (f + 1) (some a)) (Art.minimumAux h' (g + 1) (some (σ a)))
      unfold Art.minimumAux
      refine .bind (H.rd a) fun c c' hc => ?_
      cases hc with
      | leaf l k => exact .ok rfl
      | inner n k =>
        have e1 : (n.ren σ k).isLeaf = n.isLeaf := CRel.isLeaf (V := V) (.inner n k)
        have e2 : (n.ren σ k).leaf.isSome = n.leaf.isSome := Option.isSome_map
        have e3 : (n.ren σ k).children.findIdx (·.isSome) = n.children.findIdx (·.isSome) := by
          show (n.children.map (Option.map σ)).findIdx (·.isSome) = _
          rw [List.findIdx_map]
          congr 1
          funext x
          cases x <;> rfl
        simp only [e1, e2]
        split
        · exact .pure rfl
        · split
          · exact .pure rfl
          · rw [show (n.ren σ k).kind = n.kind from rfl]
            cases n.kind with
            | n4 => exact .bind (ren_getChild n k _) fun o o' h => h ▸ ih g hf' o
            | n16 => exact .bind (ren_getChild n k _) fun o o' h => h ▸ ih g hf' o
            | n48 =>
              refine .bind (.same (n.getKeyAtIdx (firstKey48 n.keys))) fun b b' hb => ?_
              subst hb
              split
              · exact .bind (ren_getChild n k _) fun o o' h => h ▸ ih g hf' o
              · exact .pure rfl
            | n256 =>
              simp only [e3]
              split
              · exact .bind (ren_getChild n k _) fun o o' h => h ▸ ih g hf' o
              · exact .pure rfl

theorem HRel.minimum (hl : h.length ≤ h'.length) (o : Option Addr) : Par (fun o o' => o' = o.map σ) (minimum h o) (minimum h' (o.map σ)) :=
  H.minimumAux _ _ (by omega) o

theorem HRel.prefixMismatch (hl : h.length ≤ h'.length) (a : Addr) (key : Key) (n d : Nat) :
    Par (fun i i' => i' = i) (prefixMismatch h a key n d) (prefixMismatch h' (σ a) key n d) := by
  unfold Art.prefixMismatch
  refine .bind (H.rd a) fun c c' hc => ?_
  rw [hc.partialLen, hc.part]
  refine .bind (.same _) fun p p' hp => ?_
  subst hp
  simp only
  split
  · exact .pure rfl
  · split
    · refine .bind (H.minimum hl (some a)) fun o o' ho => ?_
      subst ho
      cases o with
      | none => exact .pure rfl
      | some l =>
        refine .bind (H.rdLeaf l) fun x x' hx => ?_
        obtain ⟨k, rfl⟩ := hx
        exact .same _
    · exact .pure rfl

theorem HRel.searchChildren (key : Key) (cs : List (Option Addr)) :
    Par (fun o o' => o' = o.map fun p : V × Addr => (p.1, σ p.2)) (searchChildren h key cs) (searchChildren h' key (cs.map (Option.map σ))) := by
  induction cs with
  | nil => exact .ok rfl
  | cons o cs ih =>
    cases o with
    | none => exact ih
    | some a =>
      show Par _ (Art.searchChildren h key (some a :: cs)) (Art.searchChildren h' key (some (σ a) :: cs.map (Option.map σ)))
      unfold Art.searchChildren
      refine .bind (H.rd a) fun c c' hc => ?_
      rw [hc.nodeLeaf]
      cases c.nodeLeaf with
      | none => exact ih
      | some l =>
        refine .bind (H.rdLeaf l) fun x x' hx => ?_
        obtain ⟨k, rfl⟩ := hx
        dsimp only
        split
        · exact .pure rfl
        · exact ih

theorem HRel.searchOwn {c c' : Cell V} (hc : CRel σ c c') (key : Key) :
    Par (fun o o' => o' = o.map fun p : V × Addr => (p.1, σ p.2)) (searchOwn h c key) (searchOwn h' c' key) := by
  unfold Art.searchOwn
  rw [hc.nodeLeaf]
  cases c.nodeLeaf with
  | none => exact .pure rfl
  | some l =>
    refine .bind (H.rdLeaf l) fun x x' hx => ?_
    obtain ⟨k, rfl⟩ := hx
    refine .pure ?_
    split <;> rfl

theorem HRel.searchStop (a : Addr) {c c' : Cell V} (hc : CRel σ c c') (key : Key) :
    Par (fun x x' => x' = ({ x with watch := σ x.watch } : Hit V)) (searchStop h a c key) (searchStop h' (σ a) c' key) := by
  unfold Art.searchStop
  refine .bind (H.searchOwn hc key) fun o o' ho => ?_
  subst ho
  cases o with
  | some p => exact .pure rfl
  | none =>
    rw [hc.children]
    refine .bind (H.searchChildren key c.children) fun o o' ho => ?_
    subst ho
    cases o with
    | some p => exact .pure rfl
    | none => exact .pure rfl

theorem HRel.searchLeaf (a : Addr) {c c' : Cell V} (hc : CRel σ c c') (key : Key) :
    Par (fun o o' => o' = o.map fun x : Hit V => ({ x with watch := σ x.watch } : Hit V)) (searchLeaf h a c key) (searchLeaf h' (σ a) c' key) := by
  unfold Art.searchLeaf
  rw [hc.isLeaf]
  split
  · cases hc with
    | leaf l k =>
      refine .pure ?_
      dsimp only
      split <;> rfl
    | inner n k =>
      dsimp only
      rw [show (n.ren σ k).leaf = n.leaf.map σ from rfl]
      cases n.leaf with
      | none => exact .pure rfl
      | some l =>
        refine .bind (H.rdLeaf l) fun x x' hx => ?_
        obtain ⟨k, rfl⟩ := hx
        refine .pure ?_
        dsimp only
        split <;> rfl
  · exact .pure rfl

theorem HRel.searchLoopAt (key : Key) (f : Nat) (a : Addr) (d : Nat) :
    Par (fun x x' => x' = ({ x with watch := σ x.watch } : Hit V)) (searchLoopAt h key f a d) (searchLoopAt h' key f (σ a) d) := by
  induction f generalizing a d with
  | zero => exact .fuel _
  | succ f ih =>
    unfold Art.searchLoopAt
    refine .bind (H.rd a) fun c c' hc => ?_
    refine .bind (H.searchLeaf a hc key) fun o o' ho => ?_
    subst ho
    cases o with
    | some x => exact .pure rfl
    | none =>
      have e : prefixBails c' key d = prefixBails c key d := by unfold prefixBails; rw [hc.partialLen, hc.part]
      simp only [Option.map_none, e, hc.partialLen]
      refine .bind (.same _) fun b b' hb => ?_
      subst hb
      split
      · exact H.searchStop a hc key
      · split
        · exact H.searchStop a hc key
        · refine .bind (.same _) fun b b' hb => ?_
          subst hb
          refine .bind (hc.findChild _) fun p p' hp => ?_
          subst hp
          obtain ⟨o, i⟩ := p
          cases o with
          | none => exact H.searchStop a hc key
          | some ch => exact ih ch _

theorem HRel.search (root : Addr) (key : Key) :
    Par (fun x x' => x' = ({ x with watch := σ x.watch } : Hit V)) (search h root key) (search h' (σ root) key) := H.searchLoopAt _ _ root 0

/-- `Get` gives the same. -/
theorem HRel.treeGet (t : Tree) (key : Key) (t' : Tree) (ht : t'.root = σ t.root) : Par (fun o o' => o' = o) (treeGet h t key) (treeGet h' t' key) := by
  unfold Art.treeGet
  rw [ht]
  refine .bind (H.search t.root key) fun x x' hx => ?_
  subst hx
  exact .pure rfl
end

/-! ### Insert -/

/-- Insertion into the two trees gave the same. -/
abbrev IRel (σ : Addr → Addr) (r r' : InsRes V) : Prop := r' = { r with node := σ r.node }

theorem Peer.addChildAt (node child : Addr) (key : Key) (i : Nat) :
    Peer σ (fun a a' => a' = σ a) (addChildAt node key i child : M V Addr) (addChildAt (σ node) key i (σ child)) := by
  unfold Art.addChildAt
  exact .ite (fun _ => .bindSame fun b => .addChild node child b) fun _ => .pure rfl

theorem Peer.insertUpdateLeaf (node : Addr) (old : V) (key : Key) (v : V) :
    Peer σ (IRel σ) (insertUpdateLeaf node old key v) (insertUpdateLeaf (σ node) old key v) := by
  unfold Art.insertUpdateLeaf
  exact .bind (.writeNode node true) fun x x' h => h ▸ .bind (.allocLeaf key v) fun l l' h => h ▸
    .bind (.setNodeLeaf x (some l)) fun _ _ _ => .pure rfl

theorem Peer.insertPair (nn node nl n2 n2l : Addr) (old key : Key) (i : Nat) :
    Peer σ (fun a a' => a' = σ a) (insertPair nn node nl n2 n2l old key i : M V Addr) (insertPair (σ nn) (σ node) (σ nl) (σ n2) (σ n2l) old key i) := by
  unfold Art.insertPair
  refine .ite (fun _ => ?_) fun _ => .ite (fun _ => ?_) fun _ => ?_
  · exact .bind (.trackChannel (some nl)) fun _ _ _ => .bind (.setNodeLeaf nn (some n2l)) fun _ _ _ => .bindSame fun b => .addChild nn node b
  · exact .bind (.setNodeLeaf nn (some nl)) fun _ _ _ => .bindSame fun b => .addChild nn n2 b
  · exact .bind (.addChildAt nn node old i) fun x x' h => h ▸ .addChildAt x n2 key i

section
variable [Inhabited V]

theorem Peer.insertSplitLeaf (node nl : Addr) (old key : Key) (v : V) (d : Nat) :
    Peer σ (IRel σ) (insertSplitLeaf node nl old key v d) (insertSplitLeaf (σ node) (σ nl) old key v d) := by
  unfold Art.insertSplitLeaf
  refine .bind (.makeLeaf key v) fun n2 n2' h => h ▸ .bindInner fun w k => ?_
  rw [show (w.ren σ k).leaf = w.leaf.map σ from rfl]
  cases w.leaf with
  | none => exact .throw _
  | some n2l =>
    refine .bind (.trackChannel (some node)) fun _ _ _ => .bind (.writeNode node false) fun x x' h => h ▸ .bindSame fun lp => ?_
    refine .bind (.allocInner .n4) fun nn nn' h => h ▸ .bindInner fun m k => .bindWr ?_ ?_
    · exact .inner { m with partialLen := lp, part := goCopy m.part 0 ((key.drop d).take (min maxPrefixLen lp)) } k
    · exact .bind (.insertPair nn x nl n2 n2l old key _) fun y y' h => h ▸ .pure rfl

theorem Peer.insertAtLeaf (node nl : Addr) (key : Key) (v : V) (d : Nat) :
    Peer σ (IRel σ) (insertAtLeaf node nl key v d) (insertAtLeaf (σ node) (σ nl) key v d) := by
  unfold Art.insertAtLeaf
  exact .bindLeaf fun l k => .ite (fun _ => .insertUpdateLeaf node l.value key v) fun _ => .insertSplitLeaf node nl l.key key v d

theorem Peer.leafClash (n : Inner) (k : Option ChanId) (key : Key) :
    Peer σ (fun b b' => b' = b) (leafClash n key : M V Bool) (leafClash (n.ren σ k) key) := by
  unfold Art.leafClash
  rw [show (n.ren σ k).leaf = n.leaf.map σ from rfl]
  cases n.leaf with
  | none => exact .pure rfl
  | some l => exact .bindLeaf fun x j => .pure rfl

theorem Peer.insertNoChild (node : Addr) (key : Key) (v : V) (d : Nat) :
    Peer σ (IRel σ) (insertNoChild node key v d) (insertNoChild (σ node) key v d) := by
  unfold Art.insertNoChild
  refine .bind (.makeLeaf key v) fun l l' h => h ▸ .bindInner fun n k => .bind (.leafClash n k key) fun b b' h => h ▸ ?_
  refine .bind (.trackChannel (some node)) fun _ _ _ => .bind (.writeNode node false) fun x x' h => h ▸ .ite (fun _ => ?_) fun _ => ?_
  · exact .bind (.allocInner .n4) fun _ _ _ => .throw _
  · exact .bind (.addChildAt x l key d) fun y y' h => h ▸ .pure rfl

theorem Peer.splitShort (nn node : Addr) (pd : Nat) :
    Peer σ (fun a a' => a' = σ a) (splitShort nn node pd : M V Addr) (splitShort (σ nn) (σ node) pd) := by
  unfold Art.splitShort
  refine .bindInner fun n k => .bindSame fun b => .bind (.addChild nn node b) fun x x' h => h ▸ .bindInner fun n k => .bindAssert (.bindWr ?_ (.pure rfl))
  exact .inner { n with partialLen := n.partialLen - (pd + 1), part := goCopy n.part 0 ((n.part.drop (pd + 1)).take (min maxPrefixLen (n.partialLen - (pd + 1)))) } k

theorem Peer.splitLong (nn node : Addr) (d pd : Nat) :
    Peer σ (fun a a' => a' = σ a) (splitLong nn node d pd : M V Addr) (splitLong (σ nn) (σ node) d pd) := by
  unfold Art.splitLong
  refine .bindInner fun n k => .bindWr (.inner { n with partialLen := n.partialLen - (pd + 1) } k) (.bindGet fun s s' hs => ?_)
  refine .bindLift (hs.heap.minimum hs.len (some node)) fun o o' h => h ▸ ?_
  cases o with
  | none => exact .throw _
  | some l =>
    refine .bindLeaf fun lc k => .bindSame fun b => .bind (.addChild nn node b) fun x x' h => h ▸ .bindInner fun n j => ?_
    refine .bindAssert (.bindWr ?_ (.pure rfl))
    exact .inner { n with part := goCopy n.part 0 (((leafBytes lc (d + pd + 1 + min maxPrefixLen n.partialLen)).drop (d + pd + 1)).take (min maxPrefixLen n.partialLen)) } j

theorem Peer.insertSplit (node : Addr) (key : Key) (v : V) (d pd : Nat) :
    Peer σ (IRel σ) (insertSplit node key v d pd) (insertSplit (σ node) key v d pd) := by
  unfold Art.insertSplit
  refine .bind (.allocInner .n4) fun nn nn' h => h ▸ .bindInner fun n k => .bindInner fun m j => .bindAssert (.bindWr ?_ ?_)
  · exact .inner { m with partialLen := pd, part := goCopy m.part 0 (n.part.take (min maxPrefixLen pd)) } j
  · refine .bind (.trackChannel (some node)) fun _ _ _ => .bind (.writeNode node false) fun x x' h => h ▸ ?_
    refine .bind (Q := fun a a' => a' = σ a) ?_ fun y y' h => h ▸ .bind (.makeLeaf key v) fun l l' h => h ▸
      .bind (.addChildAt y l key _) fun z z' h => h ▸ .pure rfl
    unfold Art.splitChild
    exact .ite (fun _ => .splitShort nn x pd) fun _ => .splitLong nn x d pd

theorem Peer.insertReplace (hσ : ∀ a b, σ a = σ b → a = b) (node child : Addr) (i : Nat) (r : InsRes V) :
    Peer σ (IRel σ) (insertReplace node child i r) (insertReplace (σ node) (σ child) i { r with node := σ r.node }) := by
  unfold Art.insertReplace
  have e : (r.mutated = true ∨ σ r.node ≠ σ child) = (r.mutated = true ∨ r.node ≠ child) :=
    propext (or_congr_right (not_congr ⟨hσ _ _, congrArg σ⟩))
  simp only [e]
  refine .ite (fun _ => ?_) fun _ => .pure rfl
  exact .bind (.trackChannel (some node)) fun _ _ _ => .bind (.writeNode node false) fun x x' h => h ▸
    .bind (.setChildAt x i (some r.node)) fun _ _ _ => .pure rfl

omit [Inhabited V] in
theorem Peer.leafHit {c c' : Cell V} (hc : CRel σ c c') (key : Key) :
    Peer σ (fun o o' => o' = o.map σ) (leafHit c key) (leafHit c' key) := by
  unfold Art.leafHit
  rw [hc.nodeLeaf]
  cases c.nodeLeaf with
  | none => exact .pure rfl
  | some l =>
    refine .bindLeaf fun x k => .pure ?_
    dsimp only
    split <;> rfl

theorem Peer.insertHit (node l : Addr) (v : V) : Peer σ (IRel σ) (insertHit node l v) (insertHit (σ node) (σ l) v) := by
  unfold Art.insertHit
  exact .bind (.writeNode l true) fun x x' h => h ▸ .bindLeaf fun lc k => .bindWr (.leaf { lc with value := v } k)
    (.bind (.writeNode node true) fun y y' h => h ▸ .bind (.setNodeLeaf y (some x)) fun _ _ _ => .pure rfl)

theorem Peer.insertNew (node : Addr) (key : Key) (v : V) (d : Nat) : Peer σ (IRel σ) (insertNew node key v d) (insertNew (σ node) key v d) := by
  unfold Art.insertNew
  refine .bind (.makeLeaf key v) fun l l' h => h ▸ .ite (fun _ => ?_) fun _ => .pure rfl
  exact .bind (.trackChannel (some node)) fun _ _ _ => .bind (.writeNode node false) fun x x' h => h ▸ .bindSame fun b =>
    .bind (.addChild x l b) fun y y' h => h ▸ .pure rfl

theorem Peer.insertEmpty (node : Addr) (key : Key) (v : V) : Peer σ (IRel σ) (insertEmpty node key v) (insertEmpty (σ node) key v) := by
  unfold Art.insertEmpty
  exact .bind (.writeNode node true) fun x x' h => h ▸ .bind (.allocLeaf key v) fun l l' h => h ▸
    .bind (.setNodeLeaf x (some l)) fun _ _ _ => .pure rfl

theorem Peer.recursiveInsert (hσ : ∀ a b, σ a = σ b → a = b) (f : Nat) (node : Addr) (key : Key) (v : V) (d : Nat) :
    Peer σ (IRel σ) (recursiveInsert f node key v d) (recursiveInsert f (σ node) key v d) := by
  induction f generalizing node d with
  | zero => exact .fuel _
  | succ f ih =>
    unfold Art.recursiveInsert
    refine .bindTxn fun t l => .ite (fun _ => .insertEmpty node key v) fun _ => .bindCell fun c c' hc => ?_
    have rest : Peer σ (IRel σ) (do
        match ← Art.leafHit c key with
        | some l => Art.insertHit node l v
        | none =>
          if c.partialLen > 0 then do
            let s ← M.get
            let prefixDiff ← M.lift (prefixMismatch s.heap node key key.length d)
            if prefixDiff ≥ c.partialLen then
              if d + c.partialLen < key.length then do
                let b ← M.lift (byteAt key (d + c.partialLen))
                match ← M.lift (c.findChild b) with
                | (some child, idx) => do
                  let r ← Art.recursiveInsert f child key v (d + c.partialLen + 1)
                  Art.insertReplace node child idx r
                | (none, _) => Art.insertNoChild node key v (d + c.partialLen)
              else Art.insertNoChild node key v (d + c.partialLen)
            else Art.insertSplit node key v d prefixDiff
          else do
            let b ← M.lift (byteAt key d)
            match ← M.lift (c.findChild b) with
            | (some child, idx) => do
              let r ← Art.recursiveInsert f child key v (d + 1)
              Art.insertReplace node child idx r
            | (none, _) => Art.insertNew node key v d) (do
        match ← Art.leafHit c' key with
        | some l => Art.insertHit (σ node) l v
        | none =>
          if c'.partialLen > 0 then do
            let s ← M.get
            let prefixDiff ← M.lift (prefixMismatch s.heap (σ node) key key.length d)
            if prefixDiff ≥ c'.partialLen then
              if d + c'.partialLen < key.length then do
                let b ← M.lift (byteAt key (d + c'.partialLen))
                match ← M.lift (c'.findChild b) with
                | (some child, idx) => do
                  let r ← Art.recursiveInsert f child key v (d + c'.partialLen + 1)
                  Art.insertReplace (σ node) child idx r
                | (none, _) => Art.insertNoChild (σ node) key v (d + c'.partialLen)
              else Art.insertNoChild (σ node) key v (d + c'.partialLen)
            else Art.insertSplit (σ node) key v d prefixDiff
          else do
            let b ← M.lift (byteAt key d)
            match ← M.lift (c'.findChild b) with
            | (some child, idx) => do
              let r ← Art.recursiveInsert f child key v (d + 1)
              Art.insertReplace (σ node) child idx r
            | (none, _) => Art.insertNew (σ node) key v d) := by
      refine .bind (.leafHit hc key) fun o o' h => h ▸ ?_
      cases o with
      | some l => exact .insertHit node l v
      | none =>
        simp only [Option.map_none, hc.partialLen]
        refine .ite (fun _ => ?_) fun _ => ?_
        · refine .bindGet fun s s' hs => .bindLift (hs.heap.prefixMismatch hs.len node key _ d) fun pd pd' h => ?_
          subst h
          refine .ite (fun _ => .ite (fun _ => .bindSame fun b => ?_) fun _ => .insertNoChild node key v _) fun _ => .insertSplit node key v d _
          refine .bindLift (hc.findChild b) fun p p' h => h ▸ ?_
          obtain ⟨o, i⟩ := p
          cases o with
          | none => exact .insertNoChild node key v _
          | some child => exact .bind (ih child _) fun r r' h => h ▸ .insertReplace hσ node child i r
        · refine .bindSame fun b => .bindLift (hc.findChild b) fun p p' h => h ▸ ?_
          obtain ⟨o, i⟩ := p
          cases o with
          | none => exact .insertNew node key v _
          | some child => exact .bind (ih child _) fun r r' h => h ▸ .insertReplace hσ node child i r
    rw [hc.isLeaf, hc.nodeLeaf]
    generalize ho : c.nodeLeaf = o
    cases c.isLeaf with
    | false => exact rest
    | true =>
      cases o with
      | none => exact rest
      | some nl => exact .insertAtLeaf node nl key v d

theorem Peer.txnInsert (hσ : ∀ a b, σ a = σ b → a = b) (key : Key) (v : V) :
    Peer σ (fun r r' => r' = r) (txnInsert key v) (txnInsert key v) := by
  unfold Art.txnInsert
  refine .bindTxn fun t l => .bind (.recursiveInsert hσ _ t.root _ v 0) fun r r' h => h ▸ .bindMod (fun t l => ?_) (.pure rfl)
  dsimp only
  split
  · exact ⟨l, rfl⟩
  · exact ⟨l, rfl⟩
end

end Art
