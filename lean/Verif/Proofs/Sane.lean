import Verif.Proofs.IsoTxn
import Verif.Proofs.Congr
import Verif.Proofs.Rank
import Verif.Proofs.Lone
/-
The nodes in the heap are well-shaped in all histories, also after a panic in the middle of a call: leaf pointers
lead to leaves, child pointers to inner nodes, the arrays have the lengths of the Go arrays, the child count of a
`Node4` or `Node16` does not exceed its arrays, and the key index of a `Node48` stays inside its children.

The parameter `F` says whether the statement about the prefix is included: a node has ten bytes of prefix, or is a
root with an empty one.  (It fails when a transaction that has been emptied is written to again.)
-/
set_option autoImplicit false
set_option linter.unusedVariables false
set_option linter.unusedSimpArgs false
set_option linter.unusedSectionVars false
namespace Art
variable {V : Type}

/-- How many children fit; the count of the larger node types is not limited here. -/
def Kind.cap : Kind → Nat
  | .n4 => 4 | .n16 => 16 | .n48 => 255 | .n256 => 255

/-- The shape of an inner node. -/
structure Inner.Shape (F : Prop) (n : Inner) : Prop where
  klen : n.keys.length = n.kind.keysLen
  clen : n.children.length = n.kind.childrenLen
  num : n.numChildren.toNat ≤ n.kind.cap
  ent : n.kind = .n48 → ∀ k ∈ n.keys, k.toNat ≤ 48
  part : F → n.part.length = 10 ∨ n.partialLen = 0

/-- A leaf. -/
def IsLf (h : Heap V) (a : Addr) : Prop := ∃ l, h[a]? = some (.leaf l)
/-- An inner node, with ten bytes of prefix if `F`. -/
def IsN (F : Prop) (h : Heap V) (a : Addr) : Prop := ∃ n, h[a]? = some (.inner n) ∧ (F → n.part.length = 10)

/-- A well-shaped cell. -/
def Cell.Sane (F : Prop) (h : Heap V) : Cell V → Prop
  | .leaf _ => True
  | .inner n => n.Shape F ∧ (∀ l, n.leaf = some l → IsLf h l) ∧ ∀ b, some b ∈ n.children → IsN F h b

/-- A well-shaped heap. -/
def Sane (F : Prop) (h : Heap V) : Prop := ∀ (a : Addr) c, h[a]? = some c → Cell.Sane F h c

/-- What stays the same when a cell is written. -/
def Cell.Like : Cell V → Cell V → Prop
  | .leaf _, .leaf _ => True
  | .inner n, .inner n' => n'.kind = n.kind ∧ n'.part.length = n.part.length
  | _, _ => False

theorem Cell.Like.refl (c : Cell V) : c.Like c := by cases c <;> simp [Cell.Like]
theorem Cell.Like.trans {c d e : Cell V} (h1 : c.Like d) (h2 : d.Like e) : c.Like e := by
  cases c <;> cases d <;> cases e <;> simp_all [Cell.Like]

/-- Cells are added and rewritten, but keep their type. -/
def KinH (h h' : Heap V) : Prop := ∀ (a : Addr) c, h[a]? = some c → ∃ c', h'[a]? = some c' ∧ c.Like c'

structure Kin (s s' : St V) : Prop where
  heap : KinH s.heap s'.heap
  root : s'.txn.root = s.txn.root
  lone : Lones s s'

theorem Kin.refl (s : St V) : Kin s s := ⟨fun a c h => ⟨c, h, .refl c⟩, rfl, .refl s⟩
theorem Kin.trans {s s' s'' : St V} (h1 : Kin s s') (h2 : Kin s' s'') : Kin s s'' :=
  ⟨fun a c h => by
    obtain ⟨c', h', l1⟩ := h1.heap a c h
    obtain ⟨c'', h'', l2⟩ := h2.heap a c' h'
    exact ⟨c'', h'', l1.trans l2⟩, h2.root.trans h1.root, h1.lone.trans h2.lone⟩

theorem IsLf.monoH {h h' : Heap V} {a : Addr} (g : IsLf h a) (hk : KinH h h') : IsLf h' a := by
  obtain ⟨l, hl⟩ := g
  obtain ⟨c', hc', hlike⟩ := hk a _ hl
  cases c' with
  | leaf l' => exact ⟨l', hc'⟩
  | inner n => cases hlike
theorem IsN.monoH {F : Prop} {h h' : Heap V} {a : Addr} (g : IsN F h a) (hk : KinH h h') : IsN F h' a := by
  obtain ⟨n, hn, hp⟩ := g
  obtain ⟨c', hc', hlike⟩ := hk a _ hn
  cases c' with
  | leaf l' => cases hlike
  | inner n' => exact ⟨n', hc', fun hf => hlike.2.trans (hp hf)⟩
theorem IsN.weak {F : Prop} {h : Heap V} {a : Addr} (g : IsN F h a) : IsN False h a := by
  obtain ⟨n, hn, _⟩ := g
  exact ⟨n, hn, fun hf => hf.elim⟩

theorem Cell.Sane.monoH {F : Prop} {h h' : Heap V} {c : Cell V} (hc : c.Sane F h) (hk : KinH h h') : c.Sane F h' := by
  cases c with
  | leaf l => trivial
  | inner n => exact ⟨hc.1, fun l hl => (hc.2.1 l hl).monoH hk, fun b hb => (hc.2.2 b hb).monoH hk⟩

/-- An inner node of the given type and child count. -/
def Hd (s : St V) (a : Addr) (k : Kind) (x : UInt8) : Prop := ∃ n, s.heap[a]? = some (.inner n) ∧ n.kind = k ∧ n.numChildren = x
/-- An inner node of the given type. -/
def IsK (s : St V) (a : Addr) (k : Kind) : Prop := ∃ n, s.heap[a]? = some (.inner n) ∧ n.kind = k

section
variable {F : Prop} {s s' : St V} {α β : Type}

theorem IsLf.mono {a : Addr} (g : IsLf s.heap a) (h : Kin s s') : IsLf s'.heap a := g.monoH h.heap
theorem IsN.mono {f : Prop} {a : Addr} (g : IsN f s.heap a) (h : Kin s s') : IsN f s'.heap a := g.monoH h.heap
theorem IsK.mono {a : Addr} {k : Kind} (g : IsK s a k) (h : Kin s s') : IsK s' a k := by
  obtain ⟨n, hn, hp⟩ := g
  obtain ⟨c', hc', hlike⟩ := h.heap a _ hn
  cases c' with
  | leaf l' => cases hlike
  | inner n' => exact ⟨n', hc', hlike.1.trans hp⟩
theorem Hd.isK {a : Addr} {k : Kind} {x : UInt8} (h : Hd s a k x) : IsK s a k := let ⟨n, h1, h2, _⟩ := h; ⟨n, h1, h2⟩

/-- Running `m` from `s` keeps the heap well-shaped; if it returns, the result satisfies `Q`. -/
def Ts (F : Prop) (m : M V α) (Q : α → St V → Prop) (s : St V) : Prop :=
  Sane F (m s).2.heap ∧ Kin s (m s).2 ∧ ∀ a, (m s).1 = .ok a → Q a (m s).2

theorem Ts.bind {m : M V α} {f : α → M V β} {Q : α → St V → Prop} {Q' : β → St V → Prop} (h : Ts F m Q s)
    (hf : ∀ a s', Sane F s'.heap → Kin s s' → Q a s' → Ts F (f a) Q' s') : Ts F (m >>= f) Q' s := by
  unfold Ts
  rw [bind_run]
  obtain ⟨hj, hs, hq⟩ := h
  match hm : m s with
  | (.ok a, s') =>
    rw [hm] at hj hs hq
    obtain ⟨h1, h2, h3⟩ := hf a s' hj hs (hq a rfl)
    exact ⟨h1, hs.trans h2, h3⟩
  | (.error e, s') =>
    rw [hm] at hj hs
    exact ⟨hj, hs, fun a ha => nomatch ha⟩

theorem Ts.pure {a : α} {Q : α → St V → Prop} (hj : Sane F s.heap) (hq : Q a s) : Ts F (Pure.pure a : M V α) Q s :=
  ⟨hj, Kin.refl _, fun b hb => by cases hb; exact hq⟩

theorem Ts.conseq {m : M V α} {Q Q' : α → St V → Prop} (h : Ts F m Q s)
    (hq : ∀ a s', Sane F s'.heap → Kin s s' → Q a s' → Q' a s') : Ts F m Q' s := by
  obtain ⟨h1, h2, h3⟩ := h
  exact ⟨h1, h2, fun a ha => hq a _ h1 h2 (h3 a ha)⟩

theorem Ts.throw {e : Err} {Q : α → St V → Prop} (hj : Sane F s.heap) : Ts F (M.throw e : M V α) Q s :=
  ⟨hj, Kin.refl _, fun b hb => nomatch hb⟩

theorem Ts.err {m : M V α} {e : Err} {Q : α → St V → Prop} (h : m s = (.error e, s)) (hj : Sane F s.heap) : Ts F m Q s := by
  unfold Ts
  rw [h]
  exact ⟨hj, Kin.refl _, fun b hb => nomatch hb⟩

theorem Ts.bindCell {a : Addr} {f : Cell V → M V β} {Q : β → St V → Prop} (hj : Sane F s.heap)
    (h : ∀ c, s.heap[a]? = some c → Ts F (f c) Q s) : Ts F (cell a >>= f) Q s := by
  cases hc : s.heap[a]? with
  | none => exact Ts.err (by rw [bind_run]; unfold cell rd; dsimp only; rw [hc]) hj
  | some c =>
    have := h c hc
    unfold Ts at this ⊢
    rw [bind_run]
    unfold cell rd
    dsimp only
    rw [hc]
    exact this

theorem Ts.bindInner {a : Addr} {f : Inner → M V β} {Q : β → St V → Prop} (hj : Sane F s.heap)
    (h : ∀ n, s.heap[a]? = some (.inner n) → Cell.Sane F s.heap (.inner n) → Ts F (f n) Q s) : Ts F (innerAt a >>= f) Q s := by
  cases hc : s.heap[a]? with
  | none => exact Ts.err (by rw [bind_run]; unfold innerAt rdInner; dsimp only; rw [hc]) hj
  | some c =>
    cases c with
    | leaf l => exact Ts.err (by rw [bind_run]; unfold innerAt rdInner; dsimp only; rw [hc]) hj
    | inner n =>
      have := h n hc (hj a _ hc)
      unfold Ts at this ⊢
      rw [bind_run]
      unfold innerAt rdInner
      dsimp only
      rw [hc]
      exact this

theorem Ts.bindLeaf {a : Addr} {f : LeafC V → M V β} {Q : β → St V → Prop} (hj : Sane F s.heap)
    (h : ∀ l, s.heap[a]? = some (.leaf l) → Ts F (f l) Q s) : Ts F (leafAt a >>= f) Q s := by
  cases hc : s.heap[a]? with
  | none => exact Ts.err (by rw [bind_run]; unfold leafAt rdLeaf; dsimp only; rw [hc]) hj
  | some c =>
    cases c with
    | inner n => exact Ts.err (by rw [bind_run]; unfold leafAt rdLeaf; dsimp only; rw [hc]) hj
    | leaf l =>
      have := h l hc
      unfold Ts at this ⊢
      rw [bind_run]
      unfold leafAt rdLeaf
      dsimp only
      rw [hc]
      exact this

theorem Ts.bindLift {r : R α} {f : α → M V β} {Q : β → St V → Prop} (hj : Sane F s.heap)
    (h : ∀ a, r = .ok a → Ts F (f a) Q s) : Ts F (M.lift r >>= f) Q s := by
  cases r with
  | error e => exact Ts.err (by rw [bind_run]; rfl) hj
  | ok a => exact h a rfl

theorem Ts.bindTxn {f : TxnSt → M V β} {Q : β → St V → Prop} (h : Ts F (f s.txn) Q s) : Ts F (txnSt >>= f) Q s := h
theorem Ts.bindGet {f : St V → M V β} {Q : β → St V → Prop} (h : Ts F (f s) Q s) : Ts F (M.get >>= f) Q s := h

theorem Ts.bindAssert {p : Prop} [Decidable p] {e : Err} {f : Unit → M V β} {Q : β → St V → Prop} (hj : Sane F s.heap)
    (h : p → Ts F (f ()) Q s) : Ts F (M.assert p e >>= f) Q s := by
  by_cases hp : p
  · have := h hp
    unfold Ts at this ⊢
    rw [bind_run]
    unfold M.assert
    dsimp only
    rw [if_pos hp]
    exact this
  · exact Ts.err (by rw [bind_run]; unfold M.assert; dsimp only; rw [if_neg hp]) hj

/-! ### Primitive writes -/

theorem KinH.set {h : Heap V} {a : Addr} {c0 c : Cell V} (h0 : h[a]? = some c0) (hl : c0.Like c) : KinH h (h.set a c) := fun b d hd => by
  by_cases hab : a = b
  · subst hab
    rw [h0] at hd
    cases hd
    exact ⟨c, by rw [List.getElem?_set_self (List.getElem?_eq_some_iff.1 h0).1], hl⟩
  · exact ⟨d, by rw [List.getElem?_set_ne hab]; exact hd, .refl d⟩

theorem KinH.append (h : Heap V) (c : Cell V) : KinH h (h ++ [c]) := fun b d hd =>
  ⟨d, by rw [List.getElem?_append_left (List.getElem?_eq_some_iff.1 hd).1]; exact hd, .refl d⟩

theorem Sane.set {h : Heap V} (hj : Sane F h) {a : Addr} {c0 c : Cell V} (h0 : h[a]? = some c0) (hl : c0.Like c) (hc : c.Sane F h) : Sane F (h.set a c) := by
  have hk := KinH.set h0 hl
  intro b d hb
  by_cases hab : a = b
  · subst hab
    rw [List.getElem?_set_self (List.getElem?_eq_some_iff.1 h0).1] at hb
    cases hb
    exact hc.monoH hk
  · rw [List.getElem?_set_ne hab] at hb
    exact (hj b d hb).monoH hk

theorem Cell.Like.leaf {c c0 : Cell V} (h : c0.Like c) (l : LeafC V) (hl : c = .leaf l) : ∃ l0, c0 = .leaf l0 := by
  subst hl
  cases c0 with
  | leaf l0 => exact ⟨l0, rfl⟩
  | inner n => cases h

/-- Everything about the other nodes stays, and the node holds the new contents. -/
theorem Ts.wr (hj : Sane F s.heap) {a : Addr} {c0 c : Cell V} (h0 : s.heap[a]? = some c0) (hl : c0.Like c) (hch : c.ch = c0.ch) (hc : c.Sane F s.heap) :
    Ts F (wr a c : M V Unit) (fun _ s' => s'.heap = s.heap.set a c) s :=
  ⟨hj.set h0 hl hc, ⟨KinH.set h0 hl, rfl, fun D h => h.set h0 hch hl.leaf⟩, fun _ _ => rfl⟩

/-- The channel of a new cell: none, or that of an inner node if it is one itself. -/
def Cell.ChOf (h : Heap V) (c : Cell V) : Prop :=
  ∀ k, c.ch = some k → (∃ m, c = .inner m) ∧ ∃ (b : Addr) (m : Inner), h[b]? = some (.inner m) ∧ m.ch = some k

theorem Ts.newCell (hj : Sane F s.heap) {c : Cell V} (hch : c.ChOf s.heap) (hc : c.Sane F s.heap) :
    Ts F (newCell c : M V Addr) (fun a s' => a = s.heap.length ∧ s'.heap = s.heap ++ [c]) s := by
  have hk := KinH.append s.heap c
  refine ⟨fun b d hb => ?_, ⟨hk, rfl, fun D h => h.append hch⟩, fun a ha => by cases ha; exact ⟨rfl, rfl⟩⟩
  have hb : (s.heap ++ [c])[b]? = some d := hb
  show Cell.Sane F (s.heap ++ [c]) d
  by_cases hlt : b < s.heap.length
  · rw [List.getElem?_append_left hlt] at hb
    exact (hj b d hb).monoH hk
  · have hl := (List.getElem?_eq_some_iff.1 hb).1
    simp only [List.length_append, List.length_singleton] at hl
    have : b = s.heap.length := by omega
    subst this
    simp at hb
    subst hb
    exact hc.monoH hk

theorem Ts.modTxn (hj : Sane F s.heap) (f : TxnSt → TxnSt) (hf : (f s.txn).root = s.txn.root) (hg : (f s.txn).trackChnSlice = s.txn.trackChnSlice) :
    Ts F (modTxn f : M V Unit) (fun _ s' => s'.heap = s.heap) s :=
  ⟨hj, ⟨(Kin.refl s).heap, hf, fun D h => by
    show Lone D s.heap s.chans.length (f s.txn).trackChnSlice
    rw [hg]; exact h⟩, fun _ _ => rfl⟩

/-- The nodes with their types and child counts are still there. -/
def KeepHd (s s' : St V) : Prop := ∀ a k x, Hd s a k x → Hd s' a k x

theorem KeepHd.refl (s : St V) : KeepHd s s := fun _ _ _ h => h
theorem KeepHd.trans {s s' s'' : St V} (h1 : KeepHd s s') (h2 : KeepHd s' s'') : KeepHd s s'' := fun a k x h => h2 a k x (h1 a k x h)
theorem KeepHd.of_heap (h : s'.heap = s.heap) : KeepHd s s' := fun a k x ⟨n, hn, h2⟩ => ⟨n, by rw [h]; exact hn, h2⟩
theorem KeepHd.of_append {c : Cell V} (h : s'.heap = s.heap ++ [c]) : KeepHd s s' := fun a k x ⟨n, hn, h2⟩ =>
  ⟨n, by rw [h, List.getElem?_append_left (List.getElem?_eq_some_iff.1 hn).1]; exact hn, h2⟩
theorem KeepHd.of_set {a : Addr} {n m : Inner} (hn : s.heap[a]? = some (.inner n)) (hk : m.kind = n.kind) (hx : m.numChildren = n.numChildren)
    (h : s'.heap = s.heap.set a (.inner m)) : KeepHd s s' := by
  rintro b k x ⟨n', hn', h2, h3⟩
  by_cases hab : a = b
  · subst hab
    rw [hn] at hn'
    cases hn'
    exact ⟨m, by rw [h, List.getElem?_set_self (List.getElem?_eq_some_iff.1 hn).1], hk.trans h2, hx.trans h3⟩
  · exact ⟨n', by rw [h, List.getElem?_set_ne hab]; exact hn', h2, h3⟩
theorem KeepHd.of_setLeaf {a : Addr} {l : LeafC V} {c : Cell V} (hn : s.heap[a]? = some (.leaf l))
    (h : s'.heap = s.heap.set a c) : KeepHd s s' := by
  rintro b k x ⟨n', hn', h2, h3⟩
  by_cases hab : a = b
  · subst hab
    rw [hn] at hn'
    cases hn'
  · exact ⟨n', by rw [h, List.getElem?_set_ne hab]; exact hn', h2, h3⟩
theorem KeepHd.of_setCh {a : Addr} {c : Cell V} {k : Option ChanId} (hn : s.heap[a]? = some c) (h : s'.heap = s.heap.set a (c.setCh k)) : KeepHd s s' := by
  cases c with
  | leaf l => exact KeepHd.of_setLeaf hn h
  | inner n => exact KeepHd.of_set (m := { n with ch := k }) hn rfl rfl h
theorem KeepHd.of_setId {a : Addr} {c : Cell V} {k : Nat} (hn : s.heap[a]? = some c) (h : s'.heap = s.heap.set a (c.setId k)) : KeepHd s s' := by
  cases c with
  | leaf l => exact KeepHd.of_setLeaf hn h
  | inner n => exact KeepHd.of_set (m := { n with id := k }) hn rfl rfl h

theorem Cell.like_setCh (c : Cell V) (k : Option ChanId) : c.Like (c.setCh k) := by cases c <;> simp [Cell.Like, Cell.setCh]
theorem Cell.like_setId (c : Cell V) (k : Nat) : c.Like (c.setId k) := by cases c <;> simp [Cell.Like, Cell.setId]
theorem Inner.Shape.setCh {n : Inner} (h : n.Shape F) (k : Option ChanId) : ({ n with ch := k } : Inner).Shape F := ⟨h.1, h.2, h.3, h.4, h.5⟩
theorem Inner.Shape.setId {n : Inner} (h : n.Shape F) (k : Nat) : ({ n with id := k } : Inner).Shape F := ⟨h.1, h.2, h.3, h.4, h.5⟩
theorem Cell.Sane.setCh {h : Heap V} {c : Cell V} (hc : c.Sane F h) (k : Option ChanId) : (c.setCh k).Sane F h := by
  cases c with
  | leaf l => trivial
  | inner n => exact ⟨hc.1.setCh k, hc.2.1, hc.2.2⟩
theorem Cell.Sane.setId {h : Heap V} {c : Cell V} (hc : c.Sane F h) (k : Nat) : (c.setId k).Sane F h := by
  cases c with
  | leaf l => trivial
  | inner n => exact ⟨hc.1.setId k, hc.2.1, hc.2.2⟩

/-! ### Channels and copying -/

/-- A node gets another channel. -/
theorem Ts.chan (hj : Sane F s.heap) {m : M V α} (hm : Lones s (m s).2)
    (h : (m s).2.heap = s.heap ∧ (m s).2.txn.root = s.txn.root ∨ ∃ (a : Addr) (c : Cell V) (k : Option ChanId), s.heap[a]? = some c ∧ (m s).2.heap = s.heap.set a (c.setCh k) ∧ (m s).2.txn.root = s.txn.root) :
    Ts F m (fun _ s' => KeepHd s s') s := by
  rcases h with ⟨h1, h2⟩ | ⟨a, c, k, h0, h1, h2⟩
  · exact ⟨by rw [h1]; exact hj, ⟨by rw [h1]; exact (Kin.refl s).heap, h2, hm⟩, fun _ _ => KeepHd.of_heap h1⟩
  · exact ⟨by rw [h1]; exact hj.set h0 (c.like_setCh k) ((hj a c h0).setCh k), ⟨by rw [h1]; exact KinH.set h0 (c.like_setCh k), h2, hm⟩, fun _ _ => KeepHd.of_setCh h0 h1⟩

theorem Ts.getMutateCh (hj : Sane F s.heap) (a : Addr) : Ts F (getMutateCh a : M V ChanId)
    (fun k s' => KeepHd s s' ∧ ∃ c, s'.heap[a]? = some c ∧ c.ch = some k) s := by
  have h1 : Ts F (Art.getMutateCh a : M V ChanId) (fun _ s' => KeepHd s s') s := by
    refine Ts.chan hj (getMutateCh_lones a s) ?_
    rw [getMutateCh_run']
    cases hc : s.heap[a]? with
    | none => exact Or.inl ⟨rfl, rfl⟩
    | some c => exact Or.inr ⟨a, c, _, hc, rfl, rfl⟩
  refine ⟨h1.1, h1.2.1, fun k hk => ⟨h1.2.2 k hk, ?_⟩⟩
  exact getMutateCh_at (s := s) (s' := (Art.getMutateCh a s).2) (k := k) (by rw [← hk])

theorem Ts.trackChannel (hj : Sane F s.heap) (a : Option Addr) : Ts F (trackChannel a : M V Unit) (fun _ s' => KeepHd s s') s := by
  refine Ts.chan hj (trackChannel_lones a s) ?_
  rw [trackChannel_run]
  split
  · split
    · exact Or.inl ⟨rfl, rfl⟩
    · next a =>
      cases hc : s.heap[a]? with
      | none => exact Or.inl ⟨rfl, rfl⟩
      | some c => exact Or.inr ⟨a, c, _, hc, rfl, rfl⟩
  · exact Or.inl ⟨rfl, rfl⟩

theorem Ts.keepCh (hj : Sane F s.heap) (a : Addr) (b : Bool) : Ts F (keepCh a b : M V (Option ChanId))
    (fun o s' => KeepHd s s' ∧ ∀ k, o = some k → b = true ∧ ∃ c, s'.heap[a]? = some c ∧ c.ch = some k) s := by
  unfold Art.keepCh
  split
  · next hb => exact Ts.bind (Ts.getMutateCh hj a) fun k s1 hj1 h1 e1 => Ts.pure hj1 ⟨e1.1, fun k' hk' => by cases hk'; exact ⟨hb, e1.2⟩⟩
  · exact Ts.pure hj ⟨.refl s, fun k hk => nomatch hk⟩

theorem goCopy_len {α : Type} (dst src : List α) (off : Nat) : (goCopy dst off src).length = dst.length := by
  unfold goCopy
  simp only [List.length_append, List.length_take, List.length_drop]
  omega

/-- The copy `a'` of node `a`: a leaf for a leaf, a node of the same type and child count for a node. -/
structure ShapeCopy (s : St V) (a : Addr) (s' : St V) (a' : Addr) : Prop where
  leaf : IsLf s.heap a → IsLf s'.heap a'
  node : ∀ f : Prop, IsN f s.heap a → IsN f s'.heap a'
  hd : ∀ k x, Hd s a k x → Hd s' a' k x
  kind : ∀ k, IsK s a k → IsK s' a' k

theorem ShapeCopy.of_kin (h : Kin s s') (hk : KeepHd s s') (a : Addr) : ShapeCopy s a s' a :=
  ⟨fun g => g.mono h, fun f g => g.mono h, fun k x g => hk a k x g, fun k g => g.mono h⟩

theorem ShapeCopy.trans {s s' s'' : St V} {a a' a'' : Addr} (h1 : ShapeCopy s a s' a') (h2 : ShapeCopy s' a' s'' a'') : ShapeCopy s a s'' a'' :=
  ⟨fun g => h2.leaf (h1.leaf g), fun f g => h2.node f (h1.node f g), fun k x g => h2.hd k x (h1.hd k x g), fun k g => h2.kind k (h1.kind k g)⟩

/-- `clone`; leaves are never cloned with their channel. -/
theorem Ts.cloneNode (hj : Sane F s.heap) (a : Addr) (b : Bool) (hb : b = true → IsN False s.heap a) : Ts F (cloneNode a b : M V Addr)
    (fun a' s' => ShapeCopy s a s' a' ∧ (∀ f : Prop, IsN False s.heap a → IsN f s'.heap a') ∧ KeepHd s s') s := by
  unfold Art.cloneNode
  refine Ts.bind (Ts.keepCh hj a b) fun ch s1 hj1 h1 ⟨e1, e2⟩ => ?_
  refine Ts.bindCell hj1 fun c hc => ?_
  have hb' := hj1 a c hc
  cases c with
  | leaf l =>
    have hno : (Cell.leaf { l with ch := ch } : Cell V).ChOf s1.heap := fun k hk => by
      obtain ⟨n, hn, _⟩ := (hb (e2 k hk).1).mono h1
      rw [hc] at hn; cases hn
    refine (Ts.newCell hj1 (c := .leaf { l with ch := ch }) hno trivial).conseq fun a' s2 _ h2 ⟨ea, eh⟩ => ?_
    have hat : s2.heap[a']? = some (.leaf { l with ch := ch }) := by rw [eh, ea]; simp
    refine ⟨ShapeCopy.trans (ShapeCopy.of_kin h1 e1 a) ⟨fun _ => ⟨_, hat⟩, fun f g => ?_, fun k x g => ?_, fun k g => ?_⟩, fun f g => ?_,
      e1.trans (KeepHd.of_append eh)⟩
    · obtain ⟨n, hn, _⟩ := g; rw [hc] at hn; cases hn
    · obtain ⟨n, hn, _⟩ := g; rw [hc] at hn; cases hn
    · obtain ⟨n, hn, _⟩ := g; rw [hc] at hn; cases hn
    · obtain ⟨n, hn, _⟩ := g.mono h1; rw [hc] at hn; cases hn
  | inner n =>
    have hlen : (goCopy zeroPartial 0 n.part).length = 10 := by rw [goCopy_len]; simp [zeroPartial, maxPrefixLen]
    have hyes : (Cell.inner { n with part := goCopy zeroPartial 0 n.part, ch := ch } : Cell V).ChOf s1.heap := fun k hk => by
      obtain ⟨-, c', h2, h3⟩ := e2 k hk
      rw [hc] at h2
      cases h2
      exact ⟨⟨_, rfl⟩, a, n, hc, h3⟩
    refine (Ts.newCell hj1 (c := .inner { n with part := goCopy zeroPartial 0 n.part, ch := ch }) hyes ⟨⟨hb'.1.1, hb'.1.2, hb'.1.3, hb'.1.4, fun _ => .inl hlen⟩, hb'.2⟩).conseq
      fun a' s2 _ h2 ⟨ea, eh⟩ => ?_
    have hat : s2.heap[a']? = some (.inner { n with part := goCopy zeroPartial 0 n.part, ch := ch }) := by rw [eh, ea]; simp
    refine ⟨ShapeCopy.trans (ShapeCopy.of_kin h1 e1 a) ⟨fun g => ?_, fun f g => ⟨_, hat, fun _ => hlen⟩, fun k x g => ?_, fun k g => ?_⟩, fun f g => ⟨_, hat, fun _ => hlen⟩,
      e1.trans (KeepHd.of_append eh)⟩
    · obtain ⟨n, hn⟩ := g; rw [hc] at hn; cases hn
    · obtain ⟨n, hn, hk, hx⟩ := g; rw [hc] at hn; cases hn; exact ⟨_, hat, hk, hx⟩
    · obtain ⟨n, hn, hk⟩ := g; rw [hc] at hn; cases hn; exact ⟨_, hat, hk⟩

theorem Ts.bumpId (hj : Sane F s.heap) (a : Addr) : Ts F (bumpId a : M V Unit) (fun _ s' => KeepHd s s') s := by
  unfold Art.bumpId
  refine Ts.bind (Ts.modTxn hj _ rfl rfl) fun _ s1 hj1 h1 e1 => ?_
  refine Ts.bindTxn (Ts.bindCell hj1 fun c hc => ?_)
  exact (Ts.wr hj1 hc (c.like_setId _) (c.ch_setId _) ((hj1 a c hc).setId _)).conseq fun _ _ _ _ h => (KeepHd.of_heap e1).trans (KeepHd.of_setId hc h)

theorem Ts.trackNode (hj : Sane F s.heap) (a : Addr) (b : Bool) : Ts F (trackNode a b : M V Unit) (fun _ s' => KeepHd s s') s := by
  unfold Art.trackNode
  split
  · refine Ts.bind (Ts.trackChannel hj _) fun _ s1 hj1 h1 e1 => ?_
    exact Ts.bindCell hj1 fun c hc => (Ts.trackChannel hj1 _).conseq fun _ _ _ _ h => e1.trans h
  · exact Ts.pure hj (.refl s)

theorem Ts.writeNode (hj : Sane F s.heap) (a : Addr) (b : Bool) (hb : b = false → IsN False s.heap a) : Ts F (writeNode a b : M V Addr)
    (fun a' s' => ShapeCopy s a s' a') s := by
  unfold Art.writeNode
  refine Ts.bind (Ts.trackNode hj a b) fun _ s1 hj1 h1 e1 => ?_
  refine Ts.bindCell hj1 fun c hc => Ts.bindTxn ?_
  split
  · exact Ts.pure hj1 (ShapeCopy.of_kin h1 e1 a)
  · refine Ts.bind (Ts.cloneNode hj1 a _ fun h => (hb (by simpa using h)).mono h1) fun nc s2 hj2 h2 hnc => ?_
    refine Ts.bind (Ts.bumpId hj2 nc) fun _ s3 hj3 h3 e3 => ?_
    exact Ts.pure hj3 (((ShapeCopy.of_kin h1 e1 a).trans hnc.1).trans (ShapeCopy.of_kin h3 e3 nc))

theorem Inner.Shape.blank (k : Kind) : (blankInner k).Shape F where
  klen := by simp [blankInner]
  clen := by simp [blankInner]
  num := by simp [blankInner]
  ent := fun _ b hb => by
    have := List.eq_of_mem_replicate hb
    subst this
    decide
  part := fun _ => .inl (by simp [blankInner, zeroPartial, maxPrefixLen])

theorem Ts.allocInner (hj : Sane F s.heap) (k : Kind) : Ts F (allocInner k : M V Addr)
    (fun a' s' => IsK s' a' k ∧ (∀ f : Prop, IsN f s'.heap a') ∧ KeepHd s s') s := by
  unfold Art.allocInner
  refine Ts.bind (Ts.newCell hj (c := .inner (blankInner k)) (fun k hk => nomatch hk) ⟨.blank k, fun l hl => (nomatch hl), fun b hb => ?_⟩) fun a s1 hj1 h1 ⟨ea, eh⟩ => ?_
  · have := List.eq_of_mem_replicate hb; cases this
  have hat : s1.heap[a]? = some (.inner (blankInner k)) := by rw [eh, ea]; simp
  refine Ts.bind (Ts.bumpId hj1 a) fun _ s3 hj3 h3 e3 => Ts.pure hj3 ⟨?_, fun f => ?_, (KeepHd.of_append eh).trans e3⟩
  · exact IsK.mono ⟨_, hat, rfl⟩ h3
  · exact IsN.mono ⟨_, hat, fun _ => by simp [blankInner, zeroPartial, maxPrefixLen]⟩ h3

theorem Ts.allocLeaf (hj : Sane F s.heap) (key : Key) (v : V) : Ts F (allocLeaf key v : M V Addr) (fun a' s' => IsLf s'.heap a') s := by
  unfold Art.allocLeaf
  refine Ts.bind (Ts.newCell hj (c := .leaf { id := 0, value := v, key := key, ch := none }) (fun k hk => nomatch hk) trivial) fun a s1 hj1 h1 ⟨ea, eh⟩ => ?_
  have hat : s1.heap[a]? = some (.leaf { id := 0, value := v, key := key, ch := none }) := by rw [eh, ea]; simp
  exact Ts.bind (Ts.bumpId hj1 a) fun _ s3 hj3 h3 e3 => Ts.pure hj3 (IsLf.mono ⟨_, hat⟩ h3)

/-- Rewrite an inner node. -/
theorem Ts.wrInner (hj : Sane F s.heap) {a : Addr} {n m : Inner} (hn : s.heap[a]? = some (.inner n)) (hk : m.kind = n.kind)
    (hp : m.part.length = n.part.length) (hs : m.Shape F) (hl : ∀ l, m.leaf = some l → IsLf s.heap l) (hc : ∀ b, some b ∈ m.children → IsN F s.heap b)
    (hch : m.ch = n.ch := by rfl) : Ts F (Art.wr a (.inner m) : M V Unit) (fun _ s' => (m.numChildren = n.numChildren → KeepHd s s') ∧ Hd s' a m.kind m.numChildren) s :=
  (Ts.wr hj hn (c := .inner m) ⟨hk, hp⟩ hch ⟨hs, hl, hc⟩).conseq fun _ s' _ _ h => ⟨fun hx => KeepHd.of_set hn hk hx h,
    ⟨m, by rw [h, List.getElem?_set_self (List.getElem?_eq_some_iff.1 hn).1], rfl, rfl⟩⟩

theorem Ts.setNodeLeaf (hj : Sane F s.heap) (a : Addr) {l : Option Addr} (gl : ∀ b, l = some b → IsLf s.heap b) :
    Ts F (setNodeLeaf a l : M V Unit) (fun _ s' => KeepHd s s') s := by
  unfold Art.setNodeLeaf
  exact Ts.bindInner hj fun n hn hok => Ts.conseq (Ts.wrInner hj hn rfl rfl ⟨hok.1.1, hok.1.2, hok.1.3, hok.1.4, hok.1.5⟩ gl hok.2.2) fun _ _ _ _ h => h.1 rfl

theorem Inner.Shape.setChild {n : Inner} (h : n.Shape F) (i : Nat) (c : Option Addr) : ({ n with children := n.children.set i c } : Inner).Shape F :=
  ⟨h.1, by rw [← h.2]; simp, h.3, h.4, h.5⟩

theorem Ts.setChildAt (hj : Sane F s.heap) (a : Addr) {i : Nat} {c : Option Addr} (gl : ∀ b, c = some b → IsN F s.heap b) :
    Ts F (setChildAt a i c : M V Unit) (fun _ s' => KeepHd s s') s := by
  unfold Art.setChildAt
  refine Ts.bindInner hj fun n hn hok => ?_
  refine Ts.bindLift hj fun n' hn' => ?_
  obtain ⟨_, rfl⟩ := Inner.setChild_ok hn'
  refine Ts.conseq (Ts.wrInner hj hn rfl rfl (hok.1.setChild i c) hok.2.1 fun b hb => ?_) fun _ _ _ _ h => h.1 rfl
  rcases List.mem_or_eq_of_mem_set hb with h | h
  · exact hok.2.2 b h
  · exact gl b h.symm

theorem Ts.makeLeaf (hj : Sane F s.heap) (key : Key) (v : V) : Ts F (makeLeaf key v : M V Addr) (fun a' s' => ∀ f : Prop, IsN f s'.heap a') s := by
  unfold Art.makeLeaf
  refine Ts.bind (Ts.allocLeaf hj key v) fun l s1 hj1 h1 hl => ?_
  refine Ts.bind (Ts.bumpId hj1 l) fun _ s2 hj2 h2 _ => ?_
  refine Ts.bind (Ts.allocInner hj2 .n4) fun a s3 hj3 h3 ha => ?_
  refine Ts.bind (Ts.setNodeLeaf hj3 a fun b hb => by cases hb; exact hl.mono (h2.trans h3)) fun _ s4 hj4 h4 _ => ?_
  exact Ts.bind (Ts.bumpId hj4 a) fun _ s5 hj5 h5 _ => Ts.pure hj5 fun f => (ha.2.1 f).mono (h4.trans h5)

theorem Ts.copyHeader (hj : Sane F s.heap) {d a : Addr} (gd : IsN F s.heap d)
    (hx : ∀ n m, s.heap[a]? = some (.inner n) → s.heap[d]? = some (.inner m) → n.numChildren.toNat ≤ m.kind.cap) :
    Ts F (copyHeader d a : M V Unit) (fun _ _ => True) s := by
  unfold Art.copyHeader
  refine Ts.bindInner hj fun n hn hok => ?_
  refine Ts.bindInner hj fun m hm hokm => ?_
  simp only
  split
  · exact Ts.throw hj
  · refine Ts.conseq (Ts.wrInner hj hm rfl (goCopy_len _ _ _) ⟨hokm.1.1, hokm.1.2, hx n m hn hm, hokm.1.4, fun hf => .inl ?_⟩ hokm.2.1 hokm.2.2) fun _ _ _ _ _ => trivial
    obtain ⟨m', hm', hp⟩ := gd
    rw [hm] at hm'
    cases hm'
    exact (goCopy_len _ _ _).trans (hp hf)

theorem Ts.moveLeaf (hj : Sane F s.heap) (d a : Addr) : Ts F (moveLeaf d a : M V Unit) (fun _ _ => True) s := by
  unfold Art.moveLeaf
  refine Ts.bindInner hj fun n hn hok => ?_
  cases hl : n.leaf with
  | none => exact Ts.pure hj trivial
  | some l =>
    refine Ts.bind (Ts.writeNode hj l true fun h => nomatch h) fun nL s1 hj1 h1 hnL => ?_
    exact (Ts.setNodeLeaf hj1 d fun b hb => by cases hb; exact hnL.leaf (hok.2.1 l hl)).conseq fun _ _ _ _ _ => trivial

end
end Art
