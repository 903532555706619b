import Verif.Model.Tree
import Verif.Proofs.Fuel
/-
Isolation of the mutating code.  A call may only read nodes of a set `S` closed under pointers (and nodes it
allocated itself), and may only change nodes of a set `O` (and nodes it allocated itself), apart from their
watch channels.
-/
set_option autoImplicit false
set_option linter.unusedVariables false
set_option linter.unusedSimpArgs false
namespace Art
variable {V : Type}

/-! ### Vocabulary -/

/-- The node has a pointer to `b`. -/
def Cell.Pts (c : Cell V) (b : Addr) : Prop := c.nodeLeaf = some b ∨ some b ∈ c.children

/-- The parameters of an isolation statement: the heap at the start, the accessible and the owned nodes of
it, the transaction's `oldMaxNodeId`, whether node ids are bounded by `maxNodeId`, and a predicate on the
contents of leaves. -/
structure Cx (V : Type) where
  h0 : Heap V
  S : Addr → Prop
  O : Addr → Prop
  oldMax : Nat
  B : Prop
  P : Key → V → Prop

/-- Accessible: in `S`, or allocated since the start. -/
def Cx.Acc (C : Cx V) (a : Addr) : Prop := C.S a ∨ C.h0.length ≤ a
/-- Owned: in `O`, or allocated since the start. -/
def Cx.Own (C : Cx V) (a : Addr) : Prop := C.O a ∨ C.h0.length ≤ a

/-- An accessible pointer into the current heap. -/
def Cx.Good (C : Cx V) (s : St V) (a : Addr) : Prop := C.Acc a ∧ a < s.heap.length
/-- An owned accessible pointer into the current heap. -/
def Cx.OwnG (C : Cx V) (s : St V) (a : Addr) : Prop := C.Good s a ∧ C.Own a

/-- Node contents that may be stored in an accessible node. -/
structure Cx.CellOK (C : Cx V) (s : St V) (c : Cell V) : Prop where
  pts : ∀ b, c.Pts b → C.Good s b
  id_le : C.B → c.id ≤ s.txn.maxNodeId
  leafP : ∀ l, c = .leaf l → C.P l.key l.value

/-- Same node apart from the watch channel. -/
def Cell.Same (c c' : Cell V) : Prop := c.setCh none = c'.setCh none

/-- The invariant. -/
structure J (C : Cx V) (s : St V) : Prop where
  len : C.h0.length ≤ s.heap.length
  cells : ∀ a c, s.heap[a]? = some c → C.Acc a → C.CellOK s c ∧ (c.id > C.oldMax → C.Own a)
  frame : ∀ a, a < C.h0.length → ¬ C.Own a →
    (s.heap[a]?).map (·.setCh none) = (C.h0[a]?).map (·.setCh none)
  om : s.txn.oldMaxNodeId = C.oldMax

/-- A heap that differs from the one at the start in owned nodes and watch channels only. -/
def Cx.Fr (C : Cx V) (h : Heap V) : Prop :=
  C.h0.length ≤ h.length ∧ ∀ a, a < C.h0.length → ¬ C.Own a → (h[a]?).map (·.setCh none) = (C.h0[a]?).map (·.setCh none)

theorem J.fr {C : Cx V} {s : St V} (hj : J C s) : C.Fr s.heap := ⟨hj.len, hj.frame⟩

/-- A write goes to an owned node, or sets a channel; the heap stays framed. -/
def Cx.Wr (C : Cx V) (e : Write V) : Prop := (e.chan = false → C.Own e.addr) ∧ C.Fr e.heap

theorem Cx.unseen (C : Cx V) : ∀ e ∈ ([] : List (Write V)), C.Wr e := fun _ h => nomatch h

/-- All channels stored in nodes satisfy `P`. -/
def ChHeap (P : ChanId → Prop) (h : Heap V) : Prop := ∀ (a : Addr) (c : Cell V) k, h[a]? = some c → c.ch = some k → P k

/-- All channels stored in nodes, and all channels about to be closed, satisfy `P`. -/
def ChAll (P : ChanId → Prop) (s : St V) : Prop := ChHeap P s.heap ∧ ∀ k ∈ s.txn.trackChnSlice, P k

/-- The key of a leaf; nothing for an inner node. -/
def Cell.label : Cell V → Option Key
  | .leaf l => some l.key
  | .inner _ => none

/-- All channels stored in nodes are among the first `n`, and nodes with the same channel are leaves with the same
key, or inner nodes. -/
structure Lab (h : Heap V) (n : Nat) : Prop where
  lt : ∀ (a : Addr) (c : Cell V) k, h[a]? = some c → c.ch = some k → k < n
  same : ∀ (a b : Addr) (c d : Cell V) k, h[a]? = some c → h[b]? = some d → c.ch = some k → d.ch = some k → c.label = d.label

theorem Cell.label_setCh (c : Cell V) (k : Option ChanId) : (c.setCh k).label = c.label := by cases c <;> rfl
theorem Cell.label_setId (c : Cell V) (k : Nat) : (c.setId k).label = c.label := by cases c <;> rfl

/-- A node is replaced by one with the same channel and label. -/
theorem Lab.set {h : Heap V} {n : Nat} (hl : Lab h n) {a : Addr} {c c0 : Cell V} (h0 : h[a]? = some c0) (hch : c.ch = c0.ch)
    (hlab : c.label = c0.label) : Lab (h.set a c) n := by
  have old : ∀ (b : Addr) (d : Cell V), (h.set a c)[b]? = some d → ∃ d0, h[b]? = some d0 ∧ d.ch = d0.ch ∧ d.label = d0.label := fun b d hd => by
    rw [List.getElem?_set] at hd
    split at hd
    · next he =>
      subst he
      split at hd
      · cases hd; exact ⟨c0, h0, hch, hlab⟩
      · cases hd
    · exact ⟨d, hd, rfl, rfl⟩
  refine ⟨fun b d k hd hk => ?_, fun b b' d d' k hd hd' hk hk' => ?_⟩
  · obtain ⟨d0, h1, h2, _⟩ := old b d hd
    exact hl.lt b d0 k h1 (h2 ▸ hk)
  · obtain ⟨d0, h1, h2, h3⟩ := old b d hd
    obtain ⟨e0, g1, g2, g3⟩ := old b' d' hd'
    rw [h3, g3]
    exact hl.same b b' d0 e0 k h1 g1 (h2 ▸ hk) (g2 ▸ hk')

/-- A new node has no channel, or the channel of a node with the same label. -/
theorem Lab.alloc {h : Heap V} {n : Nat} (hl : Lab h n) {c : Cell V}
    (hch : ∀ k, c.ch = some k → ∃ (a0 : Addr) (c0 : Cell V), h[a0]? = some c0 ∧ c0.ch = some k ∧ c0.label = c.label) : Lab (h ++ [c]) n := by
  have old : ∀ (b : Addr) (d : Cell V) k, (h ++ [c])[b]? = some d → d.ch = some k → ∃ (b0 : Addr) (d0 : Cell V), h[b0]? = some d0 ∧ d0.ch = some k ∧ d0.label = d.label :=
    fun b d k hd hk => by
      rw [List.getElem?_append] at hd
      split at hd
      · exact ⟨b, d, hd, hk, rfl⟩
      · have := List.mem_singleton.1 (List.mem_of_getElem? hd)
        subst this
        exact hch k hk
  refine ⟨fun b d k hd hk => ?_, fun b b' d d' k hd hd' hk hk' => ?_⟩
  · obtain ⟨b0, d0, h1, h2, _⟩ := old b d k hd hk
    exact hl.lt b0 d0 k h1 h2
  · obtain ⟨b0, d0, h1, h2, h3⟩ := old b d k hd hk
    obtain ⟨b1, e0, g1, g2, g3⟩ := old b' d' k hd' hk'
    rw [← h3, ← g3]
    exact hl.same b0 b1 d0 e0 k h1 g1 h2 g2

theorem Lab.mono {h : Heap V} {n n' : Nat} (hl : Lab h n) (hn : n ≤ n') : Lab h n' :=
  ⟨fun a c k hc hk => Nat.lt_of_lt_of_le (hl.lt a c k hc hk) hn, hl.same⟩

/-- A node gets a new channel, or none. -/
theorem Lab.setCh {h : Heap V} {n m : Nat} (hl : Lab h n) {a : Addr} {c : Cell V} (hc : h[a]? = some c) (k : Option ChanId)
    (hk0 : ∀ k', k = some k' → n ≤ k' ∧ k' < n + m) : Lab (h.set a (c.setCh k)) (n + m) := by
  have old : ∀ (b : Addr) (d : Cell V) j, (h.set a (c.setCh k))[b]? = some d → d.ch = some j → (b = a ∧ n ≤ j ∧ j < n + m) ∨ (j < n ∧ h[b]? = some d) :=
    fun b d j hd hj => by
      rw [List.getElem?_set] at hd
      split at hd
      · next he =>
        subst he
        split at hd
        · cases hd
          have : (c.setCh k).ch = k := by cases c <;> rfl
          exact Or.inl ⟨rfl, hk0 j (this ▸ hj)⟩
        · cases hd
      · exact Or.inr ⟨hl.lt b d j hd hj, hd⟩
  refine ⟨fun b d j hd hj => ?_, fun b b' d d' j hd hd' hj hj' => ?_⟩
  · rcases old b d j hd hj with h1 | h1
    · exact h1.2.2
    · exact Nat.lt_of_lt_of_le h1.1 (Nat.le_add_right _ _)
  · rcases old b d j hd hj with ⟨h1, h2, h3⟩ | ⟨h1, h2⟩ <;> rcases old b' d' j hd' hj' with ⟨g1, g2, g3⟩ | ⟨g1, g2⟩
    · subst h1 g1; rw [hd] at hd'; cases hd'; rfl
    · exact absurd g1 (Nat.not_lt.2 h2)
    · exact absurd h1 (Nat.not_lt.2 g2)
    · exact hl.same b b' d d' j h2 g2 hj hj'

/-- The channel `k` is only in nodes with this label. -/
def OnlyAt (h : Heap V) (k : ChanId) (lb : Option Key) : Prop := ∀ (a : Addr) (c : Cell V), h[a]? = some c → c.ch = some k → c.label = lb

/-- What any part of a call does to channels and labels. -/
structure LabTo (h : Heap V) (n : Nat) (h' : Heap V) (n' : Nat) : Prop where
  lab : Lab h n → Lab h' n'
  only : ∀ k lb, k < n → OnlyAt h k lb → OnlyAt h' k lb

theorem LabTo.refl {h : Heap V} {n : Nat} : LabTo h n h n := ⟨fun h => h, fun _ _ _ h => h⟩
theorem LabTo.trans {h h' h'' : Heap V} {n n' n'' : Nat} (h1 : LabTo h n h' n') (hn : n ≤ n') (h2 : LabTo h' n' h'' n'') : LabTo h n h'' n'' :=
  ⟨fun h => h2.lab (h1.lab h), fun k lb hk h => h2.only k lb (Nat.lt_of_lt_of_le hk hn) (h1.only k lb hk h)⟩

theorem LabTo.set {h : Heap V} {n : Nat} {a : Addr} {c c0 : Cell V} (h0 : h[a]? = some c0) (hch : c.ch = c0.ch)
    (hlab : c.label = c0.label) : LabTo h n (h.set a c) n where
  lab := fun hl => hl.set h0 hch hlab
  only := fun k lb hk hl b d hd hdk => by
    rw [List.getElem?_set] at hd
    split at hd
    · split at hd
      · cases hd; rw [hlab]; exact hl a c0 h0 (hch ▸ hdk)
      · cases hd
    · exact hl b d hd hdk

theorem LabTo.alloc {h : Heap V} {n : Nat} {c : Cell V}
    (hch : ∀ k, c.ch = some k → ∃ (a0 : Addr) (c0 : Cell V), h[a0]? = some c0 ∧ c0.ch = some k ∧ c0.label = c.label) : LabTo h n (h ++ [c]) n where
  lab := fun hl => hl.alloc hch
  only := fun k lb hk hl b d hd hdk => by
    rw [List.getElem?_append] at hd
    split at hd
    · exact hl b d hd hdk
    · have := List.mem_singleton.1 (List.mem_of_getElem? hd)
      subst this
      obtain ⟨a0, c0, h1, h2, h3⟩ := hch k hdk
      rw [← h3]; exact hl a0 c0 h1 h2

theorem LabTo.mono {h : Heap V} {n n' : Nat} (hn : n ≤ n') : LabTo h n h n' := ⟨fun hl => hl.mono hn, fun _ _ _ h => h⟩

theorem LabTo.setCh {h : Heap V} {n m : Nat} {a : Addr} {c : Cell V} (hc : h[a]? = some c) (k : Option ChanId)
    (hk0 : ∀ k', k = some k' → n ≤ k' ∧ k' < n + m) : LabTo h n (h.set a (c.setCh k)) (n + m) where
  lab := fun hl => hl.setCh hc k hk0
  only := fun j lb hj hl b d hd hdk => by
    rw [List.getElem?_set] at hd
    split at hd
    · split at hd
      · cases hd
        have : (c.setCh k).ch = k := by cases c <;> rfl
        exact absurd hj (Nat.not_lt.2 (hk0 j (this ▸ hdk)).1)
      · cases hd
    · exact hl b d hd hdk

/-- What any part of a call does to the store. -/
structure Step (s s' : St V) : Prop where
  len : s.heap.length ≤ s'.heap.length
  maxId : s.txn.maxNodeId ≤ s'.txn.maxNodeId
  chans : ∃ m, s'.chans = s.chans ++ List.replicate m false
  track : s'.txn.trackMutate = s.txn.trackMutate
  old : s'.txn.oldMaxNodeId = s.txn.oldMaxNodeId
  root : s'.txn.root = s.txn.root
  sizes : s'.txn.size = s.txn.size ∧ s'.txn.treeSize = s.txn.treeSize
  leafKey : ∀ (a : Addr) (l : LeafC V), s.heap[a]? = some (.leaf l) → ∃ l' : LeafC V, s'.heap[a]? = some (.leaf l') ∧ l'.key = l.key
  quiet : s.txn.trackMutate = false → s'.txn.trackChnSlice = s.txn.trackChnSlice ∧
    ∀ (a : Addr) (c : Cell V) k, s.heap[a]? = some c → c.ch = some k → ∃ c' : Cell V, s'.heap[a]? = some c' ∧ c'.ch = some k
  chs : ∀ P : ChanId → Prop, (∀ k, s.chans.length ≤ k → k < s'.chans.length → P k) → ChAll P s → ChAll P s'
  lab : LabTo s.heap s.chans.length s'.heap s'.chans.length

theorem chans_le {cs cs' : List Bool} (h : ∃ m, cs' = cs ++ List.replicate m false) : cs.length ≤ cs'.length := by
  obtain ⟨m, rfl⟩ := h; simp

theorem Step.refl (s : St V) : Step s s where
  len := Nat.le_refl _
  maxId := Nat.le_refl _
  chans := ⟨0, by simp⟩
  track := rfl
  old := rfl
  root := rfl
  sizes := ⟨rfl, rfl⟩
  leafKey := fun _ l h => ⟨l, h, rfl⟩
  quiet := fun _ => ⟨rfl, fun _ c _ h hk => ⟨c, h, hk⟩⟩
  chs := fun _ _ h => h
  lab := .refl

theorem Step.trans {s s' s'' : St V} (h1 : Step s s') (h2 : Step s' s'') : Step s s'' where
  len := Nat.le_trans h1.len h2.len
  maxId := Nat.le_trans h1.maxId h2.maxId
  chans := by
    obtain ⟨m, hm⟩ := h1.chans
    obtain ⟨m', hm'⟩ := h2.chans
    exact ⟨m + m', by rw [hm', hm, List.append_assoc, List.replicate_append_replicate]⟩
  track := h2.track.trans h1.track
  old := h2.old.trans h1.old
  root := h2.root.trans h1.root
  sizes := ⟨h2.sizes.1.trans h1.sizes.1, h2.sizes.2.trans h1.sizes.2⟩
  leafKey := fun a l h => by
    obtain ⟨l', h', hk⟩ := h1.leafKey a l h
    obtain ⟨l'', h'', hk'⟩ := h2.leafKey a l' h'
    exact ⟨l'', h'', hk'.trans hk⟩
  quiet := fun ht => by
    obtain ⟨q1, q2⟩ := h1.quiet ht
    obtain ⟨q3, q4⟩ := h2.quiet (h1.track.trans ht)
    refine ⟨q3.trans q1, fun a c k hc hk => ?_⟩
    obtain ⟨c', hc', hk'⟩ := q2 a c k hc hk
    exact q4 a c' k hc' hk'
  chs := fun P hP h => h2.chs P (fun k hk hk' => hP k (Nat.le_trans (chans_le h1.chans) hk) hk')
    (h1.chs P (fun k hk hk' => hP k hk (Nat.lt_of_lt_of_le hk' (chans_le h2.chans))) h)
  lab := h1.lab.trans (chans_le h1.chans) h2.lab

theorem Cx.Good.mono {C : Cx V} {s s' : St V} (h : Step s s') {a : Addr} (g : C.Good s a) : C.Good s' a :=
  ⟨g.1, Nat.lt_of_lt_of_le g.2 h.len⟩
theorem Cx.OwnG.mono {C : Cx V} {s s' : St V} (h : Step s s') {a : Addr} (g : C.OwnG s a) : C.OwnG s' a :=
  ⟨g.1.mono h, g.2⟩
theorem Cx.CellOK.mono {C : Cx V} {s s' : St V} (h : Step s s') {c : Cell V} (g : C.CellOK s c) : C.CellOK s' c :=
  ⟨fun b hb => (g.pts b hb).mono h, fun hB => Nat.le_trans (g.id_le hB) h.maxId, g.leafP⟩

/-! ### Triples -/

/-- Running `m` from `s` keeps the invariant; if it returns, the result satisfies `Q`; all heaps it leaves behind on the
way are framed. -/
def Tr (C : Cx V) {α : Type} (m : M V α) (Q : α → St V → Prop) (s : St V) : Prop :=
  J C (m s).2 ∧ Step s (m s).2 ∧ (∀ a, (m s).1 = .ok a → Q a (m s).2) ∧ ∀ e ∈ m.seen s, C.Wr e

variable {C : Cx V} {s : St V} {α β : Type}

theorem M.ext {m m' : M V α} (h : m.run = m'.run) (h' : m.seen = m'.seen) (h'' : m.code = m'.code) : m = m' := by
  cases m; cases m'; cases h; cases h'; cases h''; rfl

theorem M.assoc {α β γ : Type} (x : M V α) (F : α → M V β) (G : β → M V γ) : (x >>= F) >>= G = x >>= fun a => F a >>= G := by
  show M.bnd (M.bnd x F) G = M.bnd x fun a => M.bnd (F a) G
  unfold M.bnd
  refine M.ext ?_ ?_ (Code.bind_assoc ..) <;> funext s <;> dsimp only
  · cases hx : x s with
    | mk r s1 => cases r <;> rfl
  · cases hx : x s with
    | mk r s1 =>
      cases r with
      | error e => rfl
      | ok a =>
        dsimp only
        cases hf : F a s1 with
        | mk r s2 => cases r <;> simp

theorem M.pure_then {α β : Type} (x : α) (F : α → M V β) : (pure x : M V α) >>= F = F x := rfl

/-- Sequencing, as two equations. -/
theorem bind_ok {m : M V α} {f : α → M V β} {a : α} {s' : St V} (h : m s = (.ok a, s')) :
    (m >>= f) s = f a s' ∧ (m >>= f).seen s = m.seen s ++ (f a).seen s' := by
  show (M.bnd m f) s = _ ∧ (M.bnd m f).seen s = _
  unfold M.bnd
  simp only [h]
  exact ⟨trivial, trivial⟩
theorem bind_error {m : M V α} {f : α → M V β} {e : Err} {s' : St V} (h : m s = (.error e, s')) :
    (m >>= f) s = (.error e, s') ∧ (m >>= f).seen s = m.seen s := by
  show (M.bnd m f) s = _ ∧ (M.bnd m f).seen s = _
  unfold M.bnd
  simp only [h]
  exact ⟨trivial, trivial⟩

theorem Tr.bind {m : M V α} {f : α → M V β} {Q : α → St V → Prop} {Q' : β → St V → Prop}
    (h : Tr C m Q s) (hf : ∀ a s', J C s' → Step s s' → Q a s' → Tr C (f a) Q' s') : Tr C (m >>= f) Q' s := by
  unfold Tr
  obtain ⟨hj, hs, hq, hv⟩ := h
  match hm : m s with
  | (.ok a, s') =>
    rw [hm] at hj hs hq
    obtain ⟨h1, h2, h3, h4⟩ := hf a s' hj hs (hq a rfl)
    rw [(bind_ok hm).1, (bind_ok hm).2]
    exact ⟨h1, hs.trans h2, h3, fun h hh => (List.mem_append.1 hh).elim (hv h) (h4 h)⟩
  | (.error e, s') =>
    rw [hm] at hj hs
    rw [(bind_error hm).1, (bind_error hm).2]
    exact ⟨hj, hs, fun a ha => (nomatch ha), hv⟩

/-- A step that only reads. -/
theorem Tr.bindRead {m : M V α} {f : α → M V β} {Q : β → St V → Prop} {r : R α} (hm : m s = (r, s)) (hn : m.seen s = []) (hj : J C s)
    (h : ∀ a, r = .ok a → Tr C (f a) Q s) : Tr C (m >>= f) Q s := by
  unfold Tr
  cases r with
  | ok a => rw [(bind_ok hm).1, (bind_ok hm).2, hn]; exact h a rfl
  | error e =>
    rw [(bind_error hm).1, (bind_error hm).2, hn]
    exact ⟨hj, Step.refl s, fun a ha => (nomatch ha), C.unseen⟩

theorem Tr.pure {a : α} {Q : α → St V → Prop} (hj : J C s) (hq : Q a s) : Tr C (Pure.pure a : M V α) Q s :=
  ⟨hj, Step.refl s, fun b hb => by cases hb; exact hq, C.unseen⟩

theorem Tr.conseq {m : M V α} {Q Q' : α → St V → Prop} (h : Tr C m Q s)
    (hq : ∀ a s', J C s' → Step s s' → Q a s' → Q' a s') : Tr C m Q' s :=
  ⟨h.1, h.2.1, fun a ha => hq a _ h.1 h.2.1 (h.2.2.1 a ha), h.2.2.2⟩

theorem Tr.throw {e : Err} {Q : α → St V → Prop} (hj : J C s) : Tr C (M.throw e : M V α) Q s :=
  ⟨hj, Step.refl s, fun b hb => (nomatch hb), C.unseen⟩

theorem Tr.lift {r : R α} {Q : α → St V → Prop} (hj : J C s) (hq : ∀ a, r = .ok a → Q a s) :
    Tr C (M.lift r : M V α) Q s := by
  unfold Tr M.lift
  cases r with
  | ok a => exact ⟨hj, Step.refl s, fun b hb => by cases hb; exact hq a rfl, C.unseen⟩
  | error e => exact ⟨hj, Step.refl s, fun b hb => (nomatch hb), C.unseen⟩

theorem Tr.assert {p : Prop} [Decidable p] {e : Err} (hj : J C s) :
    Tr C (M.assert p e : M V Unit) (fun _ _ => p) s := by
  unfold Tr M.assert
  dsimp only
  split
  · rename_i hp; exact ⟨hj, Step.refl s, fun _ _ => hp, C.unseen⟩
  · exact ⟨hj, Step.refl s, fun b hb => (nomatch hb), C.unseen⟩

theorem Tr.get (hj : J C s) : Tr C (M.get : M V (St V)) (fun s' s'' => s' = s'' ∧ s'' = s) s :=
  ⟨hj, Step.refl s, fun b hb => by cases hb; exact ⟨rfl, rfl⟩, C.unseen⟩

theorem Tr.txnSt (hj : J C s) : Tr C (txnSt : M V TxnSt) (fun t s' => t = s'.txn) s :=
  ⟨hj, Step.refl s, fun b hb => by cases hb; rfl, C.unseen⟩

theorem J.cellOK (hj : J C s) {a : Addr} (g : C.Good s a) {c : Cell V} (h : s.heap[a]? = some c) : C.CellOK s c :=
  (hj.cells a c h g.1).1

/-- Reading a node. -/
theorem Tr.cell (hj : J C s) {a : Addr} (g : C.Good s a) :
    Tr C (cell a : M V (Cell V)) (fun c s' => C.CellOK s' c ∧ s'.heap[a]? = some c) s := by
  refine ⟨hj, Step.refl s, fun b hb => ?_, C.unseen⟩
  show C.CellOK s b ∧ s.heap[a]? = some b
  have hb' : rd s.heap a = .ok b := hb
  unfold rd at hb'
  split at hb'
  · rename_i c hc
    cases hb'
    exact ⟨hj.cellOK g hc, hc⟩
  · cases hb'

/-- Reading an inner node. -/
theorem Tr.cell' (hj : J C s) {a : Addr} (g : C.Good s a) :
    Tr C (Art.cell a : M V (Cell V)) (fun c s' => (C.CellOK s' c ∧ s'.heap[a]? = some c) ∧ s' = s) s := by
  refine ⟨(Tr.cell hj g).1, (Tr.cell hj g).2.1, fun c hc => ⟨(Tr.cell hj g).2.2.1 c hc, ?_⟩, (Tr.cell hj g).2.2.2⟩
  unfold Art.cell
  cases rd s.heap a <;> rfl

theorem Tr.innerAt (hj : J C s) {a : Addr} (g : C.Good s a) :
    Tr C (innerAt a : M V Inner) (fun n s' => C.CellOK s' (.inner n) ∧ s'.heap[a]? = some (.inner n)) s := by
  refine ⟨hj, Step.refl s, fun b hb => ?_, C.unseen⟩
  show C.CellOK s (.inner b) ∧ s.heap[a]? = some (.inner b)
  have hb' : rdInner s.heap a = .ok b := hb
  unfold rdInner at hb'
  split at hb'
  · rename_i n hn
    cases hb'
    exact ⟨hj.cellOK g hn, hn⟩
  · cases hb'

/-- Reading a leaf (any leaf). -/
theorem Tr.leafAt (hj : J C s) {a : Addr} :
    Tr C (leafAt a : M V (LeafC V)) (fun l s' => s'.heap[a]? = some (.leaf l)) s := by
  refine ⟨hj, Step.refl s, fun b hb => ?_, C.unseen⟩
  show s.heap[a]? = some (.leaf b)
  have hb' : rdLeaf s.heap a = .ok b := hb
  unfold rdLeaf at hb'
  split at hb'
  · rename_i l hl
    cases hb'
    exact hl
  · cases hb'

theorem Cell.setCh_setCh (c : Cell V) (k k' : Option ChanId) : (c.setCh k).setCh k' = c.setCh k' := by
  cases c <;> rfl

theorem Cell.pts_setCh (c : Cell V) (k : Option ChanId) (b : Addr) : (c.setCh k).Pts b ↔ c.Pts b := by
  cases c <;> exact Iff.rfl

theorem Cell.id_setCh (c : Cell V) (k : Option ChanId) : (c.setCh k).id = c.id := by cases c <;> rfl

/-- A store that differs in one owned node. -/
theorem J.wr (hj : J C s) {a : Addr} (g : C.OwnG s a) {c : Cell V} (hc : C.CellOK s c) :
    J C { s with heap := s.heap.set a c } where
  len := by simpa using hj.len
  cells := fun b d hb hacc => by
    have hok : ∀ e, C.CellOK s e → C.CellOK { s with heap := s.heap.set a c } e := fun e he =>
      ⟨fun x hx => ⟨(he.pts x hx).1, by simpa using (he.pts x hx).2⟩, he.id_le, he.leafP⟩
    by_cases hab : a = b
    · subst hab
      simp only [List.getElem?_set, if_true] at hb
      rw [if_pos g.1.2] at hb
      cases hb
      exact ⟨hok _ hc, fun _ => g.2⟩
    · simp only [List.getElem?_set, if_neg hab] at hb
      obtain ⟨h1, h2⟩ := hj.cells b d hb hacc
      exact ⟨hok _ h1, h2⟩
  frame := fun b hb hno => by
    have hab : a ≠ b := fun h => hno (h ▸ g.2)
    simp only [List.getElem?_set, if_neg hab]
    exact hj.frame b hb hno
  om := hj.om

/-- A store that differs in the channel of one node. -/
theorem J.setCh (hj : J C s) {a : Addr} {c : Cell V} (hc : s.heap[a]? = some c) (k : Option ChanId) :
    J C { s with heap := s.heap.set a (c.setCh k) } where
  len := by simpa using hj.len
  cells := fun b d hb hacc => by
    have hok : ∀ e, C.CellOK s e → C.CellOK { s with heap := s.heap.set a (c.setCh k) } e := fun e he =>
      ⟨fun x hx => ⟨(he.pts x hx).1, by simpa using (he.pts x hx).2⟩, he.id_le, he.leafP⟩
    by_cases hab : a = b
    · subst hab
      have hlt : a < s.heap.length := (List.getElem?_eq_some_iff.1 hc).1
      simp only [List.getElem?_set, if_true, hlt] at hb
      cases hb
      obtain ⟨h1, h2⟩ := hj.cells a c hc hacc
      refine ⟨⟨fun x hx => ?_, ?_, fun l hl => ?_⟩, ?_⟩
      · rw [Cell.pts_setCh] at hx; exact (hok _ h1).pts x hx
      · intro hB; rw [Cell.id_setCh]; exact h1.id_le hB
      · cases c with
        | leaf l0 => cases hl; exact h1.leafP l0 rfl
        | inner n => cases hl
      · rw [Cell.id_setCh]; exact h2
    · simp only [List.getElem?_set, if_neg hab] at hb
      obtain ⟨h1, h2⟩ := hj.cells b d hb hacc
      exact ⟨hok _ h1, h2⟩
  frame := fun b hb hno => by
    rw [← hj.frame b hb hno]
    by_cases hab : a = b
    · subst hab
      have hlt : a < s.heap.length := (List.getElem?_eq_some_iff.1 hc).1
      simp only [List.getElem?_set, if_true, hlt, hc, Option.map_some, Cell.setCh_setCh]
    · simp only [List.getElem?_set, if_neg hab]
  om := hj.om

/-- A store with one more node. -/
theorem J.alloc (hj : J C s) {c : Cell V} (hc : C.CellOK s c) : J C { s with heap := s.heap ++ [c] } where
  len := by simpa using Nat.le_succ_of_le hj.len
  cells := fun b d hb hacc => by
    have hok : ∀ e, C.CellOK s e → C.CellOK { s with heap := s.heap ++ [c] } e := fun e he =>
      ⟨fun x hx => ⟨(he.pts x hx).1, by simpa using Nat.lt_succ_of_lt (he.pts x hx).2⟩, he.id_le, he.leafP⟩
    by_cases hlt : b < s.heap.length
    · rw [List.getElem?_append_left hlt] at hb
      obtain ⟨h1, h2⟩ := hj.cells b d hb hacc
      exact ⟨hok _ h1, h2⟩
    · rw [List.getElem?_append_right (by omega)] at hb
      have : b - s.heap.length = 0 := by
        rcases Nat.eq_zero_or_pos (b - s.heap.length) with h | h
        · exact h
        · rw [List.getElem?_eq_none (by simp; omega)] at hb; cases hb
      rw [this] at hb
      cases hb
      exact ⟨hok _ hc, fun _ => .inr (by have := hj.len; omega)⟩
  frame := fun b hb hno => by
    rw [List.getElem?_append_left (Nat.lt_of_lt_of_le hb hj.len)]
    exact hj.frame b hb hno
  om := hj.om

theorem J.chans (hj : J C s) (cs : List Bool) : J C { s with chans := cs } :=
  ⟨hj.len, fun a c ha hacc => ⟨⟨(hj.cells a c ha hacc).1.pts, (hj.cells a c ha hacc).1.id_le,
    (hj.cells a c ha hacc).1.leafP⟩, (hj.cells a c ha hacc).2⟩, hj.frame, hj.om⟩

theorem J.modTxn (hj : J C s) {t : TxnSt} (h1 : s.txn.maxNodeId ≤ t.maxNodeId) (h2 : t.oldMaxNodeId = s.txn.oldMaxNodeId) :
    J C { s with txn := t } :=
  ⟨hj.len, fun a c ha hacc => ⟨⟨fun b hb => ((hj.cells a c ha hacc).1.pts b hb),
    fun hB => Nat.le_trans ((hj.cells a c ha hacc).1.id_le hB) h1, (hj.cells a c ha hacc).1.leafP⟩, (hj.cells a c ha hacc).2⟩,
    hj.frame, h2.trans hj.om⟩

/-- A write that keeps the channel (or starts from no channel), and keeps leaves leaves with their key. -/
theorem Tr.wr (hj : J C s) {a : Addr} (g : C.OwnG s a) {c c0 : Cell V} (hc : C.CellOK s c)
    (h0 : s.heap[a]? = some c0) (hch : c.ch = c0.ch) (hk : c.label = c0.label) :
    Tr C (Art.wr a c : M V Unit) (fun _ s' => s'.heap[a]? = some c ∧ s'.txn = s.txn) s := by
  have hlt : a < s.heap.length := (List.getElem?_eq_some_iff.1 h0).1
  refine ⟨hj.wr g hc, ?_, fun _ _ => ⟨?_, rfl⟩, fun h hh => by rw [List.mem_singleton.1 hh]; exact ⟨fun _ => g.2, (hj.wr g hc).fr⟩⟩
  · exact {
      len := by simp [Art.wr]
      maxId := Nat.le_refl _
      chans := ⟨0, by simp [Art.wr]⟩
      track := rfl
      old := rfl
      root := rfl
      sizes := ⟨rfl, rfl⟩
      leafKey := fun b l hb => by
        show ∃ l', (s.heap.set a c)[b]? = some (.leaf l') ∧ _
        by_cases hab : a = b
        · subst hab
          rw [h0] at hb; cases hb
          obtain ⟨l', hl', hk'⟩ : ∃ l', c = .leaf l' ∧ l'.key = l.key := by
            cases c with
            | leaf l' => exact ⟨l', rfl, Option.some.inj hk⟩
            | inner n => cases hk
          exact ⟨l', by simp [List.getElem?_set, hlt, hl'], hk'⟩
        · exact ⟨l, by simp [List.getElem?_set, hab, hb], rfl⟩
      quiet := fun _ => ⟨rfl, fun b d k hb hk' => by
        show ∃ c', (s.heap.set a c)[b]? = some c' ∧ _
        by_cases hab : a = b
        · subst hab
          rw [h0] at hb; cases hb
          exact ⟨c, by simp [List.getElem?_set, hlt], by rw [hch]; exact hk'⟩
        · exact ⟨d, by simp [List.getElem?_set, hab, hb], hk'⟩⟩
      chs := fun P _ h => ⟨fun b d k hb hk' => by
        have hb : (s.heap.set a c)[b]? = some d := hb
        by_cases hab : a = b
        · subst hab
          simp [List.getElem?_set, hlt] at hb
          subst hb
          exact h.1 a c0 k h0 (by rw [← hch]; exact hk')
        · simp [List.getElem?_set, hab] at hb
          exact h.1 b d k (by simp [hb]) hk', h.2⟩
      lab := .set h0 hch hk }
  · show (s.heap.set a c)[a]? = some c
    simp [List.getElem?_set, hlt]

/-- Allocation. -/
theorem Tr.newCell (hj : J C s) {c : Cell V} (hc : C.CellOK s c)
    (hch : ∀ k, c.ch = some k → ∃ (a0 : Addr) (c0 : Cell V), s.heap[a0]? = some c0 ∧ c0.ch = some k ∧ c0.label = c.label) :
    Tr C (Art.newCell c : M V Addr) (fun a s' => C.OwnG s' a ∧ s'.heap[a]? = some c) s := by
  refine ⟨hj.alloc hc, ?_, fun a ha => ?_, fun h hh => by rw [List.mem_singleton.1 hh]; exact ⟨fun _ => .inr hj.len, (hj.alloc hc).fr⟩⟩
  · exact {
      len := by simp [Art.newCell]
      maxId := Nat.le_refl _
      chans := ⟨0, by simp [Art.newCell]⟩
      track := rfl
      old := rfl
      root := rfl
      sizes := ⟨rfl, rfl⟩
      leafKey := fun b l hb => ⟨l, by
        show (s.heap ++ [c])[b]? = _
        rw [List.getElem?_append_left (List.getElem?_eq_some_iff.1 hb).1]; exact hb, rfl⟩
      quiet := fun _ => ⟨rfl, fun b d k hb hk' => ⟨d, by
        show (s.heap ++ [c])[b]? = _
        rw [List.getElem?_append_left (List.getElem?_eq_some_iff.1 hb).1]; exact hb, hk'⟩⟩
      chs := fun P _ h => ⟨fun b d k hb hk' => by
        have hb : (s.heap ++ [c])[b]? = some d := hb
        rw [List.getElem?_append] at hb
        split at hb
        · exact h.1 b d k hb hk'
        · have hd : c = d := by
            have := List.mem_of_getElem? hb
            exact (List.mem_singleton.1 this).symm
          subst hd
          obtain ⟨a0, c0, h1, h2, _⟩ := hch k hk'
          exact h.1 a0 c0 k h1 h2, h.2⟩
      lab := .alloc hch }
  · have : a = s.heap.length := by cases ha; rfl
    subst this
    refine ⟨⟨⟨.inr hj.len, ?_⟩, .inr hj.len⟩, ?_⟩
    · show s.heap.length < (s.heap ++ [c]).length; simp
    · show (s.heap ++ [c])[s.heap.length]? = _; simp

theorem Tr.newChan (hj : J C s) : Tr C (Art.newChan : M V ChanId) (fun _ s' => s'.heap = s.heap ∧ s'.txn = s.txn) s := by
  refine ⟨hj.chans _, ?_, fun _ _ => ⟨rfl, rfl⟩, C.unseen⟩
  exact {
    len := Nat.le_refl _
    maxId := Nat.le_refl _
    chans := ⟨1, rfl⟩
    track := rfl
    old := rfl
    root := rfl
    sizes := ⟨rfl, rfl⟩
    leafKey := fun _ l h => ⟨l, h, rfl⟩
    quiet := fun _ => ⟨rfl, fun _ c _ h hk => ⟨c, h, hk⟩⟩
    chs := fun _ _ h => h
    lab := .mono (by simp [Art.newChan]) }

/-! ### Channels and copying -/

theorem bind_run (m : M V α) (f : α → M V β) (s : St V) : (m >>= f) s =
    match m s with
    | (.ok a, s') => f a s'
    | (.error e, s') => (.error e, s') := rfl

theorem getMutateCh_run (a : Addr) (s : St V) : Art.getMutateCh a s =
    match s.heap[a]? with
    | none => (.error .nilDeref, s)
    | some c =>
      match c.ch with
      | some k => (.ok k, s)
      | none => (.ok s.chans.length, { s with
          heap := s.heap.set a (c.setCh (some s.chans.length)), chans := s.chans ++ [false] }) := by
  unfold Art.getMutateCh
  rw [bind_run]
  unfold Art.cell rd
  dsimp only
  cases hc : s.heap[a]? with
  | none => rfl
  | some c =>
    simp only
    cases hn : c.ch with
    | some k => rfl
    | none =>
      rw [bind_run]
      exact claimCh_run (s := { s with chans := s.chans ++ [false] }) hc hn _

theorem getMutateCh_seen (a : Addr) (s : St V) : ∀ e ∈ (Art.getMutateCh a : M V ChanId).seen s, e.chan = true ∧ e.heap = (Art.getMutateCh a s).2.heap := by
  rw [getMutateCh_run]
  cases hc : s.heap[a]? with
  | none =>
    have : Art.cell a s = (.error .nilDeref, s) := by unfold Art.cell rd; dsimp only; rw [hc]
    unfold Art.getMutateCh
    rw [(bind_error this).2]
    exact fun h hh => nomatch hh
  | some c =>
    have : Art.cell a s = (.ok c, s) := by unfold Art.cell rd; dsimp only; rw [hc]
    unfold Art.getMutateCh
    rw [(bind_ok this).2]
    simp only
    cases hn : c.ch with
    | some k => exact fun h hh => nomatch hh
    | none =>
      intro h hh
      have hh : h ∈ (claimCh a s.chans.length : M V ChanId).seen { s with chans := s.chans ++ [false] } := hh
      rw [claimCh_seen (s := { s with chans := s.chans ++ [false] }) hc hn] at hh
      rw [List.mem_singleton.1 hh]
      exact ⟨rfl, rfl⟩

theorem Step.setCh {a : Addr} {c : Cell V} (hc : s.heap[a]? = some c) (k : Option ChanId) (m : Nat)
    (hq : s.txn.trackMutate = false → c.ch = none) (hk0 : ∀ k', k = some k' → s.chans.length ≤ k' ∧ k' < s.chans.length + m) :
    Step s { s with heap := s.heap.set a (c.setCh k), chans := s.chans ++ List.replicate m false } where
  len := by simp
  maxId := Nat.le_refl _
  chans := ⟨m, rfl⟩
  track := rfl
  old := rfl
  root := rfl
  sizes := ⟨rfl, rfl⟩
  leafKey := fun b l hb => by
    have hlt : a < s.heap.length := (List.getElem?_eq_some_iff.1 hc).1
    by_cases hab : a = b
    · subst hab
      rw [hc] at hb; cases hb
      exact ⟨{ l with ch := k }, by simp [List.getElem?_set, hlt, Cell.setCh], rfl⟩
    · exact ⟨l, by simp [List.getElem?_set, hab, hb], rfl⟩
  quiet := fun ht => ⟨rfl, fun b d k hb hk' => by
    by_cases hab : a = b
    · subst hab
      rw [hc] at hb; cases hb
      rw [hq ht] at hk'; cases hk'
    · exact ⟨d, by simp [List.getElem?_set, hab, hb], hk'⟩⟩
  chs := fun P hP h => ⟨fun b d k' hb hk' => by
    have hlt : a < s.heap.length := (List.getElem?_eq_some_iff.1 hc).1
    by_cases hab : a = b
    · subst hab
      simp [List.getElem?_set, hlt] at hb
      subst hb
      have : (c.setCh k).ch = k := by cases c <;> rfl
      obtain ⟨h1, h2⟩ := hk0 k' (this ▸ hk')
      exact hP k' h1 (by simpa using h2)
    · simp [List.getElem?_set, hab] at hb
      exact h.1 b d k' (by simp [hb]) hk', h.2⟩
  lab := by simpa using LabTo.setCh (m := m) hc k hk0

theorem Tr.getMutateCh (hj : J C s) (a : Addr) : Tr C (Art.getMutateCh a : M V ChanId)
    (fun k s' => ∃ c : Cell V, s'.heap[a]? = some c ∧ c.ch = some k) s := by
  suffices hx : J C (Art.getMutateCh a s).2 ∧ Step s (Art.getMutateCh a s).2 ∧ ∀ k, (Art.getMutateCh a s).1 = .ok k →
      ∃ c : Cell V, (Art.getMutateCh a s).2.heap[a]? = some c ∧ c.ch = some k from
    ⟨hx.1, hx.2.1, hx.2.2, fun e he => ⟨fun h => absurd (getMutateCh_seen a s e he).1 (by rw [h]; nofun), by rw [(getMutateCh_seen a s e he).2]; exact hx.1.fr⟩⟩
  rw [getMutateCh_run]
  cases hc : s.heap[a]? with
  | none => exact ⟨hj, Step.refl s, fun _ h => nomatch h⟩
  | some c =>
    simp only
    cases hch : c.ch with
    | some k => exact ⟨hj, Step.refl s, fun k' h => by cases h; exact ⟨c, hc, hch⟩⟩
    | none =>
      have hlt : a < s.heap.length := (List.getElem?_eq_some_iff.1 hc).1
      exact ⟨(J.setCh hj hc _).chans _, Step.setCh hc _ 1 (fun _ => hch) (fun k' h => by cases h; exact ⟨Nat.le_refl _, Nat.lt_succ_self _⟩), fun k' h => by
        cases h
        exact ⟨c.setCh (some s.chans.length), by simp [List.getElem?_set, hlt], by cases c <;> rfl⟩⟩

/-- The channel found in a node that is being tracked, the new one it gets, and the number of channels made. -/
def trackedCh (s : St V) (c : Cell V) : ChanId × ChanId × Nat :=
  match c.ch with
  | some k => (k, s.chans.length, 1)
  | none => (s.chans.length, s.chans.length + 1, 2)

theorem trackChannel_run (a : Option Addr) (s : St V) : Art.trackChannel a s =
    if s.txn.trackMutate then
      match a with
      | none => (.ok (), s)
      | some a =>
        match s.heap[a]? with
        | none => (.error .nilDeref, s)
        | some c => (.ok (), {
            heap := s.heap.set a (c.setCh (some (trackedCh s c).2.1)),
            chans := s.chans ++ List.replicate (trackedCh s c).2.2 false,
            txn := { s.txn with trackChnSlice := s.txn.trackChnSlice ++ [(trackedCh s c).1] } })
    else (.ok (), s) := by
  unfold Art.trackChannel
  rw [bind_run]
  simp only [Art.txnSt]
  cases ht : s.txn.trackMutate with
  | false => rfl
  | true =>
    simp only [Bool.not_true, if_true]
    cases a with
    | none => rfl
    | some a =>
      simp only [bind_run, getMutateCh_run, Bool.false_eq_true, if_false]
      cases hc : s.heap[a]? with
      | none => rfl
      | some c =>
        have hlt : a < s.heap.length := (List.getElem?_eq_some_iff.1 hc).1
        simp only
        cases hch : c.ch with
        | some k =>
          simp only [Art.modTxn, Art.newChan, hc, trackedCh, hch, setChan, Art.wrCh]
          simp [List.replicate, ht]
        | none =>
          simp only [Art.modTxn, Art.newChan, hc, trackedCh, hch, setChan, Art.wrCh, List.getElem?_set, hlt,
            if_true, Cell.setCh_setCh, List.set_set]
          simp [List.replicate, ht]

theorem trackChannel_seen (hj : J C s) (a : Option Addr) : ∀ e ∈ (Art.trackChannel a : M V Unit).seen s, C.Wr e := by
  unfold Art.trackChannel
  rw [(bind_ok (s := s) (m := Art.txnSt) rfl).2]
  cases ht : s.txn.trackMutate with
  | false => exact fun h hh => nomatch hh
  | true =>
    cases a with
    | none => exact fun h hh => nomatch hh
    | some a =>
      show ∀ e ∈ (Art.getMutateCh a >>= _).seen s, C.Wr e
      have hg := Tr.getMutateCh hj a
      unfold Tr at hg
      match hm : Art.getMutateCh a s with
      | (.error e, s') => rw [(bind_error hm).2]; exact hg.2.2.2
      | (.ok k, s') =>
        rw [(bind_ok hm).2]
        rw [hm] at hg
        obtain ⟨h1, h2, h3, h4⟩ := hg
        obtain ⟨c, hc, -⟩ := h3 k rfl
        intro h hh
        rcases List.mem_append.1 hh with hh | hh
        · exact h4 h hh
        · rw [(bind_ok (s := s') (m := Art.modTxn _) rfl).2, (bind_ok (m := Art.newChan) rfl).2] at hh
          rw [List.mem_singleton.1 hh]
          refine ⟨nofun, ?_⟩
          show C.Fr (setChan s'.heap a s'.chans.length)
          rw [setChan_some hc]
          exact (h1.setCh hc _).fr

theorem Tr.trackChannel (hj : J C s) (a : Option Addr) : Tr C (Art.trackChannel a : M V Unit)
    (fun _ s' => s'.txn.maxNodeId = s.txn.maxNodeId) s := by
  suffices hx : J C (Art.trackChannel a s).2 ∧ Step s (Art.trackChannel a s).2 ∧ ∀ u, (Art.trackChannel a s).1 = .ok u →
      (Art.trackChannel a s).2.txn.maxNodeId = s.txn.maxNodeId from ⟨hx.1, hx.2.1, hx.2.2, trackChannel_seen hj a⟩
  rw [trackChannel_run]
  cases ht : s.txn.trackMutate with
  | false => exact ⟨hj, Step.refl s, fun _ _ => rfl⟩
  | true =>
    simp only [if_true]
    cases a with
    | none => exact ⟨hj, Step.refl s, fun _ _ => rfl⟩
    | some a =>
      simp only
      cases hc : s.heap[a]? with
      | none => exact ⟨hj, Step.refl s, fun _ _ => by trivial⟩
      | some c =>
        simp only
        refine ⟨((J.setCh hj hc _).chans _).modTxn (Nat.le_refl _) rfl, ?_, fun _ _ => by trivial⟩
        have h := Step.setCh hc (some (trackedCh s c).2.1) (trackedCh s c).2.2 (fun h => by rw [ht] at h; cases h) (fun k' h => by
          cases h
          unfold trackedCh
          cases c.ch <;> simp)
        refine ⟨h.len, h.maxId, h.chans, h.track, h.old, h.root, h.sizes, h.leafKey, fun h => (by rw [ht] at h; cases h), fun P hP hA => ⟨(h.chs P hP hA).1, fun k hk => ?_⟩, h.lab⟩
        rcases List.mem_append.1 hk with hk | hk
        · exact hA.2 k hk
        · rw [List.mem_singleton.1 hk]
          unfold trackedCh
          cases hch : c.ch with
          | some k0 => exact hA.1 a c k0 hc hch
          | none =>
            refine hP _ (Nat.le_refl _) ?_
            simp [trackedCh, hch]

theorem Tr.keepCh (hj : J C s) (a : Addr) (b : Bool) : Tr C (Art.keepCh a b : M V (Option ChanId))
    (fun k s' => ∀ k', k = some k' → ∃ c : Cell V, s'.heap[a]? = some c ∧ c.ch = some k') s := by
  unfold Art.keepCh
  split
  · refine Tr.bind (Tr.getMutateCh hj a) fun k s1 hj1 h1 ht => Tr.pure hj1 fun k' hk' => ?_
    cases hk'; exact ht
  · exact Tr.pure hj fun k' hk' => by cases hk'

/-- If `a` is a leaf before, then `a'` is a leaf with the same key after. -/
def LeafTo (s : St V) (a : Addr) (s' : St V) (a' : Addr) : Prop :=
  ∀ l : LeafC V, s.heap[a]? = some (.leaf l) → ∃ l' : LeafC V, s'.heap[a']? = some (.leaf l') ∧ l'.key = l.key

theorem LeafTo.trans {s s' s'' : St V} {a a' a'' : Addr} (h1 : LeafTo s a s' a') (h2 : LeafTo s' a' s'' a'') :
    LeafTo s a s'' a'' := fun l hl => by
  obtain ⟨l', h, hk⟩ := h1 l hl
  obtain ⟨l'', h', hk'⟩ := h2 l' h
  exact ⟨l'', h', hk'.trans hk⟩

theorem Step.leafTo {s s' : St V} (h : Step s s') (a : Addr) : LeafTo s a s' a := h.leafKey a

theorem Tr.cloneNode (hj : J C s) {a : Addr} (g : C.Good s a) (b : Bool) : Tr C (Art.cloneNode a b : M V Addr)
    (fun a' s' => C.OwnG s' a' ∧ LeafTo s a s' a') s := by
  unfold Art.cloneNode
  refine Tr.bind (Tr.keepCh hj a b) fun k s1 hj1 h1 ht => ?_
  refine Tr.bind (Tr.cell' hj1 (g.mono h1)) fun c s2 hj2 h2 hc => ?_
  obtain ⟨hc, hs2⟩ := hc
  have hto := ((h1.trans h2).leafTo a)
  have hsrc : ∀ k', k = some k' → ∃ (a0 : Addr) (c0 : Cell V), s2.heap[a0]? = some c0 ∧ c0.ch = some k' ∧ c0.label = c.label := fun k' hk' => by
    subst hs2
    obtain ⟨c0, h1, h2⟩ := ht k' hk'
    rw [hc.2] at h1; cases h1
    exact ⟨a, c, hc.2, h2, rfl⟩
  cases c with
  | leaf l =>
    refine (Tr.newCell (c := .leaf { l with ch := k }) hj2 ?_ hsrc).conseq fun a' s' _ _ h => ⟨h.1, hto.trans fun l' hl => ?_⟩
    · exact ⟨hc.1.pts, hc.1.id_le, fun l' hl => by cases hl; exact hc.1.leafP l rfl⟩
    · rw [hc.2] at hl; cases hl; exact ⟨_, h.2, rfl⟩
  | inner n =>
    refine (Tr.newCell (c := .inner { n with part := goCopy zeroPartial 0 n.part, ch := k }) hj2 ?_ hsrc).conseq fun _ _ _ _ h => ⟨h.1, hto.trans fun l' hl => ?_⟩
    · exact ⟨hc.1.pts, hc.1.id_le, fun l' hl => by cases hl⟩
    · rw [hc.2] at hl; cases hl

theorem Cell.pts_setId (c : Cell V) (k : Nat) (b : Addr) : (c.setId k).Pts b ↔ c.Pts b := by
  cases c <;> exact Iff.rfl
theorem Cell.id_setId (c : Cell V) (k : Nat) : (c.setId k).id = k := by cases c <;> rfl
theorem Cell.ch_setId (c : Cell V) (k : Nat) : (c.setId k).ch = c.ch := by cases c <;> rfl

/-- A change of the transaction's fields that keeps tracking and `oldMaxNodeId`. -/
theorem Tr.modTxn (hj : J C s) {f : TxnSt → TxnSt} (h1 : s.txn.maxNodeId ≤ (f s.txn).maxNodeId)
    (h2 : (f s.txn).oldMaxNodeId = s.txn.oldMaxNodeId) (h3 : (f s.txn).trackMutate = s.txn.trackMutate)
    (h4 : (f s.txn).trackChnSlice = s.txn.trackChnSlice) (h5 : (f s.txn).root = s.txn.root)
    (h6 : (f s.txn).size = s.txn.size ∧ (f s.txn).treeSize = s.txn.treeSize) :
    Tr C (Art.modTxn f : M V Unit) (fun _ s' => s' = { s with txn := f s.txn }) s :=
  ⟨hj.modTxn h1 h2, ⟨Nat.le_refl _, h1, ⟨0, by simp [Art.modTxn]⟩, h3, h2, h5, h6, fun _ l h => ⟨l, h, rfl⟩,
    fun _ => ⟨h4, fun _ c _ h hk => ⟨c, h, hk⟩⟩, fun P _ h => ⟨h.1, fun k hk => h.2 k (h4 ▸ hk)⟩, .refl⟩, fun _ _ => rfl, C.unseen⟩

/-! Rules for reading steps, which leave the store alone. -/

theorem Tr.bindCell {a : Addr} {f : Cell V → M V β} {Q : β → St V → Prop} (hj : J C s) (g : C.Good s a)
    (h : ∀ c, s.heap[a]? = some c → C.CellOK s c → Tr C (f c) Q s) : Tr C (Art.cell a >>= f) Q s := by
  refine Tr.bindRead (r := rd s.heap a) rfl rfl hj fun c hr => ?_
  unfold rd at hr
  cases hc : s.heap[a]? with
  | none => rw [hc] at hr; cases hr
  | some c => rw [hc] at hr; cases hr; exact h c hc (hj.cellOK g hc)

theorem Tr.bindCell' {a : Addr} {f : Cell V → M V β} {Q : β → St V → Prop} (hj : J C s)
    (h : ∀ c, s.heap[a]? = some c → Tr C (f c) Q s) : Tr C (Art.cell a >>= f) Q s := by
  refine Tr.bindRead (r := rd s.heap a) rfl rfl hj fun c hr => ?_
  unfold rd at hr
  cases hc : s.heap[a]? with
  | none => rw [hc] at hr; cases hr
  | some c => rw [hc] at hr; cases hr; exact h c hc

theorem Tr.bindInner {a : Addr} {f : Inner → M V β} {Q : β → St V → Prop} (hj : J C s) (g : C.Good s a)
    (h : ∀ n, s.heap[a]? = some (.inner n) → C.CellOK s (.inner n) → Tr C (f n) Q s) :
    Tr C (Art.innerAt a >>= f) Q s := by
  refine Tr.bindRead (r := rdInner s.heap a) rfl rfl hj fun n hr => ?_
  unfold rdInner at hr
  cases hc : s.heap[a]? with
  | none => rw [hc] at hr; cases hr
  | some c =>
    rw [hc] at hr
    cases c with
    | leaf l => cases hr
    | inner n => cases hr; exact h n hc (hj.cellOK g hc)

theorem Tr.bindLeaf {a : Addr} {f : LeafC V → M V β} {Q : β → St V → Prop} (hj : J C s)
    (h : ∀ l, s.heap[a]? = some (.leaf l) → Tr C (f l) Q s) :
    Tr C (Art.leafAt a >>= f) Q s := by
  refine Tr.bindRead (r := rdLeaf s.heap a) rfl rfl hj fun n hr => ?_
  unfold rdLeaf at hr
  cases hc : s.heap[a]? with
  | none => rw [hc] at hr; cases hr
  | some c =>
    rw [hc] at hr
    cases c with
    | inner l => cases hr
    | leaf n => cases hr; exact h n hc

theorem Tr.bindLift {r : R α} {f : α → M V β} {Q : β → St V → Prop} (hj : J C s)
    (h : ∀ a, r = .ok a → Tr C (f a) Q s) : Tr C (M.lift r >>= f) Q s :=
  Tr.bindRead (r := r) (by cases r <;> rfl) rfl hj h

theorem Tr.bindTxn {f : TxnSt → M V β} {Q : β → St V → Prop}
    (h : Tr C (f s.txn) Q s) : Tr C (Art.txnSt >>= f) Q s := h

theorem Tr.bindGet {f : St V → M V β} {Q : β → St V → Prop}
    (h : Tr C (f s) Q s) : Tr C (M.get >>= f) Q s := h

theorem Tr.bindAssert {p : Prop} [Decidable p] {e : Err} {f : Unit → M V β} {Q : β → St V → Prop} (hj : J C s)
    (h : p → Tr C (f ()) Q s) : Tr C (M.assert p e >>= f) Q s :=
  Tr.bindRead (r := if p then .ok () else .error e) (by unfold M.assert; dsimp only; split <;> rfl) rfl hj fun a ha => by
    split at ha
    · next hp => exact h hp
    · cases ha

theorem Tr.post {m : M V α} {Q : α → St V → Prop} (h : Tr C m Q s) : Tr C m (fun a s' => Q a s') s := h

theorem Cx.CellOK.mkInner {n : Inner} (h1 : ∀ b, n.leaf = some b → C.Good s b)
    (h2 : ∀ b, some b ∈ n.children → C.Good s b) (h3 : C.B → n.id ≤ s.txn.maxNodeId) : C.CellOK s (.inner n) :=
  ⟨fun b hb => hb.elim (h1 b) (h2 b), h3, fun _ h => nomatch h⟩

theorem Cx.CellOK.leafG {n : Inner} (h : C.CellOK s (.inner n)) (b : Addr) (hb : n.leaf = some b) : C.Good s b :=
  h.pts b (.inl hb)
theorem Cx.CellOK.childG {n : Inner} (h : C.CellOK s (.inner n)) (b : Addr) (hb : some b ∈ n.children) : C.Good s b :=
  h.pts b (.inr hb)

/-- Overwriting an inner node in place. -/
theorem Tr.wrInner (hj : J C s) {a : Addr} (g : C.OwnG s a) {n n0 : Inner}
    (h0 : s.heap[a]? = some (.inner n0)) (hch : n.ch = n0.ch)
    (h1 : ∀ b, n.leaf = some b → C.Good s b)
    (h2 : ∀ b, some b ∈ n.children → C.Good s b) (h3 : n.id = n0.id) :
    Tr C (Art.wr a (.inner n) : M V Unit) (fun _ _ => True) s :=
  (Tr.wr hj g (.mkInner h1 h2 (fun hB => h3 ▸ (hj.cellOK g.1 h0).id_le hB)) h0 hch rfl).conseq
    fun _ _ _ _ _ => trivial

theorem Tr.bumpId (hj : J C s) {a : Addr} (g : C.OwnG s a) : Tr C (Art.bumpId a : M V Unit)
    (fun _ _ => True) s := by
  unfold Art.bumpId
  refine Tr.bind (Tr.modTxn hj (by simp) rfl rfl rfl rfl ⟨rfl, rfl⟩) fun _ s1 hj1 h1 hs1 => ?_
  refine Tr.bindTxn (Tr.bindCell hj1 (g.1.mono h1) fun c hc hok => ?_)
  refine (Tr.wr hj1 (g.mono h1) ⟨?_, ?_, ?_⟩ hc (Cell.ch_setId _ _) (Cell.label_setId _ _)).conseq fun _ _ _ _ _ => trivial
  · intro b hb; rw [Cell.pts_setId] at hb; exact hok.pts b hb
  · intro _; rw [Cell.id_setId]; exact Nat.le_refl _
  · intro l hl
    cases c with
    | leaf l0 => cases hl; exact hok.leafP l0 rfl
    | inner n => cases hl

theorem Tr.trackNode (hj : J C s) {a : Addr} (b : Bool) : Tr C (Art.trackNode a b : M V Unit)
    (fun _ _ => True) s := by
  unfold Art.trackNode
  split
  · refine Tr.bind (Tr.trackChannel hj _) fun _ s1 hj1 h1 _ => ?_
    refine Tr.bindCell' hj1 fun c hc => ?_
    exact (Tr.trackChannel hj1 _).conseq fun _ _ _ _ _ => trivial
  · exact Tr.pure hj trivial

theorem Tr.writeNodeTo (hj : J C s) {a : Addr} (g : C.Good s a) (b : Bool) : Tr C (Art.writeNode a b : M V Addr)
    (fun a' s' => C.OwnG s' a' ∧ LeafTo s a s' a') s := by
  unfold Art.writeNode
  refine Tr.bind (Tr.trackNode hj b) fun _ s1 hj1 h1 _ => ?_
  refine Tr.bindCell hj1 (g.mono h1) fun c hc hok => ?_
  refine Tr.bindTxn ?_
  split
  · rename_i hid
    rw [hj1.om] at hid
    exact Tr.pure hj1 ⟨⟨g.mono h1, (hj1.cells a c hc g.1).2 hid⟩, h1.leafTo a⟩
  · refine Tr.bind (Tr.cloneNode hj1 (g.mono h1) _) fun nc s2 hj2 h2 hnc => ?_
    refine Tr.bind (Tr.bumpId hj2 hnc.1) fun _ s3 hj3 h3 _ => ?_
    exact Tr.pure hj3 ⟨hnc.1.mono h3, ((h1.leafTo a).trans hnc.2).trans (h3.leafTo _)⟩

theorem Tr.writeNode (hj : J C s) {a : Addr} (g : C.Good s a) (b : Bool) : Tr C (Art.writeNode a b : M V Addr)
    (fun a' s' => C.OwnG s' a') s := (Tr.writeNodeTo hj g b).conseq fun _ _ _ _ h => h.1

theorem Tr.allocInner (hj : J C s) (k : Kind) : Tr C (Art.allocInner k : M V Addr)
    (fun a' s' => C.OwnG s' a') s := by
  unfold Art.allocInner
  refine Tr.bind (Tr.newCell hj (.mkInner ?_ ?_ ?_) fun k h => nomatch h) fun a s1 hj1 h1 ha => ?_
  · intro b hb; cases hb
  · intro b hb; have := List.eq_of_mem_replicate hb; cases this
  · exact fun _ => Nat.zero_le _
  refine Tr.bind (Tr.bumpId hj1 ha.1) fun _ s3 hj3 h3 _ => ?_
  exact Tr.pure hj3 (ha.1.mono h3)

theorem Tr.allocLeaf (hj : J C s) {k : Key} {v : V} (hp : C.P k v) : Tr C (Art.allocLeaf k v : M V Addr)
    (fun a' s' => C.OwnG s' a') s := by
  unfold Art.allocLeaf
  refine Tr.bind (Tr.newCell hj ⟨?_, ?_, ?_⟩ fun k h => nomatch h) fun a s1 hj1 h1 ha => ?_
  · intro b hb
    rcases hb with hb | hb
    · cases hb
    · cases hb
  · exact fun _ => Nat.zero_le _
  · intro l hl; cases hl; exact hp
  refine Tr.bind (Tr.bumpId hj1 ha.1) fun _ s3 hj3 h3 _ => ?_
  exact Tr.pure hj3 (ha.1.mono h3)

theorem Tr.setNodeLeaf (hj : J C s) {a : Addr} (g : C.OwnG s a) {l : Option Addr}
    (gl : ∀ b, l = some b → C.Good s b) : Tr C (Art.setNodeLeaf a l : M V Unit) (fun _ _ => True) s := by
  unfold Art.setNodeLeaf
  refine Tr.bindInner hj g.1 fun n hn hok => ?_
  exact Tr.wrInner hj g hn rfl gl hok.childG rfl

theorem Inner.setChild_ok {n n' : Inner} {i : Nat} {c : Option Addr} (h : n.setChild i c = .ok n') :
    i < n.children.length ∧ n' = { n with children := n.children.set i c } := by
  unfold Inner.setChild at h
  split at h
  · rename_i hi; cases h; exact ⟨hi, rfl⟩
  · cases h

theorem Inner.setKeyAtIdx_ok {n n' : Inner} {i : Nat} {b : Byte} (h : n.setKeyAtIdx i b = .ok n') :
    ∃ ks, n' = { n with keys := ks } := by
  unfold Inner.setKeyAtIdx at h
  split at h
  · cases h; exact ⟨n.keys, rfl⟩
  · split at h
    · cases h; exact ⟨_, rfl⟩
    · cases h

theorem Tr.setChildAt (hj : J C s) {a : Addr} (g : C.OwnG s a) {i : Nat} {c : Option Addr}
    (gl : ∀ b, c = some b → C.Good s b) : Tr C (Art.setChildAt a i c : M V Unit) (fun _ _ => True) s := by
  unfold Art.setChildAt
  refine Tr.bindInner hj g.1 fun n hn hok => ?_
  refine Tr.bindLift hj fun n' hn' => ?_
  obtain ⟨_, rfl⟩ := Inner.setChild_ok hn'
  refine Tr.wrInner hj g hn rfl hok.leafG ?_ rfl
  intro b hb
  rcases List.mem_or_eq_of_mem_set hb with h | h
  · exact hok.childG b h
  · exact gl b h.symm

theorem Tr.makeLeaf (hj : J C s) {k : Key} {v : V} (hp : C.P k v) : Tr C (Art.makeLeaf k v : M V Addr)
    (fun a' s' => C.OwnG s' a') s := by
  unfold Art.makeLeaf
  refine Tr.bind (Tr.allocLeaf hj hp) fun l s1 hj1 h1 hl => ?_
  refine Tr.bind (Tr.bumpId hj1 hl) fun _ s2 hj2 h2 _ => ?_
  refine Tr.bind (Tr.allocInner hj2 _) fun a s3 hj3 h3 ha => ?_
  refine Tr.bind (Tr.setNodeLeaf hj3 ha ?_) fun _ s4 hj4 h4 _ => ?_
  · intro b hb; cases hb; exact ((hl.mono h2).mono h3).1
  refine Tr.bind (Tr.bumpId hj4 (ha.mono h4)) fun _ s5 hj5 h5 _ => ?_
  exact Tr.pure hj5 ((ha.mono h4).mono h5)

theorem Tr.copyHeader (hj : J C s) {d a : Addr} (gd : C.OwnG s d) (ga : C.Good s a) :
    Tr C (Art.copyHeader d a : M V Unit) (fun _ _ => True) s := by
  unfold Art.copyHeader
  refine Tr.bindInner hj ga fun n hn hok => ?_
  refine Tr.bindInner hj gd.1 fun m hm hokm => ?_
  simp only
  split
  · exact Tr.throw hj
  · exact Tr.wrInner hj gd hm rfl hokm.leafG hokm.childG rfl

theorem Tr.moveLeaf (hj : J C s) {d a : Addr} (gd : C.OwnG s d) (ga : C.Good s a) :
    Tr C (Art.moveLeaf d a : M V Unit) (fun _ _ => True) s := by
  unfold Art.moveLeaf
  refine Tr.bindInner hj ga fun n hn hok => ?_
  cases hl : n.leaf with
  | none => exact Tr.pure hj trivial
  | some l =>
    refine Tr.bind (Tr.writeNode hj (hok.leafG l hl) true) fun nL s1 hj1 h1 hnL => ?_
    exact Tr.setNodeLeaf hj1 (gd.mono h1) fun b hb => by cases hb; exact hnL.1

/-! ### Pointers in rearranged arrays -/

theorem mem_goCopy {α : Type} {x : α} {dst src : List α} {off : Nat} (h : x ∈ goCopy dst off src) :
    x ∈ dst ∨ x ∈ src := by
  unfold goCopy at h
  simp only [List.mem_append] at h
  rcases h with (h | h) | h
  · exact .inl (List.mem_of_mem_take h)
  · exact .inr (List.mem_of_mem_take h)
  · exact .inl (List.mem_of_mem_drop h)

theorem mem_getD {b : Addr} {l : List (Option Addr)} {i : Nat} (h : (l[i]?).getD none = some b) : some b ∈ l := by
  cases hi : l[i]? with
  | none => rw [hi] at h; cases h
  | some c =>
    rw [hi] at h
    simp only [Option.getD_some] at h
    subst h
    exact List.mem_of_getElem? hi

theorem mem_children48to256 {n : Inner} {b : Addr} (h : some b ∈ children48to256 n) : some b ∈ n.children := by
  unfold children48to256 at h
  simp only [List.mem_map] at h
  obtain ⟨i, _, hi⟩ := h
  split at hi
  · split at hi
    · exact mem_getD hi
    · cases hi
  · cases hi

theorem mem_insertSorted {n n' : Inner} {c : Byte} {child b : Addr} (h : n.insertSorted c child = .ok n')
    (hb : some b ∈ n'.children) : some b ∈ n.children ∨ b = child := by
  unfold Inner.insertSorted at h
  simp only at h
  cases h1 : Inner.setKeyAtIdx _ (insertPos n c) c with
  | error e => rw [h1] at h; cases h
  | ok n2 =>
    rw [h1] at h
    simp only [Except.bind_ok] at h
    obtain ⟨ks, rfl⟩ := Inner.setKeyAtIdx_ok h1
    cases h2 : Inner.setChild _ (insertPos n c) (some child) with
    | error e => rw [h2] at h; cases h
    | ok n3 =>
      rw [h2] at h
      simp only [Except.bind_ok] at h
      obtain ⟨_, rfl⟩ := Inner.setChild_ok h2
      cases h
      simp only at hb
      rcases List.mem_or_eq_of_mem_set hb with h | h
      · rcases mem_goCopy h with h | h
        · exact .inl h
        · exact .inl (List.mem_of_mem_drop (List.mem_of_mem_take h))
      · cases h; exact .inr rfl

theorem insertSorted_rest {n n' : Inner} {c : Byte} {child : Addr} (h : n.insertSorted c child = .ok n') :
    n'.leaf = n.leaf ∧ n'.ch = n.ch ∧ n'.id = n.id := by
  unfold Inner.insertSorted at h
  simp only at h
  cases h1 : Inner.setKeyAtIdx _ (insertPos n c) c with
  | error e => rw [h1] at h; cases h
  | ok n2 =>
    rw [h1] at h
    simp only [Except.bind_ok] at h
    obtain ⟨ks, rfl⟩ := Inner.setKeyAtIdx_ok h1
    cases h2 : Inner.setChild _ (insertPos n c) (some child) with
    | error e => rw [h2] at h; cases h
    | ok n3 =>
      rw [h2] at h
      simp only [Except.bind_ok] at h
      obtain ⟨_, rfl⟩ := Inner.setChild_ok h2
      cases h
      exact ⟨rfl, rfl, rfl⟩

theorem mem_shiftChildren {ch : List (Option Addr)} {pos num : Nat} {b : Addr}
    (h : some b ∈ shiftChildren ch pos num) : some b ∈ ch := by
  unfold shiftChildren at h
  have key : ∀ (l : List Nat) (acc : List (Option Addr) × Nat), (some b ∈ acc.1 → some b ∈ ch) →
      some b ∈ (l.foldl (fun (acc : List (Option Addr) × Nat) itr =>
        if itr = pos then acc else (acc.1.set acc.2 ((acc.1[itr]?).getD none), acc.2 + 1)) acc).1 → some b ∈ ch := by
    intro l
    induction l with
    | nil => intro acc h1 h2; exact h1 h2
    | cons x xs ih =>
      intro acc h1 h2
      refine ih _ ?_ h2
      simp only
      split
      · exact h1
      · intro hm
        rcases List.mem_or_eq_of_mem_set hm with h | h
        · exact h1 h
        · exact h1 (mem_getD h.symm)
  exact key _ _ id h

theorem mem_compact48 {n : Inner} {b : Addr} (h : some b ∈ (compact48 n).map (·.2)) : some b ∈ n.children := by
  unfold compact48 at h
  simp only [List.mem_map, List.mem_filterMap] at h
  obtain ⟨p, ⟨i, _, hi⟩, hp⟩ := h
  split at hi
  · split at hi
    · cases hi; exact mem_getD hp
    · cases hi
  · cases hi

theorem mem_compact256 {n : Inner} {p : Byte × Addr} (h : p ∈ compact256 n) : some p.2 ∈ n.children := by
  unfold compact256 at h
  simp only [List.mem_filterMap] at h
  obtain ⟨i, _, hi⟩ := h
  split at hi
  · rename_i ch hch; cases hi; exact List.mem_of_getElem? hch
  · cases hi

theorem Inner.mem_getChild {n : Inner} {i : Int} {b : Addr} (h : n.getChild i = .ok (some b)) : some b ∈ n.children := by
  unfold Inner.getChild at h
  split at h
  · split at h
    · cases h
    · exact mem_getD (Except.ok.inj h)
  · split at h
    · cases h
    · split at h
      · rename_i c hc; cases h; exact List.mem_of_getElem? hc
      · cases h

theorem Cell.mem_findChild {c : Cell V} {x : Byte} {b : Addr} {i : Nat} (h : c.findChild x = .ok (some b, i)) :
    some b ∈ c.children := by
  cases c with
  | leaf l => cases h
  | inner n =>
    show some b ∈ n.children
    unfold Cell.findChild Inner.findChild at h
    simp only at h
    split at h
    · split at h
      · cases hg : n.getChild _ with
        | error e => rw [hg] at h; cases h
        | ok y => rw [hg] at h; cases h; exact Inner.mem_getChild hg
      · cases h
    · split at h
      · cases hg : n.getChild _ with
        | error e => rw [hg] at h; cases h
        | ok y => rw [hg] at h; cases h; exact Inner.mem_getChild hg
      · cases h
    · cases hk : n.getKeyAtIdx x.toNat with
      | error e => rw [hk] at h; cases h
      | ok k =>
        rw [hk] at h
        simp only [Except.bind_ok] at h
        split at h
        · cases hg : n.getChild _ with
          | error e => rw [hg] at h; cases h
          | ok y => rw [hg] at h; cases h; exact Inner.mem_getChild hg
        · cases h
    · cases hg : n.getChild _ with
      | error e => rw [hg] at h; cases h
      | ok y =>
        rw [hg] at h
        simp only [Except.bind_ok] at h
        split at h
        · cases h; exact Inner.mem_getChild hg
        · cases h

theorem takePrefix_ok {n m m' : Inner} {k : Nat} (h : takePrefix n m k = .ok m') :
    ∃ p l, m' = { m with part := p, partialLen := l } := by
  unfold takePrefix at h
  dsimp only at h
  split at h
  · cases h
  · cases h; exact ⟨_, _, rfl⟩

/-! ### addChild -/

theorem Tr.addChild256 (hj : J C s) {a ch : Addr} (ga : C.OwnG s a) (gc : C.Good s ch) (c : Byte) :
    Tr C (Art.addChild256 a c ch : M V Addr) (fun a' s' => C.OwnG s' a') s := by
  unfold Art.addChild256
  refine Tr.bindInner hj ga.1 fun n hn hok => ?_
  refine Tr.bindLift hj fun n' hn' => ?_
  obtain ⟨_, rfl⟩ := Inner.setChild_ok hn'
  refine Tr.bind (Tr.wrInner hj ga hn rfl hok.leafG ?_ rfl) fun _ s1 hj1 h1 _ => Tr.pure hj1 (ga.mono h1)
  intro b hb
  rcases List.mem_or_eq_of_mem_set hb with h | h
  · exact hok.childG b h
  · cases h; exact gc

theorem Tr.addChild48 (hj : J C s) {a ch : Addr} (ga : C.OwnG s a) (gc : C.Good s ch) (c : Byte) :
    Tr C (Art.addChild48 a c ch : M V Addr) (fun a' s' => C.OwnG s' a') s := by
  unfold Art.addChild48
  refine Tr.bindInner hj ga.1 fun n hn hok => ?_
  split
  · refine Tr.bindLift hj fun n1 hn1 => ?_
    obtain ⟨_, rfl⟩ := Inner.setChild_ok hn1
    refine Tr.bindLift hj fun n2 hn2 => ?_
    obtain ⟨ks, rfl⟩ := Inner.setKeyAtIdx_ok hn2
    refine Tr.bind (Tr.wrInner hj ga hn rfl hok.leafG ?_ rfl) fun _ s1 hj1 h1 _ => Tr.pure hj1 (ga.mono h1)
    intro b hb
    rcases List.mem_or_eq_of_mem_set hb with h | h
    · exact hok.childG b h
    · cases h; exact gc
  · refine Tr.bind (Tr.allocInner hj _) fun nn s1 hj1 h1 gn => ?_
    refine Tr.bind (Tr.moveLeaf hj1 gn (ga.1.mono h1)) fun _ s2 hj2 h2 _ => ?_
    have ga2 := (ga.mono h1).mono h2
    have gn2 := gn.mono h2
    refine Tr.bindInner hj2 ga2.1 fun n hn hok => ?_
    refine Tr.bindInner hj2 gn2.1 fun m hm hokm => ?_
    refine Tr.bind (Tr.wrInner hj2 gn2 hm rfl hokm.leafG (fun b hb => hok.childG b (mem_children48to256 hb)) rfl)
      fun _ s3 hj3 h3 _ => ?_
    refine Tr.bind (Tr.copyHeader hj3 (gn2.mono h3) (ga2.mono h3).1) fun _ s4 hj4 h4 _ => ?_
    exact Tr.addChild256 hj4 ((gn2.mono h3).mono h4) ((((gc.mono h1).mono h2).mono h3).mono h4) c

theorem Tr.addChild16 (hj : J C s) {a ch : Addr} (ga : C.OwnG s a) (gc : C.Good s ch) (c : Byte) :
    Tr C (Art.addChild16 a c ch : M V Addr) (fun a' s' => C.OwnG s' a') s := by
  unfold Art.addChild16
  refine Tr.bindInner hj ga.1 fun n hn hok => ?_
  split
  · refine Tr.bindLift hj fun n1 hn1 => ?_
    obtain ⟨e1, e2, e3⟩ := insertSorted_rest hn1
    refine Tr.bind (Tr.wrInner hj ga hn e2 (e1 ▸ hok.leafG) ?_ e3) fun _ s1 hj1 h1 _ => Tr.pure hj1 (ga.mono h1)
    intro b hb
    rcases mem_insertSorted hn1 hb with h | h
    · exact hok.childG b h
    · subst h; exact gc
  · refine Tr.bind (Tr.allocInner hj _) fun nn s1 hj1 h1 gn => ?_
    refine Tr.bind (Tr.moveLeaf hj1 gn (ga.1.mono h1)) fun _ s2 hj2 h2 _ => ?_
    have ga2 := (ga.mono h1).mono h2
    have gn2 := gn.mono h2
    refine Tr.bindInner hj2 ga2.1 fun n hn hok => ?_
    refine Tr.bindInner hj2 gn2.1 fun m hm hokm => ?_
    refine Tr.bind (Tr.wrInner hj2 gn2 hm rfl hokm.leafG ?_ rfl)
      fun _ s3 hj3 h3 _ => ?_
    · intro b hb
      rcases mem_goCopy hb with h | h
      · exact hokm.childG b h
      · exact hok.childG b (List.mem_of_mem_take h)
    refine Tr.bind (Tr.copyHeader hj3 (gn2.mono h3) (ga2.mono h3).1) fun _ s4 hj4 h4 _ => ?_
    exact Tr.addChild48 hj4 ((gn2.mono h3).mono h4) ((((gc.mono h1).mono h2).mono h3).mono h4) c

theorem Tr.addChild4 (hj : J C s) {a ch : Addr} (ga : C.OwnG s a) (gc : C.Good s ch) (c : Byte) :
    Tr C (Art.addChild4 a c ch : M V Addr) (fun a' s' => C.OwnG s' a') s := by
  unfold Art.addChild4
  refine Tr.bindInner hj ga.1 fun n hn hok => ?_
  split
  · refine Tr.bindLift hj fun n1 hn1 => ?_
    obtain ⟨e1, e2, e3⟩ := insertSorted_rest hn1
    refine Tr.bind (Tr.wrInner hj ga hn e2 (e1 ▸ hok.leafG) ?_ e3) fun _ s1 hj1 h1 _ => Tr.pure hj1 (ga.mono h1)
    intro b hb
    rcases mem_insertSorted hn1 hb with h | h
    · exact hok.childG b h
    · subst h; exact gc
  · refine Tr.bind (Tr.allocInner hj _) fun nn s1 hj1 h1 gn => ?_
    refine Tr.bind (Tr.moveLeaf hj1 gn (ga.1.mono h1)) fun _ s2 hj2 h2 _ => ?_
    have ga2 := (ga.mono h1).mono h2
    have gn2 := gn.mono h2
    refine Tr.bindInner hj2 ga2.1 fun n hn hok => ?_
    refine Tr.bindInner hj2 gn2.1 fun m hm hokm => ?_
    refine Tr.bind (Tr.wrInner hj2 gn2 hm rfl hokm.leafG ?_ rfl)
      fun _ s3 hj3 h3 _ => ?_
    · intro b hb
      rcases mem_goCopy hb with h | h
      · exact hokm.childG b h
      · exact hok.childG b (List.mem_of_mem_take h)
    refine Tr.bind (Tr.copyHeader hj3 (gn2.mono h3) (ga2.mono h3).1) fun _ s4 hj4 h4 _ => ?_
    exact Tr.addChild16 hj4 ((gn2.mono h3).mono h4) ((((gc.mono h1).mono h2).mono h3).mono h4) c

theorem Tr.addChild (hj : J C s) {a ch : Addr} (ga : C.OwnG s a) (gc : C.Good s ch) (c : Byte) :
    Tr C (Art.addChild a c ch : M V Addr) (fun a' s' => C.OwnG s' a') s := by
  unfold Art.addChild
  refine Tr.bindCell hj ga.1 fun d hd hok => ?_
  cases d with
  | leaf l => exact Tr.throw hj
  | inner n =>
    simp only
    cases n.kind
    · exact Tr.addChild4 hj ga gc c
    · exact Tr.addChild16 hj ga gc c
    · exact Tr.addChild48 hj ga gc c
    · exact Tr.addChild256 hj ga gc c

/-! ### removeChild -/

theorem Tr.clearTail (hj : J C s) {a : Addr} (ga : C.OwnG s a) (k i : Nat) :
    Tr C (Art.clearTail a k i : M V Unit) (fun _ _ => True) s := by
  induction k generalizing s i with
  | zero => exact Tr.pure hj trivial
  | succ k ih =>
    unfold Art.clearTail
    refine Tr.bindInner hj ga.1 fun n hn hok => ?_
    split
    · refine Tr.bind (Tr.trackChannel hj _) fun _ s1 hj1 h1 _ => ?_
      refine Tr.bind (Tr.setChildAt hj1 (ga.mono h1) fun b hb => nomatch hb) fun _ s2 hj2 h2 _ => ?_
      exact ih hj2 ((ga.mono h1).mono h2) _
    · exact Tr.pure hj trivial

theorem Tr.removeSorted (hj : J C s) {a : Addr} (ga : C.OwnG s a) (c : Byte) :
    Tr C (Art.removeSorted a c : M V Unit) (fun _ _ => True) s := by
  unfold Art.removeSorted
  refine Tr.bindInner hj ga.1 fun n hn hok => ?_
  refine Tr.bindAssert hj fun _ => ?_
  refine Tr.bindAssert hj fun _ => ?_
  refine Tr.bind (Tr.wrInner hj ga hn rfl hok.leafG (fun b hb => hok.childG b (mem_shiftChildren hb)) rfl)
    fun _ s1 hj1 h1 _ => ?_
  refine Tr.bind (Tr.clearTail hj1 (ga.mono h1) _ _) fun _ s2 hj2 h2 _ => ?_
  have g2 := (ga.mono h1).mono h2
  refine Tr.bindInner hj2 g2.1 fun n hn hok => ?_
  exact Tr.wrInner hj2 g2 hn rfl hok.leafG hok.childG rfl

theorem Tr.removeChild4 (hj : J C s) {a : Addr} (ga : C.OwnG s a) (c : Byte) :
    Tr C (Art.removeChild4 a c : M V Addr) (fun a' s' => C.OwnG s' a') s := by
  unfold Art.removeChild4
  refine Tr.bind (Tr.removeSorted hj ga c) fun _ s1 hj1 h1 _ => ?_
  have g1 := ga.mono h1
  refine Tr.bindInner hj1 g1.1 fun n hn hok => ?_
  split
  · refine Tr.bindLift hj1 fun r hr => ?_
    cases r with
    | none => exact Tr.throw hj1
    | some ch =>
      refine Tr.bind (Tr.writeNode hj1 (hok.childG ch (Inner.mem_getChild hr)) false) fun rt s2 hj2 h2 hrt => ?_
      have g2 := g1.mono h2
      refine Tr.bindInner hj2 g2.1 fun n hn hok => ?_
      refine Tr.bindInner hj2 hrt.1 fun m hm hokm => ?_
      refine Tr.bindLift hj2 fun j _ => ?_
      refine Tr.bind (Tr.wrInner hj2 g2 hn rfl hok.leafG hok.childG rfl) fun _ s3 hj3 h3 _ => ?_
      have hrt := hrt.mono h3
      refine Tr.bindInner hj3 (g2.mono h3).1 fun n _ _ => ?_
      refine Tr.bindInner hj3 hrt.1 fun m hm hokm => ?_
      refine Tr.bindLift hj3 fun m' hm' => ?_
      obtain ⟨p, l, rfl⟩ := takePrefix_ok hm'
      refine Tr.bind (Tr.wrInner hj3 hrt hm rfl hokm.leafG hokm.childG rfl) fun _ s3 hj3 h3 _ => ?_
      refine Tr.bind (Tr.trackChannel hj3 _) fun _ s4 hj4 h4 _ => ?_
      exact Tr.pure hj4 ((hrt.mono h3).mono h4)
  · exact Tr.pure hj1 g1

theorem Tr.removeChild16 (hj : J C s) {a : Addr} (ga : C.OwnG s a) (c : Byte) :
    Tr C (Art.removeChild16 a c : M V Addr) (fun a' s' => C.OwnG s' a') s := by
  unfold Art.removeChild16
  refine Tr.bind (Tr.removeSorted hj ga c) fun _ s1 hj1 h1 _ => ?_
  have g1 := ga.mono h1
  refine Tr.bindInner hj1 g1.1 fun n hn hok => ?_
  split
  · refine Tr.bind (Tr.trackChannel hj1 _) fun _ s2 hj2 h2 _ => ?_
    refine Tr.bind (Tr.allocInner hj2 _) fun nn s3 hj3 h3 gn => ?_
    have g3 := (g1.mono h2).mono h3
    refine Tr.bind (Tr.copyHeader hj3 gn g3.1) fun _ s4 hj4 h4 _ => ?_
    have g4 := g3.mono h4
    have gn4 := gn.mono h4
    refine Tr.bindInner hj4 g4.1 fun n hn hok => ?_
    refine Tr.bindInner hj4 gn4.1 fun m hm hokm => ?_
    refine Tr.bind (Tr.wrInner hj4 gn4 hm rfl hokm.leafG ?_ rfl) fun _ s5 hj5 h5 _ => ?_
    · intro b hb
      rcases mem_goCopy hb with h | h
      · exact hokm.childG b h
      · exact hok.childG b (List.mem_of_mem_take h)
    refine Tr.bind (Tr.moveLeaf hj5 (gn4.mono h5) (g4.mono h5).1) fun _ s6 hj6 h6 _ => ?_
    have gn6 := (gn4.mono h5).mono h6
    refine Tr.bind (Tr.setNodeLeaf hj6 gn6 fun b hb => ((hok.leafG b hb).mono h5).mono h6) fun _ s7 hj7 h7 _ => ?_
    exact Tr.pure hj7 (gn6.mono h7)
  · exact Tr.pure hj1 g1

theorem Tr.removeChild48 (hj : J C s) {a : Addr} (ga : C.OwnG s a) (c : Byte) :
    Tr C (Art.removeChild48 a c : M V Addr) (fun a' s' => C.OwnG s' a') s := by
  unfold Art.removeChild48
  refine Tr.bindInner hj ga.1 fun n hn hok => ?_
  refine Tr.bindLift hj fun pos hpos => ?_
  refine Tr.bindLift hj fun n1 hn1 => ?_
  obtain ⟨ks, rfl⟩ := Inner.setKeyAtIdx_ok hn1
  refine Tr.bind (Tr.wrInner hj ga hn rfl hok.leafG hok.childG rfl) fun _ s1 hj1 h1 _ => ?_
  have g1 := ga.mono h1
  refine Tr.bindLift hj1 fun ch hch => ?_
  refine Tr.bind (Tr.trackChannel hj1 _) fun _ s2 hj2 h2 _ => ?_
  have g2 := g1.mono h2
  refine Tr.bind (Tr.setChildAt hj2 g2 fun b hb => nomatch hb) fun _ s3 hj3 h3 _ => ?_
  have g3 := g2.mono h3
  refine Tr.bindInner hj3 g3.1 fun n hn hok => ?_
  refine Tr.bind (Tr.wrInner hj3 g3 hn rfl hok.leafG hok.childG rfl) fun _ s4 hj4 h4 _ => ?_
  have g4 := g3.mono h4
  refine Tr.bindInner hj4 g4.1 fun n hn hok => ?_
  split
  · refine Tr.bind (Tr.allocInner hj4 _) fun nn s5 hj5 h5 gn => ?_
    refine Tr.bind (Tr.trackChannel hj5 _) fun _ s6 hj6 h6 _ => ?_
    have g6 := (g4.mono h5).mono h6
    have gn6 := gn.mono h6
    refine Tr.bind (Tr.copyHeader hj6 gn6 g6.1) fun _ s7 hj7 h7 _ => ?_
    have g7 := g6.mono h7
    have gn7 := gn6.mono h7
    refine Tr.bind (Tr.moveLeaf hj7 gn7 g7.1) fun _ s8 hj8 h8 _ => ?_
    have g8 := g7.mono h8
    have gn8 := gn7.mono h8
    refine Tr.bindInner hj8 g8.1 fun n hn hok => ?_
    refine Tr.bindInner hj8 gn8.1 fun m hm hokm => ?_
    refine Tr.bindAssert hj8 fun _ => ?_
    refine Tr.bind (Tr.wrInner hj8 gn8 hm rfl hokm.leafG ?_ rfl) fun _ s9 hj9 h9 _ => ?_
    · intro b hb
      rcases mem_goCopy hb with h | h
      · exact hokm.childG b h
      · exact hok.childG b (mem_compact48 h)
    exact Tr.pure hj9 (gn8.mono h9)
  · exact Tr.pure hj4 g4

theorem Tr.removeChild256 (hj : J C s) {a : Addr} (ga : C.OwnG s a) (c : Byte) :
    Tr C (Art.removeChild256 a c : M V Addr) (fun a' s' => C.OwnG s' a') s := by
  unfold Art.removeChild256
  refine Tr.bind (Tr.setChildAt hj ga fun b hb => nomatch hb) fun _ s3 hj3 h3 _ => ?_
  have g3 := ga.mono h3
  refine Tr.bindInner hj3 g3.1 fun n hn hok => ?_
  refine Tr.bind (Tr.wrInner hj3 g3 hn rfl hok.leafG hok.childG rfl) fun _ s4 hj4 h4 _ => ?_
  have g4 := g3.mono h4
  refine Tr.bindInner hj4 g4.1 fun n hn hok => ?_
  split
  · refine Tr.bind (Tr.allocInner hj4 _) fun nn s5 hj5 h5 gn => ?_
    have g5 := g4.mono h5
    refine Tr.bind (Tr.copyHeader hj5 gn g5.1) fun _ s6 hj6 h6 _ => ?_
    have g6 := g5.mono h6
    have gn6 := gn.mono h6
    refine Tr.bind (Tr.trackChannel hj6 _) fun _ s7 hj7 h7 _ => ?_
    have g7 := g6.mono h7
    have gn7 := gn6.mono h7
    refine Tr.bind (Tr.moveLeaf hj7 gn7 g7.1) fun _ s8 hj8 h8 _ => ?_
    have g8 := g7.mono h8
    have gn8 := gn7.mono h8
    refine Tr.bindInner hj8 g8.1 fun n hn hok => ?_
    refine Tr.bindInner hj8 gn8.1 fun m hm hokm => ?_
    refine Tr.bindAssert hj8 fun _ => ?_
    refine Tr.bind (Tr.wrInner hj8 gn8 hm rfl hokm.leafG ?_ rfl) fun _ s9 hj9 h9 _ => ?_
    · intro b hb
      rcases mem_goCopy hb with h | h
      · exact hokm.childG b h
      · simp only [List.mem_map] at h
        obtain ⟨p, hp, hpb⟩ := h
        cases hpb
        exact hok.childG _ (mem_compact256 hp)
    exact Tr.pure hj9 (gn8.mono h9)
  · exact Tr.pure hj4 g4

theorem Tr.removeChild (hj : J C s) {a : Addr} (ga : C.OwnG s a) (c : Byte) :
    Tr C (Art.removeChild a c : M V Addr) (fun a' s' => C.OwnG s' a') s := by
  unfold Art.removeChild
  refine Tr.bindCell hj ga.1 fun d hd hok => ?_
  cases d with
  | leaf l => exact Tr.throw hj
  | inner n =>
    simp only
    cases n.kind
    · exact Tr.removeChild4 hj ga c
    · exact Tr.removeChild16 hj ga c
    · exact Tr.removeChild48 hj ga c
    · exact Tr.removeChild256 hj ga c

/-! ### Insert -/

theorem Tr.addChildAt (hj : J C s) {a ch : Addr} (ga : C.OwnG s a) (gc : C.Good s ch) (key : Key) (i : Nat) :
    Tr C (Art.addChildAt a key i ch : M V Addr) (fun a' s' => C.OwnG s' a') s := by
  unfold Art.addChildAt
  split
  · exact Tr.bindLift hj fun b _ => Tr.addChild hj ga gc b
  · exact Tr.pure hj ga

/-- What the insert functions guarantee about the node they return. -/
def Cx.GoodRes (C : Cx V) (r : InsRes V) (s : St V) : Prop := C.Good s r.node

theorem Tr.insertUpdateLeaf (hj : J C s) {a : Addr} (ga : C.Good s a) (o : V) {key : Key} {v : V} (hp : C.P key v) :
    Tr C (Art.insertUpdateLeaf a o key v : M V (InsRes V)) C.GoodRes s := by
  unfold Art.insertUpdateLeaf
  refine Tr.bind (Tr.writeNode hj ga true) fun a' s1 hj1 h1 g1 => ?_
  refine Tr.bind (Tr.allocLeaf hj1 hp) fun l s2 hj2 h2 gl => ?_
  refine Tr.bind (Tr.setNodeLeaf hj2 (g1.mono h2) fun b hb => by cases hb; exact gl.1) fun _ s3 hj3 h3 _ => ?_
  exact Tr.pure hj3 ((g1.mono h2).mono h3).1

theorem Tr.insertPair (hj : J C s) {nn a l a2 l2 : Addr} (gn : C.OwnG s nn) (ga : C.Good s a) (gl : C.Good s l)
    (ga2 : C.Good s a2) (gl2 : C.Good s l2) (oldKey key : Key) (i : Nat) :
    Tr C (Art.insertPair nn a l a2 l2 oldKey key i : M V Addr) (fun a' s' => C.OwnG s' a') s := by
  unfold Art.insertPair
  split
  · refine Tr.bind (Tr.trackChannel hj _) fun _ s1 hj1 h1 _ => ?_
    refine Tr.bind (Tr.setNodeLeaf hj1 (gn.mono h1) fun b hb => by cases hb; exact gl2.mono h1) fun _ s2 hj2 h2 _ => ?_
    exact Tr.bindLift hj2 fun b _ => Tr.addChild hj2 ((gn.mono h1).mono h2) ((ga.mono h1).mono h2) b
  · split
    · refine Tr.bind (Tr.setNodeLeaf hj gn fun b hb => by cases hb; exact gl) fun _ s2 hj2 h2 _ => ?_
      exact Tr.bindLift hj2 fun b _ => Tr.addChild hj2 (gn.mono h2) (ga2.mono h2) b
    · refine Tr.bind (Tr.addChildAt hj gn ga _ _) fun a' s1 hj1 h1 g1 => ?_
      exact Tr.addChildAt hj1 g1 (ga2.mono h1) _ _

theorem Tr.insertSplitLeaf [Inhabited V] (hj : J C s) {a l : Addr} (ga : C.Good s a) (gl : C.Good s l)
    (oldKey : Key) {key : Key} {v : V} (hp : C.P key v) (d : Nat) :
    Tr C (Art.insertSplitLeaf a l oldKey key v d : M V (InsRes V)) C.GoodRes s := by
  unfold Art.insertSplitLeaf
  refine Tr.bind (Tr.makeLeaf hj hp) fun a2 s1 hj1 h1 g2 => ?_
  refine Tr.bindInner hj1 g2.1 fun w hw hokw => ?_
  cases hwl : w.leaf with
  | none => exact Tr.throw hj1
  | some l2 =>
    have gl2 := hokw.leafG l2 hwl
    simp only
    refine Tr.bind (Tr.trackChannel hj1 _) fun _ s2 hj2 h2 _ => ?_
    refine Tr.bind (Tr.writeNode hj2 ((ga.mono h1).mono h2) false) fun a' s3 hj3 h3 ga3 => ?_
    refine Tr.bindLift hj3 fun lp _ => ?_
    refine Tr.bind (Tr.allocInner hj3 _) fun nn s4 hj4 h4 gn => ?_
    refine Tr.bindInner hj4 gn.1 fun m hm hokm => ?_
    refine Tr.bind (Tr.wrInner hj4 gn hm rfl hokm.leafG hokm.childG rfl) fun _ s5 hj5 h5 _ => ?_
    have t : Step s1 s5 := ((h2.trans h3).trans h4).trans h5
    refine Tr.bind (Tr.insertPair hj5 (gn.mono h5) (ga3.mono (h4.trans h5)).1 (gl.mono (h1.trans t)) (g2.mono t).1
      (gl2.mono t) oldKey key _) fun a'' s6 hj6 h6 g6 => ?_
    exact Tr.pure hj6 g6.1

theorem Tr.insertAtLeaf [Inhabited V] (hj : J C s) {a l : Addr} (ga : C.Good s a) (gl : C.Good s l)
    {key : Key} {v : V} (hp : C.P key v) (d : Nat) :
    Tr C (Art.insertAtLeaf a l key v d : M V (InsRes V)) C.GoodRes s := by
  unfold Art.insertAtLeaf
  refine Tr.bindLeaf hj fun nl hnl => ?_
  split
  · exact Tr.insertUpdateLeaf hj ga _ hp
  · exact Tr.insertSplitLeaf hj ga gl _ hp d

theorem Tr.leafClash (hj : J C s) (n : Inner) (key : Key) :
    Tr C (Art.leafClash n key : M V Bool) (fun _ _ => True) s := by
  unfold Art.leafClash
  split
  · exact Tr.pure hj trivial
  · exact Tr.bindLeaf hj fun nl hnl => Tr.pure hj trivial

theorem Tr.insertNoChild [Inhabited V] (hj : J C s) {a : Addr} (ga : C.Good s a)
    {key : Key} {v : V} (hp : C.P key v) (d : Nat) :
    Tr C (Art.insertNoChild a key v d : M V (InsRes V)) C.GoodRes s := by
  unfold Art.insertNoChild
  refine Tr.bind (Tr.makeLeaf hj hp) fun a2 s1 hj1 h1 g2 => ?_
  refine Tr.bindInner hj1 (ga.mono h1) fun n hn hok => ?_
  refine Tr.bind (Tr.leafClash hj1 n key) fun clash s2 hj2 h2 _ => ?_
  refine Tr.bind (Tr.trackChannel hj2 _) fun _ s3 hj3 h3 _ => ?_
  refine Tr.bind (Tr.writeNode hj3 (((ga.mono h1).mono h2).mono h3) false) fun a' s4 hj4 h4 ga4 => ?_
  split
  · refine Tr.bind (Tr.allocInner hj4 _) fun nn s5 hj5 h5 gn => ?_
    exact Tr.throw hj5
  · refine Tr.bind (Tr.addChildAt hj4 ga4 (g2.mono ((h2.trans h3).trans h4)).1 _ _) fun a' s5 hj5 h5 g5 => ?_
    exact Tr.pure hj5 g5.1

theorem Tr.splitShort (hj : J C s) {nn a : Addr} (gn : C.OwnG s nn) (ga : C.OwnG s a) (pd : Nat) :
    Tr C (Art.splitShort nn a pd : M V Addr) (fun a' s' => C.OwnG s' a') s := by
  unfold Art.splitShort
  refine Tr.bindInner hj ga.1 fun n hn hok => ?_
  refine Tr.bindLift hj fun b _ => ?_
  refine Tr.bind (Tr.addChild hj gn ga.1 b) fun nn s1 hj1 h1 gn1 => ?_
  have g1 := ga.mono h1
  refine Tr.bindInner hj1 g1.1 fun n hn hok => ?_
  refine Tr.bindAssert hj1 fun _ => ?_
  refine Tr.bind (Tr.wrInner hj1 g1 hn rfl hok.leafG hok.childG rfl) fun _ s2 hj2 h2 _ => ?_
  exact Tr.pure hj2 (gn1.mono h2)

theorem Tr.splitLong (hj : J C s) {nn a : Addr} (gn : C.OwnG s nn) (ga : C.OwnG s a) (d pd : Nat) :
    Tr C (Art.splitLong nn a d pd : M V Addr) (fun a' s' => C.OwnG s' a') s := by
  unfold Art.splitLong
  refine Tr.bindInner hj ga.1 fun n hn hok => ?_
  refine Tr.bind (Tr.wrInner hj ga hn rfl hok.leafG hok.childG rfl) fun _ s1 hj1 h1 _ => ?_
  refine Tr.bindGet (Tr.bindLift hj1 fun r hr => ?_)
  cases r with
  | none => exact Tr.throw hj1
  | some l =>
    refine Tr.bindLeaf hj1 fun lc hlc => ?_
    refine Tr.bindLift hj1 fun b _ => ?_
    refine Tr.bind (Tr.addChild hj1 (gn.mono h1) (ga.1.mono h1) b) fun nn s2 hj2 h2 gn2 => ?_
    have g2 := (ga.mono h1).mono h2
    refine Tr.bindInner hj2 g2.1 fun n hn hok => ?_
    refine Tr.bindAssert hj2 fun _ => ?_
    refine Tr.bind (Tr.wrInner hj2 g2 hn rfl hok.leafG hok.childG rfl) fun _ s3 hj3 h3 _ => ?_
    exact Tr.pure hj3 (gn2.mono h3)

theorem Tr.splitChild (hj : J C s) {nn a : Addr} (gn : C.OwnG s nn) (ga : C.OwnG s a) (pl d pd : Nat) :
    Tr C (Art.splitChild nn a pl d pd : M V Addr) (fun a' s' => C.OwnG s' a') s := by
  unfold Art.splitChild
  split
  · exact Tr.splitShort hj gn ga pd
  · exact Tr.splitLong hj gn ga d pd

theorem Tr.insertSplit [Inhabited V] (hj : J C s) {a : Addr} (ga : C.Good s a)
    {key : Key} {v : V} (hp : C.P key v) (d pd : Nat) :
    Tr C (Art.insertSplit a key v d pd : M V (InsRes V)) C.GoodRes s := by
  unfold Art.insertSplit
  refine Tr.bind (Tr.allocInner hj _) fun nn s1 hj1 h1 gn => ?_
  refine Tr.bindInner hj1 (ga.mono h1) fun n hn hok => ?_
  refine Tr.bindInner hj1 gn.1 fun m hm hokm => ?_
  refine Tr.bindAssert hj1 fun _ => ?_
  refine Tr.bind (Tr.wrInner hj1 gn hm rfl hokm.leafG hokm.childG rfl) fun _ s2 hj2 h2 _ => ?_
  refine Tr.bind (Tr.trackChannel hj2 _) fun _ s3 hj3 h3 _ => ?_
  refine Tr.bind (Tr.writeNode hj3 (((ga.mono h1).mono h2).mono h3) false) fun a' s4 hj4 h4 ga4 => ?_
  refine Tr.bind (Tr.splitChild hj4 (((gn.mono h2).mono h3).mono h4) ga4 _ _ _) fun nn s5 hj5 h5 gn5 => ?_
  refine Tr.bind (Tr.makeLeaf hj5 hp) fun a2 s6 hj6 h6 g2 => ?_
  refine Tr.bind (Tr.addChildAt hj6 (gn5.mono h6) g2.1 _ _) fun a' s7 hj7 h7 g7 => ?_
  exact Tr.pure hj7 g7.1

theorem Tr.insertReplace (hj : J C s) {a ch : Addr} (ga : C.Good s a) (i : Nat) {r : InsRes V} (gr : C.GoodRes r s) :
    Tr C (Art.insertReplace a ch i r : M V (InsRes V)) C.GoodRes s := by
  unfold Art.insertReplace
  split
  · refine Tr.bind (Tr.trackChannel hj _) fun _ s1 hj1 h1 _ => ?_
    refine Tr.bind (Tr.writeNode hj1 (ga.mono h1) false) fun a' s2 hj2 h2 g2 => ?_
    refine Tr.bind (Tr.setChildAt hj2 g2 fun b hb => by cases hb; exact gr.mono (h1.trans h2)) fun _ s3 hj3 h3 _ => ?_
    exact Tr.pure hj3 (g2.mono h3).1
  · exact Tr.pure hj ga

theorem cmpBytes_eq {a b : Key} : cmpBytes a b = .eq ↔ a = b := by
  induction a generalizing b with
  | nil => cases b <;> simp [cmpBytes]
  | cons x xs ih =>
    cases b with
    | nil => simp [cmpBytes]
    | cons y ys =>
      simp only [cmpBytes]
      split
      · rename_i h
        simp only [reduceCtorEq, List.cons.injEq, false_iff, not_and]
        intro he; subst he; exact absurd h (by simp)
      · split
        · rename_i h
          simp only [reduceCtorEq, List.cons.injEq, false_iff, not_and]
          intro he; subst he; exact absurd h (by simp)
        · rename_i h1 h2
          have : x = y := by
            apply UInt8.le_antisymm
            · exact UInt8.not_lt.mp h2
            · exact UInt8.not_lt.mp h1
          simp [ih, this]

theorem leafMatches_iff {a b : Key} : leafMatches a b = true ↔ a = b := by
  unfold leafMatches
  constructor
  · intro h
    split at h
    · cases h
    · exact cmpBytes_eq.1 (by simpa using h)
  · intro h
    subst h
    simp [cmpBytes_eq]

theorem Tr.leafHit (hj : J C s) {c : Cell V} (hc : C.CellOK s c) (key : Key) :
    Tr C (Art.leafHit c key : M V (Option Addr))
      (fun r s' => s' = s ∧ ∀ l, r = some l → C.Good s l ∧ ∃ lc : LeafC V, s.heap[l]? = some (.leaf lc) ∧ lc.key = key) s := by
  unfold Art.leafHit
  split
  · exact Tr.pure hj ⟨rfl, fun l h => nomatch h⟩
  · rename_i l hl
    refine Tr.bindLeaf hj fun nl hnl => Tr.pure hj ⟨rfl, fun b hb => ?_⟩
    split at hb
    · rename_i hm
      cases hb; exact ⟨hc.pts _ (.inl hl), nl, hnl, leafMatches_iff.1 hm⟩
    · cases hb

theorem Tr.insertHit [Inhabited V] (hj : J C s) {a l : Addr} (ga : C.Good s a) (gl : C.Good s l) {v : V} {key : Key}
    {lc : LeafC V} (hlc : s.heap[l]? = some (.leaf lc)) (hk : lc.key = key) (hp : C.P key v) :
    Tr C (Art.insertHit a l v : M V (InsRes V)) C.GoodRes s := by
  unfold Art.insertHit
  refine Tr.bind (Tr.writeNodeTo hj gl true) fun nl s1 hj1 h1 g1 => ?_
  refine Tr.bindLeaf hj1 fun lc1 hlc1 => ?_
  obtain ⟨lc', hlc', hk'⟩ := g1.2 lc hlc
  rw [hlc1] at hlc'
  cases hlc'
  have hok := hj1.cellOK g1.1.1 hlc1
  refine Tr.bind (Tr.wr (c := .leaf { lc1 with value := v }) hj1 g1.1 ⟨hok.pts, hok.id_le, ?_⟩ hlc1 rfl rfl)
    fun _ s2 hj2 h2 _ => ?_
  · intro l hl; cases hl
    show C.P lc1.key v
    rw [hk', hk]; exact hp
  refine Tr.bind (Tr.writeNode hj2 ((ga.mono h1).mono h2) true) fun a' s3 hj3 h3 g3 => ?_
  refine Tr.bind (Tr.setNodeLeaf hj3 g3 fun b hb => by cases hb; exact (g1.1.mono (h2.trans h3)).1) fun _ s4 hj4 h4 _ => ?_
  exact Tr.pure hj4 (g3.mono h4).1

theorem Tr.insertNew [Inhabited V] (hj : J C s) {a : Addr} (ga : C.Good s a)
    {key : Key} {v : V} (hp : C.P key v) (d : Nat) :
    Tr C (Art.insertNew a key v d : M V (InsRes V)) C.GoodRes s := by
  unfold Art.insertNew
  refine Tr.bind (Tr.makeLeaf hj hp) fun a2 s1 hj1 h1 g2 => ?_
  split
  · refine Tr.bind (Tr.trackChannel hj1 _) fun _ s2 hj2 h2 _ => ?_
    refine Tr.bind (Tr.writeNode hj2 ((ga.mono h1).mono h2) false) fun a' s3 hj3 h3 ga3 => ?_
    refine Tr.bindLift hj3 fun b _ => ?_
    refine Tr.bind (Tr.addChild hj3 ga3 (g2.mono (h2.trans h3)).1 b) fun a' s4 hj4 h4 g4 => ?_
    exact Tr.pure hj4 g4.1
  · exact Tr.pure hj1 (ga.mono h1)

theorem Tr.insertEmpty [Inhabited V] (hj : J C s) {a : Addr} (ga : C.Good s a)
    {key : Key} {v : V} (hp : C.P key v) :
    Tr C (Art.insertEmpty a key v : M V (InsRes V)) C.GoodRes s := by
  unfold Art.insertEmpty
  refine Tr.bind (Tr.writeNode hj ga true) fun a' s1 hj1 h1 g1 => ?_
  refine Tr.bind (Tr.allocLeaf hj1 hp) fun l s2 hj2 h2 gl => ?_
  refine Tr.bind (Tr.setNodeLeaf hj2 (g1.mono h2) fun b hb => by cases hb; exact gl.1) fun _ s3 hj3 h3 _ => ?_
  exact Tr.pure hj3 ((g1.mono h2).mono h3).1

theorem Tr.recursiveInsert [Inhabited V] (hj : J C s) (fuel : Nat) {a : Addr} (ga : C.Good s a)
    {key : Key} {v : V} (hp : C.P key v) (d : Nat) :
    Tr C (Art.recursiveInsert fuel a key v d : M V (InsRes V)) C.GoodRes s := by
  induction fuel generalizing s a d with
  | zero => exact Tr.throw hj
  | succ fuel ih =>
    unfold Art.recursiveInsert
    refine Tr.bindTxn ?_
    split
    · exact Tr.insertEmpty hj ga hp
    · refine Tr.bindCell hj ga fun c hc hok => ?_
      have hrest : Tr C (do
          match ← Art.leafHit c key with
          | some l => Art.insertHit a l v
          | none =>
            if c.partialLen > 0 then do
              let s ← M.get
              let prefixDiff ← M.lift (prefixMismatch s.heap a key key.length d)
              if prefixDiff ≥ c.partialLen then
                if d + c.partialLen < key.length then do
                  let b ← M.lift (byteAt key (d + c.partialLen))
                  match ← M.lift (c.findChild b) with
                  | (some child, idx) => do
                    let r ← Art.recursiveInsert fuel child key v (d + c.partialLen + 1)
                    Art.insertReplace a child idx r
                  | (none, _) => Art.insertNoChild a key v (d + c.partialLen)
                else Art.insertNoChild a key v (d + c.partialLen)
              else Art.insertSplit a key v d prefixDiff
            else do
              let b ← M.lift (byteAt key d)
              match ← M.lift (c.findChild b) with
              | (some child, idx) => do
                let r ← Art.recursiveInsert fuel child key v (d + 1)
                Art.insertReplace a child idx r
              | (none, _) => Art.insertNew a key v d) C.GoodRes s := by
        refine Tr.bind (Tr.leafHit hj hok key) fun r s1 hj1 h1 hr => ?_
        obtain ⟨rfl, hr⟩ := hr
        cases r with
        | some l =>
          obtain ⟨gl, lc, hlc, hk⟩ := hr l rfl
          exact Tr.insertHit hj ga gl hlc hk hp
        | none =>
          simp only
          split
          · refine Tr.bindGet (Tr.bindLift hj fun pd _ => ?_)
            split
            · split
              · refine Tr.bindLift hj fun b _ => Tr.bindLift hj fun r hr => ?_
                obtain ⟨x, idx⟩ := r
                cases x with
                | none => exact Tr.insertNoChild hj ga hp _
                | some child =>
                  simp only
                  refine Tr.bind (ih hj (hok.pts _ (.inr (Cell.mem_findChild hr))) _) fun r s2 hj2 h2 hr => ?_
                  exact Tr.insertReplace hj2 (ga.mono h2) idx hr
              · exact Tr.insertNoChild hj ga hp _
            · exact Tr.insertSplit hj ga hp _ _
          · refine Tr.bindLift hj fun b _ => Tr.bindLift hj fun r hr => ?_
            obtain ⟨x, idx⟩ := r
            cases x with
            | none => exact Tr.insertNew hj ga hp _
            | some child =>
              simp only
              refine Tr.bind (ih hj (hok.pts _ (.inr (Cell.mem_findChild hr))) _) fun r s2 hj2 h2 hr => ?_
              exact Tr.insertReplace hj2 (ga.mono h2) idx hr
      split
      · rename_i l _ hl
        exact Tr.insertAtLeaf hj ga (hok.pts l (.inl hl)) hp d
      · exact hrest

/-! ### Delete -/

/-- What `recursiveDelete` guarantees about the node it returns. -/
def Cx.GoodDel (C : Cx V) (r : DelRes) (s : St V) : Prop := ∀ b, r.node = some b → C.Good s b

theorem Tr.deleteHit (hj : J C s) {a l : Addr} (ga : C.Good s a) :
    Tr C (Art.deleteHit a l : M V DelRes) C.GoodDel s := by
  unfold Art.deleteHit
  refine Tr.bind (Tr.writeNode hj ga true) fun a' s1 hj1 h1 g1 => ?_
  refine Tr.bind (Tr.setNodeLeaf hj1 g1 fun b hb => nomatch hb) fun _ s2 hj2 h2 _ => ?_
  have g2 := g1.mono h2
  refine Tr.bindInner hj2 g2.1 fun n hn hok => ?_
  split
  · exact Tr.pure hj2 fun b hb => by cases hb; exact g2.1
  · exact Tr.pure hj2 fun b hb => nomatch hb

theorem Tr.deleteReplace (hj : J C s) {a ch : Addr} (ga : C.Good s a) (i : Nat) (b : Byte) {r : DelRes}
    (gr : C.GoodDel r s) : Tr C (Art.deleteReplace a ch i b r : M V Addr) (fun a' s' => C.Good s' a') s := by
  unfold Art.deleteReplace
  split
  · refine Tr.bind (Tr.trackChannel hj _) fun _ s1 hj1 h1 _ => ?_
    refine Tr.bind (Tr.writeNode hj1 (ga.mono h1) false) fun a' s2 hj2 h2 g2 => ?_
    refine Tr.bind (Tr.setChildAt hj2 g2 fun b hb => (gr b hb).mono (h1.trans h2)) fun _ s3 hj3 h3 _ => ?_
    split
    · exact (Tr.removeChild hj3 (g2.mono h3) b).conseq fun _ _ _ _ h => h.1
    · exact Tr.pure hj3 (g2.mono h3).1
  · exact Tr.pure hj ga

theorem Tr.deleteFinish (hj : J C s) {a : Addr} (ga : C.Good s a) (r : DelRes) :
    Tr C (Art.deleteFinish a r : M V DelRes) C.GoodDel s := by
  unfold Art.deleteFinish
  refine Tr.bindCell hj ga fun c hc hok => ?_
  split
  · exact Tr.pure hj fun b hb => nomatch hb
  · exact Tr.pure hj fun b hb => by cases hb; exact ga

theorem Tr.recursiveDelete (hj : J C s) (fuel : Nat) {a : Addr} (ga : C.Good s a) (key : Key) (d : Nat) :
    Tr C (Art.recursiveDelete fuel a key d : M V DelRes) C.GoodDel s := by
  induction fuel generalizing s a d with
  | zero => exact Tr.throw hj
  | succ fuel ih =>
    unfold Art.recursiveDelete
    refine Tr.bindCell hj ga fun c hc hok => ?_
    refine Tr.bind (Tr.trackChannel hj _) fun _ s1 hj1 h1 _ => ?_
    replace hok := hok.mono h1
    replace ga := ga.mono h1
    split
    · exact Tr.pure hj1 fun b hb => nomatch hb
    · refine Tr.bind (Tr.leafHit hj1 hok key) fun r s2 hj2 h2 hr => ?_
      obtain ⟨rfl, hr⟩ := hr
      cases r with
      | some l => exact Tr.deleteHit hj1 ga
      | none =>
        simp only
        refine Tr.bindLift hj1 fun bail _ => ?_
        split
        · exact Tr.pure hj1 fun b hb => by cases hb; exact ga
        · refine Tr.bindLift hj1 fun b _ => Tr.bindLift hj1 fun r hr => ?_
          obtain ⟨x, idx⟩ := r
          cases x with
          | none => exact Tr.pure hj1 fun b hb => nomatch hb
          | some child =>
            simp only
            refine Tr.bind (ih hj1 (hok.pts _ (.inr (Cell.mem_findChild hr))) _) fun r s2 hj2 h2 hr => ?_
            refine Tr.bind (Tr.deleteReplace hj2 (ga.mono h2) idx b hr) fun a' s3 hj3 h3 g3 => ?_
            exact Tr.deleteFinish hj3 g3 r

/-! ### DeletePrefix -/

theorem Tr.compactSlots (hj : J C s) {a : Addr} (ga : C.OwnG s a) {m : List (Nat × Option Addr)}
    (hm : ∀ i b, (i, some b) ∈ m → C.Good s b) (k i slow : Nat) :
    Tr C (Art.compactSlots a m k i slow : M V Nat) (fun _ _ => True) s := by
  induction k generalizing s i slow with
  | zero => exact Tr.pure hj trivial
  | succ k ih =>
    unfold Art.compactSlots
    split
    · exact ih hj ga hm _ _
    · rename_i ch hl
      have hmem : (i, some ch) ∈ m := by
        rw [List.lookup_eq_some_iff] at hl
        obtain ⟨l1, l2, rfl, _⟩ := hl
        simp
      refine Tr.bind (Tr.setChildAt hj ga fun b hb => by cases hb; exact hm _ _ hmem) fun _ s1 hj1 h1 _ => ?_
      exact ih hj1 (ga.mono h1) (fun i b h => (hm i b h).mono h1) _ _
    · refine Tr.bindInner hj ga.1 fun n hn hok => ?_
      refine Tr.bindLift hj fun ch hch => ?_
      refine Tr.bind (Tr.setChildAt hj ga fun b hb => by subst hb; exact hok.childG b (Inner.mem_getChild hch))
        fun _ s1 hj1 h1 _ => ?_
      exact ih hj1 (ga.mono h1) (fun i b h => (hm i b h).mono h1) _ _

theorem Tr.clearFrom (hj : J C s) {a : Addr} (ga : C.OwnG s a) (i : Nat) :
    Tr C (Art.clearFrom a i : M V Unit) (fun _ _ => True) s := by
  unfold Art.clearFrom
  refine Tr.bindInner hj ga.1 fun n hn hok => ?_
  refine Tr.wrInner hj ga hn rfl hok.leafG ?_ rfl
  intro b hb
  simp only [List.mem_append, List.mem_replicate] at hb
  rcases hb with h | h
  · exact hok.childG b (List.mem_of_mem_take h)
  · exact nomatch h.2

theorem Tr.deletePrefixRebuild (hj : J C s) {a : Addr} (ga : C.Good s a) {m : List (Nat × Option Addr)}
    (hm : ∀ i b, (i, some b) ∈ m → C.Good s b) :
    Tr C (Art.deletePrefixRebuild a m : M V Addr) (fun a' s' => C.Good s' a') s := by
  unfold Art.deletePrefixRebuild
  refine Tr.bind (Tr.writeNode hj ga true) fun a' s1 hj1 h1 g1 => ?_
  refine Tr.bindInner hj1 g1.1 fun n hn hok => ?_
  refine Tr.bind (Tr.compactSlots hj1 g1 (fun i b h => (hm i b h).mono h1) _ _ _) fun slow s2 hj2 h2 _ => ?_
  refine Tr.bind (Tr.clearFrom hj2 (g1.mono h2) _) fun _ s3 hj3 h3 _ => ?_
  have g3 := (g1.mono h2).mono h3
  refine Tr.bindInner hj3 g3.1 fun n hn hok => ?_
  refine Tr.bind (Tr.wrInner hj3 g3 hn rfl hok.leafG hok.childG rfl) fun _ s4 hj4 h4 _ => ?_
  exact Tr.pure hj4 (g3.mono h4).1

theorem Tr.deletePrefixOwn (hj : J C s) (c : Cell V) (key : Key) :
    Tr C (Art.deletePrefixOwn c key : M V Nat) (fun _ _ => True) s := by
  unfold Art.deletePrefixOwn
  split
  · exact Tr.pure hj trivial
  · refine Tr.bindLeaf hj fun lc hlc => ?_
    split
    · exact Tr.bind (Tr.trackChannel hj _) fun _ s1 hj1 h1 _ => Tr.pure hj1 trivial
    · exact Tr.pure hj trivial

theorem Tr.deletePrefixLeaf (hj : J C s) {a : Addr} (ga : C.Good s a) (c : Cell V) (key : Key) :
    Tr C (Art.deletePrefixLeaf a c key : M V (Option Addr × Nat)) (fun r s' => ∀ b, r.1 = some b → C.Good s' b) s := by
  unfold Art.deletePrefixLeaf
  split
  · exact Tr.pure hj fun b hb => by cases hb; exact ga
  · refine Tr.bindLeaf hj fun lc hlc => ?_
    split
    · refine Tr.bind (Tr.trackChannel hj _) fun _ s1 hj1 h1 _ => ?_
      exact Tr.bind (Tr.trackChannel hj1 _) fun _ s1 hj1 h1 _ => Tr.pure hj1 fun b hb => nomatch hb
    · exact Tr.pure hj fun b hb => by cases hb; exact ga

theorem Tr.deletePrefixChildren {rec : Addr → M V (Option Addr × Nat)} (hj : J C s)
    (hrec : ∀ s b, J C s → C.Good s b → Tr C (rec b) (fun r s' => ∀ b, r.1 = some b → C.Good s' b) s)
    (l : List (Option Addr × Nat)) (hl : ∀ b i, (some b, i) ∈ l → C.Good s b) :
    Tr C (Art.deletePrefixChildren rec l) (fun r s' => ∀ i b, (i, some b) ∈ r.1 → C.Good s' b) s := by
  induction l generalizing s with
  | nil => exact Tr.pure hj fun i b h => by cases h
  | cons p rest ih =>
    obtain ⟨x, i⟩ := p
    cases x with
    | none => exact ih hj fun b i h => hl b i (.tail _ h)
    | some ch =>
      unfold Art.deletePrefixChildren
      refine Tr.bind (hrec s ch hj (hl ch i (.head _))) fun r s1 hj1 h1 hr => ?_
      obtain ⟨newCh, del⟩ := r
      simp only
      refine Tr.bind (Tr.trackChannel hj1 _) fun _ s2 hj2 h2 _ => ?_
      refine Tr.bind (ih hj2 fun b i h => (hl b i (.tail _ h)).mono (h1.trans h2)) fun r s3 hj3 h3 hr3 => ?_
      obtain ⟨m, total⟩ := r
      refine Tr.pure hj3 fun i b h => ?_
      rcases List.mem_cons.1 h with h | h
      · cases h; exact (hr _ rfl).mono (h2.trans h3)
      · exact hr3 i b h

theorem Tr.deletePrefix (hj : J C s) (fuel : Nat) {a : Addr} (ga : C.Good s a) (key : Key) (d : Nat) :
    Tr C (Art.deletePrefix fuel (some a) key d : M V (Option Addr × Nat)) (fun r s' => ∀ b, r.1 = some b → C.Good s' b) s := by
  induction fuel generalizing s a d with
  | zero => exact Tr.throw hj
  | succ fuel ih =>
    unfold Art.deletePrefix
    refine Tr.bindCell hj ga fun c hc hok => ?_
    split
    · exact Tr.deletePrefixLeaf hj ga c key
    · refine Tr.bindLift hj fun d' _ => ?_
      refine Tr.bind (Tr.deletePrefixOwn hj c key) fun own s1 hj1 h1 _ => ?_
      refine Tr.bind (Tr.deletePrefixChildren hj1 (fun s b hj gb => ih hj gb _) _ ?_) fun r s2 hj2 h2 hr => ?_
      · intro b i h
        have : some b ∈ c.children := by
          rw [List.mem_zipIdx_iff_getElem?] at h
          exact List.mem_of_getElem? h
        exact (hok.pts b (.inr this)).mono h1
      · obtain ⟨m, del⟩ := r
        simp only
        refine Tr.bind (Tr.deletePrefixRebuild hj2 ((ga.mono h1).mono h2) hr) fun a' s3 hj3 h3 g3 => ?_
        exact Tr.pure hj3 fun b hb => by cases hb; exact g3

end Art
