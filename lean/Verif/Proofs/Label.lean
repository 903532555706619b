import Verif.Proofs.RepTxn
import Verif.Proofs.Iso
/-
Which channels a write does not close.  `c0` is a channel that only copies of the leaf of the tree key `K` have
(`OnlyAt`); a part of a call that tracks no leaf with the key `K` does not put `c0` on the list of channels to be
closed.  Only the runs that return are considered: `Wl m s Q`.
-/
set_option autoImplicit false
set_option linter.unusedVariables false
set_option linter.unusedSimpArgs false
set_option linter.unusedSectionVars false
namespace Art
variable {V : Type} {α β : Type}

/-- If `m` returns, then `Q` holds of the result and the store. -/
def Wl (m : M V α) (s : St V) (Q : α → St V → Prop) : Prop := ∀ a s', m s = (.ok a, s') → Q a s'

variable {s s' s'' : St V} {Q : α → St V → Prop}

theorem Wl.bind {m : M V α} {f : α → M V β} {Q : β → St V → Prop} (h : Wl m s fun a s' => Wl (f a) s' Q) : Wl (m >>= f) s Q := by
  intro b s' hb
  have hb' := hb
  rw [bind_run] at hb'
  cases hm : m s with
  | mk r s1 =>
    rw [hm] at hb'
    cases r with
    | ok a => exact h a s1 hm b s' hb'
    | error e => cases hb'

theorem Wl.pure {a : α} (h : Q a s) : Wl (Pure.pure a : M V α) s Q := fun b s' hb => by cases hb; exact h
theorem Wl.mono {m : M V α} {Q' : α → St V → Prop} (h : Wl m s Q) (hq : ∀ a s', Q a s' → Q' a s') : Wl m s Q' := fun a s' ha => hq a s' (h a s' ha)
theorem Wl.and {m : M V α} {Q' : α → St V → Prop} (h : Wl m s Q) (h' : Wl m s Q') : Wl m s fun a s' => Q a s' ∧ Q' a s' :=
  fun a s' ha => ⟨h a s' ha, h' a s' ha⟩
theorem Runs.wl {m : M V α} (h : Runs m s Q) : Wl m s Q := fun a s' ha => by
  obtain ⟨b, s1, h1, h2⟩ := h
  rw [ha] at h1; cases h1
  exact h2
theorem Wl.throw {e : Err} : Wl (M.throw e : M V α) s Q := fun a s' ha => by cases ha
theorem Wl.lift {r : R α} (h : ∀ a, r = .ok a → Q a s) : Wl (M.lift r : M V α) s Q := fun a s' ha => by
  unfold M.lift at ha
  cases hr : r with
  | ok b => rw [hr] at ha; cases ha; exact h _ hr
  | error e => rw [hr] at ha; cases ha
theorem Wl.assert {p : Prop} [Decidable p] {e : Err} {Q : Unit → St V → Prop} (h : Q () s) : Wl (M.assert p e : M V Unit) s Q := fun a s' ha => by
  unfold M.assert at ha
  split at ha
  · cases ha; exact h
  · cases ha
theorem Wl.get {Q : St V → St V → Prop} (h : Q s s) : Wl (M.get : M V (St V)) s Q := fun a s' ha => by cases ha; exact h
theorem Wl.txnSt {Q : TxnSt → St V → Prop} (h : Q s.txn s) : Wl (Art.txnSt : M V TxnSt) s Q := fun a s' ha => by cases ha; exact h
theorem Wl.modTxn {f : TxnSt → TxnSt} {Q : Unit → St V → Prop} (h : Q () { s with txn := f s.txn }) : Wl (Art.modTxn f : M V Unit) s Q :=
  fun a s' ha => by cases ha; exact h
theorem Wl.cell {a : Addr} {Q : Cell V → St V → Prop} (h : ∀ c, s.heap[a]? = some c → Q c s) : Wl (Art.cell a : M V (Cell V)) s Q := fun c s' hc => by
  unfold Art.cell rd at hc
  dsimp only at hc
  cases hx : s.heap[a]? with
  | none => rw [hx] at hc; cases hc
  | some d => rw [hx] at hc; cases hc; exact h _ hx
theorem Wl.innerAt {a : Addr} {Q : Inner → St V → Prop} (h : ∀ n, s.heap[a]? = some (.inner n) → Q n s) : Wl (Art.innerAt a : M V Inner) s Q := fun c s' hc => by
  unfold Art.innerAt rdInner at hc
  dsimp only at hc
  cases hx : s.heap[a]? with
  | none => rw [hx] at hc; cases hc
  | some d =>
    cases d with
    | leaf l => rw [hx] at hc; cases hc
    | inner n => rw [hx] at hc; cases hc; exact h _ hx
theorem Wl.leafAt {a : Addr} {Q : LeafC V → St V → Prop} (h : ∀ n, s.heap[a]? = some (.leaf n) → Q n s) : Wl (Art.leafAt a : M V (LeafC V)) s Q := fun c s' hc => by
  unfold Art.leafAt rdLeaf at hc
  dsimp only at hc
  cases hx : s.heap[a]? with
  | none => rw [hx] at hc; cases hc
  | some d =>
    cases d with
    | inner l => rw [hx] at hc; cases hc
    | leaf n => rw [hx] at hc; cases hc; exact h _ hx
theorem Wl.wr {a : Addr} {c : Cell V} {Q : Unit → St V → Prop} (h : Q () { s with heap := s.heap.set a c }) : Wl (Art.wr a c : M V Unit) s Q :=
  fun _ _ ha => by cases ha; exact h
theorem Wl.wrCh {a : Addr} {k : ChanId} {c : Cell V} {Q : Unit → St V → Prop} (hc : s.heap[a]? = some c)
    (h : Q () { s with heap := s.heap.set a (c.setCh (some k)) }) : Wl (Art.wrCh a k : M V Unit) s Q :=
  fun _ _ ha => by
    have e : (Art.wrCh a k : M V Unit) s = (.ok (), { s with heap := s.heap.set a (c.setCh (some k)) }) := by
      rw [← setChan_some hc k]; rfl
    rw [e] at ha; cases ha; exact h
theorem Wl.claimCh {a : Addr} {k : ChanId} {c : Cell V} {Q : ChanId → St V → Prop} (hc : s.heap[a]? = some c) (hn : c.ch = none)
    (h : Q k { s with heap := s.heap.set a (c.setCh (some k)) }) : Wl (Art.claimCh a k : M V ChanId) s Q :=
  fun _ _ ha => by rw [claimCh_run hc hn] at ha; cases ha; exact h
theorem Wl.newCell {c : Cell V} {Q : Nat → St V → Prop} (h : Q s.heap.length { s with heap := s.heap ++ [c] }) : Wl (Art.newCell c : M V Nat) s Q :=
  fun _ _ ha => by cases ha; exact h
theorem Wl.newChan {Q : ChanId → St V → Prop} (h : Q s.chans.length { s with chans := s.chans ++ [false] }) : Wl (Art.newChan : M V ChanId) s Q :=
  fun _ _ ha => by cases ha; exact h
theorem Wl.ite {p : Prop} [Decidable p] {m m' : M V α} (h : p → Wl m s Q) (h' : ¬ p → Wl m' s Q) : Wl (if p then m else m') s Q := by
  split
  · next hp => exact h hp
  · next hp => exact h' hp

/-! ### Steps that do not track the channel -/

/-- Only leaves with the key `K` have the channel `c0`, and it is not about to be closed. -/
structure NT (c0 : ChanId) (K : Key) (s : St V) : Prop where
  only : OnlyAt s.heap c0 (some K)
  lt : c0 < s.chans.length
  out : c0 ∉ s.txn.trackChnSlice

/-- The children of a node. -/
def Cell.kids : Cell V → List (Option Addr)
  | .leaf _ => []
  | .inner n => n.children

/-- A step: labels stay; nodes outside `X` keep their leaf and their children; the channel `c0` stays untracked. -/
structure Ns (c0 : ChanId) (K : Key) (X : Addr → Prop) (s s' : St V) : Prop where
  len : s.heap.length ≤ s'.heap.length
  keep : ∀ (a : Addr) (c : Cell V), s.heap[a]? = some c → ∃ c' : Cell V, s'.heap[a]? = some c' ∧ c'.label = c.label ∧ (¬ X a → c'.nodeLeaf = c.nodeLeaf ∧ c'.kids = c.kids)
  ok : NT c0 K s → NT c0 K s'

/-- The node is no leaf with the key `K`. -/
def NotK (K : Key) (h : Heap V) (a : Addr) : Prop := ∃ c : Cell V, h[a]? = some c ∧ c.label ≠ some K

/-- A leaf with another key than `K`. -/
def Other (K : Key) (h : Heap V) (a : Addr) : Prop := ∃ lc : LeafC V, h[a]? = some (.leaf lc) ∧ lc.key ≠ K

/-- An inner node whose own leaf, if any, has another key than `K`. -/
def OwnNe (K : Key) (h : Heap V) (a : Addr) : Prop := ∃ n : Inner, h[a]? = some (.inner n) ∧ ∀ l, n.leaf = some l → Other K h l

/-- An inner node whose children, stale ones included, are no leaves with the key `K`. -/
def KidsNe (K : Key) (h : Heap V) (a : Addr) : Prop := ∃ n : Inner, h[a]? = some (.inner n) ∧ ∀ c, some c ∈ n.children → NotK K h c

variable {c0 : ChanId} {K : Key} {X Y : Addr → Prop} {a b : Addr}

theorem Ns.refl : Ns c0 K X s s := ⟨Nat.le_refl _, fun a c h => ⟨c, h, rfl, fun _ => ⟨rfl, rfl⟩⟩, fun h => h⟩
theorem Ns.trans (h1 : Ns c0 K X s s') (h2 : Ns c0 K Y s' s'') (hY : ∀ x, x < s.heap.length → Y x → X x) : Ns c0 K X s s'' where
  len := Nat.le_trans h1.len h2.len
  keep := fun a c h => by
    obtain ⟨c1, g1, g2, g3⟩ := h1.keep a c h
    obtain ⟨c2, k1, k2, k3⟩ := h2.keep a c1 g1
    refine ⟨c2, k1, k2.trans g2, fun hX => ?_⟩
    obtain ⟨x1, x2⟩ := g3 hX
    obtain ⟨y1, y2⟩ := k3 fun hy => hX (hY a (lt_of_get h) hy)
    exact ⟨y1.trans x1, y2.trans x2⟩
  ok := fun h => h2.ok (h1.ok h)
theorem Ns.mono (h : Ns c0 K X s s') (hX : ∀ x, x < s.heap.length → X x → Y x) : Ns c0 K Y s s' :=
  { h with
    keep := fun a c hc => by
      obtain ⟨c1, g1, g2, g3⟩ := h.keep a c hc
      exact ⟨c1, g1, g2, fun hy => g3 fun hx => hy (hX a (lt_of_get hc) hx)⟩ }

/-- A step that changes the structure of no node. -/
abbrev Ns0 (c0 : ChanId) (K : Key) (s s' : St V) : Prop := Ns c0 K (fun _ => False) s s'
/-- A step that may change all nodes. -/
abbrev NsA (c0 : ChanId) (K : Key) (s s' : St V) : Prop := Ns c0 K (fun _ => True) s s'

theorem Ns.all (h : Ns c0 K X s s') : NsA c0 K s s' := h.mono fun _ _ _ => trivial
theorem Ns.then0 (h : Ns c0 K X s s') (h2 : Ns0 c0 K s' s'') : Ns c0 K X s s'' := h.trans h2 fun _ _ h => h.elim
theorem Ns.thenA (h : NsA c0 K s s') (h2 : Ns c0 K X s' s'') : NsA c0 K s s'' := h.trans h2 fun _ _ _ => trivial

theorem NotK.step (h : Ns c0 K X s s') (ha : NotK K s.heap a) : NotK K s'.heap a := by
  obtain ⟨c, h1, h2⟩ := ha
  obtain ⟨c', g1, g2, -⟩ := h.keep a c h1
  exact ⟨c', g1, by rw [g2]; exact h2⟩

theorem Other.step (h : Ns c0 K X s s') (ha : Other K s.heap a) : Other K s'.heap a := by
  obtain ⟨c, h1, h2⟩ := ha
  obtain ⟨c', g1, g2, -⟩ := h.keep a _ h1
  cases c' with
  | inner n => cases g2
  | leaf lc => exact ⟨lc, g1, by rw [Option.some.inj g2]; exact h2⟩

theorem Other.notK {h : Heap V} (ha : Other K h a) : NotK K h a := by
  obtain ⟨c, h1, h2⟩ := ha
  exact ⟨_, h1, fun h => h2 (Option.some.inj h)⟩

theorem Ns.inner (h : Ns c0 K X s s') {n : Inner} (ha : s.heap[a]? = some (.inner n)) :
    ∃ n' : Inner, s'.heap[a]? = some (.inner n') ∧ (¬ X a → n'.leaf = n.leaf ∧ n'.children = n.children) := by
  obtain ⟨c', g1, g2, g3⟩ := h.keep a _ ha
  cases c' with
  | leaf l => cases g2
  | inner n' => exact ⟨n', g1, g3⟩

theorem OwnNe.step (h : Ns c0 K X s s') (hX : ¬ X a) (ha : OwnNe K s.heap a) : OwnNe K s'.heap a := by
  obtain ⟨n, h1, h2⟩ := ha
  obtain ⟨n', g1, g2⟩ := h.inner h1
  exact ⟨n', g1, fun l hl => (h2 l ((g2 hX).1 ▸ hl)).step h⟩

theorem KidsNe.step (h : Ns c0 K X s s') (hX : ¬ X a) (ha : KidsNe K s.heap a) : KidsNe K s'.heap a := by
  obtain ⟨n, h1, h2⟩ := ha
  obtain ⟨n', g1, g2⟩ := h.inner h1
  exact ⟨n', g1, fun l hl => (h2 l (by rw [← (g2 hX).2]; exact hl)).step h⟩

theorem OwnNe.notK (h : OwnNe K s.heap a) : NotK K s.heap a := by
  obtain ⟨n, h1, -⟩ := h
  exact ⟨_, h1, by simp [Cell.label]⟩
theorem notK_inner {h : Heap V} {n : Inner} (ha : h[a]? = some (.inner n)) : NotK K h a := ⟨_, ha, by simp [Cell.label]⟩

theorem Ns.set {c c' : Cell V} (ha : s.heap[a]? = some c) (hch : c'.ch = c.ch) (hl : c'.label = c.label) :
    Ns c0 K (fun x => x = a) s { s with heap := s.heap.set a c' } where
  len := by simp
  keep := fun x d hd => by
    show ∃ d', (s.heap.set a c')[x]? = some d' ∧ _
    by_cases hx : a = x
    · subst hx
      rw [ha] at hd; cases hd
      exact ⟨c', get_set_self (lt_of_get ha), hl, fun h => absurd rfl h⟩
    · exact ⟨d, by rw [get_set_ne hx]; exact hd, rfl, fun _ => ⟨rfl, rfl⟩⟩
  ok := fun h => ⟨fun x d hd hk => by
    have hd' : (s.heap.set a c')[x]? = some d := hd
    by_cases hx : a = x
    · subst hx
      rw [get_set_self (lt_of_get ha)] at hd'; cases hd'
      rw [hl]; exact h.only a c ha (hch ▸ hk)
    · rw [get_set_ne hx] at hd'
      exact h.only x d hd' hk, h.lt, h.out⟩

theorem Ns.set0 {c c' : Cell V} (ha : s.heap[a]? = some c) (hch : c'.ch = c.ch) (hl : c'.label = c.label) (hn : c'.nodeLeaf = c.nodeLeaf) (hk : c'.kids = c.kids) :
    Ns0 c0 K s { s with heap := s.heap.set a c' } :=
  { Ns.set ha hch hl with
    keep := fun x d hd => by
      show ∃ d', (s.heap.set a c')[x]? = some d' ∧ _
      by_cases hx : a = x
      · subst hx
        rw [ha] at hd; cases hd
        exact ⟨c', get_set_self (lt_of_get ha), hl, fun _ => ⟨hn, hk⟩⟩
      · exact ⟨d, by rw [get_set_ne hx]; exact hd, rfl, fun _ => ⟨rfl, rfl⟩⟩ }

theorem get_old {h : Heap V} {c : Cell V} {x : Addr} {d : Cell V} (hd : h[x]? = some d) : (h ++ [c])[x]? = some d := by
  rw [List.getElem?_append_left (lt_of_get hd)]; exact hd
theorem get_snoc {h : Heap V} {c : Cell V} {x : Addr} {d : Cell V} (hd : (h ++ [c])[x]? = some d) : h[x]? = some d ∨ (x = h.length ∧ d = c) := by
  by_cases hx : x < h.length
  · rw [List.getElem?_append_left hx] at hd; exact Or.inl hd
  · have := lt_of_get hd
    simp only [List.length_append, List.length_cons, List.length_nil] at this
    have hxe : x = h.length := by omega
    subst hxe
    rw [List.getElem?_concat_length] at hd
    cases hd; exact Or.inr ⟨rfl, rfl⟩

theorem Ns.alloc {c : Cell V} (hc : c.ch = none ∨ ∃ (x : Addr) (d : Cell V), s.heap[x]? = some d ∧ d.ch = c.ch ∧ d.label = c.label) :
    Ns0 c0 K s { s with heap := s.heap ++ [c] } where
  len := by simp
  keep := fun x d hd => ⟨d, get_old hd, rfl, fun _ => ⟨rfl, rfl⟩⟩
  ok := fun h => ⟨fun x d hd hk => by
    rcases get_snoc hd with hd | ⟨rfl, rfl⟩
    · exact h.only x d hd hk
    · rcases hc with hc | ⟨x, d', h1, h2, h3⟩
      · rw [hc] at hk; cases hk
      · rw [← h3]; exact h.only x d' h1 (h2 ▸ hk), h.lt, h.out⟩

theorem Ns.chan : Ns0 c0 K s { s with chans := s.chans ++ [false] } where
  len := Nat.le_refl _
  keep := fun x d hd => ⟨d, hd, rfl, fun _ => ⟨rfl, rfl⟩⟩
  ok := fun h => ⟨h.only, by simp only [List.length_append]; exact Nat.lt_add_right _ h.lt, h.out⟩

theorem Ns.txn {t : TxnSt} (ht : t.trackChnSlice = s.txn.trackChnSlice) : Ns0 c0 K s { s with txn := t } where
  len := Nat.le_refl _
  keep := fun x d hd => ⟨d, hd, rfl, fun _ => ⟨rfl, rfl⟩⟩
  ok := fun h => ⟨h.only, h.lt, by show c0 ∉ t.trackChnSlice; rw [ht]; exact h.out⟩

/-- The channel `k` is put into the node `a`, where `c0 ≠ k`. -/
theorem Ns.setCh {c : Cell V} {k : ChanId} (ha : s.heap[a]? = some c) (hk : k ≠ c0 ) :
    Ns0 c0 K s { s with heap := s.heap.set a (c.setCh (some k)) } where
  len := by simp
  keep := fun x d hd => by
    show ∃ d', (s.heap.set a _)[x]? = some d' ∧ _
    by_cases hx : a = x
    · subst hx
      rw [ha] at hd; cases hd
      exact ⟨_, get_set_self (lt_of_get ha), Cell.label_setCh _ _, fun _ => by cases c <;> exact ⟨rfl, rfl⟩⟩
    · exact ⟨d, by rw [get_set_ne hx]; exact hd, rfl, fun _ => ⟨rfl, rfl⟩⟩
  ok := fun h => ⟨fun x d hd hk' => by
    have hd' : (s.heap.set a (c.setCh (some k)))[x]? = some d := hd
    by_cases hx : a = x
    · subst hx
      rw [get_set_self (lt_of_get ha)] at hd'; cases hd'
      cases c <;> exact absurd (Option.some.inj hk') hk
    · rw [get_set_ne hx] at hd'
      exact h.only x d hd' hk', h.lt, h.out⟩

/-! ### Channels and copying -/

theorem getMutateCh_ns (hn : NT c0 K s) : Wl (getMutateCh a : M V ChanId) s fun k s' => Ns0 c0 K s s' ∧ ∃ c : Cell V, s'.heap[a]? = some c ∧ c.ch = some k := by
  unfold getMutateCh
  refine Wl.bind (Wl.cell fun c hc => ?_)
  split
  · next k hk => exact Wl.pure ⟨Ns.refl, c, hc, hk⟩
  · next hk =>
    refine Wl.bind (Wl.newChan (Wl.claimCh hc hk ?_))
    refine ⟨Ns.chan.then0 (Ns.setCh (s := { s with chans := s.chans ++ [false] }) hc (Nat.ne_of_gt hn.lt)), _, get_set_self (lt_of_get hc), by cases c <;> rfl⟩

theorem trackChannel_ns {o : Option Addr} (hn : NT c0 K s) (ho : ∀ x, o = some x → NotK K s.heap x) : Wl (trackChannel o : M V Unit) s fun _ s' => Ns0 c0 K s s' := by
  unfold trackChannel
  refine Wl.bind (Wl.txnSt (Wl.ite (fun _ => Wl.pure Ns.refl) fun _ => ?_))
  split
  · exact Wl.pure Ns.refl
  · next a =>
    refine Wl.bind ((getMutateCh_ns hn).mono ?_)
    rintro k s1 ⟨h1, c, hc, hk⟩
    have hne : k ≠ c0 := fun h => by
      subst h
      obtain ⟨c', g1, g2⟩ := (ho a rfl).step h1
      rw [hc] at g1; cases g1
      exact g2 ((h1.ok hn).only a c hc hk)
    have hn1 := h1.ok hn
    have h2 : Ns0 c0 K s1 { s1 with txn := { s1.txn with trackChnSlice := s1.txn.trackChnSlice ++ [k] } } :=
      ⟨Nat.le_refl _, fun x d hd => ⟨d, hd, rfl, fun _ => ⟨rfl, rfl⟩⟩, fun h => ⟨h.only, h.lt, fun hm => by
        rcases List.mem_append.1 hm with hm | hm
        · exact h.out hm
        · exact hne (List.mem_singleton.1 hm).symm⟩⟩
    refine Wl.bind (Wl.modTxn (Wl.bind (Wl.newChan (Wl.wrCh hc ?_))))
    exact ((h1.then0 h2).then0 Ns.chan).then0 (Ns.setCh (s := { s1 with txn := _, chans := _ }) hc (Nat.ne_of_gt hn1.lt))

/-- The node `r` of the later store is a copy of the node `a` of the earlier one. -/
def Copy (s s' : St V) (a r : Addr) : Prop := (r = a ∨ s.heap.length ≤ r) ∧
  ∀ c, s.heap[a]? = some c → ∃ c', s'.heap[r]? = some c' ∧ c'.label = c.label ∧ c'.nodeLeaf = c.nodeLeaf ∧ c'.kids = c.kids

theorem bumpId_ns (hn : NT c0 K s) : Wl (bumpId a : M V Unit) s fun _ s' => Ns0 c0 K s s' := by
  unfold bumpId
  refine Wl.bind (Wl.modTxn (Wl.bind (Wl.txnSt (Wl.bind (Wl.cell fun c hc => Wl.wr ?_)))))
  exact (Ns.txn (s := s) (t := { s.txn with maxNodeId := s.txn.maxNodeId + 1 }) rfl).then0 (Ns.set0 hc (Cell.ch_setId _ _) (Cell.label_setId _ _) (by cases c <;> rfl) (by cases c <;> rfl))

theorem cloneNode_ns {kw : Bool} (hn : NT c0 K s) : Wl (cloneNode a kw : M V Addr) s fun r s' => Ns0 c0 K s s' ∧ Copy s s' a r := by
  unfold cloneNode
  suffices h : Wl (keepCh a kw : M V (Option ChanId)) s fun k s' => Ns0 c0 K s s' ∧ (k = none ∨ ∃ c : Cell V, s'.heap[a]? = some c ∧ c.ch = k) by
    refine Wl.bind (h.mono ?_)
    rintro k s1 ⟨h1, h2⟩
    refine Wl.bind (Wl.cell fun c hc => ?_)
    have hcp : ∀ c' : Cell V, c'.ch = k → c'.label = c.label → c'.nodeLeaf = c.nodeLeaf → c'.kids = c.kids →
        Wl (newCell c' : M V Addr) s1 fun r s' => Ns0 c0 K s s' ∧ Copy s s' a r := fun c' g1 g2 g3 g4 => by
      refine Wl.newCell ⟨h1.then0 (Ns.alloc ?_), Or.inr h1.len, fun d hd => ?_⟩
      · rcases h2 with rfl | ⟨d, k1, k2⟩
        · exact Or.inl g1
        · rw [hc] at k1; cases k1
          exact Or.inr ⟨a, c, hc, by rw [k2, g1], g2.symm⟩
      · obtain ⟨d', x1, x2, x3⟩ := h1.keep a d hd
        rw [hc] at x1; cases x1
        obtain ⟨x3, x4⟩ := x3 fun h => h
        exact ⟨c', List.getElem?_concat_length, g2.trans x2, g3.trans x3, g4.trans x4⟩
    cases c with
    | leaf l => exact hcp _ rfl rfl rfl rfl
    | inner n => exact hcp _ rfl rfl rfl rfl
  unfold keepCh
  refine Wl.ite (fun _ => ?_) fun _ => Wl.pure ⟨Ns.refl, Or.inl rfl⟩
  refine Wl.bind ((getMutateCh_ns hn).mono ?_)
  rintro k s1 ⟨h1, c, h2, h3⟩
  exact Wl.pure ⟨h1, Or.inr ⟨c, h2, h3⟩⟩

theorem Copy.step {r : Addr} (h : Copy s s' a r) (h2 : Ns0 c0 K s' s'') : Copy s s'' a r := by
  refine ⟨h.1, fun c hc => ?_⟩
  obtain ⟨c', g1, g2, g3, g4⟩ := h.2 c hc
  obtain ⟨c2, k1, k2, k3⟩ := h2.keep r c' g1
  obtain ⟨k3, k4⟩ := k3 fun h => h
  exact ⟨c2, k1, k2.trans g2, k3.trans g3, k4.trans g4⟩
theorem Copy.of {r : Addr} (h1 : Ns0 c0 K s s') (h : Copy s' s'' a r) : Copy s s'' a r := by
  refine ⟨h.1.imp_right fun h => Nat.le_trans h1.len h, fun c hc => ?_⟩
  obtain ⟨c', g1, g2, g3⟩ := h1.keep a c hc
  obtain ⟨g3, g4⟩ := g3 fun h => h
  obtain ⟨c2, k1, k2, k3, k4⟩ := h.2 c' g1
  exact ⟨c2, k1, k2.trans g2, k3.trans g3, k4.trans g4⟩
theorem Copy.inner {r : Addr} {n : Inner} (h : Copy s s' a r) (ha : s.heap[a]? = some (.inner n)) : ∃ n' : Inner, s'.heap[r]? = some (.inner n') ∧ n'.leaf = n.leaf ∧ n'.children = n.children := by
  obtain ⟨c', g1, g2, g3, g4⟩ := h.2 _ ha
  cases c' with
  | leaf l => cases g2
  | inner n' => exact ⟨n', g1, g3, g4⟩
theorem Copy.notK {r : Addr} (h : Copy s s' a r) (ha : NotK K s.heap a) : NotK K s'.heap r := by
  obtain ⟨c, h1, h2⟩ := ha
  obtain ⟨c', g1, g2, -⟩ := h.2 c h1
  exact ⟨c', g1, by rw [g2]; exact h2⟩
theorem Copy.other {r : Addr} (h : Copy s s' a r) (ha : Other K s.heap a) : Other K s'.heap r := by
  obtain ⟨c, h1, h2⟩ := ha
  obtain ⟨c', g1, g2, -⟩ := h.2 _ h1
  cases c' with
  | inner n => cases g2
  | leaf lc => exact ⟨lc, g1, by rw [Option.some.inj g2]; exact h2⟩
theorem Copy.own {r : Addr} (h : Copy s s' a r) (hs : Ns c0 K X s s') (ha : OwnNe K s.heap a) : OwnNe K s'.heap r := by
  obtain ⟨n, h1, h2⟩ := ha
  obtain ⟨n', g1, g2, -⟩ := h.inner h1
  exact ⟨n', g1, fun l hl => (h2 l (g2 ▸ hl)).step hs⟩
theorem Copy.kids {r : Addr} (h : Copy s s' a r) (hs : Ns c0 K X s s') (ha : KidsNe K s.heap a) : KidsNe K s'.heap r := by
  obtain ⟨n, h1, h2⟩ := ha
  obtain ⟨n', g1, -, g2⟩ := h.inner h1
  exact ⟨n', g1, fun l hl => (h2 l (by rw [← g2]; exact hl)).step hs⟩

/-- The leaf of a node, if any, is no leaf with the key `K`. -/
def LeafNe (K : Key) (h : Heap V) (a : Addr) : Prop := ∃ c : Cell V, h[a]? = some c ∧ ∀ l, c.nodeLeaf = some l → NotK K h l

theorem OwnNe.leafNe {h : Heap V} (ha : OwnNe K h a) : LeafNe K h a := by
  obtain ⟨n, h1, h2⟩ := ha
  exact ⟨_, h1, fun l hl => (h2 l hl).notK⟩

theorem Other.leafNe {h : Heap V} (ha : Other K h a) : LeafNe K h a := by
  obtain ⟨n, h1, h2⟩ := ha
  exact ⟨_, h1, fun l hl => by cases hl⟩

theorem trackNode_ns {t : Bool} (hn : NT c0 K s) (ht : t = true → NotK K s.heap a ∧ LeafNe K s.heap a) : Wl (trackNode a t : M V Unit) s fun _ s' => Ns0 c0 K s s' := by
  unfold trackNode
  refine Wl.ite (fun htt => ?_) fun _ => Wl.pure Ns.refl
  obtain ⟨h1, c, hc, h2⟩ := ht htt
  refine Wl.bind ((trackChannel_ns hn fun x hx => by cases hx; exact h1).mono fun _ s1 g1 => ?_)
  refine Wl.bind (Wl.cell fun c1 hc1 => ?_)
  obtain ⟨c', k1, k2, k3⟩ := g1.keep a c hc
  rw [hc1] at k1; cases k1
  refine (trackChannel_ns (g1.ok hn) fun x hx => (h2 x ?_).step g1).mono fun _ s2 g2 => g1.then0 g2
  rw [← (k3 fun h => h).1]; exact hx

theorem writeNode_ns {t : Bool} (hn : NT c0 K s) (ht : t = true → NotK K s.heap a ∧ LeafNe K s.heap a) :
    Wl (writeNode a t : M V Addr) s fun r s' => Ns0 c0 K s s' ∧ Copy s s' a r := by
  unfold writeNode
  refine Wl.bind ((trackNode_ns hn ht).mono fun _ s1 h1 => ?_)
  refine Wl.bind (Wl.cell fun c hc => Wl.bind (Wl.txnSt (Wl.ite (fun _ => Wl.pure ⟨h1, ?_⟩) fun _ => ?_)))
  · refine ⟨Or.inl rfl, fun d hd => ?_⟩
    obtain ⟨d', k1, k2, k3⟩ := h1.keep a d hd
    exact ⟨d', k1, k2, (k3 fun h => h).1, (k3 fun h => h).2⟩
  · refine Wl.bind ((cloneNode_ns (h1.ok hn)).mono ?_)
    rintro r s2 ⟨h2, h3⟩
    refine Wl.bind ((bumpId_ns (h2.ok (h1.ok hn))).mono fun _ s3 h4 => Wl.pure ⟨(h1.then0 h2).then0 h4, (h3.of h1).step h4⟩)

theorem allocInner_ns {k : Kind} (hn : NT c0 K s) : Wl (allocInner k : M V Addr) s fun r s' => Ns0 c0 K s s' ∧ s.heap.length ≤ r ∧
    ∃ n : Inner, s'.heap[r]? = some (.inner n) ∧ n.leaf = none := by
  unfold allocInner
  refine Wl.bind (Wl.newCell ?_)
  have h1 : Ns0 c0 K s { s with heap := s.heap ++ [.inner (blankInner k)] } := Ns.alloc (Or.inl rfl)
  refine Wl.bind ((bumpId_ns (h1.ok hn)).mono fun _ s2 h2 => Wl.pure ⟨h1.then0 h2, Nat.le_refl _, ?_⟩)
  obtain ⟨n, g1, g2⟩ := h2.inner (n := blankInner k) List.getElem?_concat_length
  exact ⟨n, g1, (g2 fun h => h).1⟩

theorem allocLeaf_ns {key : Key} {v : V} (hn : NT c0 K s) : Wl (allocLeaf key v : M V Addr) s fun r s' => Ns0 c0 K s s' ∧ s.heap.length ≤ r ∧
    (key ≠ K → Other K s'.heap r) := by
  unfold allocLeaf
  refine Wl.bind (Wl.newCell ?_)
  have h1 : Ns0 c0 K s { s with heap := s.heap ++ [.leaf { id := 0, value := v, key := key, ch := none }] } := Ns.alloc (Or.inl rfl)
  refine Wl.bind ((bumpId_ns (h1.ok hn)).mono fun _ s2 h2 => Wl.pure ⟨h1.then0 h2, Nat.le_refl _, ?_⟩)
  exact fun hk => Other.step h2 ⟨_, List.getElem?_concat_length, hk⟩

theorem setNodeLeaf_ns {l : Option Addr} (hn : NT c0 K s) : Wl (setNodeLeaf a l : M V Unit) s fun _ s' => Ns c0 K (fun x => x = a) s s' ∧ ∃ n : Inner, s'.heap[a]? = some (.inner n) ∧ n.leaf = l := by
  unfold setNodeLeaf
  refine Wl.bind (Wl.innerAt fun n hn => Wl.wr ⟨Ns.set hn rfl rfl, _, get_set_self (lt_of_get hn), rfl⟩)

theorem Inner.setChild_eq {n n' : Inner} {i : Nat} {o : Option Addr} (h : n.setChild i o = .ok n') : n' = { n with children := n.children.set i o } := by
  unfold Inner.setChild at h
  split at h
  · exact (Except.ok.inj h).symm
  · cases h
theorem Inner.setKeyAtIdx_eq {n n' : Inner} {i : Nat} {o : Byte} (h : n.setKeyAtIdx i o = .ok n') : n'.leaf = n.leaf ∧ n'.children = n.children ∧ n'.ch = n.ch := by
  unfold Inner.setKeyAtIdx at h
  split at h
  · cases h; exact ⟨rfl, rfl, rfl⟩
  · split at h
    · cases h; exact ⟨rfl, rfl, rfl⟩
    · cases h

theorem setChildAt_ns {i : Nat} {o : Option Addr} (hn : NT c0 K s) : Wl (setChildAt a i o : M V Unit) s fun _ s' => Ns c0 K (fun x => x = a) s s' ∧
    (OwnNe K s.heap a → OwnNe K s'.heap a) ∧ (KidsNe K s.heap a → (∀ x, o = some x → NotK K s.heap x) → KidsNe K s'.heap a) := by
  unfold setChildAt
  refine Wl.bind (Wl.innerAt fun n hn => Wl.bind (Wl.lift fun n' hn' => Wl.wr ?_))
  have hst : Ns c0 K (fun x => x = a) s { s with heap := s.heap.set a (.inner n') } := by
    rw [Inner.setChild_eq hn']; exact Ns.set hn rfl rfl
  refine ⟨hst, ?_, ?_⟩
  · rintro ⟨m, h1, h2⟩
    rw [hn] at h1; cases h1
    refine ⟨n', get_set_self (lt_of_get hn), fun l hl => (h2 l ?_).step hst⟩
    rw [Inner.setChild_eq hn'] at hl; exact hl
  · rintro ⟨m, h1, h2⟩ ho
    rw [hn] at h1; cases h1
    refine ⟨n', get_set_self (lt_of_get hn), fun l hl => ?_⟩
    rw [Inner.setChild_eq hn'] at hl
    rcases List.mem_or_eq_of_mem_set hl with h | h
    · exact (h2 l h).step hst
    · exact (ho l h.symm).step hst

theorem makeLeaf_ns {key : Key} {v : V} (hn : NT c0 K s) (hk : key ≠ K) : Wl (makeLeaf key v : M V Addr) s fun r s' => Ns0 c0 K s s' ∧ s.heap.length ≤ r ∧ OwnNe K s'.heap r := by
  unfold makeLeaf
  refine Wl.bind ((allocLeaf_ns hn).mono ?_)
  rintro l s1 ⟨h1, hl, h2⟩
  have hn1 := h1.ok hn
  refine Wl.bind ((bumpId_ns hn1).mono fun _ s2 h4 => ?_)
  have hn2 := h4.ok hn1
  refine Wl.bind ((allocInner_ns hn2).mono ?_)
  rintro a s3 ⟨h5, ha, n, h6, h7⟩
  have hn3 := h5.ok hn2
  refine Wl.bind ((setNodeLeaf_ns hn3).mono ?_)
  rintro _ s4 ⟨h8, m, h9, h10⟩
  refine Wl.bind ((bumpId_ns (h8.ok hn3)).mono fun _ s5 h11 => Wl.pure ?_)
  have hlen := Nat.le_trans (h1.then0 h4).len ha
  have h0 : Ns0 c0 K s s4 := ((h1.then0 h4).then0 h5).trans h8 (fun x hx hxa => by subst hxa; omega)
  refine ⟨h0.then0 h11, hlen, OwnNe.step (X := fun _ => False) h11 (fun h => h) ⟨m, h9, fun l' hl' => ?_⟩⟩
  rw [h10] at hl'; cases hl'
  exact (((h2 hk).step h4).step h5).step h8

theorem copyHeader_ns {d x : Addr} (hn : NT c0 K s) : Wl (copyHeader d x : M V Unit) s fun _ s' => Ns0 c0 K s s' := by
  unfold copyHeader
  refine Wl.bind (Wl.innerAt fun n hn => Wl.bind (Wl.innerAt fun m hm => Wl.ite (fun _ => Wl.throw) fun _ => Wl.wr (Ns.set0 hm rfl rfl rfl rfl)))

theorem moveLeaf_ns {d x : Addr} (hn : NT c0 K s) (hx : OwnNe K s.heap x) (hd : OwnNe K s.heap d) :
    Wl (moveLeaf d x : M V Unit) s fun _ s' => Ns c0 K (fun y => y = d) s s' ∧ OwnNe K s'.heap d := by
  unfold moveLeaf
  refine Wl.bind (Wl.innerAt fun n hxn => ?_)
  obtain ⟨n', h1, h2⟩ := hx
  rw [hxn] at h1; cases h1
  split
  · exact Wl.pure ⟨Ns.refl, hd⟩
  · next l hl =>
    refine Wl.bind ((writeNode_ns (t := true) hn fun _ => ⟨(h2 l hl).notK, (h2 l hl).leafNe⟩).mono ?_)
    rintro r s1 ⟨g1, g2⟩
    refine (setNodeLeaf_ns (g1.ok hn)).mono ?_
    rintro _ s2 ⟨g3, m, g4, g5⟩
    refine ⟨(g1.mono fun _ _ h => h.elim).trans g3 (fun _ _ h => h), m, g4, fun y hy => ?_⟩
    rw [g5] at hy; cases hy
    exact (g2.other (h2 l hl)).step g3

/-! ### addChild -/

/-- Overwriting an inner node. -/
theorem wrInner_ns {n m : Inner} (hn : NT c0 K s) (ha : s.heap[a]? = some (.inner n)) (hch : m.ch = n.ch) (hl : m.leaf = n.leaf) :
    Wl (wr a (.inner m) : M V Unit) s fun _ s' => Ns c0 K (fun x => x = a) s s' ∧ (OwnNe K s.heap a → OwnNe K s'.heap a) ∧
      (KidsNe K s.heap a → (∀ x, some x ∈ m.children → some x ∈ n.children) → KidsNe K s'.heap a) := by
  have hst : Ns c0 K (fun x => x = a) s { s with heap := s.heap.set a (.inner m) } := Ns.set ha hch rfl
  refine Wl.wr ⟨hst, ?_, ?_⟩
  · rintro ⟨n', h1, h2⟩
    rw [ha] at h1; cases h1
    exact ⟨m, get_set_self (lt_of_get ha), fun l hl' => (h2 l (hl ▸ hl')).step hst⟩
  · rintro ⟨n', h1, h2⟩ h3
    rw [ha] at h1; cases h1
    exact ⟨m, get_set_self (lt_of_get ha), fun l hl' => (h2 l (h3 l hl')).step hst⟩

/-- What `addChild` does. -/
def AddNs (c0 : ChanId) (K : Key) (s : St V) (a r : Addr) (s' : St V) : Prop :=
  Ns c0 K (fun x => x = a) s s' ∧ OwnNe K s'.heap r ∧ (r = a ∨ s.heap.length ≤ r)

theorem addChild256_ns {c : Byte} {child : Addr} (hn : NT c0 K s) (ha : OwnNe K s.heap a) : Wl (addChild256 a c child : M V Addr) s (AddNs c0 K s a) := by
  unfold addChild256
  refine Wl.bind (Wl.innerAt fun n h1 => Wl.bind (Wl.lift fun n' hn' => ?_))
  have := Inner.setChild_eq hn'
  refine Wl.bind ((wrInner_ns hn h1 (by rw [this]) (by rw [this])).mono ?_)
  rintro _ s1 ⟨g1, g2, -⟩
  exact Wl.pure ⟨g1, g2 ha, Or.inl rfl⟩

/-- The part common to all growing nodes: a new node is made with the leaf of the old one, and the child is added to it. -/
theorem grow_ns {k : Kind} {c : Byte} {child : Addr} {F : Inner → Inner → Inner} {add : Addr → Byte → Addr → M V Addr}
    (hF : ∀ m n, (F m n).leaf = m.leaf ∧ (F m n).ch = m.ch) (hn : NT c0 K s) (ha : OwnNe K s.heap a)
    (hadd : ∀ {s : St V} {a : Addr}, NT c0 K s → OwnNe K s.heap a → Wl (add a c child) s (AddNs c0 K s a)) :
    Wl (do
      let newNode ← allocInner k
      moveLeaf newNode a
      let n ← innerAt a
      let m ← innerAt newNode
      wr newNode (.inner (F m n))
      copyHeader newNode a
      add newNode c child : M V Addr) s (AddNs c0 K s a) := by
  refine Wl.bind ((allocInner_ns hn).mono ?_)
  rintro d s1 ⟨h1, h2, m, h3, h4⟩
  have hn1 := h1.ok hn
  have hd : OwnNe K s1.heap d := ⟨m, h3, fun l hl => by rw [h4] at hl; cases hl⟩
  refine Wl.bind ((moveLeaf_ns hn1 (ha.step h1 fun h => h) hd).mono ?_)
  rintro _ s2 ⟨h5, h6⟩
  have hn2 := h5.ok hn1
  refine Wl.bind (Wl.innerAt fun n h7 => Wl.bind (Wl.innerAt fun m' h8 => Wl.bind ((wrInner_ns hn2 h8 (hF _ _).2 (hF _ _).1).mono ?_)))
  rintro _ s3 ⟨h9, h10, -⟩
  have hn3 := h9.ok hn2
  refine Wl.bind ((copyHeader_ns hn3).mono fun _ s4 h11 => ?_)
  have hn4 := h11.ok hn3
  refine (hadd hn4 ((h10 h6).step h11 fun h => h)).mono ?_
  rintro r s5 ⟨h12, h13, h14⟩
  have hall : Ns0 c0 K s s4 := ((h1.trans h5 (fun x hx hxa => by subst hxa; omega)).trans h9 (fun x hx hxa => by subst hxa; omega)).then0 h11
  refine ⟨(hall.trans h12 (fun x hx hxa => by subst hxa; omega)).mono fun _ _ h => h.elim, h13, Or.inr ?_⟩
  rcases h14 with h14 | h14
  · omega
  · exact Nat.le_trans hall.len h14

theorem addChild48_ns {c : Byte} {child : Addr} (hn : NT c0 K s) (ha : OwnNe K s.heap a) : Wl (addChild48 a c child : M V Addr) s (AddNs c0 K s a) := by
  unfold addChild48
  refine Wl.bind (Wl.innerAt fun n h1 => Wl.ite (fun _ => ?_) fun _ => ?_)
  · refine Wl.bind (Wl.lift fun n1 hn1 => Wl.bind (Wl.lift fun n2 hn2 => ?_))
    have e1 := Inner.setChild_eq hn1
    have e2 := Inner.setKeyAtIdx_eq hn2
    refine Wl.bind ((wrInner_ns hn h1 (by show n2.ch = _; rw [e2.2.2, e1]) (by show n2.leaf = _; rw [e2.1, e1])).mono ?_)
    rintro _ s1 ⟨g1, g2, -⟩
    exact Wl.pure ⟨g1, g2 ha, Or.inl rfl⟩
  · exact grow_ns (F := fun m n => { m with children := children48to256 n }) (fun _ _ => ⟨rfl, rfl⟩) hn ha addChild256_ns

theorem Inner.insertSorted_eq {n n' : Inner} {c : Byte} {child : Addr} (h : n.insertSorted c child = .ok n') : n'.leaf = n.leaf ∧ n'.ch = n.ch := by
  unfold Inner.insertSorted at h
  simp only [bind, Except.bind] at h
  split at h
  · cases h
  · next n2 h2 =>
    split at h
    · cases h
    · next n3 h3 =>
      cases h
      have e1 := Inner.setKeyAtIdx_eq h2
      have e2 := Inner.setChild_eq h3
      refine ⟨?_, ?_⟩
      · show n3.leaf = _; rw [e2]; exact e1.1
      · show n3.ch = _; rw [e2]; exact e1.2.2

theorem addChild16_ns {c : Byte} {child : Addr} (hn : NT c0 K s) (ha : OwnNe K s.heap a) : Wl (addChild16 a c child : M V Addr) s (AddNs c0 K s a) := by
  unfold addChild16
  refine Wl.bind (Wl.innerAt fun n h1 => Wl.ite (fun _ => ?_) fun _ => ?_)
  · refine Wl.bind (Wl.lift fun n1 hn1 => ?_)
    have e1 := Inner.insertSorted_eq hn1
    refine Wl.bind ((wrInner_ns hn h1 e1.2 e1.1).mono ?_)
    rintro _ s1 ⟨g1, g2, -⟩
    exact Wl.pure ⟨g1, g2 ha, Or.inl rfl⟩
  · exact grow_ns (F := fun m n => { m with children := goCopy m.children 0 (n.children.take n.numChildren.toNat), keys := keys16to48 n }) (fun _ _ => ⟨rfl, rfl⟩) hn ha addChild48_ns

theorem addChild4_ns {c : Byte} {child : Addr} (hn : NT c0 K s) (ha : OwnNe K s.heap a) : Wl (addChild4 a c child : M V Addr) s (AddNs c0 K s a) := by
  unfold addChild4
  refine Wl.bind (Wl.innerAt fun n h1 => Wl.ite (fun _ => ?_) fun _ => ?_)
  · refine Wl.bind (Wl.lift fun n1 hn1 => ?_)
    have e1 := Inner.insertSorted_eq hn1
    refine Wl.bind ((wrInner_ns hn h1 e1.2 e1.1).mono ?_)
    rintro _ s1 ⟨g1, g2, -⟩
    exact Wl.pure ⟨g1, g2 ha, Or.inl rfl⟩
  · exact grow_ns (F := fun m n => { m with children := goCopy m.children 0 (n.children.take n.numChildren.toNat), keys := goCopy m.keys 0 (n.keys.take n.numChildren.toNat) }) (fun _ _ => ⟨rfl, rfl⟩) hn ha addChild16_ns

theorem addChild_ns {c : Byte} {child : Addr} (hn : NT c0 K s) (ha : OwnNe K s.heap a) : Wl (addChild a c child : M V Addr) s (AddNs c0 K s a) := by
  unfold addChild
  refine Wl.bind (Wl.cell fun d hd => ?_)
  split
  · exact Wl.throw
  · split
    · exact addChild4_ns hn ha
    · exact addChild16_ns hn ha
    · exact addChild48_ns hn ha
    · exact addChild256_ns hn ha

theorem addChildAt_ns {key : Key} {i : Nat} {child : Addr} (hn : NT c0 K s) (ha : OwnNe K s.heap a) : Wl (addChildAt a key i child : M V Addr) s (AddNs c0 K s a) := by
  unfold addChildAt
  refine Wl.ite (fun _ => Wl.bind (Wl.lift fun b _ => addChild_ns hn ha)) fun _ => Wl.pure ⟨Ns.refl, ha, Or.inl rfl⟩

/-! ### removeChild -/

theorem clearTail_ns : ∀ (k itr : Nat) {s : St V}, NT c0 K s → KidsNe K s.heap a → OwnNe K s.heap a →
    Wl (clearTail a k itr : M V Unit) s fun _ s' => Ns c0 K (fun x => x = a) s s' ∧ KidsNe K s'.heap a ∧ OwnNe K s'.heap a
  | 0, itr, s, hn, hk, ho => by
    unfold clearTail
    exact Wl.pure ⟨Ns.refl, hk, ho⟩
  | k + 1, itr, s, hn, hk, ho => by
    unfold clearTail
    refine Wl.bind (Wl.innerAt fun n h1 => Wl.ite (fun hlt => ?_) fun _ => Wl.pure ⟨Ns.refl, hk, ho⟩)
    refine Wl.bind ((trackChannel_ns hn fun x hx => ?_).mono fun _ s1 g1 => ?_)
    · obtain ⟨n', h2, h3⟩ := hk
      rw [h1] at h2; cases h2
      refine h3 x (List.mem_of_getElem? (i := itr) ?_)
      rw [List.getElem?_eq_getElem hlt] at hx ⊢
      rw [← hx]; rfl
    · have hn1 := g1.ok hn
      refine Wl.bind ((setChildAt_ns hn1).mono ?_)
      rintro _ s2 ⟨g2, g3, g4⟩
      refine (clearTail_ns k (itr + 1) (g2.ok hn1) (g4 (hk.step g1 fun h => h) fun x hx => by cases hx) (g3 (ho.step g1 fun h => h))).mono ?_
      rintro _ s3 ⟨g5, g6⟩
      exact ⟨((g1.mono fun _ _ h => h.elim).trans g2 fun _ _ h => h).trans g5 (fun _ _ h => h), g6⟩

theorem removeSorted_ns {c : Byte} (hn : NT c0 K s) (hk : KidsNe K s.heap a) (ho : OwnNe K s.heap a) :
    Wl (removeSorted a c : M V Unit) s fun _ s' => Ns c0 K (fun x => x = a) s s' ∧ OwnNe K s'.heap a := by
  unfold removeSorted
  refine Wl.bind (Wl.innerAt fun n h1 => Wl.bind (Wl.assert (Wl.bind (Wl.assert (Wl.bind ((wrInner_ns (m := { n with
    keys := goCopy n.keys (removePos n c) (n.keys.drop (removePos n c + 1)),
    children := shiftChildren n.children (removePos n c) n.numChildren.toNat }) hn h1 rfl rfl).mono ?_))))))
  rintro _ s1 ⟨g1, g2, g3⟩
  have hn1 := g1.ok hn
  refine Wl.bind ((clearTail_ns _ _ hn1 (g3 hk fun x hx => shiftChildren_mem hx) (g2 ho)).mono ?_)
  rintro _ s2 ⟨g4, g5, g6⟩
  have hn2 := g4.ok hn1
  refine Wl.bind (Wl.innerAt fun m h2 => (wrInner_ns hn2 h2 (by rfl) (by rfl)).mono ?_)
  rintro _ s3 ⟨g7, g8, -⟩
  exact ⟨(g1.trans g4 fun _ _ h => h).trans g7 fun _ _ h => h, g8 g6⟩

theorem removeChild4_ns {c : Byte} (hn : NT c0 K s) (hk : KidsNe K s.heap a) (ho : OwnNe K s.heap a) :
    Wl (removeChild4 a c : M V Addr) s fun _ s' => NsA c0 K s s' := by
  unfold removeChild4
  refine Wl.bind ((removeSorted_ns hn hk ho).mono ?_)
  rintro _ s1 ⟨g1, g2⟩
  have hn1 := g1.ok hn
  refine Wl.bind (Wl.innerAt fun n h1 => Wl.ite (fun _ => Wl.bind (Wl.lift fun o h2 => ?_)) fun _ => Wl.pure g1.all)
  split
  · exact Wl.throw
  · next ch =>
    refine Wl.bind ((writeNode_ns (t := false) hn1 fun h => nomatch h).mono ?_)
    rintro r s2 ⟨g3, g4⟩
    have hn2 := g3.ok hn1
    refine Wl.bind (Wl.innerAt fun n' h3 => Wl.bind (Wl.innerAt fun m h4 => Wl.bind (Wl.lift fun j _ => ?_)))
    refine Wl.bind ((wrInner_ns hn2 h3 (by rfl) (by rfl)).mono ?_)
    rintro _ s2' ⟨g5', -⟩
    have hn2' := g5'.ok hn2
    refine Wl.bind (Wl.innerAt fun n' h3 => Wl.bind (Wl.innerAt fun m h4 => Wl.bind (Wl.lift fun m' h5 => ?_)))
    obtain ⟨pp, pl, e⟩ := takePrefix_ok h5
    refine Wl.bind ((wrInner_ns hn2' h4 (by rw [e]) (by rw [e])).mono ?_)
    rintro _ s3 ⟨g5, -⟩
    have hn3 := g5.ok hn2'
    have g6 := ((g1.all.thenA g3).thenA g5').thenA g5
    refine Wl.bind ((trackChannel_ns hn3 fun x hx => by cases hx; exact (((g2.notK).step g3).step g5').step g5).mono fun _ s4 g7 => Wl.pure (g6.thenA g7))

theorem removeChild16_ns {c : Byte} (hn : NT c0 K s) (hk : KidsNe K s.heap a) (ho : OwnNe K s.heap a) :
    Wl (removeChild16 a c : M V Addr) s fun _ s' => NsA c0 K s s' := by
  unfold removeChild16
  refine Wl.bind ((removeSorted_ns hn hk ho).mono ?_)
  rintro _ s1 ⟨g1, g2⟩
  have hn1 := g1.ok hn
  refine Wl.bind (Wl.innerAt fun n h1 => Wl.ite (fun _ => ?_) fun _ => Wl.pure g1.all)
  refine Wl.bind ((trackChannel_ns hn1 fun x hx => by cases hx; exact g2.notK).mono fun _ s2 g3 => ?_)
  have hn2 := g3.ok hn1
  refine Wl.bind ((allocInner_ns hn2).mono ?_)
  rintro d s3 ⟨h1, h2, m, h3, h4⟩
  have hn3 := h1.ok hn2
  have hd : OwnNe K s3.heap d := ⟨m, h3, fun l hl => by rw [h4] at hl; cases hl⟩
  have ha3 : OwnNe K s3.heap a := (g2.step g3 fun h => h).step h1 fun h => h
  refine Wl.bind ((copyHeader_ns hn3).mono fun _ s4 h5 => ?_)
  have hn4 := h5.ok hn3
  have ha4 := ha3.step h5 fun h => h
  have hd4 := hd.step h5 fun h => h
  refine Wl.bind (Wl.innerAt fun n2 h6 => Wl.bind (Wl.innerAt fun m2 h7 => Wl.bind ((wrInner_ns hn4 h7 (by rfl) (by rfl)).mono ?_)))
  rintro _ s5 ⟨h8, h9, -⟩
  have hn5 := h8.ok hn4
  have hne : a ≠ d := fun h => by
    obtain ⟨n', hn', -⟩ := g2.step g3 fun h => h
    have := lt_of_get hn'
    omega
  refine Wl.bind ((moveLeaf_ns hn5 (ha4.step h8 hne) (h9 hd4)).mono ?_)
  rintro _ s6 ⟨h10, h11⟩
  refine Wl.bind ((setNodeLeaf_ns (h10.ok hn5)).mono ?_)
  rintro _ s7 ⟨h12, -⟩
  exact Wl.pure ((((((g1.all.thenA g3).thenA h1).thenA h5).thenA h8).thenA h10).thenA h12)

theorem removeChild48_ns {c : Byte} (hn : NT c0 K s) (hk : KidsNe K s.heap a) (ho : OwnNe K s.heap a) :
    Wl (removeChild48 a c : M V Addr) s fun _ s' => NsA c0 K s s' := by
  unfold removeChild48
  refine Wl.bind (Wl.innerAt fun n h1 => Wl.bind (Wl.lift fun pos hp => Wl.bind (Wl.lift fun n1 h2 => ?_)))
  have e := Inner.setKeyAtIdx_eq h2
  refine Wl.bind ((wrInner_ns hn h1 e.2.2 e.1).mono ?_)
  rintro _ s1 ⟨g1, g2, g3⟩
  have hn1 := g1.ok hn
  have ho1 := g2 ho
  refine Wl.bind (Wl.lift fun ch hch => Wl.bind ((trackChannel_ns hn1 fun x hx => ?_).mono fun _ s2 g4 => ?_))
  · obtain ⟨n', k1, k2⟩ := hk
    rw [h1] at k1; cases k1
    subst hx
    refine (k2 x ?_).step g1
    rw [← e.2.1]; exact Inner.mem_getChild hch
  have hn2 := g4.ok hn1
  have ho2 := ho1.step g4 fun h => h
  refine Wl.bind ((setChildAt_ns hn2).mono ?_)
  rintro _ s3 ⟨g5, g6, -⟩
  have hn3 := g5.ok hn2
  refine Wl.bind (Wl.innerAt fun n3 h3 => Wl.bind ((wrInner_ns hn3 h3 (by rfl) (by rfl)).mono ?_))
  rintro _ s4 ⟨g7, g8, -⟩
  have hn4 := g7.ok hn3
  have ho4 := g8 (g6 ho2)
  have hall := ((g1.all.thenA g4).thenA g5).thenA g7
  refine Wl.bind (Wl.innerAt fun n4 h4 => Wl.ite (fun _ => ?_) fun _ => Wl.pure hall)
  refine Wl.bind ((allocInner_ns hn4).mono ?_)
  rintro d s5 ⟨x1, x2, m, x3, x4⟩
  have hn5 := x1.ok hn4
  have hd : OwnNe K s5.heap d := ⟨m, x3, fun l hl => by rw [x4] at hl; cases hl⟩
  have ho5 := ho4.step x1 fun h => h
  refine Wl.bind ((trackChannel_ns hn5 fun x hx => by cases hx; exact ho5.notK).mono fun _ s6 x5 => ?_)
  have hn6 := x5.ok hn5
  refine Wl.bind ((copyHeader_ns hn6).mono fun _ s7 x6 => ?_)
  have hn7 := x6.ok hn6
  refine Wl.bind ((moveLeaf_ns hn7 ((ho5.step x5 fun h => h).step x6 fun h => h) ((hd.step x5 fun h => h).step x6 fun h => h)).mono ?_)
  rintro _ s8 ⟨x7, -⟩
  refine Wl.bind (Wl.innerAt fun n5 h5 => Wl.bind (Wl.innerAt fun m5 h6 => Wl.bind (Wl.assert (Wl.bind ((wrInner_ns (x7.ok hn7) h6 (by rfl) (by rfl)).mono ?_)))))
  rintro _ s9 ⟨x8, -⟩
  exact Wl.pure (((((hall.thenA x1).thenA x5).thenA x6).thenA x7).thenA x8)

theorem removeChild256_ns {c : Byte} (hn : NT c0 K s) (ho : OwnNe K s.heap a) :
    Wl (removeChild256 a c : M V Addr) s fun _ s' => NsA c0 K s s' := by
  unfold removeChild256
  refine Wl.bind ((setChildAt_ns hn).mono ?_)
  rintro _ s3 ⟨g5, g6, -⟩
  have hn3 := g5.ok hn
  refine Wl.bind (Wl.innerAt fun n3 h3 => Wl.bind ((wrInner_ns hn3 h3 (by rfl) (by rfl)).mono ?_))
  rintro _ s4 ⟨g7, g8, -⟩
  have hn4 := g7.ok hn3
  have ho4 := g8 (g6 ho)
  have hall := g5.all.thenA g7
  refine Wl.bind (Wl.innerAt fun n4 h4 => Wl.ite (fun _ => ?_) fun _ => Wl.pure hall)
  refine Wl.bind ((allocInner_ns hn4).mono ?_)
  rintro d s5 ⟨x1, x2, m, x3, x4⟩
  have hn5 := x1.ok hn4
  have hd : OwnNe K s5.heap d := ⟨m, x3, fun l hl => by rw [x4] at hl; cases hl⟩
  have ho5 := ho4.step x1 fun h => h
  refine Wl.bind ((copyHeader_ns hn5).mono fun _ s6 x5 => ?_)
  have hn6 := x5.ok hn5
  refine Wl.bind ((trackChannel_ns hn6 fun x hx => by cases hx; exact ho5.notK.step x5).mono fun _ s7 x6 => ?_)
  have hn7 := x6.ok hn6
  refine Wl.bind ((moveLeaf_ns hn7 ((ho5.step x5 fun h => h).step x6 fun h => h) ((hd.step x5 fun h => h).step x6 fun h => h)).mono ?_)
  rintro _ s8 ⟨x7, -⟩
  refine Wl.bind (Wl.innerAt fun n5 h5 => Wl.bind (Wl.innerAt fun m5 h6 => Wl.bind (Wl.assert (Wl.bind ((wrInner_ns (x7.ok hn7) h6 (by rfl) (by rfl)).mono ?_)))))
  rintro _ s9 ⟨x8, -⟩
  exact Wl.pure (((((hall.thenA x1).thenA x5).thenA x6).thenA x7).thenA x8)

theorem removeChild_ns {c : Byte} (hn : NT c0 K s) (hk : KidsNe K s.heap a) (ho : OwnNe K s.heap a) :
    Wl (removeChild a c : M V Addr) s fun _ s' => NsA c0 K s s' := by
  unfold removeChild
  refine Wl.bind (Wl.cell fun d hd => ?_)
  split
  · exact Wl.throw
  · split
    · exact removeChild4_ns hn hk ho
    · exact removeChild16_ns hn hk ho
    · exact removeChild48_ns hn hk ho
    · exact removeChild256_ns hn ho

end Art
