import Verif.Proofs.Rep
/-
Successful runs of the mutating code: `Runs m s Q` says that `m` returns from `s`, with a result and a store
that satisfy `Q`.  `Stp N X s s'` collects what all parts of a call do to the store besides: nodes outside `X`
keep their contents, stale children stay harmless, and a channel that disappears from a node was tracked.
-/
set_option autoImplicit false
set_option linter.unusedVariables false
set_option linter.unusedSimpArgs false
namespace Art
variable {V : Type} {α β : Type}

/-- `m` returns, and `Q` holds of the result and the store. -/
def Runs (m : M V α) (s : St V) (Q : α → St V → Prop) : Prop := ∃ a s', m s = (.ok a, s') ∧ Q a s'

variable {s : St V} {Q : α → St V → Prop}

theorem Runs.bind {m : M V α} {f : α → M V β} {Q : β → St V → Prop} (h : Runs m s fun a s' => Runs (f a) s' Q) : Runs (m >>= f) s Q := by
  obtain ⟨a, s', h1, b, s'', h2, h3⟩ := h
  refine ⟨b, s'', ?_, h3⟩
  rw [bind_run, h1]
  exact h2

theorem Runs.pure {a : α} (h : Q a s) : Runs (Pure.pure a : M V α) s Q := ⟨a, s, rfl, h⟩

theorem Runs.mono {m : M V α} {Q' : α → St V → Prop} (h : Runs m s Q) (hq : ∀ a s', Q a s' → Q' a s') : Runs m s Q' := by
  obtain ⟨a, s', h1, h2⟩ := h
  exact ⟨a, s', h1, hq a s' h2⟩

theorem Runs.lift {r : R α} {a : α} (hr : r = .ok a) (h : Q a s) : Runs (M.lift r : M V α) s Q := ⟨a, s, by rw [hr]; rfl, h⟩

theorem Runs.assert {p : Prop} [Decidable p] {e : Err} {Q : Unit → St V → Prop} (hp : p) (h : Q () s) : Runs (M.assert p e : M V Unit) s Q :=
  ⟨(), s, by simp [M.assert, hp], h⟩

theorem Runs.get {Q : St V → St V → Prop} (h : Q s s) : Runs (M.get : M V (St V)) s Q := ⟨s, s, rfl, h⟩
theorem Runs.txnSt {Q : TxnSt → St V → Prop} (h : Q s.txn s) : Runs (Art.txnSt : M V TxnSt) s Q := ⟨_, _, rfl, h⟩
theorem Runs.modTxn {f : TxnSt → TxnSt} {Q : Unit → St V → Prop} (h : Q () { s with txn := f s.txn }) : Runs (Art.modTxn f : M V Unit) s Q :=
  ⟨_, _, rfl, h⟩

theorem Runs.cell {a : Addr} {c : Cell V} {Q : Cell V → St V → Prop} (hc : s.heap[a]? = some c) (h : Q c s) : Runs (Art.cell a : M V (Cell V)) s Q :=
  ⟨c, s, by simp [Art.cell, rd, hc], h⟩
theorem Runs.innerAt {a : Addr} {n : Inner} {Q : Inner → St V → Prop} (hc : s.heap[a]? = some (.inner n)) (h : Q n s) : Runs (Art.innerAt a : M V Inner) s Q :=
  ⟨n, s, by simp [Art.innerAt, rdInner, hc], h⟩
theorem Runs.leafAt {a : Addr} {l : LeafC V} {Q : LeafC V → St V → Prop} (hc : s.heap[a]? = some (.leaf l)) (h : Q l s) :
    Runs (Art.leafAt a : M V (LeafC V)) s Q :=
  ⟨l, s, by simp [Art.leafAt, rdLeaf, hc], h⟩
theorem Runs.wr {a : Addr} {c : Cell V} {Q : Unit → St V → Prop} (h : Q () { s with heap := s.heap.set a c }) : Runs (Art.wr a c : M V Unit) s Q :=
  ⟨_, _, rfl, h⟩
theorem Runs.wrCh {a : Addr} {c : Cell V} {k : ChanId} {Q : Unit → St V → Prop} (ha : s.heap[a]? = some c)
    (h : Q () { s with heap := s.heap.set a (c.setCh (some k)) }) : Runs (Art.wrCh a k : M V Unit) s Q :=
  ⟨(), { s with heap := setChan s.heap a k }, rfl, by rw [setChan_some ha]; exact h⟩
theorem Runs.claimCh {a : Addr} {c : Cell V} {k : ChanId} {Q : ChanId → St V → Prop} (ha : s.heap[a]? = some c) (hn : c.ch = none)
    (h : Q k { s with heap := s.heap.set a (c.setCh (some k)) }) : Runs (Art.claimCh a k : M V ChanId) s Q :=
  ⟨k, _, claimCh_run ha hn k, h⟩
theorem Runs.newCell {c : Cell V} {Q : Nat → St V → Prop} (h : Q s.heap.length { s with heap := s.heap ++ [c] }) : Runs (Art.newCell c : M V Nat) s Q :=
  ⟨_, _, rfl, h⟩
theorem Runs.newChan {Q : ChanId → St V → Prop} (h : Q s.chans.length { s with chans := s.chans ++ [false] }) : Runs (Art.newChan : M V ChanId) s Q :=
  ⟨_, _, rfl, h⟩

/-! ### Steps -/

/-- The channel of the node `x`. -/
def chAt (h : Heap V) (x : Addr) : Option ChanId := (h[x]?).bind Cell.ch

/-- What every part of a call does.  `N` bounds the nodes that stale pointers may point to; `X` are the nodes
that may change. -/
structure Stp (N : Nat) (X : Addr → Prop) (s s' : St V) : Prop where
  len : s.heap.length ≤ s'.heap.length
  frame : ∀ x, x < s.heap.length → ¬ X x → Eqv s.heap s'.heap x
  sok : ∀ Q x, x < N → SOK s.heap Q x → SOK s'.heap Q x
  root : s'.txn.root = s.txn.root
  tsize : s'.txn.treeSize = s.txn.treeSize
  size : s'.txn.size = s.txn.size
  old : s'.txn.oldMaxNodeId = s.txn.oldMaxNodeId
  track : s'.txn.trackMutate = s.txn.trackMutate
  slice : ∀ c ∈ s.txn.trackChnSlice, c ∈ s'.txn.trackChnSlice
  chs : ∀ x c, chAt s.heap x = some c → chAt s'.heap x = some c ∨ c ∈ s'.txn.trackChnSlice

/-- If the transaction tracks changes, the channel of the node is among those to be closed. -/
def Trk (s s' : St V) (x : Addr) : Prop := s.txn.trackMutate = true → ∀ c, chAt s.heap x = some c → c ∈ s'.txn.trackChnSlice

variable {N : Nat} {X Y : Addr → Prop} {s' s'' : St V}

theorem Stp.refl : Stp N X s s where
  len := Nat.le_refl _
  frame := fun x _ _ => rfl
  sok := fun Q x _ h => h
  root := rfl
  tsize := rfl
  size := rfl
  old := rfl
  track := rfl
  slice := fun c h => h
  chs := fun x c h => Or.inl h

theorem Stp.trans (h1 : Stp N X s s') (h2 : Stp N Y s' s'') (hY : ∀ x, x < s.heap.length → Y x → X x) : Stp N X s s'' where
  len := Nat.le_trans h1.len h2.len
  frame := fun x hx hX => (h1.frame x hx hX).trans (h2.frame x (Nat.lt_of_lt_of_le hx h1.len) fun hy => hX (hY x hx hy))
  sok := fun Q x hx h => h2.sok Q x hx (h1.sok Q x hx h)
  root := h2.root.trans h1.root
  tsize := h2.tsize.trans h1.tsize
  size := h2.size.trans h1.size
  old := h2.old.trans h1.old
  track := h2.track.trans h1.track
  slice := fun c h => h2.slice c (h1.slice c h)
  chs := fun x c h => by
    rcases h1.chs x c h with h | h
    · exact h2.chs x c h
    · exact Or.inr (h2.slice c h)

theorem Stp.mono {N' : Nat} (h : Stp N X s s') (hN : N' ≤ N) (hX : ∀ x, x < s.heap.length → X x → Y x) : Stp N' Y s s' :=
  { h with
    frame := fun x hx hy => h.frame x hx fun hxx => hy (hX x hx hxx)
    sok := fun Q x hx => h.sok Q x (Nat.lt_of_lt_of_le hx hN) }

/-- The step changes no existing node. -/
abbrev Stp0 (N : Nat) (s s' : St V) : Prop := Stp N (fun _ => False) s s'

theorem Stp.then0 (h1 : Stp N X s s') (h2 : Stp0 N s' s'') : Stp N X s s'' := h1.trans h2 fun _ _ h => h.elim
theorem Stp0.then (h1 : Stp0 N s s') (h2 : Stp N X s' s'') : Stp N X s s'' :=
  (Stp.mono h1 (Nat.le_refl _) fun _ _ h => h.elim).trans h2 fun _ _ h => h

theorem Trk.of_stp {x : Addr} (h1 : Stp N X s s') (h2 : Trk s' s'' x) (h3 : Stp N Y s' s'') : Trk s s'' x := fun ht c hc => by
  rcases h1.chs x c hc with h | h
  · exact h2 (h1.track.trans ht) c h
  · exact h3.slice c h

theorem Trk.then {x : Addr} (h1 : Trk s s' x) (h2 : Stp N Y s' s'') : Trk s s'' x := fun ht c hc => h2.slice c (h1 ht c hc)

theorem Stp.eqv (h : Stp0 N s s') {x : Addr} (hx : x < s.heap.length) : Eqv s.heap s'.heap x := h.frame x hx fun h => h

theorem Stp.inner (h : Stp0 N s s') {x : Addr} {n : Inner} (hx : s.heap[x]? = some (.inner n)) :
    ∃ i k, s'.heap[x]? = some (.inner { n with id := i, ch := k }) := (h.eqv (List.getElem?_eq_some_iff.1 hx).1).inner hx
theorem Stp.leaf (h : Stp0 N s s') {x : Addr} {n : LeafC V} (hx : s.heap[x]? = some (.leaf n)) :
    ∃ i k, s'.heap[x]? = some (.leaf { n with id := i, ch := k }) := (h.eqv (List.getElem?_eq_some_iff.1 hx).1).leaf hx

/-! ### Writing -/

theorem lt_of_get {h : Heap V} {a : Addr} {c : Cell V} (hc : h[a]? = some c) : a < h.length := (List.getElem?_eq_some_iff.1 hc).1

theorem get_set {h : Heap V} {a x : Addr} {c : Cell V} (ha : a < h.length) : (h.set a c)[x]? = if a = x then some c else h[x]? := by
  rw [List.getElem?_set]
  split
  · next he => subst he; simp [ha]
  · rfl

theorem get_set_self {h : Heap V} {a : Addr} {c : Cell V} (ha : a < h.length) : (h.set a c)[a]? = some c := by
  rw [get_set ha, if_pos rfl]

theorem get_set_ne {h : Heap V} {a x : Addr} {c : Cell V} (hx : a ≠ x) : (h.set a c)[x]? = h[x]? := by
  rw [List.getElem?_set, if_neg hx]

/-- Overwriting an inner node. -/
theorem Stp.wrInner {a : Addr} {n m : Inner} (ha : s.heap[a]? = some (.inner n)) (hX : X a) (hch : m.ch = n.ch)
    (hl : a < N → m.leaf = n.leaf ∨ m.leaf = none ∨ ∃ (l l' : Addr) (lc lc' : LeafC V), n.leaf = some l ∧ m.leaf = some l' ∧
      s.heap[l]? = some (.leaf lc) ∧ s.heap[l']? = some (.leaf lc') ∧ lc'.key = lc.key) :
    Stp N X s { s with heap := s.heap.set a (.inner m) } where
  len := by simp
  frame := fun x hx hX' => by
    have hxa : a ≠ x := fun h => hX' (h ▸ hX)
    show Option.map _ _ = _
    rw [get_set_ne hxa]
  sok := fun Q x hx ⟨k, hk, hkl⟩ => by
    have hal := lt_of_get ha
    have hleaf : ∀ (l : Addr) (lc : LeafC V), s.heap[l]? = some (.leaf lc) → (s.heap.set a (.inner m))[l]? = some (.leaf lc) := fun l lc h => by
      rw [get_set_ne]
      · exact h
      · rintro rfl; rw [ha] at h; cases h
    by_cases hxa : a = x
    · subst hxa
      rw [ha] at hk; cases hk
      refine ⟨m, get_set_self hal, fun l hl' => ?_⟩
      rcases hl hx with h | h | ⟨l1, l2, lc1, lc2, h1, h2, h3, h4, h5⟩
      · obtain ⟨lc, h1, h2⟩ := hkl l (h ▸ hl')
        exact ⟨lc, hleaf l lc h1, h2⟩
      · rw [h] at hl'; cases hl'
      · rw [h2] at hl'; cases hl'
        obtain ⟨lc, h6, h7⟩ := hkl l1 h1
        rw [h3] at h6; cases h6
        exact ⟨lc2, hleaf _ _ h4, by rw [h5]; exact h7⟩
    · refine ⟨k, by show (s.heap.set a _)[x]? = _; rw [get_set_ne hxa]; exact hk, fun l hl' => ?_⟩
      obtain ⟨lc, h1, h2⟩ := hkl l hl'
      exact ⟨lc, hleaf l lc h1, h2⟩
  root := rfl
  tsize := rfl
  size := rfl
  old := rfl
  track := rfl
  slice := fun c h => h
  chs := fun x c h => by
    left
    show chAt (s.heap.set a _) x = some c
    by_cases hxa : a = x
    · subst hxa
      simp only [chAt, ha, get_set_self (lt_of_get ha), Option.bind_some, Cell.ch] at h ⊢
      rw [hch]; exact h
    · simpa only [chAt, get_set_ne hxa] using h

/-- Overwriting a node with the same contents, up to id and channel. -/
theorem Eqv.set {h : Heap V} {a x : Addr} {c c' : Cell V} (ha : h[a]? = some c) (hs : c'.strip = c.strip) : Eqv h (h.set a c') x := by
  unfold Eqv
  by_cases hxa : a = x
  · subst hxa
    rw [get_set_self (lt_of_get ha), ha, Option.map_some, Option.map_some, hs]
  · rw [get_set_ne hxa]

theorem SOK.eqv {h h' : Heap V} {Q : Key → Prop} {a : Addr} (hs : SOK h Q a) (he : ∀ x, x < h.length → Eqv h h' x) : SOK h' Q a := by
  obtain ⟨m, hm, hl⟩ := hs
  obtain ⟨i, k, hm'⟩ := (he a (lt_of_get hm)).inner hm
  refine ⟨_, hm', fun l hl' => ?_⟩
  obtain ⟨lc, h1, h2⟩ := hl l hl'
  obtain ⟨i, k, h3⟩ := (he l (lt_of_get h1)).leaf h1
  exact ⟨_, h3, h2⟩

/-- A step that keeps all contents. -/
theorem Stp.of_eqv (hlen : s.heap.length ≤ s'.heap.length) (he : ∀ x, x < s.heap.length → Eqv s.heap s'.heap x)
    (ht : s'.txn.root = s.txn.root ∧ s'.txn.treeSize = s.txn.treeSize ∧ s'.txn.size = s.txn.size ∧ s'.txn.oldMaxNodeId = s.txn.oldMaxNodeId ∧
      s'.txn.trackMutate = s.txn.trackMutate) (hsl : ∀ c ∈ s.txn.trackChnSlice, c ∈ s'.txn.trackChnSlice)
    (hch : ∀ x c, chAt s.heap x = some c → chAt s'.heap x = some c ∨ c ∈ s'.txn.trackChnSlice) : Stp N X s s' where
  len := hlen
  frame := fun x hx _ => he x hx
  sok := fun Q x _ h => h.eqv he
  root := ht.1
  tsize := ht.2.1
  size := ht.2.2.1
  old := ht.2.2.2.1
  track := ht.2.2.2.2
  slice := hsl
  chs := hch

/-- Overwriting a leaf by one with the same key. -/
theorem Stp.wrLeaf {a : Addr} {n m : LeafC V} (ha : s.heap[a]? = some (.leaf n)) (hX : X a) (hch : m.ch = n.ch) (hk : m.key = n.key) :
    Stp N X s { s with heap := s.heap.set a (.leaf m) } where
  len := by simp
  frame := fun x hx hX' => by
    have hxa : a ≠ x := fun h => hX' (h ▸ hX)
    show Option.map _ _ = _
    rw [get_set_ne hxa]
  sok := fun Q x hx ⟨k, hk', hkl⟩ => by
    have hal := lt_of_get ha
    refine ⟨k, ?_, fun l hl' => ?_⟩
    · show (s.heap.set a _)[x]? = _
      rw [get_set_ne]
      · exact hk'
      · rintro rfl; rw [ha] at hk'; cases hk'
    · obtain ⟨lc, h1, h2⟩ := hkl l hl'
      by_cases hla : a = l
      · subst hla
        rw [ha] at h1; cases h1
        exact ⟨m, get_set_self hal, by rw [hk]; exact h2⟩
      · exact ⟨lc, by show (s.heap.set a _)[l]? = _; rw [get_set_ne hla]; exact h1, h2⟩
  root := rfl
  tsize := rfl
  size := rfl
  old := rfl
  track := rfl
  slice := fun c h => h
  chs := fun x c h => by
    left
    show chAt (s.heap.set a _) x = some c
    by_cases hxa : a = x
    · subst hxa
      simp only [chAt, ha, get_set_self (lt_of_get ha), Option.bind_some, Cell.ch] at h ⊢
      rw [hch]; exact h
    · simpa only [chAt, get_set_ne hxa] using h

theorem get_append_old {h : Heap V} {a : Addr} {c d : Cell V} (ha : h[a]? = some c) : (h ++ [d])[a]? = some c := by
  rw [List.getElem?_append_left (lt_of_get ha)]; exact ha

theorem get_append_new {h : Heap V} {d : Cell V} : (h ++ [d])[h.length]? = some d := by simp

theorem Stp.newCell {c : Cell V} : Stp0 N s { s with heap := s.heap ++ [c] } :=
  Stp.of_eqv (by simp) (fun x hx => by show Option.map _ _ = _; rw [List.getElem?_append_left hx]) ⟨rfl, rfl, rfl, rfl, rfl⟩ (fun _ h => h)
    fun x k hk => Or.inl (by
      cases hx : s.heap[x]? with
      | none => simp [chAt, hx] at hk
      | some d => simpa only [chAt, get_append_old hx, hx] using hk)

theorem Stp.newChan {cs : List Bool} : Stp0 N s { s with chans := cs } :=
  Stp.of_eqv (Nat.le_refl _) (fun x hx => rfl) ⟨rfl, rfl, rfl, rfl, rfl⟩ (fun _ h => h) fun x k hk => Or.inl hk

theorem strip_setCh (c : Cell V) (k : Option ChanId) : (c.setCh k).strip = c.strip := by cases c <;> rfl
theorem strip_setId (c : Cell V) (k : Nat) : (c.setId k).strip = c.strip := by cases c <;> rfl
theorem ch_setCh (c : Cell V) (k : Option ChanId) : (c.setCh k).ch = k := by cases c <;> rfl
theorem ch_setId (c : Cell V) (k : Nat) : (c.setId k).ch = c.ch := by cases c <;> rfl

/-- `getMutateCh`. -/
theorem getMutateCh_runs {a : Addr} {c : Cell V} (ha : s.heap[a]? = some c) :
    Runs (getMutateCh a : M V ChanId) s fun k s' => Stp0 N s s' ∧ s'.heap.length = s.heap.length ∧
      (∃ c', s'.heap[a]? = some c' ∧ c'.strip = c.strip ∧ c'.ch = some k) ∧ (∀ k', chAt s.heap a = some k' → k' = k) := by
  unfold getMutateCh
  refine Runs.bind (Runs.cell ha ?_)
  split
  · next k hk =>
    refine Runs.pure ⟨Stp.refl, rfl, ⟨c, ha, rfl, hk⟩, fun k' hk' => ?_⟩
    simp only [chAt, ha, Option.bind_some, hk] at hk'
    exact (Option.some.inj hk').symm
  · next hk =>
    refine Runs.bind (Runs.newChan (Runs.claimCh ha hk ⟨?_, by simp, ⟨_, get_set_self (lt_of_get ha), strip_setCh _ _, ch_setCh _ _⟩, fun k' hk' => ?_⟩))
    · refine Stp.of_eqv (by simp) (fun x hx => Eqv.set ha (strip_setCh _ _)) ⟨rfl, rfl, rfl, rfl, rfl⟩ (fun _ h => h) fun x k hk' => Or.inl ?_
      show chAt (s.heap.set a _) x = some k
      by_cases hxa : a = x
      · subst hxa
        simp [chAt, ha, hk] at hk'
      · simpa only [chAt, get_set_ne hxa] using hk'
    · simp [chAt, ha, hk] at hk'

/-- `trackChannel`. -/
theorem trackChannel_runs {o : Option Addr} (ho : ∀ a, o = some a → a < s.heap.length) :
    Runs (trackChannel o : M V Unit) s fun _ s' => Stp0 N s s' ∧ s'.heap.length = s.heap.length ∧ ∀ a, o = some a → Trk s s' a := by
  unfold trackChannel
  refine Runs.bind (Runs.txnSt ?_)
  cases ht : s.txn.trackMutate with
  | false => exact Runs.pure ⟨Stp.refl, rfl, fun a _ h => by rw [ht] at h; cases h⟩
  | true =>
    simp only [Bool.not_true, Bool.false_eq_true, if_false]
    cases o with
    | none => exact Runs.pure ⟨Stp.refl, rfl, fun a h => nomatch h⟩
    | some a =>
      have hal := ho a rfl
      have ha : s.heap[a]? = some s.heap[a] := List.getElem?_eq_getElem hal
      refine Runs.bind (Runs.mono (getMutateCh_runs (N := N) ha) ?_)
      rintro k s1 ⟨h1, h2, ⟨c', h3, h4, h5⟩, h6⟩
      refine Runs.bind (Runs.modTxn (Runs.bind (Runs.newChan (Runs.wrCh h3 ⟨?_, ?_, ?_⟩))))
      · refine h1.then0 (Stp.of_eqv (by simp) (fun x hx => Eqv.set h3 (strip_setCh _ _)) ⟨rfl, rfl, rfl, rfl, rfl⟩
          (fun _ h => List.mem_append_left _ h) fun x k' hk' => ?_)
        by_cases hxa : a = x
        · subst hxa
          right
          simp only [chAt, h3, Option.bind_some, h5, Option.some.injEq] at hk'
          subst hk'
          exact List.mem_append_right _ (by simp)
        · left
          simpa only [chAt, get_set_ne hxa] using hk'
      · simp [h2]
      · rintro _ h _ k' hk'
        cases h
        rw [h6 k' hk']
        exact List.mem_append_right _ (by simp)

/-- `bumpId`. -/
theorem bumpId_runs {a : Addr} {c : Cell V} (ha : s.heap[a]? = some c) :
    Runs (bumpId a : M V Unit) s fun _ s' => Stp0 N s s' ∧ s'.heap.length = s.heap.length ∧ (∃ i, s'.heap[a]? = some (c.setId i)) ∧
      ∀ x, x ≠ a → s'.heap[x]? = s.heap[x]? := by
  unfold bumpId
  refine Runs.bind (Runs.modTxn (Runs.bind (Runs.txnSt (Runs.bind (Runs.cell (c := c) ha (Runs.wr ⟨?_, by simp, ?_, ?_⟩))))))
  · refine Stp.of_eqv (by simp) (fun x hx => Eqv.set ha (strip_setId _ _)) ⟨rfl, rfl, rfl, rfl, rfl⟩ (fun _ h => h) fun x k' hk' => Or.inl ?_
    by_cases hxa : a = x
    · subst hxa
      simp only [chAt, ha, get_set_self (lt_of_get ha), Option.bind_some, ch_setId] at hk' ⊢
      exact hk'
    · simpa only [chAt, get_set_ne hxa] using hk'
  · exact ⟨_, get_set_self (lt_of_get ha)⟩
  · intro x hx
    exact get_set_ne (fun h => hx h.symm)

/-- The copy `clone` makes of a node. -/
def Cell.cloned : Cell V → Cell V
  | .leaf l => .leaf l
  | .inner n => .inner { n with part := goCopy zeroPartial 0 n.part }

theorem Cell.cloned_strip (c : Cell V) {d : Cell V} (h : c.strip = d.strip) : c.cloned.strip = d.cloned.strip := by
  cases d with
  | leaf l => obtain ⟨i, k, rfl⟩ := Cell.strip_leaf h; rfl
  | inner n => obtain ⟨i, k, rfl⟩ := Cell.strip_inner h; rfl

theorem goCopy_full10 {β : Type} {xs ys : List β} (h : xs.length = ys.length) : goCopy xs 0 ys = ys := by
  simp [goCopy, h]

/-- `clone`. -/
theorem cloneNode_runs {a : Addr} {c : Cell V} {kw : Bool} (ha : s.heap[a]? = some c) :
    Runs (cloneNode a kw : M V Nat) s fun a' s' => Stp0 N s s' ∧ a' = s.heap.length ∧ s'.heap.length = s.heap.length + 1 ∧
      ∃ c', s'.heap[a']? = some c' ∧ c'.strip = c.cloned.strip ∧ (kw = true → ∀ k, chAt s.heap a = some k → c'.ch = some k) := by
  unfold cloneNode
  refine Runs.bind (Q := _) ?_
  have hk : Runs (keepCh a kw : M V (Option ChanId)) s fun o s1 => Stp0 N s s1 ∧ s1.heap.length = s.heap.length ∧
      (∃ c', s1.heap[a]? = some c' ∧ c'.strip = c.strip) ∧ (kw = true → ∀ k, chAt s.heap a = some k → o = some k) := by
    unfold keepCh
    cases kw with
    | false =>
      simp only [Bool.false_eq_true, if_false]
      exact Runs.pure ⟨Stp.refl, rfl, ⟨c, ha, rfl⟩, fun h => nomatch h⟩
    | true =>
      simp only [if_true]
      refine Runs.bind (Runs.mono (getMutateCh_runs (N := N) ha) ?_)
      rintro k s1 ⟨h1, h2, ⟨c', h3, h4, h5⟩, h6⟩
      exact Runs.pure ⟨h1, h2, ⟨c', h3, h4⟩, fun _ k' hk' => by rw [h6 k' hk']⟩
  refine Runs.mono hk ?_
  rintro o s1 ⟨h1, h2, ⟨c', h3, h4⟩, h5⟩
  refine Runs.bind (Runs.cell h3 ?_)
  have hst := c'.cloned_strip h4
  cases c' with
  | leaf l =>
    refine Runs.newCell ⟨h1.then0 Stp.newCell, by rw [h2], by simp [h2], _, get_append_new, ?_, fun hkw k hk => h5 hkw k hk⟩
    rw [← hst]; rfl
  | inner n =>
    refine Runs.newCell ⟨h1.then0 Stp.newCell, by rw [h2], by simp [h2], _, get_append_new, ?_, fun hkw k hk => h5 hkw k hk⟩
    rw [← hst]; rfl

/-- The tracking part of `writeNode`. -/
theorem trackNode_runs {a : Addr} {c : Cell V} {t : Bool} (ha : s.heap[a]? = some c) (hl : ∀ l, c.nodeLeaf = some l → l < s.heap.length) :
    Runs (trackNode a t : M V Unit) s fun _ s' => Stp0 N s s' ∧ s'.heap.length = s.heap.length ∧
      (t = true → Trk s s' a ∧ ∀ l, c.nodeLeaf = some l → Trk s s' l) := by
  unfold trackNode
  cases t with
  | false =>
    simp only [Bool.false_eq_true, if_false]
    exact Runs.pure ⟨Stp.refl, rfl, fun h => nomatch h⟩
  | true =>
    simp only [if_true]
    refine Runs.bind (Runs.mono (trackChannel_runs (N := N) (o := some a) fun x hx => by cases hx; exact lt_of_get ha) ?_)
    rintro _ s1 ⟨h1, h2, h3⟩
    obtain ⟨c1, hc1, hs1⟩ : ∃ c1, s1.heap[a]? = some c1 ∧ c1.strip = c.strip := by
      have := h1.eqv (lt_of_get ha)
      unfold Eqv at this
      rw [ha] at this
      obtain ⟨c1, h4, h5⟩ := Option.map_eq_some_iff.1 this
      exact ⟨c1, h4, h5⟩
    have hnl : c1.nodeLeaf = c.nodeLeaf := by
      cases c with
      | leaf l => obtain ⟨i, k, rfl⟩ := Cell.strip_leaf hs1; rfl
      | inner n => obtain ⟨i, k, rfl⟩ := Cell.strip_inner hs1; rfl
    refine Runs.bind (Runs.cell hc1 (Runs.mono (trackChannel_runs (N := N) (o := c1.nodeLeaf) fun x hx => by rw [h2]; exact hl x (hnl ▸ hx)) ?_))
    rintro _ s2 ⟨h4, h5, h6⟩
    exact ⟨h1.then0 h4, by rw [h5, h2], fun _ => ⟨(h3 a rfl).then h4, fun l hl => (h6 l (hnl ▸ hl)).of_stp h1 h4⟩⟩

/-- `writeNode`. -/
theorem writeNode_runs {a : Addr} {c : Cell V} {t : Bool} (ha : s.heap[a]? = some c) (hl : ∀ l, c.nodeLeaf = some l → l < s.heap.length)
    (hc : c.cloned = c) :
    Runs (writeNode a t : M V Nat) s fun a' s' => Stp0 N s s' ∧ (a' = a ∨ s.heap.length ≤ a') ∧
      (∃ c', s'.heap[a']? = some c' ∧ c'.strip = c.strip) ∧ (t = true → Trk s s' a ∧ ∀ l, c.nodeLeaf = some l → Trk s s' l) ∧
      (t = false → ∀ k, chAt s.heap a = some k → chAt s'.heap a' = some k) := by
  unfold writeNode
  refine Runs.bind ?_
  have hq : Runs (trackNode a t : M V Unit) s fun _ s' => Stp0 N s s' ∧ s'.heap.length = s.heap.length ∧
      (t = true → Trk s s' a ∧ ∀ l, c.nodeLeaf = some l → Trk s s' l) ∧ (t = false → s' = s) := by
    cases t with
    | true => exact Runs.mono (trackNode_runs ha hl) fun _ s1 ⟨h1, h2, h3⟩ => ⟨h1, h2, h3, fun h => nomatch h⟩
    | false => exact Runs.pure ⟨Stp.refl, rfl, (fun h => nomatch h), fun _ => rfl⟩
  refine Runs.mono hq ?_
  rintro _ s1 ⟨h1, h2, h3, h3'⟩
  obtain ⟨c1, hc1, hs1⟩ : ∃ c1, s1.heap[a]? = some c1 ∧ c1.strip = c.strip := by
    have := h1.eqv (lt_of_get ha)
    unfold Eqv at this
    rw [ha] at this
    obtain ⟨c1, h4, h5⟩ := Option.map_eq_some_iff.1 this
    exact ⟨c1, h4, h5⟩
  refine Runs.bind (Runs.cell hc1 (Runs.bind (Runs.txnSt ?_)))
  split
  · exact Runs.pure ⟨h1, Or.inl rfl, ⟨c1, hc1, hs1⟩, h3, fun ht k hk => by rw [h3' ht]; exact hk⟩
  · refine Runs.bind (Runs.mono (cloneNode_runs (N := N) hc1) ?_)
    rintro a' s2 ⟨h4, h5, h6, c2, h7, h8, h9⟩
    refine Runs.bind (Runs.mono (bumpId_runs (N := N) h7) ?_)
    rintro _ s3 ⟨g1, g2, ⟨i, g3⟩, g4⟩
    refine Runs.pure ⟨(h1.then0 h4).then0 g1, Or.inr (by rw [h5, h2]; exact Nat.le_refl _), ⟨_, g3, ?_⟩, fun ht => ?_, fun ht k hk => ?_⟩
    · rw [strip_setId, h8, c1.cloned_strip hs1, hc]
    · exact ⟨((h3 ht).1.then h4).then g1, fun l hl => (((h3 ht).2 l hl).then h4).then g1⟩
    · have hs := h3' ht
      subst hs
      simp only [chAt, g3, Option.bind_some, ch_setId]
      exact h9 (by rw [ht]; rfl) k hk

/-- `writeNode` of an inner node. -/
theorem writeInner_runs {a : Addr} {n : Inner} {t : Bool} (ha : s.heap[a]? = some (.inner n)) (hp : n.part.length = 10)
    (hl : ∀ l, n.leaf = some l → l < s.heap.length) :
    Runs (writeNode a t : M V Nat) s fun a' s' => Stp0 N s s' ∧ (a' = a ∨ s.heap.length ≤ a') ∧
      (∃ i k, s'.heap[a']? = some (.inner { n with id := i, ch := k })) ∧ (t = true → Trk s s' a ∧ ∀ l, n.leaf = some l → Trk s s' l) ∧
      (t = false → ∀ k, chAt s.heap a = some k → chAt s'.heap a' = some k) := by
  refine Runs.mono (writeNode_runs (N := N) ha hl ?_) ?_
  · simp only [Cell.cloned]
    rw [goCopy_full10 (by rw [hp]; rfl)]
  · rintro a' s' ⟨h1, h2, ⟨c', h3, h4⟩, h5, h6⟩
    obtain ⟨i, k, rfl⟩ := Cell.strip_inner h4
    exact ⟨h1, h2, ⟨i, k, h3⟩, h5, h6⟩

/-- `writeNode` of a leaf. -/
theorem writeLeaf_runs {a : Addr} {l : LeafC V} {t : Bool} (ha : s.heap[a]? = some (.leaf l)) :
    Runs (writeNode a t : M V Nat) s fun a' s' => Stp0 N s s' ∧ (a' = a ∨ s.heap.length ≤ a') ∧
      (∃ i k, s'.heap[a']? = some (.leaf { l with id := i, ch := k })) ∧ (t = true → Trk s s' a) := by
  refine Runs.mono (writeNode_runs (N := N) ha (fun l h => nomatch h) rfl) ?_
  rintro a' s' ⟨h1, h2, ⟨c', h3, h4⟩, h5, h6⟩
  obtain ⟨i, k, rfl⟩ := Cell.strip_leaf h4
  exact ⟨h1, h2, ⟨i, k, h3⟩, fun ht => (h5 ht).1⟩

/-- `allocNode`. -/
theorem allocInner_runs {k : Kind} :
    Runs (allocInner k : M V Nat) s fun a' s' => Stp0 N s s' ∧ a' = s.heap.length ∧ s'.heap.length = s.heap.length + 1 ∧
      ∃ i, s'.heap[a']? = some (.inner { blankInner k with id := i }) := by
  unfold allocInner
  refine Runs.bind (Runs.newCell (Runs.bind (Runs.mono (bumpId_runs (N := N) get_append_new) ?_)))
  rintro _ s1 ⟨h1, h2, ⟨i, h3⟩, h4⟩
  exact Runs.pure ⟨Stp.newCell.then0 h1, rfl, by rw [h2]; simp, i, h3⟩

theorem allocLeaf_runs {key : Key} {v : V} :
    Runs (allocLeaf key v : M V Nat) s fun a' s' => Stp0 N s s' ∧ a' = s.heap.length ∧ s'.heap.length = s.heap.length + 1 ∧
      ∃ i, s'.heap[a']? = some (.leaf { id := i, value := v, key := key, ch := none }) := by
  unfold allocLeaf
  refine Runs.bind (Runs.newCell (Runs.bind (Runs.mono (bumpId_runs (N := N) get_append_new) ?_)))
  rintro _ s1 ⟨h1, h2, ⟨i, h3⟩, h4⟩
  exact Runs.pure ⟨Stp.newCell.then0 h1, rfl, by rw [h2]; simp, i, h3⟩

/-- `makeLeaf`. -/
theorem makeLeaf_runs {key : Key} {v : V} (hN : N ≤ s.heap.length) :
    Runs (makeLeaf key v : M V Nat) s fun a' s' => Stp0 N s s' ∧ s.heap.length ≤ a' ∧
      ∃ (l : Addr) (lc : LeafC V) (n : Inner), s.heap.length ≤ l ∧ s'.heap[a']? = some (.inner n) ∧ s'.heap[l]? = some (.leaf lc) ∧ lc.key = key ∧ lc.value = v ∧
        n.leaf = some l ∧ n.part.length = 10 ∧ Layout n [] none ∧ n.kind = .n4 ∧ n.partialLen = 10 := by
  unfold makeLeaf
  refine Runs.bind (Runs.mono (allocLeaf_runs (N := N)) ?_)
  rintro l s1 ⟨a1, a2, a3, i, a4⟩
  refine Runs.bind (Runs.mono (bumpId_runs (N := N) a4) ?_)
  rintro _ s2 ⟨b1, b2, ⟨j, b3⟩, b4⟩
  refine Runs.bind (Runs.mono (allocInner_runs (N := N)) ?_)
  rintro n4 s3 ⟨c1, c2, c3, q, c4⟩
  have hl3 := (c1.eqv (lt_of_get b3)).leaf b3
  obtain ⟨i3, k3, hl3⟩ := hl3
  refine Runs.bind ?_
  unfold setNodeLeaf
  have hn4 : s.heap.length ≤ n4 := by rw [c2, b2, a3]; omega
  refine Runs.bind (Runs.innerAt c4 (Runs.wr ?_))
  have hst := Stp.wrInner (N := N) (X := fun x => x = n4) (s := s3) (m := { blankInner .n4 with id := q, leaf := some l }) c4 rfl rfl
    (fun h => absurd h (by omega))
  refine Runs.bind (Runs.mono (bumpId_runs (N := N) (get_set_self (lt_of_get c4))) ?_)
  rintro _ s5 ⟨d1, d2, ⟨r, d3⟩, d4⟩
  have hne : l ≠ n4 := by rw [c2, a2, b2, a3]; omega
  refine Runs.pure ⟨?_, hn4, l, { id := i3, value := v, key := key, ch := k3 }, _, by rw [a2]; exact Nat.le_refl _, d3, ?_, rfl, rfl, rfl, by rfl, ?_, by rfl, by rfl⟩
  · refine Stp.mono (((Stp.mono ((a1.then0 b1).then0 c1) (Nat.le_refl _) (Y := fun x => x = n4) fun x _ h => h.elim).trans hst fun x _ h => h).then0 d1) (Nat.le_refl _) ?_
    rintro x hx rfl
    omega
  · rw [d4 l hne]
    show (s3.heap.set n4 _)[l]? = _
    rw [get_set_ne (Ne.symm hne)]
    exact hl3
  · exact Layout.empty rfl rfl (by rfl) (by rfl)

/-- `setNodeLeaf`. -/
theorem setNodeLeaf_runs {a : Addr} {n : Inner} {o : Option Addr} (ha : s.heap[a]? = some (.inner n)) {Q : Unit → St V → Prop}
    (hq : Q () { s with heap := s.heap.set a (.inner { n with leaf := o }) }) : Runs (setNodeLeaf a o : M V Unit) s Q :=
  Runs.bind (Runs.innerAt ha (Runs.wr hq))

/-- `setChildAt`. -/
theorem setChildAt_runs {a : Addr} {n : Inner} {i : Nat} {o : Option Addr} (ha : s.heap[a]? = some (.inner n)) (hi : i < n.children.length) {Q : Unit → St V → Prop}
    (hq : Q () { s with heap := s.heap.set a (.inner { n with children := n.children.set i o }) }) : Runs (setChildAt a i o : M V Unit) s Q := by
  unfold setChildAt
  refine Runs.bind (Runs.innerAt ha (Runs.bind (Runs.lift (a := { n with children := n.children.set i o }) ?_ (Runs.wr hq))))
  simp [Inner.setChild, hi]

end Art
