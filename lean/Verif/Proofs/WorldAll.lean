import Verif.Proofs.IsoTxn
import Verif.Spec
/-
An invariant of every history of API calls without restriction (also with committed transactions used again):
no dangling pointers, every leaf holds a pair that was inserted, channels are only closed by notifications.
-/
set_option autoImplicit false
set_option linter.unusedVariables false
set_option linter.unusedSimpArgs false
namespace Art
variable {V : Type}

/-- No dangling pointers, and all leaves satisfy `P`. -/
def HOK (P : Key → V → Prop) (h : Heap V) : Prop :=
  ∀ (a : Addr) (c : Cell V), h[a]? = some c →
    (∀ b, c.Pts b → b < h.length) ∧ ∀ l, c = .leaf l → P l.key l.value

/-- The context in which everything is accessible and owned. -/
def allCx (P : Key → V → Prop) (s : St V) : Cx V where
  h0 := s.heap
  S := fun _ => True
  O := fun _ => True
  oldMax := s.txn.oldMaxNodeId
  B := False
  P := P

theorem HOK.toJ {P : Key → V → Prop} {s : St V} (h : HOK P s.heap) : J (allCx P s) s where
  len := Nat.le_refl _
  cells := fun a c hc _ => ⟨⟨fun b hb => ⟨.inl trivial, (h a c hc).1 b hb⟩, fun hB => hB.elim, (h a c hc).2⟩,
    fun _ => .inl trivial⟩
  frame := fun a _ hno => (hno (.inl trivial)).elim
  om := rfl

theorem J.toHOK {P : Key → V → Prop} {s s' : St V} (h : J (allCx P s) s') : HOK P s'.heap := fun a c hc =>
  ⟨fun b hb => ((h.cells a c hc (.inl trivial)).1.pts b hb).2, (h.cells a c hc (.inl trivial)).1.leafP⟩

theorem good_all {P : Key → V → Prop} {s s' : St V} {a : Addr} (h : a < s'.heap.length) : (allCx P s).Good s' a :=
  ⟨.inl trivial, h⟩

/-- What a call does to heap and channels when no notification is due. -/
structure StepN (s s' : St V) : Prop where
  len : s.heap.length ≤ s'.heap.length
  chans : ∃ m, s'.chans = s.chans ++ List.replicate m false
  quiet : s.txn.trackMutate = false →
    ∀ (a : Addr) (c : Cell V) k, s.heap[a]? = some c → c.ch = some k → ∃ c' : Cell V, s'.heap[a]? = some c' ∧ c'.ch = some k
  chs : ∀ P : ChanId → Prop, (∀ k, s.chans.length ≤ k → k < s'.chans.length → P k) → ChAll P s → ChAll P s'
  lab : LabTo s.heap s.chans.length s'.heap s'.chans.length

theorem StepT.toN {s s' : St V} (h : StepT s s') : StepN s s' := ⟨h.len, h.chans, fun ht => (h.quiet ht).2, h.chs, h.lab⟩

theorem StepN.refl (s : St V) : StepN s s := (StepT.refl s).toN

theorem StepN.trans {s s' s'' : St V} (h1 : StepN s s') (h2 : StepN s' s'')
    (ht : s.txn.trackMutate = false → s'.txn.trackMutate = false) : StepN s s'' where
  len := Nat.le_trans h1.len h2.len
  chans := by
    obtain ⟨m, hm⟩ := h1.chans
    obtain ⟨m', hm'⟩ := h2.chans
    exact ⟨m + m', by rw [hm', hm, List.append_assoc, List.replicate_append_replicate]⟩
  quiet := fun hq a c k hc hk => by
    obtain ⟨c', hc', hk'⟩ := h1.quiet hq a c k hc hk
    exact h2.quiet (ht hq) a c' k hc' hk'
  chs := fun P hP h => h2.chs P (fun k hk hk' => hP k (Nat.le_trans (chans_le h1.chans) hk) hk')
    (h1.chs P (fun k hk hk' => hP k hk (Nat.lt_of_lt_of_le hk' (chans_le h2.chans))) h)
  lab := h1.lab.trans (chans_le h1.chans) h2.lab

/-- A call keeps the heap well-formed. -/
structure Safe (P : Key → V → Prop) {α : Type} (m : M V α) (s : St V) : Prop where
  hok : HOK P (m s).2.heap
  step : StepN s (m s).2

section
variable {P : Key → V → Prop} {s : St V} {α : Type}

theorem Safe.ofTr {m : M V α} {Q : α → St V → Prop} (h : Tr (allCx P s) m Q s) : Safe P m s :=
  ⟨h.1.toHOK, h.2.1.toT.toN⟩

theorem Safe.ofTrT {m : M V α} (h : TrT (allCx P s) m s) : Safe P m s := ⟨h.j.toHOK, h.step.toN⟩

/-- The transaction that a tree operation opens, runs `m` in, and commits (tree.go:64-78, 329-333). -/
def treeOp (t : Tree) (m : M V α) : M V (Tree × α) := do
  let ts ← beginTxn t
  withTxn ts do
    let a ← m
    let nt ← txnCommit
    pure (nt, a)

theorem treeInsert_eq [Inhabited V] (t : Tree) (k : Key) (v : V) : treeInsert t k v = treeOp t (txnInsert k v) := rfl
theorem treeDelete_eq [Inhabited V] (t : Tree) (k : Key) : (treeDelete t k : M V _) = treeOp t (txnDelete k) := rfl
theorem treeDeletePrefix_eq [Inhabited V] (t : Tree) (k : Key) :
    (treeDeletePrefix t k : M V _) = treeOp t (txnDeletePrefix k) := rfl

/-- The state a new transaction on tree `t` starts in, `r` being the copy of the root. -/
def startTxn (t : Tree) (r : Addr) : TxnSt where
  root := r
  treeSize := t.size
  maxNodeId := t.maxNodeId
  size := t.size
  oldMaxNodeId := t.maxNodeId
  trackMutate := false
  trackChnSlice := []

theorem beginTxn_run (t : Tree) (s : St V) : beginTxn t s =
    match cloneNode t.root true s with
    | (.ok r, s1) => (.ok (startTxn t r), s1)
    | (.error e, s1) => (.error e, s1) := by
  unfold beginTxn
  rw [bind_run]
  match cloneNode t.root true s with
  | (.ok r, s1) => rfl
  | (.error e, s1) => rfl

theorem pure_run (a : α) (s : St V) : (pure a : M V α) s = (.ok a, s) := rfl

theorem treeOp_run (t : Tree) (m : M V α) (s : St V)
    (hm : ∀ r s1, cloneNode t.root true s = (.ok r, s1) →
      (m { s1 with txn := startTxn t r }).2.txn.trackMutate = false) : treeOp t m s =
    match cloneNode t.root true s with
    | (.error e, s1) => (.error e, s1)
    | (.ok r, s1) =>
      match m { s1 with txn := startTxn t r } with
      | (.error e, s2) => (.error e, s2)
      | (.ok a, s2) => (.ok ({ root := s2.txn.root, size := s2.txn.size, maxNodeId := s2.txn.maxNodeId }, a), s2) := by
  unfold treeOp
  rw [bind_run, beginTxn_run]
  match hc : cloneNode t.root true s with
  | (.error e, s1) => rfl
  | (.ok r, s1) =>
    simp only [withTxn, bind_run, modTxn]
    have := hm r s1 hc
    match hr : m { s1 with txn := startTxn t r } with
    | (.error e, s2) => rfl
    | (.ok a, s2) =>
      rw [hr] at this
      have ht : s2.txn.trackMutate = false := this
      simp [txnCommit, txnCommitOnly, bind_run, txnSt, txnNotify, ht, pure_run]


/-! ### The calls one by one -/

/-- A call made by a transaction. -/
structure SafeT (P : Key → V → Prop) (m : M V α) : Prop where
  run : ∀ s : St V, HOK P s.heap → s.txn.root < s.heap.length → TrT (allCx P s) m s

theorem SafeT.insert [Inhabited V] {k : Key} {v : V} (hp : P (getTreeKey k) v) : SafeT P (txnInsert k v) :=
  ⟨fun s h hr => TrT.txnInsert h.toJ (good_all hr) hp⟩
theorem SafeT.delete [Inhabited V] (k : Key) (hp : P [] (default : V)) : SafeT P (txnDelete k) :=
  ⟨fun s h hr => TrT.txnDelete h.toJ (good_all hr) k hp⟩
theorem SafeT.deletePrefix [Inhabited V] (k : Key) (hp : P [] (default : V)) : SafeT P (txnDeletePrefix k) :=
  ⟨fun s h hr => TrT.txnDeletePrefix h.toJ (good_all hr) k hp⟩


/-- The copy that `cloneNode` makes. -/
def Cell.copy (c : Cell V) (k : Option ChanId) : Cell V :=
  match c with
  | .leaf l => .leaf { l with ch := k }
  | .inner n => .inner { n with part := goCopy zeroPartial 0 n.part, ch := k }

/-- The watch channel of node `c` and how many channels must be created for it. -/
def watchCh (s : St V) (c : Cell V) : ChanId × Nat :=
  match c.ch with
  | some k => (k, 0)
  | none => (s.chans.length, 1)

/-- The store after the watch channel of node `a` with contents `c` was asked for. -/
def St.watched (s : St V) (a : Addr) (c : Cell V) : St V where
  heap := s.heap.set a (c.setCh (some (watchCh s c).1))
  chans := s.chans ++ List.replicate (watchCh s c).2 false
  txn := s.txn

theorem Cell.setCh_self (c : Cell V) : c.setCh c.ch = c := by cases c <;> rfl

theorem set_self {h : Heap V} {a : Addr} {c : Cell V} (hc : h[a]? = some c) : h.set a c = h := by
  obtain ⟨hlt, rfl⟩ := List.getElem?_eq_some_iff.1 hc
  exact List.set_getElem_self hlt

theorem getMutateCh_run' (a : Addr) (s : St V) : getMutateCh a s =
    match s.heap[a]? with
    | none => (.error .nilDeref, s)
    | some c => (.ok (watchCh s c).1, s.watched a c) := by
  rw [getMutateCh_run]
  cases hc : s.heap[a]? with
  | none => rfl
  | some c =>
    cases hk : c.ch with
    | none => simp [St.watched, watchCh, hk]
    | some k =>
      have : c.setCh (some k) = c := by rw [← hk]; exact c.setCh_self
      simp [St.watched, watchCh, hk, this, set_self hc]

theorem cloneNode_run (a : Addr) (s : St V) : cloneNode a true s =
    match s.heap[a]? with
    | none => (.error .nilDeref, s)
    | some c => (.ok s.heap.length, { s with
        heap := s.heap.set a (c.setCh (some (watchCh s c).1)) ++ [c.copy (some (watchCh s c).1)],
        chans := s.chans ++ List.replicate (watchCh s c).2 false }) := by
  unfold cloneNode keepCh
  simp only [if_true, bind_run, getMutateCh_run']
  cases hc : s.heap[a]? with
  | none => rfl
  | some c =>
    have hlt := (List.getElem?_eq_some_iff.1 hc).1
    simp only [pure_run, cell, rd, St.watched, List.getElem?_set, hlt, if_true]
    cases c <;> simp [Cell.setCh, newCell, Cell.copy]

theorem cloneNode_txn (a : Addr) (s : St V) : (cloneNode a true s).2.txn = s.txn := by
  rw [cloneNode_run]; split <;> rfl

theorem cloneNode_safe (h : HOK P s.heap) {a : Addr} (ha : a < s.heap.length) :
    Safe P (cloneNode a true) s ∧
    ∀ r, (cloneNode a true s).1 = .ok r → r < (cloneNode a true s).2.heap.length := by
  have := Tr.cloneNode h.toJ (good_all (P := P) (s := s) ha) true
  exact ⟨.ofTr this, fun r hr => (this.2.2.1 r hr).1.1.2⟩

theorem treeOp_safe {m : M V α} (hm : SafeT P m)
    (h : HOK P s.heap) (hs : s.txn.trackMutate = false) {t : Tree} (ht : t.root < s.heap.length) :
    Safe P (treeOp t m) s ∧ ∀ r, (treeOp t m s).1 = .ok r → r.1.root < (treeOp t m s).2.heap.length := by
  obtain ⟨⟨h1, h2⟩, h3⟩ := cloneNode_safe h ht
  have hrun := treeOp_run t m s fun r s1 hc => by
    rw [hc] at h1 h3
    exact (hm.run { s1 with txn := startTxn t r } h1 (h3 r rfl)).step.track
  match hc : cloneNode t.root true s with
  | (.error e, s1) =>
    rw [hc] at hrun h1 h2
    exact ⟨⟨by rw [hrun]; exact h1, by rw [hrun]; exact h2⟩, fun r hr => by rw [hrun] at hr; cases hr⟩
  | (.ok r, s1) =>
    rw [hc] at hrun h1 h2 h3
    have h4 := hm.run { s1 with txn := startTxn t r } h1 (h3 r rfl)
    have h5 : StepN s (m { s1 with txn := startTxn t r }).2 := by
      have a := h4.step
      refine ⟨Nat.le_trans h2.len a.len, ?_, fun _ b c k hb hk' => ?_, fun P hP h => ?_, h2.lab.trans (chans_le h2.chans) a.lab⟩
      · obtain ⟨n, hn⟩ := h2.chans
        obtain ⟨n', hn'⟩ := a.chans
        exact ⟨n + n', by rw [hn']; show s1.chans ++ _ = _; rw [hn, List.append_assoc, List.replicate_append_replicate]⟩
      · obtain ⟨c', hc', hk''⟩ := h2.quiet hs b c k hb hk'
        exact (a.quiet rfl).2 b c' k hc' hk''
      · have hle := chans_le a.chans
        refine a.chs P (fun k hk hk' => hP k (Nat.le_trans (chans_le h2.chans) hk) hk') ⟨?_, fun k hk => by cases hk⟩
        exact (h2.chs P (fun k hk hk' => hP k hk (Nat.lt_of_lt_of_le hk' hle)) h).1
    match hr : m { s1 with txn := startTxn t r } with
    | (.error e, s2) =>
      simp only [hr] at hrun h4 h5
      exact ⟨⟨by rw [hrun]; have := h4.j.toHOK; rw [hr] at this; exact this, by rw [hrun]; exact h5⟩,
        fun r hr => by rw [hrun] at hr; cases hr⟩
    | (.ok b, s2) =>
      simp only [hr] at hrun h5
      refine ⟨⟨by rw [hrun]; have := h4.j.toHOK; rw [hr] at this; exact this, by rw [hrun]; exact h5⟩,
        fun r hr' => ?_⟩
      have := h4.root.2
      rw [hr] at this
      rw [hrun] at hr' ⊢
      cases hr'
      exact this

theorem treeGetWatch_run (t : Tree) (k : Key) (s : St V) : treeGetWatch t k s =
    match search s.heap t.root k with
    | .error e => (.error e, s)
    | .ok hit =>
      match s.heap[hit.watch]? with
      | none => (.error .nilDeref, s)
      | some c => (.ok ((watchCh s c).1, hit.val), s.watched hit.watch c) := by
  simp only [treeGetWatch, bind_run, M.get, M.lift]
  cases search s.heap t.root k with
  | error e => rfl
  | ok hit =>
    simp only [getMutateCh_run']
    cases s.heap[hit.watch]? <;> rfl

theorem seekPrefixWatch_run (it : Iter) (p : Key) (s : St V) : seekPrefixWatch it p s =
    match seekPrefix s.heap it p with
    | .error e => (.error e, s)
    | .ok (it', a) =>
      match s.heap[a]? with
      | none => (.error .nilDeref, s)
      | some c => (.ok (it', (watchCh s c).1), s.watched a c) := by
  simp only [seekPrefixWatch, bind_run, M.get, M.lift]
  match seekPrefix s.heap it p with
  | .error e => rfl
  | .ok (it', a) =>
    simp only [getMutateCh_run']
    cases s.heap[a]? <;> rfl

/-! ### The invariant of the program -/

/-- No dangling pointers anywhere, and all leaves satisfy `P`. -/
structure WAll (P : Key → V → Prop) (w : World V) : Prop where
  hok : HOK P w.heap
  trees : ∀ t ∈ w.trees, t.root < w.heap.length
  txns : ∀ r ∈ w.txns, r.st.root < w.heap.length


/-- Nodes keep the channel they have. -/
def KeepCh (h h' : Heap V) : Prop :=
  ∀ (a : Addr) (c : Cell V) k, h[a]? = some c → c.ch = some k → ∃ c' : Cell V, h'[a]? = some c' ∧ c'.ch = some k

theorem KeepCh.refl (h : Heap V) : KeepCh h h := fun _ c _ hc hk => ⟨c, hc, hk⟩

/-- No transaction has tracking on. -/
def NoTrack (w : World V) : Prop := ∀ r ∈ w.txns, r.st.trackMutate = false

/-- The same channels, and perhaps some new ones, which are open. -/
def ChansExt (cs cs' : List Bool) : Prop := ∃ m, cs' = cs ++ List.replicate m false

theorem ChansExt.refl (cs : List Bool) : ChansExt cs cs := ⟨0, by simp⟩

/-- All channels of the program satisfy `Q`. -/
def WCh (Q : ChanId → Prop) (w : World V) : Prop := ChHeap Q w.heap ∧ ∀ r ∈ w.txns, ∀ k ∈ r.st.trackChnSlice, Q k

/-- Closed channels stay closed. -/
def ClosedLe (cs cs' : List Bool) : Prop := cs.length ≤ cs'.length ∧ ∀ k : Nat, cs[k]? = some true → cs'[k]? = some true

theorem ClosedLe.refl (cs : List Bool) : ClosedLe cs cs := ⟨Nat.le_refl _, fun _ h => h⟩
theorem ClosedLe.trans {cs cs' cs'' : List Bool} (h : ClosedLe cs cs') (h' : ClosedLe cs' cs'') : ClosedLe cs cs'' :=
  ⟨Nat.le_trans h.1 h'.1, fun k hk => h'.2 k (h.2 k hk)⟩
theorem ChansExt.closed {cs cs' : List Bool} (h : ChansExt cs cs') : ClosedLe cs cs' := by
  obtain ⟨m, rfl⟩ := h
  exact ⟨by simp, fun k hk => by rw [List.getElem?_append_left (List.getElem?_eq_some_iff.1 hk).1]; exact hk⟩

theorem close_all (ks : List ChanId) (cs : List Bool) : ClosedLe cs (ks.foldl (fun cs k => cs.set k true) cs) ∧
    (ks.foldl (fun cs k => cs.set k true) cs).length = cs.length ∧
    (∀ k ∈ ks, k < cs.length → (ks.foldl (fun cs k => cs.set k true) cs)[k]? = some true) ∧
    ∀ k, k ∉ ks → (ks.foldl (fun cs k => cs.set k true) cs)[k]? = cs[k]? := by
  induction ks generalizing cs with
  | nil => exact ⟨.refl _, rfl, (fun k hk => by cases hk), fun _ _ => rfl⟩
  | cons x ks ih =>
    obtain ⟨h1, h2, h3, h4⟩ := ih (cs.set x true)
    simp only [List.foldl_cons]
    have hc : ClosedLe cs (cs.set x true) := ⟨by simp, fun k hk => by
      rw [List.getElem?_set]
      split
      · have := (List.getElem?_eq_some_iff.1 hk).1
        rename_i h; subst h; rw [if_pos this]
      · exact hk⟩
    refine ⟨hc.trans h1, by rw [h2]; simp, fun k hk hlt => ?_, fun k hk => ?_⟩
    · rcases List.mem_cons.1 hk with rfl | hk
      · exact h1.2 _ (by simp [List.getElem?_set, hlt])
      · exact h3 k hk (by simpa using hlt)
    · rw [h4 k fun h => hk (List.mem_cons_of_mem _ h), List.getElem?_set_ne]
      rintro rfl; exact hk (List.mem_cons_self)

/-- What one call does; `N` says that it notifies, `T` that it turns no tracking on, `K` that it tracks nothing. -/
structure Res (P : Key → V → Prop) (N T K : Prop) (w w' : World V) : Prop where
  all : WAll P w'
  len : w.heap.length ≤ w'.heap.length
  chans : ¬ N → ChansExt w.chans w'.chans
  quiet : NoTrack w → T → NoTrack w' ∧ KeepCh w.heap w'.heap
  closed : ClosedLe w.chans w'.chans
  chs : ∀ Q : ChanId → Prop, (∀ k, w.chans.length ≤ k → k < w'.chans.length → Q k) → WCh Q w → WCh Q w'
  lab : LabTo w.heap w.chans.length w'.heap w'.chans.length
  keep : K → KeepCh w.heap w'.heap

variable {w : World V} {N T K : Prop}

theorem Res.refl (hw : WAll P w) : Res P N T K w w :=
  ⟨hw, Nat.le_refl _, fun _ => .refl _, fun h _ => ⟨h, .refl _⟩, .refl _, fun _ _ h => h, .refl, fun _ => .refl _⟩

theorem Res.onTree (hw : WAll P w) {t : Nat} {f : Tree → M V α} {out : α → Out V × List Tree}
    (hf : ∀ tr, w.trees[t]? = some tr → Safe P (f tr) (w.st default) ∧
      ∀ a, (f tr (w.st default)).1 = .ok a → ∀ nt ∈ (out a).2, nt.root < (f tr (w.st default)).2.heap.length) :
    Res P N T K w (w.onTree t f out).2 := by
  unfold World.onTree
  cases ht : w.trees[t]? with
  | none => exact .refl hw
  | some tr =>
    obtain ⟨⟨h1, h2⟩, h3⟩ := hf tr ht
    simp only
    match hr : f tr (w.st default) with
    | (.ok a, s) =>
      rw [hr] at h1 h2 h3
      refine ⟨⟨h1, fun t' ht' => ?_, fun r hr' => Nat.lt_of_lt_of_le (hw.txns r hr') h2.len⟩, h2.len,
        fun _ => h2.chans, fun hn _ => ⟨hn, h2.quiet rfl⟩, ChansExt.closed h2.chans,
        fun Q hQ h => ⟨(h2.chs Q hQ ⟨h.1, fun k hk => by cases hk⟩).1, h.2⟩, h2.lab, fun _ => h2.quiet rfl⟩
      rcases List.mem_append.1 ht' with h | h
      · exact Nat.lt_of_lt_of_le (hw.trees t' h) h2.len
      · exact h3 a rfl t' h
    | (.error e, s) =>
      rw [hr] at h1 h2
      exact ⟨⟨h1, fun t' ht' => Nat.lt_of_lt_of_le (hw.trees t' ht') h2.len,
        fun r hr' => Nat.lt_of_lt_of_le (hw.txns r hr') h2.len⟩, h2.len,
        fun _ => h2.chans, fun hn _ => ⟨hn, h2.quiet rfl⟩, ChansExt.closed h2.chans,
        fun Q hQ h => ⟨(h2.chs Q hQ ⟨h.1, fun k hk => by cases hk⟩).1, h.2⟩, h2.lab, fun _ => h2.quiet rfl⟩

/-- What a call of a transaction must do. -/
structure TxnRes (P : Key → V → Prop) (N T K : Prop) (s s' : St V) : Prop where
  hok : HOK P s'.heap
  len : s.heap.length ≤ s'.heap.length
  root : s'.txn.root < s'.heap.length
  chans : ¬ N → ChansExt s.chans s'.chans
  quiet : s.txn.trackMutate = false → T → s'.txn.trackMutate = false ∧ KeepCh s.heap s'.heap
  closed : ClosedLe s.chans s'.chans
  chs : ∀ P : ChanId → Prop, (∀ k, s.chans.length ≤ k → k < s'.chans.length → P k) → ChAll P s → ChAll P s'
  lab : LabTo s.heap s.chans.length s'.heap s'.chans.length
  keep : K → KeepCh s.heap s'.heap

theorem Res.onTxn (hw : WAll P w) {x : Nat} {f : M V α} {out : α → Out V × List Tree} {mark : TxnRec → TxnRec}
    (hm : ∀ r, (mark r).st = r.st)
    (hf : ∀ r, w.txns[x]? = some r → r.st.root < w.heap.length → TxnRes P N T K (w.st r.st) (f (w.st r.st)).2 ∧
      ∀ a, (f (w.st r.st)).1 = .ok a → ∀ nt ∈ (out a).2, nt.root < (f (w.st r.st)).2.heap.length) :
    Res P N T K w (w.onTxn x f out mark).2 := by
  unfold World.onTxn
  cases ht : w.txns[x]? with
  | none => exact .refl hw
  | some r0 =>
    have hr0 : r0 ∈ w.txns := List.mem_of_getElem? ht
    obtain ⟨h1, h3⟩ := hf r0 ht (hw.txns _ hr0)
    simp only
    have key : ∀ (s : St V) (ts : List Tree), TxnRes P N T K (w.st r0.st) s → (∀ nt ∈ ts, nt.root < s.heap.length) →
        Res P N T K w { w.put s with trees := w.trees ++ ts, txns := w.txns.set x (mark { r0 with st := s.txn }) } := by
      intro s ts h hts
      refine ⟨⟨h.hok, fun t' ht' => ?_, fun r hr' => ?_⟩, h.len, h.chans, fun hn hT => ⟨fun r hr' => ?_, (h.quiet (hn r0 hr0) hT).2⟩, h.closed,
        fun Q hQ hA => ⟨(h.chs Q hQ ⟨hA.1, hA.2 r0 hr0⟩).1, fun r hr' => ?_⟩, h.lab, h.keep⟩
      · rcases List.mem_append.1 ht' with h' | h'
        · exact Nat.lt_of_lt_of_le (hw.trees t' h') h.len
        · exact hts t' h'
      · rcases List.mem_or_eq_of_mem_set hr' with h' | h'
        · exact Nat.lt_of_lt_of_le (hw.txns r h') h.len
        · subst h'; rw [hm]; exact h.root
      · rcases List.mem_or_eq_of_mem_set hr' with h' | h'
        · exact hn r h'
        · subst h'; rw [hm]; exact (h.quiet (hn r0 hr0) hT).1
      · rcases List.mem_or_eq_of_mem_set hr' with h' | h'
        · exact hA.2 r h'
        · subst h'; rw [hm]; exact (h.chs Q hQ ⟨hA.1, hA.2 r0 hr0⟩).2
    match hr : f (w.st r0.st) with
    | (.ok a, s) =>
      rw [hr] at h1 h3
      exact key s _ h1 (h3 a rfl)
    | (.error e, s) =>
      rw [hr] at h1
      have := key s [] h1 (by simp)
      rw [List.append_nil] at this
      exact this

theorem Res.addTxn (hw : WAll P w) {p : R TxnSt × St V} (h1 : HOK P p.2.heap) (h2 : w.heap.length ≤ p.2.heap.length)
    (h3 : ChansExt w.chans p.2.chans) (h4 : KeepCh w.heap p.2.heap)
    (h6 : ∀ Q : ChanId → Prop, (∀ k, w.chans.length ≤ k → k < p.2.chans.length → Q k) → WCh Q w → ChHeap Q p.2.heap)
    (h7 : LabTo w.heap w.chans.length p.2.heap p.2.chans.length)
    (h5 : ∀ ts, p.1 = .ok ts → ts.root < p.2.heap.length ∧ ts.trackMutate = false ∧ ts.trackChnSlice = []) : Res P N T K w (w.addTxn p).2 := by
  unfold World.addTxn
  match p with
  | (.ok ts, s) =>
    refine ⟨⟨h1, fun t' ht' => Nat.lt_of_lt_of_le (hw.trees t' ht') h2, fun r hr' => ?_⟩, h2, fun _ => h3,
      fun hn _ => ⟨fun r hr' => ?_, h4⟩, h3.closed, fun Q hQ hA => ⟨h6 Q hQ hA, fun r hr' k hk => ?_⟩, h7, fun _ => h4⟩
    · rcases List.mem_append.1 hr' with h' | h'
      · exact Nat.lt_of_lt_of_le (hw.txns r h') h2
      · rw [List.mem_singleton.1 h']; exact (h5 ts rfl).1
    · rcases List.mem_append.1 hr' with h' | h'
      · exact hn r h'
      · rw [List.mem_singleton.1 h']; exact (h5 ts rfl).2.1
    · rcases List.mem_append.1 hr' with h' | h'
      · exact hA.2 r h' k hk
      · rw [List.mem_singleton.1 h'] at hk
        rw [show _ = [] from (h5 ts rfl).2.2] at hk
        cases hk
  | (.error e, s) =>
    exact ⟨⟨h1, fun t' ht' => Nat.lt_of_lt_of_le (hw.trees t' ht') h2,
      fun r hr' => Nat.lt_of_lt_of_le (hw.txns r hr') h2⟩, h2, fun _ => h3, fun hn _ => ⟨hn, h4⟩, h3.closed,
      fun Q hQ hA => ⟨h6 Q hQ hA, hA.2⟩, h7, fun _ => h4⟩

theorem TxnRes.ofTrT {m : M V α} (h : TrT (allCx P s) m s) (hK : K → s.txn.trackMutate = false) : TxnRes P N T K s (m s).2 :=
  ⟨h.j.toHOK, h.step.len, h.root.2, fun _ => h.step.chans, fun ht _ => ⟨h.step.track.trans ht, (h.step.quiet ht).2⟩, ChansExt.closed h.step.chans, h.step.chs, h.step.lab,
    fun hk => (h.step.quiet (hK hk)).2⟩

/-- Creating the watch channel of a node. -/
theorem HOK.watch_keep {a : Addr} {c : Cell V} (hc : s.heap[a]? = some c) :
    KeepCh s.heap (s.heap.set a (c.setCh (some (watchCh s c).1))) := by
  have hlt := (List.getElem?_eq_some_iff.1 hc).1
  intro b d k hb hk
  by_cases hab : a = b
  · subst hab
    rw [hc] at hb; cases hb
    refine ⟨c.setCh (some (watchCh s c).1), by simp [List.getElem?_set, hlt], ?_⟩
    have : (watchCh s c).1 = k := by simp [watchCh, hk]
    rw [this]; cases c <;> rfl
  · exact ⟨d, by simp [List.getElem?_set, hab, hb], hk⟩

theorem HOK.watch (h : HOK P s.heap) {a : Addr} {c : Cell V} (hc : s.heap[a]? = some c) :
    HOK P (s.heap.set a (c.setCh (some (watchCh s c).1))) ∧
    KeepCh s.heap (s.heap.set a (c.setCh (some (watchCh s c).1))) :=
  ⟨(h.toJ.setCh hc (some (watchCh s c).1)).toHOK, HOK.watch_keep hc⟩

theorem LabTo.watched {a : Addr} {c : Cell V} (hc : s.heap[a]? = some c) :
    LabTo s.heap s.chans.length (s.watched a c).heap (s.watched a c).chans.length := by
  unfold St.watched watchCh
  cases hch : c.ch with
  | some k =>
    simp only [List.replicate_zero, List.append_nil]
    exact .set hc (by rw [hch]; cases c <;> rfl) (Cell.label_setCh _ _)
  | none =>
    simp only [List.length_append, List.length_replicate]
    exact LabTo.setCh (m := 1) hc (some s.chans.length) fun k' h => by cases h; exact ⟨Nat.le_refl _, Nat.lt_succ_self _⟩

theorem watch_safe {s' : St V} {r : R α} (h : HOK P s.heap) (hs : s' = s ∨ ∃ (a : Addr) (c : Cell V), s.heap[a]? = some c ∧
      s' = s.watched a c) :
    HOK P s'.heap ∧ s.heap.length = s'.heap.length ∧ ChansExt s.chans s'.chans ∧ KeepCh s.heap s'.heap ∧ s'.txn = s.txn ∧
    (∀ P : ChanId → Prop, (∀ k, s.chans.length ≤ k → k < s'.chans.length → P k) → ChAll P s → ChAll P s') ∧
    LabTo s.heap s.chans.length s'.heap s'.chans.length := by
  rcases hs with rfl | ⟨a, c, hc, rfl⟩
  · exact ⟨h, rfl, .refl _, .refl _, rfl, fun _ _ h => h, .refl⟩
  · obtain ⟨h1, h2⟩ := h.watch hc
    refine ⟨h1, by simp [St.watched], ⟨_, rfl⟩, h2, rfl, fun P hP hA => ⟨fun b d k hb hk => ?_, hA.2⟩, LabTo.watched hc⟩
    have hlt : a < s.heap.length := (List.getElem?_eq_some_iff.1 hc).1
    by_cases hab : a = b
    · subst hab
      simp [St.watched, List.getElem?_set, hlt] at hb
      subst hb
      have hk : some (watchCh s c).1 = some k := by rw [← hk]; cases c <;> rfl
      cases hk
      unfold watchCh
      cases hch : c.ch with
      | some k0 => exact hA.1 a c k0 hc hch
      | none => exact hP _ (Nat.le_refl _) (by simp [St.watched, watchCh, hch])
    · simp [St.watched, List.getElem?_set, hab] at hb
      exact hA.1 b d k (by simp [hb]) hk

theorem treeGetWatch_cases (t : Tree) (k : Key) (s : St V) : (treeGetWatch t k s).2 = s ∨
    ∃ (a : Addr) (c : Cell V), s.heap[a]? = some c ∧
      (treeGetWatch t k s).2 = s.watched a c := by
  rw [treeGetWatch_run]
  cases search s.heap t.root k with
  | error e => exact .inl rfl
  | ok hit =>
    cases hc : s.heap[hit.watch]? with
    | none => exact .inl (by simp only [hc])
    | some c => exact .inr ⟨_, c, hc, by simp only [hc]⟩

theorem seekPrefixWatch_cases (it : Iter) (k : Key) (s : St V) : (seekPrefixWatch it k s).2 = s ∨
    ∃ (a : Addr) (c : Cell V), s.heap[a]? = some c ∧
      (seekPrefixWatch it k s).2 = s.watched a c := by
  rw [seekPrefixWatch_run]
  match seekPrefix s.heap it k with
  | .error e => exact .inl rfl
  | .ok (it', a) =>
    cases hc : s.heap[a]? with
    | none => exact .inl (by simp only [hc])
    | some c => exact .inr ⟨_, c, hc, by simp only [hc]⟩


theorem newRadixTree_run [Inhabited V] (s : St V) : (newRadixTree : M V Tree) s =
    (.ok { root := s.heap.length + 1, size := 0, maxNodeId := 1 },
     { s with heap := s.heap ++ [resetLeaf 0] ++ [.inner (resetNode 0 s.heap.length)] }) := by
  simp [newRadixTree, bind_run, newCell, pure_run, resetLeaf, resetNode]

theorem HOK.alloc (h : HOK P s.heap) {c : Cell V} (h1 : ∀ b, c.Pts b → b < s.heap.length)
    (h2 : ∀ l, c = .leaf l → P l.key l.value) : HOK P (s.heap ++ [c]) :=
  (h.toJ.alloc (c := c) ⟨fun b hb => good_all (h1 b hb), fun hB => hB.elim, h2⟩).toHOK

theorem HOK.newTree [Inhabited V] (h : HOK P s.heap) (hp : P [] (default : V)) :
    HOK P (s.heap ++ [resetLeaf 0] ++ [.inner (resetNode 0 s.heap.length)]) := by
  have h1 : HOK P (s.heap ++ [resetLeaf 0]) :=
    h.alloc (fun b hb => by rcases hb with h | h <;> cases h) fun l hl => by cases hl; exact hp
  refine HOK.alloc (s := { s with heap := s.heap ++ [resetLeaf 0] }) h1 (fun b hb => ?_) fun l hl => by cases hl
  rcases hb with h | h
  · cases h; simp
  · have := List.eq_of_mem_replicate h; cases this

theorem keepCh_append (h : Heap V) (l : List (Cell V)) : KeepCh h (h ++ l) := fun a c k hc hk =>
  ⟨c, by rw [List.getElem?_append_left (List.getElem?_eq_some_iff.1 hc).1]; exact hc, hk⟩

theorem Safe.read {m : M V α} (hm : (m s).2 = s) (h : HOK P s.heap) : Safe P m s :=
  ⟨by rw [hm]; exact h, by rw [hm]; exact .refl s⟩

theorem TxnRes.read {s' : St V} (hm : s' = s) (h : HOK P s.heap) (hr : s.txn.root < s.heap.length) :
    TxnRes P N T K s s' := by
  subst hm
  exact ⟨h, Nat.le_refl _, hr, fun _ => .refl _, fun ht _ => ⟨ht, .refl _⟩, .refl _, fun _ _ h => h, .refl, fun _ => .refl _⟩

theorem watch_Safe {m : M V α} (h : HOK P s.heap) (hs : (m s).2 = s ∨ ∃ (a : Addr) (c : Cell V), s.heap[a]? = some c ∧
      (m s).2 = s.watched a c) : Safe P m s := by
  obtain ⟨h1, h2, h3, h4, h5, h6, h7⟩ := watch_safe (r := (m s).1) h hs
  exact ⟨h1, ⟨Nat.le_of_eq h2, h3, fun _ => h4, h6, h7⟩⟩

theorem lift_run (r : R α) (s : St V) : M.lift r s = (r, s) := by cases r <;> rfl

theorem notify_run (s : St V) : (txnNotify : M V Unit) s = (.ok (), {
    s with
    chans := if s.txn.trackMutate then s.txn.trackChnSlice.foldl (fun cs k => cs.set k true) s.chans else s.chans,
    txn := if s.txn.trackMutate then { s.txn with trackChnSlice := [] } else s.txn }) := by
  simp only [txnNotify, bind_run, txnSt]
  cases h : s.txn.trackMutate <;> simp [slowNotify, pure_run, h]

theorem commit_run (s : St V) : (txnCommit : M V Tree) s =
    (.ok { root := s.txn.root, size := s.txn.size, maxNodeId := s.txn.maxNodeId }, (txnNotify s).2) := by
  simp only [txnCommit, txnCommitOnly, bind_run, txnSt, pure_run, notify_run]

theorem notify_res (h : HOK P s.heap) (hr : s.txn.root < s.heap.length) :
    TxnRes P (s.txn.trackMutate = true) T K s (txnNotify s).2 := by
  rw [notify_run]
  cases ht : s.txn.trackMutate with
  | true => exact ⟨h, Nat.le_refl _, hr, fun hn => (hn rfl).elim, fun h => (by rw [ht] at h; cases h), (close_all _ _).1,
      fun Q _ hA => ⟨hA.1, fun k hk => by cases hk⟩,
      .mono (Nat.le_of_eq (close_all _ _).2.1.symm), fun _ => .refl _⟩
  | false => exact TxnRes.read (by simp) h hr

theorem commit_res (h : HOK P s.heap) (hr : s.txn.root < s.heap.length) :
    TxnRes P (s.txn.trackMutate = true) T K s (txnCommit s).2 := by
  rw [commit_run]; exact notify_res h hr

theorem cloneNode_keep (a : Addr) (s : St V) : KeepCh s.heap (cloneNode a true s).2.heap := by
  rw [cloneNode_run]
  cases hc : s.heap[a]? with
  | none => exact .refl _
  | some c =>
    intro b d k hb hk
    obtain ⟨d', hd, hk'⟩ := (HOK.watch_keep hc) b d k hb hk
    have := (List.getElem?_eq_some_iff.1 hd).1
    refine ⟨d', ?_, hk'⟩
    simp only
    rw [List.getElem?_append_left this]; exact hd

theorem Res.begin (hw : WAll P w) {tr : Tree} (ht : tr.root < w.heap.length) (ts : TxnSt)
    (hts : ∀ Q : ChanId → Prop, WCh Q w → ∀ k ∈ ts.trackChnSlice, Q k) :
    Res P N T K w (w.addTxn (beginTxn tr (w.st ts))).2 := by
  obtain ⟨⟨h1, h2⟩, h3⟩ := cloneNode_safe (s := w.st ts) hw.hok ht
  have hb := beginTxn_run tr (w.st ts)
  have hk := cloneNode_keep tr.root (w.st ts)
  match hr : cloneNode tr.root true (w.st ts) with
  | (.ok r, s1) =>
    rw [hr] at hb h1 h2 h3 hk
    rw [hb]
    exact Res.addTxn hw h1 h2.len h2.chans hk (fun Q hQ hA => (h2.chs Q hQ ⟨hA.1, hts Q hA⟩).1) h2.lab fun ts hts => by cases hts; exact ⟨h3 r rfl, rfl, rfl⟩
  | (.error e, s1) =>
    rw [hr] at hb h1 h2 hk
    rw [hb]
    exact Res.addTxn hw h1 h2.len h2.chans hk (fun Q hQ hA => (h2.chs Q hQ ⟨hA.1, hts Q hA⟩).1) h2.lab fun ts hts => by cases hts

/-- Every call keeps the invariant. -/
theorem exec_all [Inhabited V] (hw : WAll P w) (op : Op V) (hp0 : P [] (default : V))
    (hp : ∀ k v, op.inserts k v → P (getTreeKey k) v) :
    Res P (op.notifies w) (∀ x, op ≠ .trackMutate x true)
      (∀ x (r : TxnRec), op.writes = some x → w.txns[x]? = some r → r.st.trackMutate = false) w (exec w op).2 := by
  have hs : ∀ (tr : Tree) i, w.trees[i]? = some tr → tr.root < (w.st default).heap.length := fun tr i h =>
    hw.trees tr (List.mem_of_getElem? h)
  have hc : ∀ t : Tree, t.root < w.heap.length →
      Safe P (cloneNode t.root true) (w.st default) ∧
      ∀ r, (cloneNode t.root true (w.st default)).1 = .ok r → r < (cloneNode t.root true (w.st default)).2.heap.length :=
    fun t h => cloneNode_safe (s := w.st default) hw.hok h
  cases op with
  | newTree => 
    unfold exec
    simp only [newRadixTree_run]
    refine ⟨⟨HOK.newTree (s := w.st default) hw.hok hp0, fun t h => ?_, fun r h => ?_⟩, ?_, fun _ => .refl _, fun hn _ => ⟨hn, ?_⟩, .refl _, fun Q hQ hA => ⟨chHeap_two hA.1 rfl rfl, hA.2⟩,
      .trans (.alloc (c := resetLeaf _) fun k h => by cases h) (Nat.le_refl _) (.alloc (c := .inner (resetNode _ _)) fun k h => by cases h), fun _ => ?_⟩
    · rcases List.mem_append.1 h with h | h
      · have := hw.trees t h
        show _ < (w.heap ++ _ ++ _).length
        simp; omega
      · rw [List.mem_singleton.1 h]
        simp [World.st, World.put]
    · have := hw.txns r h
      show _ < (w.heap ++ _ ++ _).length
      simp; omega
    · show _ ≤ (w.heap ++ _ ++ _).length
      simp
    all_goals
      show KeepCh w.heap (w.heap ++ _ ++ _)
      rw [List.append_assoc]
      exact keepCh_append _ _
  | cloneTree t => 
    refine Res.onTree hw fun tr h => ?_
    obtain ⟨⟨h1, h2⟩, h3⟩ := hc tr (hs tr t h)
    have hb : treeClone tr (w.st default) = match cloneNode tr.root true (w.st default) with
      | (.ok r, s1) => (.ok { tr with root := r }, s1)
      | (.error e, s1) => (.error e, s1) := by
      simp only [treeClone, bind_run]
      match cloneNode tr.root true (w.st default) with
      | (.ok r, s1) => rfl
      | (.error e, s1) => rfl
    match hr : cloneNode tr.root true (w.st default) with
    | (.ok r, s1) =>
      rw [hr] at hb h1 h2 h3
      exact ⟨⟨by rw [hb]; exact h1, by rw [hb]; exact h2⟩, fun a ha nt hnt => by
        rw [hb] at ha ⊢; cases ha; rw [List.mem_singleton.1 hnt]; exact h3 r rfl⟩
    | (.error e, s1) =>
      rw [hr] at hb h1 h2
      exact ⟨⟨by rw [hb]; exact h1, by rw [hb]; exact h2⟩, fun a ha nt hnt => by rw [hb] at ha; cases ha⟩
  | insert t k v =>
    refine Res.onTree hw fun tr h => ?_
    simp only [treeInsert_eq]
    obtain ⟨h1, h2⟩ := treeOp_safe (SafeT.insert (hp k v ⟨rfl, rfl⟩)) hw.hok rfl (hs tr t h)
    exact ⟨h1, fun a ha nt hnt => by rw [List.mem_singleton.1 hnt]; exact h2 a ha⟩
  | delete t k =>
    refine Res.onTree hw fun tr h => ?_
    simp only [treeDelete_eq]
    obtain ⟨h1, h2⟩ := treeOp_safe (SafeT.delete k hp0) hw.hok rfl (hs tr t h)
    exact ⟨h1, fun a ha nt hnt => by rw [List.mem_singleton.1 hnt]; exact h2 a ha⟩
  | deletePrefix t k =>
    refine Res.onTree hw fun tr h => ?_
    simp only [treeDeletePrefix_eq]
    obtain ⟨h1, h2⟩ := treeOp_safe (SafeT.deletePrefix k hp0) hw.hok rfl (hs tr t h)
    exact ⟨h1, fun a ha nt hnt => by rw [List.mem_singleton.1 hnt]; exact h2 a ha⟩
  | get t k =>
    refine Res.onTree hw fun tr h => ⟨Safe.read ?_ hw.hok, fun a ha nt hnt => by cases hnt⟩
    simp only [bind_run, M.get, lift_run]
  | getWatch t k => 
    refine Res.onTree hw fun tr h => ⟨watch_Safe hw.hok (treeGetWatch_cases _ _ _), fun a ha nt hnt => by cases hnt⟩
  | seekPrefixWatch t p => 
    refine Res.onTree hw fun tr h => ⟨watch_Safe hw.hok (seekPrefixWatch_cases _ _ _), fun a ha nt hnt => by cases hnt⟩
  | len t => exact Res.onTree hw fun tr h => ⟨Safe.read rfl hw.hok, fun a ha nt hnt => by cases hnt⟩
  | begin t =>
    simp only [exec]
    cases hr : w.trees[t]? with
    | none => exact .refl hw
    | some tr => exact Res.begin hw (hs tr t hr) _ fun Q hA k hk => by cases hk
  | txnClone x =>
    simp only [exec]
    cases hr : w.txns[x]? with
    | none => exact .refl hw
    | some r =>
      have hmem := List.mem_of_getElem? hr
      have hset : ∀ {Q : TxnRec → Prop}, (∀ r ∈ w.txns, Q r) → Q r.cloned →
          ∀ r' ∈ w.txns.set x r.cloned, Q r' := fun h1 h2 r' hr' => by
        rcases List.mem_or_eq_of_mem_set hr' with h' | h'
        · exact h1 r' h'
        · rw [h']; exact h2
      have := Res.begin (w := { w with txns := w.txns.set x r.cloned })
        (N := Op.notifies w (Op.txnClone x)) (T := ∀ x', Op.txnClone (V := V) x ≠ .trackMutate x' true) (K := True)
        (tr := ⟨r.st.root, r.st.size, r.st.maxNodeId⟩)
        ⟨hw.hok, hw.trees, hset hw.txns (hw.txns r hmem)⟩ (hw.txns r hmem) r.st
        fun Q hA => hA.2 r.cloned (List.mem_iff_getElem?.2 ⟨x, by simp [List.getElem?_set, (List.getElem?_eq_some_iff.1 hr).1]⟩)
      exact ⟨this.all, this.len, this.chans, fun hn => this.quiet (hset hn (hn r hmem)), this.closed,
        fun Q hQ hA => this.chs Q hQ ⟨hA.1, hset hA.2 (hA.2 r hmem)⟩, this.lab, fun _ => this.keep trivial⟩
  | trackMutate x b =>
    refine Res.onTxn hw (fun _ => rfl) fun r h hr => ⟨?_, fun a ha nt hnt => by cases hnt⟩
    refine ⟨hw.hok, Nat.le_refl _, hr, fun _ => .refl _, fun _ hT => ⟨?_, .refl _⟩, .refl _, fun _ _ h => h, .refl, fun _ => .refl _⟩
    cases b with
    | false => rfl
    | true => exact absurd rfl (hT x)
  | txnInsert x k v =>
    exact Res.onTxn hw (fun _ => rfl) fun r h hr => ⟨.ofTrT ((SafeT.insert (hp k v ⟨rfl, rfl⟩)).run _ hw.hok hr) (fun hK => hK x r rfl h), fun a ha nt hnt => by cases hnt⟩
  | txnDelete x k =>
    exact Res.onTxn hw (fun _ => rfl) fun r h hr => ⟨.ofTrT ((SafeT.delete k hp0).run _ hw.hok hr) (fun hK => hK x r rfl h), fun a ha nt hnt => by cases hnt⟩
  | txnDeletePrefix x k =>
    exact Res.onTxn hw (fun _ => rfl) fun r h hr => ⟨.ofTrT ((SafeT.deletePrefix k hp0).run _ hw.hok hr) (fun hK => hK x r rfl h), fun a ha nt hnt => by cases hnt⟩
  | txnGet x k =>
    refine Res.onTxn hw (fun _ => rfl) fun r h hr => ⟨TxnRes.read ?_ hw.hok hr, fun a ha nt hnt => by cases hnt⟩
    simp only [txnGet, bind_run, M.get, lift_run]
    cases search _ _ _ <;> rfl
  | txnGetWatch x k =>
    refine Res.onTxn hw (fun _ => rfl) fun r h hr => ⟨?_, fun a ha nt hnt => by cases hnt⟩
    have hb : (do
      let t ← txnSt
      treeGetWatch { root := t.root, size := t.treeSize, maxNodeId := t.maxNodeId } k : M V _) (w.st r.st) =
      treeGetWatch { root := r.st.root, size := r.st.treeSize, maxNodeId := r.st.maxNodeId } k (w.st r.st) := rfl
    rw [hb]
    obtain ⟨h1, h2, h3, h4, h5, h6, h7⟩ := watch_safe (r := (.ok () : R Unit)) (s := w.st r.st) hw.hok (treeGetWatch_cases
      { root := r.st.root, size := r.st.treeSize, maxNodeId := r.st.maxNodeId } k (w.st r.st))
    exact ⟨h1, Nat.le_of_eq h2, by rw [h5, ← h2]; exact hr, fun _ => h3, fun ht _ => ⟨by rw [h5]; exact ht, h4⟩, h3.closed, h6, h7, fun _ => h4⟩
  | commit x =>
    refine Res.onTxn hw (fun _ => rfl) fun r h hr => ?_
    have := commit_res (s := w.st r.st) (T := ∀ x', Op.commit (V := V) x ≠ .trackMutate x' true) (K := True) hw.hok hr
    refine ⟨⟨this.hok, this.len, this.root, fun hn => this.chans fun h' => hn ⟨r, h, h'⟩, this.quiet, this.closed, this.chs, this.lab, fun _ => this.keep trivial⟩, fun a ha nt hnt => ?_⟩
    rw [List.mem_singleton.1 hnt]
    rw [commit_run] at ha ⊢
    cases ha
    rw [notify_run]; exact hr
  | commitOnly x =>
    refine Res.onTxn hw (fun _ => rfl) fun r h hr => ⟨TxnRes.read rfl hw.hok hr, fun a ha nt hnt => ?_⟩
    rw [List.mem_singleton.1 hnt]
    cases ha
    exact hr
  | notify x =>
    refine Res.onTxn hw (fun _ => rfl) fun r h hr => ?_
    have := notify_res (s := w.st r.st) (T := ∀ x', Op.notify (V := V) x ≠ .trackMutate x' true) (K := True) hw.hok hr
    exact ⟨⟨this.hok, this.len, this.root, fun hn => this.chans fun h' => hn ⟨r, h, h'⟩, this.quiet, this.closed, this.chs, this.lab, fun _ => this.keep trivial⟩, fun a ha nt hnt => by cases hnt⟩


theorem execAll_append [Inhabited V] (w : World V) (ops ops' : List (Op V)) :
    (execAll w (ops ++ ops')).2 = (execAll (execAll w ops).2 ops').2 := by
  induction ops generalizing w with
  | nil => rfl
  | cons op ops ih => exact ih (exec w op).2

theorem execAll_snoc [Inhabited V] (w : World V) (ops : List (Op V)) (op : Op V) :
    (execAll w (ops ++ [op])).2 = (exec (execAll w ops).2 op).2 := execAll_append w ops [op]

theorem WAll.imp {Q : Key → V → Prop} (hw : WAll P w) (h : ∀ k v, P k v → Q k v) : WAll Q w :=
  ⟨fun a c hc => ⟨(hw.hok a c hc).1, fun l hl => h _ _ ((hw.hok a c hc).2 l hl)⟩, hw.trees, hw.txns⟩

theorem WAll.init : WAll P (World.init : World V) :=
  ⟨fun a c h => by simp [World.init] at h, fun t h => by simp [World.init] at h, fun t h => by simp [World.init] at h⟩

theorem execAll_all [Inhabited V] (hw : WAll P w) (ops : List (Op V)) (hp0 : P [] (default : V))
    (hp : ∀ op ∈ ops, ∀ k v, op.inserts k v → P (getTreeKey k) v) : WAll P (execAll w ops).2 := by
  induction ops generalizing w with
  | nil => exact hw
  | cons op ops ih =>
    exact ih (exec_all hw op hp0 (hp op (by simp))).all fun o ho => hp o (by simp [ho])

/-- The pairs inserted by a history, as they are stored in leaves, and the contents of phantom leaves. -/
def Inserted [Inhabited V] (ops : List (Op V)) (k : Key) (v : V) : Prop :=
  (k = [] ∧ v = default) ∨ ∃ op ∈ ops, ∃ k', op.inserts k' v ∧ k = getTreeKey k'

theorem inserted_all [Inhabited V] (ops : List (Op V)) : WAll (Inserted ops) (execAll World.init ops).2 :=
  execAll_all .init ops (.inl ⟨rfl, rfl⟩) fun op h k v hi => .inr ⟨op, h, k, hi, rfl⟩

end
end Art
