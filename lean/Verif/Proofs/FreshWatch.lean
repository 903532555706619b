import Verif.Proofs.LoneWorld
import Verif.Proofs.SaneRead
import Verif.Proofs.Label4
/-
Which node the channel of a watch belongs to.
-/
set_option autoImplicit false
set_option linter.unusedVariables false
set_option linter.unusedSimpArgs false
set_option linter.unusedSectionVars false
namespace Art
variable {V : Type} {h : Heap V}

/-- A leaf with the key if it is present, an inner node otherwise. -/
def HitAt (h : Heap V) (key : Key) (hit : Hit V) : Prop :=
  match hit.val with
  | some v => ∃ lc, h[hit.watch]? = some (.leaf lc) ∧ lc.key = key
  | none => ∃ n, h[hit.watch]? = some (.inner n)

theorem searchChildren_at {key : Key} {l : List (Option Addr)} {v : V} {a : Addr}
    (hs : searchChildren h key l = .ok (some (v, a))) : ∃ lc, h[a]? = some (.leaf lc) ∧ lc.key = key := by
  induction l with
  | nil => cases hs
  | cons x rest ih =>
    cases x with
    | none => exact ih hs
    | some ch =>
      unfold searchChildren at hs
      obtain ⟨c, hc, hs⟩ := R.bind_ok hs
      split at hs
      · exact ih hs
      · obtain ⟨lc, hlc, hs⟩ := R.bind_ok hs
        split at hs
        · rename_i l _ hm
          cases hs
          exact ⟨lc, rdLeaf_ok hlc, leafMatches_iff.1 hm⟩
        · exact ih hs

theorem searchOwn_at {key : Key} {c : Cell V} {v : V} {a : Addr} (hs : searchOwn h c key = .ok (some (v, a))) : ∃ lc, h[a]? = some (.leaf lc) ∧ lc.key = key := by
  unfold searchOwn at hs
  split at hs
  · cases hs
  · obtain ⟨lc, hlc, hs⟩ := R.bind_ok hs
    cases hs' : leafMatches lc.key key with
    | true =>
      rw [hs'] at hs
      cases hs
      exact ⟨lc, rdLeaf_ok hlc, leafMatches_iff.1 hs'⟩
    | false => rw [hs'] at hs; cases hs

theorem searchStop_at {key : Key} {n : Inner} {a : Addr} {hit : Hit V} (hc : h[a]? = some (.inner n))
    (hs : searchStop h a (.inner n) key = .ok hit) : HitAt h key hit := by
  unfold searchStop at hs
  obtain ⟨o, ho, hs⟩ := R.bind_ok hs
  split at hs
  · cases hs; exact searchOwn_at ho
  · obtain ⟨o', ho', hs⟩ := R.bind_ok hs
    split at hs
    · cases hs; exact searchChildren_at ho'
    · cases hs; exact ⟨n, hc⟩

theorem searchLeaf_at {key : Key} {n : Inner} {a : Addr} {hit : Hit V} (hs : searchLeaf h a (.inner n) key = .ok (some hit)) : HitAt h key hit := by
  unfold searchLeaf at hs
  split at hs
  · simp only at hs
    split at hs
    · cases hs
    · obtain ⟨lc, hlc, hs⟩ := R.bind_ok hs
      cases hs' : leafMatches lc.key key with
      | true =>
        rw [hs'] at hs
        cases hs
        exact ⟨lc, rdLeaf_ok hlc, leafMatches_iff.1 hs'⟩
      | false => rw [hs'] at hs; cases hs
  · cases hs

theorem searchLoopAt_at (hj : Sane False h) {key : Key} {hit : Hit V} (fuel : Nat) :
    ∀ (a : Addr) d, IsN False h a → searchLoopAt h key fuel a d = .ok hit → HitAt h key hit := by
  induction fuel with
  | zero => intro a d _ hs; cases hs
  | succ n ih =>
    intro a d ha hs
    obtain ⟨m, hm, -⟩ := ha
    unfold searchLoopAt at hs
    rw [show rd h a = .ok (.inner m) by unfold rd; rw [hm], Except.bind_ok] at hs
    obtain ⟨o, ho, hs⟩ := R.bind_ok hs
    split at hs
    · cases hs; exact searchLeaf_at ho
    · obtain ⟨b, hb, hs⟩ := R.bind_ok hs
      split at hs
      · exact searchStop_at hm hs
      · split at hs
        · exact searchStop_at hm hs
        · obtain ⟨b, hb, hs⟩ := R.bind_ok hs
          obtain ⟨p, hp, hs⟩ := R.bind_ok hs
          split at hs
          · exact searchStop_at hm hs
          · exact ih _ _ (hj.chd hm (Cell.mem_findChild hp)) hs

theorem seekLoop_at (hj : Sane False h) {pre : Key} {b : Addr} (fuel : Nat) :
    ∀ (a : Addr) d, IsN False h a → seekLoop h pre fuel a d = .ok b → ∃ n, h[b]? = some (.inner n) := by
  induction fuel with
  | zero => intro a d _ hs; cases hs
  | succ n ih =>
    intro a d ha hs
    obtain ⟨m, hm, -⟩ := ha
    unfold seekLoop at hs
    rw [show rd h a = .ok (.inner m) by unfold rd; rw [hm], Except.bind_ok] at hs
    obtain ⟨⟨st, d'⟩, ho, hs⟩ := R.bind_ok hs
    simp only at hs
    split at hs
    · cases hs; exact ⟨m, hm⟩
    · split at hs
      · cases hs; exact ⟨m, hm⟩
      · obtain ⟨b, hb, hs⟩ := R.bind_ok hs
        obtain ⟨p, hp, hs⟩ := R.bind_ok hs
        split at hs
        · cases hs; exact ⟨m, hm⟩
        · exact ih _ _ (hj.chd hm (Cell.mem_findChild hp)) hs

/-- The channel belongs to a leaf with the key, or to an inner node. -/
def ChanAt (h : Heap V) (c : ChanId) (lb : Option Key) : Prop := ∃ (a : Addr) (d : Cell V), h[a]? = some d ∧ d.ch = some c ∧ d.label = lb

theorem watched_at {s : St V} {a : Addr} {d : Cell V} (hd : s.heap[a]? = some d) : ChanAt (s.watched a d).heap (watchCh s d).1 d.label :=
  ⟨a, _, List.getElem?_set_self (List.getElem?_eq_some_iff.1 hd).1, Cell.ch_setCh _ _, Cell.label_setCh _ _⟩

theorem treeGetWatch_at {s s' : St V} (hj : Sane False s.heap) {t : Tree} (ht : IsN False s.heap t.root) {k : Key} {c : ChanId} {r : Option V}
    (h : treeGetWatch t k s = (.ok (c, r), s')) : ChanAt s'.heap c (r.map fun _ => getTreeKey k) := by
  rw [treeGetWatch_run] at h
  cases hs : search s.heap t.root k with
  | error e => rw [hs] at h; cases h
  | ok hit =>
    rw [hs] at h
    simp only at h
    have hat := searchLoopAt_at hj _ _ _ ht hs
    cases hd : s.heap[hit.watch]? with
    | none => rw [hd] at h; cases h
    | some d =>
      rw [hd] at h
      cases h
      have := watched_at hd
      unfold HitAt at hat
      cases hv : hit.val with
      | none =>
        rw [hv] at hat
        obtain ⟨n, hn⟩ := hat
        rw [hd] at hn; cases hn
        exact this
      | some v =>
        rw [hv] at hat
        obtain ⟨lc, hl, hk⟩ := hat
        rw [hd] at hl; cases hl
        rw [show (Cell.leaf lc).label = some lc.key from rfl, hk] at this
        exact this

theorem seekPrefixWatch_at {s s' : St V} (hj : Sane False s.heap) {a : Addr} (ha : IsN False s.heap a) {p : Key} {c : ChanId} {it : Iter}
    (h : seekPrefixWatch (mkIter a) p s = (.ok (it, c), s')) : ChanAt s'.heap c none := by
  rw [seekPrefixWatch_run] at h
  cases hs : seekPrefix s.heap (mkIter a) p with
  | error e => rw [hs] at h; cases h
  | ok q =>
    obtain ⟨it', b⟩ := q
    rw [hs] at h
    simp only at h
    have hat : ∃ n, s.heap[b]? = some (.inner n) := by
      unfold seekPrefix mkIter at hs
      obtain ⟨n, hn, hs⟩ := R.bind_ok hs
      cases hs
      exact seekLoop_at hj _ _ _ ha hn
    cases hd : s.heap[b]? with
    | none => rw [hd] at h; cases h
    | some d =>
      rw [hd] at h
      cases h
      have := watched_at hd
      obtain ⟨n, hn⟩ := hat
      rw [hd] at hn; cases hn
      exact this

/-! ### One call -/

variable {w : World V} {c : ChanId} {r : Option V} [Inhabited V]

theorem onTree_chan {α : Type} {t : Nat} {m : Tree → M V α} {out : α → Out V × List Tree} {o : Out V} (h : (w.onTree t m out).1 = o)
    (hn : o ≠ .noSuch) (hp : ∀ e, o ≠ .panic e) :
    ∃ tr a s', w.trees[t]? = some tr ∧ m tr (w.st default) = (.ok a, s') ∧ (out a).1 = o ∧ (w.onTree t m out).2.heap = s'.heap := by
  unfold World.onTree at h ⊢
  cases ht : w.trees[t]? with
  | none => rw [ht] at h; exact absurd h.symm hn
  | some tr =>
    rw [ht] at h
    simp only at h ⊢
    match hm : m tr (w.st default) with
    | (.ok a, s') => rw [hm] at h; exact ⟨tr, a, s', rfl, hm, h, rfl⟩
    | (.error e, s') => rw [hm] at h; exact absurd h.symm (hp e)

theorem onTxn_chan {α : Type} {x : Nat} {m : M V α} {out : α → Out V × List Tree} {mark : TxnRec → TxnRec} {o : Out V} (h : (w.onTxn x m out mark).1 = o)
    (hn : o ≠ .noSuch) (hp : ∀ e, o ≠ .panic e) :
    ∃ r a s', w.txns[x]? = some r ∧ m (w.st r.st) = (.ok a, s') ∧ (out a).1 = o ∧ (w.onTxn x m out mark).2.heap = s'.heap := by
  unfold World.onTxn at h ⊢
  cases ht : w.txns[x]? with
  | none => rw [ht] at h; exact absurd h.symm hn
  | some tr =>
    rw [ht] at h
    simp only at h ⊢
    match hm : m (w.st tr.st) with
    | (.ok a, s') => rw [hm] at h; exact ⟨tr, a, s', rfl, hm, h, rfl⟩
    | (.error e, s') => rw [hm] at h; exact absurd h.symm (hp e)

theorem getWatch_at (hw : WSane False w) {i : Nat} {k : Key} (h : (exec w (.getWatch i k)).1 = .chan c r) :
    ChanAt (exec w (.getWatch i k)).2.heap c (r.map fun _ => getTreeKey k) := by
  obtain ⟨tr, ⟨c', r'⟩, s', h1, h2, h3, h4⟩ := onTree_chan h (fun h => nomatch h) (fun e h => nomatch h)
  cases h3
  rw [show (exec w (.getWatch i k)).2.heap = _ from h4]
  exact treeGetWatch_at (s := w.st default) hw.heap (hw.trees _ (List.mem_of_getElem? h1)) h2

theorem txnGetWatch_at (hw : WSane False w) {x : Nat} {k : Key} (h : (exec w (.txnGetWatch x k)).1 = .chan c r) :
    ChanAt (exec w (.txnGetWatch x k)).2.heap c (r.map fun _ => getTreeKey k) := by
  obtain ⟨t, ⟨c', r'⟩, s', h1, h2, h3, h4⟩ := onTxn_chan h (fun h => nomatch h) (fun e h => nomatch h)
  cases h3
  rw [show (exec w (.txnGetWatch x k)).2.heap = _ from h4]
  exact treeGetWatch_at (s := w.st t.st) hw.heap (t := { root := t.st.root, size := t.st.treeSize, maxNodeId := t.st.maxNodeId })
    (hw.txns _ (List.mem_of_getElem? h1)) h2

theorem seekWatch_at (hw : WSane False w) {i : Nat} {p : Key} (h : (exec w (.seekPrefixWatch i p)).1 = .watch c) :
    ChanAt (exec w (.seekPrefixWatch i p)).2.heap c none := by
  obtain ⟨tr, ⟨it, c'⟩, s', h1, h2, h3, h4⟩ := onTree_chan h (fun h => nomatch h) (fun e h => nomatch h)
  cases h3
  rw [show (exec w (.seekPrefixWatch i p)).2.heap = _ from h4]
  exact seekPrefixWatch_at (s := w.st default) hw.heap (hw.trees _ (List.mem_of_getElem? h1)) h2

/-- A leaf's channel is open. -/
theorem WLone.opn (hl : WLone w) {k : Key} (h : ChanAt w.heap c (some k)) : w.chans[c]? = some false := by
  obtain ⟨a, d, hd, hc, hk⟩ := h
  cases d with
  | inner n => cases hk
  | leaf l =>
    have h1 := hl.lt a _ c hd hc
    have h2 := (hl.leaf a l c hd hc).1
    rw [List.getElem?_eq_getElem h1]
    cases hb : w.chans[c] with
    | false => rfl
    | true => exact absurd (Or.inl (by rw [List.getElem?_eq_getElem h1, hb])) h2

/-- A leaf's channel is on no list. -/
theorem WLone.out (hl : WLone w) {k : Key} (h : ChanAt w.heap c (some k)) : ∀ t ∈ w.txns, c ∉ t.st.trackChnSlice := by
  obtain ⟨a, d, hd, hc, hk⟩ := h
  cases d with
  | inner n => cases hk
  | leaf l => exact fun t ht hm => (hl.leaf a l c hd hc).1 (Or.inr ⟨t, ht, hm⟩)

/-- What the channel belongs to does not change. -/
theorem ChanAt.only (hw : WOK w) {lb : Option Key} (h : ChanAt w.heap c lb) : c < w.chans.length ∧ OnlyAt w.heap c lb := by
  obtain ⟨a, d, hd, hc, hk⟩ := h
  exact ⟨hw.lab.lt _ _ _ hd hc, fun b e he hce => by rw [hw.lab.same b a e d c he hd hce hc, hk]⟩

theorem OnlyAt.execAll (hw : WOK w) {lb : Option Key} (h : c < w.chans.length ∧ OnlyAt w.heap c lb) (ops : List (Op V)) :
    OnlyAt (Art.execAll w ops).2.heap c lb := by
  induction ops generalizing w with
  | nil => exact h.2
  | cons op ops ih => exact ih (hw.exec op) ⟨Nat.lt_of_lt_of_le h.1 (hw.res op).closed.1, (hw.res op).lab.only _ _ h.1 h.2⟩

/-- The watch of a present key. -/
theorem spared_watch {i : Nat} {k : Key} (hw : WOK w) (hs : WSane False w) (hl : WLone (exec w (.getWatch i k)).2) {v : V} (n : Nat)
    (hout : (exec w (.getWatch i k)).1 = .chan c (some v)) : Spared c (k ++ [dollar]) n (exec w (.getWatch i k)).2 := by
  have hat := getWatch_at hs hout
  exact ⟨(hat.only (hw.exec _)).2, hl.opn hat, fun y r _ hy => hl.out hat r (List.mem_of_getElem? hy)⟩

end Art
