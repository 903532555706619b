import Verif.Props.Statements
import Verif.Proofs.Sound
/-
Properties that hold of all histories without any restriction: any keys, any interleaving, committed
transactions used again, calls that panic.
-/
set_option autoImplicit false
namespace Art
variable {V : Type} [Inhabited V]

/-- The value that a lookup found. -/
def Out.found : Out V → Option V
  | .value r => r
  | .chan _ r => r
  | _ => none

/-- C13: a value found under a key by `Get`, `GetWatch`, `Txn.Get` or `Txn.GetWatch` was inserted under this
key. -/
theorem C13 (ops : List (Op V)) (i : Nat) (k : Key) (v : V) (op : Op V)
    (hop : op = .get i k ∨ op = .getWatch i k ∨ op = .txnGet i k ∨ op = .txnGetWatch i k)
    (h : (exec (execAll World.init ops).2 op).1.found = some v) : ∃ op ∈ ops, op.inserts k v := by
  have hall := inserted_all ops
  generalize (execAll World.init ops).2 = w at h hall
  have key : ∀ (root : Addr) (hit : Hit V), search w.heap root k = .ok hit → hit.val = some v →
      ∃ op ∈ ops, op.inserts k v := fun root hit hs hv => by
    obtain ⟨a, l, hl, hk, rfl⟩ := search_sound hs hv
    rcases (hall.hok a _ hl).2 l rfl with ⟨h1, -⟩ | ⟨op, hop, k', hi, h1⟩
    · rw [hk] at h1; simp [getTreeKey] at h1
    · rw [hk] at h1; rw [getTreeKey_inj h1]; exact ⟨op, hop, hi⟩
  rcases hop with rfl | rfl | rfl | rfl
  · simp only [exec, World.onTree] at h
    cases ht : w.trees[i]? with
    | none => simp [ht, Out.found] at h
    | some t =>
      simp only [ht, bind_run, M.get, treeGet, lift_run] at h
      cases hs : search (w.st default).heap t.root k with
      | error e => simp [hs, bind, Except.bind, Out.found] at h
      | ok hit => exact key _ hit hs (by simpa [hs, bind, Except.bind, pure, Except.pure, Out.found] using h)
  · simp only [exec, World.onTree] at h
    cases ht : w.trees[i]? with
    | none => simp [ht, Out.found] at h
    | some t =>
      simp only [ht, treeGetWatch_run] at h
      cases hs : search (w.st default).heap t.root k with
      | error e => simp [hs, Out.found] at h
      | ok hit =>
        simp only [hs] at h
        cases hc : (w.st default).heap[hit.watch]? with
        | none => simp [hc, Out.found] at h
        | some c => exact key _ hit hs (by simpa [hc, Out.found] using h)
  · simp only [exec, World.onTxn] at h
    cases ht : w.txns[i]? with
    | none => simp [ht, Out.found] at h
    | some r =>
      simp only [ht, txnGet, bind_run, M.get, lift_run] at h
      cases hs : search (w.st r.st).heap (w.st r.st).txn.root k with
      | error e => simp [hs, Out.found] at h
      | ok hit => exact key _ hit hs (by simpa [hs, pure_run, Out.found] using h)
  · simp only [exec, World.onTxn] at h
    cases ht : w.txns[i]? with
    | none => simp [ht, Out.found] at h
    | some r =>
      simp only [ht, bind_run, txnSt, treeGetWatch_run] at h
      cases hs : search (w.st r.st).heap (w.st r.st).txn.root k with
      | error e => simp [hs, Out.found] at h
      | ok hit =>
        simp only [hs] at h
        cases hc : (w.st r.st).heap[hit.watch]? with
        | none => simp [hc, Out.found] at h
        | some c => exact key _ hit hs (by simpa [hc, Out.found] using h)

/-- A history of 3 inserts, a reused transaction and a delete after which `Get` does find a value. -/
example : (exec (execAll World.init ([.newTree, .insert 0 [97] 1, .begin 1, .txnInsert 0 [98] 2, .commit 0,
    .txnDelete 0 [97], .insert 2 [98, 99] 3] : List (Op Nat))).2 (.get 3 [98, 99])).1.found = some 3 := by
  decide +kernel

/-- C22: whatever the state of a path iterator for path `p`, in any heap a history can produce, a pair that
`Next` returns was inserted and its key is a prefix of `p`. -/
theorem C22 (ops : List (Op V)) (p : Key) (fuel : Nat) (it it' : PathIter) (k : Key) (v : V)
    (hp : it.path = getTreeKey p) (h : pathNext (heapAfter ops) fuel it = .ok (some (k, v), it')) :
    k <+: p ∧ (∃ op ∈ ops, op.inserts k v) ∧ it'.path = getTreeKey p := by
  obtain ⟨h1, h2, h3, a, l, hl, hne, rfl, rfl⟩ := pathNext_sound fuel it h
  rw [hp, getKey_getTreeKey] at h3
  refine ⟨h3, ?_, h1.trans hp⟩
  rcases ((inserted_all ops).hok a _ hl).2 l rfl with ⟨h4, -⟩ | ⟨op, hop, k', hi, h4⟩
  · exact absurd h4 hne
  · rw [h4, getKey_getTreeKey]; exact ⟨op, hop, hi⟩

example : (do
    let h := heapAfter ([.newTree, .insert 0 [97] 1, .insert 1 [97, 98] 2, .insert 2 [99] 3] : List (Op Nat))
    let t ← (treeAfter ([.newTree, .insert 0 [97] 1, .insert 1 [97, 98] 2, .insert 2 [99] 3] : List (Op Nat)) 3).elim
      (.error .fuel) .ok
    pathCollect h 20 (getPathIterator t [97, 98, 99])) = (.ok [([97], 1), ([97, 98], 2)] : R _) := by decide +kernel

/-- C32: a call other than `Commit` or `Notify` of a transaction that tracks changes no channel: whatever was
open stays open (and nothing closed is opened again). -/
theorem C32 (ops : List (Op V)) (op : Op V) (hop : ¬ op.notifies (execAll World.init ops).2) (c : ChanId) (b : Bool)
    (h : (execAll World.init ops).2.chans[c]? = some b) :
    (exec (execAll World.init ops).2 op).2.chans[c]? = some b := by
  have hall := inserted_all ops
  obtain ⟨m, hm⟩ := (exec_all (hall.imp (Q := fun _ _ => True) fun _ _ _ => trivial) op trivial
    (fun _ _ _ => trivial)).chans hop
  rw [hm, List.getElem?_append_left (List.getElem?_eq_some_iff.1 h).1]
  exact h

/-- A tracked transaction that updates a watched key closes the channel only when it commits. -/
example :
    let ops : List (Op Nat) := [.newTree, .insert 0 [97] 1, .getWatch 1 [97], .begin 1, .trackMutate 0 true, .txnInsert 0 [97] 2]
    (execAll World.init ops).1[2]? = some (.chan 1 (some 1)) ∧
    (execAll World.init ops).2.chans[1]? = some false ∧
    (execAll World.init (ops ++ [.commitOnly 0])).2.chans[1]? = some false ∧
    (execAll World.init (ops ++ [.commitOnly 0, .notify 0])).2.chans[1]? = some true := by decide +kernel

/-- C33: if tracking is never turned on, no channel is closed, and a node that has a channel keeps it. -/
theorem C33 (ops more : List (Op V)) (h : ∀ x, Op.trackMutate x true ∉ ops ++ more) :
    (∀ c : ChanId, (execAll World.init (ops ++ more)).2.chans[c]? ≠ some true) ∧
    ∀ (a : Addr) (n : Cell V) c, (heapAfter ops)[a]? = some n → n.ch = some c →
      ∃ n', (heapAfter (ops ++ more))[a]? = some n' ∧ n'.ch = some c := by
  have key : ∀ (w : World V) (l : List (Op V)), WAll (fun _ _ => True) w → NoTrack w → (∀ c : ChanId, w.chans[c]? ≠ some true) →
      (∀ x, Op.trackMutate x true ∉ l) →
      WAll (fun _ _ => True) (execAll w l).2 ∧ NoTrack (execAll w l).2 ∧ (∀ c : ChanId, (execAll w l).2.chans[c]? ≠ some true) ∧
      KeepCh w.heap (execAll w l).2.heap := by
    intro w l hw hn hc hl
    induction l generalizing w with
    | nil => exact ⟨hw, hn, hc, .refl _⟩
    | cons op l ih =>
      have hr := exec_all hw op trivial fun _ _ _ => trivial
      obtain ⟨q1, q2⟩ := hr.quiet hn fun x hx => hl x (by simp [hx])
      have hnot : ¬ op.notifies w := by
        intro hno
        cases op <;> first | exact hno | skip
        all_goals
          obtain ⟨r, hr, ht⟩ := hno
          rw [hn r (List.mem_of_getElem? hr)] at ht
          cases ht
      obtain ⟨m, hm⟩ := hr.chans hnot
      obtain ⟨i1, i2, i3, i4⟩ := ih (exec w op).2 hr.all q1 (fun c hcc => by
        rw [hm, List.getElem?_append] at hcc
        split at hcc
        · exact hc c hcc
        · have := List.mem_of_getElem? hcc
          simp at this) fun x hx => hl x (by simp [hx])
      refine ⟨i1, i2, i3, fun a n k ha hk => ?_⟩
      obtain ⟨n', ha', hk'⟩ := q2 a n k ha hk
      exact i4 a n' k ha' hk'
  obtain ⟨h1, h2, h3, -⟩ := key World.init ops .init (fun r hr => by simp [World.init] at hr)
    (fun c => by simp [World.init]) fun x hx => h x (by simp [hx])
  obtain ⟨h4, h5, h6, h7⟩ := key _ more h1 h2 h3 fun x hx => h x (by simp [hx])
  rw [← execAll_append] at h6 h7
  exact ⟨h6, h7⟩

/-- A history without tracking in which watched keys change. -/
example :
    let ops : List (Op Nat) := [.newTree, .insert 0 [97] 1, .getWatch 1 [97], .insert 1 [97] 2, .delete 1 [97]]
    (∀ x, Op.trackMutate x true ∉ ops) ∧ (execAll World.init ops).1[2]? = some (.chan 1 (some 1)) ∧
    (execAll World.init ops).2.chans.length = 3 ∧ (execAll World.init ops).2.chans.all (!·) = true := by
  refine ⟨fun x => by simp, ?_⟩
  decide +kernel

/-- C34: a second `Notify`, or `Notify` after `Commit`, returns and changes nothing at all. -/
theorem C34 (ops : List (Op V)) (x : Nat) (hx : x < (execAll World.init ops).2.txns.length) (op : Op V)
    (hop : op = .notify x ∨ op = .commit x) :
    let w := (exec (execAll World.init ops).2 op).2
    exec w (.notify x) = (.done, w) := by
  generalize (execAll World.init ops).2 = w0 at hx
  intro w
  have hr : w0.txns[x]? = some w0.txns[x] := List.getElem?_eq_getElem hx
  generalize w0.txns[x] = r at hr
  rcases hop with rfl | rfl <;>
  · simp only [w, exec, World.onTxn, hr, commit_run, notify_run, World.put, World.st,
      List.getElem?_set_self hx, List.append_nil]
    cases ht : r.st.trackMutate <;> simp [ht]

/-- The first `Notify` does close a channel. -/
example :
    let ops : List (Op Nat) := [.newTree, .insert 0 [97] 1, .getWatch 1 [97], .begin 1, .trackMutate 0 true, .txnInsert 0 [97] 2]
    (execAll World.init ops).2.txns.length = 1 ∧
    (exec (execAll World.init ops).2 (.notify 0)).2 ≠ (execAll World.init ops).2 := by decide +kernel

/-- The pair was inserted, or it is the empty key with the zero value (the contents of the leaf that the root
of an empty tree has). -/
def Known (ops : List (Op V)) (k : Key) (v : V) : Prop :=
  (k = [] ∧ v = default) ∨ ∃ op ∈ ops, op.inserts k v

/-- C44: in any heap a history can produce, a pair returned by a forward, lower bound or reverse iterator (in any
state), by `Minimum`, `Maximum` or `LongestPrefix` was inserted, or is the empty key with the zero value. -/
theorem C44 (ops : List (Op V)) (k : Key) (v : V) :
    (∀ fuel it it', iterNext (heapAfter ops) fuel it = .ok (some (k, v), it') → Known ops k v) ∧
    (∀ fuel st st', lbNext (heapAfter ops) fuel st = .ok (some (k, v), st') → Known ops k v) ∧
    (∀ fuel it it', revPrevious (heapAfter ops) fuel it = .ok (some (k, v), it') → Known ops k v) ∧
    (∀ t k', treeMinimum (heapAfter ops) t = .ok (some (k', v)) → k = getKey k' → Known ops k v) ∧
    (∀ t k', treeMaximum (heapAfter ops) t = .ok (some (k', v)) → k = getKey k' → Known ops k v) ∧
    (∀ t q, longestPrefix (heapAfter ops) t q = .ok (some (k, v)) → Known ops k v) := by
  have key : PairFrom (heapAfter ops) (k, v) → Known ops k v := by
    rintro ⟨a, l, hl, rfl, rfl⟩
    rcases ((inserted_all ops).hok a _ hl).2 l rfl with ⟨h1, h2⟩ | ⟨op, hop, k', hi, h1⟩
    · exact .inl ⟨by rw [h1]; rfl, h2⟩
    · rw [h1, getKey_getTreeKey]; exact .inr ⟨op, hop, hi⟩
  have key2 : ∀ k', FromLeaf (heapAfter ops) k' v → k = getKey k' → Known ops k v := by
    rintro k' ⟨a, l, hl, rfl, rfl⟩ rfl
    exact key ⟨a, l, hl, rfl, rfl⟩
  refine ⟨fun _ _ _ h => key (iterNext_sound _ _ h), fun _ _ _ h => key (lbNext_sound _ _ h), fun _ _ _ h => ?_,
    fun _ k' h hk => ?_, fun _ k' h hk => ?_, fun _ _ h => key (longestPrefix_sound h)⟩
  · unfold revPrevious at h
    obtain ⟨p, hp, h⟩ := R.bind_ok h
    obtain ⟨r, st⟩ := p
    cases h
    exact key (revNext_sound _ _ hp)
  · obtain ⟨p, hp, h⟩ := R.bind_ok h
    exact key2 k' (leafPair_sound h) hk
  · obtain ⟨p, hp, h⟩ := R.bind_ok h
    exact key2 k' (leafPair_sound h) hk

end Art
