import Verif.Props.Extra
import Verif.Props.CleanTidy
/-
Reading a running transaction through `Txn.Root` and `Txn.GetTree`.
-/
set_option autoImplicit false
namespace Art
variable {V : Type} [Inhabited V]

/-- C48: iterating, seeking and asking for the smallest key, the largest key and the length in a running transaction
shows what the transaction wrote on top of the tree it was begun on. -/
def C48_Full (V : Type) [Inhabited V] : Prop := ∀ ops : List (Op V), Ordinary ops → ∀ (x : Nat) (r : TxnRec) (q : STxn V),
  (execAll World.init ops).2.txns[x]? = some r → (sexecAll SWorld.init ops).2.txns[x]? = some q →
  (∀ p, ∃ l, Ends (iterPrefix (heapAfter ops) r.st.getTree p) l ∧ l.Perm (q.map.filter fun e => p <+: e.1) ∧ l.Pairwise fun a b => Key.lt a.1 b.1) ∧
  (∀ k v, q.map.IsMin k v → treeMinimum (heapAfter ops) r.st.getTree = .ok (some (k ++ [36], v))) ∧
  (∀ k v, q.map.IsMax k v → treeMaximum (heapAfter ops) r.st.getTree = .ok (some (k ++ [36], v))) ∧
  (∀ p, ∃ l, Ends (fun fuel => pathCollect (heapAfter ops) fuel (getPathIterator r.st.getTree p)) l ∧
    l.Perm (q.map.filter fun e => e.1 <+: p) ∧ l.Pairwise fun a b => a.1.length < b.1.length) ∧
  treeLen r.st.getTree = q.map.length

/-- The record of transaction `x`, for examples. -/
def txnOf (ops : List (Op V)) (x : Nat) : TxnRec := ((execAll World.init ops).2.txns[x]?).getD ⟨default, false, false⟩

/-- A transaction on the empty tree shows the phantom pair. -/
theorem C48_false : ¬ C48_Full Nat := fun h => by
  obtain ⟨⟨l, hl, hp, -⟩, -⟩ := (h ([.newTree, .begin 0] : List (Op Nat)) ⟨by decide +kernel, by decide +kernel⟩ 0
    (txnOf ([.newTree, .begin 0] : List (Op Nat)) 0)
    { map := [], ended := false, copied := false, emptied := false } (by decide +kernel) (by decide +kernel)).imp_left (· [])
  have := hl.eq_of_run (fun n => iterPrefix_succ _ _ _ n) 9 (b := [([], 0)]) (by decide +kernel)
  subst this
  exact absurd hp.length_eq (by decide)

/-- The view of a running transaction of a broad history. -/
theorem Broad.txnView {ops : List (Op V)} (hc : Broad ops) {x : Nat} {r : TxnRec} {q : STxn V} (hr : (execAll World.init ops).2.txns[x]? = some r)
    (hq : (sexecAll SWorld.init ops).2.txns[x]? = some q) :
    ViewOf false (heapAfter ops) r.st.getTree.root r.st.getTree.size (!q.emptied) q.map := by
  have h := hc.good.1.txns x r q hr hq
  have h1 := h.view
  rw [← h.tsize] at h1
  exact h1

/-- The view of a running transaction that never lost a key. -/
theorem Broad.uncutView {ops : List (Op V)} (hc : Broad ops) {x : Nat} (hu : UncutTxn ops x) {r : TxnRec} {q : STxn V} (hr : (execAll World.init ops).2.txns[x]? = some r)
    (hq : (sexecAll SWorld.init ops).2.txns[x]? = some q) :
    @ViewOf V ⟨False⟩ false (heapAfter ops) r.st.getTree.root r.st.getTree.size (!q.emptied) q.map := by
  have h := hc.marked.txn hu hr hq
  letI : Removals := ⟨False⟩
  have h1 := h.view
  rw [← h.tsize] at h1
  exact h1

/-- C48 on broad histories.  The exceptions: the order needs that no key is continued by a byte below `'$'`, seeking
the empty prefix needs a key, the prefix must not be a stored key and `'$'`, and the length may exceed the number of
keys (see `C05_false`; it is the length that a commit publishes). -/
theorem C48_partial (ops : List (Op V)) (hc : Broad ops) (x : Nat) (r : TxnRec) (q : STxn V)
    (hr : (execAll World.init ops).2.txns[x]? = some r) (hq : (sexecAll SWorld.init ops).2.txns[x]? = some q) :
    (∀ p, q.map ≠ [] ∨ p ≠ [] → (∀ k, q.map.has k → p ≠ k ++ [36]) →
      ∃ l, Ends (iterPrefix (heapAfter ops) r.st.getTree p) l ∧ l.Perm (q.map.filter fun e => p <+: e.1) ∧
        (q.map.Ordered → l.Pairwise fun a b => Key.lt a.1 b.1)) ∧
    (q.map.Ordered → (∀ k v, q.map.IsMin k v → treeMinimum (heapAfter ops) r.st.getTree = .ok (some (k ++ [36], v))) ∧
      (∀ k v, q.map.IsMax k v → treeMaximum (heapAfter ops) r.st.getTree = .ok (some (k ++ [36], v)))) ∧
    (∀ p, ∃ l, Ends (fun fuel => pathCollect (heapAfter ops) fuel (getPathIterator r.st.getTree p)) l ∧
      l.Perm (q.map.filter fun e => e.1 <+: p) ∧ (q.map.Ordered → l.Pairwise fun a b => a.1.length < b.1.length)) ∧
    (q.map.length : Int) ≤ treeLen r.st.getTree ∧
    (exec (exec (execAll World.init ops).2 (.commit x)).2 (.len (execAll World.init ops).2.trees.length)).1 = .number (treeLen r.st.getTree) := by
  have hv := hc.txnView hr hq
  have hts : r.st.treeSize = r.st.size := (hc.good.1.txns x r q hr hq).tsize
  refine ⟨fun p h1 h2 => hv.iter p h1 h2, fun ho => ⟨fun k v hk => hv.minimum ho hk, fun k v hk => hv.maximum ho hk⟩, fun p => hv.path p, hv.len_le, ?_⟩
  simp only [exec, World.onTxn, hr, commit_run, notify_run, World.put, World.st, World.onTree, pure_run]
  rw [List.getElem?_append_right (Nat.le_refl _), Nat.sub_self]
  simp only [List.getElem?_cons_zero, treeLen, TxnSt.getTree, hts, List.append_nil]

/-- A transaction that has inserted, updated and deleted keys. -/
def demoTxn : List (Op Nat) := [.newTree, .insert 0 kFoo 1, .insert 1 kA 2, .begin 2, .txnInsert 0 kFoobar 3, .txnDelete 0 kA, .txnInsert 0 kFoo 4,
  .txnInsert 0 kB 5]

def demoTxnMap : Map Nat := [(kB, 5), (kFoo, 4), (kFoobar, 3)]

example : ∃ l, Ends (iterPrefix (heapAfter demoTxn) (txnOf demoTxn 0).st.getTree kFoo) l ∧
    l.Perm [(kFoo, 4), (kFoobar, 3)] := by
  obtain ⟨l, h1, h2, -⟩ := (C48_partial demoTxn (.of_loose (by decide +kernel)) 0 (txnOf demoTxn 0)
    { map := demoTxnMap, ended := false, copied := false, emptied := false } (by decide +kernel) (by decide +kernel)).1 kFoo (Or.inr (by decide +kernel)) (by
      rintro k ⟨v, hk⟩
      have h : ∀ e ∈ demoTxnMap, kFoo ≠ e.1 ++ [36] := by decide +kernel
      exact h _ hk)
  have h3 : demoTxnMap.filter (fun e => decide (kFoo <+: e.1)) = [(kFoo, 4), (kFoobar, 3)] := by decide +kernel
  rw [h3] at h2
  exact ⟨l, h1, h2⟩

/-- `Txn.LongestPrefix`, under the conditions of `C20_partial`. -/
theorem C48_longest_partial (ops : List (Op V)) (hc : Broad ops) (x : Nat) (hu : UncutTxn ops x) (r : TxnRec) (q : STxn V) (p : Key)
    (hr : (execAll World.init ops).2.txns[x]? = some r) (hq : (sexecAll SWorld.init ops).2.txns[x]? = some q) (hne : q.map ≠ [])
    (hk : q.map.PrefixFree ∨ (q.map.Ordered ∧ q.map.Narrow 12)) (hp : ∀ k, q.map.has k → (∀ k', q.map.has k' → k <+: k') → k <+: p) :
    ((∀ e ∈ q.map, ¬ e.1 <+: p) → longestPrefix (heapAfter ops) r.st.getTree p = .ok none) ∧
    (∀ k v, q.map.IsLongest p k v → longestPrefix (heapAfter ops) r.st.getTree p = .ok (some (k, v))) := by
  have hn := (hc.txnView hr hq).nodup
  have hv' := hc.uncutView hu hr hq
  letI : Removals := ⟨False⟩
  obtain ⟨h1, h2⟩ := hv'.longest (fun h => h) hne p hk hp
  refine ⟨fun hno => h1 fun k ⟨v, hv⟩ => hno _ hv, fun k v ⟨h3, h4, h5⟩ => h2 k v h3 h4 fun k' ⟨v', hv'⟩ hp => h5 k' v' ?_ hp⟩
  exact (Map.get_iff hn).2 hv'

def demoLong : List (Op Nat) := build [kA, kB] ++ [.begin 2, .txnInsert 0 kAB 9]
def demoLongMap : Map Nat := [(kAB, 9), (kB, 2), (kA, 1)]

example : longestPrefix (heapAfter demoLong) (txnOf demoLong 0).st.getTree (ascii ['a', 'b', 'c']) = .ok (some (kAB, 9)) := by
  refine (C48_longest_partial demoLong (.of_loose (by decide +kernel)) 0 (by decide +kernel) _ { map := demoLongMap, ended := false, copied := false, emptied := false }
    _ (by decide +kernel) (by decide +kernel) (by decide) (Or.inr ⟨?_, .of_length (by decide)⟩) fun k ⟨v, hk⟩ hall => ?_).2 kAB 9
    ⟨by decide +kernel, by decide, fun k' v' hg hp => ?_⟩
  · rintro k k' b ⟨v, hk⟩ ⟨v', hk'⟩ hp
    have h4 : ∀ e ∈ demoLongMap, ∀ e' ∈ demoLongMap, e.1.isPrefixOf e'.1 = true → e'.1.drop e.1.length = [] ∨ 36 ≤ ((e'.1.drop e.1.length).headD 255) := by decide +kernel
    obtain ⟨w, rfl⟩ := hp
    have := h4 _ hk _ hk' (List.isPrefixOf_iff_prefix.2 ⟨b :: w, by simp⟩)
    simpa using this
  · exfalso
    have h1 : ∀ e ∈ demoLongMap, ∃ e' ∈ demoLongMap, e.1.isPrefixOf e'.1 = false := by decide +kernel
    obtain ⟨e', he', hp⟩ := h1 _ hk
    rw [List.isPrefixOf_iff_prefix.2 (hall e'.1 ⟨_, he'⟩)] at hp
    cases hp
  · have h1 : ∀ e ∈ demoLongMap, e.1.isPrefixOf (ascii ['a', 'b', 'c']) = true → e.1.length ≤ 2 := by decide +kernel
    exact h1 (k', v') (Map.mem_of_get hg) (List.isPrefixOf_iff_prefix.2 hp)

end Art
