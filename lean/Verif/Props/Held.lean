import Verif.Proofs.Held
import Verif.Props.Handle
import Verif.Props.Readers
import Verif.Props.Team
/-
Iterators that are held while other goroutines write.
-/
set_option autoImplicit false
namespace Art
variable {V : Type} [Inhabited V]

/-- C80: an iterator that is held for some time does not notice what is written meanwhile.  Each call on it, seeks included, may see
another mixture of moments; the results are those of the same calls at the time when the iterator was made. -/
theorem C80 (ops more : List (Op V)) (hl : Lawful World.init (ops ++ more)) (i : Nat) (t : Tree) (ht : treeAfter ops i = some t) (fuel : Nat) :
    (∀ l : List (Heap V × FwdCall), (∀ x ∈ l, Mixed (heapAfter ops) (seenAll (execAll World.init ops).2 more) x.1) →
      overCalls (fun h it cs => fwdCalls h fuel it cs) (mkIter t.root) l = fwdCalls (heapAfter ops) fuel (mkIter t.root) (l.map Prod.snd)) ∧
    (∀ l : List (Heap V × LowCall), (∀ x ∈ l, Mixed (heapAfter ops) (seenAll (execAll World.init ops).2 more) x.1) →
      overCalls (fun h it cs => lowCalls h fuel it cs) (mkLowIter t.root) l = lowCalls (heapAfter ops) fuel (mkLowIter t.root) (l.map Prod.snd)) ∧
    (∀ l : List (Heap V × RevCall), (∀ x ∈ l, Mixed (heapAfter ops) (seenAll (execAll World.init ops).2 more) x.1) →
      overCalls (fun h it cs => revCalls h fuel it cs) (mkRevIter t.root) l = revCalls (heapAfter ops) fuel (mkRevIter t.root) (l.map Prod.snd)) := by
  obtain ⟨S, hr, ha⟩ := tree_apart hl ht
  have hroot : S t.root := hr.root
  exact held_calls (P := Mixed (heapAfter ops) (seenAll (execAll World.init ops).2 more))
    (fun h hm => ⟨⟨hr.closed, hm.same ha⟩, hm.len (seenAll_complete more _)⟩) hroot fuel

/-- What a reader sees who reads each node at some moment of the schedule. -/
def Glimpse (ops : List (Op V)) (turns : List (Turn V)) (h : Heap V) : Prop :=
  ∀ a : Addr, ∃ k, h[a]? = (teamAfter ops (turns.take k)).pool.heap[a]?

/-- C80 among goroutines: any number of them are inside writing calls, and each call on the iterator sees a mixture of moments of the
schedule. -/
theorem C80_team (ops : List (Op V)) (hl : Lawful World.init ops) (turns : List (Turn V)) (i : Nat) (t : Tree) (ht : treeAfter ops i = some t) (fuel : Nat) :
    (∀ l : List (Heap V × FwdCall), (∀ x ∈ l, Glimpse ops turns x.1) →
      overCalls (fun h it cs => fwdCalls h fuel it cs) (mkIter t.root) l = fwdCalls (heapAfter ops) fuel (mkIter t.root) (l.map Prod.snd)) ∧
    (∀ l : List (Heap V × LowCall), (∀ x ∈ l, Glimpse ops turns x.1) →
      overCalls (fun h it cs => lowCalls h fuel it cs) (mkLowIter t.root) l = lowCalls (heapAfter ops) fuel (mkLowIter t.root) (l.map Prod.snd)) ∧
    (∀ l : List (Heap V × RevCall), (∀ x ∈ l, Glimpse ops turns x.1) →
      overCalls (fun h it cs => revCalls h fuel it cs) (mkRevIter t.root) l = revCalls (heapAfter ops) fuel (mkRevIter t.root) (l.map Prod.snd)) := by
  have hj : i < (execAll World.init ops).2.trees.length := (List.getElem?_eq_some_iff.1 ht).1
  obtain ⟨S, O, hi, -, -⟩ := execAll_iso INV.init hl
  have hv : (execAll World.init ops).2.view (.inl i) = some (t.root, t.maxNodeId) := by
    show ((execAll World.init ops).2.trees[i]?).map _ = _
    rw [show (execAll World.init ops).2.trees[i]? = some t from ht]; rfl
  have hr := hi.region _ _ hv
  have moment : ∀ us : List (Turn V), (∀ a, S (.inl i) a → ((teamAfter ops us).pool.heap[a]?).map (·.setCh none) = ((heapAfter ops)[a]?).map (·.setCh none)) ∧
      (heapAfter ops).length ≤ (teamAfter ops us).pool.heap.length := fun us => by
    obtain ⟨n, r, A, hT, -⟩ := team_inv hl (tree_heap hj) us
    exact ⟨fun a ha => orel_agree (hT.inv.old a (hr.lt ha)), hT.inv.base⟩
  refine held_calls (P := Glimpse ops turns) (fun h hm => ⟨⟨hr.closed, fun a ha => ?_⟩, ?_⟩) hr.root fuel
  · obtain ⟨k, hk⟩ := hm a
    rw [hk]; exact (moment _).1 a ha
  · refine Nat.le_of_not_lt fun hlt => ?_
    obtain ⟨k, hk⟩ := hm h.length
    rw [List.getElem?_eq_none (Nat.le_refl _), List.getElem?_eq_getElem (Nat.lt_of_lt_of_le hlt (moment _).2)] at hk
    cases hk

/-- Heaps that calls one after the other lead to are among those that a reader can see. -/
theorem mixed_after (ops mid more : List (Op V)) :
    Mixed (heapAfter ops) (seenAll (execAll World.init ops).2 (mid ++ more)) (heapAfter (ops ++ mid)) := by
  have h1 : ∀ (l : List (Write V)) (h h' : Heap V), Trail h l h' → h' = h ∨ ∃ e ∈ l, h' = e.heap := by
    intro l
    induction l with
    | nil => exact fun h h' ht => .inl ht
    | cons e l ih =>
      intro h h' ht
      rcases ih e.heap h' ht.2 with h2 | ⟨e', he', h2⟩
      · exact .inr ⟨e, List.mem_cons_self .., h2⟩
      · exact .inr ⟨e', List.mem_cons_of_mem _ he', h2⟩
  have h2 : ∀ (mid : List (Op V)) (w : World V), seenAll w (mid ++ more) = seenAll w mid ++ seenAll (execAll w mid).2 more := by
    intro mid
    induction mid with
    | nil => exact fun w => rfl
    | cons op mid ih => intro w; rw [List.cons_append, seenAll, seenAll, ih, List.append_assoc]; rfl
  have h3 : heapAfter (ops ++ mid) = (execAll (execAll World.init ops).2 mid).2.heap := by unfold heapAfter; rw [execAll_append]
  intro a
  rw [h3, h2]
  rcases h1 _ _ _ (seenAll_complete mid (execAll World.init ops).2) with h4 | ⟨e, he, h4⟩
  · exact .inl (by rw [h4]; rfl)
  · exact .inr ⟨e, List.mem_append_left _ he, by rw [h4]⟩

/-- C80 with C78: on broad histories, a held iterator returns the pairs that its tree had when it was made. -/
theorem C80_pairs_partial (ops more : List (Op V)) (hc : Broad ops) (hl : Lawful World.init (ops ++ more)) (i : Nat) (t : Tree) (m : Map V)
    (ht : treeAfter ops i = some t) (hm : mapAfter ops i = some m) (fuel : Nat) :
    (∀ (l : List (Heap V × FwdCall)) r it, (∀ x ∈ l, Mixed (heapAfter ops) (seenAll (execAll World.init ops).2 more) x.1) →
      overCalls (fun h it cs => fwdCalls h fuel it cs) (mkIter t.root) l = .ok (r, it) → ∀ kv, some kv ∈ r → kv ∈ m ∨ (m = [] ∧ kv.1 = [])) ∧
    (∀ (l : List (Heap V × LowCall)) r it, (∀ x ∈ l, Mixed (heapAfter ops) (seenAll (execAll World.init ops).2 more) x.1) →
      overCalls (fun h it cs => lowCalls h fuel it cs) (mkLowIter t.root) l = .ok (r, it) → ∀ kv, some kv ∈ r → kv ∈ m ∨ (m = [] ∧ kv.1 = [])) ∧
    (∀ (l : List (Heap V × RevCall)) r it, (∀ x ∈ l, Mixed (heapAfter ops) (seenAll (execAll World.init ops).2 more) x.1) →
      overCalls (fun h it cs => revCalls h fuel it cs) (mkRevIter t.root) l = .ok (r, it) → ∀ kv, some kv ∈ r → kv ∈ m ∨ (m = [] ∧ kv.1 = [])) := by
  obtain ⟨h1, h2, h3⟩ := C80 ops more hl i t ht fuel
  obtain ⟨g1, g2, g3⟩ := C78_partial ops hc i t m ht hm fuel
  refine ⟨fun l r it hx e => ?_, fun l r it hx e => ?_, fun l r it hx e => ?_⟩
  · rw [h1 l hx] at e; exact g1 _ r it e
  · rw [h2 l hx] at e; exact g2 _ r it e
  · rw [h3 l hx] at e; exact g3 _ r it e

/-! ### Examples -/

/-- An iterator over the tree that a transaction has started from.  The transaction is deleting the key a: each of the calls is made
after another one of the seven writes of `Delete`. -/
def inFlightCalls : List (Heap Nat × FwdCall) :=
  (inFlight.map (·.heap)).zip [.seek [], .next, .next, .seek [], .next, .next, .next]

theorem inFlight_seen : ∀ x ∈ inFlightCalls, Mixed (heapAfter inTxn) (seenAll (execAll World.init inTxn).2 [.txnDelete 0 kA]) x.1 := fun x hx a => by
  have h1 : x.1 ∈ inFlight.map (·.heap) := (List.of_mem_zip hx).1
  obtain ⟨e, he, h2⟩ := List.mem_map.1 h1
  exact .inr ⟨e, by show e ∈ inFlight ++ []; rw [List.append_nil]; exact he, by rw [← h2]⟩

example : (overCalls (fun h it cs => fwdCalls h 20 it cs) (mkIter (treeOf inTxn 3).root) inFlightCalls).map Prod.fst =
    .ok [some (kA, 3), some (kFoo, 1), some (kA, 3), some (kFoo, 1), some (kFoobar, 2)] := by
  rw [(C80 inTxn [.txnDelete 0 kA] (by decide +kernel) 3 _ (by decide +kernel) 20).1 inFlightCalls inFlight_seen]
  decide +kernel

/-- The same on the private tree of the transaction goes wrong: the key foobar is not found. -/
example : (overCalls (fun h it cs => fwdCalls h 20 it cs) (mkIter inTxnTree.root) inFlightCalls).map Prod.fst ≠
    (fwdCalls (heapAfter inTxn) 20 (mkIter inTxnTree.root) (inFlightCalls.map Prod.snd)).map Prod.fst := by decide +kernel

/-- Whole calls between the calls on the iterator. -/
example (k : Key) (h1 h2 : Heap Nat) (e1 : h1 = heapAfter (inTxn ++ [.txnDelete 0 kA])) (e2 : h2 = heapAfter (inTxn ++ [.txnDelete 0 kA, .commit 0])) :
    overCalls (fun h it cs => lowCalls h 20 it cs) (mkLowIter (treeOf inTxn 3).root) [(h1, .seek k), (h2, .next)] =
      lowCalls (heapAfter inTxn) 20 (mkLowIter (treeOf inTxn 3).root) [.seek k, .next] :=
  (C80 inTxn [.txnDelete 0 kA, .commit 0] (by decide +kernel) 3 _ (by decide +kernel) 20).2.1 [(h1, .seek k), (h2, .next)] fun x hx => by
    rcases List.mem_cons.1 hx with rfl | hx
    · rw [e1]; exact mixed_after inTxn [.txnDelete 0 kA] [.commit 0]
    · rw [List.mem_singleton.1 hx, e2]; exact mixed_after inTxn [.txnDelete 0 kA, .commit 0] []

/-- Three goroutines write while the iterator is used; each call on it comes after 20 more steps of theirs. -/
def relayCalls : List (Heap Nat × RevCall) :=
  [20, 40, 60, 80, 100].zipWith (fun k c => ((teamAfter busy (relay.take k)).pool.heap, c)) [.previous, .previous, .seekLower kFoo [], .previous, .previous]

example : (overCalls (fun h it cs => revCalls h 20 it cs) (mkRevIter (treeOf busy 3).root) relayCalls).map Prod.fst =
    .ok [some (kFoo, 1), some (kFoobar, 2), some (kFoo, 1), some (kA, 3)] := by
  rw [(C80_team busy (by decide +kernel) relay 3 _ (by decide +kernel) 20).2.2 relayCalls fun x hx a => by
    obtain ⟨k, hk⟩ : ∃ k, x.1 = (teamAfter busy (relay.take k)).pool.heap := by
      simp only [relayCalls, List.zipWith, List.mem_cons, List.not_mem_nil, or_false] at hx
      rcases hx with rfl | rfl | rfl | rfl | rfl <;> exact ⟨_, rfl⟩
    exact ⟨k, by rw [hk]⟩]
  decide +kernel

/-- C80 without the condition on the use of committed transactions. -/
def C80_Loose (V : Type) [Inhabited V] : Prop := ∀ (ops more : List (Op V)) (i : Nat) (t : Tree), treeAfter ops i = some t → ∀ fuel,
  ∀ l : List (Heap V × FwdCall), (∀ x ∈ l, Mixed (heapAfter ops) (seenAll (execAll World.init ops).2 more) x.1) →
    overCalls (fun h it cs => fwdCalls h fuel it cs) (mkIter t.root) l = fwdCalls (heapAfter ops) fuel (mkIter t.root) (l.map Prod.snd)

/-- A transaction that is used after its commit changes what an iterator over the committed tree returns. -/
theorem C80_loose_false : ¬ C80_Loose Nat := fun h => by
  have h1 := h afterCommit [.txnDelete 0 kA] 4 (treeOf afterCommit 4) (by decide +kernel) 20
    [(heapAfter (afterCommit ++ [.txnDelete 0 kA]), .seek []), (heapAfter (afterCommit ++ [.txnDelete 0 kA]), .next)] (fun x hx => by
      have hx : x.1 = heapAfter (afterCommit ++ [.txnDelete 0 kA]) := by
        rcases List.mem_cons.1 hx with rfl | hx
        · rfl
        · rw [List.mem_singleton.1 hx]
      rw [hx]
      exact mixed_after afterCommit [.txnDelete 0 kA] [])
  have h2 := congrArg (Except.map Prod.fst) h1
  revert h2
  decide +kernel

end Art
