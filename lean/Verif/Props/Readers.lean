import Verif.Props.Isolation
import Verif.Proofs.SeenIso
/-
Readers that run at the same time as a writer.  The writer makes its calls one after the other; `seenAll` lists every
single write to memory that they make, and the heap it results in.  A reader on another goroutine reads node after node,
at any times between those writes.
-/
set_option autoImplicit false
set_option linter.unusedVariables false
set_option linter.unusedSimpArgs false
set_option linter.unusedSectionVars false
namespace Art
variable {V : Type} [Inhabited V]

/-- The writes of the calls are all there are: each is one write in place or one new node, and together they lead from
the heap before the calls to the heap after them. -/
theorem seenAll_complete (ops : List (Op V)) (w : World V) : Trail w.heap (seenAll w ops) (execAll w ops).2.heap :=
  execAll_trail ops w

/-- What a reader sees who reads each node at some time of its own: at the start, or after some write. -/
def Mixed (h0 : Heap V) (es : List (Write V)) (h : Heap V) : Prop := ∀ a : Addr, h[a]? = h0[a]? ∨ ∃ e ∈ es, h[a]? = e.heap[a]?

/-- The nodes that a reader can get to from a node. -/
inductive Reach (h : Heap V) (r : Addr) : Addr → Prop where
  | root : Reach h r r
  | leaf {a b : Addr} {n : Inner} : Reach h r a → h[a]? = some (.inner n) → n.leaf = some b → Reach h r b
  | child {a b : Addr} {n : Inner} : Reach h r a → h[a]? = some (.inner n) → some b ∈ n.children → Reach h r b

/-- The results of an iterator whose steps are made in one heap after the other. -/
def nexts {σ : Type} (next : Heap V → σ → R (Option (Key × V) × σ)) : σ → List (Heap V) → List (R (Option (Key × V)))
  | _, [] => []
  | it, h :: hs =>
    match next h it with
    | .ok (r, it') => .ok r :: nexts next it' hs
    | .error e => .error e :: nexts next it hs

section
variable {ops more : List (Op V)} {i : Nat} {t : Tree}

/-- The nodes of tree `i`, a set which no write touches. -/
theorem tree_apart (hl : Lawful World.init (ops ++ more)) (ht : treeAfter ops i = some t) :
    ∃ S : Addr → Prop, Region (heapAfter ops) S (t.root, t.maxNodeId) ∧
      ∀ e ∈ seenAll (execAll World.init ops).2 more, Untouched S (heapAfter ops) e := by
  obtain ⟨h1, h2⟩ := hl.append
  obtain ⟨S, O, hi, -, -⟩ := execAll_iso INV.init h1
  have hv : (execAll World.init ops).2.view (.inl i) = some (t.root, t.maxNodeId) := by
    show ((execAll World.init ops).2.trees[i]?).map _ = _
    rw [show (execAll World.init ops).2.trees[i]? = some t from ht]; rfl
  exact ⟨S (.inl i), hi.region _ _ hv, seenAll_apart hi h2 hv (by intro op _ x _ h; cases h)⟩

theorem Mixed.same {h0 h : Heap V} {es : List (Write V)} (hm : Mixed h0 es h) {S : Addr → Prop} (ha : ∀ e ∈ es, Untouched S h0 e) : Agree S h0 h :=
  fun a hs => by
    rcases hm a with h | ⟨e, he, h⟩
    · rw [h]
    · rw [h]; exact (ha e he).1 a hs

theorem Trail.grows {l : List (Write V)} {h h' : Heap V} (ht : Trail h l h') : ∀ e ∈ l, h.length ≤ e.heap.length := by
  induction l generalizing h with
  | nil => exact fun e he => nomatch he
  | cons x l ih =>
    have hx : h.length ≤ x.heap.length := by
      rcases ht.1 with ⟨c, hc⟩ | ⟨-, -, c, hc⟩
      · rw [hc, List.length_set]; exact Nat.le_refl _
      · rw [hc, List.length_append]; exact Nat.le_add_right _ _
    intro e he
    rcases List.mem_cons.1 he with rfl | he
    · exact hx
    · exact Nat.le_trans hx (ih ht.2 e he)

theorem Mixed.len {h0 h' h : Heap V} {es : List (Write V)} (ht : Trail h0 es h') (hm : Mixed h0 es h) : h0.length ≤ h.length := by
  refine Nat.le_of_not_lt fun hlt => ?_
  have hn : h[h.length]? = none := List.getElem?_eq_none (Nat.le_refl _)
  rcases hm h.length with h1 | ⟨e, he, h1⟩
  · rw [hn, List.getElem?_eq_getElem hlt] at h1; cases h1
  · rw [hn, List.getElem?_eq_getElem (Nat.lt_of_lt_of_le hlt (ht.grows e he))] at h1; cases h1

theorem nexts_eq {σ : Type} {next : Heap V → σ → R (Option (Key × V) × σ)} {In : (Addr → Prop) → σ → Prop}
    (hcongr : ∀ {h h' : Heap V} {S : Addr → Prop}, Same h h' S → ∀ it, In S it →
      next h' it = next h it ∧ ∀ p, next h it = .ok p → In S p.2) {h0 : Heap V} {S : Addr → Prop} {hs : List (Heap V)}
    (hh : ∀ h ∈ hs, Same h0 h S) {it : σ} (hin : In S it) : nexts next it hs = nexts next it (hs.map fun _ => h0) := by
  induction hs generalizing it with
  | nil => rfl
  | cons h hs ih =>
    obtain ⟨h1, h2⟩ := hcongr (hh h (List.mem_cons_self ..)) it hin
    have hh' : ∀ h ∈ hs, Same h0 h S := fun h hm => hh h (List.mem_cons_of_mem _ hm)
    show (match next h it with | .ok (r, it') => _ | .error e => _) = (match next h0 it with | .ok (r, it') => _ | .error e => _)
    rw [h1]
    cases hn : next h0 it with
    | error e => simp only; rw [ih hh' hin]
    | ok q => simp only; rw [ih hh' (h2 q hn)]

theorem Region.reach {h : Heap V} {S : Addr → Prop} {p : Addr × Nat} (hr : Region h S p) {a : Addr} (ha : Reach h p.1 a) : S a := by
  induction ha with
  | root => exact hr.root
  | leaf _ hn hl ih =>
    obtain ⟨c, h1, -, h2⟩ := hr.cell _ ih
    rw [hn] at h1; cases h1
    exact h2 _ (.inl hl)
  | child _ hn hl ih =>
    obtain ⟨c, h1, -, h2⟩ := hr.cell _ ih
    rw [hn] at h1; cases h1
    exact h2 _ (.inr hl)

end

/-- C57: a reader needs no lock.  Whatever mixture of moments the reader sees while `more` calls are made, every read of a
tree that existed before gives what it gave before: `Get`, `Minimum`, `Maximum`, `LongestPrefix`, `Walk`, and all iterators. -/
theorem C57 (ops more : List (Op V)) (hl : Lawful World.init (ops ++ more)) (i : Nat) (t : Tree) (ht : treeAfter ops i = some t)
    (h : Heap V) (hm : Mixed (heapAfter ops) (seenAll (execAll World.init ops).2 more) h) :
    SameReads (heapAfter ops) t h t ∧ SameSeeks (heapAfter ops) t h t := by
  obtain ⟨S, hr, ha⟩ := tree_apart hl ht
  have hs : Same (heapAfter ops) h S := ⟨hr.closed, hm.same ha⟩
  have hlen := hm.len (seenAll_complete more _)
  exact ⟨hs.reads hlen hr.root, hs.seeks hlen hr.root⟩

/-- C57 for iterators that were made before: each of their steps may see another mixture. -/
theorem C57_iterators (ops more : List (Op V)) (hl : Lawful World.init (ops ++ more)) (i : Nat) (t : Tree) (ht : treeAfter ops i = some t)
    (hs : List (Heap V)) (hm : ∀ h ∈ hs, Mixed (heapAfter ops) (seenAll (execAll World.init ops).2 more) h) (fuel : Nat) :
    (∀ p it a, seekPrefix (heapAfter ops) (mkIter t.root) p = .ok (it, a) →
      nexts (fun h => iterNext h fuel) it hs = nexts (fun h => iterNext h fuel) it (hs.map fun _ => heapAfter ops)) ∧
    (∀ q, nexts (fun h => pathNext h fuel) (getPathIterator t q) hs =
      nexts (fun h => pathNext h fuel) (getPathIterator t q) (hs.map fun _ => heapAfter ops)) ∧
    (∀ k st, seekLowerBound (heapAfter ops) t.root k = .ok st →
      nexts (fun h => lbNext h fuel) st hs = nexts (fun h => lbNext h fuel) st (hs.map fun _ => heapAfter ops)) ∧
    (∀ it, it = mkRevIter t.root ∨ (∃ p, revSeekPrefix (heapAfter ops) (mkRevIter t.root) p = .ok it) ∨
        (∃ k extra, seekReverseLowerBound (heapAfter ops) (mkRevIter t.root) k extra = .ok it) →
      nexts (fun h => revPrevious h fuel) it hs = nexts (fun h => revPrevious h fuel) it (hs.map fun _ => heapAfter ops)) := by
  obtain ⟨S, hr, ha⟩ := tree_apart hl ht
  have hroot : S t.root := hr.root
  have hh : ∀ h ∈ hs, Same (heapAfter ops) h S := fun h hx => ⟨hr.closed, (hm h hx).same ha⟩
  have h0 : Same (heapAfter ops) (heapAfter ops) S := ⟨hr.closed, .refl _ _⟩
  refine ⟨fun p it a hit => ?_, fun q => ?_, fun k st hst => ?_, fun it hit => ?_⟩
  · exact nexts_eq (fun hs it hin => iterNext_congr hs fuel it hin) hh
      ((seekPrefix_congr h0 (Nat.le_refl _) _ (mkIter_in hroot) p).2 _ hit).1
  · exact nexts_eq (In := fun S (it : PathIter) => ∀ a ∈ it.stack, S a) (fun hs it hin => pathNext_congr hs fuel it hin) hh
      fun a ha => by rw [List.mem_singleton.1 ha]; exact hroot
  · exact nexts_eq (fun hs it hin => lbNext_congr hs fuel it hin) hh ((seekLowerBound_congr h0 (Nat.le_refl _) hroot k).2 _ hst)
  · refine nexts_eq (next := fun h => revPrevious h fuel) (In := RevIter.In) (fun hs it hin => revPrevious_congr hs fuel hin) hh ?_
    rcases hit with rfl | ⟨p, hit⟩ | ⟨k, extra, hit⟩
    · exact mkRevIter_in hroot
    · exact (revSeekPrefix_congr h0 (Nat.le_refl _) (mkRevIter_in hroot) p).2 _ hit
    · exact (seekReverseLowerBound_congr h0 (Nat.le_refl _) (mkRevIter_in hroot) k extra).2 _ hit

/-- C58: there is no data race on nodes between readers of a tree and writers.  No call writes to a node that can be reached
in a tree that existed before, except by an atomic store of its channel; and nothing but the channel ever changes in it. -/
theorem C58 (ops more : List (Op V)) (hl : Lawful World.init (ops ++ more)) (i : Nat) (t : Tree) (ht : treeAfter ops i = some t)
    (a : Addr) (ha : Reach (heapAfter ops) t.root a) (e : Write V) (he : e ∈ seenAll (execAll World.init ops).2 more) :
    (e.addr = a → e.chan = true) ∧ (e.heap[a]?).map (·.setCh none) = ((heapAfter ops)[a]?).map (·.setCh none) := by
  obtain ⟨S, hr, hap⟩ := tree_apart hl ht
  have hs := hr.reach ha
  refine ⟨fun h => ?_, (hap e he).1 a hs⟩
  cases hc : e.chan with
  | true => rfl
  | false => exact absurd (h ▸ hs) ((hap e he).2 hc)

/-! ### Examples -/

/-- Keys a, b, foo, foobar in the private tree of a transaction, its root copied already; then `Delete(a)` of the transaction. -/
def inTxn : List (Op Nat) := busy ++ [.begin 3, .txnInsert 0 kB 7]
def inFlight : List (Write Nat) := execSeen (execAll World.init inTxn).2 (.txnDelete 0 kA)
/-- The private tree of the transaction. -/
def inTxnTree : Tree := match (execAll World.init inTxn).2.txns[0]? with | some r => r.st.tree | none => default

/-- The call makes seven writes.  While it is running, the transaction's own tree is in disorder: foobar is lost for a while
(so a transaction cannot be shared with readers).  The tree that it started from is as it was. -/
example : (inFlight.map fun e => treeGet e.heap inTxnTree kFoobar) =
      [.ok (some 2), .ok (some 2), .ok (some 2), .ok (some 2), .ok none, .ok none, .ok (some 2)] ∧
    (inFlight.map fun e => treeGet e.heap (treeOf inTxn 3) kFoobar) = List.replicate 7 (.ok (some 2)) := by decide +kernel

example (e : Write Nat) (he : e ∈ inFlight) (k : Key) : treeGet e.heap (treeOf inTxn 3) k = treeGet (heapAfter inTxn) (treeOf inTxn 3) k :=
  (C57 inTxn [.txnDelete 0 kA] (by decide +kernel) 3 _ (by decide +kernel) e.heap fun a => .inr ⟨e, by
    show e ∈ inFlight ++ []
    rw [List.append_nil]; exact he, rfl⟩).1.get k

/-- The writes of the busy history: 68, of which two set a channel; the first of these is to the root of the tree that is
read. -/
example : (seenAll (execAll World.init busy).2 busyMore).length = 68 ∧
    ((seenAll (execAll World.init busy).2 busyMore).filter (·.chan)).map (·.addr) = [(treeOf busy 3).root, 25] := by decide +kernel

/-- An iterator whose steps see different moments of the call. -/
example : (seekPrefix (heapAfter inTxn) (mkIter (treeOf inTxn 3).root) []).toOption.any (fun q =>
    nexts (fun h => iterNext h 20) q.1 ((inFlight.drop 2).map (·.heap)) =
      [.ok (some (kA, 3)), .ok (some (kFoo, 1)), .ok (some (kFoobar, 2)), .ok none, .ok none]) = true := by decide +kernel

/-- C57 and C58 without the condition on the use of committed transactions. -/
def C57_Loose (V : Type) [Inhabited V] : Prop := ∀ (ops more : List (Op V)) (i : Nat) (t : Tree), treeAfter ops i = some t → ∀ h : Heap V,
  Mixed (heapAfter ops) (seenAll (execAll World.init ops).2 more) h → ∀ k, treeGet h t k = treeGet (heapAfter ops) t k
def C58_Loose (V : Type) [Inhabited V] : Prop := ∀ (ops more : List (Op V)) (i : Nat) (t : Tree), treeAfter ops i = some t → ∀ a,
  Reach (heapAfter ops) t.root a → ∀ e ∈ seenAll (execAll World.init ops).2 more, e.addr = a → e.chan = true

/-- Writing through a transaction after it was committed is a race with all readers of the committed tree: it is written to
in place. -/
def afterCommit : List (Op Nat) := inTxn ++ [.commit 0]

theorem C57_loose_false : ¬ C57_Loose Nat := fun h => by
  have h1 : ∃ e ∈ seenAll (execAll World.init afterCommit).2 [.txnDelete 0 kA],
      treeGet e.heap (treeOf afterCommit 4) kFoobar ≠ treeGet (heapAfter afterCommit) (treeOf afterCommit 4) kFoobar := by decide +kernel
  obtain ⟨e, he, hne⟩ := h1
  exact hne (h afterCommit [.txnDelete 0 kA] 4 _ (by decide +kernel) e.heap (fun a => .inr ⟨e, he, rfl⟩) kFoobar)

theorem C58_loose_false : ¬ C58_Loose Nat := fun h => by
  have h1 : ∃ e ∈ seenAll (execAll World.init afterCommit).2 [.txnDelete 0 kA],
      e.addr = (treeOf afterCommit 4).root ∧ e.chan = false := by decide +kernel
  obtain ⟨e, he, h2, h3⟩ := h1
  have := h afterCommit [.txnDelete 0 kA] 4 _ (by decide +kernel) _ .root e he h2
  rw [h3] at this; cases this

end Art
