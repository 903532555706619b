import Verif.Proofs.Limits
import Verif.Props.Calm
import Verif.Props.Universal
/-
C59: GetWatch answers like Get.  C60, C61, C62: seeks and LongestPrefix never leave their bounds.  C63: Walk stops
exactly where the caller says so.  All of it in every history, however the trees were made.
-/
set_option autoImplicit false
set_option linter.unusedSimpArgs false
set_option linter.unusedSectionVars false
namespace Art
variable {V : Type} [Inhabited V]

/-! ### C59 -/

/-- C59, the search: `iterativeSearchWithWatch` finds what `iterativeSearch` finds, from the root of every tree and every
transaction, and the nil leaf that line 262 of tree.go would dereference is never met. -/
theorem C59_same (ops : List (Op V)) (k : Key) :
    (∀ t ∈ (execAll World.init ops).2.trees, searchWatch (heapAfter ops) t.root k = search (heapAfter ops) t.root k) ∧
    ∀ r ∈ (execAll World.init ops).2.txns, searchWatch (heapAfter ops) r.st.root k = search (heapAfter ops) r.st.root k := by
  have hs := saneAfter False ops fun h => h.elim
  exact ⟨fun t ht => watchLoopAt_eq hs.heap _ _ _ _ (hs.trees t ht), fun r hr => watchLoopAt_eq hs.heap _ _ _ _ (hs.txns r hr)⟩

/-- C59: in every history, with panics and misuse of any sort, `GetWatch` of a key returns a channel together with exactly
what `Get` returns, on trees and on transactions; the one panics if and only if the other does. -/
theorem C59 (ops : List (Op V)) (i : Nat) (k : Key) (r : Option V) :
    ((exec (execAll World.init ops).2 (.get i k)).1 = .value r ↔ ∃ c, (exec (execAll World.init ops).2 (.getWatch i k)).1 = .chan c r) ∧
    ((exec (execAll World.init ops).2 (.txnGet i k)).1 = .value r ↔ ∃ c, (exec (execAll World.init ops).2 (.txnGetWatch i k)).1 = .chan c r) := by
  have hs := saneAfter False ops fun h => h.elim
  generalize (execAll World.init ops).2 = w at hs
  constructor
  · simp only [exec, World.onTree]
    cases ht : w.trees[i]? with
    | none => simp
    | some t =>
      simp only [bind_run, M.get, lift_run, treeGet]
      cases hh : search (w.st default).heap t.root k with
      | error e =>
        rw [treeGetWatch_run, hh]
        simp [bind, Except.bind]
      | ok hit =>
        have hlt : hit.watch < (w.st default).heap.length := searchLoopAt_lt hs.heap _ _ _ _ _ hh
        rw [treeGetWatch_run, hh]
        simp only [List.getElem?_eq_getElem hlt, bind, Except.bind, pure, Except.pure]
        simp
  · simp only [exec, World.onTxn]
    cases ht : w.txns[i]? with
    | none => simp
    | some x =>
      simp only [txnGet, bind_run, M.get, lift_run, txnSt]
      cases hh : search (w.st x.st).heap (w.st x.st).txn.root k with
      | error e =>
        rw [treeGetWatch_run, hh]
        simp
      | ok hit =>
        have hlt : hit.watch < (w.st x.st).heap.length := searchLoopAt_lt hs.heap _ _ _ _ _ hh
        rw [treeGetWatch_run, hh]
        simp only [List.getElem?_eq_getElem hlt, pure_run]
        simp

-- a tree on which both find a key, and one on which both find nothing
example :
    let ops : List (Op Nat) := build [kFoo, kFoobar, kA] ++ [.begin 3, .txnDelete 0 kA]
    (exec (execAll World.init ops).2 (.get 3 kFoo)).1 = .value (some 1) ∧
    (exec (execAll World.init ops).2 (.getWatch 3 kFoo)).1.found = some 1 ∧
    (exec (execAll World.init ops).2 (.txnGet 0 kA)).1 = .value none ∧
    (exec (execAll World.init ops).2 (.txnGetWatch 0 kA)).1.found = none := by decide +kernel

/-! ### C60 -/

/-- C60: a forward iterator positioned with `SeekPrefix(p)` returns only keys with the prefix `p`.  `it` is the iterator in
any state: `Next` may be called after any other calls, and the stack may come from another heap. -/
def C60_Full (V : Type) [Inhabited V] : Prop := ∀ (ops : List (Op V)) (fuel : Nat) (it it' : Iter) (k : Key) (v : V),
  iterNext (heapAfter ops) fuel it = .ok (some (k, v), it') → it.path <+: k

/-- The iterator compares with the key and the `'$'` that the tree adds to it. -/
theorem C60_false : ¬ C60_Full Nat := fun h => by
  have := h (build [kFoo]) 9 { mkIter (treeOf (build [kFoo]) 1).root with path := kFoo ++ [36], stack := [some (treeOf (build [kFoo]) 1).root] }
    ((iterNext (heapAfter (build [kFoo])) 9 { mkIter (treeOf (build [kFoo]) 1).root with path := kFoo ++ [36], stack := [some (treeOf (build [kFoo]) 1).root] }).toOption.getD (none, default)).2
    kFoo 1 (by decide +kernel)
  exact absurd this (by decide +kernel)

/-- The same with the calls of a client: `SeekPrefix("foo$")` finds `foo`. -/
example : iterPrefix (heapAfter (build [kFoo])) (treeOf (build [kFoo]) 1) (kFoo ++ [36]) 9 = .ok [(kFoo, 1)] := by decide +kernel

/-- C60 in every history and every state of the iterator: a key that `Next` returns has the prefix, or is the prefix without
a final `'$'`; in particular it has the prefix if this does not end in `'$'`.  The prefix stays what it was.  (Missing for the full
statement: prefixes that end in `'$'`, see `C60_false`.) -/
theorem C60_partial (ops : List (Op V)) (fuel : Nat) (it it' : Iter) (k : Key) (v : V)
    (h : iterNext (heapAfter ops) fuel it = .ok (some (k, v), it')) :
    it'.path = it.path ∧ (it.path <+: k ∨ it.path = k ++ [36]) ∧ (it.path.getLast? ≠ some 36 → it.path <+: k) := by
  obtain ⟨h1, a, l, hl, hk, hp⟩ := iterNext_path fuel it h
  have h2 : it.path <+: k ∨ it.path = k ++ [36] := by
    rcases leafKey_form ops hl with h0 | h0
    · rw [h0, List.prefix_nil] at hp
      rw [hp]; exact .inl List.nil_prefix
    · rw [h0, hk, List.prefix_concat_iff] at hp
      exact hp.symm
  refine ⟨h1, h2, fun h3 => h2.resolve_right fun h4 => h3 ?_⟩
  rw [h4]; simp

theorem iterCollect_fits (ops : List (Op V)) {p : Key} (hp : p.getLast? ≠ some 36) (fuel : Nat) (it : Iter) (l : List (Key × V)) (hpath : it.path = p)
    (h : iterCollect (heapAfter ops) fuel it = .ok l) : ∀ e ∈ l, p <+: e.1 := by
  induction fuel generalizing it l with
  | zero => cases h
  | succ n ih =>
    unfold iterCollect at h
    obtain ⟨⟨r, it'⟩, h1, h⟩ := R.bind_ok h
    cases r with
    | none => cases h; nofun
    | some kv =>
      obtain ⟨l', h2, h⟩ := R.bind_ok h
      cases h
      obtain ⟨h3, -, h4⟩ := C60_partial ops _ _ _ kv.1 kv.2 h1
      rw [hpath] at h3 h4
      intro e he
      rcases List.mem_cons.1 he with rfl | he
      · exact h4 hp
      · exact ih it' l' h3 h2 e he

/-- C60 for all that an iterator returns. -/
theorem C60_list_partial (ops : List (Op V)) (t : Tree) (p : Key) (hp : p.getLast? ≠ some 36) (fuel : Nat) (l : List (Key × V))
    (h : iterPrefix (heapAfter ops) t p fuel = .ok l) : ∀ e ∈ l, p <+: e.1 := by
  unfold iterPrefix at h
  obtain ⟨⟨it, a⟩, h1, h⟩ := R.bind_ok h
  exact iterCollect_fits ops hp fuel it l (seekPrefix_path _ _ _ _ _ h1) h

-- the seek stops at a node above the prefix, and the iterator filters the other keys out
example : iterPrefix (heapAfter (build [kFoo, kFoobar, kA, ascii ['f', 'x']])) (treeOf (build [kFoo, kFoobar, kA, ascii ['f', 'x']]) 4) (ascii ['f', 'o']) 30 =
    .ok [(kFoo, 1), (kFoobar, 2)] := by decide +kernel

/-! ### C61 -/

/-- C61: a reverse iterator positioned with `SeekReverseLowerBound(q)` returns no key above `q`. -/
def C61_Full (V : Type) [Inhabited V] : Prop := ∀ (ops : List (Op V)) (i : Nat) (t : Tree) (q extra : Key) (fuel : Nat)
  (l : List (Key × V)), treeAfter ops i = some t → iterReverseLowerBound (heapAfter ops) t q extra fuel = .ok l → ∀ e ∈ l, cmpBytes e.1 q ≠ .gt

/-- `a$b` is above `a`, but `SeekReverseLowerBound("a")` returns it. -/
theorem C61_false : ¬ C61_Full Nat := fun h =>
  absurd (h (build [kA ++ [36, 98]]) 1 (treeOf (build [kA ++ [36, 98]]) 1) kA [] 9 [(kA ++ [36, 98], 1)] (by decide +kernel) (by decide +kernel)
    _ (List.mem_singleton.2 rfl)) (by decide +kernel)

/-- C61 in every history and in every state of the iterator: a key that `Previous` returns is not above the bound, or it is the bound
followed by `'$'` and more.  The bound stays what it was.  (Missing for the full statement: these last keys, see `C61_false`.) -/
theorem C61_partial (h : Heap V) (fuel : Nat) (q : Key) (it it' : RevIter) (hq : it.path = q ++ [36]) (k : Key) (v : V)
    (hn : revPrevious h fuel it = .ok (some (k, v), it')) :
    it'.path = q ++ [36] ∧ (cmpBytes k q ≠ .gt ∨ q ++ [36] <+: k) := by
  unfold revPrevious at hn
  obtain ⟨⟨r, st⟩, h1, hn⟩ := R.bind_ok hn
  cases hn
  rw [hq] at h1
  have h2 := revNext_bound (by simp) fuel _ h1
  rw [show q ++ [36] = getTreeKey q from rfl, getKey_getTreeKey] at h2
  exact ⟨hq, h2⟩

theorem revCollect_fits (h : Heap V) {q : Key} (fuel : Nat) (it : RevIter) (l : List (Key × V)) (hpath : it.path = q ++ [36])
    (hl : revCollect h fuel it = .ok l) : ∀ e ∈ l, cmpBytes e.1 q ≠ .gt ∨ q ++ [36] <+: e.1 := by
  induction fuel generalizing it l with
  | zero => cases hl
  | succ n ih =>
    unfold revCollect at hl
    obtain ⟨⟨r, it'⟩, h1, hl⟩ := R.bind_ok hl
    cases r with
    | none => cases hl; nofun
    | some kv =>
      obtain ⟨l', h2, hl⟩ := R.bind_ok hl
      cases hl
      obtain ⟨h3, h4⟩ := C61_partial h _ q _ _ hpath kv.1 kv.2 h1
      intro e he
      rcases List.mem_cons.1 he with rfl | he
      · exact h4
      · exact ih it' l' h3 h2 e he

/-- C61 for all that an iterator returns. -/
theorem C61_list_partial (h : Heap V) (t : Tree) (q extra : Key) (fuel : Nat) (l : List (Key × V))
    (hl : iterReverseLowerBound h t q extra fuel = .ok l) : ∀ e ∈ l, cmpBytes e.1 q ≠ .gt ∨ q ++ [36] <+: e.1 := by
  unfold iterReverseLowerBound at hl
  obtain ⟨it, h1, hl⟩ := R.bind_ok hl
  have hpath : it.path = q ++ [36] := by
    unfold seekReverseLowerBound at h1
    obtain ⟨⟨st, ex⟩, -, h1⟩ := R.bind_ok h1
    cases h1; rfl
  exact revCollect_fits h fuel it l hpath hl

-- the bound is not stored, and keys above and below it are
example : iterReverseLowerBound (heapAfter (build [kFoo, kFoobar, kA, kB])) (treeOf (build [kFoo, kFoobar, kA, kB]) 4) (ascii ['f', 'o', 'o', 'a']) [] 30 =
    .ok [(kFoo, 1), (kB, 4), (kA, 3)] := by decide +kernel

/-! ### C62 -/

/-- C62: `LongestPrefix(q)` returns only prefixes of `q`. -/
def C62_Full (V : Type) [Inhabited V] : Prop := ∀ (ops : List (Op V)) (i : Nat) (t : Tree) (q k : Key) (v : V),
  treeAfter ops i = some t → longestPrefix (heapAfter ops) t q = .ok (some (k, v)) → k <+: q

/-- The leaf of the root is returned without being compared. -/
theorem C62_false : ¬ C62_Full Nat := fun h =>
  absurd (h (build [kFoo]) 1 (treeOf (build [kFoo]) 1) kA kFoo 1 (by decide +kernel) (by decide +kernel)) (by decide +kernel)

/-- C62 in every memory whatsoever: what `LongestPrefix(q)` returns is a prefix of `q`, or else the key in the leaf of the root itself.
(Missing for the full statement: trees whose root has a leaf, see `C62_false`.) -/
theorem C62_partial (h : Heap V) (t : Tree) (q k : Key) (v : V) (hl : longestPrefix h t q = .ok (some (k, v))) :
    k <+: q ∨ ∃ (n : Inner) (a : Addr) (l : LeafC V), h[t.root]? = some (.inner n) ∧ n.leaf = some a ∧ h[a]? = some (.leaf l) ∧ getKey l.key = k := by
  unfold longestPrefix at hl
  obtain ⟨c, hc, hl⟩ := R.bind_ok hl
  obtain ⟨o, ho, hl⟩ := R.bind_ok hl
  have := lpLoop_below (Q := fun o => Fits h q o ∨ o = c.nodeLeaf) (fun o ho => .inl ho) _ _ _ _ _ (.inr rfl) ho
  split at hl
  · cases hl
  · rename_i l
    obtain ⟨lc, hlc, hl⟩ := R.bind_ok hl
    cases hl
    rcases this with h1 | h1
    · exact .inl (h1 _ _ rfl hlc)
    · right
      cases c with
      | leaf l => cases h1
      | inner n => exact ⟨n, l, lc, rd_ok hc, h1.symm, rdLeaf_ok hlc, rfl⟩

-- a tree whose root has no leaf
example : longestPrefix (heapAfter (build [kFoo, kFoobar, kA])) (treeOf (build [kFoo, kFoobar, kA]) 3) (kFoo ++ kA) = .ok (some (kFoo, 1)) ∧
    ((heapAfter (build [kFoo, kFoobar, kA]))[(treeOf (build [kFoo, kFoobar, kA]) 3).root]?.bind Cell.nodeLeaf) = none := by decide +kernel

/-! ### C63 -/

/-- C63: in every history every tree has one sequence of pairs that `Walk` goes through, whatever the function: it is called with
these pairs in this order, up to and including the first one for which it returns true, and with nothing after that. -/
theorem C63 (ops : List (Op V)) (i : Nat) (t : Tree) (ht : treeAfter ops i = some t) :
    ∃ l : List (Key × V), ∀ fn : Key → V → Bool, ∃ calls rest, treeWalk (heapAfter ops) t fn = .ok calls ∧ l = calls ++ rest ∧
      (∀ e ∈ calls.dropLast, fn e.1 e.2 = false) ∧ ((∃ e ∈ calls, fn e.1 e.2 = true) ∨ rest = []) := by
  obtain ⟨l, hl⟩ := (C50_partial ops i t ht).1.1 fun _ _ => false
  unfold treeWalk at hl
  obtain ⟨⟨l', b⟩, h1, hl⟩ := R.bind_ok hl
  cases hl
  obtain ⟨-, h2⟩ := recursiveWalk_stops _ _ _ _ _ h1
  refine ⟨l, fun fn => ?_⟩
  have h3 : treeWalk (heapAfter ops) t fn = .ok (callsUntil fn l) := by
    unfold treeWalk
    rw [h2 fn]
    rfl
  have h4 : ∀ l : List (Key × V), ∃ rest, l = callsUntil fn l ++ rest ∧ (∀ e ∈ (callsUntil fn l).dropLast, fn e.1 e.2 = false) ∧
      ((∃ e ∈ callsUntil fn l, fn e.1 e.2 = true) ∨ rest = []) := by
    intro l
    induction l with
    | nil => exact ⟨[], rfl, nofun, .inr rfl⟩
    | cons e l ih =>
      unfold callsUntil
      by_cases he : fn e.1 e.2 = true
      · simp only [he, if_true]
        exact ⟨l, rfl, nofun, .inl ⟨e, by simp, he⟩⟩
      · simp only [he, Bool.false_eq_true, if_false]
        obtain ⟨rest, i1, i2, i3⟩ := ih
        refine ⟨rest, by rw [List.cons_append, ← i1], ?_, i3.imp (fun ⟨x, hx, hf⟩ => ⟨x, by simp [hx], hf⟩) id⟩
        intro x hx
        cases hc : callsUntil fn l with
        | nil => rw [hc] at hx; cases hx
        | cons y ys =>
          rw [hc] at hx i2
          rw [List.dropLast_cons_cons] at hx
          rcases List.mem_cons.1 hx with rfl | hx
          · simpa using he
          · exact i2 x hx
  obtain ⟨rest, i1, i2, i3⟩ := h4 l
  exact ⟨_, rest, h3, i1, i2, i3⟩

-- a walk over three keys that is stopped at the second
example : treeWalk (heapAfter (build [kA, kB, kFoo])) (treeOf (build [kA, kB, kFoo]) 3) (fun k _ => k == kB) = .ok [(kA, 0), (kB, 0)] ∧
    treeWalk (heapAfter (build [kA, kB, kFoo])) (treeOf (build [kA, kB, kFoo]) 3) (fun _ _ => false) = .ok [(kA, 0), (kB, 0), (kFoo, 0)] := by
  decide +kernel

end Art
