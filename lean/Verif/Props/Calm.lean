import Verif.Proofs.SaneRead
import Verif.Props.TxnRead
import Verif.Props.RevPrefix
import Verif.Props.Stops
/-
C50: reads do not panic.  C51: the nodes in memory are well-formed.
-/
set_option autoImplicit false
set_option linter.unusedSectionVars false
namespace Art
variable {V : Type} [Inhabited V]

/-! ### C51 -/

/-- The node of the given type has the arrays of its Go struct and uses them within their bounds; its pointers lead to
nodes of the right sort.  (`n4`, ... are `Node4`, ...: node_4.go:14-23, node_16.go:14-23, node_48.go:13-22, node_256.go:13-21.) -/
structure WellFormed {V : Type} (h : Heap V) (n : Inner) : Prop where
  n4 : n.kind = .n4 → n.keys.length = 4 ∧ n.children.length = 4 ∧ n.numChildren.toNat ≤ 4
  n16 : n.kind = .n16 → n.keys.length = 16 ∧ n.children.length = 16 ∧ n.numChildren.toNat ≤ 16
  n48 : n.kind = .n48 → n.keys.length = 256 ∧ n.children.length = 48 ∧ ∀ k ∈ n.keys, k.toNat ≤ 48
  n256 : n.kind = .n256 → n.children.length = 256
  leaf : ∀ a, n.leaf = some a → ∃ l, h[a]? = some (.leaf l)
  child : ∀ a, some a ∈ n.children → ∃ m, h[a]? = some (.inner m)

/-- C51: in every history all nodes are well-formed, and the root of every tree and of every transaction is a node. -/
def C51_Full (V : Type) [Inhabited V] : Prop := ∀ ops : List (Op V),
  (∀ (a : Nat) (n : Inner), (execAll World.init ops).2.heap[a]? = some (.inner n) → WellFormed (execAll World.init ops).2.heap n) ∧
  (∀ t ∈ (execAll World.init ops).2.trees, ∃ n, (execAll World.init ops).2.heap[t.root]? = some (.inner n)) ∧
  ∀ r ∈ (execAll World.init ops).2.txns, ∃ n, (execAll World.init ops).2.heap[r.st.root]? = some (.inner n)

theorem saneAfter (F : Prop) (ops : List (Op V)) (hop : F → ∀ op ∈ ops, op.NoTxnDelete) : WSane F (execAll World.init ops).2 :=
  execAll_sane (rk := fun _ => 0) .init .init (fun a c b h _ => by cases h) ops hop

theorem C51 : C51_Full V := by
  intro ops
  have hs := saneAfter False ops fun h => h.elim
  refine ⟨fun a n hn => ?_, fun t ht => ?_, fun r hr => ?_⟩
  · obtain ⟨h1, h2, h3⟩ := hs.heap a _ hn
    have k := h1.klen
    have c := h1.clen
    have m := h1.num
    refine ⟨fun e => ?_, fun e => ?_, fun e => ?_, fun e => ?_, h2, fun b hb => let ⟨m, hm, _⟩ := h3 b hb; ⟨m, hm⟩⟩
    · rw [e] at k c m; exact ⟨k, c, m⟩
    · rw [e] at k c m; exact ⟨k, c, m⟩
    · rw [e] at k c; exact ⟨k, c, h1.ent e⟩
    · rw [e] at c; exact c
  · obtain ⟨n, hn, _⟩ := hs.trees t ht; exact ⟨n, hn⟩
  · obtain ⟨n, hn, _⟩ := hs.txns r hr; exact ⟨n, hn⟩

/-- Fifty keys with different first bytes. -/
def fanOps : List (Op Nat) := inserts ((List.range 50).map fun (i : Nat) => ([UInt8.ofNat (40 + i)], i))

-- the history has nodes of all four types
example : ∀ k ∈ [Kind.n4, .n16, .n48, .n256], ((execAll World.init fanOps).2.heap.any fun c =>
    match c with | .inner n => n.kind == k && n.numChildren.toNat > 3 | .leaf _ => false) = true := by decide +kernel

/-! ### C50 -/

/-- Every read of the tree returns, and every iterator over it reaches its end, without a panic. -/
structure ReadsReturn (h : Heap V) (t : Tree) : Prop where
  get : ∀ k, ∃ r, treeGet h t k = .ok r
  longest : ∀ k, ∃ r, longestPrefix h t k = .ok r
  minimum : ∃ r, treeMinimum h t = .ok r
  maximum : ∃ r, treeMaximum h t = .ok r
  walk : ∀ fn, ∃ l, treeWalk h t fn = .ok l
  iter : ∀ p, ∃ l, Ends (iterPrefix h t p) l
  lower : ∀ k, ∃ l, Ends (iterLowerBound h t k) l
  reverse : ∃ l, Ends (fun n => revCollect h n (mkRevIter t.root)) l
  reversePrefix : ∀ p, ∃ l, Ends (iterReversePrefix h t p) l
  reverseLower : ∀ k extra, ∃ l, Ends (iterReverseLowerBound h t k extra) l
  path : ∀ p, ∃ l, Ends (fun n => pathCollect h n (getPathIterator t p)) l

/-- C50: in every ordinary history all reads of all trees return. -/
def C50_Full (V : Type) [Inhabited V] : Prop := ∀ ops : List (Op V), Ordinary ops → ∀ i t, treeAfter ops i = some t →
  ReadsReturn (heapAfter ops) t

/-- A transaction that becomes empty and is written to again has a root without the ten bytes for the prefix; the tree it
commits panics in `Get`. -/
def bareOps : List (Op Nat) := [.newTree, .begin 0, .txnInsert 0 kA 1, .txnDelete 0 kA, .txnInsert 0 (ascii ['a', 'x']) 2,
  .txnInsert 0 (ascii ['b', 'x']) 3, .txnDelete 0 (ascii ['b', 'x']), .commit 0]

theorem C50_false : ¬ C50_Full Nat := fun h => by
  obtain ⟨r, hr⟩ := (h bareOps ⟨by decide +kernel, by decide +kernel⟩ 1 (treeOf bareOps 1) (by decide +kernel)).get (ascii ['z', 'z'])
  have : treeGet (heapAfter bareOps) (treeOf bareOps 1) (ascii ['z', 'z']) = .error .index := by decide +kernel
  rw [this] at hr
  cases hr

/-- `LongestPrefix`: the same tree. -/
example : longestPrefix (heapAfter bareOps) (treeOf bareOps 1) (ascii ['z', 'z']) = .error .index := by decide +kernel

/-- `SeekLowerBound` and `SeekReverseLowerBound` panic on two keys that share eleven bytes, whatever the bound. -/
example :
    let ops := build [List.replicate 11 100 ++ kA, List.replicate 11 100 ++ kB]
    seekLowerBound (heapAfter ops) (treeOf ops 2).root kFoo = .error .index ∧
    seekReverseLowerBound (heapAfter ops) (mkRevIter (treeOf ops 2).root) kFoo [] = .error .index := by decide +kernel

/-- `Maximum` panics on a tree from which all keys were removed with `DeletePrefix("")`. -/
example :
    let ops := build [kA, kB] ++ [.deletePrefix 2 []]
    treeMaximum (heapAfter ops) (treeOf ops 3) = .error .index := by decide +kernel

/-- The 26 letters are inserted, the first 13 deleted; a `DeletePrefix` that finds nothing loses the others; these are
inserted and deleted once more. -/
def lettersOps : List (Op Nat) :=
  let a (i : Nat) : Key := [UInt8.ofNat (97 + i)]
  [.newTree] ++ (List.range 26).map (fun i => .insert i (a i) i) ++ (List.range 13).map (fun i => .delete (26 + i) (a i)) ++
  [.deletePrefix 39 [122, 122]] ++ (List.range 13).flatMap (fun i => [.insert (40 + 2 * i) (a (13 + i)) 0, .delete (41 + 2 * i) (a (13 + i))])

/-- `Minimum` panics on the tree that is left, a `Node48` without children. -/
example : treeMinimum (heapAfter lettersOps) (treeOf lettersOps 66) = .error .index := by decide +kernel

theorem Calm.ends {α : Type} {f : Nat → R α} (hs : Stops f) (hc : ∀ n, Calm (f n)) : ∃ l, Ends f l := by
  obtain ⟨r, hr, n, hn⟩ := hs
  cases r with
  | error e => exact absurd (congrArg Except.error (hc n e (hn n (Nat.le_refl _)))) hr
  | ok l => exact ⟨l, n, hn⟩

/-- C50 for the reads that never panic.  In every history, with panics and misuse of any sort: `Walk`, path iterators,
reverse iterators, and lower-bound iterators from the start; and iterators of any sort that were positioned by a seek
that did not panic.  In histories in which no transaction deletes (trees may): `Get` and `LongestPrefix`, and the calls
of `Get` and `GetWatch` on trees and transactions.  (Missing for the full statement: see `C50_false` and the examples after it.) -/
theorem C50_partial (ops : List (Op V)) (i : Nat) (t : Tree) (ht : treeAfter ops i = some t) :
    ((∀ fn, ∃ l, treeWalk (heapAfter ops) t fn = .ok l) ∧
     (∀ p, ∃ l, Ends (fun n => pathCollect (heapAfter ops) n (getPathIterator t p)) l) ∧
     (∃ l, Ends (fun n => revCollect (heapAfter ops) n (mkRevIter t.root)) l) ∧
     (∃ l, Ends (iterLowerBound (heapAfter ops) t []) l) ∧
     (∀ p it a, seekPrefix (heapAfter ops) (mkIter t.root) p = .ok (it, a) → ∃ l, Ends (iterPrefix (heapAfter ops) t p) l) ∧
     (∀ k st, seekLowerBound (heapAfter ops) t.root k = .ok st → ∃ l, Ends (iterLowerBound (heapAfter ops) t k) l) ∧
     (∀ p it, revSeekPrefix (heapAfter ops) (mkRevIter t.root) p = .ok it → ∃ l, Ends (iterReversePrefix (heapAfter ops) t p) l) ∧
     ∀ k extra it, seekReverseLowerBound (heapAfter ops) (mkRevIter t.root) k extra = .ok it →
       ∃ l, Ends (iterReverseLowerBound (heapAfter ops) t k extra) l) ∧
    ((∀ op ∈ ops, op.NoTxnDelete) → ∀ k, (∃ r, treeGet (heapAfter ops) t k = .ok r) ∧ ∃ r, longestPrefix (heapAfter ops) t k = .ok r) := by
  have hs := (saneAfter False ops fun h => h.elim)
  have hlt : t.root < (heapAfter ops).length := (hs.trees t (List.mem_of_getElem? ht)).lt
  have hst := (C43 (V := V) ops).2.2
  have hin : RevIter.In (· < (heapAfter ops).length) (mkRevIter t.root) := ⟨fun a ha => by cases ha; exact hlt, fun st h => nomatch h⟩
  have lower : ∀ k st, seekLowerBound (heapAfter ops) t.root k = .ok st → ∃ l, Ends (iterLowerBound (heapAfter ops) t k) l := by
    intro k st hk
    have he : iterLowerBound (heapAfter ops) t k = fun n => lbCollect (heapAfter ops) n st := by
      funext n; unfold iterLowerBound; rw [hk, Except.bind_ok]
    rw [he]
    exact Calm.ends (hst.lowerIter _) fun n => lbCollect_calm hs.heap _ _
      ((seekLowerBound_congr hs.heap.same (Nat.le_refl _) hlt k).2 _ hk)
  refine ⟨⟨fun fn => (treeWalk_calm hs.heap hlt fn).got (hst.walk _ _), fun p => ?_, ?_, lower [] _ rfl, ?_, lower, ?_, ?_⟩, ?_⟩
  · refine Calm.ends (hst.path _) fun n => pathCollect_calm hs.heap _ _ fun a ha => ?_
    rw [getPathIterator, List.mem_singleton] at ha
    subst ha
    exact hlt
  · exact Calm.ends (hst.reverse _) fun n => revCollect_calm hs.heap _ _ hin
  · intro p it a hp
    have he : iterPrefix (heapAfter ops) t p = fun n => iterCollect (heapAfter ops) n it := by
      funext n; unfold iterPrefix; rw [hp, Except.bind_ok]
    rw [he]
    exact Calm.ends (hst.iter _) fun n => iterCollect_calm hs.heap _ _
      ((seekPrefix_congr hs.heap.same (Nat.le_refl _) (mkIter t.root) ⟨fun a ha => by cases ha; exact hlt, fun a ha => nomatch ha⟩ p).2 _ hp).1
  · intro p it hp
    have he : iterReversePrefix (heapAfter ops) t p = fun n => revCollect (heapAfter ops) n it := by
      funext n; unfold iterReversePrefix; rw [hp, Except.bind_ok]
    rw [he]
    exact Calm.ends (hst.reverse _) fun n => revCollect_calm hs.heap _ _ ((revSeekPrefix_congr hs.heap.same (Nat.le_refl _) hin p).2 _ hp)
  · intro k extra it hp
    have he : iterReverseLowerBound (heapAfter ops) t k extra = fun n => revCollect (heapAfter ops) n it := by
      funext n; unfold iterReverseLowerBound; rw [hp, Except.bind_ok]
    rw [he]
    exact Calm.ends (hst.reverse _) fun n => revCollect_calm hs.heap _ _ ((seekReverseLowerBound_congr hs.heap.same (Nat.le_refl _) hin k extra).2 _ hp)
  · intro hop k
    have hs := (saneAfter True ops fun _ => hop).heap
    exact ⟨(treeGet_calm hs hlt k).got (hst.get _ _), (longestPrefix_calm hs hlt k).got (hst.longest _ _)⟩

/-- C50 for calls: in a history in which no transaction deletes, no lookup panics. -/
theorem C50_lookup_partial (ops : List (Op V)) (hop : ∀ op ∈ ops, op.NoTxnDelete) (e : Err) (i : Nat) (k : Key) :
    (exec (execAll World.init ops).2 (.get i k)).1 ≠ .panic e ∧ (exec (execAll World.init ops).2 (.getWatch i k)).1 ≠ .panic e ∧
    (exec (execAll World.init ops).2 (.txnGet i k)).1 ≠ .panic e ∧ (exec (execAll World.init ops).2 (.txnGetWatch i k)).1 ≠ .panic e := by
  have hs := saneAfter True ops fun _ => hop
  generalize (execAll World.init ops).2 = w at hs
  refine ⟨?_, ?_, ?_, ?_⟩
  · simp only [exec, World.onTree]
    cases ht : w.trees[i]? with
    | none => nofun
    | some t =>
      obtain ⟨r, hr⟩ := (treeGet_calm hs.heap (hs.trees t (List.mem_of_getElem? ht)).lt k).got (treeGet_nofuel _ _ _)
      simp only [bind_run, M.get, lift_run, World.st, hr]
      nofun
  · simp only [exec, World.onTree]
    cases ht : w.trees[i]? with
    | none => nofun
    | some t =>
      obtain ⟨r, s', hr⟩ := treeGetWatch_returns (s := w.st default) hs.heap (hs.trees t (List.mem_of_getElem? ht)).lt k
      simp only [hr]
      nofun
  · simp only [exec, World.onTxn]
    cases ht : w.txns[i]? with
    | none => nofun
    | some r =>
      obtain ⟨hit, hr⟩ := (search_calm hs.heap (hs.txns r (List.mem_of_getElem? ht)).lt k).got (search_nofuel _ _ _)
      simp only [txnGet, bind_run, M.get, lift_run, World.st, hr, pure_run]
      nofun
  · simp only [exec, World.onTxn]
    cases ht : w.txns[i]? with
    | none => nofun
    | some r =>
      obtain ⟨p, s', hr⟩ := treeGetWatch_returns (s := w.st r.st) hs.heap
        (t := { root := r.st.root, size := r.st.treeSize, maxNodeId := r.st.maxNodeId }) (hs.txns r (List.mem_of_getElem? ht)).lt k
      simp only [bind_run, txnSt, World.st] at hr ⊢
      rw [hr]
      nofun

-- a history that covers all of it: deletions and prefix deletions on trees, a transaction that is written to
example :
    let ops : List (Op Nat) := build [kA, kB, kFoo, kFoobar] ++ [.delete 4 kFoo, .deletePrefix 5 kA, .begin 5, .txnInsert 0 kAB 7]
    (∀ op ∈ ops, op.NoTxnDelete) ∧ (exec (execAll World.init ops).2 (.txnGet 0 kAB)).1 = .value (some 7) ∧
    treeGet (heapAfter ops) (treeOf ops 5) kFoobar = .ok (some 4) := by
  refine ⟨?_, by decide +kernel, by decide +kernel⟩
  intro op hop
  simp only [build, List.cons_append, List.mem_cons, List.mem_append] at hop
  rcases hop with rfl | hop | rfl | rfl | rfl | rfl | hop
  · trivial
  · obtain ⟨p, _, rfl⟩ := List.mem_map.1 hop; trivial
  · trivial
  · trivial
  · trivial
  · trivial
  · cases hop

end Art
