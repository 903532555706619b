import Verif.Spec
/-
The properties at full strength, as predicates over all histories.  Many of them are false of the code; see
`Props/Negations.lean` for the proofs of that and the other files of this directory for what does hold.
-/
namespace Art
variable (V : Type) [Inhabited V]

/-- C01: after any ordinary history, `Get` answers as the map does. -/
def C01_Full : Prop := ∀ ops : List (Op V), Ordinary ops → ∀ i k,
  (exec (execAll World.init ops).2 (.get i k)).1 = (sexec (sexecAll SWorld.init ops).2 (.get i k)).1

/-- C02: `Insert` returns the old value, on trees and in transactions. -/
def C02_Full : Prop := ∀ ops : List (Op V), Ordinary ops → ∀ i k v,
  (exec (execAll World.init ops).2 (.insert i k v)).1 = (sexec (sexecAll SWorld.init ops).2 (.insert i k v)).1

/-- C03: `Delete` of a present key, on a tree or in a transaction, returns its value; afterwards exactly this
key is gone. -/
def C03_Full : Prop := ∀ ops : List (Op V), Ordinary ops → ∀ i k v,
  let w := (execAll World.init ops).2
  ((exec w (.get i k)).1 = .value (some v) →
    (exec w (.delete i k)).1 = .updated v true ∧
    ∀ k', (exec (exec w (.delete i k)).2 (.get w.trees.length k')).1 =
      if k' = k then .value none else (exec w (.get i k')).1) ∧
  ((exec w (.txnGet i k)).1 = .value (some v) → (Op.txnDelete (V := V) i k).legal (sexecAll SWorld.init ops).2 = true →
    (exec w (.txnDelete i k)).1 = .updated v true ∧
    ∀ k', (exec (exec w (.txnDelete i k)).2 (.txnGet i k')).1 =
      if k' = k then .value none else (exec w (.txnGet i k')).1)

/-- C04: `Delete` of an absent key reports nothing deleted and changes no key and not the length. -/
def C04_Full : Prop := ∀ ops : List (Op V), Ordinary ops → ∀ i k m, mapAfter ops i = some m → m.get k = none →
  (exec (execAll World.init ops).2 (.delete i k)).1 = .updated default false ∧
  ∀ t, (exec (execAll World.init ops).2 (.delete i k)).2.trees.getLast? = some t →
    treeLen t = m.length ∧
    ∀ k', treeGet (exec (execAll World.init ops).2 (.delete i k)).2.heap t k' = .ok (m.get k')

/-- C05: `Len` is the number of keys. -/
def C05_Full : Prop := ∀ ops : List (Op V), Ordinary ops → ∀ i,
  (exec (execAll World.init ops).2 (.len i)).1 = (sexec (sexecAll SWorld.init ops).2 (.len i)).1

/-- C07: no continuation whatsoever, not even one that keeps using committed transactions, changes what `Get`
returns on an existing tree. -/
def C07_Full : Prop := ∀ (ops more : List (Op V)) i t k, treeAfter ops i = some t →
  treeGet (heapAfter (ops ++ more)) t k = treeGet (heapAfter ops) t k

/-- C09: after `Txn.Clone`, a write to the original does not change what `Txn.Get` on the clone returns, nor
the other way round. -/
def C09_Full : Prop := ∀ (ops : List (Op V)) x y k k' v, y = (execAll World.init ops).2.txns.length →
  x < y →
  let w := (exec (execAll World.init ops).2 (.txnClone x)).2
  (exec (exec w (.txnInsert x k v)).2 (.txnGet y k')).1 = (exec w (.txnGet y k')).1 ∧
  (exec (exec w (.txnInsert y k v)).2 (.txnGet x k')).1 = (exec w (.txnGet x k')).1

/-- C12 (calls of `exec`): no call of an ordinary history panics. -/
def C12_Full : Prop := ∀ ops : List (Op V), During (fun s op => op.legal s = true) SWorld.init ops →
  ∀ o ∈ (execAll World.init ops).1, ∀ e, o ≠ .panic e

/-- C14: a transaction reads its own writes, and writing one key does not change how the others read. -/
def C14_Full : Prop := ∀ ops : List (Op V), Ordinary ops → ∀ x, x < (execAll World.init ops).2.txns.length → ∀ k v k',
  let w := (execAll World.init ops).2
  ((Op.txnInsert (V := V) x k v).legal (sexecAll SWorld.init ops).2 = true →
    (exec (exec w (.txnInsert x k v)).2 (.txnGet x k')).1 = if k' = k then .value (some v) else (exec w (.txnGet x k')).1) ∧
  ((Op.txnDelete (V := V) x k).legal (sexecAll SWorld.init ops).2 = true →
    (exec (exec w (.txnDelete x k)).2 (.txnGet x k')).1 = if k' = k then .value none else (exec w (.txnGet x k')).1)

/-! ### Iterators -/

/-- Position a forward iterator with `SeekPrefix(p)` and call `Next` until it returns false. -/
def iterPrefix {V : Type} (h : Heap V) (t : Tree) (p : Key) (fuel : Nat) : R (List (Key × V)) := do
  let (it, _) ← seekPrefix h (mkIter t.root) p
  iterCollect h fuel it

/-- A computation with a loop bound ends with the result `a`, given a large enough bound. -/
def Ends {α : Type} (f : Nat → R α) (a : α) : Prop := ∃ n, ∀ fuel, n ≤ fuel → f fuel = .ok a

/-- C15: full iteration returns every pair exactly once. -/
def C15_Full : Prop := ∀ (ops : List (Op V)), Ordinary ops → ∀ i t m,
  treeAfter ops i = some t → mapAfter ops i = some m →
  ∃ l, Ends (iterPrefix (heapAfter ops) t []) l ∧ l.Perm m

/-- C16: what an iterator returns is strictly ascending. -/
def C16_Full : Prop := ∀ (ops : List (Op V)), Ordinary ops → ∀ i t p l,
  treeAfter ops i = some t → Ends (iterPrefix (heapAfter ops) t p) l →
  l.Pairwise fun a b => Key.lt a.1 b.1

/-- C17: `SeekPrefix(p)` selects exactly the keys with prefix `p`. -/
def C17_Full : Prop := ∀ (ops : List (Op V)), Ordinary ops → ∀ i t m p,
  treeAfter ops i = some t → mapAfter ops i = some m →
  ∃ l, Ends (iterPrefix (heapAfter ops) t p) l ∧ l.Perm (m.filter fun e => p <+: e.1)

/-- `(k, v)` is the pair with the smallest key. -/
def Map.IsMin {V : Type} (m : Map V) (k : Key) (v : V) : Prop :=
  m.get k = some v ∧ ∀ k' v', m.get k' = some v' → k' ≠ k → Key.lt k k'

/-- `(k, v)` is the pair with the largest key. -/
def Map.IsMax {V : Type} (m : Map V) (k : Key) (v : V) : Prop :=
  m.get k = some v ∧ ∀ k' v', m.get k' = some v' → k' ≠ k → Key.lt k' k

/-- C18: `Minimum` is the leaf of the smallest key (which stores the key with `'$'` appended), nil if none. -/
def C18_Full : Prop := ∀ (ops : List (Op V)), Ordinary ops → ∀ i t m,
  treeAfter ops i = some t → mapAfter ops i = some m →
  (m = [] → treeMinimum (heapAfter ops) t = .ok none) ∧
  (∀ k v, m.IsMin k v → treeMinimum (heapAfter ops) t = .ok (some (k ++ [dollar], v)))

/-- C19: `Maximum` is the leaf of the largest key, nil if none. -/
def C19_Full : Prop := ∀ (ops : List (Op V)), Ordinary ops → ∀ i t m,
  treeAfter ops i = some t → mapAfter ops i = some m →
  (m = [] → treeMaximum (heapAfter ops) t = .ok none) ∧
  (∀ k v, m.IsMax k v → treeMaximum (heapAfter ops) t = .ok (some (k ++ [dollar], v)))

/-- The longest key of the map that is a prefix of `q`. -/
def Map.IsLongest {V : Type} (m : Map V) (q k : Key) (v : V) : Prop :=
  m.get k = some v ∧ k <+: q ∧ ∀ k' v', m.get k' = some v' → k' <+: q → k'.length ≤ k.length

/-- C20: `LongestPrefix`. -/
def C20_Full : Prop := ∀ (ops : List (Op V)), Ordinary ops → ∀ i t m q,
  treeAfter ops i = some t → mapAfter ops i = some m →
  ((∀ e ∈ m, ¬ e.1 <+: q) → longestPrefix (heapAfter ops) t q = .ok none) ∧
  (∀ k v, m.IsLongest q k v → longestPrefix (heapAfter ops) t q = .ok (some (k, v)))

/-- C21: the path iterator returns the stored prefixes of the path, shortest first. -/
def C21_Full : Prop := ∀ (ops : List (Op V)), Ordinary ops → ∀ i t m q,
  treeAfter ops i = some t → mapAfter ops i = some m →
  ∃ l, Ends (fun fuel => pathCollect (heapAfter ops) fuel (getPathIterator t q)) l ∧
    l.Perm (m.filter fun e => e.1 <+: q) ∧ l.Pairwise fun a b => a.1.length < b.1.length

/-- Position a lower bound iterator with `SeekLowerBound(k)` and call `Next` until it returns false. -/
def iterLowerBound {V : Type} (h : Heap V) (t : Tree) (k : Key) (fuel : Nat) : R (List (Key × V)) := do
  let st ← seekLowerBound h t.root k
  lbCollect h fuel st

/-- C23: `SeekLowerBound(q)` selects exactly the keys not below `q`, in ascending order. -/
def C23_Full : Prop := ∀ (ops : List (Op V)), Ordinary ops → ∀ i t m q,
  treeAfter ops i = some t → mapAfter ops i = some m →
  ∃ l, Ends (iterLowerBound (heapAfter ops) t q) l ∧
    l.Perm (m.filter fun e => cmpBytes e.1 q ≠ .lt) ∧ l.Pairwise fun a b => Key.lt a.1 b.1

/-- C24: a fresh reverse iterator returns every pair exactly once, descending. -/
def C24_Full : Prop := ∀ (ops : List (Op V)), Ordinary ops → ∀ i t m,
  treeAfter ops i = some t → mapAfter ops i = some m →
  ∃ l, Ends (fun fuel => revCollect (heapAfter ops) fuel (mkRevIter t.root)) l ∧
    l.Perm m ∧ l.Pairwise fun a b => Key.lt b.1 a.1

/-- Position a reverse iterator with `SeekReverseLowerBound(k)` and call `Previous` until it returns false.
`extra` are the bytes behind the end of the slice `append(k, '$')` in its backing array. -/
def iterReverseLowerBound {V : Type} (h : Heap V) (t : Tree) (k extra : Key) (fuel : Nat) :
    R (List (Key × V)) := do
  let it ← seekReverseLowerBound h (mkRevIter t.root) k extra
  revCollect h fuel it

/-- C25: `SeekReverseLowerBound(q)` selects exactly the keys not above `q`, descending. -/
def C25_Full : Prop := ∀ (ops : List (Op V)), Ordinary ops → ∀ i t m q extra,
  treeAfter ops i = some t → mapAfter ops i = some m →
  ∃ l, Ends (iterReverseLowerBound (heapAfter ops) t q extra) l ∧
    l.Perm (m.filter fun e => cmpBytes e.1 q ≠ .gt) ∧ l.Pairwise fun a b => Key.lt b.1 a.1

/-- Position a reverse iterator with `SeekPrefix(p)` and call `Previous` until it returns false. -/
def iterReversePrefix {V : Type} (h : Heap V) (t : Tree) (p : Key) (fuel : Nat) : R (List (Key × V)) := do
  let it ← revSeekPrefix h (mkRevIter t.root) p
  revCollect h fuel it

/-- C26: `Walk` with a callback that never stops visits every pair exactly once. -/
def C26_Full : Prop := ∀ (ops : List (Op V)), Ordinary ops → ∀ i t m,
  treeAfter ops i = some t → mapAfter ops i = some m →
  ∃ l, treeWalk (heapAfter ops) t (fun _ _ => false) = .ok l ∧ l.Perm m ∧ l.Pairwise fun a b => Key.lt a.1 b.1

/-- C27: `DeletePrefix` removes exactly the keys with the prefix. -/
def C27_Full : Prop := ∀ (ops : List (Op V)), Ordinary ops → ∀ i p m, mapAfter ops i = some m →
  ∀ t, (exec (execAll World.init ops).2 (.deletePrefix i p)).2.trees.getLast? = some t →
    ∀ k, treeGet (exec (execAll World.init ops).2 (.deletePrefix i p)).2.heap t k = .ok ((m.delPrefix p).get k)

/-- C28: the flag of `DeletePrefix`, and the length after it. -/
def C28_Full : Prop := ∀ (ops : List (Op V)), During (fun s op => op.legal s = true) SWorld.init ops →
  ∀ i p m, mapAfter ops i = some m →
  (exec (execAll World.init ops).2 (.deletePrefix i p)).1 = .flag (m.any fun e => p.isPrefixOf e.1) ∧
  ∀ t, (exec (execAll World.init ops).2 (.deletePrefix i p)).2.trees.getLast? = some t →
    treeLen t = (m.delPrefix p).length

/-! ### Sets of keys -/

/-- Insert the pairs one after the other into a new tree; the final tree has number `l.length`. -/
def inserts {V : Type} (l : List (Key × V)) : List (Op V) := .newTree :: l.zipIdx.map fun p => .insert p.2 p.1.1 p.1.2

/-- C40: inserting pairs with different keys in two orders gives the same answers of `Get` and `Len` and the
same iteration sequence. -/
def C40_Full : Prop := ∀ l l' : List (Key × V), l.Perm l' → (l.map (·.1)).Nodup →
  let w := (execAll World.init (inserts l)).2
  let w' := (execAll World.init (inserts l')).2
  (∀ k, (exec w (.get l.length k)).1 = (exec w' (.get l.length k)).1) ∧
  (exec w (.len l.length)).1 = (exec w' (.len l.length)).1 ∧
  ∀ t t', w.trees[l.length]? = some t → w'.trees[l.length]? = some t' → ∀ r,
    Ends (iterPrefix w.heap t []) r ↔ Ends (iterPrefix w'.heap t' []) r

/-- C41: inserting an absent key and deleting it again gives the same answers of `Get` and `Len` and the same
iteration sequence as before. -/
def C41_Full : Prop := ∀ ops : List (Op V), Ordinary ops → ∀ i k v m, mapAfter ops i = some m → m.get k = none →
  let w := (execAll World.init ops).2
  let n := w.trees.length
  let w' := (execAll w [.insert i k v, .delete n k]).2
  (∀ k', (exec w' (.get (n + 1) k')).1 = (exec w (.get i k')).1) ∧
  (exec w' (.len (n + 1))).1 = (exec w (.len i)).1 ∧
  ∀ t t', w.trees[i]? = some t → w'.trees[n + 1]? = some t' → ∀ r,
    Ends (iterPrefix w.heap t []) r ↔ Ends (iterPrefix w'.heap t' []) r

/-- C42: keys that continue a common prefix `P`, with any number of different next bytes, none of them a prefix of
another one, can be stored together; updating or deleting one of them does not affect the others. -/
def C42_Full : Prop := ∀ (P : Key) (l : List (Key × V)), (l.map (·.1)).Nodup → (∀ e ∈ l, ∃ b r, e.1 = P ++ b :: r) →
  (∀ e ∈ l, ∀ f ∈ l, e.1 <+: f.1 → e = f) →
  let w := (execAll World.init (inserts l)).2
  ∀ e ∈ l, (exec w (.get l.length e.1)).1 = .value (some e.2) ∧ ∀ d ∈ l, d ≠ e →
    (∀ v, (exec (exec w (.insert l.length d.1 v)).2 (.get (l.length + 1) e.1)).1 = .value (some e.2)) ∧
    (exec (exec w (.delete l.length d.1)).2 (.get (l.length + 1) e.1)).1 = .value (some e.2)

/-! ### Watches -/

/-- A tracked transaction on tree `i` that makes the calls `body` and commits.  `x` is its number. -/
def trackedTxn {V : Type} (i x : Nat) (body : List (Op V)) : List (Op V) :=
  [.begin i, .trackMutate x true] ++ body ++ [.commit x]

/-- An insert or delete of key `k` in transaction `x`. -/
def Op.touches {V : Type} (x : Nat) (k : Key) : Op V → Prop
  | .txnInsert y k' _ | .txnDelete y k' => y = x ∧ k' = k
  | _ => False

/-- A basic write of transaction `x`. -/
def Op.writeOf {V : Type} (x : Nat) : Op V → Prop
  | .txnInsert y _ _ | .txnDelete y _ => y = x
  | _ => False

/-- No tracking transaction other than `x` writes. -/
def Op.calm {V : Type} (w : World V) (x : Nat) (op : Op V) : Prop :=
  ∀ y (r : TxnRec), op.writes = some y → y ≠ x → w.txns[y]? = some r → r.st.trackMutate = false

/-- The call has nothing to do with a watch of key `k`: tracking transactions with numbers from `n` on write keys only
that are no prefixes of `k`, and of which `k` is no prefix; tracking transactions with smaller numbers do not notify. -/
def Op.Spares {V : Type} (n : Nat) (k : Key) (w : World V) : Op V → Prop
  | .commit x | .notify x => ∀ r : TxnRec, w.txns[x]? = some r → r.st.trackMutate = true → n ≤ x
  | .txnInsert x k' _ | .txnDelete x k' => n ≤ x → ∀ r : TxnRec, w.txns[x]? = some r → r.st.trackMutate = true → ¬ k <+: k' ∧ ¬ k' <+: k
  | _ => True

/-- Every call satisfies `P` at the moment it is made. -/
def DuringW {V : Type} [Inhabited V] (P : World V → Op V → Prop) : World V → List (Op V) → Prop
  | _, [] => True
  | w, op :: ops => P w op ∧ DuringW P (exec w op).2 ops

/-- C29: the channel returned by `GetWatch` for a present key is closed after a tracked transaction on the
same tree touched the key and committed. -/
def C29_Full : Prop := ∀ (ops body : List (Op V)) i k c v x, Ordinary ops →
  let w := (execAll World.init ops).2
  (exec w (.getWatch i k)).1 = .chan c (some v) → x = w.txns.length →
  (∀ op ∈ body, op.writeOf x) → (∃ op ∈ body, op.touches x k) →
  (execAll (exec w (.getWatch i k)).2 (trackedTxn i x body)).2.chans[c]? = some true

/-- C30: the same for an absent key that is inserted. -/
def C30_Full : Prop := ∀ (ops : List (Op V)) i k c v x, Ordinary ops →
  let w := (execAll World.init ops).2
  (exec w (.getWatch i k)).1 = .chan c none → x = w.txns.length →
  (execAll (exec w (.getWatch i k)).2 (trackedTxn i x [.txnInsert x k v])).2.chans[c]? = some true

/-- C31: the channel of `SeekPrefixWatch(p)` is closed by a tracked transaction on the same tree that inserts a key
below `p`, or deletes one that is present, if it does not panic. -/
def C31_Full : Prop := ∀ (ops body : List (Op V)) i p k c x, Ordinary ops →
  let w := (execAll World.init ops).2
  (exec w (.seekPrefixWatch i p)).1 = .watch c → x = w.txns.length → p <+: k → (∀ op ∈ body, op.writeOf x) →
  ((∃ v, .txnInsert x k v ∈ body) ∨ (.txnDelete x k ∈ body ∧ ∃ v, (exec w (.get i k)).1 = .value (some v))) →
  let r := execAll (exec w (.seekPrefixWatch i p)).2 (trackedTxn i x body)
  (∀ o ∈ r.1, ∀ e, o ≠ .panic e) → r.2.chans[c]? = some true

/-- C35: a tracked transaction that does not touch the present key `k` leaves its channel open. -/
def C35_Full : Prop := ∀ (ops body : List (Op V)) i k c v x, Ordinary ops →
  let w := (execAll World.init ops).2
  (exec w (.getWatch i k)).1 = .chan c (some v) → w.chans[c]? ≠ some true → x = w.txns.length →
  (∀ op ∈ body, op.writeOf x ∧ ¬ op.touches x k) →
  (execAll (exec w (.getWatch i k)).2 (trackedTxn i x body)).2.chans[c]? ≠ some true

/-- C36: the same as C29 if in between another tracked transaction on the tree wrote and was abandoned. -/
def C36_Full : Prop := ∀ (ops body aborted : List (Op V)) i k c v x, Ordinary ops →
  let w := (execAll World.init ops).2
  (exec w (.getWatch i k)).1 = .chan c (some v) → x = w.txns.length →
  (∀ op ∈ aborted, op.writeOf x) →
  (∀ op ∈ body, op.writeOf (x + 1)) → (∃ op ∈ body, op.touches (x + 1) k) →
  (execAll (exec w (.getWatch i k)).2
    ([.begin i, .trackMutate x true] ++ aborted ++ trackedTxn i (x + 1) body)).2.chans[c]? = some true

/-! ### Reads of snapshots -/

/-- Reading tree `t'` in heap `h'` gives the same as reading tree `t` in heap `h`: `Get`, `Minimum`,
`Maximum`, `LongestPrefix`, `Walk`, iterators with `SeekPrefix`, path iterators, reverse iterators; panics
included. -/
structure SameReads {V : Type} [Inhabited V] (h : Heap V) (t : Tree) (h' : Heap V) (t' : Tree) : Prop where
  get : ∀ k, treeGet h' t' k = treeGet h t k
  minimum : treeMinimum h' t' = treeMinimum h t
  maximum : treeMaximum h' t' = treeMaximum h t
  longest : ∀ k, longestPrefix h' t' k = longestPrefix h t k
  walk : ∀ fn, treeWalk h' t' fn = treeWalk h t fn
  iter : ∀ p fuel, iterPrefix h' t' p fuel = iterPrefix h t p fuel
  path : ∀ q fuel, pathCollect h' fuel (getPathIterator t' q) = pathCollect h fuel (getPathIterator t q)
  reverse : ∀ fuel, revCollect h' fuel (mkRevIter t'.root) = revCollect h fuel (mkRevIter t.root)

/-- The same for `SeekLowerBound`, and `SeekPrefix` and `SeekReverseLowerBound` of reverse iterators. -/
structure SameSeeks {V : Type} (h : Heap V) (t : Tree) (h' : Heap V) (t' : Tree) : Prop where
  lower : ∀ k fuel, iterLowerBound h' t' k fuel = iterLowerBound h t k fuel
  reversePrefix : ∀ p fuel, iterReversePrefix h' t' p fuel = iterReversePrefix h t p fuel
  reverseLower : ∀ k extra fuel, iterReverseLowerBound h' t' k extra fuel = iterReverseLowerBound h t k extra fuel

/-- The root of the tree has all ten bytes of its `partial` slice, or does not need them. -/
def Tree.Whole {V : Type} (h : Heap V) (t : Tree) : Prop :=
  ∃ n, h[t.root]? = some (.inner n) ∧ (n.part.length = maxPrefixLen ∨ n.partialLen = 0)

/-- C10 (answers of `Get` and `Len`): the clone answers as the original does. -/
def C10_Full : Prop := ∀ ops : List (Op V), Ordinary ops → ∀ i k, i < (execAll World.init ops).2.trees.length →
  (exec (exec (execAll World.init ops).2 (.cloneTree i)).2 (.get (execAll World.init ops).2.trees.length k)).1 =
    (exec (execAll World.init ops).2 (.get i k)).1

/-! ### Termination -/

/-- A computation with a loop bound ends, with a result or a panic: from some bound on the bound does not matter and
is not exhausted. -/
def Stops {α : Type} (f : Nat → R α) : Prop := ∃ r : R α, r ≠ .error .fuel ∧ ∃ n, ∀ fuel, n ≤ fuel → f fuel = r

/-- A non-empty chain of pointers (inner leaves and children) leads from node `a` to node `b`. -/
inductive PathTo {V : Type} (h : Heap V) : Nat → Nat → Prop
  | leaf (a : Nat) (n : Inner) (b : Nat) : h[a]? = some (.inner n) → n.leaf = some b → PathTo h a b
  | child (a : Nat) (n : Inner) (b : Nat) : h[a]? = some (.inner n) → some b ∈ n.children → PathTo h a b
  | trans (a b c : Nat) : PathTo h a b → PathTo h b c → PathTo h a c

/-- The loop bounds that the model gives to the readers are never exhausted in heap `h`, and every iterator, whatever
its state, reaches its end. -/
structure ReadsStop {V : Type} [Inhabited V] (h : Heap V) : Prop where
  get : ∀ t k, treeGet h t k ≠ .error .fuel
  minimum : ∀ t, treeMinimum h t ≠ .error .fuel
  maximum : ∀ t, treeMaximum h t ≠ .error .fuel
  longest : ∀ t k, longestPrefix h t k ≠ .error .fuel
  walk : ∀ t fn, treeWalk h t fn ≠ .error .fuel
  seek : ∀ it p, seekPrefix h it p ≠ .error .fuel
  lower : ∀ a k, seekLowerBound h a k ≠ .error .fuel
  reverseSeek : ∀ it p, revSeekPrefix h it p ≠ .error .fuel
  reverseLower : ∀ it k extra, seekReverseLowerBound h it k extra ≠ .error .fuel
  next : ∀ it, Stops fun fuel => iterNext h fuel it
  iter : ∀ it, Stops fun fuel => iterCollect h fuel it
  pathNext : ∀ it, Stops fun fuel => pathNext h fuel it
  path : ∀ it, Stops fun fuel => pathCollect h fuel it
  lowerNext : ∀ it, Stops fun fuel => lbNext h fuel it
  lowerIter : ∀ it, Stops fun fuel => lbCollect h fuel it
  previous : ∀ it, Stops fun fuel => revPrevious h fuel it
  reverse : ∀ it, Stops fun fuel => revCollect h fuel it

/-- C43: in every history no call exhausts a loop bound; in the heap it leaves no node reaches itself and every read
ends. -/
def C43_Full : Prop := ∀ ops : List (Op V),
  (∀ o ∈ (execAll World.init ops).1, o ≠ .panic .fuel) ∧
  (∀ a, ¬ PathTo (execAll World.init ops).2.heap a a) ∧
  ReadsStop (execAll World.init ops).2.heap

end Art
