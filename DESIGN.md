# Design

Subject: `absolutelightning/go-immutable-adaptive-radix`, a persistent adaptive radix tree in Go with
copy-on-write transactions and per-node watch channels.  The code was read, not run.

## Layout

| File | Content |
| --- | --- |
| `lean/Verif/Model/Basic.lean` | bytes, heap cells (the five node structs), Go run-time helpers, accessors, store, monad |
| `lean/Verif/Model/Txn.lean` | helpers.go, txn.go: search, split, grow, shrink, copy-on-write, Insert, Delete, DeletePrefix, Notify |
| `lean/Verif/Model/Tree.lean` | tree.go: constructor, Get, GetWatch, LongestPrefix, Minimum, Maximum, Walk, transaction life cycle |
| `lean/Verif/Model/Iter.lean` | iterator.go, path_iter.go, lower_bound_iterator.go, reverse_iterator.go |
| `lean/Verif/Model/World.lean` | a program: many trees and transactions, arbitrary interleavings of API calls |
| `lean/Verif/Model/Extra.lean` | reads of running transactions, DFS, watches of reverse iterators |
| `lean/Verif/Model/Slice.lean` | byte slices with backing arrays, `append`, for the aliasing of keys |
| `lean/Verif/Model/Pool.lean` | goroutines with transactions of their own, scheduled step by step, started at any time |
| `lean/Verif/PoolSpec.lean` | what goroutines are compared with: their calls as a history, their lineage |
| `lean/Verif/Model/Conc.lean` | step machines for the lock-free channel creation and the notify loop |
| `lean/Verif/Model/Handle.lean` | iterators as objects on which calls are made one after the other |
| `lean/Verif/Model/Leak.lean`, `LeakSpec.lean` | calls on the private tree of a running transaction, and which of them are ordinary use |
| `lean/Verif/Model/Front.lean`, `FrontSpec.lean` | `Front` and `Path` of iterators, and what they should return |
| `lean/Verif/Model/Buffer.lean`, `BufferSpec.lean` | iterators whose prefix lies in an array of the caller, and what they should return |
| `lean/Verif/Model/Share.lean`, `ShareSpec.lean` | goroutines that call `Get` with slices of one array |
| `lean/Verif/Model/Mixed.lean`, `MixedSpec.lean` | goroutines that make several kinds of reading calls with slices of one array |
| `lean/Verif/Model/Rounds.lean`, `RoundsSpec.lean` | goroutines that make any reading calls, with `SeekLowerBound` among them |
| `lean/Verif/Spec.lean` | the specification: an association list with insert / delete / lookup, prefixes, byte order |
| `lean/Verif/Proofs/*.lean` | helper lemmas |
| `lean/Verif/Proofs/{Fuel,Sound,WorldAll}.lean` | invariants of all histories |
| `lean/Verif/Proofs/{Iso,IsoTxn,WorldIso,SeenIso,Congr*,Snapshot,Twin}.lean` | isolation |
| `lean/Verif/Proofs/Watch.lean`, `Label*.lean` | watches on broad histories |
| `lean/Verif/Proofs/{Pair*,Pool*,Session}.lean` | goroutines at the same time |
| `lean/Verif/Props/{RepoTests,RepoWatch}.lean` | the repository's own tests, run on the model |
| `lean/Verif/Props/*.lean` | the property theorems, counterexamples and their non-vacuity examples |

## The model

The model is at the level of the heap.  A pointer is an index into a list of cells, a cell is one of the Go
structs with the fields the code reads (`id`, `partial`, `partialLen`, `numChildren : uint8`, the `keys` and
`children` arrays of each node kind, `leaf`, `mutateCh`).  Copy-on-write is modelled as it is: by comparing
node ids with `oldMaxNodeId`, in-place writes otherwise, so aliasing mistakes would be visible.  Mutating
code is a function on stores that returns a value or a panic, and the writes made before a panic stay; it also lists
its writes one by one.
Reads are pure functions of the heap that return a value or a panic.  Out-of-range indices, nil
dereferences and failed type assertions are panics (`Err`).  Loops and recursions whose bound is not
structural take `fuel`; running out of fuel is its own error (`Err.fuel`), never a normal result.

Simplifications, each repeated at the definition it concerns:
* `partialLen` (uint32) and `id` (uint64) are unbounded naturals; `numChildren` and sizes wrap as in Go.  For `partialLen` this assumes
  keys shorter than 2^32 bytes, and that the sums in the collapse of a Node4 (helpers.go:402-415) stay below 2^32: deleting and
  inserting again and again below the same wrapper leaf adds the length of the prefix each time.
* The type parameter `T` is an arbitrary Lean type with a zero value (`Inhabited`).
* Slices of bytes are lists; the aliasing of the array behind a key is modelled apart (`Slice.lean`).
* The one place where the code can slice a key beyond its length (`splitLong`, txn.go:227-233) bounds the slice
  by an unknown capacity: the bytes behind the key are an uninterpreted constant (`spareBytes`), so that nothing
  proved depends on what the allocator left there.
* API calls are made one after the other in `World.lean`.  The single writes to memory inside a call are recorded
  (`M.seen`; that none is missing is part of the definition of `M`, field `trail`), and C57 and C58 are about readers that
  look at the nodes between them.  A write is a write of a whole node: where the code assigns several fields one after the
  other, the model may show only the last of these states (no reader can look at such a node, by C58), and where the code
  stores a value that was there already, the model shows a write that changes nothing.  Goroutines that are inside writing
  calls at the same time, on different transactions, are modelled in `Pool.lean` (see below); the two places where the code
  intends concurrent use of the same object (channel creation, closing channels) have their own step machines in `Conc.lean`.
* `Txn.GetTree` and `Txn.Root` leak the private tree of a transaction; it is modelled as what a reader sees at the
  moment of the call (`TxnSt.getTree`), not as a pointer that follows later writes.  Calls on it that make a new tree or
  transaction are in `Leak.lean`.
* Not modelled: the formatting of `DFSPrintTree` (its lines are data, Model/Print.lean), `recurseMin` (dead code).

## Disagreements between the code and the properties

Many of the properties are false of the code as written.  For those the negation is proved with a concrete
reachable witness (a history of API calls evaluated by the kernel) and a `_partial` theorem gives the part
that does hold.  Found while modelling:

* Delete of an absent key drops the subtree where the search stops; on a root it empties the tree.
* Insert over a key stored on an inner node reports "not updated" and increments Len.
* Insert panics (type assertion) when a stored key is the new key followed by `$`.
* An empty tree has a phantom leaf: Minimum, LongestPrefix, iteration and Walk return it.
* LongestPrefix returns the root leaf without checking it, depends on slot order and on stale slots.
* removeChild4/16 leave a stale pointer in slot `numChildren`, which Walk, LongestPrefix and DeletePrefix read.
* Walk passes the zero value, skips keys on inner nodes.
* Iteration order is wrong when keys continue with bytes below `$`.
* The 256th child wraps `numChildren` to 0; a deletion below such a node then drops the whole node (txn.go:344).
* DeletePrefix keeps keys on inner nodes, does not move the `keys` array, drops children of wide nodes.
* SeekLowerBound returns keys below the bound, and panics in several cases.
* The reverse iterator emits a key before its extensions and the empty key twice.
* A transaction reused after Commit writes into the committed tree; Txn.Clone shares owned nodes.
* DeletePrefix("") on the empty tree counts the phantom leaf: Len becomes 2^64-1.
* Watches: prefix longer than 10 bytes, abandoned tracked transactions, spurious firing.
* Two concurrent notifications can close a channel twice.
* RadixTree.Clone repairs a root whose `partial` slice is nil, so that clone and original can differ (C10).
* An iterator cannot be positioned a second time: a forward one seeks from where it stopped, a reverse one finds nothing or panics.
* `append(key, '$')` writes into the caller's array when the slice has spare capacity.
* Returned keys are windows into the tree: `Get(k[:n])`, `append(k, b)` and `k[i] = b` destroy the stored key.
* A tree made with `txn.GetTree().Insert(k, v)` goes on changing with the transaction.
* `Front` of an iterator is always nil; the helper `hasAnyClosedMutateCh` of the tests therefore never finds a closed channel.
* A caller that writes to the slice it passed to `SeekPrefix` while it uses the iterator changes what `Next` returns; with `PathIterator` and `SeekReverseLowerBound` this depends on the spare capacity of the slice.
* Two goroutines that only call `Get`, with overlapping slices that have spare capacity, can disturb each other: `Get` writes `'$'` behind its key.
* The same holds between `Get` and `LongestPrefix`, and both disturb a running `SeekPrefix`; `SeekPrefix` disturbs nobody.
* `SeekLowerBound` disturbs the others in the same way, and is disturbed by them, unless its slice is empty.

## Isolation

`Proofs/Iso*.lean` show for every mutating function, by a relational triple (`Tr`), that it writes only to
nodes the transaction owns or allocates, apart from watch channels.  `WorldIso.lean` turns this into an
invariant of the whole program (`INV`): every tree and transaction has a closed set of nodes; what a live
transaction owns is in no other set.  It holds for all lawful histories (no write to a transaction after
Commit, or Txn.Clone if it had written before), whatever the keys, and across panics.  `Congr*.lean` show that every read depends only
on the nodes of such a set, up to watch channels.  C06, C08, C11 and the partial C09, C10 follow.

## Goroutines at the same time

Besides its meaning as a function on stores (`M.run`) and the list of its writes (`M.seen`), mutating code has a form that is
cut into single steps (`M.code : Code`, a tree of steps with continuations); that all three agree is part of the definition
of `M` (fields `trail`, `runs`, `sees`), so the step form is not a second model.  A step reads one node, writes one node,
stores or claims one channel (atomically), allocates a node, makes a channel, tests or closes a channel, works on the goroutine's own
transaction, or starts or ends a function that only reads.  In a pool (`Model/Pool.lean`) goroutines share heap and channels, and
a schedule is any list of events:
* `step i`: goroutine `i` takes its next step;
* `look i a`: goroutine `i`, being inside a function that only reads (search, minimum, prefix comparison), sees node `a` as it
  is now.  At the start of such a function all nodes are seen; what it computes depends on what was seen last of each node, so
  every combination of moments is covered;
* `chan a k`: somebody outside of the pool sets the channel of node `a` (for example through a watch).
`getMutateCh` (node_4.go:151-166 and its siblings) is a load, making a channel, a compare-and-swap (`claim`) and, when this fails, one
more load (`load`), each a step of its own.  The second load may find a later channel than the one that made the compare-and-swap fail,
if a tracking transaction has replaced it meanwhile.  `Notify` (also inside `Commit`) looks at a channel
(`test`) and closes it (`shut`) in two steps.  If another goroutine has closed it in between, the goroutine has crashed
(`Proc.crashes`): in Go the whole program ends with "close of closed channel"; in the pool the goroutine is stuck, so that
claims about the others hold up to that moment.  C37 and C38 are about the same two places on step machines of their own (`Conc.lean`);
C71 to C75 and C77 are about whole goroutines.
A write of a node writes its channel field as well; by C67 nobody else has a pointer to that node then.
`Pair` relates heaps up to channels, and lets the two sides make, claim, store, test and close channels independently, so C65 and C68
do not say which channel a node has.  For C74 the channels with numbers below a limit (`Lim.limit`, the number of channels at the start)
are compared as well: where the run alone has such a channel in a node, the schedule has it, too.  `Firm` (Proofs/Firm.lean) says that code run alone
makes and claims only new channels, and closes only channels on its list.  With the limit 0 nothing is compared (`lax`), as in all earlier claims.

A team is a pool that grows: `start none g` starts a goroutine that knows the trees of the history, `start (some i) g` one
that knows the trees that goroutine `i` knew and the tree that it has returned (nothing happens if it has not returned yet).
`lineage` gives for every goroutine the history that it continues: `ops`, then the calls of the goroutine from which it was
started (which come after that one's own past), and its own work.  C68 compares a goroutine with its lineage executed by
`World.lean`, so goroutines that are no ancestors do not matter at all.

`Proofs/Pair.lean` defines the relation between two runs that differ by an injective renaming of nodes, and the other `Pair*`
files prove it of every function.  A goroutine of the pool is compared with the same goroutine alone: the nodes that it
allocates have other addresses, the rest is the same (`Mirrors`, `PInv`).  `Proofs/Session.lean` shows that a goroutine alone is the same as
its calls made one after the other in `World.lean`, so that all the other properties apply to it.

## Clean and broad histories

The refinement to a map holds for histories that avoid those defects (`Clean`, in `Spec.lean`).  The conditions are
stated on the specification side (on keys and on the abstract map), never on the heap:
* keys come from a set in which no `k$` is a prefix of another key, and some byte never follows a given
  prefix (both hold if no key contains `$` or 0xFF);
* Delete is only called on present keys;
* Insert does not overwrite a present key that is a proper prefix of another present key;
* a transaction that deleted its last key is not used for further inserts;
* fewer than 2^63 keys.

`Broad` histories drop the third condition: any present key may be overwritten.  If the key is a proper prefix of
another one, Insert may report it as new and count it again (whether it does depends on where the key is stored).  So in
broad histories contents, reads and watches are as specified, Insert returns the old value or (zero, false) for such
keys, and Len is at least the number of keys.  Inserting into a tree that is empty again but reports a size is excluded
(the code then takes another path), so `Op.Broad` mentions the reported size.  Every clean history is broad
(`clean_broad`).  `Clean` is kept for C02, C05 and the Len parts of C04, C28, C40, C41.

`Rep*.lean` hold the representation invariant and the effect of Insert, Delete, SeekPrefix and iteration on it,
`Refine*.lean` the simulation of `sexec` by `exec`, `Clean*.lean` and `Order.lean` the consequences for reads.
`Map.Compatible` is the condition on a set of keys under which it can be built by insertions, `Map.Ordered` says that
no key is continued by a byte below `$`; ordered iteration, Minimum and Maximum need the latter.

## Stale slots and node sizes

`LongestPrefix`, `Walk` and `DeletePrefix` read the child *slots* of a node and not only the first `numChildren`
edges.  `removeChild` leaves a stale pointer in the last slot, so these reads need more than `Rep`.
* `Inner.Tidy` (`Proofs/Layout.lean`): no slot outside the edges holds a pointer.  It is part of `Rep` for trees that
  never lost a key (`Inner.Fork`, see below).
* `Dense`: a `Node16` has at least 4 children, a `Node48` at least 13, a `Node256` at least 38.  So the statement-level
  condition `Map.Narrow m 12` (no prefix is continued by more than 12 bytes) excludes `Node48` and `Node256`, whose
  slots are not in key order.
* `Proofs/Slots.lean` gives the slots of a tidy node as a permutation of its edges, and `Walk`; `Proofs/Longest.lean`
  gives `LongestPrefix`.
* `DeletePrefix` is outside `Rep`: it leaves nodes without children and without a leaf.  `Proofs/DelPrefix.lean` and
  `Pruned.lean` describe such nodes (an emptied node answers every search with nothing), `Prune.lean` proves by
  induction over `Rep` what the recursion returns (`Outcome`: removed, untouched, or rebuilt with the same edges),
  `PruneTxn.lean` lifts this to `Txn.DeletePrefix` and `RadixTree.DeletePrefix`.

## Positioned iterators

`SeekLowerBound` and `SeekReverseLowerBound` rely on fields that nothing else reads (the prefix length of a leaf
wrapper, the number of children of a node).  These are fixed as long as nothing was ever removed.  The class `Removals`
is a parameter of `Rep`: with `Removals.allowed = False` it also records that a wrapper is a `Node4` with prefix length 0
or 10 (`Inner.Wrap`), that a node without a leaf has two children and that all nodes are tidy (`Inner.Fork`).
Which trees and transactions never lost a key is a matter of their lineage: `Marks` (in `Spec.lean`) follows it call by call
(a deletion that empties the tree starts anew), and `Uncut ops i`, `UncutTxn ops x` are the resulting conditions of the
theorems.  `RefinesBy` (`Proofs/Refine3.lean`) is the simulation relation with one value of `Removals.allowed` per view,
`Proofs/Lineage.lean` ties these to the marks.  `Careful` histories may also delete absent keys, in uncut trees, if the search for
them stops inside shared bytes (`Map.Misses`).
`Map.Bounded` are the conditions on keys and bound under which the reverse search is right: a bound of at most nine
bytes, keys that part within the length of the bound, no byte below `$` after a key on the bound, no key that continues
the bound with `$`.  `Proofs/RevBound.lean` follows the search along the bound.
`Map.Branching` are those for the forward search: keys that share a prefix of the bound do not all continue with the same
byte (so no node on the way has a compressed prefix: skipping one makes the code believe that it left the bound),
different keys share at most ten bytes (so prefixes are stored in full).  `Proofs/LowBound.lean` follows this search.

## Watches

`Proofs/Watch.lean`: a watch handed out for a key or a prefix is the channel of a cell on the search path, or was
taken by the tracked transaction (`Waits`).  Reads, other transactions and untracked writes keep it there (they copy
the channel together with the node), a write of the tracked transaction on that path puts it into the slice
(`Fired`), Commit closes the slice.  Closed channels stay closed in all histories (`closed_forever`).  The watch
theorems ask that no *other* tracking transaction writes between watch and commit: such a transaction replaces the
channel and may be abandoned, which is exactly `C36_false`.

Watches that must stay open (C35, `Proofs/Label*.lean`): in every history two cells with the same channel are leaves
with the same key, or inner nodes (`Lab`).  A channel that belongs to the leaf of `K` is put into the slice of a
transaction only when a leaf with key `K` is tracked; `Label*.lean` go through all functions that write and show that on
the path of a key apart from `K` no such leaf is tracked (`Spared` is the resulting invariant of programs).  Keys that
are prefixes of `K` or continue it are excluded: for some of them the code does track the leaf of `K` (`C35_false`).

## Termination

`Proofs/Rank*.lean`: in every heap of every history there is a rank function under which pointers go down
(`Ranked`), so no node reaches itself.  In-place writes only store pointers to nodes of smaller rank; `split` and
`addChild` need a rank strictly between two others, so ranks are spread (`Ranked.spread`) before each insertion.  The
rank bounds recursion depth (`minimum`, `maximum`, `recursiveWalk`, ...), and the stacks of iterators decrease in the
multiset-like order `StkLt`.  Searches end because the depth into the key grows.  This justifies every loop bound of
the model: `Err.fuel` is not a possible result.

## The repository's tests on the model

`Props/RepoTests.lean` and `Props/RepoWatch.lean` run the repository's tests on the model: 111 table entries (trees of up
to 275 keys), nine tests of transactions and watches written as histories, the two tests that only insert (654 and 270
inserts), and the tests over word and UUID files with a part of the keys (insert all, then look up and delete one by one).
All of them give the result that the Go test demands.  They are evidence that the model was transcribed correctly, and
prove no property: no theorem uses them, so the long ones are evaluated with `#guard`.  Left out are the random tests and
two tests with too many keys.  The calls of `hasAnyClosedMutateCh` in the tests check nothing, since its loop ends when
`Front` is nil (C83).

## Tests against wrong programs

`seeded/LOG.jsonl` has one line per edit of the model that was tried in a scratch copy.

## Plan per property

| Id | Modelled by | Proof |
| --- | --- | --- |
| C01 | `exec` histories, `treeGet` | heap representation invariant `Rep`, refinement by induction over histories; negations by witness |
| C02 | results of `txnInsert` | same refinement (exact on clean, up to shadowed keys on broad histories); negation |
| C03 | results of `txnDelete`, `treeGet` | same refinement; negation |
| C04 | `txnDelete` | negations; partial: the empty tree; keys whose search stops inside bytes that the stored keys share (`Map.Misses`), in trees that never lost a key: `recursiveDelete` then returns without a write, `Delete` does what `Clone` does, and such calls can be replaced in any history (`C04_careful_partial`) |
| C05 | `treeLen` | refinement (exact on clean, a lower bound on the reported Len on broad histories); negation |
| C06 | `World`, all readers | ownership invariant over all histories; readers depend only on reachable cells modulo channels |
| C07 | `World` | negation by witness (transaction written to after Commit); partial: all lawful continuations |
| C08 | `World` | ownership invariant |
| C09 | `txnClone` | negation; partial: writes through the clone do not reach the original; if the original had not written before, both may go on writing (`C09_untouched_partial`: such an original owns no node, so it is not marked as copied) |
| C10 | `treeClone` | negation; partial: all readers modulo the root's address and channel (`Twin`, `Swap`), ownership invariant |
| C11 | `World` | ownership invariant |
| C12 | all `Err` results | negations; partial: no panic on broad histories |
| C13 | all leaf cells | invariant over all histories |
| C14 | `txnGet` | refinement; negation |
| C15-C17 | `iterCollect`, `seekPrefix` | `Rep` gives the entries in traversal order; induction over the stack |
| C18, C19 | `minimum`, `maximum` | first / last entry of `Rep` |
| C20 | `longestPrefix` | negations; partial: broad histories, trees that never lost a key, prefix-free or ordered narrow trees |
| C21, C22 | `pathCollect` | C22 invariant over all histories; C21 negation (order), partial from `Rep` |
| C23 | `seekLowerBound` | negations; `C23_partial`: empty bound, from `Rep`; `C23_bound_partial`: broad histories, trees that never lost a key, bounds at which the keys branch (`Map.Branching`) |
| C24 | `revCollect` | negation; partial: nonempty broad trees without the empty key; order for prefix-free keys |
| C25 | `seekReverseLowerBound` | negation; partial: broad histories, trees that never lost a key, bounds that suit the keys (`Map.Bounded`) |
| C26 | `treeWalk` | negation; partial: broad histories, trees that never lost a key (keys that are no prefixes of others); `C26_cut` shows that a walk visits a key twice otherwise |
| C27, C28 | `txnDeletePrefix` | negations; `C27_partial`, `C28_partial` and versions in transactions, on broad histories, for trees that never lost a key; `C27_last`, `C27_wide`, `C28_empty`, `C28_cut` show that the conditions are needed |
| C29, C30 | channels in cells, `trackChannel`, `slowNotify` | negations; partial: broad histories (C30: stored keys of at most ten bytes) |
| C31 | as C29 | `C31_false` (a Delete of an absent key in the transaction loses the tree first); partial: broad histories |
| C32-C34 | `chans` | invariants over all histories |
| C35 | `chans`, leaf keys of channels | negation; partial: broad histories, tracked writes of keys apart from the watched one; that the channel is open at first comes from C52 |
| C36 | `chans` | negation; partial: abandoned transactions without tracking |
| C37 | `Notifiers` (Conc.lean) | negation by schedule; partial: undisturbed schedules, or no shared channel |
| C38 | `Watchers` (Conc.lean) | invariant over all schedules |
| C39 | `Prog` (Slice.lean) | two negations; partial: slices without spare capacity |
| C40, C41 | `exec` histories | negations; partial: corollaries of the refinement |
| C42 | `numChildren : UInt8` | negation: with 256 children the count is 0 and a deletion below one child loses the tree (Proofs/Wide.lean, abstract: too large to compute); partial: prefix-free keys that leave one next byte unused after every prefix |
| C43 | loop bounds (`fuel`), pointers of cells | every node has a rank above its pointers, in all histories |
| C44 | all readers | invariant over all histories |
| C45 | length of the heap | each mutating function allocates at most so many cells (`Grows`, Proofs/Grow.lean); witness for DeletePrefix |
| C46 | `exec` of commit, `TxnSt.getTree` | the commit shares the root of the transaction |
| C47 | `chans` | invariant over all histories |
| C48 | readers applied to `TxnSt.getTree` | `TxnOK.view` gives the abstraction of a running transaction; the reader theorems apply to it |
| C49 | `revSeekPrefix`, `revCollect` | where `SeekPrefix` stops all keys below have the prefix (`Rep.seekAll`); what `Previous` skips (`Rep.revIn`) |
| C50 | all readers | in a well-shaped heap (C51) no reader step indexes past an array or follows a wrong pointer (`Calm`), and C43 ends the loops; `Get` needs ten prefix bytes at every node with a prefix, which only a transaction emptied by a deletion can break |
| C51 | the whole writer code | `Sane`: an invariant of every single step of every call (`Ts`), so it also holds where a call panics; `Delete` needs in addition that the heap is acyclic (C43).  It discharges the remarks in the model that a child is never a bare `NodeLeaf` and that the child count fits the array |
| C52 | `trackChannel`, `slowNotify`, `clone`, the readers with watch | `Lone`: the channel of a leaf is neither closed nor on the list of a transaction, and no other node has it (leaves are never cloned with their channel).  Carried through every step of every call next to `Sane`.  False for inner nodes: witness `staleBodies` |
| C53 | the same | a channel's label (the key of the leaf, or "inner node") never changes (`Lab`, `OnlyAt`), and `Sane` says which sort of node a search or seek stops at |
| C54 | `TrackMutate`, `Txn.Clone`, `Notify`, `Commit` | each call changes the flag `trackMutate` of a transaction only if it is `TrackMutate` on it (`exec_flags`); without the flag `Notify` does nothing |
| C55 | the ends of `Txn.Insert`, `Txn.Delete`, `Txn.DeletePrefix`; `CommitOnly`, `GetTree` | the recursive parts leave both counters alone (`Step.sizes`), the ends change both alike (`Counts`); the counters are equal in all histories (`Evens`) |
| C56 | `beginTxn`, `txnClone` | negation (damaged root); partial: a fresh copy of a root reads like the root, by the same lemmas as C10 (`clone_reads`), in all histories since the heap is acyclic in all of them (`Ranked`) |
| C57 | `M.seen`, `execSeen`: every single write of a call, and the heap it results in | a reader's heap takes each node from the heap of any moment (`Mixed`); the isolation triples (`Tr`, `TrT`) also bound every write on the way (`Cx.Wr`), not only the final heap; negation for unlawful histories |
| C58 | the same, with the address of each write and whether it is an atomic channel store | plain writes go to owned or new nodes (`Cx.Own`), which no tree can reach |
| C59 | `searchWatch` (`iterativeSearchWithWatch` by itself), `exec` of the four calls | equal to `search` on well-shaped heaps (C51's invariant: children are inner nodes) |
| C60 | `iterNext` in any state | induction over the loop; keys in memory end in `'$'` or are empty (`inserted_all`); negation: `SeekPrefix("foo$")` finds `foo` |
| C61 | `revPrevious` in any state | induction over the loop; negation: `SeekReverseLowerBound("a")` returns `a$b` |
| C62 | `longestPrefix` | induction over the loop; negation: the leaf of the root is returned unchecked |
| C63 | `treeWalk` for arbitrary callback functions | the walk with the function that never stops determines all others; it returns by C50 |
| C64 | `treeDFS` | the nodes of the representation (`Rep.dfs`) are those that lookups of bytes lead to (`Rep.leads`); negations: Node256, and Node48 after a deletion |
| C65 | `Pool` (Model/Pool.lean): goroutines whose code (`M.code`) is cut into single steps | `Pair`: the code of a goroutine and its renamed copy do the same steps in heaps that are the same up to the renaming of nodes (`Proofs/Pair*.lean`, for every function of the writer and of the readers); `Mirrors`: in every schedule each goroutine mirrors the run in which it is alone |
| C66 | the same, infinite schedules | induction over the code; nothing in it waits |
| C67 | the same; `Proc.writes`, `Proc.reads` | the run alone writes to nodes that it has made itself (C57's record of writes), and the renaming takes these to nodes that the goroutine has made in the pool |
| C68 | `Team` (Model/Pool.lean): pools in which goroutines are started during the run; `lineage` (PoolSpec.lean): the history that each one continues | `TInv` (Proofs/PoolWorld.lean): every goroutine mirrors the run of its lineage alone; when one returns, its nodes become part of what later ones may read.  C65 is the case in which all starts come first |
| C69 | the same | C66 and C67 are the special cases |
| C70 | the same, against `sexecAll` | negation with one goroutine; partial: C68 and the refinement of the lineage (`Clean.view`, `Broad.view`) |
| C71 | `Team`; `Code.test`, `Code.shut`: `isClosed` and `close` are two steps, closing a closed channel is a crash | negation by a schedule of two tracking goroutines (`clash`); partial: `Neat` (Proofs/Ring.lean) says that code closes only what it has just found open and has on its list; with at most one such goroutine nobody comes in between (`Team.Safe`) |
| C72 | the same | `Neat` of every goroutine at every moment (`Team.Neat`) |
| C73 | the same | `Neat` with the set of channels known to be closed: a channel leaves the list only if it is in that set, and at the end the list is empty |
| C74 | the same; watchers outside of the team set the channel of a node only if it has none (`Sole.fills`) | `Pair` with the old channels compared (`Lim`): the node in the schedule has every old channel that its counterpart alone has, so the goroutine tracks all it tracks alone (`St.Marked`), and C73 |
| C75 | the same, after a watch in the history | C74 with C29 to C31 for the goroutine alone |
| C76 | `treePrint` (Model/Print.lean): the printed lines as data, with the effects of `getMutateCh`; `Line.Of`, `Line.Shows`, `Printed`, `Lit` in PrintSpec.lean | recursion along the rank that shows the heap acyclic (C43), pointers lead to nodes (C51); for "once" the slots of a tidy node are its edges (`slotEdges`, as in C26) |
| C77 | teams of goroutines step by step (Model/Pool.lean), `Honest` in PoolSpec.lean | `Code.Mind` (Proofs/Mind.lean): every code that a transaction runs uses only channels that exist, and stores a channel into an old node only when the channel it has read there is on its list; lifted to teams in Proofs/MindPool.lean. False in general (`C77_false`, lost wake-up between `trackChannel` and `Commit`), and with two tracking goroutines (`C77_wide_false`) |
| C78 | `fwdCalls`, `lowCalls`, `revCalls` (Model/Handle.lean): sequences of calls on one iterator, with the fields that one call leaves for the next | `Fold h S`: a set of nodes that is closed under own leaves and live children; each method keeps node and stack in it (Proofs/Handle.lean); the nodes and leaves of a tree of a broad history are such a set, and its leaves hold the pairs of the map (`ViewOf.pairs`). False for the empty tree (`C78_false`) |
| C79 | as C78; `lowLoop` is `lbLoop` with the information whether line 212 set `i.node` to nil (`lowLoop_fst`) | which fields each method reads and writes (Proofs/Handle2.lean). False for all three iterators: `SeekPrefix` starts at the node where the one before stopped, `SeekLowerBound` may set the node to nil, `SeekReverseLowerBound` always does |
| C80 | `overCalls` (Model/Handle.lean): each call on the iterator with the heap that it sees; `Mixed` (C57), `Glimpse` (moments of a schedule) | sequences of calls depend only on the nodes of the tree, up to channels (Proofs/Held.lean, with the lemmas of Congr2 and Congr3); no write touches these (C57, C68) |
| C81 | `Use`, `Prog.kept`, `Prog.reveal` (end of Model/Slice.lean) | three negations; partial: `append` of `'$'` to a whole returned key writes the byte that is there (Proofs/Kept.lean, with `leafKey_form`) |
| C82 | `execCall` (Model/Leak.lean): calls on `GetTree()`; `Polite` (LeakSpec.lean) | one negation; partial: `RadixTree.Txn` of the private tree is `Txn.Clone` (the two lengths are equal by C55), so a program without such calls, with other numbers for the transactions, has the same memory and trees (`Mimics`, Proofs/Leak.lean); then C06 and C08 |
| C83 | `fwdObjCalls`, `lowObjCalls` (Model/Front.lean): iterators with the fields `pos` and `path`; `hasAnyClosedMutateCh` of the tests | two negations; `Front` is always nil and what `Path` returns, by induction on the calls (Proofs/Front.lean) |
| C84 | `fwdBuf`, `revBuf`, `revLowBuf`, `pathBuf` (Model/Buffer.lean): the prefix of an iterator is read from the array of the caller with every call | four negations; unchanged results if the window is not written to, by induction on the actions; only pairs of the tree with the sets of Proofs/Handle.lean (Proofs/Buffer.lean) |
| C85 | `askStep`, `askRun` (Model/Share.lean): calls of `Get` by several goroutines, step by step, with their keys in shared arrays; a step is the `append` or a round of the search (C85_key: the key does not change within a round either) | negation with a schedule; invariant on the arrays and windows (Proofs/Share.lean); C85_needed: the condition on the slices is needed |
| C86 | `mixStep`, `mixRun` (Model/Mixed.lean): as C85, with calls of `Get`, `LongestPrefix` and `SeekPrefix`; a step is the beginning of the call or a round of its loop | negations with schedules; rounds make up the loops of the model, then the invariant of C85 (Proofs/Mixed.lean); C86_needed: the condition on the slices is needed |
| C87 | `Reading`, `readStep`, `readRun` (Model/Rounds.lean): any reading call, given by whether it appends, what it reads first and a round of its loop; instances for the calls of C86 and `SeekLowerBound` (`lbRound`) | negations with schedules; the invariant of C85 for any `Reading`, then the rounds make up the calls of the model (Proofs/Rounds.lean) |

## Trusted base

* Lean 4.33.0 kernel; the axioms `propext`, `Classical.choice`, `Quot.sound` at most (checked with
  `#print axioms` for every property theorem).
* The reading of the Go code behind the model: every definition cites file and lines.  The repository's tests pass on
  the model.
* Go semantics assumed: slices, `copy`, `append`, `sort.Search`, `bytes.Compare`, maps as finite maps with
  the iteration order irrelevant where they are used, channels as open/closed flags.
