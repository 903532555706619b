{"id": "C01", "title": "Get returns the latest write", "statement": "After any sequence of Insert and Delete calls (directly on trees, or inside transactions that are then committed), Get(k) on the resulting tree returns (v, true) when the last Insert/Delete of k was Insert(k, v), and (zero, false) when k was never inserted or its last operation was Delete(k).", "quantifier": "every finite history of Insert/Delete/Txn/Commit calls, every key (any bytes, any length), every value, every queried key", "why_tests_cant": "the tree shape (node kinds, split prefixes longer than 10 bytes, collapsed nodes, stale slots) depends on the whole history; there are infinitely many shapes and the failing ones need particular combinations", "anchors": ["tree.go: RadixTree.Get, iterativeSearch", "txn.go: Txn.Insert, recursiveInsert", "helpers.go: addChild4/16/48/256, prefixMismatch, longestCommonPrefix", "txn.go: Txn.Delete, recursiveDelete", "helpers.go: removeChild4/16/48/256, checkPrefix"]}
{"id": "C02", "title": "Insert reports the previous value", "statement": "Insert(k, v) returns (old, true) where old is the value stored under k when k was present before the call, and (zero, false) when it was absent.", "quantifier": "every reachable tree or transaction state, every key and value", "why_tests_cant": "whether the key sits in a childless node, on an inner node or on a '$' edge depends on the history; tests only try a few placements", "anchors": ["txn.go: Txn.Insert, recursiveInsert", "helpers.go: addChild4/16/48/256, prefixMismatch, longestCommonPrefix"]}
{"id": "C03", "title": "Delete removes exactly the given key", "statement": "Delete(k) of a present key returns (old value, true); afterwards k is absent and every other key keeps its value.", "quantifier": "every reachable tree or transaction state, every present key, every other key", "why_tests_cant": "deletion shrinks and collapses nodes depending on fan-out and prefixes; the affected neighbours are unbounded", "anchors": ["txn.go: Txn.Delete, recursiveDelete", "helpers.go: removeChild4/16/48/256, checkPrefix"]}
{"id": "C04", "title": "Delete of an absent key changes nothing", "statement": "Delete(k) of an absent key returns (zero, false) and leaves every key, every value and Len unchanged.", "quantifier": "every reachable tree or transaction state, every absent key", "why_tests_cant": "the place where the search for the absent key stops (root, inner node, mid-prefix, past a 10 byte prefix) is history dependent", "anchors": ["txn.go: Txn.Delete, recursiveDelete", "helpers.go: removeChild4/16/48/256, checkPrefix"]}
{"id": "C05", "title": "Len counts the keys", "statement": "Len() is the number of distinct keys present.", "quantifier": "every tree value produced by any history", "why_tests_cant": "a counter that is off by one only after particular updates of particular placements is invisible unless that history is run", "anchors": ["tree.go: RadixTree.Len", "txn.go: Txn.Insert, Txn.Delete, Txn.DeletePrefix"]}
{"id": "C06", "title": "Snapshots are immutable", "statement": "Once a tree value has been returned, no later call on any tree or transaction (other than further writes to a transaction that was already committed or copied with Txn.Clone, see C07 and C09) changes the result of any read on that value: Get, Len, Minimum, Maximum, LongestPrefix, Walk and all iterators keep answering as before, also iterators already open, also if calls panic or transactions are abandoned.", "quantifier": "every history, every interleaving of calls on any number of trees and transactions, every snapshot, every read", "why_tests_cant": "immutability is a statement about all future writes through every alias; a test can only run some of them", "anchors": ["txn.go: writeNode, Txn, Commit, CommitOnly", "node_4.go, node_16.go, node_48.go, node_256.go, node_leaf.go: clone"]}
{"id": "C07", "title": "A committed tree is not affected by reusing its transaction", "statement": "After Commit or CommitOnly returned a tree, further Insert/Delete/DeletePrefix calls on the same transaction do not change the returned tree.", "quantifier": "every transaction, every later operation sequence on it", "why_tests_cant": "whether an in-place write hits a node of the committed tree depends on which nodes this transaction owns", "anchors": ["txn.go: CommitOnly, writeNode, oldMaxNodeId"]}
{"id": "C08", "title": "Transactions are isolated from each other", "statement": "While a transaction is open, calls on other transactions (also ones started from the same tree) and on trees (other than further writes to a transaction that was already committed or copied with Txn.Clone, see C07 and C09) never change what reads through this transaction return: Txn.Get, its size, and every read of the tree it would commit.", "quantifier": "every set of simultaneously open transactions, every interleaving of their calls", "why_tests_cant": "node ids of sibling transactions overlap, so ownership confusion would only show under particular interleavings", "anchors": ["txn.go: RadixTree.Txn, writeNode"]}
{"id": "C09", "title": "Txn.Clone makes independent transactions", "statement": "After Txn.Clone, mutations of the original are invisible through the clone and mutations of the clone are invisible through the original.", "quantifier": "every transaction state at the time of Clone, every later operation sequence on both", "why_tests_cant": "sharing between the two depends on which nodes the original had already copied", "anchors": ["txn.go: Txn.Clone, writeNode"]}
{"id": "C10", "title": "RadixTree.Clone is an equal, independent tree", "statement": "t.Clone() answers every read exactly as t does, immediately and after any later calls on t, on the clone or on anything else.", "quantifier": "every reachable tree, every read, every continuation", "why_tests_cant": "equality over all keys and iterators and over all futures cannot be enumerated", "anchors": ["tree.go: RadixTree.Clone"]}
{"id": "C11", "title": "An abandoned transaction leaves no trace in any tree", "statement": "A transaction that is never committed (nor written to after being copied with Txn.Clone) makes no tree and changes no read of any tree, in particular not of the tree it was started from.", "quantifier": "every transaction, every operation sequence inside it, every tree and read", "why_tests_cant": "needs all sequences of in-place and copying writes", "anchors": ["txn.go: RadixTree.Txn, writeNode, trackChannel"]}
{"id": "C12", "title": "No call panics", "statement": "No exported operation panics, whatever keys it is given and whatever happened before.", "quantifier": "every history, every key including empty, very long and arbitrary binary ones, every read and write operation", "why_tests_cant": "index, nil and type assertion panics sit behind shapes that only specific histories build", "anchors": ["txn.go: recursiveInsert, recursiveDelete", "lower_bound_iterator.go: SeekLowerBound", "helpers.go: maximum"]}
{"id": "C13", "title": "Get never invents a value", "statement": "If Get(k) or Txn.Get(k) returns (v, true), then some Insert of exactly the key k with exactly the value v was executed earlier, whatever else happened (deletes, prefix deletes, panics, clones, reused transactions).", "quantifier": "every history of API calls without restriction, every key", "why_tests_cant": "quantifies over all histories, including ones that corrupt the structure", "anchors": ["tree.go: RadixTree.Get, iterativeSearch", "tree.go: iterativeSearchWithWatch"]}
{"id": "C14", "title": "A transaction reads its own writes", "statement": "Inside a transaction, after Insert(k, v), Txn.Get(k) returns (v, true); after Delete(k) it returns (zero, false); other keys read as before.", "quantifier": "every transaction state, every key and value", "why_tests_cant": "in-place and copying writes alternate depending on which nodes the transaction already owns", "anchors": ["txn.go: Txn.Get, Txn.Insert, Txn.Delete"]}
{"id": "C15", "title": "Forward iteration is complete and duplicate free", "statement": "An iterator positioned with SeekPrefix(\"\") returns every stored key with its value exactly once and nothing else, then false.", "quantifier": "every reachable tree", "why_tests_cant": "missing or duplicated keys depend on node kinds, nil slots and keys held by inner nodes", "anchors": ["iterator.go: Iterator.Next, SeekPrefix"]}
{"id": "C16", "title": "Forward iteration is in ascending byte order", "statement": "The keys returned by an iterator after SeekPrefix are strictly ascending in bytes.Compare order.", "quantifier": "every reachable tree, every prefix", "why_tests_cant": "order must hold for all pairs of keys and all node kinds at all depths", "anchors": ["iterator.go: Iterator.Next"]}
{"id": "C17", "title": "SeekPrefix selects exactly the keys with the prefix", "statement": "After SeekPrefix(p), Next returns exactly the stored keys that have p as a prefix, with their values.", "quantifier": "every reachable tree, every prefix (also ending inside a compressed path of any length)", "why_tests_cant": "the seek can stop at any offset of any compressed prefix, including beyond its stored 10 bytes", "anchors": ["iterator.go: SeekPrefix, Next", "helpers.go: prefixMismatch, hasPrefix"]}
{"id": "C18", "title": "Minimum returns the smallest key", "statement": "Minimum() returns the smallest stored key with its value, and nil for an empty tree.", "quantifier": "every reachable tree", "why_tests_cant": "depends on every node kind's first-child logic along an arbitrary path", "anchors": ["tree.go: Minimum", "helpers.go: minimum"]}
{"id": "C19", "title": "Maximum returns the largest key", "statement": "Maximum() returns the largest stored key with its value, and nil for an empty tree.", "quantifier": "every reachable tree", "why_tests_cant": "depends on every node kind's last-child logic along an arbitrary path", "anchors": ["tree.go: Maximum", "helpers.go: maximum"]}
{"id": "C20", "title": "LongestPrefix returns the longest stored prefix", "statement": "LongestPrefix(k) returns the longest stored key that is a prefix of k with its current value, and false if there is none.", "quantifier": "every reachable tree, every query", "why_tests_cant": "the answer compares all stored prefixes of k at once and depends on slot order and stale slots", "anchors": ["tree.go: LongestPrefix"]}
{"id": "C21", "title": "PathIterator yields the stored prefixes of the path", "statement": "GetPathIterator(p) returns exactly the stored keys that are prefixes of p, with their values, each once, shortest first.", "quantifier": "every reachable tree, every path", "why_tests_cant": "all subsets of stored prefixes and all node kinds along the path", "anchors": ["path_iter.go: PathIterator.Next", "node_leaf.go: prefixContainsMatch"]}
{"id": "C22", "title": "PathIterator never yields a non-prefix", "statement": "Every key returned by GetPathIterator(p) is a prefix of p and was inserted with the returned value.", "quantifier": "every history without restriction, every path", "why_tests_cant": "must hold for corrupted and degenerate trees too", "anchors": ["path_iter.go: PathIterator.Next"]}
{"id": "C23", "title": "SeekLowerBound starts at the first key not below the bound", "statement": "After SeekLowerBound(k), Next returns exactly the stored keys >= k in ascending order.", "quantifier": "every reachable tree, every bound", "why_tests_cant": "the bound can leave the stored paths at any depth, on either side, in any node kind", "anchors": ["lower_bound_iterator.go: SeekLowerBound, Next"]}
{"id": "C24", "title": "Reverse iteration is complete and descending", "statement": "A fresh reverse iterator returns every stored key exactly once in descending order.", "quantifier": "every reachable tree", "why_tests_cant": "keys on inner nodes must come after all their extensions, at every depth", "anchors": ["reverse_iterator.go: Previous"]}
{"id": "C25", "title": "SeekReverseLowerBound starts at the last key not above the bound", "statement": "After SeekReverseLowerBound(k), Previous returns exactly the stored keys <= k in descending order.", "quantifier": "every reachable tree, every bound", "why_tests_cant": "as for SeekLowerBound, mirrored", "anchors": ["reverse_iterator.go: SeekReverseLowerBound, Previous"]}
{"id": "C26", "title": "Walk visits every pair once", "statement": "Walk(fn) calls fn exactly once for every stored key, with its value, in ascending order, until fn returns true.", "quantifier": "every reachable tree, every callback", "why_tests_cant": "keys on inner nodes, stale slots and slot order depend on the history", "anchors": ["tree.go: Walk, recursiveWalk"]}
{"id": "C27", "title": "DeletePrefix removes exactly the keys under the prefix", "statement": "After DeletePrefix(p), keys with prefix p are absent and all other keys keep their values.", "quantifier": "every reachable tree or transaction state, every prefix", "why_tests_cant": "the function rebuilds every node it visits, so a key far from the prefix can be lost", "anchors": ["txn.go: Txn.DeletePrefix, deletePrefix"]}
{"id": "C28", "title": "DeletePrefix reports what it did", "statement": "DeletePrefix(p) returns true exactly when at least one key with prefix p was present, and Len decreases by the number of such keys.", "quantifier": "every reachable tree or transaction state, every prefix", "why_tests_cant": "the count is accumulated over an unbounded recursion with keys on inner nodes and stale slots", "anchors": ["txn.go: Txn.DeletePrefix, deletePrefix"]}
{"id": "C29", "title": "A watch on a present key fires when the key changes", "statement": "If GetWatch(k) on tree t found k and returned channel c, then c is closed by the time Commit returns of any tracked transaction started from t (or from a tree derived from t without touching k) that updated or deleted k.", "quantifier": "every reachable tree, every key, every tracked transaction and operation sequence touching the key", "why_tests_cant": "the channel sits on a node that may be copied, split, moved between node kinds or collapsed before the change", "anchors": ["tree.go: GetWatch", "txn.go: trackChannel, writeNode, slowNotify"]}
{"id": "C30", "title": "A watch on an absent key fires when the key appears", "statement": "If GetWatch(k) on tree t did not find k and returned channel c, then c is closed by the time a tracked transaction started from t commits after inserting k.", "quantifier": "every reachable tree, every absent key", "why_tests_cant": "the channel belongs to the node where the search stopped, which depends on compressed prefixes of any length", "anchors": ["tree.go: iterativeSearchWithWatch", "txn.go: trackChannel"]}
{"id": "C31", "title": "SeekPrefixWatch fires on any change below the prefix", "statement": "The channel returned by SeekPrefixWatch(p) on tree t is closed when a tracked transaction started from t commits after inserting, updating or deleting a key with prefix p.", "quantifier": "every reachable tree, every prefix, every change under it", "why_tests_cant": "the node watched must be on the path of every possible change below the prefix", "anchors": ["iterator.go: SeekPrefixWatch", "txn.go: trackChannel"]}
{"id": "C32", "title": "Nothing is notified before Commit or Notify", "statement": "No operation other than Commit or Notify of a transaction with TrackMutate(true) closes any watch channel; in particular Insert/Delete/DeletePrefix inside a transaction and CommitOnly close none.", "quantifier": "every history, every channel ever handed out", "why_tests_cant": "a premature close could hide in any of the write paths", "anchors": ["txn.go: slowNotify, Notify, CommitOnly"]}
{"id": "C33", "title": "Without TrackMutate nothing is ever notified", "statement": "In a history in which TrackMutate(true) is never called, no channel returned by GetWatch or SeekPrefixWatch is ever closed and the channel of every node stays the same.", "quantifier": "every history without TrackMutate(true)", "why_tests_cant": "universal over all write paths", "anchors": ["txn.go: trackChannel, Notify"]}
{"id": "C34", "title": "Notify is idempotent", "statement": "A second Notify on the same transaction (or Notify after Commit) closes nothing and does not panic.", "quantifier": "every transaction state", "why_tests_cant": "depends on the list of tracked channels accumulated over the whole transaction", "anchors": ["txn.go: Notify, slowNotify"]}
{"id": "C35", "title": "A commit fires only watches of affected keys", "statement": "A tracked commit closes the watch channel of a present key k only if k itself was updated or deleted.", "quantifier": "every tracked transaction, every present key it did not change", "why_tests_cant": "all neighbours of every changed key would have to be watched", "anchors": ["txn.go: trackChannel, writeNode, recursiveInsert, deletePrefix"]}
{"id": "C36", "title": "An abandoned tracked transaction loses no wake-up", "statement": "A tracked transaction that is abandoned without Commit/Notify does not affect watches: a channel obtained before it still fires when another tracked transaction changes the key.", "quantifier": "every abandoned tracked transaction, every watch, every later change", "why_tests_cant": "the interaction needs a watch, an abandoned writer and a later writer on shared nodes", "anchors": ["txn.go: trackChannel"]}
{"id": "C37", "title": "Notification never closes a channel twice", "statement": "Commit/Notify never panics with 'close of closed channel', also when several tracked transactions started from the same tree notify, sequentially or concurrently.", "quantifier": "every set of tracked transactions, every interleaving of their notification loops", "why_tests_cant": "the check and the close are separate steps; the bad schedule has a window of a few instructions", "anchors": ["txn.go: slowNotify, isClosed"]}
{"id": "C38", "title": "Concurrent watchers of a node share one channel", "statement": "When several goroutines ask for the watch channel of the same node concurrently (nobody writing), all of them receive the same channel.", "quantifier": "every number of goroutines, every schedule of the load / create / compare-and-swap steps", "why_tests_cant": "only some schedules exercise the lost compare-and-swap", "anchors": ["node_4.go, node_16.go, node_48.go, node_256.go, node_leaf.go: getMutateCh"]}
{"id": "C39", "title": "Calls do not touch the caller's key buffer", "statement": "No call modifies bytes of the array behind a key slice passed in, and bytes the caller writes into that array later do not change what the tree stores.", "quantifier": "every key slice with any length and capacity, every call, every later write by the caller", "why_tests_cant": "depends on spare capacity of the caller's slice, which is invisible in the key itself", "anchors": ["helpers.go: getTreeKey", "txn.go: makeLeaf, recursiveInsert"]}
{"id": "C40", "title": "Insertion order does not matter", "statement": "Inserting the same set of distinct keys with the same values in any two orders gives trees with the same Get answers, the same Len and the same iteration sequence.", "quantifier": "every set of key/value pairs, every pair of permutations", "why_tests_cant": "n! orders for every set of keys", "anchors": ["txn.go: Txn.Insert, recursiveInsert", "helpers.go: addChild4/16/48/256, prefixMismatch, longestCommonPrefix", "iterator.go: Iterator.Next"]}
{"id": "C41", "title": "Delete undoes Insert", "statement": "Inserting an absent key and then deleting it gives a tree with the same Get answers, Len and iteration sequence as before.", "quantifier": "every reachable tree, every absent key, every value", "why_tests_cant": "the insertion may split and grow nodes, the deletion must collapse them for every shape", "anchors": ["txn.go: Txn.Insert, recursiveInsert", "helpers.go: addChild4/16/48/256, prefixMismatch, longestCommonPrefix", "txn.go: Txn.Delete, recursiveDelete", "helpers.go: removeChild4/16/48/256, checkPrefix"]}
{"id": "C42", "title": "Any fan-out is supported", "statement": "Keys that continue a common prefix with all 256 possible next bytes can be stored, updated and deleted together without affecting each other.", "quantifier": "every set of keys and history with up to 256 different next bytes after a common prefix", "why_tests_cant": "the 256th child needs hundreds of keys in one place plus a following write", "anchors": ["helpers.go: addChild256, removeChild256", "node_256.go: isLeaf"]}
{"id": "C43", "title": "Every read terminates", "statement": "Every read operation and every iterator reaches its end after finitely many steps (the structure never contains a cycle).", "quantifier": "every history without restriction", "why_tests_cant": "termination over all histories is not testable", "anchors": ["tree.go: iterativeSearch, recursiveWalk", "helpers.go: minimum, maximum", "iterator.go: Next"]}
{"id": "C44", "title": "Reads never invent pairs", "statement": "Every pair returned by a forward, lower bound or reverse iterator (in any state, also if the tree was changed meanwhile), by Minimum, Maximum or LongestPrefix was inserted earlier with exactly this key and value, or is the empty key with the zero value.", "quantifier": "every history without restriction, every state of the iterators", "why_tests_cant": "needs all heap contents that any history can produce", "anchors": ["iterator.go: Next", "lower_bound_iterator.go: Next", "reverse_iterator.go: Previous", "helpers.go: minimum, maximum", "tree.go: LongestPrefix"]}
{"id": "C45", "title": "Writes copy a path only", "statement": "Insert and Delete allocate a number of nodes bounded by the length of the key alone (|k|+18 and 3|k|+9), starting a transaction, cloning a tree or a transaction at most one node, and reads, GetWatch, Commit, CommitOnly and Notify none.", "quantifier": "every history, every tree whatever its size, every key", "why_tests_cant": "a bound over all tree sizes and shapes is not testable", "anchors": ["txn.go: Insert, recursiveInsert, recursiveDelete, writeNode", "tree.go: Txn, Clone"]}
{"id": "C46", "title": "Commit publishes what the transaction reads", "statement": "The tree returned by Commit or CommitOnly answers Get, iteration, Minimum, Maximum, LongestPrefix, Walk and the seeking iterators exactly as reading the transaction did before, and committing changes nothing else but channels.", "quantifier": "every history, every transaction (also reused or cloned ones), every key", "why_tests_cant": "quantifies over all histories and readers", "anchors": ["txn.go: Commit, CommitOnly, Get, Root, GetTree"]}
{"id": "C47", "title": "A fired watch stays fired", "statement": "Once a watch channel is closed it is closed for ever, and no call makes a channel that was handed out disappear.", "quantifier": "every history, every continuation, every channel", "why_tests_cant": "quantifies over all continuations", "anchors": ["txn.go: slowNotify", "node_4.go: getMutateCh"]}
{"id": "C48", "title": "Reading a running transaction", "statement": "Iterating, seeking a prefix, the path iterator, Minimum, Maximum, LongestPrefix and Len on the private tree of a running transaction (Txn.Root, Txn.GetTree) show exactly the tree it was begun on with the transaction's writes applied.", "quantifier": "every history of calls, every running transaction, every prefix and path", "why_tests_cant": "quantifies over all interleavings of writes with reads in a transaction", "anchors": ["txn.go: Root, GetTree, LongestPrefix", "iterator.go", "path_iterator.go"]}
{"id": "C49", "title": "Reverse prefix iteration exact", "statement": "A reverse iterator positioned with SeekPrefix(p) returns exactly the pairs whose key starts with p, in descending order.", "quantifier": "every history, every tree, every prefix", "why_tests_cant": "quantifies over all trees and prefixes, including prefixes that end inside a compressed path", "anchors": ["reverse_iterator.go: SeekPrefix, SeekPrefixWatch, Previous"]}
{"id": "C50", "title": "Reads never panic", "statement": "Get, GetWatch, LongestPrefix, Minimum, Maximum, Walk and every iterator (forward, lower-bound, reverse, path) return normally on every tree that a history produces.", "quantifier": "every history of calls, every tree it makes, every key, prefix and bound", "why_tests_cant": "a panic needs a particular node shape (an emptied Node48, a root without prefix bytes, a compressed path over ten bytes) that only some orders of calls produce", "anchors": ["tree.go: Get, GetWatch, LongestPrefix, Minimum, Maximum, Walk", "helpers.go: findChild, checkPrefix, minimum, maximum", "iterator.go", "lower_bound_iterator.go", "reverse_iterator.go", "path_iter.go"]}
{"id": "C51", "title": "Nodes stay well-formed", "statement": "At every moment every node in memory has the arrays of its Go type, a Node4 or Node16 counts no more children than it has slots, a Node48 indexes only existing slots, leaf pointers lead to leaves, child pointers lead to inner nodes, and every tree and transaction has a root node.", "quantifier": "every history of calls, including those in which calls panic half-way, every node ever allocated", "why_tests_cant": "an invariant of all reachable heaps; tests see only the answers", "anchors": ["node_4.go", "node_16.go", "node_48.go", "node_256.go", "txn.go: addChild, removeChild, recursiveInsert, recursiveDelete, deletePrefix", "helpers.go: copyHeader"]}
{"id": "C52", "title": "A watch handed out is still open", "statement": "A channel that GetWatch or SeekPrefixWatch returns has not been closed before it is returned.", "quantifier": "every sequence of tracked transactions, each on the tree committed by the one before; for present keys every history whatever, every tree and transaction", "why_tests_cant": "it takes a deletion that leaves a stale child pointer, a later write below that child and another deletion before the channel of a live node is closed with nobody having touched it", "anchors": ["txn.go: trackChannel, slowNotify", "helpers.go: removeChild4, removeChild16", "node_4.go: clone", "tree.go: GetWatch", "iterator.go: SeekPrefixWatch"]}
{"id": "C53", "title": "The watch of a present key belongs to that key alone", "statement": "Watches of two different present keys never share a channel, and a watch of a present key never shares one with a watch of an absent key or of a prefix.", "quantifier": "every history, every two watches taken at whatever moments in whatever trees and transactions", "why_tests_cant": "channels are copied with nodes and reused across versions; an alias can appear after any number of clones", "anchors": ["tree.go: GetWatch, iterativeSearchWithWatch", "txn.go: trackChannel, GetWatch", "node_leaf.go: clone, getMutateCh", "iterator.go: SeekPrefixWatch"]}
{"id": "C54", "title": "Notification is a matter of each transaction", "statement": "A transaction on which TrackMutate(true) was not called, or was followed by TrackMutate(false), closes no channel when it notifies or commits, whatever other transactions track; in particular a copy made with Txn.Clone of a tracking transaction does not notify for the original.", "quantifier": "every history of calls, every transaction", "why_tests_cant": "universal over all interleavings of transactions and copies", "anchors": ["txn.go: Clone, TrackMutate, Notify, Commit, CommitOnly", "tree.go: Txn"]}
{"id": "C55", "title": "The length follows the results of the writes", "statement": "A write that returns changes Len by exactly what it reports: an insertion that reports no replacement adds one, a deletion that reports success takes one away, a DeletePrefix that reports nothing leaves it; a commit publishes the length that Txn.GetTree shows.", "quantifier": "every history of calls, every tree and transaction, every key", "why_tests_cant": "two counters (txn.size, tree.size) are kept in step by hand in three places; universal over all histories, also those in which calls panic", "anchors": ["txn.go: Insert, Delete, DeletePrefix, CommitOnly, GetTree", "tree.go: Len"]}
{"id": "C56", "title": "A new transaction starts with what its source reads", "statement": "A transaction started on a tree, and a copy made with Txn.Clone, answers every read as the tree, or the original transaction, does at that moment, and has its length.", "quantifier": "every history of calls, every tree and transaction, every read", "why_tests_cant": "universal over all trees and all reads; the copy of a node copies only part of its prefix (clone allocates partial with partialLen bytes), so a difference depends on the history of the root", "anchors": ["tree.go: Txn, Clone", "txn.go: Clone", "node.go: clone of the node types"]}
{"id": "C57", "title": "Readers need no lock", "statement": "While a goroutine is inside any sequence of calls, another goroutine that reads a tree which existed before gets the same answers as if those calls were not made, whatever moments its single node reads fall between: Get, Minimum, Maximum, LongestPrefix, Walk and every kind of iterator, also iterators already open.", "quantifier": "every lawful history (no write through a committed or copied transaction), every later sequence of calls and every point inside them, every assignment of moments to the node reads, every tree and read", "why_tests_cant": "the moments between the writes of one call (a node half shifted, a count not yet updated) cannot be hit reliably by a test; universal over all of them", "anchors": ["txn.go: Insert, Delete, DeletePrefix, writeNode", "helpers.go: addChild, removeChild", "tree.go: Get", "iterator.go"]}
{"id": "C58", "title": "No data race on the nodes of a tree", "statement": "No call writes to a node that can be reached from a tree that existed before the call, except by an atomic store of the node's channel, and nothing but the channel ever changes in such a node.", "quantifier": "every lawful history, every later call, every single write it makes, every node reachable from every tree", "why_tests_cant": "the race detector sees only the accesses of the executed schedules; universal over all histories and all writes", "anchors": ["txn.go: writeNode, trackChannel", "node_4.go: mutateCh atomic.Pointer, getMutateCh, setMutateCh", "helpers.go"]}
{"id": "C59", "title": "GetWatch answers like Get", "statement": "GetWatch(k) returns a channel together with exactly the value and found flag that Get(k) returns at the same moment, and panics exactly when Get panics; in particular the leaf that iterativeSearchWithWatch uses without a nil test is never nil.", "quantifier": "every history of calls, every tree and transaction, every key", "why_tests_cant": "two copies of the same 80 line search that differ in one nil test; universal over all trees", "anchors": ["tree.go: iterativeSearch, iterativeSearchWithWatch, GetWatch", "txn.go: GetWatch"]}
{"id": "C60", "title": "SeekPrefix never yields a key without the prefix", "statement": "Every key that an iterator returns after SeekPrefix(p) has the prefix p.", "quantifier": "every history, every state of the iterator, every prefix", "why_tests_cant": "safety over all trees including damaged ones, and over stale iterators", "anchors": ["iterator.go: Next, SeekPrefix", "helpers.go: hasPrefix"]}
{"id": "C61", "title": "SeekReverseLowerBound never yields a key above the bound", "statement": "Every key that a reverse iterator returns after SeekReverseLowerBound(q) is not above q.", "quantifier": "every memory, every state of the iterator, every bound", "why_tests_cant": "safety over all trees including damaged ones, and over stale iterators", "anchors": ["reverse_iterator.go: Previous, SeekReverseLowerBound"]}
{"id": "C62", "title": "LongestPrefix returns a prefix", "statement": "The key that LongestPrefix(q) returns is a prefix of q.", "quantifier": "every history, every tree, every key", "why_tests_cant": "universal over trees and keys; the wrong answer needs a root with a leaf", "anchors": ["tree.go: LongestPrefix"]}
{"id": "C63", "title": "Walk stops exactly where the caller says so", "statement": "For every tree there is one sequence of pairs such that Walk(fn) calls fn with these pairs in order up to and including the first one for which fn returns true, and does not call it again.", "quantifier": "every history, every tree, every function", "why_tests_cant": "universal over callback functions", "anchors": ["tree.go: Walk, recursiveWalk"]}
{"id": "C64", "title": "DFS visits every node once", "statement": "DFS(fn) calls fn exactly once for every node of the tree, the root first.", "quantifier": "every history, every tree", "why_tests_cant": "needs trees with large nodes and with deleted children", "anchors": ["tree.go: DFS, DFSNode", "node_48.go: getChild", "node_256.go: getChild"]}
{"id": "C65", "title": "Concurrent transactions do not disturb each other", "statement": "Goroutines that each work in a transaction of their own (begin on some existing tree, Insert, Delete, DeletePrefix, Get, GetWatch, TrackMutate, Get on any existing tree, CommitOnly) at the same time get, under every schedule of their single steps, the results, the panics and the new tree (its size and the answers of all reads) that each of them gets when it runs alone; and trees that existed before answer all reads as before, at every moment.", "quantifier": "every lawful history before, every number of goroutines and calls, every interleaving of single memory steps", "why_tests_cant": "the race detector sees single schedules; this is all of them", "anchors": ["txn.go: Txn, writeNode, recursiveInsert, recursiveDelete, CommitOnly", "tree.go: Txn, Get, GetWatch", "node_4.go: getMutateCh"]}
{"id": "C66", "title": "Transactions are wait-free", "statement": "A goroutine working in its own transaction returns, or panics in Notify because it closes a channel that another goroutine has closed since it looked (C71), after finitely many of its own steps, whatever the other goroutines do in between.", "quantifier": "every history, every number of goroutines, every infinite schedule in which the goroutine gets to take steps again and again", "why_tests_cant": "statement about infinite schedules", "anchors": ["txn.go: recursiveInsert, recursiveDelete, deletePrefix", "node_4.go: getMutateCh"]}
{"id": "C67", "title": "No data race between transactions", "statement": "At no moment are two goroutines that work in transactions of their own about to access the same node, one of them by a plain write; every node that is written to was made by the writing goroutine itself.", "quantifier": "every lawful history before, every number of goroutines and calls, every interleaving", "why_tests_cant": "the race detector sees single schedules", "anchors": ["txn.go: writeNode, recursiveInsert, recursiveDelete, mergeChild, addChild, removeChild"]}
{"id": "C68", "title": "Goroutines started at any time continue only their own past", "statement": "A goroutine that works in a transaction of its own may be started at any moment, on a tree that was there before or on a tree that another goroutine has returned. Under every schedule it gets the results, the panics (except those of closing a channel that another goroutine is closing, see C37, C71) and the new tree that its own past gives when it runs alone, one call after the other: the first history, then the calls of the goroutine it was started from, then its own. All reads of its tree answer the same at every later moment.", "quantifier": "every lawful history before, every number of goroutines and starts, every sequence of Insert, Delete, DeletePrefix, Get, GetWatch, TrackMutate, Notify, Get on known trees, ended by Commit or CommitOnly, every interleaving of single memory steps", "why_tests_cant": "the race detector sees single schedules; this is all of them, with goroutines passing trees on", "anchors": ["txn.go: Txn, writeNode, recursiveInsert, recursiveDelete, Commit, CommitOnly, Notify", "tree.go: Txn, Get, GetWatch"]}
{"id": "C69", "title": "Goroutines started at any time never wait and never race", "statement": "A goroutine of such a program returns, or panics in Notify because it closes a channel that another goroutine has closed since it looked (C71), after finitely many of its own steps, however many others are started and whatever they do; and at no moment are two goroutines about to access the same node, one of them by a plain write.", "quantifier": "every lawful history before, every infinite schedule with starts in which the goroutine takes steps again and again; every moment of every schedule", "why_tests_cant": "statement about infinite schedules and about all schedules", "anchors": ["txn.go: recursiveInsert, recursiveDelete, deletePrefix, writeNode", "node_4.go: getMutateCh"]}
{"id": "C70", "title": "Concurrent transactions behave like maps", "statement": "Whatever the other goroutines do, the results of a goroutine that works in its own transaction, and the contents and size of the tree that it returns, are those of a map to which the calls of its own past were applied in order.", "quantifier": "every ordinary history before, every number of goroutines and starts, every interleaving of single memory steps", "why_tests_cant": "all schedules and all keys", "anchors": ["txn.go: Insert, Delete, Get, Commit, CommitOnly", "tree.go: Txn, Get, Len"]}
{"id": "C71", "title": "Goroutines do not close a channel twice", "statement": "However goroutines with transactions of their own are scheduled and whenever they are started, none of them closes a channel that is already closed (which panics and ends the program).", "quantifier": "every lawful history before, every number of goroutines and starts, every interleaving of single steps", "why_tests_cant": "needs the one schedule in which the other goroutine comes between isClosed and close", "anchors": ["txn.go: slowNotify, Notify, Commit, trackChannel", "helpers.go: isClosed"]}
{"id": "C72", "title": "Only tracking goroutines close channels, and only those on their lists", "statement": "When goroutines work at the same time, a channel is closed only by a goroutine that has called TrackMutate(true), and Notify or Commit, and only if it is on the list of tracked channels of its transaction; closed channels stay closed; if no goroutine tracks and notifies, no channel is closed.", "quantifier": "every history before, every number of goroutines and starts, every interleaving of single steps, every channel", "why_tests_cant": "absence of an effect under all schedules", "anchors": ["txn.go: slowNotify, Notify, Commit, TrackMutate, trackChannel"]}
{"id": "C73", "title": "Commit closes all tracked channels also when others notify", "statement": "When a goroutine that ends with Commit, and does not switch tracking off, has returned, every channel that was on its list of tracked channels at some moment, and that existed when it was started, is closed, whatever other goroutines did meanwhile.", "quantifier": "every history before, every number of goroutines and starts, every interleaving of single steps, every channel", "why_tests_cant": "lost notifications show up under rare schedules only", "anchors": ["txn.go: slowNotify, Commit, trackChannel"]}
{"id": "C74", "title": "The one tracking goroutine closes what it would close alone", "statement": "When goroutines work at the same time and exactly one of them tracks and ends with Commit, it has closed, by the time it returns, every channel that existed before and that it would close if it made the same calls alone, however the goroutines are scheduled and whatever the others write or watch.", "quantifier": "every lawful history before, every number of goroutines and starts, every interleaving of single steps, every channel", "why_tests_cant": "a lost notification shows up only under schedules in which another goroutine or a watcher sets or copies a channel at the wrong moment", "anchors": ["txn.go: trackChannel, writeNode, slowNotify, Commit", "node_4.go: getMutateCh, setMutateCh, clone", "node_leaf.go: getMutateCh"]}
{"id": "C75", "title": "Watches fire also when other goroutines work on the tree", "statement": "If somebody watches a key or prefix of a tree, and then a goroutine with a tracked transaction on this tree inserts or deletes the key, or a key with the prefix, and commits, the watch has fired when Commit returns, whatever other goroutines without tracking do at the same time.", "quantifier": "every history before, every watch, every number of goroutines and starts, every interleaving of single steps", "why_tests_cant": "needs all interleavings, and all shapes of the tree on the path to the key", "anchors": ["tree.go: GetWatch", "iterator.go: SeekPrefixWatch", "txn.go: trackChannel, writeNode, slowNotify, Commit"]}
{"id": "C76", "title": "DFSPrintTree prints every node once and changes nothing", "statement": "DFSPrintTree returns without panic, prints every node of the tree exactly once, slot by slot, each node right before the nodes below it, with its true id, type, key, partial, child count, child keys, channel and optional leaf, and changes nothing except that nodes without a channel get one; no channel is closed and all trees read as before.", "quantifier": "every history of calls, with panics and misuse of any sort, and every tree of it", "why_tests_cant": "the existing tests print one tree and nobody compares the output; node layouts after long histories decide which slots are visited", "anchors": ["tree.go:355-379 DFSPrintTreeUtil, DFSPrintTree", "node_4.go: getChildren, getMutateCh", "helpers.go: removeChild4, removeChild16"]}
{"id": "C77", "title": "Watches that come while a goroutine works", "statement": "If somebody asks, at any moment before a tracking goroutine returns, for the channel of a key of the tree on which the goroutine started, and the goroutine changes this key, then the channel is closed when the goroutine has returned from Commit.", "quantifier": "every lawful history, every schedule of any number of goroutines of which one tracks, every moment of the schedule", "why_tests_cant": "the loss needs a reader between trackChannel's Store and the Commit; the tests watch before the transaction starts", "anchors": ["txn.go:566-589 trackChannel", "txn.go:591-613 Notify", "node_4.go:151-166 getMutateCh", "tree.go:80-83 GetWatch"]}
{"id": "C78", "title": "However an iterator is used, it returns pairs of its tree", "statement": "Whatever calls are made on a forward, lower bound or reverse iterator of a tree, in whatever order and however often it is positioned again, each pair it returns is a pair of the tree; and what Next returns after SeekPrefix(p) starts with p.", "quantifier": "every history, every tree of it, every finite sequence of calls on the iterator", "why_tests_cant": "the tests position an iterator once and read it to the end; the state that one seek leaves for the next is never exercised", "anchors": ["iterator.go:27-157", "lower_bound_iterator.go:24-358", "reverse_iterator.go:23-298"]}
{"id": "C79", "title": "An iterator can be positioned again", "statement": "After any calls on an iterator, a new SeekPrefix, SeekLowerBound or SeekReverseLowerBound, and what is read after it, go as on a new iterator of the same tree.", "quantifier": "every history, every tree of it, every finite sequence of calls before and after the seek", "why_tests_cant": "the tests make a new iterator for each seek", "anchors": ["iterator.go:106-157 SeekPrefix", "lower_bound_iterator.go:122-358 SeekLowerBound", "lower_bound_iterator.go:212", "reverse_iterator.go:23-185"]}
{"id": "C80", "title": "An iterator that is held does not notice writes", "statement": "An iterator may be held and positioned again while other goroutines write: whatever mixture of moments each call on it sees, the calls return what they would have returned when the iterator was made.", "quantifier": "every lawful history, every tree of it, every continuation and every schedule of goroutines, every sequence of calls on forward, lower bound and reverse iterators, every mixture of moments for each call", "why_tests_cant": "the tests read an iterator to the end before the next write; no test looks at a tree between the single writes of a call", "anchors": ["iterator.go:27-157", "lower_bound_iterator.go:24-358", "reverse_iterator.go:23-298", "txn.go:93-400 copy on write"]}
{"id": "C81", "title": "A returned key may be used freely", "statement": "Whatever a caller does with a key slice that an iterator, LongestPrefix or Walk has returned (writing to it, appending to it, passing it or a part of it to calls), all calls answer as if the key had been copied.", "quantifier": "every program of calls, every leaf whose key was returned, every part and capacity of the returned slice, every amount of over-allocation by append", "why_tests_cant": "the tests only compare returned keys; none appends to one or passes a part of it back", "anchors": ["helpers.go:345-355 getTreeKey, getKey", "iterator.go:47", "tree.go:137", "tree.go:385", "node_leaf.go:121-132 clone"]}
{"id": "C82", "title": "Trees made from the private tree of a transaction", "statement": "Insert, Delete, DeletePrefix, Clone and Txn called on the tree that Txn.GetTree returned make trees and transactions like any other: they do not change when the first transaction is written to, and making them does not change what the first transaction reads.", "quantifier": "every program of calls on trees, transactions and private trees of running transactions, every key", "why_tests_cant": "whether an in-place write of the transaction hits a node shared with the new tree depends on which nodes the transaction has made before; the tests never write through GetTree", "anchors": ["txn.go:355-361 Root, GetTree", "txn.go:24-53 writeNode, RadixTree.Txn", "txn.go:57-70 Txn.Clone", "tree.go:46-53, 64-78, 329-333"]}
{"id": "C83", "title": "Front and Path of iterators", "statement": "After Next has returned a pair, Front of the iterator is the node that was reached (so not nil), and Path is the key with which the iterator was positioned, for forward and lower bound iterators.", "quantifier": "every history of calls, every tree, every sequence of Next, Front and Path after a seek, every prefix or bound", "why_tests_cant": "the only use of Front in the tests is the loop condition of hasAnyClosedMutateCh, which then never runs its body, so the tests that call this helper cannot fail", "anchors": ["iterator.go:9-25", "lower_bound_iterator.go:13-29, 122-160", "tree_test.go:1196-1210 hasAnyClosedMutateCh"]}
{"id": "C84", "title": "Iterators and the caller's buffer", "statement": "Once an iterator has been positioned with SeekPrefix or SeekReverseLowerBound, or made with PathIterator, the caller may reuse the byte slice it passed: what it writes there does not change what Next or Previous return.", "quantifier": "every history of calls, every tree, every array, offset, length and capacity of the slice, every sequence of Next and of writes to any byte of any array", "why_tests_cant": "tests pass string conversions and never write to the slice while the iterator is in use; whether PathIterator and SeekReverseLowerBound share the array depends on the spare capacity of the slice", "anchors": ["iterator.go:105-110", "reverse_iterator.go:23-32, 48-50, 208-290", "node_4.go:74-80", "path_iter.go:16-108", "helpers.go:345-347"]}
{"id": "C85", "title": "Readers with slices of one array", "statement": "Goroutines may call Get at the same time on trees that nobody changes, also with slices of the same array: each call returns what it would return alone.", "quantifier": "every history of calls that made the trees, any number of goroutines, every tree, array, offset, length and capacity of each slice, every schedule of their steps", "why_tests_cant": "needs slices with spare capacity that overlap and a schedule in which one call begins while another is searching; tests pass string conversions", "anchors": ["tree.go:70-72 Get", "tree.go:151-238 iterativeSearch", "helpers.go:345-347 getTreeKey"]}
{"id": "C86", "title": "Readers of several kinds with slices of one array", "statement": "Goroutines may call Get, LongestPrefix and SeekPrefix at the same time on trees that nobody changes, also with slices of the same array: each call returns what it would return alone.", "quantifier": "every history of calls that made the trees, any number of goroutines and any mix of the three calls, every tree, array, offset, length and capacity of each slice, every schedule of their steps", "why_tests_cant": "needs slices with spare capacity that overlap and a schedule in which one call begins while another is searching; tests pass string conversions", "anchors": ["tree.go:70-72 Get", "tree.go:85-141 LongestPrefix", "iterator.go:106-157 SeekPrefix", "helpers.go:345-347 getTreeKey"]}
{"id": "C87", "title": "SeekLowerBound among readers with slices of one array", "statement": "Goroutines may call Get, LongestPrefix, SeekPrefix and SeekLowerBound at the same time on trees that nobody changes, also with slices of the same array: each call returns (for the iterators: leaves the iterator with) what it would alone.", "quantifier": "every history of calls that made the trees, any number of goroutines and any mix of the four calls, every tree, array, offset, length and capacity of each slice, every schedule of their steps", "why_tests_cant": "needs slices with spare capacity that overlap and a schedule in which one call begins while another is in its loop; the tests of SeekLowerBound are sequential and pass string conversions", "anchors": ["lower_bound_iterator.go:122-358 SeekLowerBound", "tree.go:70-72 Get", "tree.go:85-141 LongestPrefix", "iterator.go:106-157 SeekPrefix", "helpers.go:345-347 getTreeKey"]}
