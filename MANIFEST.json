{
 "claims": [
  {
   "property": "C01",
   "status": "partial",
   "theorems": [
    "Art.C01_false",
    "Art.C01_partial"
   ],
   "note": "false at full strength (witness); proved for broad histories (conditions on keys and abstract map, see DESIGN.md)"
  },
  {
   "property": "C02",
   "status": "partial",
   "theorems": [
    "Art.C02_false",
    "Art.C02_partial",
    "Art.C02_partial_broad"
   ],
   "note": "false at full strength (witness); proved exactly for clean histories and up to keys that are proper prefixes of others for broad histories (see DESIGN.md)"
  },
  {
   "property": "C03",
   "status": "partial",
   "theorems": [
    "Art.C03_false",
    "Art.C03_partial"
   ],
   "note": "false at full strength (witness); proved for broad histories (conditions on keys and abstract map, see DESIGN.md)"
  },
  {
   "property": "C04",
   "status": "partial",
   "theorems": [
    "Art.C04_false",
    "Art.C04_partial",
    "Art.C04_miss_partial",
    "Art.C04_miss_txn_partial",
    "Art.C04_careful_partial",
    "Art.C01_careful_partial"
   ],
   "note": "false at full strength (witnesses C04_false, C04_fork, C04_long: keys are lost); proved for the empty tree, and in trees that never lost a key for keys whose search stops inside bytes that the stored keys share: the call then does exactly what Clone does"
  },
  {
   "property": "C05",
   "status": "partial",
   "theorems": [
    "Art.C05_false",
    "Art.C05_partial",
    "Art.C05_partial_broad"
   ],
   "note": "false at full strength (witness); proved exactly for clean histories and up to keys that are proper prefixes of others for broad histories (see DESIGN.md)"
  },
  {
   "property": "C06",
   "status": "proved",
   "theorems": [
    "Art.C06",
    "Art.C06_iterators"
   ],
   "note": "all lawful histories: all interleavings, any keys, panics included; open iterators too"
  },
  {
   "property": "C07",
   "status": "partial",
   "theorems": [
    "Art.C07_false",
    "Art.C07_partial"
   ],
   "note": "false for committed transactions that are written to again (witness); proved for all lawful continuations"
  },
  {
   "property": "C08",
   "status": "proved",
   "theorems": [
    "Art.C08"
   ],
   "note": "all lawful histories"
  },
  {
   "property": "C09",
   "status": "partial",
   "theorems": [
    "Art.C09_false",
    "Art.C09_partial",
    "Art.C09_untouched_partial"
   ],
   "note": "false at full strength (witness); proved: an original that is not written any more is not affected by its clone; if the original had not been written to before Txn.Clone, both may go on writing"
  },
  {
   "property": "C10",
   "status": "partial",
   "theorems": [
    "Art.C10_false",
    "Art.C10_partial",
    "Art.C10_moment_partial"
   ],
   "note": "false for trees with a damaged root (witness); proved for trees with a whole root and all reads"
  },
  {
   "property": "C11",
   "status": "proved",
   "theorems": [
    "Art.C11"
   ],
   "note": "all lawful histories"
  },
  {
   "property": "C12",
   "status": "partial",
   "theorems": [
    "Art.C12_false",
    "Art.C12_partial"
   ],
   "note": "false at full strength (witness); proved for broad histories (conditions on keys and abstract map, see DESIGN.md)"
  },
  {
   "property": "C13",
   "status": "proved",
   "theorems": [
    "Art.C13"
   ],
   "note": "all histories, also with reused transactions and panics"
  },
  {
   "property": "C14",
   "status": "partial",
   "theorems": [
    "Art.C14_false",
    "Art.C14_partial"
   ],
   "note": "false at full strength (witness); proved for broad histories (conditions on keys and abstract map, see DESIGN.md)"
  },
  {
   "property": "C15",
   "status": "partial",
   "theorems": [
    "Art.C15_false",
    "Art.C15_partial"
   ],
   "note": "false at full strength (witness); proved for broad histories (conditions on keys and abstract map, see DESIGN.md); tree with at least one key"
  },
  {
   "property": "C16",
   "status": "partial",
   "theorems": [
    "Art.C16_false",
    "Art.C16_partial"
   ],
   "note": "false at full strength (witness); proved for broad histories (conditions on keys and abstract map, see DESIGN.md); tree with at least one key; no key continued by a byte below '$'"
  },
  {
   "property": "C17",
   "status": "partial",
   "theorems": [
    "Art.C17_false",
    "Art.C17_partial"
   ],
   "note": "false at full strength (witness); proved for broad histories (conditions on keys and abstract map, see DESIGN.md); prefix not of the form key ++ \"$\", and not the empty prefix on the empty tree"
  },
  {
   "property": "C18",
   "status": "partial",
   "theorems": [
    "Art.C18_false",
    "Art.C18_partial"
   ],
   "note": "false at full strength (witness); proved for broad histories (conditions on keys and abstract map, see DESIGN.md); tree with at least one key; no key continued by a byte below '$'"
  },
  {
   "property": "C19",
   "status": "partial",
   "theorems": [
    "Art.C19_false",
    "Art.C19_partial"
   ],
   "note": "false at full strength (witness); proved for broad histories (conditions on keys and abstract map, see DESIGN.md); tree with at least one key; no key continued by a byte below '$'"
  },
  {
   "property": "C20",
   "status": "partial",
   "theorems": [
    "Art.C20_false",
    "Art.C20_partial"
   ],
   "note": "false at full strength (witness); proved for broad histories (conditions on keys and abstract map, see DESIGN.md); tree that never lost a key since it was last empty, with at least one key; keys prefix-free, or ordered with at most 12 children per node"
  },
  {
   "property": "C21",
   "status": "partial",
   "theorems": [
    "Art.C21_false",
    "Art.C21_partial"
   ],
   "note": "false at full strength (witness); proved for broad histories (conditions on keys and abstract map, see DESIGN.md); the order needs that no key is continued by a byte below '$'"
  },
  {
   "property": "C22",
   "status": "proved",
   "theorems": [
    "Art.C22"
   ],
   "note": "all histories, any state of the iterator"
  },
  {
   "property": "C23",
   "status": "partial",
   "theorems": [
    "Art.C23_false",
    "Art.C23_partial",
    "Art.C23_bound_partial"
   ],
   "note": "false at full strength (witness); proved for the empty bound on broad histories, and on broad histories, in trees that never lost a key, for bounds at which the keys branch (Map.Branching), at most 12 continuations per prefix"
  },
  {
   "property": "C24",
   "status": "partial",
   "theorems": [
    "Art.C24_false",
    "Art.C24_partial"
   ],
   "note": "false at full strength (witness); proved for broad histories (conditions on keys and abstract map, see DESIGN.md); tree with at least one key; no empty key; descending if no key is a prefix of another one"
  },
  {
   "property": "C25",
   "status": "partial",
   "theorems": [
    "Art.C25_false",
    "Art.C25_partial"
   ],
   "note": "false at full strength (witness); proved on broad histories for non-empty trees that never lost a key, with at most 12 continuations per prefix and bounds that suit the keys (Map.Bounded)"
  },
  {
   "property": "C26",
   "status": "partial",
   "theorems": [
    "Art.C26_false",
    "Art.C26_partial",
    "Art.C26_cut"
   ],
   "note": "false at full strength (witness); proved for broad histories (conditions on keys and abstract map, see DESIGN.md); tree that never lost a key since it was last empty, with at least one key; keys that are not prefixes of others are visited, with the zero value"
  },
  {
   "property": "C27",
   "status": "partial",
   "theorems": [
    "Art.C27_false",
    "Art.C27_partial",
    "Art.C27_partial_txn",
    "Art.C27_last",
    "Art.C27_wide"
   ],
   "note": "false at full strength (witness); proved for broad histories (conditions on keys and abstract map, see DESIGN.md); tree that never lost a key, no Node256, no key with the prefix is a prefix of another key, all keys or not exactly one key have the prefix (witnesses show that the conditions are needed)"
  },
  {
   "property": "C28",
   "status": "partial",
   "theorems": [
    "Art.C28_false",
    "Art.C28_partial",
    "Art.C28_partial_txn",
    "Art.C28_empty",
    "Art.C28_cut"
   ],
   "note": "false at full strength (witness); proved for broad histories (conditions on keys and abstract map, see DESIGN.md); tree that never lost a key (C28_cut: otherwise Len can be wrong); not the empty prefix on the empty tree (witness)"
  },
  {
   "property": "C29",
   "status": "partial",
   "theorems": [
    "Art.C29_false",
    "Art.C29_partial"
   ],
   "note": "false at full strength (witness); proved for broad histories (conditions on keys and abstract map, see DESIGN.md); other tracking transactions do not write between watch and commit"
  },
  {
   "property": "C30",
   "status": "partial",
   "theorems": [
    "Art.C30_false",
    "Art.C30_partial"
   ],
   "note": "false at full strength (witness); proved for broad histories (conditions on keys and abstract map, see DESIGN.md); other tracking transactions do not write between watch and commit; stored keys of at most ten bytes"
  },
  {
   "property": "C31",
   "status": "partial",
   "theorems": [
    "Art.C31_false",
    "Art.C31_partial"
   ],
   "note": "false in general: a transaction that deletes an absent key and then inserts below the prefix does not close the channel; proved for broad histories in which other tracking transactions do not write between watch and commit"
  },
  {
   "property": "C32",
   "status": "proved",
   "theorems": [
    "Art.C32"
   ],
   "note": "all histories"
  },
  {
   "property": "C33",
   "status": "proved",
   "theorems": [
    "Art.C33"
   ],
   "note": "all histories without TrackMutate(true)"
  },
  {
   "property": "C34",
   "status": "proved",
   "theorems": [
    "Art.C34"
   ],
   "note": "all histories; the whole program state is unchanged"
  },
  {
   "property": "C35",
   "status": "partial",
   "theorems": [
    "Art.C35_false",
    "Art.C35_partial",
    "Art.C35_tracked_partial"
   ],
   "note": "false in general: inserting a prefix of the watched key closes its channel; proved for broad histories in which tracking transactions write only keys that are incomparable (as prefixes) with the watched key"
  },
  {
   "property": "C36",
   "status": "partial",
   "theorems": [
    "Art.C36_false",
    "Art.C36_partial"
   ],
   "note": "false for abandoned tracked transactions (witness); proved for abandoned transactions without tracking, on broad histories"
  },
  {
   "property": "C37",
   "status": "partial",
   "theorems": [
    "Art.C37_false",
    "Art.C37_partial"
   ],
   "note": "false for racing notifications of transactions that share a channel (witness schedule); proved for schedules that do not interrupt a goroutine between check and close, and for all schedules when no channel is shared"
  },
  {
   "property": "C38",
   "status": "proved",
   "theorems": [
    "Art.C38"
   ],
   "note": "every number of goroutines and every schedule"
  },
  {
   "property": "C39",
   "status": "partial",
   "theorems": [
    "Art.C39_false",
    "Art.C39_false_later",
    "Art.C39_partial"
   ],
   "note": "false for slices with spare capacity (two witnesses); proved for slices with cap = len"
  },
  {
   "property": "C40",
   "status": "partial",
   "theorems": [
    "Art.C40_false",
    "Art.C40_partial"
   ],
   "note": "false at full strength (witness); proved for every compatible set of keys and all permutations (Get, Len; the iteration sequence if no key is continued by a byte below '$')"
  },
  {
   "property": "C41",
   "status": "partial",
   "theorems": [
    "Art.C41_false",
    "Art.C41_partial"
   ],
   "note": "false at full strength (witness); proved for clean histories (see DESIGN.md)"
  },
  {
   "property": "C42",
   "status": "partial",
   "theorems": [
    "Art.C42_false",
    "Art.C42_partial",
    "Art.C42_fan_partial"
   ],
   "note": "false for 256 different next bytes: the uint8 count of children wraps to 0 and a deletion below one child empties the tree; proved for prefix-free keys with at most 255 different next bytes after every prefix (insert, update, delete)"
  },
  {
   "property": "C43",
   "status": "proved",
   "theorems": [
    "Art.C43"
   ],
   "note": "all histories, DeletePrefix, panics and reused transactions included; also: no call exhausts a loop bound, no node reaches itself"
  },
  {
   "property": "C44",
   "status": "proved",
   "theorems": [
    "Art.C44"
   ],
   "note": "all histories, any state of the iterators"
  },
  {
   "property": "C45",
   "status": "proved",
   "theorems": [
    "Art.C45",
    "Art.C45_deletePrefix"
   ],
   "note": "all histories; DeletePrefix is not bounded (witness)"
  },
  {
   "property": "C46",
   "status": "proved",
   "theorems": [
    "Art.C46"
   ],
   "note": "all histories"
  },
  {
   "property": "C47",
   "status": "proved",
   "theorems": [
    "Art.C47"
   ],
   "note": "all histories"
  },
  {
   "property": "C48",
   "status": "partial",
   "theorems": [
    "Art.C48_false",
    "Art.C48_partial",
    "Art.C48_longest_partial"
   ],
   "note": "false in general (empty tree, order, '$'); proved on broad histories with these cases excepted"
  },
  {
   "property": "C49",
   "status": "partial",
   "theorems": [
    "Art.C49_false",
    "Art.C49_partial"
   ],
   "note": "false in general (a prefix no key has); proved on broad histories for prefixes that some key has or that lie below all keys"
  },
  {
   "property": "C50",
   "status": "partial",
   "theorems": [
    "Art.C50_false",
    "Art.C50_partial",
    "Art.C50_lookup_partial"
   ],
   "note": "false in general (Get, LongestPrefix, Minimum, Maximum and the bound seeks can panic, each with a witness); proved in all histories for Walk, path and reverse iterators and every iterator whose seek returned, and for Get/GetWatch/LongestPrefix when no transaction deletes"
  },
  {
   "property": "C51",
   "status": "proved",
   "theorems": [
    "Art.C51"
   ],
   "note": "all histories, also after panics"
  },
  {
   "property": "C52",
   "status": "partial",
   "theorems": [
    "Art.C52_false",
    "Art.C52_present_partial"
   ],
   "note": "false in general (a stale child pointer left by removeChild4 makes a later deletion close the channel of a live node); proved in all histories for present keys"
  },
  {
   "property": "C53",
   "status": "proved",
   "theorems": [
    "Art.C53"
   ],
   "note": "all histories, any two watches"
  },
  {
   "property": "C54",
   "status": "proved",
   "theorems": [
    "Art.C54"
   ],
   "note": "all histories"
  },
  {
   "property": "C55",
   "status": "proved",
   "theorems": [
    "Art.C55"
   ],
   "note": "all histories"
  },
  {
   "property": "C56",
   "status": "partial",
   "theorems": [
    "Art.C56_false",
    "Art.C56_partial"
   ],
   "note": "false for damaged roots (witness); proved for whole roots, or histories in which no transaction deletes, and all reads, in all histories"
  },
  {
   "property": "C57",
   "status": "proved",
   "theorems": [
    "Art.C57",
    "Art.C57_iterators",
    "Art.seenAll_complete",
    "Art.C57_loose_false"
   ],
   "note": "lawful histories (a committed transaction is not written to any more; without that it is false, witness); one writing goroutine at a time"
  },
  {
   "property": "C58",
   "status": "proved",
   "theorems": [
    "Art.C58",
    "Art.C58_loose_false"
   ],
   "note": "lawful histories; without that condition it is false (witness)"
  },
  {
   "property": "C59",
   "status": "proved",
   "theorems": [
    "Art.C59",
    "Art.C59_same"
   ],
   "note": "all histories, trees and transactions"
  },
  {
   "property": "C60",
   "status": "partial",
   "theorems": [
    "Art.C60_partial",
    "Art.C60_list_partial",
    "Art.C60_false"
   ],
   "note": "all histories and iterator states, for prefixes that do not end in '$'; for those that do the key may be the prefix without the '$' (witness)"
  },
  {
   "property": "C61",
   "status": "partial",
   "theorems": [
    "Art.C61_partial",
    "Art.C61_list_partial",
    "Art.C61_false"
   ],
   "note": "any memory and iterator state; keys that continue the bound with '$' may be returned although they are above it (witness)"
  },
  {
   "property": "C62",
   "status": "partial",
   "theorems": [
    "Art.C62_partial",
    "Art.C62_false"
   ],
   "note": "any memory; the leaf of the root may be returned although it is no prefix (witness)"
  },
  {
   "property": "C63",
   "status": "proved",
   "theorems": [
    "Art.C63"
   ],
   "note": "all histories and functions"
  },
  {
   "property": "C64",
   "status": "partial",
   "theorems": [
    "Art.C64_partial",
    "Art.C64_sound_partial",
    "Art.C64_false",
    "Art.C64_cut"
   ],
   "note": "broad histories, nodes with at most 12 children, or at most 37 if no key was lost; beyond that false (witnesses); only nodes of the tree are visited in all histories"
  },
  {
   "property": "C65",
   "status": "proved",
   "theorems": [
    "Art.C65",
    "Art.C65_old"
   ],
   "note": "all schedules of single steps after all lawful histories; the channels that GetWatch returns are not compared (C38); a goroutine that closes a channel which another one has just closed panics instead of returning (C71)"
  },
  {
   "property": "C66",
   "status": "proved",
   "theorems": [
    "Art.C66"
   ],
   "note": "all histories and infinite schedules; C71 says when the panic of a second close cannot happen"
  },
  {
   "property": "C67",
   "status": "proved",
   "theorems": [
    "Art.C67"
   ],
   "note": "all schedules of single steps; nodes read inside functions that only read are covered by C65 (they may see every node at any moment) and not listed one by one"
  },
  {
   "property": "C68",
   "status": "proved",
   "theorems": [
    "Art.C68",
    "Art.C68_old",
    "Art.C68_lawful"
   ],
   "note": "all schedules with starts after all lawful histories; the channels that GetWatch returns are not compared (C38); a goroutine that closes a channel which another one has just closed panics instead of returning (C71)"
  },
  {
   "property": "C69",
   "status": "proved",
   "theorems": [
    "Art.C69",
    "Art.C69_race"
   ],
   "note": "all histories and schedules; C71 says when the panic of a second close cannot happen"
  },
  {
   "property": "C70",
   "status": "partial",
   "theorems": [
    "Art.C70_partial",
    "Art.C70_broad_partial",
    "Art.C70_false"
   ],
   "note": "false already for one goroutine (Delete of an absent key empties a tree); proved for goroutines whose own past is clean (results, size, contents) or broad (no panic, contents, full iteration), whatever the other goroutines do: these need only be lawful"
  },
  {
   "property": "C71",
   "status": "partial",
   "theorems": [
    "Art.C71_partial",
    "Art.C71_one_partial",
    "Art.C71_ends_partial",
    "Art.C71_false"
   ],
   "note": "false: two goroutines that track on the same tree both find the channel of the root open and both close it; proved for schedules in which at any moment at most one goroutine that tracks and notifies is at work, in particular if only one is ever started; then every goroutine that takes steps again and again returns"
  },
  {
   "property": "C72",
   "status": "proved",
   "theorems": [
    "Art.C72",
    "Art.C72_stays",
    "Art.C72_quiet"
   ],
   "note": "all histories and schedules"
  },
  {
   "property": "C73",
   "status": "proved",
   "theorems": [
    "Art.C73"
   ],
   "note": "all histories and schedules; the channel must exist before the goroutine is started"
  },
  {
   "property": "C74",
   "status": "proved",
   "theorems": [
    "Art.C74",
    "Art.C74_wide_false"
   ],
   "note": "all lawful histories and schedules; the goroutine starts on a tree of the history; C74_wide_false: with a second goroutine that tracks it does not hold, as that one takes the channel away and need not close it"
  },
  {
   "property": "C75",
   "status": "partial",
   "theorems": [
    "Art.C75_key_partial",
    "Art.C75_absent_partial",
    "Art.C75_prefix_partial",
    "Art.C75_false"
   ],
   "note": "false already without other goroutines (Delete of an absent key first, as in C29); proved when the history with the calls of the tracking goroutine is broad (as in C29 to C31), whatever the other goroutines do: these need only be lawful and not track; absent keys: stored keys of at most ten bytes"
  },
  {
   "property": "C76",
   "status": "partial",
   "theorems": [
    "Art.C76_partial",
    "Art.C76_uncut_partial",
    "Art.C76_false"
   ],
   "note": "false in one point: after a deletion the slots behind the live children may still hold a child, which is printed twice (C76_false); everything else is proved for every history (C76_partial), and 'exactly once' for trees that never lost a key since they were last empty"
  },
  {
   "property": "C77",
   "status": "partial",
   "theorems": [
    "Art.C77_partial",
    "Art.C77_node_partial",
    "Art.C77_step_partial",
    "Art.C77_told_partial",
    "Art.C77_range_partial",
    "Art.C77_false",
    "Art.C77_wide_false"
   ],
   "note": "false in the code (C77_false): trackChannel puts a fresh channel into the old node, so who asks after that and before Commit returns waits for ever.  Proved: whoever got a channel that was on the node still finds it there when the goroutine has returned, or it is closed (C77_partial, C77_node_partial); only the tracking goroutine takes channels away, and has them on its list then (C77_step_partial); all on the list are closed by Commit (C77_told_partial).  With two tracking goroutines this fails too (C77_wide_false)"
  },
  {
   "property": "C78",
   "status": "partial",
   "theorems": [
    "Art.C78_partial",
    "Art.C78_prefix_partial",
    "Art.C78_false"
   ],
   "note": "broad histories; the exception is the phantom pair of an empty tree (C78_false); the prefix counts the '$' that the package appends to a key (as in C60)"
  },
  {
   "property": "C79",
   "status": "partial",
   "theorems": [
    "Art.C79_partial",
    "Art.C79_lost",
    "Art.C79_forward_false",
    "Art.C79_lower_false",
    "Art.C79_reverse_false",
    "Art.C79_false"
   ],
   "note": "false for all three iterators (witnesses).  Proved on any memory: forward and reverse iterators can be positioned again if only Next/Previous and SeekPrefix of the empty prefix came before; lower bound iterators as long as no seek has set their node to nil; once that has happened, and always after SeekReverseLowerBound, later seeks find nothing or panic (C79_lost)"
  },
  {
   "property": "C80",
   "status": "proved",
   "theorems": [
    "Art.C80",
    "Art.C80_team",
    "Art.C80_pairs_partial",
    "Art.C80_loose_false"
   ],
   "note": "lawful histories (a committed transaction is not written to any more; without that it is false, witness); C80_team: any number of goroutines inside writing calls; C80_pairs_partial: with C78, on broad histories the pairs are those of the map at the time when the iterator was made"
  },
  {
   "property": "C81",
   "status": "partial",
   "theorems": [
    "Art.C81_false",
    "Art.C81_append_false",
    "Art.C81_write_false",
    "Art.C81_partial",
    "Art.C81_write_again"
   ],
   "note": "false: the returned slice is a window into the array of the leaf, so Get(k[:3]), append(k, b) and k[0] = b destroy the key in the tree (three witnesses); proved for callers that read returned keys and pass them whole, or cut to a capacity without room; C81_write_again: even then Get(k) writes to the array of the leaf (the same byte)"
  },
  {
   "property": "C82",
   "status": "partial",
   "theorems": [
    "Art.C82_false",
    "Art.C82_partial",
    "Art.C82_txn_partial",
    "Art.C82_clone_partial"
   ],
   "note": "false: after txn.GetTree().Insert(z), an insert into the transaction shows in the new tree; proved when the transaction is not written to after its private tree was used in this way (unless it had made no nodes); the transaction itself is never affected by such calls; every such program has the memory, trees and results of one that uses Txn.Clone instead"
  },
  {
   "property": "C83",
   "status": "partial",
   "theorems": [
    "Art.C83_false",
    "Art.C83_path_false",
    "Art.C83_front",
    "Art.C83_helper",
    "Art.C83_partial"
   ],
   "note": "false: no method assigns to the field behind Front, so Front is nil after every sequence of calls (C83_front), and the test helper hasAnyClosedMutateCh says false of every tree (C83_helper); Path of a lower bound iterator has a '$' at the end; proved: what Path returns after any sequence of calls, in any memory"
  },
  {
   "property": "C84",
   "status": "partial",
   "theorems": [
    "Art.C84_false",
    "Art.C84_forward_false",
    "Art.C84_reverse_false",
    "Art.C84_bound_false",
    "Art.C84_path_false",
    "Art.C84_partial",
    "Art.C84_exact",
    "Art.C84_sound"
   ],
   "note": "false: SeekPrefix stores the caller's slice, and PathIterator and SeekReverseLowerBound store a window into its array if the slice has spare capacity; a write between two calls of Next hides keys (four witnesses); proved in any memory: writes outside the window are not noticed (C84_partial), slices without spare capacity are copied by PathIterator and SeekReverseLowerBound (C84_exact); whatever is written, only pairs of the tree are returned (C84_sound)"
  },
  {
   "property": "C85",
   "status": "partial",
   "theorems": [
    "Art.C85_false",
    "Art.C85_partial",
    "Art.C85_key",
    "Art.C85_exact",
    "Art.C85_same",
    "Art.C85_needed",
    "Art.C85_ends"
   ],
   "note": "false: Get appends '$' in place if the slice has spare capacity, so Get(buf[:3]) in one goroutine destroys the key of a running Get(buf[:6]) in another (witness schedule); proved in any memory, for every schedule: right results if no append overwrites a byte of another key (C85_partial), in particular for slices without spare capacity (C85_exact) or if all pass the same slice (C85_same); the condition is needed (C85_needed: otherwise some schedule makes a goroutine search for a wrong key, unless the overwritten byte was a dollar sign anyway); calls always return (C85_ends)"
  },
  {
   "property": "C86",
   "status": "partial",
   "theorems": [
    "Art.C86_longest_false",
    "Art.C86_seek_false",
    "Art.C86_get_false",
    "Art.C86_false",
    "Art.C86_partial",
    "Art.C86_seek",
    "Art.C86_exact",
    "Art.C86_needed",
    "Art.C86_ends"
   ],
   "note": "false: Get and LongestPrefix append '$' in place if the slice has spare capacity and so destroy the key of a call running in another goroutine (witness schedules for each kind of call); proved in any memory, for every schedule: right results if no append overwrites a byte of another key (C86_partial), in particular if only SeekPrefix is called (C86_seek) or the slices of the other calls have no spare capacity (C86_exact); the condition is needed (C86_needed); calls always return (C86_ends)"
  },
  {
   "property": "C87",
   "status": "partial",
   "theorems": [
    "Art.C87_lower_false",
    "Art.C87_both_false",
    "Art.C87_get_false",
    "Art.C87_seek_false",
    "Art.C87_false",
    "Art.C87_partial",
    "Art.C87_exact",
    "Art.C87_ends"
   ],
   "note": "false: SeekLowerBound appends '$' in place if its slice is not empty and has spare capacity, and so destroys the keys of calls in other goroutines, as they destroy its own (witness schedules); proved in any memory, for every schedule: right results if no append overwrites a byte of another key (C87_partial), in particular if the slices of the appending calls have no spare capacity (C87_exact); calls always return (C87_ends)"
  }
 ]
}