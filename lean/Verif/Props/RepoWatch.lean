import Verif.Props.RepoTests
/-
The repository's tests of transactions and watches, run on the model (see `RepoTests.lean`).  The calls of
`hasAnyClosedMutateCh` in them are left out: its loop runs while `Front` is not nil, and that is never (C83).  The
variants of the tests that call `Notify` after `CommitOnly` are included; in the others `slowNotify` is called directly,
which is what `Notify` does when `TrackMutate` is on (txn.go:372-378).
-/
set_option autoImplicit false
set_option maxRecDepth 100000

namespace Art

/-- Is the channel that the calls numbered `is` returned closed, after all the calls? -/
def shutAfter (ops : List (Op Nat)) (is : List Nat) : List (Option Bool) :=
  let r : List (Out Nat) × World Nat := execAll World.init ops
  is.map fun i => match (r.1[i]? : Option (Out Nat)) with
    | some (Out.chan c _) => r.2.chans[c]?
    | some (Out.watch c) => r.2.chans[c]?
    | _ => none

/-- tree_test.go:55-73 `TestInsert_UpdateFeedback`: ten inserts of one key. -/
theorem repo_UpdateFeedback :
    (execAll World.init (.newTree :: .begin 0 ::
      (List.range 10).map fun i => Op.txnInsert 0 k!"helloworld" (some i))).1.drop 2 =
    Out.updated none false :: (List.range 9).map fun i => Out.updated (some i) true := by decide +kernel

/-- tree_test.go:116-133. -/
def longKey1 : Key := [16, 0, 0, 0, 7, 10, 0, 0, 0, 2, 17, 10, 0, 0, 0, 120, 10, 0, 0, 0, 120, 10, 0, 0, 0, 216, 10, 0, 0, 0, 202,
    10, 0, 0, 0, 194, 10, 0, 0, 0, 224, 10, 0, 0, 0, 230, 10, 0, 0, 0, 210, 10, 0, 0, 0, 206, 10, 0, 0, 0, 208,
    10, 0, 0, 0, 232, 10, 0, 0, 0, 124, 10, 0, 0, 0, 124, 2, 16, 0, 0, 0, 2, 12, 185, 89, 44, 213, 251, 173,
    202, 211, 95, 185, 89, 110, 118, 251, 173, 202, 199, 101, 0, 8, 18, 182, 92, 236, 147, 171, 101, 150, 195,
    112, 185, 218, 108, 246, 139, 164, 234, 195, 58, 177, 0, 8, 16, 0, 0, 0, 2, 12, 185, 89, 44, 213, 251, 173,
    202, 211, 95, 185, 89, 110, 118, 251, 173, 202, 199, 101, 0, 8, 18, 180, 93, 46, 151, 9, 212, 190, 95, 102,
    178, 217, 44, 178, 235, 29, 190, 218, 8, 16, 0, 0, 0, 2, 12, 185, 89, 44, 213, 251, 173, 202, 211, 95, 185,
    89, 110, 118, 251, 173, 202, 199, 101, 0, 8, 18, 180, 93, 46, 151, 9, 212, 190, 95, 102, 183, 219, 229, 214,
    59, 125, 182, 71, 108, 180, 220, 238, 150, 91, 117, 150, 201, 84, 183, 128, 8, 16, 0, 0, 0, 2, 12, 185, 89,
    44, 213, 251, 173, 202, 211, 95, 185, 89, 110, 118, 251, 173, 202, 199, 101, 0, 8, 18, 180, 93, 46, 151, 9,
    212, 190, 95, 108, 176, 217, 47, 50, 219, 61, 134, 207, 97, 151, 88, 237, 246, 208, 8, 18, 255, 255, 255,
    219, 191, 198, 134, 5, 223, 212, 72, 44, 208, 250, 180, 14, 1, 0, 0, 8]

/-- tree_test.go:134-152. -/
def longKey2 : Key := [16, 0, 0, 0, 7, 10, 0, 0, 0, 2, 17, 10, 0, 0, 0, 120, 10, 0, 0, 0, 120, 10, 0, 0, 0, 216, 10, 0, 0, 0, 202,
    10, 0, 0, 0, 194, 10, 0, 0, 0, 224, 10, 0, 0, 0, 230, 10, 0, 0, 0, 210, 10, 0, 0, 0, 206, 10, 0, 0, 0, 208,
    10, 0, 0, 0, 232, 10, 0, 0, 0, 124, 10, 0, 0, 0, 124, 2, 16, 0, 0, 0, 2, 12, 185, 89, 44, 213, 251, 173,
    202, 211, 95, 185, 89, 110, 118, 251, 173, 202, 199, 101, 0, 8, 18, 182, 92, 236, 147, 171, 101, 150, 195,
    112, 185, 218, 108, 246, 139, 164, 234, 195, 58, 177, 0, 8, 16, 0, 0, 0, 2, 12, 185, 89, 44, 213, 251, 173,
    202, 211, 95, 185, 89, 110, 118, 251, 173, 202, 199, 101, 0, 8, 18, 180, 93, 46, 151, 9, 212, 190, 95, 102,
    178, 217, 44, 178, 235, 29, 190, 218, 8, 16, 0, 0, 0, 2, 12, 185, 89, 44, 213, 251, 173, 202, 211, 95, 185,
    89, 110, 118, 251, 173, 202, 199, 101, 0, 8, 18, 180, 93, 46, 151, 9, 212, 190, 95, 102, 183, 219, 229, 214,
    59, 125, 182, 71, 108, 180, 220, 238, 150, 91, 117, 150, 201, 84, 183, 128, 8, 16, 0, 0, 0, 3, 12, 185, 89,
    44, 213, 251, 133, 178, 195, 105, 183, 87, 237, 150, 155, 165, 150, 229, 97, 182, 0, 8, 18, 161, 91, 239,
    50, 10, 61, 150, 223, 114, 179, 217, 64, 8, 12, 186, 219, 172, 150, 91, 53, 166, 221, 101, 178, 0, 8, 18,
    255, 255, 255, 219, 191, 198, 134, 5, 208, 212, 72, 44, 208, 250, 180, 14, 1, 0, 0, 8]

/-- tree_test.go:113-161 `TestARTree_InsertVeryLongKey`. -/
theorem repo_VeryLongKey :
    let r := execAll World.init (build [longKey1, longKey2])
    r.1.drop 1 = [.updated 0 false, .updated 0 false] ∧ r.2.trees.map treeLen = [0, 1, 2] := by decide +kernel

/-- reverse_iterator_test.go:345-385 `TestReverseIterator_SeekPrefix`, and the second prefix, which the test leaves open. -/
theorem repo_ReverseSeekPrefix :
    let r := repoTree [k!"001", k!"002", k!"005", k!"010", k!"100"]
    (revSeekPrefix r.1 (mkRevIter r.2.root) k!"005").map (·.node.isSome) = .ok true ∧
    (revSeekPrefix r.1 (mkRevIter r.2.root) k!"2").map (·.node.isSome) = .ok true := by decide +kernel

/-- reverse_iterator_test.go:412-430 `TestReverseIterator_Previous`. -/
theorem repo_Previous :
    let r := repoTree [k!"001", k!"002", k!"005", k!"010", k!"100"]
    (revCollect r.1 1000 (mkRevIter r.2.root)).map keysOf = .ok [k!"100", k!"010", k!"005", k!"002", k!"001"] := by
  decide +kernel

/-- reverse_iterator_test.go:387-410 `TestReverseIterator_SeekPrefixWatch`; `ReverseIterator.SeekPrefixWatch` is that of
the iterator inside. -/
theorem repo_ReverseSeekPrefixWatch :
    shutAfter (build [k!"key"] ++ [.seekPrefixWatch 1 k!"key", .begin 1, .trackMutate 0 true, .txnInsert 0 k!"key" 7,
      .commit 0]) [2] = [some true] := by decide +kernel

/-- How a transaction ends in the two variants of the tests. -/
def endOf (x : Nat) (only : Bool) : List (Op Nat) := if only then [.commitOnly x, .notify x] else [.commit x]

/-- A transaction on tree `t` that makes one call, with watches on. -/
def watched (t x : Nat) (op : Op Nat) (only : Bool) : List (Op Nat) :=
  [.begin t, .trackMutate x true, op] ++ endOf x only

/-- tree_test.go:1111-1118. -/
def deleteWatchKeys : List Key :=
  [k!"foo", k!"foo/bar/baz", k!"foo/baz/bar", k!"foo/zip/zap", k!"bazbaz", k!"zipzap"]

/-- tree_test.go:1107-1187 `TestTrackMutate_DeletePrefix`.  Calls 7 to 11 are the watches. -/
def deleteWatchOps : List (Op Nat) :=
  build deleteWatchKeys ++ [.getWatch 6 [], .getWatch 6 k!"foo/bar/baz", .getWatch 6 k!"foo/baz/bar",
    .getWatch 6 k!"foo/zip/zap", .getWatch 6 k!"bazbaz", .begin 6, .trackMutate 0 true, .txnDeletePrefix 0 k!"foo"]

theorem repo_TrackMutate_DeletePrefix :
    (execAll World.init deleteWatchOps).2.trees.getLast?.map treeLen = some 6 ∧
    (execAll World.init deleteWatchOps).1.getLast? = some (.flag true) ∧
    shutAfter (deleteWatchOps ++ [.commit 0]) [7, 8, 9, 10, 11] =
      [some true, some true, some true, some true, some false] := by decide +kernel

/-- tree_test.go:1231-1257, before the first transaction of `TestTrackMutate_SeekPrefixWatch`.  Calls 6 to 10 are the
watches. -/
def seekWatch1 : List (Op Nat) := build prefixKeys ++
  [.seekPrefixWatch 5 k!"nope", .seekPrefixWatch 5 k!"foo", .seekPrefixWatch 5 k!"foobar",
   .seekPrefixWatch 5 k!"foobarbaz", .seekPrefixWatch 5 k!"foo/b"]

/-- tree_test.go:1260-1315, up to the watches before the second transaction. -/
def seekWatch2 (only : Bool) : List (Op Nat) :=
  seekWatch1 ++ watched 5 0 (.txnInsert 0 k!"foobarbaz" 0) only ++
  [.seekPrefixWatch 6 k!"nope", .seekPrefixWatch 6 k!"foo", .seekPrefixWatch 6 k!"foobar",
   .seekPrefixWatch 6 k!"foobarbaz"]

/-- tree_test.go:1227-1362 `TestTrackMutate_SeekPrefixWatch`, first transaction. -/
theorem repo_SeekPrefixWatch_insert : ∀ only : Bool,
    shutAfter (seekWatch1 ++ watched 5 0 (.txnInsert 0 k!"foobarbaz" 0) only) [6, 7, 8, 9, 10] =
      [some true, some true, some true, some true, some false] := by decide +kernel

/-- tree_test.go:1227-1362 `TestTrackMutate_SeekPrefixWatch`, second transaction. -/
theorem repo_SeekPrefixWatch_delete : ∀ only : Bool,
    let n := if only then 16 else 15
    shutAfter (seekWatch2 only ++ watched 6 1 (.txnDelete 1 k!"foobarbaz") only) [n, n + 1, n + 2, n + 3, 10] =
      [some true, some true, some true, some true, some false] := by decide +kernel

/-- tree_test.go:1382-1404: the watches of `TestTrackMutate_GetWatch` are calls 6 to 9. -/
def getWatch1 : List (Op Nat) := build prefixKeys ++
  [.getWatch 5 [], .getWatch 5 k!"foo", .getWatch 5 k!"foobar", .getWatch 5 k!"foo/b"]

/-- tree_test.go:1406-1417, the first transaction. -/
def getWatch2 : List (Op Nat) := getWatch1 ++ watched 5 0 (.txnInsert 0 k!"foobarbaz" 0) true
/-- tree_test.go:1446-1470, calls 15 and 16 and the second transaction. -/
def getWatch3 : List (Op Nat) :=
  getWatch2 ++ [.getWatch 6 [], .getWatch 6 k!"foo"] ++ watched 6 1 (.txnInsert 1 k!"foobar" 0) true
/-- tree_test.go:1495-1525, calls 22 to 24 and the third transaction. -/
def getWatch4 : List (Op Nat) :=
  getWatch3 ++ [.getWatch 7 [], .getWatch 7 k!"foo", .getWatch 7 k!"foobar"] ++
    watched 7 2 (.txnDelete 2 k!"foobarbaz") true
/-- tree_test.go:1552-1576, calls 30 and 31 and the fourth transaction. -/
def getWatch5 : List (Op Nat) :=
  getWatch4 ++ [.getWatch 8 [], .getWatch 8 k!"foo"] ++ watched 8 3 (.txnDelete 3 k!"foobar") true

/-- tree_test.go:1364-1602 `TestTrackMutate_GetWatch` (with `CommitOnly` and `Notify`): after each of the four
transactions, the watches of the root, of "foo", of "foobar" and of "foo/b". -/
theorem repo_GetWatch :
    shutAfter getWatch2 [6, 7, 8, 9] = [some true, some true, some false, some false] ∧
    shutAfter getWatch3 [15, 16, 8, 9] = [some true, some true, some true, some false] ∧
    shutAfter getWatch4 [22, 23, 24, 9] = [some true, some true, some false, some false] ∧
    shutAfter getWatch5 [30, 31, 24, 9] = [some true, some true, some true, some false] := by decide +kernel

/-- tree_test.go:1732-1764 `TestLenTxn`. -/
theorem repo_LenTxn :
    let ks : List Key := [k!"foo/bar/baz", k!"foo/baz/bar", k!"foo/zip/zap", k!"foobar", k!"nochange"]
    (execAll World.init ([.newTree, .begin 0] ++ ks.map (fun k => Op.txnInsert 0 k 0) ++ [.commit 0, .begin 1] ++
      ks.map (fun k => Op.txnDelete 1 k) ++ [.commit 1])).2.trees.map treeLen = [0, 5, 0] := by decide +kernel

end Art
