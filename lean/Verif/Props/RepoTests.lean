import Verif.Props.Negations
/-
The repository's own tests, run on the model.  The tables are taken from the `_test.go` files, entry by entry;
every one gives on the model the result that the test demands of the code.  The two long tables are evaluated with
`#guard` (by the interpreter, when the file is built; they have up to 275 keys), the others by the kernel.  This says
nothing about other inputs: it is evidence that the model was transcribed correctly, since the authors' expectations were
written down independently of it.

Of the tests over files of words and UUIDs a part of the keys is used.  Left out: tests with random input, and two tests
over too many keys (`TestRadix_HugeTxn`, `TestTrackMutate_HugeTxn`).
-/
set_option autoImplicit false
set_option maxRecDepth 100000

namespace Art

/-- `k!"foo"` are the bytes of the string, as `[]byte("foo")` in the tests. -/
macro:max "k!" s:str : term => do
  let bs := s.getString.toUTF8.toList.map fun b => Lean.Syntax.mkNumLit (toString b.toNat)
  `(([ $(bs.toArray),* ] : List UInt8))

/-- The keys of a list of pairs; the tests do not look at the values. -/
def keysOf {V : Type} (l : List (Key × V)) : List Key := l.map Prod.fst

/-- The heap and the tree after the keys were inserted one by one into an empty tree. -/
def repoTree (ks : List Key) : Heap Nat × Tree :=
  let w := (execAll World.init (build ks)).2
  (w.heap, (w.trees[ks.length]?).getD default)

/-- iterator_test.go:989-1015: the keys that `LowerBoundIterator`, `SeekLowerBound(s)` and `Next` give. -/
def repoLow (ks : List Key) (s : Key) : R (List Key) := do
  let (h, t) := repoTree ks
  let st ← seekLowerBound h t.root s
  keysOf <$> lbCollect h 1000 st

/-- reverse_iterator_test.go:307-335: the length of the tree, and the keys that `ReverseIterator`,
`SeekReverseLowerBound(s)` and `Previous` give.  The slice `[]byte(s)` has room for 32 bytes. -/
def repoRev (ks : List Key) (s : Key) : R (Int × List Key) := do
  let (h, t) := repoTree ks
  let it ← seekReverseLowerBound h (mkRevIter t.root) s (List.replicate (32 - s.length) 0)
  let l ← revCollect h 1000 it
  pure (treeLen t, keysOf l)

/-- path_iter_test.go:67-107: the length of the tree, and the keys that `GetPathIterator(s)` and `Next` give. -/
def repoPath (ks : List Key) (s : Key) : R (Int × List Key) := do
  let (h, t) := repoTree ks
  let l ← pathCollect h 1000 (getPathIterator t s)
  pure (treeLen t, keysOf l)

/-- tree_test.go:850-896: the length of the tree, and the key that `LongestPrefix(s)` gives. -/
def repoLong (ks : List Key) (s : Key) : R (Int × Option Key) := do
  let (h, t) := repoTree ks
  let r ← longestPrefix h t s
  pure (treeLen t, r.map Prod.fst)

/-- tree_test.go:1010-1105: the length of the tree, and the keys that `Iterator`, `SeekPrefix(s)` and `Next` give. -/
def repoPrefix (ks : List Key) (s : Key) : R (Int × List Key) := do
  let (h, t) := repoTree ks
  let l ← iterPrefix h t s 1000
  pure (treeLen t, keysOf l)

/-- tree_test.go:983-1007: `DeletePrefix(s)`, then `DeletePrefix("CCCCC")` on the tree it made; the lengths of the tree
before and after the first call, and what the two calls return. -/
def repoDeletePrefix (ks : List Key) (s : Key) : List Int × List (Out Nat) :=
  let r := execAll World.init (build ks ++ [.deletePrefix ks.length s, .deletePrefix (ks.length + 1) k!"CCCCC"])
  (((r.2.trees.drop ks.length).take 2).map treeLen, r.1.drop (ks.length + 1))

/-! ### iterator_test.go:93-985, the cases of `TestIterateLowerBound`: keys, bound, expected keys -/

#guard repoLow
    [k!"00000", k!"00001", k!"00004", k!"00010", k!"00020", k!"20020"]
    k!"00000" = .ok [k!"00000", k!"00001", k!"00004", k!"00010", k!"00020", k!"20020"]

#guard repoLow
    [k!"00000", k!"00001", k!"00004", k!"00010", k!"00020", k!"20020"]
    k!"00003" = .ok [k!"00004", k!"00010", k!"00020", k!"20020"]

#guard repoLow
    [k!"00000", k!"00001", k!"00004", k!"00010", k!"00020", k!"20020"]
    k!"00010" = .ok [k!"00010", k!"00020", k!"20020"]

#guard repoLow
    [k!"00000", k!"00001", k!"00004", k!"00010", k!"00020", k!"20020"]
    k!"20000" = .ok [k!"20020"]

#guard repoLow
    [k!"00000", k!"00001", k!"00004", k!"00010", k!"00020", k!"20020"]
    k!"20020" = .ok [k!"20020"]

#guard repoLow
    [k!"00000", k!"00001", k!"00004", k!"00010", k!"00020", k!"20020"]
    k!"20022" = .ok []

#guard repoLow
    [k!"a1", k!"abc", k!"barbazboo", k!"f", k!"foo", k!"found", k!"zap", k!"zip"]
    k!"A" = .ok [k!"a1", k!"abc", k!"barbazboo", k!"f", k!"foo", k!"found", k!"zap", k!"zip"]

#guard repoLow
    [k!"a1", k!"abc", k!"barbazboo", k!"f", k!"foo", k!"found", k!"zap", k!"zip"]
    k!"a1" = .ok [k!"a1", k!"abc", k!"barbazboo", k!"f", k!"foo", k!"found", k!"zap", k!"zip"]

#guard repoLow
    [k!"a1", k!"abc", k!"barbazboo", k!"f", k!"foo", k!"found", k!"zap", k!"zip"]
    k!"b" = .ok [k!"barbazboo", k!"f", k!"foo", k!"found", k!"zap", k!"zip"]

#guard repoLow
    [k!"a1", k!"abc", k!"barbazboo", k!"f", k!"foo", k!"found", k!"zap", k!"zip"]
    k!"bar" = .ok [k!"barbazboo", k!"f", k!"foo", k!"found", k!"zap", k!"zip"]

#guard repoLow
    [k!"a1", k!"abc", k!"barbazboo", k!"f", k!"foo", k!"found", k!"zap", k!"zip"]
    k!"barbazboo0" = .ok [k!"f", k!"foo", k!"found", k!"zap", k!"zip"]

#guard repoLow
    [k!"a1", k!"abc", k!"barbazboo", k!"f", k!"foo", k!"found", k!"zap", k!"zip"]
    k!"zippy" = .ok []

#guard repoLow
    [k!"a1", k!"abc", k!"barbazboo", k!"f", k!"foo", k!"found", k!"zap", k!"zip"]
    k!"zi" = .ok [k!"zip"]

#guard repoLow
    [k!"bb", k!"bc"]
    k!"ac" = .ok [k!"bb", k!"bc"]

#guard repoLow
    [k!"aaaba", k!"aabaa", k!"aabab", k!"aabcb", k!"aacca", k!"abaaa", k!"abacb", k!"abbcb", k!"abcaa", k!"abcba",
    k!"abcbb", k!"acaaa", k!"acaab", k!"acaac", k!"acaca", k!"acacb", k!"acbaa", k!"acbbb", k!"acbcc", k!"accca",
    k!"babaa", k!"babcc", k!"bbaaa", k!"bbacc", k!"bbbab", k!"bbbac", k!"bbbcc", k!"bbcab", k!"bbcca", k!"bbccc",
    k!"bcaac", k!"bcbca", k!"bcbcc", k!"bccac", k!"bccbc", k!"bccca", k!"caaab", k!"caacc", k!"cabac", k!"cabbb",
    k!"cabbc", k!"cabcb", k!"cacac", k!"cacbc", k!"cacca", k!"cbaba", k!"cbabb", k!"cbabc", k!"cbbaa", k!"cbbab",
    k!"cbbbc", k!"cbcbb", k!"cbcbc", k!"cbcca", k!"ccaaa", k!"ccabc", k!"ccaca", k!"ccacc", k!"ccbac", k!"cccaa",
    k!"cccac", k!"cccca"]
    k!"cbacb" = .ok [k!"cbbaa", k!"cbbab", k!"cbbbc", k!"cbcbb", k!"cbcbc", k!"cbcca", k!"ccaaa", k!"ccabc", k!"ccaca", k!"ccacc",
    k!"ccbac", k!"cccaa", k!"cccac", k!"cccca"]

#guard repoLow
    [k!"gcgc"]
    k!"" = .ok [k!"gcgc"]

#guard repoLow
    [k!"f", k!"fo", k!"foo", k!"food", k!"bug"]
    k!"foo" = .ok [k!"foo", k!"food"]

#guard repoLow
    [k!"f", k!"fo", k!"foo", k!"food", k!"bug", k!""]
    k!"foo" = .ok [k!"foo", k!"food"]

#guard repoLow
    [k!"f", k!"bug", k!""]
    k!"" = .ok [k!"", k!"bug", k!"f"]

#guard repoLow
    [k!"f", k!"bug", k!"xylophone"]
    k!"" = .ok [k!"bug", k!"f", k!"xylophone"]

#guard repoLow
    [k!"bar", k!"foo00", k!"foo11"]
    k!"foo" = .ok [k!"foo00", k!"foo11"]

#guard repoLow
    [k!"deaaa", k!"deabb", k!"fcdbbbb"]
    k!"" = .ok [k!"deaaa", k!"deabb", k!"fcdbbbb"]

#guard repoLow
    [k!"fd", k!"fddg", k!"gbcf", k!"gcdbgg", k!"gdffbb"]
    k!"fcb" = .ok [k!"fd", k!"fddg", k!"gbcf", k!"gcdbgg", k!"gdffbb"]

#guard repoLow
    [k!"eef", k!"efafcb", k!"fb", k!"fgbga"]
    k!"ag" = .ok [k!"eef", k!"efafcb", k!"fb", k!"fgbga"]

#guard repoLow
    [k!"age", k!"bga", k!"ccb", k!"ccfde", k!"fedggad", k!"gaa", k!"gaed", k!"gdbfc", k!"geagce"]
    k!"ggcd" = .ok []

#guard repoLow
    [k!"a", k!"afab", k!"dbg", k!"ecfdfbg", k!"gc"]
    k!"" = .ok [k!"a", k!"afab", k!"dbg", k!"ecfdfbg", k!"gc"]

#guard repoLow
    [k!"a", k!"abcdgfc", k!"abff", k!"agefdf", k!"b", k!"bbfbdf", k!"be", k!"bedaa", k!"cb", k!"cd", k!"cfc",
    k!"daa", k!"dcafb", k!"dcf", k!"deabfa", k!"degab", k!"df", k!"dge", k!"ea", k!"eagbffe", k!"ec", k!"efbbdeg",
    k!"f", k!"fbceag", k!"fffbgfb", k!"gbc", k!"gbge", k!"gggbaa"]
    k!"dbfbad" = .ok [k!"dcafb", k!"dcf", k!"deabfa", k!"degab", k!"df", k!"dge", k!"ea", k!"eagbffe", k!"ec", k!"efbbdeg", k!"f",
    k!"fbceag", k!"fffbgfb", k!"gbc", k!"gbge", k!"gggbaa"]

#guard repoLow
    [k!"cda", k!"cdacg", k!"deeadeg"]
    k!"bgfged" = .ok [k!"cda", k!"cdacg", k!"deeadeg"]

#guard repoLow
    [k!"aecfd", k!"b", k!"ddf", k!"dfae"]
    k!"adad" = .ok [k!"aecfd", k!"b", k!"ddf", k!"dfae"]

#guard repoLow
    [k!"", k!"a", k!"abdd", k!"aedd", k!"b", k!"bcc", k!"bcg", k!"bffg", k!"bgfa", k!"cadcefa", k!"cbfg", k!"cc",
    k!"ced", k!"cfddfc", k!"da", k!"dabca", k!"dad", k!"dcccbag", k!"ddcd", k!"de", k!"e", k!"eab", k!"eaebg",
    k!"ebaedbb", k!"ecd", k!"ee", k!"effgecf", k!"egfafga", k!"fef", k!"fffe", k!"g", k!"gccef", k!"gg"]
    k!"" = .ok [k!"", k!"a", k!"abdd", k!"aedd", k!"b", k!"bcc", k!"bcg", k!"bffg", k!"bgfa", k!"cadcefa", k!"cbfg", k!"cc",
    k!"ced", k!"cfddfc", k!"da", k!"dabca", k!"dad", k!"dcccbag", k!"ddcd", k!"de", k!"e", k!"eab", k!"eaebg",
    k!"ebaedbb", k!"ecd", k!"ee", k!"effgecf", k!"egfafga", k!"fef", k!"fffe", k!"g", k!"gccef", k!"gg"]

#guard repoLow
    [k!"fcg", k!"g", k!"ga", k!"ggbab"]
    k!"eecdce" = .ok [k!"fcg", k!"g", k!"ga", k!"ggbab"]

#guard repoLow
    [k!"bfdgcfe", k!"ca", k!"dbf"]
    k!"a" = .ok [k!"bfdgcfe", k!"ca", k!"dbf"]

#guard repoLow
    [k!"a", k!"abcbad", k!"acgcfcd", k!"afadb", k!"ageafge", k!"agecd", k!"bcce", k!"becgcda", k!"bfbg",
    k!"cbece", k!"cbgebaa", k!"cef", k!"d", k!"eaee", k!"f", k!"fcccfdb", k!"ffbdf", k!"geacded", k!"geccfff",
    k!"gefdgaf"]
    k!"" = .ok [k!"a", k!"abcbad", k!"acgcfcd", k!"afadb", k!"ageafge", k!"agecd", k!"bcce", k!"becgcda", k!"bfbg",
    k!"cbece", k!"cbgebaa", k!"cef", k!"d", k!"eaee", k!"f", k!"fcccfdb", k!"ffbdf", k!"geacded", k!"geccfff",
    k!"gefdgaf"]

#guard repoLow
    [k!"g", k!"ecfa", k!"fccdcab", k!"ffb", k!"gbcdab", k!"ge", k!"gegaa", k!"ggfd"]
    k!"ece" = .ok [k!"ecfa", k!"fccdcab", k!"ffb", k!"g", k!"gbcdab", k!"ge", k!"gegaa", k!"ggfd"]

#guard repoLow
    [k!"ebfbbda", k!"eedg", k!"fcgcfgd", k!"fgbgefa", k!"g", k!"gfab", k!"e"]
    k!"dfcda" = .ok [k!"e", k!"ebfbbda", k!"eedg", k!"fcgcfgd", k!"fgbgefa", k!"g", k!"gfab"]

#guard repoLow
    [k!"eace", k!"cbecg", k!"eacee", k!"eadfcdc", k!"eadgbc", k!"eafga", k!"ebbggd", k!"ebdcd", k!"ecc",
    k!"ececb", k!"ecefaef", k!"edbffd", k!"edbge", k!"eddd", k!"ede", k!"edeb", k!"edgbgf", k!"ee", k!"eedee",
    k!"ef", k!"efa", k!"efadaf", k!"effb", k!"efg", k!"eg", k!"egcbbd", k!"egdcaff", k!"f", k!"fa", k!"fadbff",
    k!"fagfec", k!"fbgfaf", k!"fcadb", k!"fcde", k!"fcegb", k!"fcfbfgd", k!"fd", k!"fdagf", k!"fdc", k!"fdcbf",
    k!"fdfb", k!"fdgc", k!"fefb", k!"ff", k!"ffce", k!"ffd", k!"ffec", k!"ffeef", k!"ffeg", k!"fff", k!"fgbde",
    k!"fgdbebc", k!"fgegaf", k!"g", k!"gaaff", k!"gab", k!"gaeddc", k!"gbaead", k!"gbbgcgf", k!"gbcdbac",
    k!"gbef", k!"gcf", k!"gddb", k!"ge", k!"gea", k!"geaga", k!"gebe", k!"gecgae", k!"gfb", k!"gfeba",
    k!"gfgeecd", k!"gg", k!"ggdac"]
    k!"eaccfd" = .ok [k!"eace", k!"eacee", k!"eadfcdc", k!"eadgbc", k!"eafga", k!"ebbggd", k!"ebdcd", k!"ecc", k!"ececb",
    k!"ecefaef", k!"edbffd", k!"edbge", k!"eddd", k!"ede", k!"edeb", k!"edgbgf", k!"ee", k!"eedee", k!"ef",
    k!"efa", k!"efadaf", k!"effb", k!"efg", k!"eg", k!"egcbbd", k!"egdcaff", k!"f", k!"fa", k!"fadbff",
    k!"fagfec", k!"fbgfaf", k!"fcadb", k!"fcde", k!"fcegb", k!"fcfbfgd", k!"fd", k!"fdagf", k!"fdc", k!"fdcbf",
    k!"fdfb", k!"fdgc", k!"fefb", k!"ff", k!"ffce", k!"ffd", k!"ffec", k!"ffeef", k!"ffeg", k!"fff", k!"fgbde",
    k!"fgdbebc", k!"fgegaf", k!"g", k!"gaaff", k!"gab", k!"gaeddc", k!"gbaead", k!"gbbgcgf", k!"gbcdbac",
    k!"gbef", k!"gcf", k!"gddb", k!"ge", k!"gea", k!"geaga", k!"gebe", k!"gecgae", k!"gfb", k!"gfeba",
    k!"gfgeecd", k!"gg", k!"ggdac"]

#guard repoLow
    [k!"dbacgg", k!"gfg", k!"gfggefe", k!"ggggde"]
    k!"gfd" = .ok [k!"gfg", k!"gfggefe", k!"ggggde"]

#guard repoLow
    [k!"gccdcc", k!"gcc", k!"gccdf", k!"gcdbdde", k!"gcdgac", k!"gcea", k!"gcebb", k!"gcedg", k!"gcefbgd",
    k!"gcf", k!"gcgaff", k!"gcgddgg", k!"gd", k!"gda", k!"gdaefc", k!"gdbebe", k!"gdbeffd", k!"gdceb",
    k!"gdcefcd", k!"ge", k!"gebeag", k!"gecd", k!"gecead", k!"gede", k!"geeaff", k!"gefacgc", k!"gefag", k!"geg",
    k!"gf", k!"gfa", k!"gfc", k!"gfca", k!"gfe", k!"gfeg", k!"gfg", k!"gfgcbg", k!"gfgdae", k!"gga", k!"ggadd",
    k!"ggafdbd", k!"ggbad", k!"ggbgadg", k!"ggfec", k!"ggffeb", k!"gggce"]
    k!"gcafede" = .ok [k!"gcc", k!"gccdcc", k!"gccdf", k!"gcdbdde", k!"gcdgac", k!"gcea", k!"gcebb", k!"gcedg", k!"gcefbgd",
    k!"gcf", k!"gcgaff", k!"gcgddgg", k!"gd", k!"gda", k!"gdaefc", k!"gdbebe", k!"gdbeffd", k!"gdceb",
    k!"gdcefcd", k!"ge", k!"gebeag", k!"gecd", k!"gecead", k!"gede", k!"geeaff", k!"gefacgc", k!"gefag", k!"geg",
    k!"gf", k!"gfa", k!"gfc", k!"gfca", k!"gfe", k!"gfeg", k!"gfg", k!"gfgcbg", k!"gfgdae", k!"gga", k!"ggadd",
    k!"ggafdbd", k!"ggbad", k!"ggbgadg", k!"ggfec", k!"ggffeb", k!"gggce"]

#guard repoLow
    [k!"g", k!"gfaabb"]
    k!"g" = .ok [k!"g", k!"gfaabb"]

#guard repoLow
    [k!"adee", k!"ccb", k!"d", k!"ecf", k!"ecgd", k!"ggac"]
    k!"fd" = .ok [k!"ggac"]

#guard repoLow
    [k!"aa", k!"aagbe", k!"aged", k!"bbbdef", k!"bgce", k!"c", k!"cd", k!"cedad", k!"cfd", k!"cfg", k!"cgcb",
    k!"cggcc", k!"e", k!"eadgfcf", k!"ebeefdd", k!"egegff", k!"f", k!"fbfg", k!"fcbfbba", k!"g", k!"ge", k!"gfff"]
    k!"gbe" = .ok [k!"ge", k!"gfff"]

#guard repoLow
    [k!"ee", k!"eeedd", k!"eeegd", k!"efbb", k!"eg", k!"fbaacf", k!"fbffgg", k!"fced", k!"fcedfba", k!"ffbaef",
    k!"ffdcgfe", k!"ffdf", k!"fgadb", k!"gacbbec", k!"gafe", k!"gbb", k!"gcfbaab", k!"gf"]
    k!"edcffef" = .ok [k!"ee", k!"eeedd", k!"eeegd", k!"efbb", k!"eg", k!"fbaacf", k!"fbffgg", k!"fced", k!"fcedfba", k!"ffbaef",
    k!"ffdcgfe", k!"ffdf", k!"fgadb", k!"gacbbec", k!"gafe", k!"gbb", k!"gcfbaab", k!"gf"]

#guard repoLow
    [k!"e", k!"egcde", k!"fc", k!"fgagga"]
    k!"dcebed" = .ok [k!"e", k!"egcde", k!"fc", k!"fgagga"]

#guard repoLow
    [k!"ebg", k!"fcbfa", k!"ffgc", k!"gbbed", k!"gbdaa", k!"gda"]
    k!"ebebadd" = .ok [k!"ebg", k!"fcbfa", k!"ffgc", k!"gbbed", k!"gbdaa", k!"gda"]

#guard repoLow
    [k!"dg", k!"dgc", k!"dgcf", k!"dgefddf", k!"dgge", k!"e", k!"eaagcga", k!"ebaab", k!"ec", k!"ecbbda", k!"ecc",
    k!"ecfce", k!"edb", k!"edbdadf", k!"edbffcb", k!"eed", k!"eeecaf", k!"efcbfc", k!"effab", k!"f", k!"faa",
    k!"fafe", k!"fag", k!"fagbab", k!"fbddbd", k!"fbf", k!"fc", k!"fcc", k!"fd", k!"fdd", k!"fdfddga",
    k!"fdfgebf", k!"fdgbfdd", k!"fef", k!"fff", k!"ffgbe", k!"fgddd", k!"fggac", k!"g", k!"ga", k!"gadaa",
    k!"gadbb", k!"gaggafb", k!"gb", k!"gbafd", k!"gbceag", k!"gbe", k!"gbffdc", k!"gc", k!"gcba", k!"gcgag",
    k!"gd", k!"gddadgd", k!"gddbae", k!"gde", k!"gegg", k!"ggbffg", k!"ggecdb"]
    k!"dfbgcg" = .ok [k!"dg", k!"dgc", k!"dgcf", k!"dgefddf", k!"dgge", k!"e", k!"eaagcga", k!"ebaab", k!"ec", k!"ecbbda", k!"ecc",
    k!"ecfce", k!"edb", k!"edbdadf", k!"edbffcb", k!"eed", k!"eeecaf", k!"efcbfc", k!"effab", k!"f", k!"faa",
    k!"fafe", k!"fag", k!"fagbab", k!"fbddbd", k!"fbf", k!"fc", k!"fcc", k!"fd", k!"fdd", k!"fdfddga",
    k!"fdfgebf", k!"fdgbfdd", k!"fef", k!"fff", k!"ffgbe", k!"fgddd", k!"fggac", k!"g", k!"ga", k!"gadaa",
    k!"gadbb", k!"gaggafb", k!"gb", k!"gbafd", k!"gbceag", k!"gbe", k!"gbffdc", k!"gc", k!"gcba", k!"gcgag",
    k!"gd", k!"gddadgd", k!"gddbae", k!"gde", k!"gegg", k!"ggbffg", k!"ggecdb"]

#guard repoLow
    [k!"ad", k!"adbfda", k!"ae", k!"aegffaf", k!"affcbae", k!"b", k!"baafb", k!"bacbdca", k!"bb", k!"bg",
    k!"bgfgag", k!"c", k!"cc", k!"ccd", k!"cdg", k!"ce", k!"cfca", k!"d", k!"deef", k!"e", k!"eadefa", k!"f",
    k!"fb", k!"fccdaa", k!"gaf"]
    k!"ac" = .ok [k!"ad", k!"adbfda", k!"ae", k!"aegffaf", k!"affcbae", k!"b", k!"baafb", k!"bacbdca", k!"bb", k!"bg",
    k!"bgfgag", k!"c", k!"cc", k!"ccd", k!"cdg", k!"ce", k!"cfca", k!"d", k!"deef", k!"e", k!"eadefa", k!"f",
    k!"fb", k!"fccdaa", k!"gaf"]

#guard repoLow
    [k!"a", k!"cddbdcc", k!"cddff", k!"cdfagd", k!"cdg", k!"ceaabeb", k!"cef", k!"cefa", k!"cf", k!"cfbaa",
    k!"cfegd", k!"cg", k!"d", k!"dbdaf", k!"dbf", k!"dbg", k!"dc", k!"dcadbfd", k!"dcceaeb", k!"ddbf", k!"dddcf",
    k!"defeff", k!"dfagcdc", k!"dfc", k!"dfd", k!"dgda", k!"dgdc", k!"dgea", k!"dgefgg", k!"e", k!"eaagb",
    k!"ead", k!"eae", k!"eb", k!"ebaeefa", k!"ebd", k!"ebg", k!"eca", k!"ecadf", k!"eccf", k!"ecffd", k!"ecg",
    k!"eebfaba", k!"eeceb", k!"efe", k!"efgbabf", k!"efgdadf", k!"egegcgc", k!"f", k!"fabe", k!"fad", k!"faga",
    k!"fbcae", k!"fbcege", k!"fbeeebe", k!"fc", k!"fcab", k!"fcgffc", k!"fddd", k!"fe", k!"feaf", k!"feefeda",
    k!"ffb", k!"fffag", k!"ffffc", k!"fgaacca", k!"fgcbb", k!"fgcec", k!"g", k!"gb", k!"gbcgc", k!"gbfcbbb",
    k!"gccabee", k!"gcccg", k!"gdbaeea", k!"ge", k!"gecebfc", k!"gefe", k!"gfaeabg", k!"gfbbgbf", k!"gfgbde",
    k!"ggd", k!"ggdeae"]
    k!"cdbce" = .ok [k!"cddbdcc", k!"cddff", k!"cdfagd", k!"cdg", k!"ceaabeb", k!"cef", k!"cefa", k!"cf", k!"cfbaa", k!"cfegd",
    k!"cg", k!"d", k!"dbdaf", k!"dbf", k!"dbg", k!"dc", k!"dcadbfd", k!"dcceaeb", k!"ddbf", k!"dddcf", k!"defeff",
    k!"dfagcdc", k!"dfc", k!"dfd", k!"dgda", k!"dgdc", k!"dgea", k!"dgefgg", k!"e", k!"eaagb", k!"ead", k!"eae",
    k!"eb", k!"ebaeefa", k!"ebd", k!"ebg", k!"eca", k!"ecadf", k!"eccf", k!"ecffd", k!"ecg", k!"eebfaba",
    k!"eeceb", k!"efe", k!"efgbabf", k!"efgdadf", k!"egegcgc", k!"f", k!"fabe", k!"fad", k!"faga", k!"fbcae",
    k!"fbcege", k!"fbeeebe", k!"fc", k!"fcab", k!"fcgffc", k!"fddd", k!"fe", k!"feaf", k!"feefeda", k!"ffb",
    k!"fffag", k!"ffffc", k!"fgaacca", k!"fgcbb", k!"fgcec", k!"g", k!"gb", k!"gbcgc", k!"gbfcbbb", k!"gccabee",
    k!"gcccg", k!"gdbaeea", k!"ge", k!"gecebfc", k!"gefe", k!"gfaeabg", k!"gfbbgbf", k!"gfgbde", k!"ggd",
    k!"ggdeae"]

#guard repoLow
    [k!"a", k!"aa", k!"aaad", k!"aabb", k!"aafdcc", k!"accgbbf", k!"adaa", k!"addec", k!"aeadacg", k!"aefgga",
    k!"afa", k!"ag", k!"baaffba", k!"baegde", k!"bba", k!"bba", k!"bbf", k!"bcdd", k!"bdbbe", k!"bdg",
    k!"beaabfd", k!"beggfga", k!"bfdg", k!"bfecbda", k!"bfgade", k!"bg", k!"bgff", k!"bgg", k!"c", k!"ca", k!"ca",
    k!"caa", k!"cad", k!"cb", k!"cbeff", k!"cc", k!"ccfe", k!"cd", k!"cdbda", k!"cdgge", k!"ce", k!"ceeccgc",
    k!"cfbd", k!"cgbdc", k!"d", k!"dadeee", k!"db", k!"dbabcec", k!"dbe", k!"ddg", k!"de", k!"decgbec",
    k!"deddgeb", k!"dfbfb", k!"dfcag", k!"dfeb", k!"ea", k!"eabbdgd", k!"eadc", k!"ebbfb", k!"ecebdc",
    k!"edbbbcb", k!"edbe", k!"ee", k!"eef", k!"eefaac", k!"eegg", k!"ef", k!"efb", k!"efdf", k!"efdgea",
    k!"efffca", k!"efg", k!"egbf", k!"fadaf", k!"fagddac", k!"fbb", k!"fcffdc", k!"febdfc", k!"feeafcb", k!"fff",
    k!"fffcbf", k!"fgbbefe", k!"g", k!"gac", k!"gbc", k!"gcbba", k!"ge", k!"gebgaf", k!"gec", k!"geecea",
    k!"geed", k!"geeg", k!"gfd"]
    k!"gd" = .ok [k!"ge", k!"gebgaf", k!"gec", k!"geecea", k!"geed", k!"geeg", k!"gfd"]

#guard repoLow
    [k!"ad", k!"adcagc", k!"adccgf", k!"adeeeba", k!"adfe", k!"ae", k!"aebcgeg", k!"aecccfg", k!"aecfc",
    k!"aeecc", k!"aeecdec", k!"aeef", k!"aefebfc", k!"aefg", k!"aeggca", k!"af", k!"afaabaa", k!"afaefe",
    k!"afffafd", k!"afg", k!"afgg", k!"aga", k!"agb", k!"agbeacf", k!"agc", k!"agceecf", k!"age", k!"agfcda",
    k!"aggg", k!"b", k!"ba", k!"baafcfc", k!"baafg", k!"babb", k!"bacd", k!"bbaccda", k!"bbaf", k!"bbeddda",
    k!"bbefe", k!"bc", k!"bcb", k!"bda", k!"bdaag", k!"bdc", k!"bddfcce", k!"bdf", k!"bdgc", k!"be", k!"bebc",
    k!"bebfgg", k!"befd", k!"begffb", k!"bf", k!"bfafd", k!"bfb", k!"bfdf", k!"bffa", k!"bffaa", k!"bffd", k!"bg",
    k!"bgbccc", k!"bgd", k!"bgfcdf", k!"c", k!"cae", k!"cagagec", k!"cbcea", k!"cbd", k!"cbdfdg", k!"cbgabge",
    k!"cc", k!"ccabbag", k!"ccde", k!"ccf", k!"ccffe", k!"ccffg", k!"cd", k!"cda", k!"cdd", k!"cdgbcge",
    k!"cdggec", k!"ce", k!"ceaadgb", k!"ceacfc", k!"cebad", k!"cedd", k!"cedfaaf", k!"cegeg", k!"cfagagd",
    k!"cfcbd", k!"cfdd", k!"cfdeac", k!"cfeadfd", k!"cfef", k!"cffd", k!"cffffb", k!"cfgf", k!"cg", k!"cgaaba",
    k!"cgaeg", k!"cgafbd", k!"cgbcc", k!"cgcbca", k!"cgcd", k!"cgcedbf", k!"cgdg", k!"cgeaeg", k!"cgeb",
    k!"cgeffd", k!"d", k!"da", k!"daa", k!"daf", k!"db", k!"dbacedb", k!"dbbc", k!"dbdfade", k!"dbegegf",
    k!"dbfac", k!"dbgdcfb", k!"dc", k!"dcb", k!"dcdfc", k!"dcegcg", k!"de", k!"deaeaa", k!"debdfc", k!"decd",
    k!"deceege", k!"degbf", k!"deged", k!"df", k!"dfaac", k!"dfdg", k!"dfg", k!"dg", k!"dgbefa", k!"dgceafc",
    k!"dgf", k!"e", k!"eaaagg", k!"eabab", k!"eb", k!"ebaf", k!"ebcea", k!"ebdagea", k!"ebdeg", k!"ec", k!"eca",
    k!"ecb", k!"ecbcffg", k!"ecbeaec", k!"ecdaac", k!"ecdcd", k!"ecdf", k!"ecfaffd", k!"ed", k!"edaag",
    k!"edbdbg", k!"edcdd", k!"edcgba", k!"edfdc", k!"edge", k!"edgfadd", k!"eeadb", k!"eeafcb", k!"eebb",
    k!"eecacge", k!"eeddgb", k!"eegda", k!"eegff", k!"ef", k!"efdadeb", k!"effdda", k!"efgceab", k!"efggf",
    k!"eg", k!"egaegg", k!"egc", k!"egcbgb", k!"egcd", k!"egdf", k!"egfdf", k!"eggg", k!"f", k!"fa", k!"fadab",
    k!"fadfag", k!"faf", k!"fafeaee", k!"fb", k!"fbabd", k!"fbcdba", k!"fbced", k!"fbd", k!"fbf", k!"fc",
    k!"fcbcfcd", k!"fccag", k!"fccdaca", k!"fcd", k!"fcdgfce", k!"fcfdec", k!"fcffe", k!"fd", k!"fda", k!"fdace",
    k!"fdbf", k!"fdcdf", k!"fdeadc", k!"fdegcgd", k!"fdfcaf", k!"fdgf", k!"fe", k!"febgb", k!"fecgba", k!"feda",
    k!"fedgf", k!"fegd", k!"ff", k!"ffagdcf", k!"ffagg", k!"ffc", k!"ffgcgc", k!"fg", k!"fgafcf", k!"fgcfa",
    k!"fgdf", k!"fgegde", k!"g", k!"ga", k!"gadbfea", k!"gadeg", k!"gaebd", k!"gaeeafb", k!"gafegf", k!"gbc",
    k!"gbd", k!"gbf", k!"gbgd", k!"gc", k!"gcacbg", k!"gcdgbeb", k!"gcf", k!"gcfd", k!"gcgfacg", k!"gd", k!"gdc",
    k!"gdcd", k!"gdd", k!"gddbee", k!"gdecgc", k!"gdf", k!"gdffed", k!"gdgea", k!"ge", k!"gebb", k!"geeaaef",
    k!"geebdef", k!"gfabcb", k!"gfbecde", k!"gfbedeg", k!"gfbf", k!"gfbgbcc", k!"gfbgea", k!"gfcgddb", k!"gfde",
    k!"gfgda", k!"gfgde", k!"gg", k!"ggaddb", k!"ggdgggb", k!"ggececf", k!"ggefde", k!"ggfee"]
    k!"accddfg" = .ok [k!"ad", k!"adcagc", k!"adccgf", k!"adeeeba", k!"adfe", k!"ae", k!"aebcgeg", k!"aecccfg", k!"aecfc",
    k!"aeecc", k!"aeecdec", k!"aeef", k!"aefebfc", k!"aefg", k!"aeggca", k!"af", k!"afaabaa", k!"afaefe",
    k!"afffafd", k!"afg", k!"afgg", k!"aga", k!"agb", k!"agbeacf", k!"agc", k!"agceecf", k!"age", k!"agfcda",
    k!"aggg", k!"b", k!"ba", k!"baafcfc", k!"baafg", k!"babb", k!"bacd", k!"bbaccda", k!"bbaf", k!"bbeddda",
    k!"bbefe", k!"bc", k!"bcb", k!"bda", k!"bdaag", k!"bdc", k!"bddfcce", k!"bdf", k!"bdgc", k!"be", k!"bebc",
    k!"bebfgg", k!"befd", k!"begffb", k!"bf", k!"bfafd", k!"bfb", k!"bfdf", k!"bffa", k!"bffaa", k!"bffd", k!"bg",
    k!"bgbccc", k!"bgd", k!"bgfcdf", k!"c", k!"cae", k!"cagagec", k!"cbcea", k!"cbd", k!"cbdfdg", k!"cbgabge",
    k!"cc", k!"ccabbag", k!"ccde", k!"ccf", k!"ccffe", k!"ccffg", k!"cd", k!"cda", k!"cdd", k!"cdgbcge",
    k!"cdggec", k!"ce", k!"ceaadgb", k!"ceacfc", k!"cebad", k!"cedd", k!"cedfaaf", k!"cegeg", k!"cfagagd",
    k!"cfcbd", k!"cfdd", k!"cfdeac", k!"cfeadfd", k!"cfef", k!"cffd", k!"cffffb", k!"cfgf", k!"cg", k!"cgaaba",
    k!"cgaeg", k!"cgafbd", k!"cgbcc", k!"cgcbca", k!"cgcd", k!"cgcedbf", k!"cgdg", k!"cgeaeg", k!"cgeb",
    k!"cgeffd", k!"d", k!"da", k!"daa", k!"daf", k!"db", k!"dbacedb", k!"dbbc", k!"dbdfade", k!"dbegegf",
    k!"dbfac", k!"dbgdcfb", k!"dc", k!"dcb", k!"dcdfc", k!"dcegcg", k!"de", k!"deaeaa", k!"debdfc", k!"decd",
    k!"deceege", k!"degbf", k!"deged", k!"df", k!"dfaac", k!"dfdg", k!"dfg", k!"dg", k!"dgbefa", k!"dgceafc",
    k!"dgf", k!"e", k!"eaaagg", k!"eabab", k!"eb", k!"ebaf", k!"ebcea", k!"ebdagea", k!"ebdeg", k!"ec", k!"eca",
    k!"ecb", k!"ecbcffg", k!"ecbeaec", k!"ecdaac", k!"ecdcd", k!"ecdf", k!"ecfaffd", k!"ed", k!"edaag",
    k!"edbdbg", k!"edcdd", k!"edcgba", k!"edfdc", k!"edge", k!"edgfadd", k!"eeadb", k!"eeafcb", k!"eebb",
    k!"eecacge", k!"eeddgb", k!"eegda", k!"eegff", k!"ef", k!"efdadeb", k!"effdda", k!"efgceab", k!"efggf",
    k!"eg", k!"egaegg", k!"egc", k!"egcbgb", k!"egcd", k!"egdf", k!"egfdf", k!"eggg", k!"f", k!"fa", k!"fadab",
    k!"fadfag", k!"faf", k!"fafeaee", k!"fb", k!"fbabd", k!"fbcdba", k!"fbced", k!"fbd", k!"fbf", k!"fc",
    k!"fcbcfcd", k!"fccag", k!"fccdaca", k!"fcd", k!"fcdgfce", k!"fcfdec", k!"fcffe", k!"fd", k!"fda", k!"fdace",
    k!"fdbf", k!"fdcdf", k!"fdeadc", k!"fdegcgd", k!"fdfcaf", k!"fdgf", k!"fe", k!"febgb", k!"fecgba", k!"feda",
    k!"fedgf", k!"fegd", k!"ff", k!"ffagdcf", k!"ffagg", k!"ffc", k!"ffgcgc", k!"fg", k!"fgafcf", k!"fgcfa",
    k!"fgdf", k!"fgegde", k!"g", k!"ga", k!"gadbfea", k!"gadeg", k!"gaebd", k!"gaeeafb", k!"gafegf", k!"gbc",
    k!"gbd", k!"gbf", k!"gbgd", k!"gc", k!"gcacbg", k!"gcdgbeb", k!"gcf", k!"gcfd", k!"gcgfacg", k!"gd", k!"gdc",
    k!"gdcd", k!"gdd", k!"gddbee", k!"gdecgc", k!"gdf", k!"gdffed", k!"gdgea", k!"ge", k!"gebb", k!"geeaaef",
    k!"geebdef", k!"gfabcb", k!"gfbecde", k!"gfbedeg", k!"gfbf", k!"gfbgbcc", k!"gfbgea", k!"gfcgddb", k!"gfde",
    k!"gfgda", k!"gfgde", k!"gg", k!"ggaddb", k!"ggdgggb", k!"ggececf", k!"ggefde", k!"ggfee"]

#guard repoLow
    [k!"a", k!"a", k!"aadaaeb", k!"aae", k!"ab", k!"abdccfe", k!"adaaaae", k!"addgdgg", k!"aecc", k!"aedgede",
    k!"af", k!"afagcec", k!"afddg", k!"affgagd", k!"agbbdd", k!"agfegb", k!"b", k!"b", k!"b", k!"b", k!"b",
    k!"baafeg", k!"bbafeb", k!"bbf", k!"bcbbef", k!"bcecbd", k!"bcf", k!"bdb", k!"bdgce", k!"bedgge", k!"bfadea",
    k!"bfca", k!"c", k!"c", k!"c", k!"c", k!"cac", k!"cadee", k!"caefe", k!"cbace", k!"cbbg", k!"cc", k!"ccdbca",
    k!"ccegfe", k!"ccggd", k!"cdc", k!"ce", k!"ceb", k!"cedeec", k!"ceecb", k!"cefae", k!"cf", k!"cfafdg",
    k!"cfb", k!"cfcd", k!"cfefe", k!"cga", k!"cgbg", k!"d", k!"d", k!"daabab", k!"dag", k!"db", k!"dbabgb",
    k!"dbcd", k!"dbg", k!"dc", k!"dc", k!"dcabcbc", k!"dcabe", k!"dccb", k!"dccf", k!"dce", k!"dcgdbcc", k!"ddd",
    k!"dddecge", k!"de", k!"de", k!"def", k!"defdcbc", k!"df", k!"df", k!"dfa", k!"dfabeba", k!"dfcaaba",
    k!"dfceg", k!"dfedg", k!"dg", k!"dgabadc", k!"dgced", k!"dgcggc", k!"e", k!"eaadfd", k!"ead", k!"eagbc",
    k!"eba", k!"ebafgd", k!"ebc", k!"ebeccbg", k!"ebf", k!"ebfb", k!"ecaceb", k!"ecafgbd", k!"eccfe", k!"ecgceg",
    k!"edbb", k!"edd", k!"edd", k!"eddg", k!"edggfcc", k!"ee", k!"ee", k!"eeb", k!"eebfffa", k!"efcd", k!"efcde",
    k!"efd", k!"efe", k!"effdgae", k!"egbb", k!"egbc", k!"eggf", k!"f", k!"fab", k!"faeae", k!"fbabf",
    k!"fbcgfff", k!"fbga", k!"fbgb", k!"fc", k!"fcbfcd", k!"fcdd", k!"fcfbg", k!"fdgcc", k!"fe", k!"fecgc",
    k!"fedcaag", k!"fff", k!"fg", k!"fg", k!"fgafg", k!"fgcceb", k!"fgddc", k!"fgdfcef", k!"fgdgedf", k!"g",
    k!"gabf", k!"gb", k!"gcfgefe", k!"gd", k!"gdacf", k!"gdc", k!"gdde", k!"gdeeegb", k!"gdgegea", k!"ge",
    k!"gea", k!"gef", k!"gfgdb", k!"ggad", k!"ggagcc", k!"ggb", k!"ggccgf", k!"ggebfdg", k!"ggf"]
    k!"dddagd" = .ok [k!"dddecge", k!"de", k!"def", k!"defdcbc", k!"df", k!"dfa", k!"dfabeba", k!"dfcaaba", k!"dfceg", k!"dfedg",
    k!"dg", k!"dgabadc", k!"dgced", k!"dgcggc", k!"e", k!"eaadfd", k!"ead", k!"eagbc", k!"eba", k!"ebafgd",
    k!"ebc", k!"ebeccbg", k!"ebf", k!"ebfb", k!"ecaceb", k!"ecafgbd", k!"eccfe", k!"ecgceg", k!"edbb", k!"edd",
    k!"eddg", k!"edggfcc", k!"ee", k!"eeb", k!"eebfffa", k!"efcd", k!"efcde", k!"efd", k!"efe", k!"effdgae",
    k!"egbb", k!"egbc", k!"eggf", k!"f", k!"fab", k!"faeae", k!"fbabf", k!"fbcgfff", k!"fbga", k!"fbgb", k!"fc",
    k!"fcbfcd", k!"fcdd", k!"fcfbg", k!"fdgcc", k!"fe", k!"fecgc", k!"fedcaag", k!"fff", k!"fg", k!"fgafg",
    k!"fgcceb", k!"fgddc", k!"fgdfcef", k!"fgdgedf", k!"g", k!"gabf", k!"gb", k!"gcfgefe", k!"gd", k!"gdacf",
    k!"gdc", k!"gdde", k!"gdeeegb", k!"gdgegea", k!"ge", k!"gea", k!"gef", k!"gfgdb", k!"ggad", k!"ggagcc",
    k!"ggb", k!"ggccgf", k!"ggebfdg", k!"ggf"]

/-! ### reverse_iterator_test.go:72-306, the cases of `TestReverseIterator_SeekLowerBound`: keys, bound, expected keys -/

#guard repoRev
    [k!"20020", k!"00020", k!"00010", k!"00004", k!"00001", k!"00000"]
    k!"20020" = .ok (6, [k!"20020", k!"00020", k!"00010", k!"00004", k!"00001", k!"00000"])

#guard repoRev
    [k!"20020", k!"00020", k!"00010", k!"00004", k!"00001", k!"00000"]
    k!"20000" = .ok (6, [k!"00020", k!"00010", k!"00004", k!"00001", k!"00000"])

#guard repoRev
    [k!"20020", k!"00020", k!"00010", k!"00004", k!"00001", k!"00000"]
    k!"00010" = .ok (6, [k!"00010", k!"00004", k!"00001", k!"00000"])

#guard repoRev
    [k!"20020", k!"00020", k!"00010", k!"00004", k!"00001", k!"00000"]
    k!"00000" = .ok (6, [k!"00000"])

#guard repoRev
    [k!"20020", k!"00020", k!"00010", k!"00004", k!"00001", k!"00000"]
    k!"0" = .ok (6, [])

#guard repoRev
    [k!"zip", k!"zap", k!"found", k!"foo", k!"f", k!"barbazboo", k!"abc", k!"a1"]
    k!"{" = .ok (8, [k!"zip", k!"zap", k!"found", k!"foo", k!"f", k!"barbazboo", k!"abc", k!"a1"])

#guard repoRev
    [k!"zip", k!"zap", k!"found", k!"foo", k!"f", k!"barbazboo", k!"abc", k!"a1"]
    k!"zip" = .ok (8, [k!"zip", k!"zap", k!"found", k!"foo", k!"f", k!"barbazboo", k!"abc", k!"a1"])

#guard repoRev
    [k!"zip", k!"zap", k!"found", k!"foo", k!"f", k!"barbazboo", k!"abc", k!"a1"]
    k!"b" = .ok (8, [k!"abc", k!"a1"])

#guard repoRev
    [k!"zip", k!"zap", k!"found", k!"foo", k!"f", k!"barbazboo", k!"abc", k!"a1"]
    k!"barbazboo0" = .ok (8, [k!"barbazboo", k!"abc", k!"a1"])

#guard repoRev
    [k!"zip", k!"zap", k!"found", k!"foo", k!"f", k!"barbazboo", k!"abc", k!"a1"]
    k!"a" = .ok (8, [])

#guard repoRev
    [k!"zip", k!"zap", k!"found", k!"foo", k!"f", k!"barbazboo", k!"abc", k!"a1"]
    k!"a1" = .ok (8, [k!"a1"])

#guard repoRev
    [k!"f", k!"fo", k!"foo", k!"food", k!"bug"]
    k!"foo" = .ok (5, [k!"foo", k!"fo", k!"f", k!"bug"])

#guard repoRev
    [k!"f", k!"fo", k!"foo", k!"food", k!"bug"]
    k!"foozzzzzzzzzz" = .ok (5, [k!"food", k!"foo", k!"fo", k!"f", k!"bug"])

#guard repoRev
    [k!"f", k!"fo", k!"foo", k!"food", k!"bug", k!""]
    k!"foo" = .ok (6, [k!"foo", k!"fo", k!"f", k!"bug", k!""])

#guard repoRev
    [k!"f", k!"bug", k!""]
    k!"" = .ok (3, [k!""])

#guard repoRev
    [k!"f", k!"bug", k!"xylophone"]
    k!"" = .ok (3, [])

#guard repoRev
    [k!"foo00", k!"foo11"]
    k!"foo" = .ok (2, [])

#guard repoRev
    [k!"bar", k!"foo00", k!"foo11"]
    k!"foo" = .ok (3, [k!"bar"])

#guard repoRev
    [k!"bdgedcdc", k!"agcbcaba"]
    k!"beefdafg" = .ok (2, [k!"bdgedcdc", k!"agcbcaba"])

#guard repoRev
    [k!"", k!"acc", k!"accea", k!"accgbbb", k!"b", k!"bdebfc", k!"bdfdcbb", k!"becccc", k!"bgefcfc", k!"c",
    k!"cab", k!"cbd", k!"cgeaff", k!"cggfbcb", k!"cggge", k!"dcgbd", k!"ddd", k!"decfd", k!"dgb", k!"e",
    k!"edaffec", k!"ee", k!"eedc", k!"efafdbd", k!"eg", k!"egf", k!"egfcd", k!"f", k!"fggfdad", k!"g",
    k!"gageecc", k!"ggd"]
    k!"adgba" = .ok (32, [k!"accgbbb", k!"accea", k!"acc", k!""])

#guard repoRev
    [k!"", k!"aa", k!"aacbdbc", k!"abe", k!"adbecg", k!"bfe", k!"cacaadc", k!"cbcafd", k!"cd", k!"cegbec",
    k!"daecbg", k!"db", k!"dbfgc", k!"dcabbbb", k!"dedadeb", k!"dfe", k!"ebeeccc", k!"ed", k!"edddf", k!"eggef",
    k!"faffc", k!"fbgb", k!"fga", k!"fggc", k!"g", k!"gaffdf", k!"gag", k!"gggcea"]
    k!"gc" = .ok (28, [k!"gag", k!"gaffdf", k!"g", k!"fggc", k!"fga", k!"fbgb", k!"faffc", k!"eggef", k!"edddf", k!"ed",
    k!"ebeeccc", k!"dfe", k!"dedadeb", k!"dcabbbb", k!"dbfgc", k!"db", k!"daecbg", k!"cegbec", k!"cd", k!"cbcafd",
    k!"cacaadc", k!"bfe", k!"adbecg", k!"abe", k!"aacbdbc", k!"aa", k!""])

#guard repoRev
    [k!"acefb", k!"cafega", k!"cccg", k!"cd"]
    k!"gcffb" = .ok (4, [k!"cd", k!"cccg", k!"cafega", k!"acefb"])

#guard repoRev
    [k!"af", k!"afa", k!"ba", k!"bacf", k!"c", k!"ceed", k!"cfbedd", k!"d", k!"dafbfe", k!"dc", k!"faeeb",
    k!"fdf", k!"gafce", k!"gdcdded", k!"geb"]
    k!"bgaegd" = .ok (15, [k!"bacf", k!"ba", k!"afa", k!"af"])

#guard repoRev
    [k!"", k!"a", k!"aaafbb", k!"ab", k!"abcggbg", k!"acbb", k!"ag", k!"b", k!"bcccea", k!"bcdg", k!"bcgefa",
    k!"bffeea", k!"bfgccg", k!"bg", k!"c", k!"cafae", k!"cbddbf", k!"ccbeec", k!"cdd", k!"ceegb", k!"cf", k!"d",
    k!"ddebeeg", k!"de", k!"decb", k!"defccd", k!"e", k!"eaaddb", k!"ecccfd", k!"edbaa", k!"efacgg", k!"egba",
    k!"egd", k!"facccdc", k!"fbefb", k!"fccbfc", k!"fgcdef", k!"fgcggg", k!"fgg", k!"gab", k!"gada"]
    k!"gga" = .ok (41, [k!"gada", k!"gab", k!"fgg", k!"fgcggg", k!"fgcdef", k!"fccbfc", k!"fbefb", k!"facccdc", k!"egd", k!"egba",
    k!"efacgg", k!"edbaa", k!"ecccfd", k!"eaaddb", k!"e", k!"defccd", k!"decb", k!"de", k!"ddebeeg", k!"d",
    k!"cf", k!"ceegb", k!"cdd", k!"ccbeec", k!"cbddbf", k!"cafae", k!"c", k!"bg", k!"bfgccg", k!"bffeea",
    k!"bcgefa", k!"bcdg", k!"bcccea", k!"b", k!"ag", k!"acbb", k!"abcggbg", k!"ab", k!"aaafbb", k!"a", k!""])

#guard repoRev
    [k!"aagcfgc", k!"acbcdca", k!"aceeaca", k!"ad", k!"aefab", k!"afdcec", k!"b", k!"badcf", k!"bbag",
    k!"bccdegd", k!"cafg", k!"cbb", k!"ccaagef", k!"daae", k!"dabdbb", k!"dbbgb", k!"dbcaca", k!"fbeaab",
    k!"ffeec", k!"fg", k!"ga", k!"gbc", k!"gdcg", k!"gec", k!"gecga", k!"gfa", k!"gfad"]
    k!"gg" = .ok (27, [k!"gfad", k!"gfa", k!"gecga", k!"gec", k!"gdcg", k!"gbc", k!"ga", k!"fg", k!"ffeec", k!"fbeaab", k!"dbcaca",
    k!"dbbgb", k!"dabdbb", k!"daae", k!"ccaagef", k!"cbb", k!"cafg", k!"bccdegd", k!"bbag", k!"badcf", k!"b",
    k!"afdcec", k!"aefab", k!"ad", k!"aceeaca", k!"acbcdca", k!"aagcfgc"])

/-- path_iter_test.go:15-22, the keys of `TestPathIterator`. -/
def pathKeys : List Key :=
    [k!"foo", k!"foo/bar", k!"foo/bar/baz", k!"foo/baz/bar", k!"foo/zip/zap", k!"zipzap"]

/-- path_iter_test.go:34-66, the cases of `TestPathIterator`: path, expected keys. -/
def pathTable : List (Key × List Key) := [
  (k!"f", []),
  (k!"foo", [k!"foo"]),
  (k!"foo/", [k!"foo"]),
  (k!"foo/ba", [k!"foo"]),
  (k!"foo/bar", [k!"foo", k!"foo/bar"]),
  (k!"foo/bar/baz", [k!"foo", k!"foo/bar", k!"foo/bar/baz"]),
  (k!"foo/bar/bazoo", [k!"foo", k!"foo/bar", k!"foo/bar/baz"]),
  (k!"z", [])]

/-- tree_test.go:853-860, the keys of `TestLongestPrefix`. -/
def longKeys : List Key :=
    [k!"", k!"foo", k!"foobar", k!"foobarbaz", k!"foobarbazzip", k!"foozip"]

/-- tree_test.go:872-886, the cases of `TestLongestPrefix`: key, expected prefix. -/
def longTable : List (Key × Key) := [
  (k!"a", k!""),
  (k!"abc", k!""),
  (k!"fo", k!""),
  (k!"foo", k!"foo"),
  (k!"foob", k!"foo"),
  (k!"foobar", k!"foobar"),
  (k!"foobarba", k!"foobar"),
  (k!"foobarbaz", k!"foobarbaz"),
  (k!"foobarbazzi", k!"foobarbaz"),
  (k!"foobarbazzip", k!"foobarbazzip"),
  (k!"foozi", k!"foo"),
  (k!"foozip", k!"foozip"),
  (k!"foozipzap", k!"foozip")]

/-- tree_test.go:1013-1019, the keys of `TestIteratePrefix`. -/
def prefixKeys : List Key :=
    [k!"foo/bar/baz", k!"foo/baz/bar", k!"foo/zip/zap", k!"foobar", k!"zipzap"]

/-- tree_test.go:1031-1086, the cases of `TestIteratePrefix`: prefix, expected keys. -/
def prefixTable : List (Key × List Key) := [
  (k!"", prefixKeys),
  (k!"f", [k!"foo/bar/baz", k!"foo/baz/bar", k!"foo/zip/zap", k!"foobar"]),
  (k!"foo", [k!"foo/bar/baz", k!"foo/baz/bar", k!"foo/zip/zap", k!"foobar"]),
  (k!"foob", [k!"foobar"]),
  (k!"foo/", [k!"foo/bar/baz", k!"foo/baz/bar", k!"foo/zip/zap"]),
  (k!"foo/b", [k!"foo/bar/baz", k!"foo/baz/bar"]),
  (k!"foo/ba", [k!"foo/bar/baz", k!"foo/baz/bar"]),
  (k!"foo/bar", [k!"foo/bar/baz"]),
  (k!"foo/bar/baz", [k!"foo/bar/baz"]),
  (k!"foo/bar/bazoo", []),
  (k!"z", [k!"zipzap"])]

/-- tree_test.go:908-981, the cases of `TestDeletePrefix`: keys, prefix, keys that stay. -/
def deletePrefixTable : List (List Key × Key × List Key) := [
  ([k!"", k!"test/test1", k!"test/test2", k!"test/test3", k!"R", k!"RA"],
    k!"test",
    [k!"", k!"R", k!"RA"]),
  ([k!"", k!"test", k!"test/test1", k!"test/test2", k!"test/test3", k!"test/testAAA", k!"R", k!"RA"],
    k!"test",
    [k!"", k!"R", k!"RA"]),
  ([k!"", k!"test/test1", k!"test/test2", k!"test/test3", k!"test/testAAA", k!"R", k!"RA"],
    k!"test/test",
    [k!"", k!"R", k!"RA"]),
  ([k!"", k!"AB", k!"ABC", k!"AR", k!"R", k!"RA"],
    k!"AR",
    [k!"", k!"AB", k!"ABC", k!"R", k!"RA"])]

/-- Do the inserts of the keys, one by one, all return? -/
def repoReturns (ks : List Key) : Bool :=
  (execAll World.init (build ks)).1.all fun o => match o with | .panic _ => false | .noSuch => false | _ => true

/-! ### tree_test.go:201-848 `TestDebug` and 1211-1225 `TestInsertNewStructure`: the calls return -/

#guard repoReturns
    [k!"sneakiness", k!"sneaking", k!"sneakingly", k!"sneakingness", k!"sneakish", k!"sneakishly",
    k!"sneakishness", k!"Zwinglianist", k!"zwitter", k!"zwitterion", k!"zwitterionic", k!"zyga", k!"zygadenine",
    k!"Zygadenus", k!"Zygaena", k!"zygaenid", k!"Zygaenidae", k!"zygal", k!"zygantra", k!"zygantrum",
    k!"zygapophyseal", k!"zygapophysis", k!"zygion", k!"zygite", k!"Zygnema", k!"Zygnemaceae", k!"A", k!"a",
    k!"aa", k!"aal", k!"aalii", k!"aam", k!"Aani", k!"aardvark", k!"aardwolf", k!"Aaron", k!"Aaronic",
    k!"Aaronical", k!"Aaronite", k!"Aaronitic", k!"Ab", k!"aba", k!"Ababdeh", k!"Ababua", k!"abac", k!"abaca",
    k!"abacate", k!"abacay", k!"abacinate", k!"abacination", k!"abaciscus", k!"abacist", k!"aback", k!"abactinal",
    k!"abactinally", k!"abaction", k!"abactor", k!"abaculus", k!"abacus", k!"Abadite", k!"abaff", k!"abaft",
    k!"abaisance", k!"abaiser", k!"abaissed", k!"abalienate", k!"abalienation", k!"abalone", k!"Abama",
    k!"abampere", k!"abandon", k!"abiston", k!"Abitibi", k!"abiuret", k!"abject", k!"abjectedness", k!"abjection",
    k!"abjective", k!"abjectly", k!"abjectness", k!"abjoint", k!"abjudge", k!"abjudicate", k!"abjudication",
    k!"abjunction", k!"abjunctive", k!"abjuration", k!"abjuratory", k!"abjure", k!"abjurement", k!"abjurer",
    k!"abkar", k!"abkari", k!"Abkhas", k!"Abkhasian", k!"ablach", k!"ablactate", k!"ablactation", k!"ablare",
    k!"ablastemic", k!"ablastous", k!"ablate", k!"ablation", k!"ablatitious", k!"ablatival", k!"ablative",
    k!"ablator", k!"ablaut", k!"ablaze", k!"able", k!"ableeze", k!"ablegate", k!"ableness", k!"ablepharia",
    k!"ablepharon", k!"ablepharous", k!"Ablepharus", k!"ablepsia", k!"ableptical", k!"ableptically", k!"abler",
    k!"ablest", k!"ablewhackets", k!"ablins", k!"abloom", k!"ablow", k!"ablude", k!"abluent", k!"ablush",
    k!"ablution", k!"ablutionary", k!"abluvion", k!"ably", k!"abmho", k!"Abnaki", k!"abnegate", k!"abnegation",
    k!"abnegative", k!"abnegator", k!"Abner", k!"abnerval", k!"abnet", k!"abneural", k!"abnormal",
    k!"abnormalism", k!"abnormalist", k!"abnormality", k!"abnormalize", k!"abnormally", k!"abnormalness",
    k!"abnormity", k!"abnormous", k!"abnumerable", k!"Abo", k!"aboard", k!"Abobra", k!"abode", k!"abodement",
    k!"abody", k!"Miastor", k!"miaul", k!"miauler", k!"mib", k!"mica", k!"micaceous", k!"micacious", k!"micacite",
    k!"Micah", k!"micasization", k!"micasize", k!"micate", k!"mication", k!"Micawberish", k!"Micawberism",
    k!"mice", k!"micellar", k!"micelle", k!"Michabo", k!"Michabou", k!"Michael", k!"Michaelites", k!"Michaelmas",
    k!"Michaelmastide", k!"miche", k!"Micheal", k!"Michel", k!"Michelangelesque", k!"Michelangelism",
    k!"Michelia", k!"Michelle", k!"micher", k!"Michiel", k!"Michigamea", k!"Michigan", k!"michigan",
    k!"Michigander", k!"Michiganite", k!"miching", k!"Michoacan", k!"Michoacano", k!"micht", k!"Mick", k!"mick",
    k!"Mickey", k!"mickle", k!"Micky", k!"Micmac", k!"mico", k!"miconcave", k!"Miconia", k!"micramock",
    k!"Micrampelis", k!"micranatomy", k!"micrander", k!"micrandrous", k!"micraner", k!"micranthropos",
    k!"Micraster", k!"micrencephalia", k!"micrencephalic", k!"micrencephalous", k!"micrencephalus",
    k!"micrencephaly", k!"micrergate", k!"micresthete", k!"micrify", k!"micro", k!"microammeter", k!"microampere",
    k!"microanalysis", k!"microanalyst", k!"microanalytical", k!"microangstrom", k!"microapparatus", k!"microbal",
    k!"microbalance", k!"microbar", k!"microbarograph", k!"microbattery", k!"microbe", k!"microbeless",
    k!"microbeproof", k!"microbial", k!"microbian", k!"microbic", k!"microbicidal", k!"microbicide",
    k!"microbiologic", k!"microbiological", k!"microbiologically", k!"microbiologist", k!"microbiology",
    k!"microbion", k!"microbiosis", k!"microbiota", k!"microbiotic", k!"microbious", k!"microbism", k!"microbium",
    k!"microblast", k!"microblepharia", k!"microblepharism", k!"microblephary", k!"microbrachia",
    k!"microbrachius", k!"microburet", k!"microburette", k!"microburner", k!"microcaltrop", k!"microcardia",
    k!"microcardius", k!"microcarpous", k!"Microcebus", k!"microcellular", k!"microcentrosome", k!"microcentrum",
    k!"microcephal", k!"microcephalia", k!"microcephalic", k!"microcephalism", k!"microcephalous",
    k!"microcephalus", k!"microcephaly", k!"microceratous", k!"microchaeta", k!"microcharacter", k!"microcheilia",
    k!"microcheiria", k!"microchemic", k!"microchemical", k!"microchemically", k!"zoogony", k!"zoograft",
    k!"zoografting", k!"zoographer", k!"zoographic", k!"zoographical", k!"zoographically", k!"zoographist",
    k!"zoography", k!"zooid", k!"zooidal", k!"zooidiophilous", k!"zooks", k!"zoolater", k!"zoolatria",
    k!"zoolatrous", k!"zoolatry", k!"zoolite", k!"zoolith", k!"zoolithic", k!"zoolitic", k!"zoologer",
    k!"zoologic", k!"zoological", k!"zoologically", k!"zoologicoarchaeologist", k!"zoologicobotanical",
    k!"zoologist", k!"zoologize", k!"zoology", k!"zoom", k!"zoomagnetic", k!"zoomagnetism", k!"zoomancy",
    k!"zoomania", k!"zoomantic", k!"zoomantist", k!"Zoomastigina", k!"Zoomastigoda", k!"zoomechanical",
    k!"zoomechanics", k!"zoomelanin", k!"zoometric", k!"zoometry", k!"zoomimetic", k!"zoomimic", k!"zoomorph",
    k!"zoomorphic", k!"zoomorphism", k!"zoomorphize", k!"zoomorphy", k!"zoon", k!"zoonal", k!"zoonerythrin",
    k!"zoonic", k!"zoonist", k!"zoonite", k!"zoonitic", k!"zoonomia", k!"zoonomic", k!"zoonomical", k!"zoonomist",
    k!"zoonomy", k!"zoonosis", k!"zoonosologist", k!"zoonosology", k!"zoonotic", k!"zoons", k!"zoonule",
    k!"zoopaleontology", k!"zoopantheon", k!"zooparasite", k!"zooparasitic", k!"zoopathological",
    k!"zoopathologist", k!"zoopathology", k!"zoopathy", k!"zooperal", k!"zooperist", k!"zoopery", k!"Zoophaga",
    k!"zoophagan", k!"Zoophagineae", k!"zoophagous", k!"zoopharmacological", k!"zoopharmacy", k!"zoophile",
    k!"zoophilia", k!"zoophilic", k!"zoophilism", k!"zoophilist", k!"zoophilite", k!"zoophilitic", k!"zoophilous",
    k!"zoophily", k!"zoophobia", k!"zoophobous", k!"zoophoric", k!"zoophorus", k!"zoophysical", k!"zoophysics",
    k!"zoophysiology", k!"Zoophyta", k!"zoophytal", k!"zoophyte", k!"zoophytic", k!"zoophytical", k!"zoophytish",
    k!"zoophytography", k!"zoophytoid", k!"zoophytological", k!"zoophytologist", k!"zoophytology",
    k!"zooplankton", k!"zooplanktonic", k!"zooplastic", k!"zooplasty", k!"zoopraxiscope", k!"zoopsia",
    k!"zoopsychological", k!"zoopsychologist", k!"zoopsychology", k!"zooscopic", k!"zooscopy", k!"zoosis",
    k!"zoosmosis", k!"zoosperm", k!"zoospermatic", k!"zoospermia", k!"zoospermium", k!"zoosphere",
    k!"zoosporange", k!"zoosporangia", k!"zoosporangial", k!"zoosporangiophore", k!"zoosporangium", k!"zoospore",
    k!"zoosporic", k!"zoosporiferous", k!"zoosporocyst", k!"zoosporous", k!"zootaxy", k!"zootechnic",
    k!"zootechnics", k!"zootechny", k!"zooter", k!"zoothecia", k!"zoothecial", k!"zoothecium", k!"zootheism",
    k!"zootheist", k!"zootheistic", k!"zootherapy", k!"zoothome", k!"zootic", k!"Zootoca", k!"zootomic",
    k!"zootomical", k!"zootomically", k!"zootomist", k!"zootomy", k!"zoototemism", k!"zootoxin", k!"zootrophic",
    k!"zootrophy", k!"zootype", k!"zootypic", k!"zooxanthella", k!"zooxanthellae", k!"zooxanthin", k!"zoozoo",
    k!"zopilote", k!"Zoquean", k!"Zoraptera", k!"zorgite", k!"zorilla", k!"Zorillinae", k!"zorillo",
    k!"Zoroastrian", k!"Zoroastrianism", k!"Zoroastrism", k!"Zorotypus", k!"zorrillo", k!"Zosma", k!"zoster",
    k!"Zostera", k!"Zosteraceae", k!"zosteriform", k!"Zosteropinae", k!"Zosterops", k!"Zouave", k!"zounds",
    k!"Zoysia", k!"Zubeneschamali", k!"zuccarino", k!"zucchetto", k!"zucchini", k!"zugtierlast",
    k!"zugtierlaster", k!"zuisin", k!"Zuleika", k!"Zulhijjah", k!"Zulinde", k!"Zulkadah", k!"Zuludom",
    k!"Zuluize", k!"zumatic", k!"zumbooruk", k!"Zunian", k!"zunyite", k!"zupanate", k!"Zutugil", k!"zuurveldt",
    k!"zwanziger", k!"Zwieback", k!"zwieback", k!"Zwinglian", k!"Zwinglianism", k!"Zwinglianist", k!"zwitter",
    k!"zwitterion", k!"zwitterionic", k!"zyga", k!"zygadenine", k!"Zygadenus", k!"Zygaena", k!"zygaenid",
    k!"Zygaenidae", k!"zygal", k!"zygantra", k!"zygantrum", k!"zygapophyseal", k!"zygapophysis", k!"zygion",
    k!"zygite", k!"Zygnema", k!"Zygnemaceae", k!"Zygnemales", k!"Zygnemataceae", k!"zygnemataceous",
    k!"Zygnematales", k!"zygobranch", k!"Zygobranchia", k!"Zygobranchiata", k!"zygobranchiate", k!"Zygocactus",
    k!"zygodactyl", k!"Zygodactylae", k!"Zygodactyli", k!"zygodactylic", k!"zygodactylism", k!"zygodactylous",
    k!"zygodont", k!"zygolabialis", k!"zygoma", k!"zygomata", k!"zygomatic", k!"zygomaticoauricular",
    k!"zygomaticoauricularis", k!"zygomaticofacial", k!"zygomaticofrontal", k!"zygomaticomaxillary",
    k!"zygomaticoorbital", k!"zygomaticosphenoid", k!"zygomaticotemporal", k!"zygomaticum", k!"zygomaticus",
    k!"zygomaxillare", k!"zygomaxillary", k!"zygomorphic", k!"zygomorphism", k!"zygomorphous", k!"zygomycete",
    k!"Zygomycetes", k!"zygomycetous", k!"zygoneure", k!"zygophore", k!"zygophoric", k!"Zygophyceae",
    k!"zygophyceous", k!"Zygophyllaceae", k!"zygophyllaceous", k!"Zygophyllum", k!"zygophyte", k!"zygopleural",
    k!"Zygoptera", k!"Zygopteraceae", k!"zygopteran", k!"zygopterid", k!"Zygopterides", k!"Zygopteris",
    k!"zygopteron", k!"zygopterous", k!"Zygosaccharomyces", k!"zygose", k!"zygosis", k!"zygosperm",
    k!"zygosphenal", k!"zygosphene", k!"zygosphere", k!"zygosporange", k!"zygosporangium", k!"zygospore",
    k!"zygosporic", k!"zygosporophore", k!"zygostyle", k!"zygotactic", k!"zygotaxis", k!"zygote", k!"zygotene",
    k!"zygotic", k!"zygotoblast", k!"zygotoid", k!"zygotomere", k!"zygous", k!"zygozoospore", k!"zymase",
    k!"zymic", k!"zymin", k!"zymite", k!"zymogen", k!"zymogene", k!"zymogenesis", k!"zymogenic", k!"zymogenous",
    k!"zymoid", k!"zymologic", k!"zymological", k!"zymologist", k!"zymology", k!"zymolyis", k!"zymolysis",
    k!"zymolytic", k!"zymome", k!"zymometer", k!"zymomin", k!"zymophore", k!"zymophoric", k!"zymophosphate",
    k!"zymophyte", k!"zymoplastic", k!"zymoscope", k!"zymosimeter", k!"zymosis", k!"zymosterol", k!"zymosthenic",
    k!"zymotechnic", k!"zymotechnical", k!"zymotechnics", k!"zymotechny", k!"zymotic", k!"zymotically",
    k!"zymotize", k!"zymotoxic", k!"zymurgy", k!"Zyrenian", k!"Zyrian", k!"Zyryan", k!"zythem", k!"Zythia",
    k!"zythum", k!"Zyzomys", k!"Zyzzogeton"]

#guard repoReturns (List.replicate 10
    [k!"aagcfgc", k!"acbcdca", k!"aceeaca", k!"ad", k!"aefab", k!"afdcec", k!"b", k!"badcf", k!"bbag",
    k!"bccdegd", k!"cafg", k!"cbb", k!"ccaagef", k!"daae", k!"dabdbb", k!"dbbgb", k!"dbcaca", k!"fbeaab",
    k!"ffeec", k!"fg", k!"ga", k!"gbc", k!"gdcg", k!"gec", k!"gecga", k!"gfa", k!"gfad"]).flatten

/-- tree_test.go:163-199: the keys are inserted one by one, then looked up and deleted one by one; what the calls of `Get` and
`Delete` return, and the lengths of the trees made by `Delete`. -/
def repoDrain (ks : List Key) : List (Out Nat) × List Int :=
  let n := ks.length
  let r := execAll World.init (build ks ++ ks.zipIdx.flatMap fun p => [Op.get (n + p.2) p.1, .delete (n + p.2) p.1])
  (r.1.drop (n + 1), (r.2.trees.drop (n + 1)).map treeLen)

/-- What the tests demand: every key is found with its line number, and the tree becomes shorter by one. -/
def repoDrained (n : Nat) : List (Out Nat) × List Int :=
  ((List.range n).flatMap fun i => [Out.value (some (i + 1)), .updated (i + 1) true],
    (List.range n).reverse.map Int.ofNat)

/-! ### tree_test.go:75-111, 163-199, 1866-1881: words and UUIDs, the first hundred words of the file, every two thousandth
word, and the first sixty UUIDs -/

#guard repoDrain
    [k!"A", k!"a", k!"aa", k!"aal", k!"aalii", k!"aam", k!"Aani", k!"aardvark", k!"aardwolf", k!"Aaron",
    k!"Aaronic", k!"Aaronical", k!"Aaronite", k!"Aaronitic", k!"Aaru", k!"Ab", k!"aba", k!"Ababdeh", k!"Ababua",
    k!"abac", k!"abaca", k!"abacate", k!"abacay", k!"abacinate", k!"abacination", k!"abaciscus", k!"abacist",
    k!"aback", k!"abactinal", k!"abactinally", k!"abaction", k!"abactor", k!"abaculus", k!"abacus", k!"Abadite",
    k!"abaff", k!"abaft", k!"abaisance", k!"abaiser", k!"abaissed", k!"abalienate", k!"abalienation", k!"abalone",
    k!"Abama", k!"abampere", k!"abandon", k!"abandonable", k!"abandoned", k!"abandonedly", k!"abandonee",
    k!"abandoner", k!"abandonment", k!"Abanic", k!"Abantes", k!"abaptiston", k!"Abarambo", k!"Abaris",
    k!"abarthrosis", k!"abarticular", k!"abarticulation", k!"abas", k!"abase", k!"abased", k!"abasedly",
    k!"abasedness", k!"abasement", k!"abaser", k!"Abasgi", k!"abash", k!"abashed", k!"abashedly", k!"abashedness",
    k!"abashless", k!"abashlessly", k!"abashment", k!"abasia", k!"abasic", k!"abask", k!"Abassin",
    k!"abastardize", k!"abatable", k!"abate", k!"abatement", k!"abater", k!"abatis", k!"abatised", k!"abaton",
    k!"abator", k!"abattoir", k!"Abatua", k!"abature", k!"abave", k!"abaxial", k!"abaxile", k!"abaze", k!"abb",
    k!"Abba", k!"abbacomes", k!"abbacy", k!"Abbadide"]
    = repoDrained 100

#guard repoDrain
    [k!"A", k!"actinomeric", k!"agitatedly", k!"Alstonia", k!"anchoritism", k!"anticontagious", k!"approximative",
    k!"ascellus", k!"autobasidium", k!"ballastage", k!"beefer", k!"bicorne", k!"blunger", k!"breastful",
    k!"buttonball", k!"capivi", k!"cavatina", k!"cheatable", k!"chrystocrene", k!"cnemidium", k!"commenter",
    k!"contemporize", k!"couldron", k!"crownmaker", k!"cytoparaplastin", k!"deflagrator", k!"despitefully",
    k!"dioeciously", k!"distortionist", k!"dropsicalness", k!"eimer", k!"endorse", k!"equant", k!"evoe", k!"fake",
    k!"finable", k!"forbiddal", k!"fuchsite", k!"gear", k!"glossopyrosis", k!"grievedly", k!"hamamelidaceous",
    k!"hemianopic", k!"hippogriff", k!"Hugoesque", k!"hypogee", k!"impersuadableness", k!"inermous",
    k!"intercombine", k!"iridoparalysis", k!"Jezebelish", k!"kilneye", k!"lanciform", k!"leucocrate",
    k!"logographically", k!"magicianship", k!"maskoid", k!"merchanter", k!"middleman", k!"Mograbi",
    k!"mountainless", k!"myxobacteriaceous", k!"neuropathic", k!"nonelementary", k!"norwestward", k!"oenometer",
    k!"organizationally", k!"outtravel", k!"overtask", k!"pand", k!"pashm", k!"penwright", k!"phalangerine",
    k!"physiophilosophy", k!"plastid", k!"polyaxon", k!"potatory", k!"preinformation", k!"prober",
    k!"protopoetic", k!"pumpkinish", k!"quinnat", k!"reassort", k!"Reheboth", k!"resquare", k!"rimosely",
    k!"Sabal", k!"saur", k!"scrodgill", k!"semiseriously", k!"sheetwriting", k!"siphoneous", k!"snobby",
    k!"spectatordom", k!"squareness", k!"stockrider", k!"subequally", k!"Sundayfied", k!"sweetener", k!"tangency",
    k!"tenontoplasty", k!"theurgical", k!"tobaccoite", k!"transmarine", k!"trochanterion", k!"typographically",
    k!"unbowel", k!"underbottom", k!"unevitable", k!"unimbroiled", k!"unoffset", k!"unridely", k!"untended",
    k!"urinomancy", k!"vermiculose", k!"waer", k!"whistness", k!"xenobiosis"]
    = repoDrained 118

#guard repoDrain
    [k!"eac6b78b-0c31-49a6-9c6d-e396e7dd7956", k!"5809c38a-4e46-4269-9eeb-97186229603f", k!"b099226b-8399-4bca-
    bd73-ca3a02c55201", k!"d853ac3e-e307-4e59-ba40-77bf7a7726f9", k!"77e8c236-6666-4cc8-948e-cb83c933ad66",
    k!"794fb019-1c47-4b9a-b887-4eefb7f18c1e", k!"5ab0b453-cb13-4300-afc9-f091052c2f3e",
    k!"9708ba05-11ec-445a-a085-b3fd75629e00", k!"8dcce6de-6d57-4931-9b23-ecf28d1a716a",
    k!"4109585c-f91b-4aa1-967d-a870fc82d4b8", k!"fcb87f7d-b768-4180-ba16-63d1d64051c2", k!"7d9935b0-8ad9-43cf-
    ac86-8d0c3ea4fedf", k!"41125dd5-c4c5-4e44-82b3-b1f3687c2739", k!"94b92175-a18d-45e8-a585-ad87399852b3",
    k!"d519ac07-1b10-4b61-b540-9b129c9ed465", k!"44ea6704-ec7b-434c-9349-34312b860404",
    k!"72218ecf-d981-44be-9001-bc9907db7d90", k!"e1a073e6-08ad-48a1-bc7a-0ee6021d8b38",
    k!"dd886eb4-718f-41f7-8df7-b21e8a0eb635", k!"733218f1-da16-4e99-b8d6-97ee1024b296",
    k!"dabbbc4b-fc5f-4351-96aa-222484a6ccf5", k!"0a668dde-6c1e-434f-b7ba-922fd07f6cd4",
    k!"a3387356-2f84-4522-aa73-d75d21de2b70", k!"06e3bb78-e287-4a9d-8d98-3aeaf571abc2",
    k!"444e961f-0a00-4995-9527-db0cd1539acd", k!"7a2afa74-9e0d-4898-8074-60a8b1061c46",
    k!"3d28d53a-51f2-4584-a4b8-aa7d85e93d89", k!"9d35e2c3-0e81-4250-a435-3e9e3404578b",
    k!"608f008b-8217-4a5b-b366-1c9d581fd187", k!"1ac30a67-d950-450b-a8bc-b78393ad4cb8",
    k!"438b9849-15cd-466b-adec-ac51cfca7e55", k!"6a8584f2-d8f7-4c48-b5b0-bfd47e8efca5",
    k!"00ff2638-0d40-42a5-a63b-ed5c3d86cc6f", k!"d40c1d48-3fc4-4d92-9b89-587126354f2d",
    k!"76c9ec97-b4df-4772-af22-725c1cc62130", k!"6bf50bc9-709b-4dd3-af53-be49125155a0",
    k!"39173d8b-22ae-48c8-a620-2da6273bd392", k!"b542fdaa-92aa-4601-95e0-e665f011cf51",
    k!"c5ebea8f-1e74-44fc-95cb-1717e3796163", k!"c3d34c1b-d163-45ed-98bc-5466b5c01559",
    k!"ad13a09e-4b38-40ab-83f8-bfc8f056e60d", k!"7ceb7a37-2d8e-4107-891f-644f3c0d09bb",
    k!"f77ea1bf-3b21-418a-aba9-0817f7618899", k!"0febfdb1-fb8c-480a-8523-faac17d4b6f0",
    k!"9f86ed89-34fa-42c6-861d-ba77751684fe", k!"44b63d2f-d6a7-4617-bd01-d275e541eeaa",
    k!"e21e9535-a676-4c67-83e4-b740e3d0e08a", k!"f3c88b9a-c5df-4f97-ae06-4317155f4447",
    k!"f6ff39a4-3c9b-4c2e-a3c2-1ffd53d85b14", k!"0bd9b90f-bb30-4ed0-87e4-fae6b86d9e99",
    k!"8cdf7865-ce6e-48d7-bfb6-f89d2e255b9c", k!"387a8b7a-ca9a-48b3-a055-f944b1d3ac90",
    k!"fdbb78c3-865f-4834-bd94-88c2254e0fba", k!"96e08406-78ae-4a19-8ea4-ac63fec1630f",
    k!"d0c7b33f-ba07-4a64-81e1-d257015e2856", k!"f0598343-8e77-4c44-9220-62e810e98ebe",
    k!"0596cafc-4b5e-41f0-9f3d-8465b5c83fd5", k!"e1f3adda-926c-4b2c-bc05-95a2b2aaad21",
    k!"cd9e1d9e-cc80-4597-9e75-5e43ce19f776", k!"8e26fcf9-7a29-499d-b8d7-c94eebb55bec"]
    = repoDrained 60

/-- path_iter_test.go, `TestPathIterator`. -/
theorem repo_PathIterator : ∀ c ∈ pathTable, repoPath pathKeys c.1 = .ok (6, c.2) := by decide +kernel

/-- tree_test.go, `TestLongestPrefix`. -/
theorem repo_LongestPrefix : ∀ c ∈ longTable, repoLong longKeys c.1 = .ok (6, some c.2) := by decide +kernel

/-- tree_test.go, `TestIteratePrefix`. -/
theorem repo_IteratePrefix : ∀ c ∈ prefixTable, repoPrefix prefixKeys c.1 = .ok (5, c.2) := by decide +kernel

/-- tree_test.go, `TestDeletePrefix`. -/
theorem repo_DeletePrefix : ∀ c ∈ deletePrefixTable,
    repoDeletePrefix c.1 c.2.1 = ([(c.1.length : Int), (c.2.2.length : Int)], [.flag true, .flag false]) := by
  decide +kernel

end Art
