import Verif.Proofs.CleanSets
import Verif.Proofs.Watch
/-
A root with all 256 children.  Its `numChildren`, a `uint8`, is 0 again, and a deletion below one of the children
throws the whole tree away.
-/
set_option autoImplicit false
set_option linter.unusedVariables false
set_option linter.unusedSimpArgs false
set_option linter.unusedSectionVars false
namespace Art
variable {V : Type} {s s' : St V} {h : Heap V} {a c : Addr} {E E0 : List (Ent V)} {N N0 : List (Key × Addr)} {m : Map V} {cnt : UInt8}

/-- A `Node256` at the root, without prefix and leaf, that counts `cnt` children; `c` is its child for byte 0. -/
def Crown (h : Heap V) (a : Addr) (cnt : UInt8) (c : Addr) (o : Option Addr → Prop) : Prop :=
  ∃ n : Inner, h[a]? = some (.inner n) ∧ n.kind = .n256 ∧ n.numChildren = cnt ∧ n.partialLen = 0 ∧ n.leaf = none ∧ n.part.length = 10 ∧
    n.children.length = 256 ∧ n.children[0]? = some (some c) ∧ ∃ x, n.children[255]? = some x ∧ o x

/-- Such a node with the two keys `[0, 1]` and `[0, 2]`, at least, below the child for byte 0. -/
def Top (h : Heap V) (a : Addr) (cnt : UInt8) (o : Option Addr → Prop) : Prop :=
  ∃ c E0 N0, Crown h a cnt c o ∧ Rep h [0] c E0 N0 ∧ ¬ Occ E0 N0 a ∧ (∃ e ∈ E0, e.1 = [0, 1, 36]) ∧ ∃ e ∈ E0, e.1 = [0, 2, 36]

theorem prefix_first {b b' : Byte} {K : Key} (h : [b] <+: b' :: K) : b = b' := by
  obtain ⟨t, ht⟩ := h
  simp at ht
  exact ht.1

theorem Top.of_map {full : Bool} (hr : RootRep h a full E N) (ha : Abs E m) (h1 : m.has [0, 1]) (h2 : m.has [0, 2]) (hb : ∀ b : Byte, b ≠ 0 → b ≠ 255 → m.has [b])
    (hn : ¬ m.has []) (hff : ∀ k, ¬ m.has (255 :: k)) : Top h a 255 (· = none) := by
  obtain ⟨e1, he1, hk1⟩ := ha.has.1 h1
  obtain ⟨e2, he2, hk2⟩ := ha.has.1 h2
  obtain ⟨e3, he3, hk3⟩ := ha.has.1 (hb 1 (by decide) (by decide))
  cases hr with
  | empty hp => cases he1
  | tree hr =>
    cases hr with
    | leaf ha' hL hpart hw hleaf hl hp hd =>
      rw [List.mem_singleton.1 he1] at hk1
      rw [List.mem_singleton.1 he2] at hk2
      rw [hk1] at hk2
      simp at hk2
    | @node _ _ n pfx es st vals f g ha' hL hne hh hst hown hnd htw hch =>
      have hi : IsNode h [] a n pfx es st vals f g := ⟨ha', hL, hne, hh, hst, hown, hnd, htw, hch⟩
      have hp : pfx = [] := by
        cases pfx with
        | nil => rfl
        | cons x pfx =>
          obtain ⟨y, hy⟩ := hi.longer he1
          obtain ⟨z, hz⟩ := hi.longer he3
          rw [hk1] at hy; rw [hk3] at hz
          have h1 := prefix_first (b := x) (b' := 0) (List.IsPrefix.trans ⟨_, rfl⟩ hy)
          have h2 := prefix_first (b := x) (b' := 1) (List.IsPrefix.trans ⟨_, rfl⟩ hz)
          rw [h1] at h2; cases h2
      subst hp
      have hleaf : n.leaf = none := by
        rcases hown.inv with ⟨ho, -⟩ | ⟨l, lc, ho, rfl, hl, hk⟩
        · exact ho
        · exact absurd (ha.has.2 ⟨_, List.mem_append_left _ (List.mem_singleton.2 rfl), hk⟩) hn
      have hedge : ∀ (e : Ent V) (x : Byte) (k : Key), e ∈ vals ++ es.flatMap (fun e => f e.1) → e.1 = (x :: k) ++ [dollar] → ∃ c, (x, c) ∈ es ∧ e ∈ f x := fun e x k he hk => by
        rcases node_keys hown hch he with ⟨hk', hv⟩ | ⟨b, c, hbc, hf, hpre⟩
        · rw [hk] at hk'; simp at hk'
        · rw [hk] at hpre
          have := prefix_first (b := b) hpre
          subst this
          exact ⟨c, hbc, hf⟩
      have hall : ∀ b : Byte, b ≠ 255 → b ∈ es.map (·.1) := fun b hb' => by
        by_cases h0 : b = 0
        · obtain ⟨c, hc, -⟩ := hedge e1 0 [1] he1 hk1
          exact List.mem_map.2 ⟨_, hc, h0.symm⟩
        · obtain ⟨e, he, hk⟩ := ha.has.1 (hb b h0 hb')
          obtain ⟨c, hc, -⟩ := hedge e b [] he hk
          exact List.mem_map.2 ⟨_, hc, rfl⟩
      have hlen : es.length = 255 := by
        have hle : es.length ≤ 255 := by
          have := n.numChildren.toNat_lt
          have := hL.num
          omega
        have hge : 255 ≤ es.length := by
          rcases Nat.lt_or_ge es.length 255 with hlt | hge
          · obtain ⟨b, hb'⟩ := byte_missing (255 :: es.map (·.1)) (by simp; omega)
            exact absurd (List.mem_cons_of_mem _ (hall b fun h => hb' (h ▸ List.mem_cons_self))) hb'
          · exact hge
        omega
      rcases hL.kinds with ⟨-, -, -, h3⟩ | ⟨-, -, -, h3⟩ | ⟨-, h3, -⟩ | ⟨hkind, ⟨hcl, hdir⟩, -⟩
      · rcases h3 with ⟨h3, -⟩ | ⟨h3, -⟩ <;> omega
      · rcases h3 with ⟨h3, -⟩ | ⟨h3, -⟩ <;> omega
      · have := h3.le; omega
      · obtain ⟨c, hc, hf1⟩ := hedge e1 0 [1] he1 hk1
        obtain ⟨-, -, hf2⟩ := hedge e2 0 [2] he2 hk2
        refine ⟨c, f 0, g 0, ⟨n, ha', hkind, ?_, hh.len, hleaf, hh.part, hcl, (hdir 0 c).2 hc, none, ?_, rfl⟩, hch 0 c hc, hi.notin hc, ⟨e1, hf1, hk1⟩, e2, hf2, hk2⟩
        · apply UInt8.toNat_inj.1
          rw [hL.num, hlen]; rfl
        · obtain ⟨x, hx⟩ : ∃ x, n.children[255]? = some x := ⟨_, List.getElem?_eq_getElem (by omega)⟩
          cases x with
          | none => exact hx
          | some d =>
            have hd := (hdir 255 d).1 hx
            obtain ⟨e, he, hfe, hpre⟩ := hi.entry hd
            obtain ⟨k, hk⟩ := hi.rep.dollar e he
            rw [hk] at hpre
            cases k with
            | nil =>
              have := prefix_first (b := 255) (b' := dollar) (K := []) hpre
              cases this
            | cons x k =>
              have := prefix_first (b := 255) (b' := x) hpre
              subst this
              exact absurd (ha.has.2 ⟨e, he, hk⟩) (hff k)

variable {o o' : Option Addr → Prop}

theorem Crown.like {n m : Inner} {a' : Addr} (hn : h[a]? = some (.inner n)) (hc : Crown h a cnt c o) {h' : Heap V} (hm : h'[a']? = some (.inner m)) (hl : Like m n) : Crown h' a' cnt c o := by
  obtain ⟨n', g1, g2, g3, g4, g5, g6, g7, g8, x, g9, g10⟩ := hc
  rw [hn] at g1; cases g1
  exact ⟨m, hm, hl.kind.trans g2, hl.num.trans g3, hl.plen.trans g4, hl.leaf.trans g5, by rw [hl.part]; exact g6, by rw [hl.children]; exact g7, by rw [hl.children]; exact g8, x,
    by rw [hl.children]; exact g9, g10⟩

theorem Top.clone (ht : Top s.heap a cnt o) : Runs (cloneNode a true : M V Nat) s fun a' s' => Top s'.heap a' cnt o ∧ s'.txn = s.txn := by
  obtain ⟨c, E0, N0, hc, hr, hno, he1, he2⟩ := ht
  obtain ⟨n, g1, g2, g3, g4, g5, g6, g7⟩ := id hc
  have hrun := cloneNode_run a s
  obtain ⟨a', s', hx, h1, h2, h3, c', h4, h5, -⟩ := cloneNode_runs (N := s.heap.length) (kw := true) g1
  refine ⟨a', s', hx, ⟨c, E0, N0, ?_, hr.step h1 fun x _ h => h, fun ho => ?_, he1, he2⟩, ?_⟩
  · obtain ⟨i, k, rfl⟩ := Cell.strip_inner h5
    exact hc.like g1 h4 ⟨rfl, rfl, rfl, rfl, goCopy_full10 (by simp [zeroPartial, g6, maxPrefixLen]), rfl, rfl⟩
  · have := hr.bound ho
    omega
  · rw [hx, g1] at hrun; cases hrun; rfl

/-- The 256th child. -/
theorem Top.insert [Inhabited V] {K : Key} {v : V} {fuel : Nat} (ht : Top s.heap a cnt (· = none)) (hts : s.txn.treeSize ≠ 0) (hK : K[0]? = some 255) :
    Runs (recursiveInsert (fuel + 1) a K v 0 : M V (InsRes V)) s fun r s' => Top s'.heap r.node (cnt + 1) (· ≠ none) ∧ s'.txn.trackMutate = s.txn.trackMutate := by
  obtain ⟨c, E0, N0, hc, hr, hno, he1, he2⟩ := ht
  obtain ⟨n, g1, g2, g3, g4, g5, g6, g7, g8, x, g9, rfl⟩ := id hc
  unfold recursiveInsert
  refine Runs.bind (Runs.txnSt ?_)
  rw [if_neg hts]
  refine Runs.bind (Runs.cell g1 ?_)
  have hil : n.isLeaf = false := by simp [Inner.isLeaf, g5]
  simp only [Cell.isLeaf, hil, Cell.nodeLeaf, g5, leafHit, Cell.partialLen, g4]
  refine Runs.bind (Runs.pure ?_)
  simp only [Nat.lt_irrefl, if_false, gt_iff_lt]
  refine Runs.bind (Runs.lift (byteAt_eq hK) ?_)
  have hfc : (Cell.inner n : Cell V).findChild 255 = .ok (none, 0) := by
    simp only [Cell.findChild, Inner.findChild, g2, Inner.getChild]
    simp [g9, Bind.bind, Except.bind, pure, Except.pure]
  refine Runs.bind (Runs.lift hfc ?_)
  simp only
  unfold insertNew
  refine Runs.bind (Runs.mono (makeLeaf_runs (N := s.heap.length) (Nat.le_refl _)) ?_)
  rintro w2 s1 ⟨a1, a2, l2, lc2, n2, a3, a4, a5, a6, a7, a8, a9, a10, a11⟩
  obtain ⟨n1, ha1, hn1⟩ := a1.like g1
  rw [if_pos (List.getElem?_eq_some_iff.1 hK).1]
  refine trackWrite_runs (Z := s.heap.length) ha1 (by rw [hn1.part]; exact g6) (by rw [hn1.leaf, g5]; exact fun _ h => nomatch h) ?_
  intro a' s3 m b1 b2 b3 b4 b5
  refine Runs.bind (Runs.lift (byteAt_eq hK) ?_)
  have hm : Like m n := ⟨b4.kind.trans hn1.kind, b4.num.trans hn1.num, b4.keys.trans hn1.keys, b4.children.trans hn1.children, b4.part.trans hn1.part, b4.plen.trans hn1.plen, b4.leaf.trans hn1.leaf⟩
  refine Runs.bind ?_
  unfold addChild
  refine Runs.bind (Runs.cell b3 ?_)
  simp only [hm.kind, g2]
  unfold addChild256
  refine Runs.bind (Runs.innerAt b3 (Runs.bind (Runs.lift (a := { m with numChildren := m.numChildren + 1, children := m.children.set 255 (some w2) }) ?_
    (Runs.bind (Runs.wr (Runs.pure (Runs.pure ⟨⟨c, E0, N0, ?_, ?_, ?_, he1, he2⟩, ?_⟩)))))))
  · show Inner.setChild _ 255 _ = _
    simp [Inner.setChild, hm.children, g7]
  · refine ⟨_, get_set_self (lt_of_get b3), hm.kind.trans g2, ?_, hm.plen.trans g4, hm.leaf.trans g5, ?_, ?_, ?_, some w2, ?_, by simp⟩
    · show m.numChildren + 1 = cnt + 1
      rw [hm.num, g3]
    · show m.part.length = 10
      rw [hm.part]; exact g6
    · show (m.children.set 255 _).length = 256
      rw [List.length_set, hm.children]; exact g7
    · show (m.children.set 255 _)[0]? = _
      rw [List.getElem?_set_ne (by decide), hm.children]; exact g8
    · show (m.children.set 255 _)[255]? = _
      rw [List.getElem?_set_self (by rw [hm.children]; omega)]
  · have h3 : Rep s3.heap [0] c E0 N0 := hr.step (a1.then0 b1) fun x _ h => h
    have hwr : Stp 0 (fun x => x = a') s3 { s3 with heap := s3.heap.set a' (.inner { m with numChildren := m.numChildren + 1, children := m.children.set 255 (some w2) }) } :=
      Stp.wrInner b3 rfl rfl fun h => absurd h (Nat.not_lt_zero _)
    have hwr' : Stp s3.heap.length (fun x => x = a') s3 { s3 with heap := s3.heap.set a' (.inner { m with numChildren := m.numChildren + 1, children := m.children.set 255 (some w2) }) } :=
      Stp.wrInner b3 rfl rfl fun _ => Or.inl rfl
    refine h3.step hwr' fun x hx hxa => ?_
    subst hxa
    rcases b2 with rfl | h
    · exact hno hx
    · have := hr.bound hx; have := a1.len; omega
  · intro hx
    change Occ E0 N0 a' at hx
    rcases b2 with rfl | h
    · exact hno hx
    · have := hr.bound hx; have := a1.len; omega
  · show s3.txn.trackMutate = _
    rw [b1.track, a1.track]

/-- A deletion below the child for byte 0 of a node that counts no children. -/
theorem Top.delete {fuel : Nat} (ht : Top s.heap a 0 o) :
    Runs (recursiveDelete (fuel + 4) a [0, 1, 36] 0 : M V DelRes) s fun r s' => r.node = none ∧ (∃ l, r.leaf = some l ∧ l < s'.heap.length) ∧
      s'.txn.trackMutate = s.txn.trackMutate := by
  obtain ⟨c, E0, N0, hc, hr, hno, he1, he2⟩ := ht
  obtain ⟨n, g1, g2, g3, g4, g5, g6, g7, g8, -⟩ := id hc
  unfold recursiveDelete
  refine Runs.bind (Runs.cell g1 ?_)
  have hil : n.isLeaf = false := by simp [Inner.isLeaf, g5]
  simp only [Cell.isLeaf, hil, Bool.false_eq_true, if_false, false_and]
  refine Runs.bind (trackNone_runs ?_)
  simp only [leafHit, Cell.nodeLeaf, g5]
  refine Runs.bind (Runs.pure ?_)
  simp only [prefixBails, Cell.partialLen, g4, gt_iff_lt, Nat.lt_irrefl, if_false]
  refine Runs.bind (Runs.lift rfl ?_)
  simp only [Bool.false_eq_true, if_false]
  refine Runs.bind (Runs.lift (byteAt_eq (b := 0) rfl) ?_)
  have hfc : (Cell.inner n : Cell V).findChild 0 = .ok (some c, 0) := by
    simp only [Cell.findChild, Inner.findChild, g2, Inner.getChild]
    simp [g8, Bind.bind, Except.bind, pure, Except.pure]
  refine Runs.bind (Runs.lift hfc ?_)
  simp only
  refine Runs.bind (Runs.mono (hr.delete (K := [0, 1, 36]) (fuel + 3) he1 (by simp)) ?_)
  rintro R t ⟨h1, ⟨y, e', lc, h2, h3, h4, h5, h6⟩, h7⟩
  obtain ⟨d, hd⟩ : ∃ d, R.node = some d := by
    rcases h7 with ⟨-, h8⟩ | ⟨d, -, -, h8, -⟩
    · obtain ⟨e, he, hk⟩ := he2
      obtain ⟨e', he', -⟩ := h8.fwd e he (by rw [hk]; decide)
      cases he'
    · exact ⟨d, h8⟩
  obtain ⟨n1, hn1, hl1⟩ := (h1.frame a (lt_of_get g1) hno).like g1
  unfold deleteReplace
  rw [if_pos (Or.inr (by rw [h2]; rfl))]
  simp only [hd, reduceCtorEq, if_false, M.assoc, M.pure_then]
  refine trackWrite_runs (Z := t.heap.length) hn1 (by rw [hl1.part]; exact g6) (by rw [hl1.leaf, g5]; exact fun _ h => nomatch h) ?_
  intro a2 t1 m e1 e2 e3 e4 e5
  refine Runs.bind (setChildAt_runs e3 (by rw [e4.children, hl1.children]; omega) ?_)
  unfold deleteFinish
  refine Runs.bind (Runs.cell (get_set_self (lt_of_get e3)) ?_)
  rw [if_pos ⟨by simp only [Cell.numChildren]; rw [e4.num, hl1.num, g3], by simp only [Cell.nodeLeaf]; rw [e4.leaf, hl1.leaf, g5]⟩]
  refine Runs.pure ⟨rfl, ⟨y, h2, ?_⟩, ?_⟩
  · have := lt_of_get h5
    have := e1.len
    simp
    omega
  · show t1.txn.trackMutate = _
    rw [e1.track, h1.track]

theorem Top.txnDelete [Inhabited V] (ht : Top s.heap s.txn.root 0 o) :
    Runs (txnDelete [0, 1] : M V (V × Bool)) s fun r s' => Phantom s'.heap s'.txn.root false ∧ s'.txn.trackMutate = s.txn.trackMutate := by
  unfold Art.txnDelete
  refine Runs.bind (Runs.txnSt ?_)
  refine Runs.bind (Runs.mono (ht.delete (fuel := 0)) ?_)
  rintro r s1 ⟨h1, ⟨l, h2, h3⟩, h4⟩
  rw [h1, h2]
  unfold setRoot
  refine Runs.bind (Runs.mono (resetRoot_runs (s := s1)) ?_)
  rintro _ s2 ⟨hch, hroot, hlen2, hold, hz1, hz2, hph⟩
  simp only
  refine Runs.bind (Runs.txnSt (Runs.bind (Runs.mono (trackChannel_runs (N := s2.heap.length) (o := some s2.txn.root) fun x hx => by cases hx; rw [hroot, hlen2]; omega) ?_)))
  rintro _ s3 ⟨k1, -, -⟩
  refine Runs.bind (Runs.modTxn ?_)
  have hl3 : l < s3.heap.length := by have := k1.len; omega
  refine Runs.bind (Runs.cell (c := s3.heap[l]) (List.getElem?_eq_getElem hl3) (Runs.pure ⟨?_, ?_⟩))
  · show Phantom s3.heap s3.txn.root false
    rw [k1.root]
    obtain ⟨n, y, lc, x1, x2, x3, x4, x5, x6, x7⟩ := hph
    obtain ⟨m, y1, y2⟩ := k1.like x1
    obtain ⟨lc', y3, y4, y5⟩ := k1.likeL x4
    exact ⟨m, y, lc', y1, y2.layout x2, y2.leaf.trans x3, y3, y4.trans x5, ⟨y2.plen.trans x6.1, y2.kind.trans x6.2⟩, fun h => by rw [y2.part]; exact x7 h⟩
  · show s3.txn.trackMutate = _
    rw [k1.track, hch.track, h4]

theorem Top.txnInsert [Inhabited V] {k : Key} {v : V} (ht : Top s.heap s.txn.root cnt (· = none)) (hts : s.txn.treeSize ≠ 0) (hk : k[0]? = some 255) :
    Runs (txnInsert k v : M V (V × Bool)) s fun r s' => Top s'.heap s'.txn.root (cnt + 1) (· ≠ none) ∧ s'.txn.trackMutate = s.txn.trackMutate := by
  unfold Art.txnInsert
  refine Runs.bind (Runs.txnSt ?_)
  refine Runs.bind (Runs.mono (ht.insert (K := getTreeKey k) hts ?_) ?_)
  · show (k ++ [36])[0]? = _
    rw [List.getElem?_append_left (List.getElem?_eq_some_iff.1 hk).1, hk]
  rintro r s1 ⟨h1, h2⟩
  refine Runs.bind (Runs.modTxn (Runs.pure ⟨?_, ?_⟩))
  · simp only
    split <;> exact h1
  · simp only
    split <;> exact h2

/-- A call on a tree of which only the root is known. -/
theorem Top.treeOp {α : Type} {f : M V α} {t : Tree} {Q : α → St V → Prop} (ht : Top s.heap t.root cnt o)
    (hf : ∀ s1 : St V, Top s1.heap s1.txn.root cnt o → s1.txn.treeSize = t.size → s1.txn.trackMutate = false → Runs f s1 fun r s' => Q r s' ∧ s'.txn.trackMutate = s1.txn.trackMutate) :
    Runs (treeOp t f) s fun r s' => r.1.root = s'.txn.root ∧ Q r.2 s' := by
  unfold Art.treeOp beginTxn withTxn
  refine Runs.bind (Runs.bind (Runs.mono ht.clone ?_))
  rintro a' s1 ⟨h1, -⟩
  refine Runs.pure (Runs.bind (Runs.modTxn (Runs.bind (Runs.mono (hf _ h1 rfl rfl) ?_))))
  rintro r s2 ⟨h2, h3⟩
  refine Runs.bind ?_
  unfold txnCommit txnCommitOnly txnNotify
  refine Runs.bind (Runs.bind (Runs.txnSt (Runs.pure (Runs.bind (Runs.bind (Runs.txnSt ?_))))))
  rw [if_pos (by rw [h3]; rfl)]
  exact Runs.pure (Runs.pure (Runs.pure ⟨rfl, h2⟩))

end Art
