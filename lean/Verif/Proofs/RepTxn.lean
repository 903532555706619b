import Verif.Proofs.RepDelete
/-
`Txn.Insert` and `Txn.Delete` on a well-formed tree, including the empty tree.
-/
set_option autoImplicit false
set_option linter.unusedVariables false
set_option linter.unusedSimpArgs false
set_option linter.unusedSectionVars false
namespace Art
variable {V : Type} [Removals] {s s' s'' t t' : St V} {h h' : Heap V} {E E' : List (Ent V)} {N N' : List (Key × Addr)} {K p : Key} {o : Option V}
  {a a' c c' : Addr} {Z : Nat} {X : Addr → Prop} {v : V} {n m : Inner} {k : Key} {full : Bool}

/-- The root of an empty tree: an inner node without children whose leaf has the empty key.  `full` says that
its `partial` has been allocated. -/
def Phantom (h : Heap V) (a : Addr) (full : Bool) : Prop :=
  ∃ (n : Inner) (l : Addr) (lc : LeafC V), h[a]? = some (.inner n) ∧ Layout n [] none ∧ n.leaf = some l ∧ h[l]? = some (.leaf lc) ∧ lc.key = [] ∧
    (n.partialLen = 0 ∧ n.kind = .n4) ∧ (full = true → n.part.length = 10)

/-- The root `a` of a tree with the entries `E` in the nodes `N`. -/
inductive RootRep (h : Heap V) (a : Addr) (full : Bool) : List (Ent V) → List (Key × Addr) → Prop
  | empty (hp : Phantom h a full) : RootRep h a full [] [([], a)]
  | tree {E : List (Ent V)} {N : List (Key × Addr)} (hr : Rep h [] a E N) : RootRep h a full E N

/-- What a call of a transaction does to the rest of the state. -/
structure Chg (s s' : St V) : Prop where
  len : s.heap.length ≤ s'.heap.length
  old : s'.txn.oldMaxNodeId = s.txn.oldMaxNodeId
  track : s'.txn.trackMutate = s.txn.trackMutate
  slice : ∀ c ∈ s.txn.trackChnSlice, c ∈ s'.txn.trackChnSlice
  chs : ∀ x c, chAt s.heap x = some c → chAt s'.heap x = some c ∨ c ∈ s'.txn.trackChnSlice

theorem Stp.chg (h : Stp Z X s s') : Chg s s' := ⟨h.len, h.old, h.track, h.slice, h.chs⟩

theorem Chg.trans (h1 : Chg s s') (h2 : Chg s' s'') : Chg s s'' where
  len := Nat.le_trans h1.len h2.len
  old := h2.old.trans h1.old
  track := h2.track.trans h1.track
  slice := fun c hc => h2.slice c (h1.slice c hc)
  chs := fun x c hc => by
    rcases h1.chs x c hc with h | h
    · exact h2.chs x c h
    · exact Or.inr (h2.slice c h)

theorem Trk.chg {x : Addr} (h1 : Trk s s' x) (h2 : Chg s' s'') : Trk s s'' x := fun ht c hc => h2.slice c (h1 ht c hc)
theorem Keep.chg {x y : Addr} (h : Keep s s' x y) (h2 : Chg s' s'') : Keep s s'' x y := fun ht c hc => by
  rcases h ht c hc with h | h
  · exact Or.inl (h2.slice c h)
  · exact (h2.chs y c h).symm

theorem Evo.chg (h : Evo K o s s' E E' N N') (h2 : Chg s' s'') : Evo K o s s'' E E' N N' where
  occ := h.occ
  back := h.back
  fwd := fun e he hk => by
    obtain ⟨e', h3, h4, h5⟩ := h.fwd e he hk
    exact ⟨e', h3, h4, h5.chg h2⟩
  new := h.new
  wK := fun e he hk => (h.wK e he hk).chg h2
  wN := fun q x hx hq => (h.wN q x hx hq).chg h2
  keep := fun q x hx => by
    rcases h.keep q x hx with h3 | ⟨q', x', h3, h4, h5⟩
    · exact Or.inl (h3.chg h2)
    · exact Or.inr ⟨q', x', h3, h4, h5.chg h2⟩

/-- A change of the transaction that leaves heap and tracking alone. -/
theorem Chg.ofTxn {ts : TxnSt} (h1 : ts.oldMaxNodeId = s.txn.oldMaxNodeId) (h2 : ts.trackMutate = s.txn.trackMutate) (h3 : ts.trackChnSlice = s.txn.trackChnSlice) :
    Chg s { s with txn := ts } :=
  ⟨Nat.le_refl _, h1, h2, fun c hc => by show c ∈ ts.trackChnSlice; rw [h3]; exact hc, fun x c hc => Or.inl hc⟩

/-- The outcome of a write in a transaction. -/
structure TxnPost (s : St V) (K : Key) (o : Option V) (E : List (Ent V)) (N : List (Key × Addr)) (s' : St V) : Prop where
  chg : Chg s s'
  rep : ∃ E' N', RootRep s'.heap s'.txn.root false E' N' ∧ ((o = none → E' ≠ []) → RootRep s'.heap s'.txn.root true E' N') ∧ Evo K o s s' E E' N N'

theorem RootRep.weaken (hr : RootRep h a full E N) : RootRep h a false E N := by
  cases hr with
  | empty hp =>
    obtain ⟨n, l, lc, h1, h2, h3, h4, h5, h6, -⟩ := hp
    exact .empty ⟨n, l, lc, h1, h2, h3, h4, h5, h6, fun h => nomatch h⟩
  | tree hr => exact .tree hr

/-- Insertion into the empty tree. -/
theorem insertEmpty_runs [Inhabited V] (hp : Phantom s.heap a true) (hd : ∃ k, K = k ++ [dollar]) :
    Runs (insertEmpty a K v : M V (InsRes V)) s fun r s' => r.old = false ∧ r.oldVal = default ∧ Chg s s' ∧ s'.txn.size = s.txn.size ∧ s'.txn.treeSize = s.txn.treeSize ∧
      ∃ E' N', Rep s'.heap [] r.node E' N' ∧ Evo K (some v) s s' [] E' [([], a)] N' := by
  obtain ⟨n, l, lc, h1, h2, h3, h4, h5, h6, h7⟩ := hp
  unfold insertEmpty
  refine Runs.bind (Runs.mono (writeInner_like (Z := 0) (t := true) h1 (h7 rfl) fun x hx => by rw [h3] at hx; cases hx; exact ⟨_, h4⟩) ?_)
  rintro a1 s1 ⟨g1, g2, ⟨m, g3, g4⟩, g5, -⟩
  obtain ⟨g5, -⟩ := g5 rfl
  refine Runs.bind (Runs.mono (allocLeaf_runs (N := 0)) ?_)
  rintro l2 s2 ⟨k1, k2, -, j, k4⟩
  obtain ⟨m2, k5, k6⟩ := k1.like g3
  refine Runs.bind (setNodeLeaf_runs k5 (Runs.pure ?_))
  have hst : Stp 0 (fun x => x = a1) s2 { s2 with heap := s2.heap.set a1 (.inner { m2 with leaf := some l2 }) } :=
    Stp.wrInner k5 rfl rfl fun h => absurd h (Nat.not_lt_zero _)
  have hst0 := g1.then0 k1
  have hne : a1 ≠ l2 := by rintro rfl; rw [k4] at k5; cases k5
  have hfr : s.heap.length ≤ l2 := by rw [k2]; exact g1.len
  refine ⟨rfl, rfl, (Stp0.then hst0 hst).chg, hst0.size, hst0.tsize, [(K, v, l2)], [([], a1)], ?_, ?_⟩
  · exact Rep.leaf (lc := { id := j, value := v, key := K, ch := none }) (get_set_self (lt_of_get k5)) ((k6.layout (g4.layout h2)).congr rfl rfl rfl rfl)
      (by show m2.part.length = 10; rw [k6.part, g4.part]; exact h7 rfl) (Or.inr ⟨by show m2.kind = .n4; rw [k6.kind, g4.kind]; exact h6.2, Or.inl (by show m2.partialLen = 0; rw [k6.plen, g4.plen]; exact h6.1)⟩) rfl
      (by show (s2.heap.set a1 _)[l2]? = _; rw [get_set_ne hne]; exact k4) (List.nil_prefix) hd
  · exact (Evo.fresh (v := v) (x := l2) (N := []) hfr fun q y hy => nomatch hy).union (Evo.top (p := []) ((g5.then k1).then hst) g2) (by simp) (by simp) (by simp) (by simp)

/-- `Txn.Insert`. -/
theorem txnInsert_runs [Inhabited V] (hr : RootRep s.heap s.txn.root true E N) (hts : s.txn.treeSize = s.txn.size) (h0 : s.txn.treeSize = 0 ↔ E = [])
    (ho : InsOK (k ++ [dollar]) E) :
    Runs (txnInsert k v : M V (V × Bool)) s fun r s' => TxnPost s (k ++ [dollar]) (some v) E N s' ∧ s'.txn.treeSize = s'.txn.size ∧
      ((∃ e ∈ E, e.1 = k ++ [dollar] ∧ r = (e.2.1, true) ∧ s'.txn.size = s.txn.size) ∨
       ((∀ e ∈ E, e.1 ≠ k ++ [dollar]) ∧ r = (default, false) ∧ s'.txn.size = s.txn.size + 1) ∨
       (Over (k ++ [dollar]) E ∧ r = (default, false) ∧ s'.txn.size = s.txn.size + 1)) := by
  unfold txnInsert
  refine Runs.bind (Runs.txnSt ?_)
  have hkey : getTreeKey k = k ++ [dollar] := rfl
  rw [hkey]
  have hfin : ∀ (r : InsRes V) (s1 : St V) (E' : List (Ent V)) (N' : List (Key × Addr)), Chg s s1 → s1.txn.size = s.txn.size → s1.txn.treeSize = s.txn.treeSize →
      Rep s1.heap [] r.node E' N' → Evo (k ++ [dollar]) (some v) s s1 E E' N N' →
      ((∃ e ∈ E, e.1 = k ++ [dollar] ∧ r.old = true ∧ r.oldVal = e.2.1) ∨ ((∀ e ∈ E, e.1 ≠ k ++ [dollar]) ∧ r.old = false ∧ r.oldVal = default) ∨
       (Over (k ++ [dollar]) E ∧ r.old = false ∧ r.oldVal = default)) →
      Runs (do modTxn fun t => if r.old then { t with root := r.node } else { t with root := r.node, size := t.size + 1, treeSize := t.treeSize + 1 }
               pure (r.oldVal, r.old) : M V (V × Bool)) s1 fun r s' => TxnPost s (k ++ [dollar]) (some v) E N s' ∧ s'.txn.treeSize = s'.txn.size ∧
      ((∃ e ∈ E, e.1 = k ++ [dollar] ∧ r = (e.2.1, true) ∧ s'.txn.size = s.txn.size) ∨
       ((∀ e ∈ E, e.1 ≠ k ++ [dollar]) ∧ r = (default, false) ∧ s'.txn.size = s.txn.size + 1) ∨
       (Over (k ++ [dollar]) E ∧ r = (default, false) ∧ s'.txn.size = s.txn.size + 1)) := by
    intro r s1 E' N' hc hsz hsz2 hrep hevo hold
    refine Runs.bind (Runs.modTxn (Runs.pure ?_))
    rcases hold with ⟨e, he, hek, ho1, ho2⟩ | ⟨hno, ho1, ho2⟩ | ⟨hno, ho1, ho2⟩
    · simp only [ho1, if_true]
      have hc2 : Chg s1 { s1 with txn := { s1.txn with root := r.node } } := Chg.ofTxn rfl rfl rfl
      exact ⟨⟨hc.trans hc2, E', N', .tree hrep, fun _ => .tree hrep, hevo.chg hc2⟩, by show s1.txn.treeSize = s1.txn.size; rw [hsz, hsz2, hts], Or.inl ⟨e, he, hek, by rw [ho2], hsz⟩⟩
    · simp only [ho1, Bool.false_eq_true, if_false]
      have hc2 : Chg s1 { s1 with txn := { s1.txn with root := r.node, size := s1.txn.size + 1, treeSize := s1.txn.treeSize + 1 } } := Chg.ofTxn rfl rfl rfl
      exact ⟨⟨hc.trans hc2, E', N', .tree hrep, fun _ => .tree hrep, hevo.chg hc2⟩, by show s1.txn.treeSize + 1 = s1.txn.size + 1; rw [hsz, hsz2, hts], Or.inr (Or.inl ⟨hno, by rw [ho2], by
        show s1.txn.size + 1 = _
        rw [hsz]⟩)⟩
    · simp only [ho1, Bool.false_eq_true, if_false]
      have hc2 : Chg s1 { s1 with txn := { s1.txn with root := r.node, size := s1.txn.size + 1, treeSize := s1.txn.treeSize + 1 } } := Chg.ofTxn rfl rfl rfl
      exact ⟨⟨hc.trans hc2, E', N', .tree hrep, fun _ => .tree hrep, hevo.chg hc2⟩, by show s1.txn.treeSize + 1 = s1.txn.size + 1; rw [hsz, hsz2, hts], Or.inr (Or.inr ⟨hno, by rw [ho2], by
        show s1.txn.size + 1 = _
        rw [hsz]⟩)⟩
  cases hr with
  | empty hp =>
    unfold recursiveInsert
    refine Runs.bind (Runs.bind (Runs.txnSt ?_))
    rw [if_pos (h0.2 rfl)]
    refine Runs.mono (insertEmpty_runs hp ⟨k, rfl⟩) ?_
    rintro r s1 ⟨h1, h2, h3, h4, h5, E', N', h6, h7⟩
    exact hfin r s1 E' N' h3 h4 h5 h6 h7 (Or.inr (Or.inl ⟨(fun e he => nomatch he), h1, h2⟩))
  | tree hr =>
    have ht : s.txn.treeSize ≠ 0 := fun h => hr.ne_nil (h0.1 h)
    have hI := hr.insert (v := v) ht ((k ++ [dollar]).length + 1) ho (List.nil_prefix) (by simp)
    refine Runs.bind (Runs.mono hI ?_)
    rintro r s1 ⟨h1, h2, ⟨E', N', h3, h4⟩, h5⟩
    exact hfin r s1 E' N' h2.chg h2.size h2.tsize h3 h4 h5

/-- The empty tree that `Delete` installs when the last key is gone. -/
theorem resetRoot_runs [Inhabited V] : Runs (resetRoot : M V Unit) s fun _ s2 => Chg s s2 ∧ s2.txn.root = s.heap.length + 1 ∧ s2.heap.length = s.heap.length + 2 ∧
    (∀ x, x < s.heap.length → s2.heap[x]? = s.heap[x]?) ∧ s2.txn.size = s.txn.size ∧ s2.txn.treeSize = s.txn.treeSize ∧ Phantom s2.heap s2.txn.root false := by
  unfold resetRoot
  refine Runs.bind (Runs.txnSt (Runs.bind (Runs.newCell (Runs.bind (Runs.newCell (Runs.modTxn ?_))))))
  have hold : ∀ (x y : Cell V) (i : Nat), i < s.heap.length → (s.heap ++ [x] ++ [y])[i]? = s.heap[i]? := fun x y i hi => by
    rw [List.append_assoc, List.getElem?_append_left hi]
  refine ⟨⟨by simp, rfl, rfl, fun c hc => hc, fun x c hc => Or.inl ?_⟩, by simp, by simp, fun x hx => hold _ _ x hx, rfl, rfl, ?_⟩
  · have hx : x < s.heap.length := by
      unfold chAt at hc
      cases h : s.heap[x]? with
      | none => rw [h] at hc; cases hc
      | some y => exact lt_of_get h
    unfold chAt at hc ⊢
    rw [hold _ _ x hx]; exact hc
  · refine ⟨_, s.heap.length, { id := s.txn.maxNodeId + 1, value := (default : V), key := [], ch := none }, List.getElem?_concat_length, Layout.empty rfl rfl rfl rfl, rfl, ?_, rfl, ⟨rfl, rfl⟩, (fun h => nomatch h)⟩
    rw [List.append_assoc]; simp

/-- `Txn.Delete` of a present key. -/
theorem txnDelete_runs [CanRemove] [Inhabited V] (hr : RootRep s.heap s.txn.root full E N) (hts : s.txn.treeSize = s.txn.size) (hk : ∃ e ∈ E, e.1 = k ++ [dollar]) :
    Runs (txnDelete k : M V (V × Bool)) s fun r s' => TxnPost s (k ++ [dollar]) none E N s' ∧ s'.txn.treeSize = s'.txn.size ∧ s'.txn.size = s.txn.size - 1 ∧
      ∃ e ∈ E, e.1 = k ++ [dollar] ∧ r = (e.2.1, true) := by
  have hrep : Rep s.heap [] s.txn.root E N := by
    cases hr with
    | empty hp => obtain ⟨e, he, -⟩ := hk; cases he
    | tree hr => exact hr
  unfold txnDelete
  refine Runs.bind (Runs.txnSt ?_)
  have hkey : getTreeKey k = k ++ [dollar] := rfl
  rw [hkey]
  refine Runs.bind (Runs.mono (hrep.delete ((k ++ [dollar]).length + 1) hk (by simp)) ?_)
  rintro r s1 ⟨h1, ⟨l, e, lc, h2, h3, h4, h5, h6⟩, h7⟩
  -- after the new root is installed
  suffices hmid : Runs (setRoot r.node : M V Unit) s1 fun _ s2 => Chg s s2 ∧ s2.txn.root < s2.heap.length ∧ s2.txn.size = s.txn.size ∧ s2.txn.treeSize = s.txn.treeSize ∧
      (∃ lc' : LeafC V, s2.heap[l]? = some (.leaf lc') ∧ lc'.value = lc.value) ∧
      ∃ E' N', RootRep s2.heap s2.txn.root false E' N' ∧ (E' ≠ [] → RootRep s2.heap s2.txn.root true E' N') ∧ Evo (k ++ [dollar]) none s s2 E E' N N' by
    refine Runs.bind (Runs.mono hmid ?_)
    rintro _ s2 ⟨g1, gr, g2, g3, ⟨lc2, g4, g5⟩, E', N', g6, g7, g8⟩
    simp only [h2]
    refine Runs.bind (Runs.txnSt (Runs.bind (Runs.mono (trackChannel_runs (N := s2.heap.length) (o := some s2.txn.root) fun x hx => by cases hx; exact gr) ?_)))
    rintro _ s3 ⟨k1, -, -⟩
    refine Runs.bind (Runs.modTxn ?_)
    obtain ⟨lc3, k2, -, k3⟩ := k1.likeL g4
    refine Runs.bind (Runs.cell k2 (Runs.pure ?_))
    have hstep : ∀ fl E N, RootRep s2.heap s2.txn.root fl E N → RootRep s3.heap s3.txn.root fl E N := fun fl E N hr => by
      rw [k1.root]
      cases hr with
      | empty hp =>
        obtain ⟨n, y, lc, x1, x2, x3, x4, x5, x6, x7⟩ := hp
        obtain ⟨m, y1, y2⟩ := k1.like x1
        obtain ⟨lc', y3, y4, y5⟩ := k1.likeL x4
        exact .empty ⟨m, y, lc', y1, y2.layout x2, y2.leaf.trans x3, y3, y4.trans x5, ⟨y2.plen.trans x6.1, y2.kind.trans x6.2⟩, fun h => by rw [y2.part]; exact x7 h⟩
      | tree hr => exact .tree (hr.step k1 fun x _ h => h)
    have hc2 : Chg s3 { s3 with txn := { s3.txn with size := s3.txn.size - 1, treeSize := s3.txn.treeSize - 1 } } := Chg.ofTxn rfl rfl rfl
    refine ⟨⟨(g1.trans k1.chg).trans hc2, E', N', hstep _ _ _ g6, (fun h => hstep _ _ _ (g7 (h rfl))), (g8.chg k1.chg).chg hc2⟩, ?_, ?_, e, h3, h4, ?_⟩
    · show s3.txn.treeSize - 1 = s3.txn.size - 1
      rw [k1.size, k1.tsize, g2, g3, hts]
    · show s3.txn.size - 1 = _
      rw [k1.size, g2]
    · simp only [Cell.value, Prod.mk.injEq, and_true]
      rw [k3, g5, h6]
  rcases h7 with ⟨h7, h8⟩ | ⟨a', E', N', h7, h8, h9⟩
  · rw [h7]
    unfold setRoot
    refine Runs.mono (resetRoot_runs (s := s1)) ?_
    rintro _ s2 ⟨hch, hroot, hlen2, hold, hz1, hz2, hph⟩
    refine ⟨h1.chg.trans hch, by rw [hroot, hlen2]; omega, by rw [hz1, h1.size], by rw [hz2, h1.tsize], ⟨lc, by rw [hold l (lt_of_get h5)]; exact h5, rfl⟩, [], _, .empty hph, fun h => absurd rfl h, ?_⟩
    refine (h8.chg hch).union (Evo.freshN (N := [([], s2.txn.root)]) fun q y hy => ?_) (by simp) (by simp) (by simp) (by simp)
    cases List.mem_singleton.1 hy
    rw [hroot]
    have := h1.len
    omega
  · rw [h7]
    unfold setRoot
    refine Runs.modTxn ?_
    have hc2 : Chg s1 { s1 with txn := { s1.txn with root := a' } } := Chg.ofTxn rfl rfl rfl
    exact ⟨h1.chg.trans hc2, h8.bound h8.occ, h1.size, h1.tsize, ⟨lc, h5, rfl⟩, E', N', .tree h8, fun _ => .tree h8, h9.chg hc2⟩

end Art
