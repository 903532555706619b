import Verif.Proofs.Refine
import Verif.Proofs.WorldAll
/-
What the calls of the package do to the map of a tree.
-/
set_option autoImplicit false
set_option linter.unusedVariables false
set_option linter.unusedSimpArgs false
set_option linter.unusedSectionVars false
namespace Art
variable {V : Type} [Removals] {s s' : St V} {h h' : Heap V} {E E' : List (Ent V)} {N N' : List (Key × Addr)} {k : Key} {v : V} {a : Addr} {full : Bool} {m : Map V} {sz : UInt64} {ex : Bool}

/-! ### Copying the root -/

theorem Rep.copyTop {a' : Addr} {n n' : Inner} {p : Key} (hr : Rep s.heap p a E N) (hs : Stp0 s.heap.length s s') (ha : s.heap[a]? = some (.inner n))
    (ha' : s'.heap[a']? = some (.inner n')) (hl : Like n' n) : ∃ N0, N = (p, a) :: N0 ∧ Rep s'.heap p a' E ((p, a') :: N0) := by
  have hr' := hr.step hs fun x _ h => h
  cases hr with
  | @leaf _ _ n1 y lc ha1 hL hpart hw hleaf hy hp hd =>
    rw [ha] at ha1; cases ha1
    obtain ⟨lc', h1, h2, h3⟩ := hs.likeL hy
    refine ⟨[], rfl, ?_⟩
    rw [← h2, ← h3]
    exact Rep.leaf ha' (hl.layout hL) (by rw [hl.part]; exact hpart) (hl.wrap hw) (by rw [hl.leaf]; exact hleaf) h1 (h2 ▸ hp) (h2 ▸ hd)
  | @node _ _ n1 pfx es st vals f g ha1 hL hne hh hst hown hnd htw hch =>
    rw [ha] at ha1; cases ha1
    refine ⟨_, rfl, ?_⟩
    refine Rep.node ha' (hl.layout hL) (hl.filled hne) (hl.header hh) ?_ ?_ (by rw [hl.leaf]; exact hnd) (hl.fork htw) fun b c hb => (hch b c hb).step hs fun x _ h => h
    · intro c hc
      have := hst c hc
      exact hs.sok _ c this.bound this
    · rw [hl.leaf]
      refine hown.frame fun x hx => hs.eqv ?_
      rcases hown.inv with ⟨-, rfl⟩ | ⟨l, lc, -, rfl, h1, -⟩
      · cases hx
      · simp only [List.map_cons, List.map_nil, List.mem_singleton] at hx
        subst hx; exact lt_of_get h1

theorem goCopy_len10 (xs : List Byte) : (goCopy zeroPartial 0 xs).length = 10 := by
  unfold goCopy zeroPartial maxPrefixLen
  simp only [List.length_append, List.length_take, List.length_drop, List.length_replicate]
  omega

/-- What a copy of the root is good for. -/
structure Copied (s : St V) (a : Addr) (E : List (Ent V)) (N : List (Key × Addr)) (a' : Addr) (s' : St V) : Prop where
  stp : Stp0 s.heap.length s s'
  addr : a' = s.heap.length
  rep : ∃ N0, N = ([], a) :: N0 ∧ RootRep s'.heap a' true E (([], a') :: N0)
  ch : ∀ c, chAt s.heap a = some c → chAt s'.heap a' = some c

theorem RootRep.clone (hr : RootRep s.heap a full E N) : Runs (cloneNode a true : M V Nat) s (Copied s a E N) := by
  obtain ⟨n, hn⟩ := hr.inner
  refine Runs.mono (cloneNode_runs (N := s.heap.length) hn) ?_
  rintro a' s' ⟨h1, h2, h3, c', h4, h5, h6⟩
  obtain ⟨i, k, rfl⟩ := Cell.strip_inner (n := { n with part := goCopy zeroPartial 0 n.part }) h5
  refine ⟨h1, h2, ?_, fun c hc => ?_⟩
  · cases hr with
    | empty hp =>
      obtain ⟨n1, y, lc, x1, x2, x3, x4, x5, x6, x7⟩ := hp
      rw [hn] at x1; cases x1
      obtain ⟨lc', y3, y4, y5⟩ := h1.likeL x4
      exact ⟨[], rfl, .empty ⟨_, y, lc', h4, x2.congr rfl rfl rfl rfl, x3, y3, y4.trans x5, x6, fun _ => goCopy_len10 _⟩⟩
    | tree hr =>
      have hpart : n.part.length = 10 := by
        cases hr with
        | leaf ha hL hpart => rw [hn] at ha; cases ha; exact hpart
        | node ha hL hne hh => rw [hn] at ha; cases ha; exact hh.part
      obtain ⟨N0, h7, h8⟩ := hr.copyTop h1 hn h4 ⟨rfl, rfl, rfl, rfl, goCopy_full10 (by rw [hpart]; rfl), rfl, rfl⟩
      exact ⟨N0, h7, .tree h8⟩
  · have := h6 rfl c hc
    unfold chAt
    rw [h4]; exact this

theorem ViewOf.clone (hv : ViewOf ex s.heap a sz full m) : Runs (cloneNode a true : M V Nat) s fun a' s' => s'.txn = s.txn ∧ ViewOf ex s'.heap a' sz true m := by
  obtain ⟨⟨E, N, h1, h2⟩, h3, h4, h5⟩ := hv
  obtain ⟨a', s', g1, g2⟩ := h1.clone
  refine ⟨a', s', g1, ?_, ?_⟩
  · have := cloneNode_run a s
    rw [g1] at this
    cases hc : s.heap[a]? with
    | none => rw [hc] at this; cases this
    | some c => rw [hc] at this; cases this; rfl
  · obtain ⟨N0, -, g3⟩ := g2.rep
    exact ⟨⟨E, _, g3, h2⟩, h3, h4, h5⟩

theorem Phantom.intro {n : Inner} {l : Addr} {lc : LeafC V} (h1 : h[a]? = some (.inner n)) (h2 : Layout n [] none) (h3 : n.leaf = some l) (h4 : h[l]? = some (.leaf lc)) (h5 : lc.key = [])
    (h6 : n.partialLen = 0 ∧ n.kind = .n4) : Phantom h a false := ⟨n, l, lc, h1, h2, h3, h4, h5, h6, fun h => by cases h⟩

theorem newRadixTree_runs [Inhabited V] : Runs (newRadixTree : M V Tree) s fun t s' => ViewOf ex s'.heap t.root t.size false [] := by
  refine ⟨_, _, newRadixTree_run s, ⟨⟨[], [([], s.heap.length + 1)], ?_, fun k v => ⟨fun h => (nomatch h), fun ⟨x, hx⟩ => (nomatch hx)⟩⟩, by simp, ⟨Nat.zero_le _, fun _ => rfl⟩, (by decide : (0 : UInt64).toNat < 2 ^ 63)⟩⟩
  refine .empty (Phantom.intro (n := resetNode 0 s.heap.length) (l := s.heap.length) (lc := { id := 1, value := (default : V), key := [], ch := none }) ?_ (Layout.empty rfl rfl rfl rfl) rfl ?_ rfl ⟨rfl, rfl⟩)
  · have := List.getElem?_concat_length (l := s.heap ++ [resetLeaf (V := V) 0]) (a := .inner (resetNode 0 s.heap.length))
    rw [List.length_append] at this; exact this
  · show (s.heap ++ [resetLeaf (V := V) 0] ++ [.inner (resetNode 0 s.heap.length)])[s.heap.length]? = _
    rw [List.getElem?_append_left (by simp)]
    exact List.getElem?_concat_length

/-! ### Writes -/

theorem oldValue_some [Inhabited V] (hv : m.get k = some v) : oldValue m k = .updated v true := by
  unfold oldValue; rw [hv]

theorem oldValue_none [Inhabited V] (hk : m.get k = none) : oldValue m k = .updated default false := by
  unfold oldValue; rw [hk]

theorem size_zero (hr : RootRep h a full E N) (ha : Abs E m) (hsz : m.length ≤ sz.toNat) (he : m = [] → sz = 0) : sz = 0 ↔ E = [] := by
  rw [← hr.abs_nil ha]
  refine ⟨fun h => ?_, he⟩
  rw [h] at hsz
  exact List.length_eq_zero_iff.1 (by have : (0 : UInt64).toNat = 0 := rfl; omega)

/-- What the insertion of a key may return. -/
def InsOut [Inhabited V] (ex : Bool) (m : Map V) (k : Key) (o : Out V) : Prop :=
  o = oldValue m k ∨ (ex = false ∧ m.Shadowed k ∧ o = .updated default false)

/-- `Txn.Insert`. -/
theorem ViewOf.insert [Inhabited V] (hv : ViewOf ex s.heap s.txn.root s.txn.size true m) (hts : s.txn.treeSize = s.txn.size) (hc : m.Takes s.txn.size k)
    (hx : ex = true → ¬ m.Shadowed k) :
    Runs (txnInsert k v : M V (V × Bool)) s fun r s' => InsOut ex m k (.updated r.1 r.2) ∧ Chg s s' ∧ s'.txn.treeSize = s'.txn.size ∧
      ViewOf ex s'.heap s'.txn.root s'.txn.size true (m.set k v) := by
  obtain ⟨⟨E, N, hr, ha⟩, hn, hsz, hsm⟩ := hv
  have h0 : s.txn.treeSize = 0 ↔ E = [] := by rw [hts]; exact size_zero hr ha hsz.1 hc.empty
  refine Runs.mono (txnInsert_runs (v := v) hr hts h0 (InsOK.of_canPut hr ha hc.put)) ?_
  rintro r s' ⟨⟨h1, E', N', h2, h3, h4⟩, h5, h6⟩
  have hrep := h3 fun h => nomatch h
  have habs := ha.set h4
  have hsz' := hc.size
  have hadd : s'.txn.size = s.txn.size + 1 → s'.txn.size.toNat = s.txn.size.toNat + 1 := fun h => by
    rw [h, UInt64.toNat_add]
    show (s.txn.size.toNat + 1) % 2 ^ 64 = _
    omega
  rcases h6 with ⟨e, he, hek, rfl, h7⟩ | ⟨hno, rfl, h7⟩ | ⟨hov, rfl, h7⟩
  · have hm := ha.mem he hek
    have hhas : m.has k := ⟨_, hm⟩
    have hl : (m.set k v).length = m.length := by
      show (m.del k).length + 1 = _
      exact Map.length_del hn hhas
    exact ⟨Or.inl (oldValue_some (Map.get_some hn hm)).symm, h1, h5, ⟨⟨E', N', hrep, habs⟩, Map.nodup_set hn, by rw [h7, hl]; exact hsz, by rw [h7]; exact hsm⟩⟩
  · have hhas : ¬ m.has k := fun h => by
      obtain ⟨e, he, hek⟩ := ha.has.1 h
      exact hno e he hek
    have hl : (m.set k v).length = m.length + 1 := by
      show (m.del k).length + 1 = _
      rw [Map.del_absent hhas]
    refine ⟨Or.inl (oldValue_none (Map.get_none hhas)).symm, h1, h5, ⟨⟨E', N', hrep, habs⟩, Map.nodup_set hn, ?_, by rw [hadd h7]; exact hsz'⟩⟩
    rw [hl, hadd h7]
    exact ⟨by omega, fun hx => by rw [hsz.2 hx]⟩
  · have hsh := hov.shadowed hr ha fun k' hk' => (hc.put.dollar k' hk').1
    have hl : (m.set k v).length = m.length := by
      show (m.del k).length + 1 = _
      exact Map.length_del hn hsh.1
    cases ex with
    | true => exact absurd hsh (hx rfl)
    | false => exact ⟨Or.inr ⟨rfl, hsh, rfl⟩, h1, h5, ⟨⟨E', N', hrep, habs⟩, Map.nodup_set hn, ⟨by rw [hl, hadd h7]; omega, fun h => nomatch h⟩, by rw [hadd h7]; exact hsz'⟩⟩

/-- `Txn.Delete` on the empty tree. -/
theorem txnDelete_empty [Inhabited V] (hp : Phantom s.heap s.txn.root full) :
    Runs (txnDelete k : M V (V × Bool)) s fun r s' => r = (default, false) ∧ Chg s s' ∧ Phantom s'.heap s'.txn.root false ∧ s'.txn.size = s.txn.size ∧ s'.txn.treeSize = s.txn.treeSize ∧
      Evo (k ++ [dollar]) none s s' [] [] [([], s.txn.root)] [([], s'.txn.root)] := by
  unfold txnDelete
  refine Runs.bind (Runs.txnSt ?_)
  rw [show getTreeKey k = k ++ [dollar] from rfl]
  obtain ⟨n, l, lc, h1, hL, h3, h4, h5, h6, h7⟩ := hp
  have hil : n.isLeaf = true := hL.isLeaf_iff.2 ⟨rfl, by rw [h3]; simp⟩
  unfold recursiveDelete
  refine Runs.bind (Runs.bind (Runs.cell h1 ?_))
  refine Runs.bind (Runs.mono (trackChannel_runs (N := s.heap.length) fun x hx => by
    simp only [Cell.isLeaf, hil, if_true, Option.some.injEq] at hx; subst hx; exact lt_of_get h1) ?_)
  rintro _ s1 ⟨g1, g2, g3⟩
  have g3 := g3 s.txn.root (by simp only [Cell.isLeaf, hil, if_true])
  obtain ⟨lc1, g4, g5, -⟩ := g1.likeL h4
  rw [if_neg (by rintro ⟨-, hm⟩; have := leafMatches_iff.1 hm; simp [Cell.key] at this)]
  have hlm : leafMatches lc1.key (k ++ [dollar]) = false := Bool.eq_false_iff.2 fun h => by
    have := leafMatches_iff.1 h
    rw [g5, h5] at this; simp at this
  have hhit : Runs (leafHit (Cell.inner n : Cell V) (k ++ [dollar]) : M V (Option Nat)) s1 fun x s' => x = none ∧ s' = s1 := by
    unfold leafHit
    simp only [Cell.nodeLeaf, h3]
    refine Runs.bind (Runs.leafAt g4 (Runs.pure ?_))
    simp [hlm]
  refine Runs.bind (Runs.mono hhit ?_)
  rintro x s1' ⟨rfl, ht⟩
  rw [ht]; clear ht s1'
  have hbail : prefixBails (Cell.inner n : Cell V) (k ++ [dollar]) 0 = .ok false := by
    unfold prefixBails
    rw [if_neg (show ¬ (Cell.inner n : Cell V).partialLen > 0 by show ¬ n.partialLen > 0; omega)]
    rfl
  refine Runs.bind (Runs.lift hbail ?_)
  rw [if_neg (by simp)]
  obtain ⟨b, hb⟩ : ∃ b, byteAt (k ++ [dollar]) (0 + (Cell.inner n : Cell V).partialLen) = .ok b := by
    simp only [Cell.partialLen, h6]
    unfold byteAt
    rw [List.getElem?_eq_getElem (by simp)]
    exact ⟨_, rfl⟩
  refine Runs.bind (Runs.lift hb (Runs.bind (Runs.lift (a := (none, 0)) ?_ ?_)))
  · simp only [Cell.findChild]; exact hL.find_none (by simp)
  · refine Runs.pure (Runs.bind ?_)
    unfold setRoot
    refine Runs.mono (resetRoot_runs (s := s1)) ?_
    rintro _ s2 ⟨hch, hroot, hlen2, hold, hz1, hz2, hph⟩
    refine Runs.pure ⟨rfl, g1.chg.trans hch, hph, by rw [hz1, g1.size], by rw [hz2, g1.tsize], ?_⟩
    refine ⟨fun x hx => ?_, by simp, by simp, by simp, by simp, fun q x hx _ => ?_, fun q x hx => ?_⟩
    · rcases hx with hx | hx
      · simp only [List.map_cons, List.map_nil, List.mem_singleton] at hx
        subst hx
        exact Or.inr (by rw [hroot]; have := g1.len; omega)
      · cases hx
    · cases List.mem_singleton.1 hx
      exact g3.chg hch
    · cases List.mem_singleton.1 hx
      exact Or.inl (g3.chg hch)

/-- `Txn.Delete`. -/
theorem ViewOf.delete [CanRemove] [Inhabited V] (hv : ViewOf ex s.heap s.txn.root s.txn.size full m) (hts : s.txn.treeSize = s.txn.size) (hc : m.CanDel k) :
    Runs (txnDelete k : M V (V × Bool)) s fun r s' => .updated r.1 r.2 = oldValue m k ∧ Chg s s' ∧ s'.txn.treeSize = s'.txn.size ∧
      ViewOf ex s'.heap s'.txn.root s'.txn.size (full && !(m.del k).isEmpty) (m.del k) := by
  obtain ⟨⟨E, N, hr, ha⟩, hn, hsz, hsm⟩ := hv
  rcases hc with hk | rfl
  · obtain ⟨e, he, hek⟩ := ha.has.1 hk
    refine Runs.mono (txnDelete_runs hr hts ⟨e, he, hek⟩) ?_
    rintro r s' ⟨⟨h1, E', N', h2, h3, h4⟩, h5, h6, e', he', hek', rfl⟩
    have habs := ha.del h4
    have hl := Map.length_del hn hk
    have hle := hsz.1
    have hsub : s'.txn.size.toNat = s.txn.size.toNat - 1 := by
      rw [h6, UInt64.toNat_sub_of_le _ _ (by rw [UInt64.le_iff_toNat_le]; show 1 ≤ s.txn.size.toNat; omega)]
      rfl
    refine ⟨(oldValue_some (Map.get_some hn (ha.mem he' hek'))).symm, h1, h5, ⟨⟨E', N', ?_, habs⟩, Map.nodup_del hn, ?_, by rw [hsub]; omega⟩⟩
    · cases full with
      | false => exact h2
      | true =>
        cases hd : m.del k with
        | nil => exact h2
        | cons x xs => exact h3 fun _ hE => by rw [h2.abs_nil habs |>.2 hE] at hd; cases hd
    · rw [hsub]
      exact ⟨by omega, fun hx => by have := hsz.2 hx; omega⟩
  · have hE := hr.abs_nil ha |>.1 rfl
    subst hE
    cases hr with
    | tree hr => exact absurd rfl hr.ne_nil
    | empty hp =>
      refine Runs.mono (txnDelete_empty (k := k) hp) ?_
      rintro r s' ⟨rfl, h1, h2, h3, h4, -⟩
      refine ⟨rfl, h1, by rw [h3, h4, hts], ⟨⟨[], [([], s'.txn.root)], ?_, ?_⟩, by simp [Map.del], by rw [h3]; exact hsz, by rw [h3]; exact hsm⟩⟩
      · simp only [Map.del, List.filter_nil, List.isEmpty_nil, Bool.not_true, Bool.and_false]
        exact .empty h2
      · exact fun k v => ⟨fun h => (nomatch h), fun ⟨x, hx⟩ => (nomatch hx)⟩

/-- The operations of a tree: a transaction, one call, and a commit. -/
theorem treeOp_runs {α : Type} {f : M V α} {t : Tree} {Q : α → St V → Prop} (hv : ViewOf ex s.heap t.root t.size full m)
    (hf : ∀ s1 : St V, ViewOf ex s1.heap s1.txn.root s1.txn.size true m → s1.txn.treeSize = s1.txn.size → s1.txn.trackMutate = false → s1.txn.size = t.size →
      Runs f s1 fun r s' => s'.txn.trackMutate = false ∧ Q r s') :
    Runs (treeOp t f) s fun r s' => r.1.root = s'.txn.root ∧ r.1.size = s'.txn.size ∧ Q r.2 s' := by
  unfold treeOp beginTxn withTxn
  refine Runs.bind (Runs.bind (Runs.mono hv.clone ?_))
  rintro a' s1 ⟨-, h1⟩
  refine Runs.pure (Runs.bind (Runs.modTxn (Runs.bind (Runs.mono (hf _ h1 rfl rfl rfl) ?_))))
  rintro r s2 ⟨h2, h3⟩
  refine Runs.bind ?_
  unfold txnCommit txnCommitOnly txnNotify
  refine Runs.bind (Runs.bind (Runs.txnSt (Runs.pure (Runs.bind (Runs.bind (Runs.txnSt ?_))))))
  rw [if_pos (by rw [h2]; rfl)]
  exact Runs.pure (Runs.pure (Runs.pure ⟨rfl, rfl, h3⟩))

end Art
