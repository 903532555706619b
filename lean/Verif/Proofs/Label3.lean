import Verif.Proofs.Label2
/-
`Txn.Insert` and `Txn.Delete` do not close the channel of the leaf of a key that is apart from the written key.
-/
set_option autoImplicit false
set_option linter.unusedVariables false
set_option linter.unusedSimpArgs false
set_option linter.unusedSectionVars false
namespace Art
variable {V : Type} {s s' s'' : St V} {c0 : ChanId} {K K' p P pfx : Key} {a c : Addr} {v : V} {E : List (Ent V)} {N : List (Key × Addr)}
  {n : Inner} {es : Edges} {st : Option Addr} {vals : List (Ent V)} {f : Byte → List (Ent V)} {g : Byte → List (Key × Addr)} {full : Bool}

theorem Wl.lift' {α : Type} {r : R α} {a : α} {Q : α → St V → Prop} (hr : r = .ok a) (h : Q a s) : Wl (M.lift r : M V α) s Q := (Runs.lift hr h).wl
theorem Wl.cell' {a : Addr} {c : Cell V} {Q : Cell V → St V → Prop} (hc : s.heap[a]? = some c) (h : Q c s) : Wl (Art.cell a : M V (Cell V)) s Q := (Runs.cell hc h).wl

/-- The two tree keys belong to keys of which none is a prefix of the other. -/
structure Incomp (K K' : Key) : Prop where
  hd : ∃ k, K = k ++ [dollar]
  hd' : ∃ k, K' = k ++ [dollar]
  h1 : ¬ getKey K <+: getKey K'
  h2 : ¬ getKey K' <+: getKey K

theorem Incomp.ne (h : Incomp K K') : K' ≠ K := fun he => h.h1 (he ▸ List.prefix_refl _)

/-- The own key of a node on the path of `K'` is not `K`. -/
theorem Incomp.path (h : Incomp K K') (hP : P <+: K') : P ++ [dollar] ≠ K := fun he => by
  obtain ⟨k', hk'⟩ := h.hd'
  have h1 := h.h1
  have h2 := h.h2
  rw [← he, hk', getKey_snoc, getKey_snoc] at h1 h2
  rw [hk'] at hP
  rcases List.prefix_concat_iff.1 hP with h3 | h3
  · exact h2 (by rw [h3]; exact List.prefix_append _ _)
  · exact h1 h3

theorem IsNode.ownNe (hi : IsNode s.heap p a n pfx es st vals f g) (hK : p ++ pfx ++ [dollar] ≠ K) : OwnNe K s.heap a := by
  refine ⟨n, hi.ha, fun l hl => ?_⟩
  rcases hi.hown.inv with ⟨h, -⟩ | ⟨y, lc, hy, -, hlc, hk⟩
  · rw [hl] at h; cases h
  · rw [hl] at hy; cases hy
    exact ⟨lc, hlc, by rw [hk]; exact hK⟩

/-- The children of a node. -/
theorem Layout.child (hL : Layout n es st) (hc : some c ∈ n.children) : (∃ b, (b, c) ∈ es) ∨ st = some c := by
  have harr : ∀ k, Arr k n es st → (∃ b, (b, c) ∈ es) ∨ st = some c := fun k h => by
    rcases h.2.2 with ⟨-, -, h⟩ | ⟨-, h⟩
    · rw [h] at hc
      obtain ⟨⟨b, c'⟩, h1, h2⟩ := List.mem_map.1 hc
      cases h2
      exact Or.inl ⟨b, h1⟩
    · rw [h] at hc
      rcases List.mem_append.1 hc with hc | hc
      · obtain ⟨⟨b, c'⟩, h1, h2⟩ := List.mem_map.1 hc
        cases h2
        exact Or.inl ⟨b, h1⟩
      · rcases List.mem_cons.1 hc with hc | hc
        · exact Or.inr hc.symm
        · cases List.eq_of_mem_replicate hc
  obtain ⟨i, hi⟩ := List.getElem?_of_mem hc
  rcases hL.kinds with ⟨-, h⟩ | ⟨-, h⟩ | ⟨-, h, -⟩ | ⟨-, h, -⟩
  · exact harr _ h
  · exact harr _ h
  · obtain ⟨b, h1, -⟩ := h.slot i c hi
    exact Or.inl ⟨b, h1⟩
  · have hlt : i < 256 := by rw [← h.1]; exact (List.getElem?_eq_some_iff.1 hi).1
    refine Or.inl ⟨UInt8.ofNat i, (h.2 _ _).1 ?_⟩
    rw [show (UInt8.ofNat i).toNat = i by simp; omega]
    exact hi

theorem Rep.isInner {h : Heap V} (hr : Rep h p a E N) : ∃ n : Inner, h[a]? = some (.inner n) := by
  cases hr with
  | leaf ha => exact ⟨_, ha⟩
  | node ha => exact ⟨_, ha⟩

theorem IsNode.kidsNe (hi : IsNode s.heap p a n pfx es st vals f g) : KidsNe K s.heap a := by
  refine ⟨n, hi.ha, fun c hc => ?_⟩
  rcases hi.hL.child hc with ⟨b, hb⟩ | hs
  · obtain ⟨m, hm⟩ := (hi.hch b c hb).isInner
    exact notK_inner hm
  · obtain ⟨m, hm, -⟩ := hi.hst c hs
    exact notK_inner hm

theorem Rep.insert_ns [Inhabited V] (hr : Rep s.heap p a E N) (ht : s.txn.treeSize ≠ 0) (hn : NT c0 K s) (hA : Incomp K K') :
    ∀ fuel, InsOK K' E → p <+: K' → K'.length < fuel + p.length →
      Wl (recursiveInsert fuel a K' v p.length : M V (InsRes V)) s fun _ s' => NsA c0 K s s' := by
  induction hr with
  | @leaf p a n l lc ha hL hpart hw hleaf hl hp hd =>
    intro fuel ho hpK hf
    have hle := hpK.length_le
    obtain ⟨fuel, rfl⟩ : ∃ k, fuel = k + 1 := ⟨fuel - 1, by omega⟩
    have hil : n.isLeaf = true := hL.isLeaf_iff.2 ⟨rfl, by rw [hleaf]; simp⟩
    unfold recursiveInsert
    refine Wl.bind (Wl.txnSt ?_)
    rw [if_neg ht]
    refine Wl.bind (Wl.cell' ha ?_)
    simp only [Cell.isLeaf, hil, Cell.nodeLeaf, hleaf]
    exact insertAtLeaf_ns hn hA.ne ha hleaf hl (fun h hk => hA.h2 (hk ▸ (hasPrefixB_iff _ _).1 h)) fun h hk => hA.h1 (hk ▸ (hasPrefixB_iff _ _).1 h)
  | @node p a n pfx es st vals f g ha hL hne hh hst hown hnd htw hch ih =>
    intro fuel ho hpK hf
    have hi : IsNode s.heap p a n pfx es st vals f g := ⟨ha, hL, hne, hh, hst, hown, hnd, htw, hch⟩
    have hle := hpK.length_le
    obtain ⟨fuel, rfl⟩ : ∃ k, fuel = k + 1 := ⟨fuel - 1, by omega⟩
    unfold recursiveInsert
    refine Wl.bind (Wl.txnSt ?_)
    rw [if_neg ht]
    refine Wl.bind (Wl.cell' ha ?_)
    simp only [Cell.isLeaf, hL.not_leaf hne]
    by_cases hvK : ∃ e ∈ vals, e.1 = K'
    · obtain ⟨e, he, hek⟩ := hvK
      rcases hown.inv with ⟨-, rfl⟩ | ⟨y, lc, hy, rfl, hl, hk⟩
      · cases he
      · rw [List.mem_singleton.1 he] at hek
        simp only at hek
        refine Wl.bind (leafHit_some hl hy hek ?_).wl
        simp only
        exact (insertHit_ns hn ⟨lc, hl, by rw [hek]; exact hA.ne⟩ (hi.ownNe (by rw [← hk, hek]; exact hA.ne)))
    have hvK : ∀ e ∈ vals, e.1 ≠ K' := fun e he hek => hvK ⟨e, he, hek⟩
    refine Wl.bind ((leafHit_none hi hvK).wl.mono ?_)
    rintro x t ⟨rfl, ht'⟩
    rw [ht']; clear ht' t
    simp only [Cell.partialLen, hh.len, Cell.findChild]
    have hedge : ∀ b c i, (b, c) ∈ es → p ++ pfx ++ [b] <+: K' → ∀ d, d = (p ++ pfx ++ [b]).length →
        Wl (do let r ← recursiveInsert fuel c K' v d; insertReplace a c i r : M V (InsRes V)) s fun _ s' => NsA c0 K s s' := by
      rintro b c i hbc hbK _ rfl
      have hsub : ∀ e ∈ f b, e ∈ vals ++ es.flatMap fun e => f e.1 := fun e he => List.mem_append_right _ (List.mem_flatMap.2 ⟨_, hbc, he⟩)
      refine Wl.bind ((ih b c hbc fuel (ho.sub hsub) hbK (by simp only [List.length_append, List.length_cons, List.length_nil]; omega)).mono fun R t g1 => ?_)
      exact (insertReplace_ns (g1.ok hn) ((notK_inner ha).step g1)).mono fun _ t' g2 => g1.thenA g2
    have hbyte : p ++ pfx <+: K' → ∃ b, p ++ pfx ++ [b] <+: K' := fun hPK => by
      have hlen : (p ++ pfx).length < K'.length := Nat.lt_of_le_of_ne hPK.length_le fun h => hi.inside ho (by rw [hPK.eq_of_length h]; exact List.prefix_refl _)
      exact ⟨K'[(p ++ pfx).length], prefix_snoc hPK (List.getElem?_eq_getElem hlen)⟩
    have hlenPb : ∀ b : Byte, (p ++ pfx ++ [b]).length = p.length + pfx.length + 1 := fun b => by simp only [List.length_append, List.length_cons, List.length_nil]
    by_cases hpl : pfx.length > 0
    · rw [if_pos hpl]
      obtain ⟨e, E1, hE, hmin⟩ := hi.rep.minimum
      have heE : e ∈ vals ++ es.flatMap fun e => f e.1 := by rw [hE]; simp
      obtain ⟨lc, hlc, hlk, -⟩ := hi.rep.leaf_of e heE
      obtain ⟨y, hy⟩ := hi.longer heE
      obtain ⟨K2, hK2⟩ := hpK
      obtain ⟨R, hR, hmis⟩ := prefixMismatch_eq ha hh (K := K') (K' := K2) hK2.symm ⟨_, lc, hmin, hlc, by rw [hlk]; exact (List.prefix_append _ _).trans hy⟩
        (fun h => hi.inside ho (hK2 ▸ (List.prefix_append_right_inj p).2 h))
      refine Wl.bind (Wl.get (Wl.bind (Wl.lift' hR ?_)))
      rcases hmis with ⟨h1, h2⟩ | ⟨h1, h2, h3, h4⟩
      · rw [if_pos h2]
        have hPK : p ++ pfx <+: K' := hK2 ▸ (List.prefix_append_right_inj p).2 h1
        obtain ⟨b, hbK⟩ := hbyte hPK
        have hlen := hbK.length_le
        rw [hlenPb] at hlen
        rw [if_pos (by omega)]
        have hby := prefix_byte hbK
        rw [List.length_append] at hby
        refine Wl.bind (Wl.lift' (byteAt_eq hby) ?_)
        rcases hL.findChild_iff b with ⟨hbn, hfc⟩ | ⟨l, c, r, i, rfl, hfc, hslot⟩
        · refine Wl.bind (Wl.lift' hfc ?_)
          simp only
          exact insertNoChild_ns hn hA.ne (hi.ownNe (hA.path hPK))
        · refine Wl.bind (Wl.lift' hfc ?_)
          simp only
          exact hedge b c i (by simp) hbK _ (hlenPb b).symm
      · rw [if_neg (by omega)]
        exact insertSplit_ns hn hA.ne (notK_inner ha)
    · rw [if_neg hpl]
      have hp0 : pfx = [] := List.length_eq_zero_iff.1 (by omega)
      have hPK : p ++ pfx <+: K' := by rw [hp0, List.append_nil]; exact hpK
      obtain ⟨b, hbK⟩ := hbyte hPK
      have hby := prefix_byte hbK
      rw [hp0, List.append_nil] at hby
      refine Wl.bind (Wl.lift' (byteAt_eq hby) ?_)
      rcases hL.findChild_iff b with ⟨hbn, hfc⟩ | ⟨l, c, r, i, rfl, hfc, hslot⟩
      · refine Wl.bind (Wl.lift' hfc ?_)
        simp only
        exact insertNew_ns hn hA.ne (hi.ownNe (hA.path hPK))
      · refine Wl.bind (Wl.lift' hfc ?_)
        simp only
        exact hedge b c i (by simp) hbK _ (by rw [hlenPb, hp0]; rfl)

theorem Phantom.ownNe (hp : Phantom s.heap a full) (hK : K ≠ []) : OwnNe K s.heap a := by
  obtain ⟨n, l, lc, h1, -, h3, h4, h5, -⟩ := hp
  refine ⟨n, h1, fun x hx => ?_⟩
  rw [h3] at hx; cases hx
  exact ⟨lc, h4, by rw [h5]; exact hK.symm⟩

theorem txnInsert_ns [Inhabited V] {k : Key} (hr : RootRep s.heap s.txn.root true E N) (h0 : s.txn.treeSize = 0 ↔ E = [])
    (ho : InsOK (k ++ [dollar]) E) (hn : NT c0 K s) (hA : Incomp K (k ++ [dollar])) : Wl (txnInsert k v : M V (V × Bool)) s fun _ s' => NsA c0 K s s' := by
  unfold txnInsert
  refine Wl.bind (Wl.txnSt ?_)
  have hkey : getTreeKey k = k ++ [dollar] := rfl
  rw [hkey]
  suffices h : Wl (recursiveInsert ((k ++ [dollar]).length + 1) s.txn.root (k ++ [dollar]) v 0 : M V (InsRes V)) s fun _ s' => NsA c0 K s s' by
    refine Wl.bind (h.mono fun r s1 g1 => Wl.bind (Wl.modTxn (Wl.pure (g1.thenA (Ns.txn (K := K) (c0 := c0) ?_)))))
    split <;> rfl
  cases hr with
  | empty hp =>
    unfold recursiveInsert
    refine Wl.bind (Wl.txnSt ?_)
    rw [if_pos (h0.2 rfl)]
    obtain ⟨kk, hkk⟩ := hA.hd
    exact insertEmpty_ns hn (hp.ownNe (by rw [hkk]; simp))
  | tree hr =>
    have ht : s.txn.treeSize ≠ 0 := fun h => hr.ne_nil (h0.1 h)
    exact hr.insert_ns ht hn hA ((k ++ [dollar]).length + 1) ho (List.nil_prefix) (by simp)

theorem resetRoot_ns [Inhabited V] (hn : NT c0 K s) : Wl (resetRoot : M V Unit) s fun _ s' => NsA c0 K s s' ∧ NotK K s'.heap s'.txn.root := by
  unfold resetRoot
  refine Wl.bind (Wl.txnSt (Wl.bind (Wl.newCell (Wl.bind (Wl.newCell (Wl.modTxn ?_))))))
  have h1 : ∀ x : Cell V, x.ch = none → Ns0 c0 K s { s with heap := s.heap ++ [x] } := fun x hx => Ns.alloc (Or.inl hx)
  have h2 : ∀ (x y : Cell V), y.ch = none → Ns0 c0 K { s with heap := s.heap ++ [x] } { s with heap := s.heap ++ [x] ++ [y] } := fun x y hy => Ns.alloc (Or.inl hy)
  have h3 : ∀ (h : Heap V) (r m : Nat), Ns0 c0 K { s with heap := h } { s with heap := h, txn := { s.txn with root := r, maxNodeId := m } } := fun h r m => Ns.txn rfl
  exact ⟨((h1 _ rfl).then0 ((h2 _ _ rfl).then0 (h3 _ _ _))).all, notK_inner List.getElem?_concat_length⟩

theorem setRoot_ns [Inhabited V] {o : Option Addr} (hn : NT c0 K s) (ho : ∀ x, o = some x → NotK K s.heap x) :
    Wl (setRoot o : M V Unit) s fun _ s' => NsA c0 K s s' ∧ NotK K s'.heap s'.txn.root := by
  unfold setRoot
  split
  · exact resetRoot_ns hn
  · next x =>
    have h3 : Ns0 c0 K s { s with txn := { s.txn with root := x } } := Ns.txn rfl
    exact Wl.modTxn ⟨h3.all, ho x rfl⟩

theorem Rep.delete_ns (hr : Rep s.heap p a E N) (hn : NT c0 K s) (hA : Incomp K K') : ∀ fuel, (∃ e ∈ E, e.1 = K') → K'.length < fuel + p.length →
    Wl (recursiveDelete fuel a K' p.length : M V DelRes) s fun _ s' => NsA c0 K s s' := by
  induction hr with
  | @leaf p a n y lc ha hL hpart hw hleaf hl hp hd =>
    rintro fuel ⟨e, he, hek⟩ hf
    rw [List.mem_singleton.1 he] at hek
    simp only at hek
    have hle := hp.length_le
    rw [hek] at hle
    obtain ⟨fuel, rfl⟩ : ∃ k, fuel = k + 1 := ⟨fuel - 1, by omega⟩
    have hil : n.isLeaf = true := hL.isLeaf_iff.2 ⟨rfl, by rw [hleaf]; simp⟩
    unfold recursiveDelete
    refine Wl.bind (Wl.cell' ha ?_)
    simp only [Cell.isLeaf, hil, if_true, true_and, Cell.key]
    have ho : OwnNe K s.heap a := ⟨n, ha, fun x hx => by rw [hleaf] at hx; cases hx; exact ⟨lc, hl, by rw [hek]; exact hA.ne⟩⟩
    refine Wl.bind ((trackChannel_ns hn fun x hx => by cases hx; exact notK_inner ha).mono fun _ s1 g1 => ?_)
    have hne : ¬ (leafMatches [] K' = true) := fun h => by
      obtain ⟨k, hk⟩ := hd
      have := leafMatches_iff.1 h
      rw [← hek, hk] at this
      simp at this
    rw [if_neg hne]
    obtain ⟨lc1, h5, h6, -⟩ : ∃ lc1 : LeafC V, s1.heap[y]? = some (.leaf lc1) ∧ lc1.key = lc.key ∧ True := by
      obtain ⟨c1, k1, k2, -⟩ := g1.keep y _ hl
      cases c1 with
      | inner m => cases k2
      | leaf lc1 => exact ⟨lc1, k1, Option.some.inj k2, trivial⟩
    refine Wl.bind (leafHit_some h5 hleaf (h6.trans hek) ?_).wl
    simp only
    exact (deleteHit_ns (g1.ok hn) (ho.step g1 fun h => h)).mono fun _ s2 g2 => g1.all.thenA g2
  | @node p a n pfx es st vals f g ha hL hne hh hst hown hnd htw hch ih =>
    rintro fuel ⟨e, he, hek⟩ hf
    have hi : IsNode s.heap p a n pfx es st vals f g := ⟨ha, hL, hne, hh, hst, hown, hnd, htw, hch⟩
    have hle := (hi.rep.prefix e he).length_le
    rw [hek] at hle
    obtain ⟨fuel, rfl⟩ : ∃ k, fuel = k + 1 := ⟨fuel - 1, by omega⟩
    unfold recursiveDelete
    refine Wl.bind (Wl.cell' ha ?_)
    simp only [Cell.isLeaf, hL.not_leaf hne, Bool.false_eq_true, if_false, false_and]
    refine Wl.bind (trackNone_runs ?_).wl
    rcases node_keys hown hch he with ⟨hk, hv⟩ | ⟨b, c, hb, hf', hpre⟩
    · -- the own leaf
      rcases hown.inv with ⟨-, rfl⟩ | ⟨y, lc, hy, rfl, hl, hlk⟩
      · cases hv
      · rw [List.mem_singleton.1 hv] at hek
        refine Wl.bind (leafHit_some hl hy hek ?_).wl
        simp only at hek
        exact deleteHit_ns hn (hi.ownNe (by rw [← hlk, hek]; exact hA.ne))
    · rw [hek] at hpre
      have hvK : ∀ e ∈ vals, e.1 ≠ K' := fun e' he' hk' => by
        rcases hown.inv with ⟨-, rfl⟩ | ⟨y, lc, hy, rfl, hl, hlk⟩
        · cases he'
        · rw [List.mem_singleton.1 he'] at hk'
          rw [← hk', hlk] at hpre
          exact hnd (by rw [hy]; simp) (List.mem_map.2 ⟨_, hb, prefix_edge hpre (List.prefix_refl _)⟩)
      refine Wl.bind ((leafHit_none hi hvK).wl.mono ?_)
      rintro x t ⟨rfl, ht'⟩
      rw [ht']; clear ht' t
      simp only
      have hPK : p ++ pfx <+: K' := (List.prefix_append _ _).trans hpre
      obtain ⟨bail, hbail, hbi⟩ := prefixBails_eq (V := V) hh K' p.length
      have hb0 : bail = false := hbi.2 fun t ht => by
        obtain ⟨tl, rfl⟩ := hPK
        rw [List.append_assoc, List.drop_left, List.getElem?_append_left (by omega)]
      subst hb0
      refine Wl.bind (Wl.lift' hbail ?_)
      simp only [Bool.false_eq_true, if_false, Cell.partialLen, hh.len]
      have hby := prefix_byte hpre
      rw [List.length_append] at hby
      refine Wl.bind (Wl.lift' (byteAt_eq hby) ?_)
      obtain ⟨l, r, rfl⟩ := Edges.mem_split hb
      obtain ⟨i, hfc, hslot⟩ := hL.find
      refine Wl.bind (Wl.lift' hfc ?_)
      simp only
      have hlen : (p ++ pfx ++ [b]).length = p.length + pfx.length + 1 := by simp only [List.length_append, List.length_cons, List.length_nil]
      have hI := ih b c hb fuel ⟨e, hf', hek⟩ (by rw [hlen]; omega)
      have hD := ((hch b c hb).delete fuel ⟨e, hf', hek⟩ (by rw [hlen]; omega)).wl
      rw [hlen] at hI hD
      refine Wl.bind ((hI.and hD).mono ?_)
      rintro R t ⟨g1, g2, -⟩
      obtain ⟨n1, hn1, hlk⟩ := (g2.frame a (lt_of_get ha) (hi.notin hb)).like ha
      have ho : OwnNe K t.heap a := by
        obtain ⟨n', x1, x2⟩ := hi.ownNe (hA.path hPK)
        rw [ha] at x1; cases x1
        exact ⟨n1, hn1, fun l hl => (x2 l (hlk.leaf ▸ hl)).step g1⟩
      have hk : KidsNe K t.heap a := by
        obtain ⟨n', x1, x2⟩ := hi.kidsNe (K := K)
        rw [ha] at x1; cases x1
        exact ⟨n1, hn1, fun l hl => (x2 l (by rw [← hlk.children]; exact hl)).step g1⟩
      refine Wl.bind ((deleteReplace_ns (g1.ok hn) ho hk).mono fun a2 t2 g3 => ?_)
      refine deleteFinish_ns.mono ?_
      rintro _ _ rfl
      exact g1.thenA g3

theorem txnDelete_ns [Inhabited V] {k : Key} (hr : RootRep s.heap s.txn.root full E N) (hk : ∃ e ∈ E, e.1 = k ++ [dollar])
    (hn : NT c0 K s) (hA : Incomp K (k ++ [dollar])) : Wl (txnDelete k : M V (V × Bool)) s fun _ s' => NsA c0 K s s' := by
  have hrep : Rep s.heap [] s.txn.root E N := by
    cases hr with
    | empty hp => obtain ⟨e, he, -⟩ := hk; cases he
    | tree hr => exact hr
  unfold txnDelete
  refine Wl.bind (Wl.txnSt ?_)
  have hkey : getTreeKey k = k ++ [dollar] := rfl
  rw [hkey]
  have hD := (hrep.delete ((k ++ [dollar]).length + 1) hk (by simp)).wl
  have hS := hrep.delete_ns hn hA ((k ++ [dollar]).length + 1) hk (by simp)
  refine Wl.bind ((hD.and hS).mono ?_)
  rintro r s1 ⟨⟨-, -, g0⟩, g1⟩
  have hn1 := g1.ok hn
  refine Wl.bind ((setRoot_ns hn1 fun x hx => ?_).mono ?_)
  · rcases g0 with ⟨h, -⟩ | ⟨a', E', N', h, hr', -⟩
    · rw [h] at hx; cases hx
    · rw [h] at hx; cases hx
      obtain ⟨m, hm⟩ := hr'.isInner
      exact notK_inner hm
  rintro _ s2 ⟨g2, g3⟩
  have hn2 := g2.ok hn1
  split
  · exact Wl.pure (g1.thenA g2)
  · refine Wl.bind (Wl.txnSt (Wl.bind ((trackChannel_ns hn2 fun x hx => by cases hx; exact g3).mono fun _ s3 g4 => ?_)))
    have h3 : Ns0 c0 K s3 { s3 with txn := { s3.txn with size := s3.txn.size - 1, treeSize := s3.txn.treeSize - 1 } } := Ns.txn rfl
    exact Wl.bind (Wl.modTxn (Wl.bind (Wl.cell fun lc _ => Wl.pure (((g1.thenA g2).thenA g4).thenA h3))))

/-- `Txn.Delete` on the empty tree. -/
theorem txnDelete_empty_ns [Inhabited V] {k : Key} (hp : Phantom s.heap s.txn.root full) (hn : NT c0 K s) :
    Wl (txnDelete k : M V (V × Bool)) s fun _ s' => NsA c0 K s s' := by
  unfold txnDelete
  refine Wl.bind (Wl.txnSt ?_)
  obtain ⟨n, l, lc, h1, hL, h3, h4, h5, h6, h7⟩ := hp
  have hil : n.isLeaf = true := hL.isLeaf_iff.2 ⟨rfl, by rw [h3]; simp⟩
  have hkey : getTreeKey k = k ++ [dollar] := rfl
  rw [hkey]
  suffices h : Wl (recursiveDelete ((k ++ [dollar]).length + 1) s.txn.root (k ++ [dollar]) 0 : M V DelRes) s fun r s' => NsA c0 K s s' ∧ r.node = none ∧ r.leaf = none by
    refine Wl.bind (h.mono ?_)
    rintro r s1 ⟨g1, g2, g3⟩
    refine Wl.bind ((setRoot_ns (g1.ok hn) fun x hx => by rw [g2] at hx; cases hx).mono ?_)
    rintro _ s2 ⟨g4, -⟩
    rw [g3]
    exact Wl.pure (g1.thenA g4)
  unfold recursiveDelete
  refine Wl.bind (Wl.cell' h1 (Wl.bind ((trackChannel_ns hn fun x hx => ?_).mono fun _ s1 g1 => ?_)))
  · simp only [Cell.isLeaf, hil, if_true, Option.some.injEq] at hx; subst hx; exact notK_inner h1
  rw [if_neg (by rintro ⟨-, hm⟩; have := leafMatches_iff.1 hm; simp [Cell.key] at this)]
  have hhit : Wl (leafHit (Cell.inner n : Cell V) (k ++ [dollar]) : M V (Option Nat)) s1 fun x s' => x = none ∧ s' = s1 := by
    unfold leafHit
    simp only [Cell.nodeLeaf, h3]
    refine Wl.bind (Wl.leafAt fun lc1 hlc1 => Wl.pure ⟨?_, rfl⟩)
    obtain ⟨c1, k1, k2, -⟩ := g1.keep l _ h4
    rw [hlc1] at k1; cases k1
    rw [if_neg]
    intro hm
    have := leafMatches_iff.1 hm
    rw [Option.some.inj k2, h5] at this
    simp at this
  refine Wl.bind (hhit.mono ?_)
  rintro x t ⟨rfl, rfl⟩
  simp only
  have hb : prefixBails (Cell.inner n : Cell V) (k ++ [dollar]) 0 = .ok false := by
    unfold prefixBails
    rw [if_neg (by simp [Cell.partialLen, h6])]
    rfl
  refine Wl.bind (Wl.lift' hb ?_)
  simp only [Bool.false_eq_true, if_false]
  refine Wl.bind (Wl.lift fun b _ => Wl.bind (Wl.lift fun o ho => ?_))
  rcases hL.findChild_iff b with ⟨-, hfc⟩ | ⟨l, c, r, i, hes, -, -⟩
  · have : o = (none, 0) ∨ o.1 = none := by
      right
      have : (Cell.inner n : Cell V).findChild b = n.findChild b := rfl
      rw [this, hfc] at ho
      cases ho; rfl
    obtain ⟨o1, o2⟩ := o
    have ho1 : o1 = none := by
      rcases this with h | h
      · cases h; rfl
      · exact h
    subst ho1
    exact Wl.pure ⟨g1.all, rfl, rfl⟩
  · simp at hes

end Art
