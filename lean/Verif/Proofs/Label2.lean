import Verif.Proofs.Label
/-
Writing a key closes no channel of the leaf of a key that is neither a prefix nor an extension of it.
-/
set_option autoImplicit false
set_option linter.unusedVariables false
set_option linter.unusedSimpArgs false
set_option linter.unusedSectionVars false
namespace Art
variable {V : Type} {s s' s'' : St V} {c0 : ChanId} {K K' p P : Key} {a : Addr} {v : V} {X : Addr → Prop}

theorem Ns.to0 {r : Addr} (h1 : Ns0 c0 K s s') (h2 : Ns c0 K (fun x => x = r) s' s'') (hr : s.heap.length ≤ r) : Ns0 c0 K s s'' :=
  h1.trans h2 fun x hx hxa => by subst hxa; omega

/-! ### The parts of `recursiveInsert` -/

theorem insertEmpty_ns [Inhabited V] (hn : NT c0 K s) (ha : OwnNe K s.heap a) : Wl (insertEmpty a K' v : M V (InsRes V)) s fun _ s' => NsA c0 K s s' := by
  unfold insertEmpty
  refine Wl.bind ((writeNode_ns hn fun _ => ⟨ha.notK, ha.leafNe⟩).mono ?_)
  rintro r s1 ⟨g1, g2⟩
  have hn1 := g1.ok hn
  refine Wl.bind ((allocLeaf_ns hn1).mono ?_)
  rintro l s2 ⟨g3, -⟩
  refine Wl.bind ((setNodeLeaf_ns (g3.ok hn1)).mono ?_)
  rintro _ s3 ⟨g4, -⟩
  exact Wl.pure ((g1.all.thenA g3).thenA g4)

theorem insertUpdateLeaf_ns {ov : V} (hn : NT c0 K s) (ha : OwnNe K s.heap a) : Wl (insertUpdateLeaf a ov K' v : M V (InsRes V)) s fun _ s' => NsA c0 K s s' := by
  unfold insertUpdateLeaf
  refine Wl.bind ((writeNode_ns hn fun _ => ⟨ha.notK, ha.leafNe⟩).mono ?_)
  rintro r s1 ⟨g1, g2⟩
  have hn1 := g1.ok hn
  refine Wl.bind ((allocLeaf_ns hn1).mono ?_)
  rintro l s2 ⟨g3, -⟩
  refine Wl.bind ((setNodeLeaf_ns (g3.ok hn1)).mono ?_)
  rintro _ s3 ⟨g4, -⟩
  exact Wl.pure ((g1.all.thenA g3).thenA g4)

theorem setNodeLeaf_own {l : Option Addr} (hn : NT c0 K s) (hl : ∀ x, l = some x → Other K s.heap x) :
    Wl (setNodeLeaf a l : M V Unit) s fun _ s' => Ns c0 K (fun x => x = a) s s' ∧ OwnNe K s'.heap a :=
  (setNodeLeaf_ns hn).mono fun _ s' ⟨h1, n, h2, h3⟩ => ⟨h1, n, h2, fun x hx => (hl x (h3 ▸ hx)).step h1⟩

theorem insertPair_ns {newNode node nodeLeaf newLeaf2 newLeaf2L : Addr} {oldKey : Key} {i : Nat} (hn : NT c0 K s) (hN : OwnNe K s.heap newNode)
    (hL2 : Other K s.heap newLeaf2L) (h1 : hasPrefixB (getKey oldKey) (getKey K') = true → Other K s.heap nodeLeaf)
    (h2 : hasPrefixB (getKey K') (getKey oldKey) = true → Other K s.heap nodeLeaf) :
    Wl (insertPair newNode node nodeLeaf newLeaf2 newLeaf2L oldKey K' i : M V Addr) s fun _ s' => NsA c0 K s s' := by
  unfold insertPair
  refine Wl.ite (fun hc => ?_) fun _ => Wl.ite (fun hc => ?_) fun _ => ?_
  · have hl := h1 hc
    refine Wl.bind ((trackChannel_ns hn fun x hx => by cases hx; exact hl.notK).mono fun _ s1 g1 => ?_)
    have hn1 := g1.ok hn
    refine Wl.bind ((setNodeLeaf_own hn1 fun x hx => by cases hx; exact hL2.step g1).mono ?_)
    rintro _ s2 ⟨g2, g3⟩
    refine Wl.bind (Wl.lift fun b _ => (addChild_ns (g2.ok hn1) g3).mono ?_)
    rintro r s3 ⟨g4, -⟩
    exact (g1.all.thenA g2).thenA g4
  · refine Wl.bind ((setNodeLeaf_own hn fun x hx => by cases hx; exact h2 hc).mono ?_)
    rintro _ s2 ⟨g2, g3⟩
    refine Wl.bind (Wl.lift fun b _ => (addChild_ns (g2.ok hn) g3).mono ?_)
    rintro r s3 ⟨g4, -⟩
    exact g2.all.thenA g4
  · refine Wl.bind ((addChildAt_ns hn hN).mono ?_)
    rintro r s1 ⟨g1, g2, -⟩
    refine (addChildAt_ns (g1.ok hn) g2).mono ?_
    rintro r2 s2 ⟨g3, -⟩
    exact g1.all.thenA g3

theorem insertSplitLeaf_ns [Inhabited V] {nodeLeaf : Addr} {oldKey : Key} {d : Nat} (hn : NT c0 K s) (hK : K' ≠ K) (ha : NotK K s.heap a)
    (h1 : hasPrefixB (getKey oldKey) (getKey K') = true → Other K s.heap nodeLeaf)
    (h2 : hasPrefixB (getKey K') (getKey oldKey) = true → Other K s.heap nodeLeaf) :
    Wl (insertSplitLeaf a nodeLeaf oldKey K' v d : M V (InsRes V)) s fun _ s' => NsA c0 K s s' := by
  unfold insertSplitLeaf
  refine Wl.bind ((makeLeaf_ns hn hK).mono ?_)
  rintro l2 s1 ⟨g1, -, n2, g2, g3⟩
  have hn1 := g1.ok hn
  refine Wl.bind (Wl.innerAt fun w hw => ?_)
  rw [g2] at hw; cases hw
  split
  · exact Wl.throw
  · next l2L hl2 =>
    have hL2 := g3 l2L hl2
    refine Wl.bind ((trackChannel_ns hn1 fun x hx => by cases hx; exact ha.step g1).mono fun _ s2 g4 => ?_)
    have hn2 := g4.ok hn1
    refine Wl.bind ((writeNode_ns (t := false) hn2 fun h => nomatch h).mono ?_)
    rintro a1 s3 ⟨g5, -⟩
    have hn3 := g5.ok hn2
    refine Wl.bind (Wl.lift fun lp _ => ?_)
    refine Wl.bind ((allocInner_ns hn3).mono ?_)
    rintro d4 s4 ⟨g6, -, m, g7, g8⟩
    have hn4 := g6.ok hn3
    refine Wl.bind (Wl.innerAt fun m' hm' => Wl.bind ((wrInner_ns hn4 hm' (by rfl) (by rfl)).mono ?_))
    rintro _ s5 ⟨g9, g10, -⟩
    have hall := (((g1.all.thenA g4).thenA g5).thenA g6).thenA g9
    refine Wl.bind ((insertPair_ns (g9.ok hn4) (g10 ⟨m, g7, fun l hl => by rw [g8] at hl; cases hl⟩) ((((hL2.step g4).step g5).step g6).step g9)
      (fun h => (h1 h).step hall) (fun h => (h2 h).step hall)).mono fun r s6 g11 => Wl.pure (hall.thenA g11))

theorem insertAtLeaf_ns [Inhabited V] {n : Inner} {l : Addr} {lc : LeafC V} {d : Nat} (hn : NT c0 K s) (hK : K' ≠ K) (ha : s.heap[a]? = some (.inner n))
    (hl : n.leaf = some l) (hlc : s.heap[l]? = some (.leaf lc))
    (h1 : hasPrefixB (getKey lc.key) (getKey K') = true → lc.key ≠ K) (h2 : hasPrefixB (getKey K') (getKey lc.key) = true → lc.key ≠ K) :
    Wl (insertAtLeaf a l K' v d : M V (InsRes V)) s fun _ s' => NsA c0 K s s' := by
  unfold insertAtLeaf
  refine Wl.bind (Wl.leafAt fun lc' hlc' => ?_)
  rw [hlc] at hlc'; cases hlc'
  refine Wl.ite (fun hk => insertUpdateLeaf_ns hn ⟨n, ha, fun x hx => ?_⟩) fun _ => insertSplitLeaf_ns hn hK (notK_inner ha) (fun h => ⟨lc, hlc, h1 h⟩) fun h => ⟨lc, hlc, h2 h⟩
  rw [hl] at hx; cases hx
  exact ⟨lc, hlc, by rw [hk.2]; exact hK⟩

theorem insertHit_ns [Inhabited V] {l : Addr} (hn : NT c0 K s) (hl : Other K s.heap l) (ha : OwnNe K s.heap a) :
    Wl (insertHit a l v : M V (InsRes V)) s fun _ s' => NsA c0 K s s' := by
  unfold insertHit
  refine Wl.bind ((writeNode_ns hn fun _ => ⟨hl.notK, hl.leafNe⟩).mono ?_)
  rintro r s1 ⟨g1, g2⟩
  have hn1 := g1.ok hn
  refine Wl.bind (Wl.leafAt fun lc hlc => Wl.bind (Wl.wr ?_))
  have g3 : Ns0 c0 K s1 { s1 with heap := s1.heap.set r (.leaf { lc with value := v }) } := Ns.set0 hlc rfl rfl rfl rfl
  have hn2 := g3.ok hn1
  have ha2 := (ha.step g1 fun h => h).step g3 fun h => h
  refine Wl.bind ((writeNode_ns hn2 fun _ => ⟨ha2.notK, ha2.leafNe⟩).mono ?_)
  rintro r2 s3 ⟨g4, -⟩
  refine Wl.bind ((setNodeLeaf_ns (g4.ok hn2)).mono ?_)
  rintro _ s4 ⟨g5, -⟩
  exact Wl.pure (((g1.all.thenA g3).thenA g4).thenA g5)

theorem leafClash_ns {n : Inner} : Wl (leafClash n K' : M V Bool) s fun _ s' => s' = s := by
  unfold leafClash
  split
  · exact Wl.pure rfl
  · exact Wl.bind (Wl.leafAt fun lc _ => Wl.pure rfl)

theorem insertNoChild_ns [Inhabited V] {d : Nat} (hn : NT c0 K s) (hK : K' ≠ K) (ha : OwnNe K s.heap a) :
    Wl (insertNoChild a K' v d : M V (InsRes V)) s fun _ s' => NsA c0 K s s' := by
  unfold insertNoChild
  refine Wl.bind ((makeLeaf_ns hn hK).mono ?_)
  rintro l s1 ⟨g1, -, -⟩
  have hn1 := g1.ok hn
  have ha1 := ha.step g1 fun h => h
  refine Wl.bind (Wl.innerAt fun n h1 => Wl.bind (leafClash_ns.mono ?_))
  rintro cl t rfl
  refine Wl.bind ((trackChannel_ns hn1 fun x hx => by cases hx; exact ha1.notK).mono fun _ s2 g2 => ?_)
  have hn2 := g2.ok hn1
  have ha2 := ha1.step g2 fun h => h
  refine Wl.bind ((writeNode_ns (t := false) hn2 fun h => nomatch h).mono ?_)
  rintro r s3 ⟨g3, g4⟩
  refine Wl.ite (fun _ => Wl.bind ((allocInner_ns (g3.ok hn2)).mono fun _ _ _ => Wl.throw)) fun _ => ?_
  refine Wl.bind ((addChildAt_ns (g3.ok hn2) (g4.own g3 ha2)).mono ?_)
  rintro r2 s4 ⟨g5, -⟩
  exact Wl.pure (((g1.all.thenA g2).thenA g3).thenA g5)

theorem splitShort_ns {newNode node : Addr} {pd : Nat} (hn : NT c0 K s) (hN : OwnNe K s.heap newNode) :
    Wl (splitShort newNode node pd : M V Addr) s fun r s' => NsA c0 K s s' ∧ OwnNe K s'.heap r := by
  unfold splitShort
  refine Wl.bind (Wl.innerAt fun n h1 => Wl.bind (Wl.lift fun b _ => Wl.bind ((addChild_ns hn hN).mono ?_)))
  rintro r s1 ⟨g1, g2, -⟩
  refine Wl.bind (Wl.innerAt fun n' h2 => Wl.bind (Wl.assert (Wl.bind (Wl.wr (Wl.pure ?_)))))
  have g3 : ∀ (pl : Nat) (pp : List Byte), Ns0 c0 K s1 { s1 with heap := s1.heap.set node (.inner { n' with partialLen := pl, part := pp }) } :=
    fun pl pp => Ns.set0 h2 rfl rfl rfl rfl
  exact ⟨g1.all.thenA (g3 _ _), g2.step (g3 _ _) fun h => h⟩

theorem splitLong_ns {newNode node : Addr} {d pd : Nat} (hn : NT c0 K s) (hN : OwnNe K s.heap newNode) :
    Wl (splitLong newNode node d pd : M V Addr) s fun r s' => NsA c0 K s s' ∧ OwnNe K s'.heap r := by
  unfold splitLong
  refine Wl.bind (Wl.innerAt fun n h1 => Wl.bind (Wl.wr ?_))
  have g0 : ∀ (pl : Nat), Ns0 c0 K s { s with heap := s.heap.set node (.inner { n with partialLen := pl }) } := fun pl => Ns.set0 h1 rfl rfl rfl rfl
  refine Wl.bind (Wl.get (Wl.bind (Wl.lift fun o ho => ?_)))
  split
  · exact Wl.throw
  · next l =>
    refine Wl.bind (Wl.leafAt fun lc hlc => Wl.bind (Wl.lift fun b _ => Wl.bind ((addChild_ns ((g0 _).ok hn) (hN.step (g0 _) fun h => h)).mono ?_)))
    rintro r s1 ⟨g1, g2, -⟩
    refine Wl.bind (Wl.innerAt fun n' h2 => Wl.bind (Wl.assert (Wl.bind (Wl.wr (Wl.pure ?_)))))
    have g3 : ∀ (pp : List Byte), Ns0 c0 K s1 { s1 with heap := s1.heap.set node (.inner { n' with part := pp }) } :=
      fun pp => Ns.set0 h2 rfl rfl rfl rfl
    exact ⟨((g0 _).all.thenA g1).thenA (g3 _), g2.step (g3 _) fun h => h⟩

theorem insertSplit_ns [Inhabited V] {d pd : Nat} (hn : NT c0 K s) (hK : K' ≠ K) (ha : NotK K s.heap a) :
    Wl (insertSplit a K' v d pd : M V (InsRes V)) s fun _ s' => NsA c0 K s s' := by
  unfold insertSplit
  refine Wl.bind ((allocInner_ns hn).mono ?_)
  rintro nn s1 ⟨g1, -, m, g2, g3⟩
  have hn1 := g1.ok hn
  refine Wl.bind (Wl.innerAt fun n h1 => Wl.bind (Wl.innerAt fun m' h2 => Wl.bind (Wl.assert (Wl.bind ((wrInner_ns hn1 h2 (by rfl) (by rfl)).mono ?_)))))
  rintro _ s2 ⟨g4, g5, -⟩
  have hn2 := g4.ok hn1
  have hN := g5 ⟨m, g2, fun l hl => by rw [g3] at hl; cases hl⟩
  refine Wl.bind ((trackChannel_ns hn2 fun x hx => by cases hx; exact (ha.step g1).step g4).mono fun _ s3 g6 => ?_)
  have hn3 := g6.ok hn2
  refine Wl.bind ((writeNode_ns (t := false) hn3 fun h => nomatch h).mono ?_)
  rintro a1 s4 ⟨g7, -⟩
  have hn4 := g7.ok hn3
  have hN4 := (hN.step g6 fun h => h).step g7 fun h => h
  have hall := ((g1.all.thenA g4).thenA g6).thenA g7
  have hsp : Wl (splitChild nn a1 n.partialLen d pd : M V Addr) s4 fun r s' => NsA c0 K s4 s' ∧ OwnNe K s'.heap r := by
    unfold splitChild
    exact Wl.ite (fun _ => splitShort_ns hn4 hN4) fun _ => splitLong_ns hn4 hN4
  refine Wl.bind (hsp.mono ?_)
  rintro r s5 ⟨g8, g9⟩
  have hn5 := g8.ok hn4
  refine Wl.bind ((makeLeaf_ns hn5 hK).mono ?_)
  rintro l s6 ⟨g10, -, -⟩
  refine Wl.bind ((addChildAt_ns (g10.ok hn5) (g9.step g10 fun h => h)).mono ?_)
  rintro r2 s7 ⟨g11, -⟩
  exact Wl.pure (((hall.thenA g8).thenA g10).thenA g11)

theorem insertReplace_ns {child : Addr} {i : Nat} {r : InsRes V} (hn : NT c0 K s) (ha : NotK K s.heap a) :
    Wl (insertReplace a child i r : M V (InsRes V)) s fun _ s' => NsA c0 K s s' := by
  unfold insertReplace
  refine Wl.ite (fun _ => ?_) fun _ => Wl.pure Ns.refl
  refine Wl.bind ((trackChannel_ns hn fun x hx => by cases hx; exact ha).mono fun _ s1 g1 => ?_)
  have hn1 := g1.ok hn
  refine Wl.bind ((writeNode_ns (t := false) hn1 fun h => nomatch h).mono ?_)
  rintro a1 s2 ⟨g2, -⟩
  refine Wl.bind ((setChildAt_ns (g2.ok hn1)).mono ?_)
  rintro _ s3 ⟨g3, -⟩
  exact Wl.pure ((g1.all.thenA g2).thenA g3)

theorem insertNew_ns [Inhabited V] {d : Nat} (hn : NT c0 K s) (hK : K' ≠ K) (ha : OwnNe K s.heap a) :
    Wl (insertNew a K' v d : M V (InsRes V)) s fun _ s' => NsA c0 K s s' := by
  unfold insertNew
  refine Wl.bind ((makeLeaf_ns hn hK).mono ?_)
  rintro l s1 ⟨g1, -, -⟩
  have hn1 := g1.ok hn
  have ha1 := ha.step g1 fun h => h
  refine Wl.ite (fun _ => ?_) fun _ => Wl.pure g1.all
  refine Wl.bind ((trackChannel_ns hn1 fun x hx => by cases hx; exact ha1.notK).mono fun _ s2 g2 => ?_)
  have hn2 := g2.ok hn1
  have ha2 := ha1.step g2 fun h => h
  refine Wl.bind ((writeNode_ns (t := false) hn2 fun h => nomatch h).mono ?_)
  rintro r s3 ⟨g3, g4⟩
  refine Wl.bind (Wl.lift fun b _ => Wl.bind ((addChild_ns (g3.ok hn2) (g4.own g3 ha2)).mono ?_))
  rintro r2 s4 ⟨g5, -⟩
  exact Wl.pure (((g1.all.thenA g2).thenA g3).thenA g5)

/-! ### The parts of `recursiveDelete` -/

theorem deleteHit_ns {l : Addr} (hn : NT c0 K s) (ha : OwnNe K s.heap a) : Wl (deleteHit a l : M V DelRes) s fun _ s' => NsA c0 K s s' := by
  unfold deleteHit
  refine Wl.bind ((writeNode_ns hn fun _ => ⟨ha.notK, ha.leafNe⟩).mono ?_)
  rintro r s1 ⟨g1, -⟩
  refine Wl.bind ((setNodeLeaf_ns (g1.ok hn)).mono ?_)
  rintro _ s2 ⟨g2, -⟩
  exact Wl.bind (Wl.innerAt fun n _ => Wl.ite (fun _ => Wl.pure (g1.all.thenA g2)) fun _ => Wl.pure (g1.all.thenA g2))

theorem deleteReplace_ns {child : Addr} {i : Nat} {b : Byte} {r : DelRes} (hn : NT c0 K s) (ha : OwnNe K s.heap a) (hk : KidsNe K s.heap a) :
    Wl (deleteReplace a child i b r : M V Addr) s fun _ s' => NsA c0 K s s' := by
  unfold deleteReplace
  refine Wl.ite (fun _ => ?_) fun _ => Wl.pure Ns.refl
  refine Wl.bind ((trackChannel_ns hn fun x hx => by cases hx; exact ha.notK).mono fun _ s1 g1 => ?_)
  have hn1 := g1.ok hn
  refine Wl.bind ((writeNode_ns (t := false) hn1 fun h => nomatch h).mono ?_)
  rintro a1 s2 ⟨g2, g3⟩
  have hn2 := g2.ok hn1
  have ha2 := g3.own g2 (ha.step g1 fun h => h)
  have hk2 := g3.kids g2 (hk.step g1 fun h => h)
  refine Wl.bind ((setChildAt_ns hn2).mono ?_)
  rintro _ s3 ⟨g4, g5, g6⟩
  refine Wl.ite (fun hr => ?_) fun _ => Wl.pure ((g1.all.thenA g2).thenA g4)
  refine (removeChild_ns (g4.ok hn2) (g6 hk2 fun x hx => by rw [hr] at hx; cases hx) (g5 ha2)).mono fun _ s4 g7 => ((g1.all.thenA g2).thenA g4).thenA g7

theorem deleteFinish_ns {r : DelRes} : Wl (deleteFinish a r : M V DelRes) s fun _ s' => s' = s := by
  unfold deleteFinish
  exact Wl.bind (Wl.cell fun c _ => Wl.ite (fun _ => Wl.pure rfl) fun _ => Wl.pure rfl)

end Art
