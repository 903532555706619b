import Verif.Proofs.RepInsert2
/-
`recursiveInsert` on a well-formed subtree.
-/
set_option autoImplicit false
set_option linter.unusedVariables false
set_option linter.unusedSimpArgs false
set_option linter.unusedSectionVars false
namespace Art
variable {V : Type} [Removals] {s s' s'' t t' : St V} {h h' : Heap V} {E E' A A' B B' : List (Ent V)} {N N' N1 N1' N2 N2' : List (Key × Addr)} {K p P pfx : Key} {o : Option V}
  {b : Byte} {a a' c c' : Addr} {l r es : Edges} {Z : Nat} {X : Addr → Prop} {v : V} {n m : Inner} {st : Option Addr} {vals : List (Ent V)}
  {f : Byte → List (Ent V)} {g : Byte → List (Key × Addr)}

/-- When an insertion of the tree key `K` next to the entries `E` works: the key conflicts with no other key, and no node gets
256 children. -/
structure InsOK (K : Key) (E : List (Ent V)) : Prop where
  hd : ∃ k, K = k ++ [dollar]
  sep1 : ∀ e ∈ E, e.1 ≠ K → ¬ e.1 <+: K
  sep2 : ∀ e ∈ E, e.1 ≠ K → ¬ K <+: e.1
  gap : ∀ P : Key, ∃ b : Byte, ¬ P ++ [b] <+: K ∧ ∀ e ∈ E, ¬ P ++ [b] <+: e.1

theorem InsOK.sub (ho : InsOK K E) (hs : ∀ e ∈ E', e ∈ E) : InsOK K E' where
  hd := ho.hd
  sep1 := fun e he => ho.sep1 e (hs e he)
  sep2 := fun e he => ho.sep2 e (hs e he)
  gap := fun P => by
    obtain ⟨b, h1, h2⟩ := ho.gap P
    exact ⟨b, h1, fun e he => h2 e (hs e he)⟩

/-- Some entry below an edge. -/
theorem IsNode.entry (hi : IsNode h p a n pfx es st vals f g) (hb : (b, c) ∈ es) :
    ∃ e, e ∈ vals ++ es.flatMap (fun e => f e.1) ∧ e ∈ f b ∧ p ++ pfx ++ [b] <+: e.1 := by
  obtain ⟨e, E1, he⟩ := List.exists_cons_of_ne_nil (hi.hch b c hb).ne_nil
  have hm : e ∈ f b := by rw [he]; simp
  exact ⟨e, List.mem_append_right _ (List.mem_flatMap.2 ⟨_, hb, hm⟩), hm, (hi.hch b c hb).prefix e hm⟩

/-- The key does not end within the path of a node. -/
theorem IsNode.inside (hi : IsNode h p a n pfx es st vals f g) (ho : InsOK K (vals ++ es.flatMap fun e => f e.1)) : ¬ K <+: p ++ pfx := fun hK => by
  obtain ⟨⟨b, c⟩, hb⟩ := List.exists_mem_of_ne_nil _ hi.hne.ne
  obtain ⟨e, he, -, hp⟩ := hi.entry hb
  refine ho.sep2 e he (fun h => ?_) (hK.trans ((List.prefix_append _ _).trans hp))
  subst h
  have := (hp.trans hK).length_le
  simp only [List.length_append, List.length_cons, List.length_nil] at this
  omega

/-- A key that is the own key of an inner node. -/
theorem IsNode.over (hi : IsNode h p a n pfx es st vals f g) {e : Ent V} (he : e ∈ vals) (hK : e.1 = K) : Over K (vals ++ es.flatMap fun e => f e.1) := by
  obtain ⟨⟨b, c⟩, hb⟩ := List.exists_mem_of_ne_nil _ hi.hne.ne
  obtain ⟨e', he', hf, hp⟩ := hi.entry hb
  have hem : e ∈ vals ++ es.flatMap fun e => f e.1 := List.mem_append_left _ he
  rcases hi.hown.inv with ⟨-, rfl⟩ | ⟨y, lc, hy, rfl, hl, hk⟩
  · cases he
  · have hek : e.1 = p ++ pfx ++ [dollar] := by rw [List.mem_singleton.1 he]; exact hk
    refine ⟨⟨e, hem, hK⟩, p ++ pfx, hK ▸ hek, e', he', fun h => ?_, (List.prefix_append _ _).trans hp⟩
    rw [h, ← hK, hek] at hp
    have := hp.eq_of_length (by simp)
    have hbd : b = dollar := by simpa using this
    exact hi.hnd (by rw [hy]; simp) (List.mem_map.2 ⟨_, hb, hbd⟩)

theorem bytes_le {bs : List Byte} (hn : bs.Nodup) : bs.length ≤ 256 := by
  have h1 : (bs.map (·.toNat)).Nodup := by
    induction bs with
    | nil => simp
    | cons b bs ih =>
      rw [List.map_cons, List.nodup_cons]
      rw [List.nodup_cons] at hn
      refine ⟨fun h => ?_, ih hn.2⟩
      obtain ⟨b', h1, h2⟩ := List.mem_map.1 h
      exact hn.1 (UInt8.toNat_inj.1 h2 ▸ h1)
  have h2 := h1.length_le_of_subset (l₂ := List.range 256) fun x hx => by
    obtain ⟨b, -, rfl⟩ := List.mem_map.1 hx
    exact List.mem_range.2 (byte_lt_len b)
  simpa using h2

theorem IsNode.newEdge (hi : IsNode h p a n pfx es st vals f g) (ho : InsOK K (vals ++ es.flatMap fun e => f e.1)) (hK : p ++ pfx ++ [b] <+: K)
    (hb : b ∉ es.map (·.1)) (hvK : ∀ e ∈ vals, e.1 ≠ K) : NewEdge K (p ++ pfx) b n es vals f where
  hd := ho.hd
  hK := hK
  hb := hb
  hlt := by
    obtain ⟨b0, h1, h2⟩ := ho.gap (p ++ pfx)
    have hb0 : b0 ∉ es.map (·.1) := fun hm => by
      obtain ⟨⟨b', c'⟩, hm', rfl⟩ := List.mem_map.1 hm
      obtain ⟨e, he, -, hp⟩ := hi.entry hm'
      exact h2 e he hp
    have hbb : b0 ≠ b := fun h => h1 (h ▸ hK)
    have := bytes_le (bs := b0 :: b :: es.map (·.1)) (by simp only [List.nodup_cons, List.mem_cons, not_or]; exact ⟨⟨hbb, hb0⟩, hb, hi.hL.sorted.nodup⟩)
    simp only [List.length_cons, List.length_map] at this
    omega
  hdol := fun hl hbd => by
    subst hbd
    rcases hi.hown.inv with ⟨hn, -⟩ | ⟨y, lc, hy, rfl, hl', hk⟩
    · exact hl hn
    · have hem : (lc.key, lc.value, y) ∈ [(lc.key, lc.value, y)] ++ es.flatMap fun e => f e.1 := by simp
      exact ho.sep1 _ hem (hvK _ (List.mem_singleton.2 rfl)) (by rw [hk]; exact hK)
  hno := fun e he hk => by
    rcases node_keys hi.hown hi.hch he with ⟨-, hv⟩ | ⟨b', c', hb', -, hp⟩
    · exact hvK e hv hk
    · rw [hk] at hp
      exact hb (List.mem_map.2 ⟨_, hb', prefix_edge hp hK⟩)

theorem leafHit_none (hi : IsNode s.heap p a n pfx es st vals f g) (hvK : ∀ e ∈ vals, e.1 ≠ K) :
    Runs (leafHit (Cell.inner n : Cell V) K : M V (Option Nat)) s fun x s' => x = none ∧ s' = s := by
  unfold leafHit
  simp only [Cell.nodeLeaf]
  rcases hi.hown.inv with ⟨ho, -⟩ | ⟨y, lc, ho, rfl, hl, hk⟩
  · rw [ho]
    exact Runs.pure ⟨rfl, rfl⟩
  · rw [ho]
    refine Runs.bind (Runs.leafAt hl (Runs.pure ⟨?_, rfl⟩))
    rw [if_neg]
    intro hm
    exact hvK _ (List.mem_singleton.2 rfl) (leafMatches_iff.1 hm)

/-- The edges other than `$` do not lead to the own key. -/
theorem IsNode.kids_ne (hi : IsNode h p a n pfx es st vals f g) (hl : n.leaf ≠ none) (hK : K = p ++ pfx ++ [dollar]) :
    (∀ e ∈ es.flatMap (fun e => f e.1), e.1 ≠ K) ∧ ∀ q x, (q, x) ∈ es.flatMap (fun e => g e.1) → ¬ q <+: K := by
  have hne : ∀ b c q, (b, c) ∈ es → p ++ pfx ++ [b] <+: q → ¬ q <+: K := fun b c q hb h1 h2 => by
    have := h1.trans h2
    rw [hK] at this
    exact hi.hnd hl (List.mem_map.2 ⟨_, hb, prefix_edge this (List.prefix_refl _)⟩)
  refine ⟨fun e he hk => ?_, fun q x hx => ?_⟩
  · obtain ⟨⟨b, c⟩, hb, he⟩ := List.mem_flatMap.1 he
    exact hne b c e.1 hb ((hi.hch b c hb).prefix e he) (hk ▸ List.prefix_refl _)
  · obtain ⟨⟨b, c⟩, hb, he⟩ := List.mem_flatMap.1 hx
    exact hne b c q hb ((hi.hch b c hb).paths _ he)

theorem leafHit_some {lc : LeafC V} (hl : s.heap[c]? = some (.leaf lc)) (ho : n.leaf = some c) (hk : lc.key = K) {Q : Option Nat → St V → Prop} (hq : Q (some c) s) :
    Runs (leafHit (Cell.inner n : Cell V) K : M V (Option Nat)) s Q := by
  unfold leafHit
  simp only [Cell.nodeLeaf, ho]
  refine Runs.bind (Runs.leafAt hl (Runs.pure ?_))
  rw [if_pos (leafMatches_iff.2 hk)]
  exact hq

/-- Overwriting the own key of an inner node: the call reports a new key. -/
theorem insertHit_runs [Inhabited V] {y : Addr} {lc : LeafC V} (hi : IsNode s.heap p a n pfx es st vals f g)
    (hleaf : n.leaf = some y) (hl : s.heap[y]? = some (.leaf lc)) :
    Runs (insertHit a y v : M V (InsRes V)) s (InsPost s p lc.key v (vals ++ es.flatMap fun e => f e.1) ((p, a) :: es.flatMap fun e => g e.1)) := by
  obtain ⟨hvals, hkey⟩ : vals = [(lc.key, lc.value, y)] ∧ lc.key = p ++ pfx ++ [dollar] := by
    rcases hi.hown.inv with ⟨ho, -⟩ | ⟨z, lc', ho, rfl, hz, hk⟩
    · rw [hleaf] at ho; cases ho
    · rw [hleaf] at ho; cases ho
      rw [hl] at hz; cases hz
      exact ⟨rfl, hk⟩
  have hlne : n.leaf ≠ none := by rw [hleaf]; simp
  have hover : Over lc.key (vals ++ es.flatMap fun e => f e.1) := hi.over (e := (lc.key, lc.value, y)) (by rw [hvals]; simp) rfl
  unfold insertHit
  refine Runs.bind (Runs.mono (writeLeaf_runs (N := s.heap.length) (t := true) hl) ?_)
  rintro y1 s1 ⟨h1, h2, ⟨i1, k1, h3⟩, h4⟩
  refine Runs.bind (Runs.leafAt h3 (Runs.bind (Runs.wr ?_)))
  have hst1 : Stp s.heap.length (fun x => x = y1) s1 { s1 with heap := s1.heap.set y1 (.leaf { id := i1, value := v, key := lc.key, ch := k1 }) } :=
    Stp.wrLeaf h3 rfl rfl rfl
  have hy1 : (s1.heap.set y1 (.leaf { id := i1, value := v, key := lc.key, ch := k1 }))[y1]? = some (Cell.leaf { id := i1, value := v, key := lc.key, ch := k1 }) := get_set_self (lt_of_get h3)
  obtain ⟨m0, ha0, hm0⟩ := h1.like hi.ha
  have ha1 : (s1.heap.set y1 (.leaf { id := i1, value := v, key := lc.key, ch := k1 }))[a]? = some (Cell.inner m0 : Cell V) := by
    rw [get_set_ne (by rintro rfl; rw [h3] at ha0; cases ha0)]; exact ha0
  obtain ⟨lcy, hy0, hky, -⟩ := h1.likeL hl
  have hyl : ∃ lc2 : LeafC V, (s1.heap.set y1 (.leaf { id := i1, value := v, key := lc.key, ch := k1 }))[y]? = some (Cell.leaf lc2) ∧ lc2.key = lc.key := by
    by_cases hyy : y1 = y
    · subst hyy; exact ⟨_, hy1, rfl⟩
    · exact ⟨lcy, by rw [get_set_ne hyy]; exact hy0, hky⟩
  generalize ht2 : ({ s1 with heap := s1.heap.set y1 (.leaf { id := i1, value := v, key := lc.key, ch := k1 }) } : St V) = t2 at hst1
  have hy1' : t2.heap[y1]? = some (.leaf { id := i1, value := v, key := lc.key, ch := k1 }) := by subst ht2; exact hy1
  have ha1' : t2.heap[a]? = some (.inner m0) := by subst ht2; exact ha1
  have hyl' : ∃ lc2 : LeafC V, t2.heap[y]? = some (Cell.leaf lc2) ∧ lc2.key = lc.key := by subst ht2; exact hyl
  clear ht2 hy1 ha1 hyl
  obtain ⟨lc2, hyl2, hyk2⟩ := hyl'
  have hsz := hst1.len
  refine Runs.bind (Runs.mono (writeInner_like (Z := s.heap.length) (t := true) ha1' (by rw [hm0.part]; exact hi.hh.part) (fun l hl' => by
    rw [hm0.leaf, hleaf] at hl'; cases hl'; exact ⟨_, hyl2⟩)) ?_)
  rintro a1 s3 ⟨g1, g2, ⟨m, g3, g4⟩, g5, -⟩
  obtain ⟨g5, -⟩ := g5 rfl
  have g4 : Like m n := ⟨g4.kind.trans hm0.kind, g4.num.trans hm0.num, g4.keys.trans hm0.keys, g4.children.trans hm0.children, g4.part.trans hm0.part, g4.plen.trans hm0.plen, g4.leaf.trans hm0.leaf⟩
  obtain ⟨lc3, hy3, hk3, hv3⟩ := g1.likeL hy1'
  obtain ⟨lc4, hy4, hk4, -⟩ := g1.likeL hyl2
  simp only at hk3 hv3
  refine Runs.bind (setNodeLeaf_runs g3 (Runs.pure ?_))
  have hst2 : Stp s.heap.length (fun x => x = a1) s3 { s3 with heap := s3.heap.set a1 (.inner { m with leaf := some y1 }) } :=
    Stp.wrInner g3 rfl rfl fun _ => Or.inr (Or.inr ⟨y, y1, lc4, lc3, by rw [g4.leaf]; exact hleaf, rfl, hy4, hy3, by rw [hk3, hk4, hyk2]⟩)
  have hg : (s3.heap.set a1 (.inner { m with leaf := some y1 }))[a1]? = some (.inner { m with leaf := some y1 }) := get_set_self (lt_of_get g3)
  have hgl : (s3.heap.set a1 (.inner { m with leaf := some y1 }))[y1]? = some (.leaf lc3) := by
    rw [get_set_ne (by rintro rfl; rw [g3] at hy3; cases hy3)]; exact hy3
  have hmL : Layout ({ m with leaf := some y1 } : Inner) es st := (g4.layout hi.hL).congr rfl rfl rfl rfl
  have hmH : Header ({ m with leaf := some y1 } : Inner) pfx := (g4.header hi.hh).congr rfl rfl
  have hml : ({ m with leaf := some y1 } : Inner).leaf = some y1 := rfl
  have hmk : ({ m with leaf := some y1 } : Inner).kind = n.kind := g4.kind
  have hmt : n.Tidy → ({ m with leaf := some y1 } : Inner).Tidy := fun ht => ht.of g4.kind g4.num g4.children
  generalize ({ m with leaf := some y1 } : Inner) = m1 at hmL hmH hml hmk hmt hst2 hg hgl ⊢
  generalize ht4 : ({ s3 with heap := s3.heap.set a1 (.inner m1) } : St V) = t4 at hst2 ⊢
  have hg4 : t4.heap[a1]? = some (.inner m1) := by subst ht4; exact hg
  have hgl4 : t4.heap[y1]? = some (.leaf lc3) := by subst ht4; exact hgl
  clear ht4 hg hgl
  have hlen1 := h1.len
  have hlen3 := g1.len
  have hst12 : Stp s.heap.length (fun x => x = y) s t2 := (Stp0.then h1 hst1).mono (Nat.le_refl _) (by
    rintro x hx rfl
    rcases h2 with rfl | h
    · rfl
    · omega)
  have hst : Stp s.heap.length (fun x => x = y ∨ x = a) s t4 := ((hst12.then0 g1).mono (Nat.le_refl _) fun x _ h => Or.inl h).trans hst2 (by
    rintro x hx rfl
    rcases g2 with rfl | h
    · exact Or.inr rfl
    · omega)
  obtain ⟨hk1, hk2⟩ := hi.kids_ne hlne hkey
  have hyv : y ∈ vals.map (·.2.2) := by rw [hvals]; simp
  refine ⟨rfl, hst.mono (Nat.le_refl _) ?_, ⟨_, _, Rep.node (pfx := pfx) (st := st) (f := f) (g := g) (vals := [(lc3.key, lc3.value, y1)]) hg4 hmL (hi.hne.congr hmk) hmH ?_
    (by rw [hml]; exact OwnLeaf.some hgl4 (by rw [hk3, hkey])) (fun _ => hi.hnd hlne) (hi.htw.imp_right fun h => ⟨hmt h.1, Or.inl (by rw [hml]; simp)⟩) ?_, ?_⟩, Or.inr (Or.inr ⟨hover, rfl, rfl⟩)⟩
  · rintro x - (rfl | rfl)
    · exact Or.inr (List.mem_map.2 ⟨(lc.key, lc.value, x), List.mem_append_left _ (by rw [hvals]; simp), rfl⟩)
    · exact Occ.head
  · intro x hx
    have := hi.hst x hx
    exact hst.sok _ x this.bound this
  · intro b c hb
    refine (hi.hch b c hb).step hst ?_
    rintro x hx (rfl | rfl)
    · exact Rep.own_notin hi.hown (hi.hch b c hb) (fun h2 h3 => hi.hnd h2 (List.mem_map.2 ⟨_, hb, h3⟩)) hyv hx
    · exact hi.notin hb hx
  · have ht : Trk s t4 y := (((h4 rfl).then hst1).then g1).then hst2
    have ht' : Trk s t4 a := (g5.of_stp hst12 g1).then hst2
    have e1 := (Evo.upd (K := lc.key) (v := v) (w := lc.value) ht h2).union (E := vals) (E' := [(lc3.key, lc3.value, y1)]) (N := [(p, a)]) (N' := [(p, a1)])
      (Evo.top (p := p) (a' := a1) ht' (g2.imp_right fun h => by omega)) (by rw [hvals]; simp) (by rw [hk3, hv3]; simp) (by simp) (by simp)
    exact e1.union (Evo.frame hst hk1 hk2) (fun e => List.mem_append) (fun e => List.mem_append) (fun e => List.mem_append (s := [(p, a)])) (fun e => List.mem_append (s := [(p, a1)]))

theorem Rep.insert [Inhabited V] (hr : Rep s.heap p a E N) (ht : s.txn.treeSize ≠ 0) : ∀ fuel, InsOK K E → p <+: K → K.length < fuel + p.length →
    Runs (recursiveInsert fuel a K v p.length : M V (InsRes V)) s (InsPost s p K v E N) := by
  induction hr with
  | @leaf p a n l lc ha hL hpart hw hleaf hl hp hd =>
    intro fuel ho hpK hf
    have hle := hpK.length_le
    obtain ⟨fuel, rfl⟩ : ∃ k, fuel = k + 1 := ⟨fuel - 1, by omega⟩
    have hil : n.isLeaf = true := hL.isLeaf_iff.2 ⟨rfl, by rw [hleaf]; simp⟩
    unfold recursiveInsert
    refine Runs.bind (Runs.txnSt ?_)
    rw [if_neg ht]
    refine Runs.bind (Runs.cell ha ?_)
    simp only [Cell.isLeaf, hil, Cell.nodeLeaf, hleaf]
    unfold insertAtLeaf
    refine Runs.bind (Runs.leafAt hl ?_)
    by_cases hk : lc.key = K
    · rw [if_pos ⟨by rw [hk], hk⟩, ← hk]
      exact insertUpdateLeaf_runs ha hL hpart hw hleaf hl hp hd
    · rw [if_neg fun h => hk h.2]
      obtain ⟨k, hkK⟩ := ho.hd
      exact insertSplitLeaf_runs ha hL hpart hw hleaf hl hp hd hpK hkK (ho.sep1 _ (List.mem_singleton.2 rfl) hk) (ho.sep2 _ (List.mem_singleton.2 rfl) hk)
  | @node p a n pfx es st vals f g ha hL hne hh hst hown hnd htw hch ih =>
    intro fuel ho hpK hf
    have hi : IsNode s.heap p a n pfx es st vals f g := ⟨ha, hL, hne, hh, hst, hown, hnd, htw, hch⟩
    have hle := hpK.length_le
    obtain ⟨fuel, rfl⟩ : ∃ k, fuel = k + 1 := ⟨fuel - 1, by omega⟩
    unfold recursiveInsert
    refine Runs.bind (Runs.txnSt ?_)
    rw [if_neg ht]
    refine Runs.bind (Runs.cell ha ?_)
    simp only [Cell.isLeaf, hL.not_leaf hne]
    by_cases hvK : ∃ e ∈ vals, e.1 = K
    · obtain ⟨e, he, hek⟩ := hvK
      rcases hown.inv with ⟨-, rfl⟩ | ⟨y, lc, hy, rfl, hl, hk⟩
      · cases he
      · rw [List.mem_singleton.1 he] at hek
        simp only at hek
        refine Runs.bind (leafHit_some hl hy hek ?_)
        simp only
        rw [← hek]
        exact insertHit_runs hi hy hl
    have hvK : ∀ e ∈ vals, e.1 ≠ K := fun e he hek => hvK ⟨e, he, hek⟩
    refine Runs.bind (Runs.mono (leafHit_none hi hvK) ?_)
    rintro x t ⟨rfl, ht'⟩
    rw [ht']; clear ht' t
    simp only [Cell.partialLen, hh.len, Cell.findChild]
    -- what happens at the edge, in both branches
    have hedge : ∀ b l c r i, es = l ++ (b, c) :: r → AtSlot n l b i → p ++ pfx ++ [b] <+: K → ∀ d, d = (p ++ pfx ++ [b]).length →
        Runs (do let r ← recursiveInsert fuel c K v d; insertReplace a c i r : M V (InsRes V)) s
          (InsPost s p K v (vals ++ es.flatMap fun e => f e.1) ((p, a) :: es.flatMap fun e => g e.1)) := by
      rintro b l c r i rfl hslot hbK _ rfl
      have hbc : (b, c) ∈ l ++ (b, c) :: r := by simp
      have hsub : ∀ e ∈ f b, e ∈ vals ++ (l ++ (b, c) :: r).flatMap fun e => f e.1 := fun e he => List.mem_append_right _ (List.mem_flatMap.2 ⟨_, hbc, he⟩)
      refine Runs.bind (Runs.mono (ih b c hbc fuel (ho.sub hsub) hbK (by simp only [List.length_append, List.length_cons, List.length_nil]; omega)) ?_)
      rintro R t ⟨g1, g2, ⟨A', N1', g3, g4⟩, g5⟩
      refine Runs.mono (replaceKid_runs hi g2 hslot g1 g3 g4 hbK hvK) ?_
      rintro R' t' ⟨k1, k2, k3, k4, E', N', k5, k6⟩
      refine ⟨k1, k4, ⟨E', N', k5, k6⟩, ?_⟩
      rcases g5 with ⟨e, he, h1, h2, h3⟩ | ⟨h1, h2, h3⟩ | ⟨h1, h2, h3⟩
      · exact Or.inl ⟨e, hsub e he, h1, by rw [k2, h2], by rw [k3, h3]⟩
      rotate_left
      · exact Or.inr (Or.inr ⟨h1.sub hsub, by rw [k2, h2], by rw [k3, h3]⟩)
      · refine Or.inr (Or.inl ⟨fun e he hek => ?_, by rw [k2, h2], by rw [k3, h3]⟩)
        rcases node_keys hown hch he with ⟨-, hv⟩ | ⟨b', c', hb', hf', hp⟩
        · exact hvK e hv hek
        · rw [hek] at hp
          have hbb := prefix_edge hp hbK
          subst hbb
          exact h1 e hf' hek
    -- the byte after the path
    have hbyte : p ++ pfx <+: K → ∃ b, p ++ pfx ++ [b] <+: K := fun hPK => by
      have hlen : (p ++ pfx).length < K.length := Nat.lt_of_le_of_ne hPK.length_le fun h => hi.inside ho (by rw [hPK.eq_of_length h]; exact List.prefix_refl _)
      exact ⟨K[(p ++ pfx).length], prefix_snoc hPK (List.getElem?_eq_getElem hlen)⟩
    have hlenPb : ∀ b : Byte, (p ++ pfx ++ [b]).length = p.length + pfx.length + 1 := fun b => by simp only [List.length_append, List.length_cons, List.length_nil]
    by_cases hpl : pfx.length > 0
    · rw [if_pos hpl]
      obtain ⟨K', rfl⟩ := hpK
      obtain ⟨e, E1, hE, hmin⟩ := hi.rep.minimum
      have heE : e ∈ vals ++ es.flatMap fun e => f e.1 := by rw [hE]; simp
      obtain ⟨lc, hlc, hlk, -⟩ := hi.rep.leaf_of e heE
      obtain ⟨y, hy⟩ := hi.longer heE
      obtain ⟨R, hR, hmis⟩ := prefixMismatch_eq ha hh (K := p ++ K') (K' := K') rfl ⟨_, lc, hmin, hlc, by rw [hlk]; exact (List.prefix_append _ _).trans hy⟩
        (fun h => hi.inside ho ((List.prefix_append_right_inj p).2 h))
      refine Runs.bind (Runs.get (Runs.bind (Runs.lift hR ?_)))
      rcases hmis with ⟨h1, h2⟩ | ⟨h1, h2, h3, h4⟩
      · rw [if_pos h2]
        have hPK : p ++ pfx <+: p ++ K' := (List.prefix_append_right_inj p).2 h1
        obtain ⟨b, hbK⟩ := hbyte hPK
        have hlen := hbK.length_le
        rw [hlenPb] at hlen
        rw [if_pos (by omega)]
        have hby := prefix_byte hbK
        rw [List.length_append] at hby
        refine Runs.bind (Runs.lift (byteAt_eq hby) ?_)
        rcases hL.findChild_iff b with ⟨hbn, hfc⟩ | ⟨l, c, r, i, rfl, hfc, hslot⟩
        · refine Runs.bind (Runs.lift hfc ?_)
          simp only
          exact insertNoChild_runs hi (hi.newEdge ho hbK hbn hvK) (by simp)
        · refine Runs.bind (Runs.lift hfc ?_)
          simp only
          exact hedge b l c r i rfl hslot hbK _ (hlenPb b).symm
      · rw [if_neg (by omega)]
        rw [List.getElem?_eq_getElem h1, List.getElem?_eq_getElem h2] at h4
        refine insertSplit_runs (b0 := pfx[R]) (b1 := K'[R]) hi ho.hd (List.getElem?_eq_getElem h1) ?_ fun h => h4 (by rw [h])
        rw [List.append_assoc, List.prefix_append_right_inj, h3]
        exact prefix_snoc (List.take_prefix _ _) (by rw [List.length_take, Nat.min_eq_left (by omega), List.getElem?_eq_getElem])
    · rw [if_neg hpl]
      have hp0 : pfx = [] := List.length_eq_zero_iff.1 (by omega)
      have hPK : p ++ pfx <+: K := by rw [hp0, List.append_nil]; exact hpK
      obtain ⟨b, hbK⟩ := hbyte hPK
      have hby := prefix_byte hbK
      rw [hp0, List.append_nil] at hby
      refine Runs.bind (Runs.lift (byteAt_eq hby) ?_)
      rcases hL.findChild_iff b with ⟨hbn, hfc⟩ | ⟨l, c, r, i, rfl, hfc, hslot⟩
      · refine Runs.bind (Runs.lift hfc ?_)
        simp only
        exact insertNew_runs hi (hi.newEdge ho hbK hbn hvK) hp0
      · refine Runs.bind (Runs.lift hfc ?_)
        simp only
        exact hedge b l c r i rfl hslot hbK _ (by rw [hlenPb, hp0]; rfl)

end Art
