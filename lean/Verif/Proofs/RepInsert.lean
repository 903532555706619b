import Verif.Proofs.RepEvo
/-
Inserting at a leaf of a well-formed subtree.
-/
set_option autoImplicit false
set_option linter.unusedVariables false
set_option linter.unusedSimpArgs false
set_option linter.unusedSectionVars false
namespace Art
variable {V : Type} [Removals] {s s' s'' t t' : St V} {E E' A A' B B' : List (Ent V)} {N N' N1 N1' N2 N2' : List (Key × Addr)} {K p P pfx : Key} {o : Option V}
  {b : Byte} {a a' c c' : Addr} {l r es : Edges} {Z : Nat} {X : Addr → Prop} {v : V} {n m : Inner}

/-- The key is stored next to a longer one that starts with it, so that it may be the own key of an inner node. -/
def Over (K : Key) (E : List (Ent V)) : Prop := (∃ e ∈ E, e.1 = K) ∧ ∃ k, K = k ++ [dollar] ∧ ∃ e ∈ E, e.1 ≠ K ∧ k <+: e.1

theorem Over.sub (ho : Over K E) (hs : ∀ e ∈ E, e ∈ E') : Over K E' := by
  obtain ⟨⟨e, h1, h2⟩, k, h3, e', h4, h5⟩ := ho
  exact ⟨⟨e, hs e h1, h2⟩, k, h3, e', hs e' h4, h5⟩

/-- The outcome of an insertion into a subtree. -/
structure InsPost [Inhabited V] (s : St V) (p K : Key) (v : V) (E : List (Ent V)) (N : List (Key × Addr)) (r : InsRes V) (s' : St V) : Prop where
  mutd : r.mutated = true
  stp : Stp s.heap.length (Occ E N) s s'
  rep : ∃ E' N', Rep s'.heap p r.node E' N' ∧ Evo K (some v) s s' E E' N N'
  old : (∃ e ∈ E, e.1 = K ∧ r.old = true ∧ r.oldVal = e.2.1) ∨ ((∀ e ∈ E, e.1 ≠ K) ∧ r.old = false ∧ r.oldVal = default) ∨
    (Over K E ∧ r.old = false ∧ r.oldVal = default)

theorem Evo.tops (h : Trk s s' a) (hN : ∀ q x, (q, x) ∈ N' → x = a ∨ s.heap.length ≤ x) : Evo K none s s' ([] : List (Ent V)) [] [(p, a)] N' where
  occ := fun x hx => by
    rcases hx with hx | hx
    · obtain ⟨⟨q, y⟩, hy, rfl⟩ := List.mem_map.1 hx
      exact (hN q y hy).imp_left fun h => Or.inl (by simp [h])
    · cases hx
  back := fun e' he' => nomatch he'
  fwd := fun e he _ => nomatch he
  new := fun v hv => nomatch hv
  wK := fun e he hk => nomatch he
  wN := fun q x hx hq => by cases List.mem_singleton.1 hx; exact h
  keep := fun q x hx => by cases List.mem_singleton.1 hx; exact Or.inl h

theorem Evo.upd {x y : Addr} {w : V} (h : Trk s s' x) (hy : y = x ∨ s.heap.length ≤ y) : Evo K (some v) s s' [(K, w, x)] [(K, v, y)] [] [] where
  occ := fun z hz => by
    rcases hz with hz | hz
    · cases hz
    · simp only [List.map_cons, List.map_nil, List.mem_singleton] at hz
      subst hz
      exact hy.imp_left fun h => Or.inr (by simp [h])
  back := fun e' he' => by rw [List.mem_singleton.1 he']; exact Or.inl ⟨rfl, rfl⟩
  fwd := fun e he hk => by rw [List.mem_singleton.1 he] at hk; exact absurd rfl hk
  new := fun v hv => by cases hv; exact ⟨_, List.mem_singleton.2 rfl, rfl⟩
  wK := fun e he hk => by rw [List.mem_singleton.1 he]; exact h
  wN := fun q x hx => nomatch hx
  keep := fun q x hx => nomatch hx

theorem insertUpdateLeaf_runs [Inhabited V] {l : Addr} {lc : LeafC V} (ha : s.heap[a]? = some (.inner n)) (hL : Layout n [] none) (hpart : n.part.length = 10) (hw : n.Wrap)
    (hleaf : n.leaf = some l) (hl : s.heap[l]? = some (.leaf lc)) (hp : p <+: lc.key) (hd : ∃ k, lc.key = k ++ [dollar]) :
    Runs (insertUpdateLeaf a lc.value lc.key v : M V (InsRes V)) s (InsPost s p lc.key v [(lc.key, lc.value, l)] [(p, a)]) := by
  unfold insertUpdateLeaf
  refine Runs.bind (Runs.mono (writeInner_runs (N := s.heap.length) ha hpart fun l' hl' => by rw [hleaf] at hl'; cases hl'; exact lt_of_get hl) ?_)
  rintro a1 s1 ⟨h1, h2, ⟨i, k, h3⟩, h4, -⟩
  obtain ⟨h4, h5⟩ := h4 rfl
  refine Runs.bind (Runs.mono (allocLeaf_runs (N := s.heap.length)) ?_)
  rintro l2 s2 ⟨g1, g2, g3, j, g4⟩
  obtain ⟨i', k', h6⟩ := g1.inner h3
  refine Runs.bind (setNodeLeaf_runs h6 (Runs.pure ?_))
  have hl1 := h1.leaf hl
  obtain ⟨_, _, hl1⟩ := hl1
  obtain ⟨_, _, hl2⟩ := g1.leaf hl1
  have hst : Stp s.heap.length (fun x => x = a1) s2 { s2 with heap := s2.heap.set a1 (.inner { n with id := i', ch := k', leaf := some l2 }) } :=
    Stp.wrInner h6 rfl rfl fun _ => Or.inr (Or.inr ⟨l, l2, _, _, hleaf, rfl, hl2, g4, rfl⟩)
  have hst0 := h1.then0 g1
  have hne : a1 ≠ l2 := by rintro rfl; rw [g4] at h6; cases h6
  have hfr : s.heap.length ≤ l2 := by rw [g2]; exact h1.len
  refine ⟨rfl, ?_, ⟨[(lc.key, v, l2)], [(p, a1)], ?_, ?_⟩, Or.inl ⟨_, List.mem_singleton.2 rfl, rfl, rfl, rfl⟩⟩
  · refine Stp.mono (Stp0.then hst0 hst) (Nat.le_refl _) ?_
    rintro x hx rfl
    rcases h2 with rfl | h2
    · exact Or.inl (by simp)
    · omega
  · exact Rep.leaf (lc := { id := j, value := v, key := lc.key, ch := none }) (get_set_self (lt_of_get h6)) (hL.congr rfl rfl rfl rfl) hpart hw rfl
      (by show (s2.heap.set a1 _)[l2]? = _; rw [get_set_ne hne]; exact g4) hp hd
  · exact (Evo.upd (w := lc.value) (((h5 l hleaf).then g1).then hst) (Or.inr hfr)).union (Evo.top (p := p) ((h4.then g1).then hst) h2) (by simp) (by simp) (by simp) (by simp)

/-- The same node, apart from id and channel. -/
structure Like (m n : Inner) : Prop where
  kind : m.kind = n.kind
  num : m.numChildren = n.numChildren
  keys : m.keys = n.keys
  children : m.children = n.children
  part : m.part = n.part
  plen : m.partialLen = n.partialLen
  leaf : m.leaf = n.leaf

theorem Like.layout {st : Option Addr} (h : Like m n) (hL : Layout n es st) : Layout m es st := hL.congr h.kind h.num h.keys h.children
theorem Like.filled (h : Like m n) (hL : Filled n es) : Filled m es := hL.congr h.kind
theorem Like.wrap (h : Like m n) (hw : n.Wrap) : m.Wrap := by unfold Inner.Wrap; rw [h.plen, h.kind]; exact hw
theorem Like.fork (h : Like m n) (hw : n.Fork es) : m.Fork es := by
  unfold Inner.Fork
  rw [h.leaf]
  exact hw.imp_right fun hw => ⟨hw.1.of h.kind h.num h.children, hw.2⟩
theorem Like.header (h : Like m n) (hL : Header n pfx) : Header m pfx := hL.congr h.plen h.part

theorem Eqv.like {h h' : Heap V} {x : Addr} (he : Eqv h h' x) (hx : h[x]? = some (.inner n)) : ∃ m, h'[x]? = some (.inner m) ∧ Like m n := by
  obtain ⟨i, k, h1⟩ := he.inner hx
  exact ⟨_, h1, rfl, rfl, rfl, rfl, rfl, rfl, rfl⟩

theorem Eqv.likeL {h h' : Heap V} {x : Addr} {lc : LeafC V} (he : Eqv h h' x) (hx : h[x]? = some (.leaf lc)) :
    ∃ lc', h'[x]? = some (.leaf lc') ∧ lc'.key = lc.key ∧ lc'.value = lc.value := by
  obtain ⟨i, k, h1⟩ := he.leaf hx
  exact ⟨_, h1, rfl, rfl⟩

theorem Stp.like (h : Stp0 Z s s') {x : Addr} (hx : s.heap[x]? = some (.inner n)) : ∃ m, s'.heap[x]? = some (.inner m) ∧ Like m n := (h.eqv (lt_of_get hx)).like hx
theorem Stp.likeL (h : Stp0 Z s s') {x : Addr} {lc : LeafC V} (hx : s.heap[x]? = some (.leaf lc)) :
    ∃ lc', s'.heap[x]? = some (.leaf lc') ∧ lc'.key = lc.key ∧ lc'.value = lc.value := (h.eqv (lt_of_get hx)).likeL hx

/-- `writeNode` of an inner node. -/
theorem writeInner_like {t : Bool} (ha : s.heap[a]? = some (.inner n)) (hp : n.part.length = 10) (hl : LeafOK s.heap n.leaf) :
    Runs (writeNode a t : M V Nat) s fun a' s' => Stp0 Z s s' ∧ (a' = a ∨ s.heap.length ≤ a') ∧
      (∃ m, s'.heap[a']? = some (.inner m) ∧ Like m n) ∧ (t = true → Trk s s' a ∧ ∀ l, n.leaf = some l → Trk s s' l) ∧
      (t = false → ∀ k, chAt s.heap a = some k → chAt s'.heap a' = some k) :=
  Runs.mono (writeInner_runs ha hp fun l hl' => hl.lt hl') fun a' s' ⟨h1, h2, ⟨i, k, h3⟩, h4⟩ => ⟨h1, h2, ⟨_, h3, rfl, rfl, rfl, rfl, rfl, rfl, rfl⟩, h4⟩

theorem LeafOK.step {o : Option Addr} (h : Stp0 Z s s') (hl : LeafOK s.heap o) : LeafOK s'.heap o := fun l ho => by
  obtain ⟨lc, h1⟩ := hl l ho
  obtain ⟨lc', h2, -⟩ := h.likeL h1
  exact ⟨_, h2⟩

/-- `trackChannel a; writeNode a false`, the start of most modifications. -/
theorem trackWrite_runs {β : Type} {Q : β → St V → Prop} {F : Nat → M V β} (ha : s.heap[a]? = some (.inner n)) (hp : n.part.length = 10) (hl : LeafOK s.heap n.leaf)
    (hq : ∀ a' s' m, Stp0 Z s s' → (a' = a ∨ s.heap.length ≤ a') → s'.heap[a']? = some (.inner m) → Like m n → Trk s s' a → Runs (F a') s' Q) :
    Runs (do trackChannel (some a); let node ← writeNode a false; F node : M V β) s Q := by
  refine Runs.bind (Runs.mono (trackChannel_runs (N := Z) (o := some a) fun x hx => by cases hx; exact lt_of_get ha) ?_)
  rintro _ s1 ⟨h1, -, h2⟩
  obtain ⟨m, h3, h4⟩ := h1.like ha
  refine Runs.bind (Runs.mono (writeInner_like (Z := Z) (t := false) h3 (by rw [h4.part]; exact hp) (by rw [h4.leaf]; exact hl.step h1)) ?_)
  rintro a' s2 ⟨h5, h6, ⟨m', h7, h8⟩, -⟩
  exact hq a' s2 m' (h1.then0 h5) (h6.imp_right fun h => Nat.le_trans h1.len h) h7
    ⟨h8.kind.trans h4.kind, h8.num.trans h4.num, h8.keys.trans h4.keys, h8.children.trans h4.children, h8.part.trans h4.part, h8.plen.trans h4.plen, h8.leaf.trans h4.leaf⟩
    ((h2 a rfl).then h5)

/-! ### A leaf becomes a node with two entries -/

theorem prefix_snoc {P K : Key} {b : Byte} (h : P <+: K) (hb : K[P.length]? = some b) : P ++ [b] <+: K := by
  obtain ⟨t, rfl⟩ := h
  rw [List.getElem?_append_right (Nat.le_refl _), Nat.sub_self] at hb
  cases t with
  | nil => cases hb
  | cons x t =>
    cases hb
    exact ⟨t, by simp⟩

theorem prefix_byte {P K : Key} {b : Byte} (h : P ++ [b] <+: K) : K[P.length]? = some b := by
  obtain ⟨t, rfl⟩ := h
  simp

theorem byteAt_eq {i : Nat} (h : K[i]? = some b) : byteAt K i = .ok b := by simp [byteAt, h]

/-- `addChild` on a `Node4` with room. -/
theorem addChild_room4 (ha : s.heap[a]? = some (.inner n)) (hk : n.kind = .n4) {st : Option Addr} (hL : Layout n (l ++ r) st) (hs : Edges.Sorted (l ++ (b, c) :: r))
    (hlt : (l ++ r).length < 4) : Runs (addChild a b c : M V Nat) s fun a' s' => AddRoom s a n (l ++ (b, c) :: r) a' s' := by
  unfold addChild
  refine Runs.bind (Runs.cell ha ?_)
  simp only [hk]
  exact addChild4_room ha hk hL hs hlt

theorem getKey_snoc (k : Key) (x : Byte) : getKey (k ++ [x]) = k := by simp [getKey]

theorem Occ.mem {x : Addr} (h : Occ E N x) : (∃ q, (q, x) ∈ N) ∨ ∃ k w, (k, w, x) ∈ E := by
  rcases h with h | h
  · obtain ⟨⟨q, y⟩, hy, rfl⟩ := List.mem_map.1 h
    exact Or.inl ⟨q, hy⟩
  · obtain ⟨⟨k, w, y⟩, hy, rfl⟩ := List.mem_map.1 h
    exact Or.inr ⟨k, w, hy⟩

theorem insertPair_runs {nn w2 l1 l2 : Addr} {n1 n2 : Inner} {lc lc2 : LeafC V} {ok k : Key} {b1 b2 : Byte}
    (hnn : t.heap[nn]? = some (.inner m)) (hm4 : m.kind = .n4) (hmL : Layout m [] none) (hmh : Header m pfx) (hml : m.leaf = none)
    (h1 : t.heap[a]? = some (.inner n1)) (hL1 : Layout n1 [] none) (hp1 : n1.part.length = 10) (hw1 : n1.Wrap) (hf1 : n1.leaf = some l1) (hl1 : t.heap[l1]? = some (.leaf lc))
    (h2 : t.heap[w2]? = some (.inner n2)) (hL2 : Layout n2 [] none) (hp2 : n2.part.length = 10) (hw2 : n2.Wrap) (hf2 : n2.leaf = some l2) (hl2 : t.heap[l2]? = some (.leaf lc2))
    (hd1 : lc.key = ok ++ [dollar]) (hd2 : lc2.key = k ++ [dollar]) (hq1 : p ++ pfx ++ [b1] <+: lc.key) (hq2 : p ++ pfx ++ [b2] <+: lc2.key) (hne : b1 ≠ b2)
    (hM : Z ≤ nn) (hna : nn ≠ a) (hnw : nn ≠ w2) :
    Runs (insertPair nn a l1 w2 l2 lc.key lc2.key (p ++ pfx).length) t fun nn' t' => nn' = nn ∧ Stp Z (fun x => x = nn) t t' ∧
      ∃ E' N', Rep t'.heap p nn E' N' ∧ (∀ e, e ∈ E' ↔ e = (lc2.key, lc2.value, l2) ∨ e = (lc.key, lc.value, l1)) ∧
        ∀ q x, (q, x) ∈ N' → x = nn ∨ x = a ∨ x = w2 := by
  have hb1 := prefix_byte hq1
  have hb2 := prefix_byte hq2
  have hnl1 : nn ≠ l1 := by rintro rfl; rw [hnn] at hl1; cases hl1
  have hnl2 : nn ≠ l2 := by rintro rfl; rw [hnn] at hl2; cases hl2
  -- the two subtrees, in any store with these contents
  have hr1 : ∀ t' : St V, (∀ x, x ≠ nn → x < t.heap.length → Eqv t.heap t'.heap x) → Rep t'.heap (p ++ pfx ++ [b1]) a [(lc.key, lc.value, l1)] [(p ++ pfx ++ [b1], a)] := fun t' he => by
    obtain ⟨i, q, e1⟩ := (he a (Ne.symm hna) (lt_of_get h1)).inner h1
    obtain ⟨i', q', e2⟩ := (he l1 (Ne.symm hnl1) (lt_of_get hl1)).leaf hl1
    exact Rep.leaf (lc := { lc with id := i', ch := q' }) e1 (hL1.congr rfl rfl rfl rfl) hp1 hw1 hf1 e2 hq1 ⟨ok, hd1⟩
  have hr2 : ∀ t' : St V, (∀ x, x ≠ nn → x < t.heap.length → Eqv t.heap t'.heap x) → Rep t'.heap (p ++ pfx ++ [b2]) w2 [(lc2.key, lc2.value, l2)] [(p ++ pfx ++ [b2], w2)] := fun t' he => by
    obtain ⟨i, q, e1⟩ := (he w2 (Ne.symm hnw) (lt_of_get h2)).inner h2
    obtain ⟨i', q', e2⟩ := (he l2 (Ne.symm hnl2) (lt_of_get hl2)).leaf hl2
    exact Rep.leaf (lc := { lc2 with id := i', ch := q' }) e1 (hL2.congr rfl rfl rfl rfl) hp2 hw2 hf2 e2 hq2 ⟨k, hd2⟩
  have hfrm : ∀ t' : St V, Stp Z (fun x => x = nn) t t' → ∀ x, x ≠ nn → x < t.heap.length → Eqv t.heap t'.heap x := fun t' h x h1 h2 => h.frame x h2 h1
  unfold insertPair
  rw [hd1, hd2, getKey_snoc, getKey_snoc, ← hd1, ← hd2]
  by_cases hc1 : hasPrefixB ok k = true
  · rw [if_pos hc1]
    -- the new key is shorter: it becomes the own leaf
    have hk := (hasPrefixB_iff _ _).1 hc1
    have hkk : k = p ++ pfx ∧ b2 = dollar := by
      have hq2' := hq2
      rw [hd2] at hq2'
      rcases List.prefix_concat_iff.1 hq2' with h | h
      · have := List.append_inj h (by have := congrArg List.length h; simp only [List.length_append, List.length_cons, List.length_nil] at this ⊢; omega)
        exact ⟨this.1.symm, by simpa using this.2⟩
      · exfalso
        have h3 : p ++ pfx ++ [b2] <+: lc.key := by rw [hd1]; exact (h.trans hk).trans (List.prefix_append _ _)
        exact hne (prefix_edge hq1 h3)
    refine Runs.bind (Runs.mono (trackChannel_runs (N := Z) (o := some l1) fun x hx => by cases hx; exact lt_of_get hl1) ?_)
    rintro _ t1 ⟨e1, -, -⟩
    obtain ⟨i, q, e2⟩ := e1.inner hnn
    refine Runs.bind (setNodeLeaf_runs e2 ?_)
    generalize hm1 : ({ m with id := i, ch := q, leaf := some l2 } : Inner) = m1
    generalize ht2 : ({ t1 with heap := t1.heap.set nn (.inner m1) } : St V) = t2
    have e3 : t2.heap[nn]? = some (.inner m1) := by subst ht2; exact get_set_self (lt_of_get e2)
    have hst2 : Stp Z (fun x => x = nn) t1 t2 := by
      subst ht2 hm1
      exact Stp.wrInner e2 rfl rfl fun h => absurd h (by omega)
    refine Runs.bind (Runs.lift (byteAt_eq hb1) (Runs.mono (addChild_room4 (l := []) (r := []) e3 (by subst hm1; exact hm4) (show Layout m1 ([] ++ []) none from hmL.congr (by subst hm1; rfl) (by subst hm1; rfl) (by subst hm1; rfl) (by subst hm1; rfl)) (by simp [Edges.Sorted]) (by simp)) ?_))
    rintro nn' t3 ⟨rfl, n', rfl, f1, f2, f3, f4, f5, f6, -⟩
    have hst3 : Stp Z (fun x => x = nn') t2 { t2 with heap := t2.heap.set nn' (.inner n') } := Stp.wrInner e3 rfl f5 fun _ => Or.inl f2
    have hst : Stp Z (fun x => x = nn') t { t2 with heap := t2.heap.set nn' (.inner n') } := ((Stp0.then e1 hst2).trans hst3 fun _ _ h => h)
    refine ⟨rfl, hst, ?_⟩
    obtain ⟨i', q', e4⟩ := (hfrm _ hst l2 (Ne.symm hnl2) (lt_of_get hl2)).leaf hl2
    refine ⟨_, _, Rep.node (pfx := pfx) (st := none) (f := fun _ => [(lc.key, lc.value, l1)]) (g := fun _ => [(p ++ pfx ++ [b1], a)]) (vals := [(lc2.key, lc2.value, l2)])
      (get_set_self (lt_of_get e3)) f1 ⟨by simp, .of4 (by rw [f6, ← hm1]; exact hm4)⟩ ?_ (fun c hc => nomatch hc) ?_ ?_ ?_ ?_, ?_, ?_⟩
    · exact hmh.congr (by rw [f4, ← hm1]) (by rw [f3, ← hm1])
    · rw [f2, ← hm1]
      exact OwnLeaf.some (lc := { lc2 with id := i', ch := q' }) e4 (by simp only; rw [hd2, hkk.1])
    · intro _
      simp only [List.nil_append, List.map_cons, List.map_nil, List.mem_singleton]
      intro h
      exact hne (by rw [hkk.2, ← h])
    · exact Or.inr ⟨f1.tidy (by rw [f6, ← hm1]; simp only [hm4]; exact Kind.noConfusion), Or.inl (by rw [f2, ← hm1]; simp)⟩
    · intro b' c' hb'
      simp only [List.nil_append, List.mem_singleton] at hb'
      cases hb'
      exact hr1 _ (hfrm _ hst)
    · intro e; simp
    · intro q x hx
      simp only [List.nil_append, List.flatMap_cons, List.flatMap_nil, List.append_nil, List.mem_cons, List.not_mem_nil, or_false, Prod.mk.injEq] at hx
      rcases hx with h | h
      · exact Or.inl h.2
      · exact Or.inr (Or.inl h.2)
  · rw [if_neg hc1]
    by_cases hc2 : hasPrefixB k ok = true
    · rw [if_pos hc2]
      -- the old key is shorter: it becomes the own leaf
      have hk := (hasPrefixB_iff _ _).1 hc2
      have hkk : ok = p ++ pfx ∧ b1 = dollar := by
        have hq1' := hq1
        rw [hd1] at hq1'
        rcases List.prefix_concat_iff.1 hq1' with h | h
        · have := List.append_inj h (by have := congrArg List.length h; simp only [List.length_append, List.length_cons, List.length_nil] at this ⊢; omega)
          exact ⟨this.1.symm, by simpa using this.2⟩
        · exfalso
          have h3 : p ++ pfx ++ [b1] <+: lc2.key := by rw [hd2]; exact (h.trans hk).trans (List.prefix_append _ _)
          exact hne (prefix_edge h3 hq2)
      refine Runs.bind (setNodeLeaf_runs hnn ?_)
      generalize hm1 : ({ m with leaf := some l1 } : Inner) = m1
      generalize ht2 : ({ t with heap := t.heap.set nn (.inner m1) } : St V) = t2
      have e3 : t2.heap[nn]? = some (.inner m1) := by subst ht2; exact get_set_self (lt_of_get hnn)
      have hst2 : Stp Z (fun x => x = nn) t t2 := by
        subst ht2 hm1
        exact Stp.wrInner hnn rfl rfl fun h => absurd h (by omega)
      refine Runs.bind (Runs.lift (byteAt_eq hb2) (Runs.mono (addChild_room4 (l := []) (r := []) e3 (by subst hm1; exact hm4) (show Layout m1 ([] ++ []) none from hmL.congr (by subst hm1; rfl) (by subst hm1; rfl) (by subst hm1; rfl) (by subst hm1; rfl)) (by simp [Edges.Sorted]) (by simp)) ?_))
      rintro nn' t3 ⟨rfl, n', rfl, f1, f2, f3, f4, f5, f6, -⟩
      have hst3 : Stp Z (fun x => x = nn') t2 { t2 with heap := t2.heap.set nn' (.inner n') } := Stp.wrInner e3 rfl f5 fun _ => Or.inl f2
      have hst : Stp Z (fun x => x = nn') t { t2 with heap := t2.heap.set nn' (.inner n') } := (hst2.trans hst3 fun _ _ h => h)
      refine ⟨rfl, hst, ?_⟩
      obtain ⟨i', q', e4⟩ := (hfrm _ hst l1 (Ne.symm hnl1) (lt_of_get hl1)).leaf hl1
      refine ⟨_, _, Rep.node (pfx := pfx) (st := none) (f := fun _ => [(lc2.key, lc2.value, l2)]) (g := fun _ => [(p ++ pfx ++ [b2], w2)]) (vals := [(lc.key, lc.value, l1)])
        (get_set_self (lt_of_get e3)) f1 ⟨by simp, .of4 (by rw [f6, ← hm1]; exact hm4)⟩ ?_ (fun c hc => nomatch hc) ?_ ?_ ?_ ?_, ?_, ?_⟩
      · exact hmh.congr (by rw [f4, ← hm1]) (by rw [f3, ← hm1])
      · rw [f2, ← hm1]
        exact OwnLeaf.some (lc := { lc with id := i', ch := q' }) e4 (by simp only; rw [hd1, hkk.1])
      · intro _
        simp only [List.nil_append, List.map_cons, List.map_nil, List.mem_singleton]
        intro h
        exact hne (by rw [hkk.2, ← h])
      · exact Or.inr ⟨f1.tidy (by rw [f6, ← hm1]; simp only [hm4]; exact Kind.noConfusion), Or.inl (by rw [f2, ← hm1]; simp)⟩
      · intro b' c' hb'
        simp only [List.nil_append, List.mem_singleton] at hb'
        cases hb'
        exact hr2 _ (hfrm _ hst)
      · intro e; simp only [List.nil_append, List.flatMap_cons, List.flatMap_nil, List.append_nil, List.cons_append, List.mem_cons, List.not_mem_nil, or_false]
        exact or_comm
      · intro q x hx
        simp only [List.nil_append, List.flatMap_cons, List.flatMap_nil, List.append_nil, List.mem_cons, List.not_mem_nil, or_false, Prod.mk.injEq] at hx
        rcases hx with h | h
        · exact Or.inl h.2
        · exact Or.inr (Or.inr h.2)
    · rw [if_neg hc2]
      have hle1 : lc.key.length > (p ++ pfx).length := by have := hq1.length_le; simp at this ⊢; omega
      have hle2 : lc2.key.length > (p ++ pfx).length := by have := hq2.length_le; simp at this ⊢; omega
      unfold addChildAt
      rw [if_pos hle1]
      refine Runs.bind (Runs.bind (Runs.lift (byteAt_eq hb1) (Runs.mono (addChild_room4 (l := []) (r := []) hnn hm4 hmL (by simp [Edges.Sorted]) (by simp)) ?_)))
      rintro nn' t3 ⟨rfl, n', rfl, f1, f2, f3, f4, f5, f6, -⟩
      simp only [if_pos hle2]
      have hst2 : Stp Z (fun x => x = nn') t { t with heap := t.heap.set nn' (.inner n') } := Stp.wrInner hnn rfl f5 fun _ => Or.inl f2
      have hk4 : n'.kind = .n4 := f6.trans hm4
      obtain ⟨l, r, hlr, hsrt⟩ := f1.sorted.split_new b2 (by simpa using Ne.symm hne)
      simp only [List.nil_append] at f1 hlr
      rw [hlr] at f1
      have hlen : (l ++ r).length < 4 := by rw [← hlr]; simp
      refine Runs.bind (Runs.lift (byteAt_eq hb2) (Runs.mono (addChild_room4 (get_set_self (lt_of_get hnn)) hk4 f1 (hsrt w2) hlen) ?_))
      rintro nn t4 ⟨rfl, n'', rfl, g1, g2, g3, g4, g5, g6, -⟩
      have hst3 := hst2.trans (Stp.wrInner (N := Z) (X := fun x => x = nn) (m := n'') (get_set_self (lt_of_get hnn)) rfl g5 fun _ => Or.inl g2) fun _ _ h => h
      refine ⟨rfl, hst3, ?_⟩
      have hrest : ∀ b' c', (b', c') ∈ l ++ r → b' = b1 ∧ c' = a := fun b' c' h => by
        rw [← hlr] at h
        simpa using h
      refine ⟨_, _, Rep.node (pfx := pfx) (st := none) (f := setF (fun _ => [(lc.key, lc.value, l1)]) b2 [(lc2.key, lc2.value, l2)])
        (g := setF (fun _ => [(p ++ pfx ++ [b1], a)]) b2 [(p ++ pfx ++ [b2], w2)]) (vals := [])
        (get_set_self (by simp [lt_of_get hnn])) g1 ⟨by simp, .of4 (g6.trans hk4)⟩ ?_ (fun c hc => nomatch hc) ?_ ?_ ?_ ?_, ?_, ?_⟩
      · exact hmh.congr (by rw [g4, f4]) (by rw [g3, f3])
      · rw [g2, f2, hml]
        exact OwnLeaf.none
      · rw [g2, f2, hml]
        intro h
        exact absurd rfl h
      · refine Or.inr ⟨g1.tidy (by rw [g6, hk4]; exact Kind.noConfusion), Or.inr ?_⟩
        have h5 := congrArg List.length hlr
        simp only [List.length_append, List.length_cons, List.length_nil] at h5 ⊢
        omega
      · intro b' c' hb'
        rcases ((hsrt w2).mem_insert _).1 hb' with h | h
        · cases h
          rw [setF_self, setF_self]
          exact hr2 _ (hfrm _ hst3)
        · obtain ⟨rfl, rfl⟩ := hrest b' c' h
          rw [setF_ne hne, setF_ne hne]
          exact hr1 _ (hfrm _ hst3)
      · intro e
        rw [List.nil_append, mem_setF (hsrt w2), ← hlr]
        simp
      · intro q x hx
        rw [List.mem_cons, mem_setF (hsrt w2), ← hlr] at hx
        simp only [List.flatMap_cons, List.flatMap_nil, List.append_nil, List.mem_singleton, Prod.mk.injEq] at hx
        rcases hx with h | h | h
        · exact Or.inl h.2
        · exact Or.inr (Or.inr h.2)
        · exact Or.inr (Or.inl h.2)

/-! ### Splitting a leaf -/

theorem lcp_eq {k1 k2 : Key} (hp1 : p <+: k1) (hp2 : p <+: k2) (h1 : ¬ k1 <+: k2) (h2 : ¬ k2 <+: k1) :
    ∃ pfx b1 b2, longestCommonPrefix k1 k2 p.length = .ok pfx.length ∧ b1 ≠ b2 ∧ p ++ pfx ++ [b1] <+: k1 ∧ p ++ pfx ++ [b2] <+: k2 := by
  obtain ⟨u1, rfl⟩ := hp1
  obtain ⟨u2, rfl⟩ := hp2
  have h1' : ¬ u1 <+: u2 := fun h => h1 ((List.prefix_append_right_inj p).2 h)
  have h2' : ¬ u2 <+: u1 := fun h => h2 ((List.prefix_append_right_inj p).2 h)
  unfold longestCommonPrefix
  simp only [List.drop_left]
  have hm : (if (p ++ u1).length < (p ++ u2).length then (p ++ u1).length - p.length else (p ++ u2).length - p.length) = min u1.length u2.length := by
    simp only [List.length_append]
    split <;> omega
  rw [hm]
  obtain ⟨j, stop, g1, -, g3, g4, g5, g6⟩ := scanEq_spec u1 u2 (min u1.length u2.length) 0 (by omega) (by omega)
  rw [g1]
  simp only [Except.bind_ok, pure, Except.pure]
  cases hs : stop with
  | false =>
    exfalso
    have hj := g5 hs
    by_cases hle : u1.length ≤ u2.length
    · exact h1' (prefix_iff_get.2 fun t ht => g4 t (by omega) (by omega))
    · exact h2' (prefix_iff_get.2 fun t ht => (g4 t (by omega) (by omega)).symm)
  | true =>
    obtain ⟨g7, g8⟩ := g6 hs
    rw [List.getElem?_eq_getElem (show j < u1.length by omega), List.getElem?_eq_getElem (show j < u2.length by omega)] at g8
    have ht : u1.take j = u2.take j := take_eq_of_get fun t ht => g4 t (by omega) ht
    refine ⟨u1.take j, u1[j], u2[j], by rw [List.length_take]; congr; omega, fun h => g8 (by rw [h]), ?_, ?_⟩
    · rw [List.append_assoc, List.prefix_append_right_inj]
      exact prefix_snoc (List.take_prefix _ _) (by rw [List.length_take, Nat.min_eq_left (by omega), List.getElem?_eq_getElem])
    · rw [List.append_assoc, List.prefix_append_right_inj, ht]
      exact prefix_snoc (List.take_prefix _ _) (by rw [List.length_take, Nat.min_eq_left (by omega), List.getElem?_eq_getElem])

theorem Header.of_copy {m : Inner} {d : List Byte} (hd : d.length = 10) (h1 : m.partialLen = pfx.length)
    (h2 : m.part = goCopy d 0 (pfx.take 10)) : Header m pfx := by
  have hlen : (pfx.take 10).length = min 10 pfx.length := List.length_take
  refine ⟨h1, by rw [h2, goCopy_length (by rw [hlen]; omega)]; exact hd, ?_⟩
  rw [h2]
  have := goCopy_take (xs := d) (ys := pfx.take 10) (by rw [hlen]; omega)
  rwa [hlen] at this

theorem take_min10 {u : Key} : (pfx ++ u).take (min maxPrefixLen pfx.length) = pfx.take 10 := by
  rw [List.take_append_of_le_length (Nat.min_le_right _ _)]
  exact (List.take_eq_take_min ..).symm

theorem blank_header {i : Nat} {q : List Byte} (hq : q = pfx.take 10) {m : Inner}
    (hm : m = { blankInner .n4 with id := i, partialLen := pfx.length, part := goCopy zeroPartial 0 q }) :
    m.kind = .n4 ∧ Layout m [] none ∧ Header m pfx ∧ m.leaf = none ∧ m.ch = none := by
  subst hm hq
  exact ⟨rfl, Layout.empty rfl rfl (by rfl) (by rfl), Header.of_copy (d := zeroPartial) rfl rfl rfl, rfl, rfl⟩

theorem insertSplitLeaf_runs [Inhabited V] {l : Addr} {lc : LeafC V} {k : Key} (ha : s.heap[a]? = some (.inner n)) (hL : Layout n [] none) (hpart : n.part.length = 10) (hw : n.Wrap)
    (hleaf : n.leaf = some l) (hl : s.heap[l]? = some (.leaf lc)) (hp : p <+: lc.key) (hd : ∃ k, lc.key = k ++ [dollar])
    (hpK : p <+: K) (hK : K = k ++ [dollar]) (hs1 : ¬ lc.key <+: K) (hs2 : ¬ K <+: lc.key) :
    Runs (insertSplitLeaf a l lc.key K v p.length : M V (InsRes V)) s (InsPost s p K v [(lc.key, lc.value, l)] [(p, a)]) := by
  obtain ⟨ok, hd⟩ := hd
  unfold insertSplitLeaf
  refine Runs.bind (Runs.mono (makeLeaf_runs (N := s.heap.length) (Nat.le_refl _)) ?_)
  rintro w2 s1 ⟨a1, a2, l2, lc2, n2, a3, a4, a5, a6, a7, a8, a9, a10, a11⟩
  refine Runs.bind (Runs.innerAt a4 ?_)
  simp only [a8]
  obtain ⟨n1, ha1, hn1⟩ := a1.like ha
  refine trackWrite_runs (Z := s.heap.length) ha1 (by rw [hn1.part]; exact hpart) (by rw [hn1.leaf]; exact LeafOK.step a1 (by rw [hleaf]; rintro _ ⟨⟩; exact ⟨_, hl⟩)) ?_
  intro x s3 n3 b1 c2 c3 hn3 b2
  obtain ⟨pfx, e1, e2, f1, f2, f3, f4⟩ := lcp_eq hpK hp hs2 hs1
  refine Runs.bind (Runs.lift f1 (Runs.bind (Runs.mono (allocInner_runs (N := s.heap.length)) ?_)))
  rintro nn s4 ⟨d1, d2, d3, i, d4⟩
  refine Runs.bind (Runs.innerAt d4 (Runs.bind (Runs.wr ?_)))
  have h3 := a1.then0 b1
  have h4 := h3.then0 d1
  obtain ⟨n4, c4, hn4⟩ := d1.like c3
  obtain ⟨lcA, hl4, hA1, hA2⟩ := h4.likeL hl
  obtain ⟨n5, w4, hn5⟩ := (b1.then0 d1).like a4
  obtain ⟨lcB, wl4, hB1, hB2⟩ := (b1.then0 d1).likeL a5
  have hnn : s.heap.length ≤ nn := by rw [d2]; exact h3.len
  have hpk : (K.drop p.length).take (min maxPrefixLen pfx.length) = pfx.take 10 := by
    obtain ⟨u, hu⟩ := f3
    rw [← hu]
    simp only [List.append_assoc, List.drop_left]
    exact take_min10
  generalize hm1 : ({ ({ blankInner .n4 with id := i } : Inner) with partialLen := pfx.length, part := goCopy ({ blankInner .n4 with id := i } : Inner).part 0 ((K.drop p.length).take (min maxPrefixLen pfx.length)) } : Inner) = m1
  obtain ⟨k1, k2, k3, k4, k5⟩ := blank_header (i := i) (m := m1) hpk hm1.symm
  clear hm1
  have hx4 := lt_of_get c3
  have hw4 := Nat.lt_of_lt_of_le (lt_of_get a4) b1.len
  have hl3 := Nat.lt_of_lt_of_le (lt_of_get hl) h3.len
  have hl23 := Nat.lt_of_lt_of_le (lt_of_get a5) b1.len
  have hgs : ∀ {x : Addr} {c : Cell V}, x < s3.heap.length → s4.heap[x]? = some c → (s4.heap.set nn (.inner m1))[x]? = some c := fun hx h => by
    rw [get_set_ne (by omega)]; exact h
  have hst5 : Stp s.heap.length (fun y => y = nn) s4 { s4 with heap := s4.heap.set nn (.inner m1) } := Stp.wrInner d4 rfl (by rw [k5]; rfl) fun h => absurd h (by omega)
  have hnn5 : (s4.heap.set nn (Cell.inner m1))[nn]? = some (.inner m1) := get_set_self (lt_of_get d4)
  have c5 := hgs hx4 c4
  have hl5 := hgs hl3 hl4
  have w5 := hgs hw4 w4
  have wl5 := hgs hl23 wl4
  have hnx : nn ≠ x := by omega
  have hnw : nn ≠ w2 := by omega
  have hB1' := hB1.trans a6
  have hB2' := hB2.trans a7
  have hrun := insertPair_runs (t := { s4 with heap := s4.heap.set nn (.inner m1) }) (Z := s.heap.length) (pfx := pfx) (p := p) (ok := ok) (k := k) (b1 := e2) (b2 := e1) hnn5 k1 k2 k3 k4 c5 (hn4.layout (hn3.layout (hn1.layout hL))) (by rw [hn4.part, hn3.part, hn1.part]; exact hpart) (hn4.wrap (hn3.wrap (hn1.wrap hw)))
    (by rw [hn4.leaf, hn3.leaf, hn1.leaf]; exact hleaf) hl5 w5 (hn5.layout a10) (by rw [hn5.part]; exact a9) (hn5.wrap (Or.inr ⟨a11.1, Or.inr a11.2⟩)) (by rw [hn5.leaf]; exact a8) wl5
    (by rw [hA1]; exact hd) (by rw [hB1', hK]) (by rw [hA1]; exact f4) (by rw [hB1']; exact f3) (Ne.symm f2) hnn hnx hnw
  rw [hA1, hB1', hA2, hB2', List.length_append] at hrun
  refine Runs.bind (Runs.mono hrun ?_)
  rintro nn' s6 ⟨rfl, g1, E', N', g2, g3, g4⟩
  have h6 := Stp0.then h4 (hst5.trans g1 fun _ _ h => h)
  have h6' : Stp0 s.heap.length s s6 := h6.mono (Nat.le_refl _) (by rintro y hy rfl; omega)
  have htrk : Trk s s6 a := (b2.of_stp a1 b1).then (Stp0.then d1 (hst5.trans g1 fun _ _ h => h))
  refine Runs.pure ⟨rfl, h6'.mono (Nat.le_refl _) fun _ _ h => h.elim, ⟨E', N', g2, ?_⟩, Or.inr (Or.inl ⟨?_, rfl, rfl⟩)⟩
  · have ev1 : Evo K (some v) s s6 [(lc.key, lc.value, l)] E' [] [] :=
      (Evo.fresh (N := []) a3 (fun _ _ h => nomatch h)).union (Evo.frame (N := []) (E := [(lc.key, lc.value, l)]) h6' (fun e he hk => by rw [List.mem_singleton.1 he] at hk; exact hs1 (hk ▸ List.prefix_refl _)) (fun _ _ h => nomatch h)) (by simp)
        (fun e => by rw [g3]; simp) (by simp) (by simp)
    refine ev1.union (Evo.tops (p := p) (N' := N') htrk fun q y hy => ?_) (by simp) (by simp) (fun e => by simp) (fun e => by simp)
    rcases g4 q y hy with rfl | rfl | rfl
    · exact Or.inr hnn
    · rcases c2 with rfl | c2
      · exact Or.inl rfl
      · exact Or.inr (Nat.le_trans a1.len c2)
    · exact Or.inr a2
  · intro e he hk
    rw [List.mem_singleton.1 he] at hk
    exact hs1 (hk ▸ List.prefix_refl _)

end Art
