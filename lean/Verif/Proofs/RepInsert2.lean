import Verif.Proofs.RepInsert
/-
Inserting below an inner node of a well-formed subtree.
-/
set_option autoImplicit false
set_option linter.unusedVariables false
set_option linter.unusedSimpArgs false
set_option linter.unusedSectionVars false
namespace Art
variable {V : Type} [Removals] {s s' s'' t t' : St V} {h h' : Heap V} {E E' A A' B B' : List (Ent V)} {N N' N1 N1' N2 N2' : List (Key × Addr)} {K p P pfx : Key} {o : Option V}
  {b : Byte} {a a' c c' : Addr} {l r es : Edges} {Z : Nat} {X : Addr → Prop} {v : V} {n m : Inner} {st : Option Addr} {vals : List (Ent V)}
  {f : Byte → List (Ent V)} {g : Byte → List (Key × Addr)}

/-- The inner node case of `Rep`. -/
structure IsNode (h : Heap V) (p : Key) (a : Addr) (n : Inner) (pfx : Key) (es : Edges) (st : Option Addr) (vals : List (Ent V))
    (f : Byte → List (Ent V)) (g : Byte → List (Key × Addr)) : Prop where
  ha : h[a]? = some (.inner n)
  hL : Layout n es st
  hne : Filled n es
  hh : Header n pfx
  hst : StaleOK h (p ++ pfx) es st
  hown : OwnLeaf h (p ++ pfx) n.leaf vals
  hnd : n.leaf ≠ none → dollar ∉ es.map (·.1)
  htw : n.Fork es
  hch : ∀ b c, (b, c) ∈ es → Rep h (p ++ pfx ++ [b]) c (f b) (g b)

theorem IsNode.rep (hi : IsNode h p a n pfx es st vals f g) : Rep h p a (vals ++ es.flatMap fun e => f e.1) ((p, a) :: es.flatMap fun e => g e.1) :=
  Rep.node hi.ha hi.hL hi.hne hi.hh hi.hst hi.hown hi.hnd hi.htw hi.hch

theorem IsNode.leafOK (hi : IsNode h p a n pfx es st vals f g) : LeafOK h n.leaf := fun l hl => by
  rcases hi.hown.inv with ⟨ho, -⟩ | ⟨l', lc, ho, -, hl', -⟩
  · rw [ho] at hl; cases hl
  · rw [ho] at hl; cases hl; exact ⟨_, hl'⟩

theorem IsNode.notin (hi : IsNode h p a n pfx es st vals f g) (hb : (b, c) ∈ es) : ¬ Occ (f b) (g b) a :=
  Rep.notin hi.ha hi.hL hi.hne hi.hh hi.hst hi.hown hi.hnd hi.htw hi.hch hb

/-- A subtree that a step does not touch. -/
theorem Rep.step (hr : Rep s.heap p a E N) (hs : Stp s.heap.length X s s') (hX : ∀ x, Occ E N x → ¬ X x) : Rep s'.heap p a E N :=
  hr.frame (fun x hx => hs.frame x (hr.bound hx) (hX x hx)) fun Q x hq => hs.sok Q x hq.bound hq

theorem IsNode.occ (hi : IsNode h p a n pfx es st vals f g) : Occ (vals ++ es.flatMap fun e => f e.1) ((p, a) :: es.flatMap fun e => g e.1) a := Occ.head

/-- A new edge is added to a copy of the node. -/
theorem addEdge_runs {a1 w2 l2 : Addr} {n2 : Inner} {lc2 : LeafC V} (hi : IsNode s.heap p a n pfx es st vals f g) (h1 : Stp0 s.heap.length s t)
    (ha1 : a1 = a ∨ s.heap.length ≤ a1) (hm : t.heap[a1]? = some (.inner m)) (hmn : Like m n) (htr : Trk s t a)
    (hw : t.heap[w2]? = some (.inner n2)) (hL2 : Layout n2 [] none) (hp2 : n2.part.length = 10) (hwr : n2.Wrap) (hf2 : n2.leaf = some l2) (hl2 : t.heap[l2]? = some (.leaf lc2))
    (hw2 : s.heap.length ≤ w2) (hl2' : s.heap.length ≤ l2) (hne : a1 ≠ w2) (hK2 : lc2.key = K) (hv2 : lc2.value = v) (hd : ∃ k, K = k ++ [dollar])
    (hK : p ++ pfx ++ [b] <+: K) (hb : b ∉ es.map (·.1)) (hvK : ∀ e ∈ vals, e.1 ≠ K) (hlt : es.length < 255) (hdol : n.leaf ≠ none → b ≠ dollar) :
    Runs (addChild a1 b w2 : M V Nat) t fun a2 t' => Stp s.heap.length (fun x => x = a) s t' ∧
      ∃ E' N', Rep t'.heap p a2 E' N' ∧ Evo K (some v) s t' (vals ++ es.flatMap fun e => f e.1) E' ((p, a) :: es.flatMap fun e => g e.1) N' := by
  obtain ⟨l, r, rfl, hsrt⟩ := hi.hL.sorted.split_new b hb
  have hlm : LeafOK t.heap m.leaf := by rw [hmn.leaf]; exact hi.leafOK.step h1
  refine Runs.mono (addChild_runs (N := s.heap.length) h1.len hm (hmn.header hi.hh) hlm (hmn.layout hi.hL) (hmn.filled hi.hne).dense (hsrt w2) hlt) ?_
  rintro a2 t' ⟨g1, g2, n', g3, g4, gD, g5, g6, gT⟩
  have hst : Stp s.heap.length (fun x => x = a) s t' := (Stp0.then h1 g1).mono (Nat.le_refl _) (by
    rintro x hx rfl
    rcases ha1 with rfl | h
    · rfl
    · omega)
  have hmv : LeafMv s t' n.leaf n'.leaf := by
    rw [hmn.leaf] at g6
    exact g6.from h1 (g1.mono (Nat.le_refl _) fun _ _ _ => trivial) hi.leafOK
  obtain ⟨vals', hown', hev⟩ := Evo.own (K := K) hi.hown hmv hst hvK
  have haa : a2 = a ∨ s.heap.length ≤ a2 := by
    rcases g2 with rfl | g2
    · exact ha1
    · exact Or.inr (Nat.le_trans h1.len g2)
  obtain ⟨n2', hw', hn2'⟩ := (g1.frame w2 (lt_of_get hw) (Ne.symm hne)).like hw
  obtain ⟨lc2', hl', hk', hv'⟩ := (g1.frame l2 (lt_of_get hl2) (by rintro rfl; rw [hm] at hl2; cases hl2)).likeL hl2
  have hrw : Rep t'.heap (p ++ pfx ++ [b]) w2 [(lc2'.key, lc2'.value, l2)] [(p ++ pfx ++ [b], w2)] :=
    Rep.leaf hw' (hn2'.layout hL2) (by rw [hn2'.part]; exact hp2) (hn2'.wrap hwr) (by rw [hn2'.leaf]; exact hf2) hl' (by rw [hk', hK2]; exact hK) (by rw [hk', hK2]; exact hd)
  rw [hk', hv', hK2, hv2] at hrw
  have hleaf' : n'.leaf ≠ none → n.leaf ≠ none := by
    intro h0 h00
    rcases hmv with ⟨-, h2⟩ | ⟨y, y', lc, lc', h2, -⟩
    · exact h0 h2
    · rw [h00] at h2; cases h2
  refine ⟨hst, _, _, Rep.node (pfx := pfx) (st := none) (f := setF f b [(K, v, l2)]) (g := setF g b [(p ++ pfx ++ [b], w2)]) (vals := vals') g3 g4 ⟨by simp, gD⟩ g5 (fun c hc => nomatch hc) hown' ?_ ?_ ?_, ?_⟩
  · intro h0
    have h2 := hi.hnd (hleaf' h0)
    have h3 := hdol (hleaf' h0)
    simp only [List.map_append, List.map_cons, List.mem_append, List.mem_cons, not_or] at h2 ⊢
    exact ⟨h2.1, Ne.symm h3, h2.2⟩
  · have h5 := List.length_pos_iff.2 hi.hne.ne
    refine hi.htw.imp_right fun h => ⟨gT (h.1.of hmn.kind hmn.num hmn.children), Or.inr ?_⟩
    simp only [List.length_append, List.length_cons] at h5 ⊢
    omega
  · intro b' c' hb'
    rcases ((hsrt w2).mem_insert _).1 hb' with h | h
    · cases h
      rw [setF_self, setF_self]
      exact hrw
    · have hbb : b' ≠ b := fun h2 => (hsrt w2).new_notin c' (h2 ▸ h)
      rw [setF_ne hbb, setF_ne hbb]
      refine (hi.hch b' c' h).step hst ?_
      rintro x hx rfl
      exact hi.notin h hx
  · refine Evo.node (p := p) (P := p ++ pfx) (a := a) (a' := a2) (h := s.heap) (f := f) (g := g) (vals := vals) (vals' := vals') (A := []) (N1 := []) (hsrt w2) hi.hch hK hst hev
      ((htr.then g1)) haa (Evo.fresh (v := v) (x := l2) (N := [(p ++ pfx ++ [b], w2)]) hl2' fun q y hy => by cases List.mem_singleton.1 hy; exact hw2) ?_ ?_ ?_ ?_
    · intro e; simp only [List.mem_append, List.not_mem_nil, false_or]
    · intro e; simp only [List.mem_cons, List.not_mem_nil, false_or]
    · intro e; rw [List.mem_append, mem_setF (hsrt w2)]
    · intro e; rw [List.mem_cons, mem_setF (hsrt w2)]

/-- The subtree below one edge is replaced in a copy of the node. -/
theorem swapKid_runs {β : Type} {Q : β → St V → Prop} {F : Nat → M V β} {i : Nat} {cn : Addr} (hi : IsNode s.heap p a n pfx (l ++ (b, c) :: r) st vals f g)
    (h1 : Stp s.heap.length (Occ (f b) (g b)) s t)
    (hslot : AtSlot n l b i) (hrep : Rep t.heap (p ++ pfx ++ [b]) cn A' N1') (hevo : Evo K o s t (f b) A' (g b) N1')
    (hK : p ++ pfx ++ [b] <+: K) (hvK : ∀ e ∈ vals, e.1 ≠ K)
    (hq : ∀ a2 t', (a2 = a ∨ t.heap.length ≤ a2) → Stp t.heap.length (fun x => x = a2) t t' →
      Stp s.heap.length (Occ (vals ++ (l ++ (b, c) :: r).flatMap fun e => f e.1) ((p, a) :: (l ++ (b, c) :: r).flatMap fun e => g e.1)) s t' →
      (∃ E' N', Rep t'.heap p a2 E' N' ∧
        Evo K o s t' (vals ++ (l ++ (b, c) :: r).flatMap fun e => f e.1) E' ((p, a) :: (l ++ (b, c) :: r).flatMap fun e => g e.1) N') → Runs (F a2) t' Q) :
    Runs (do trackChannel (some a); let node ← writeNode a false; setChildAt node i (some cn); F node : M V β) t Q := by
  have hbc : (b, c) ∈ l ++ (b, c) :: r := by simp
  have hsrt := hi.hL.sorted
  obtain ⟨n1, hn1, hl1⟩ := (h1.frame a (lt_of_get hi.ha) (hi.notin hbc)).like hi.ha
  have hvn : ∀ x ∈ vals.map (·.2.2), ¬ Occ (f b) (g b) x := fun x hx =>
    Rep.own_notin hi.hown (hi.hch b c hbc) (fun h2 h3 => hi.hnd h2 (List.mem_map.2 ⟨_, hbc, h3⟩)) hx
  have hlt : LeafOK t.heap n1.leaf := by
    rw [hl1.leaf]
    intro y hy
    rcases hi.hown.inv with ⟨ho, -⟩ | ⟨l', lc, ho, rfl, hl', -⟩
    · rw [ho] at hy; cases hy
    · rw [ho] at hy; cases hy
      obtain ⟨lc', h2, -⟩ := (h1.frame y (lt_of_get hl') (hvn y (by simp))).likeL hl'
      exact ⟨_, h2⟩
  refine trackWrite_runs (Z := t.heap.length) hn1 (by rw [hl1.part]; exact hi.hh.part) hlt ?_
  intro a2 t1 m e1 e2 e3 e4 e5
  have hkind : m.children = n.children := e4.children.trans hl1.children
  have hLm : Layout m (l ++ (b, c) :: r) st := e4.layout (hl1.layout hi.hL)
  have hslot' : AtSlot m l b i := by
    have : m.kind = n.kind := e4.kind.trans hl1.kind
    have hk2 : m.keys = n.keys := e4.keys.trans hl1.keys
    unfold AtSlot at hslot ⊢
    rw [this, hk2]
    exact hslot
  obtain ⟨hilt, hLm'⟩ := hLm.setChild hslot' cn
  have hmt := hLm.setChild_tidy hslot' cn
  refine Runs.bind (setChildAt_runs e3 hilt ?_)
  generalize hm1 : ({ m with children := m.children.set i (some cn) } : Inner) = m1 at hLm' hmt
  have hml : m1.leaf = n.leaf := by subst hm1; exact e4.leaf.trans hl1.leaf
  have hmk : m1.kind = n.kind := by subst hm1; exact e4.kind.trans hl1.kind
  have hmp : m1.partialLen = n.partialLen := by subst hm1; exact e4.plen.trans hl1.plen
  have hmpa : m1.part = n.part := by subst hm1; exact e4.part.trans hl1.part
  have hwr : Stp t.heap.length (fun x => x = a2) t1 { t1 with heap := t1.heap.set a2 (.inner m1) } :=
    Stp.wrInner e3 rfl (by subst hm1; rfl) fun _ => Or.inl (by subst hm1; rfl)
  clear hm1
  have haa : a2 = a ∨ s.heap.length ≤ a2 := e2.imp_right fun h => Nat.le_trans h1.len h
  generalize ht2 : ({ t1 with heap := t1.heap.set a2 (.inner m1) } : St V) = t2 at hwr
  have hg2 : t2.heap[a2]? = some (.inner m1) := by subst ht2; exact get_set_self (lt_of_get e3)
  clear ht2
  have hst3 : Stp t.heap.length (fun x => x = a2) t t2 := Stp0.then e1 hwr
  have hst2 : Stp s.heap.length (fun x => x = a2) t t2 := hst3.mono h1.len fun _ _ h => h
  have hst : Stp s.heap.length (fun x => x = a ∨ Occ (f b) (g b) x) s t2 :=
    (h1.mono (Nat.le_refl _) fun _ _ h => Or.inr h).trans hst2 (by
      rintro x hx rfl
      rcases haa with rfl | h
      · exact Or.inl rfl
      · omega)
  have hownt : OwnLeaf t2.heap (p ++ pfx) n.leaf vals := hi.hown.frame fun x hx => hst.frame x (by
      obtain ⟨e, he, rfl⟩ := List.mem_map.1 hx
      exact hi.rep.bound (Occ.val he)) (by
    rintro (rfl | h)
    · obtain ⟨e, he, rfl⟩ := List.mem_map.1 hx
      obtain ⟨lc, hlc, -⟩ := hi.rep.leaf_of e (List.mem_append_left _ he)
      rw [hi.ha] at hlc; cases hlc
    · exact hvn x hx h)
  have hra : ¬ Occ A' N1' a2 := by
    intro ho
    have hb2 := hrep.bound ho
    rcases hevo.occ a2 ho with h | h
    · rcases e2 with rfl | h3
      · exact hi.notin hbc h
      · omega
    · rcases e2 with rfl | h3
      · have := lt_of_get hi.ha; omega
      · omega
  have hrep2 : Rep t2.heap (p ++ pfx ++ [b]) cn A' N1' := by
    exact hrep.step hst3 fun x hx h => hra (h ▸ hx)
  refine hq a2 t2 e2 hst3 (hst.mono (Nat.le_refl _) ?_) ⟨_, _, Rep.node (pfx := pfx) (st := st) (f := setF f b A') (g := setF g b N1') (vals := vals) hg2 hLm' ⟨by simp, hi.hne.dense.congr hmk (by simp)⟩ (hi.hh.congr hmp hmpa) ?_ (by rw [hml]; exact hownt) ?_ ?_ ?_, ?_⟩
  · rintro x hx (rfl | h)
    · exact Occ.head
    · exact Occ.kid hbc h
  · intro x hx
    have := hi.hst x hx
    refine (hst.sok _ x this.bound this).mono ?_
    rintro k ⟨b', hb', hk⟩
    exact ⟨b', by simpa using hb', hk⟩
  · rw [hml]
    intro h0
    have := hi.hnd h0
    simpa using this
  · refine hi.htw.imp_right fun h => ⟨hmt (h.1.of (e4.kind.trans hl1.kind) (e4.num.trans hl1.num) hkind), Or.imp (fun h => by rw [hml]; exact h) (fun h => ?_) h.2⟩
    simpa using h
  · intro b' c' hb'
    rcases (hsrt.mem_repl cn _).1 hb' with h | h
    · cases h
      rw [setF_self, setF_self]
      exact hrep2
    · obtain ⟨hbb, hb0⟩ := h
      have hbb : b' ≠ b := hbb
      rw [setF_ne hbb, setF_ne hbb]
      refine (hi.hch b' c' hb0).step hst ?_
      rintro x hx (rfl | h)
      · exact hi.notin hb0 hx
      · exact Rep.disjoint (hi.hch b' c' hb0) (hi.hch b c hbc) hbb hx h
  · refine Evo.node (p := p) (P := p ++ pfx) (a := a) (a' := a2) (h := s.heap) (f := f) (g := g) (vals := vals) (vals' := vals) hsrt (fun b1 c1 h => hi.hch b1 c1 ((hsrt.mem_remove _).1 h).2) hK hst
      (Evo.frame hst hvK (fun _ _ h => nomatch h)) ((e5.of_stp h1 (e1.mono h1.len fun _ _ h => h)).then hwr) haa (hevo.then hst2) ?_ ?_ ?_ ?_
    · intro e; rw [List.mem_append, mem_split (f := f)]
    · intro e; rw [List.mem_cons, mem_split (f := g)]
    · intro e; rw [List.mem_append, mem_setF (hsrt.repl cn)]
    · intro e; rw [List.mem_cons, mem_setF (hsrt.repl cn)]

/-- The same, for `insertReplace`. -/
theorem replaceKid_runs {R : InsRes V} {i : Nat} (hi : IsNode s.heap p a n pfx (l ++ (b, c) :: r) st vals f g) (h1 : Stp s.heap.length (Occ (f b) (g b)) s t)
    (hslot : AtSlot n l b i) (hmut : R.mutated = true) (hrep : Rep t.heap (p ++ pfx ++ [b]) R.node A' N1') (hevo : Evo K o s t (f b) A' (g b) N1')
    (hK : p ++ pfx ++ [b] <+: K) (hvK : ∀ e ∈ vals, e.1 ≠ K) :
    Runs (insertReplace a c i R : M V (InsRes V)) t fun R' t' => R'.mutated = true ∧ R'.old = R.old ∧ R'.oldVal = R.oldVal ∧
      Stp s.heap.length (Occ (vals ++ (l ++ (b, c) :: r).flatMap fun e => f e.1) ((p, a) :: (l ++ (b, c) :: r).flatMap fun e => g e.1)) s t' ∧
      ∃ E' N', Rep t'.heap p R'.node E' N' ∧
        Evo K o s t' (vals ++ (l ++ (b, c) :: r).flatMap fun e => f e.1) E' ((p, a) :: (l ++ (b, c) :: r).flatMap fun e => g e.1) N' := by
  unfold insertReplace
  rw [if_pos (Or.inl hmut)]
  exact swapKid_runs hi h1 hslot hrep hevo hK hvK fun a2 t' _ _ h2 h3 => Runs.pure ⟨hmut, rfl, rfl, h2, h3⟩

/-- What is needed to add an edge for the key. -/
structure NewEdge (K : Key) (P : Key) (b : Byte) (n : Inner) (es : Edges) (vals : List (Ent V)) (f : Byte → List (Ent V)) : Prop where
  hd : ∃ k, K = k ++ [dollar]
  hK : P ++ [b] <+: K
  hb : b ∉ es.map (·.1)
  hlt : es.length < 255
  hdol : n.leaf ≠ none → b ≠ dollar
  hno : ∀ e ∈ vals ++ es.flatMap (fun e => f e.1), e.1 ≠ K

theorem NewEdge.len (he : NewEdge K P b n es vals f) : P.length < K.length := by
  have := he.hK.length_le
  simp only [List.length_append, List.length_cons, List.length_nil] at this
  omega

theorem insertNoChild_runs [Inhabited V] {d : Nat} (hi : IsNode s.heap p a n pfx es st vals f g) (he : NewEdge K (p ++ pfx) b n es vals f) (hd : d = (p ++ pfx).length) :
    Runs (insertNoChild a K v d : M V (InsRes V)) s (InsPost s p K v (vals ++ es.flatMap fun e => f e.1) ((p, a) :: es.flatMap fun e => g e.1)) := by
  subst hd
  unfold insertNoChild
  refine Runs.bind (Runs.mono (makeLeaf_runs (N := s.heap.length) (Nat.le_refl _)) ?_)
  rintro w2 s1 ⟨a1, a2, l2, lc2, n2, a3, a4, a5, a6, a7, a8, a9, a10, a11⟩
  obtain ⟨n1, ha1, hn1⟩ := a1.like hi.ha
  refine Runs.bind (Runs.innerAt ha1 ?_)
  have hlk : LeafOK s1.heap n1.leaf := by rw [hn1.leaf]; exact hi.leafOK.step a1
  have hclash : Runs (leafClash n1 K : M V Bool) s1 fun x s' => x = false ∧ s' = s1 := by
    unfold leafClash
    rw [hn1.leaf]
    rcases hi.hown.inv with ⟨ho, -⟩ | ⟨y, lc, ho, -, hl, hk⟩
    · rw [ho]
      exact Runs.pure ⟨rfl, rfl⟩
    · rw [ho]
      obtain ⟨lc', hl', hk', -⟩ := a1.likeL hl
      refine Runs.bind (Runs.leafAt hl' (Runs.pure ⟨?_, rfl⟩))
      rw [hk', hk, getKey_snoc]
      obtain ⟨k, hkk⟩ := he.hd
      rw [hkk, getKey_snoc, Bool.and_eq_false_iff]
      right
      rw [Bool.eq_false_iff]
      intro hpre
      have h1 := (hasPrefixB_iff _ _).1 hpre
      have h2 := he.hK
      have h3 := he.len
      rw [hkk] at h2 h3
      simp only [List.length_append, List.length_cons, List.length_nil] at h3
      have h4 := h1.eq_of_length (by have := h1.length_le; simp only [List.length_append] at this ⊢; omega)
      subst h4
      have h5 := h2.eq_of_length (by simp)
      exact he.hdol (by rw [ho]; simp) (by simpa using h5)
  refine Runs.bind (Runs.mono hclash ?_)
  rintro x _ ⟨rfl, rfl⟩
  refine trackWrite_runs (Z := s.heap.length) ha1 (by rw [hn1.part]; exact hi.hh.part) hlk ?_
  intro a' s3 m b1 b2 b3 b4 b5
  simp only [Bool.false_eq_true, if_false]
  unfold addChildAt
  rw [if_pos he.len]
  obtain ⟨n3, c1, hn3⟩ := b1.like a4
  obtain ⟨lc3, c2, hk3, hv3⟩ := b1.likeL a5
  have hmn : Like m n := ⟨b4.kind.trans hn1.kind, b4.num.trans hn1.num, b4.keys.trans hn1.keys, b4.children.trans hn1.children, b4.part.trans hn1.part, b4.plen.trans hn1.plen, b4.leaf.trans hn1.leaf⟩
  have hne : a' ≠ w2 := by
    have := lt_of_get a4
    have := lt_of_get hi.ha
    rcases b2 with rfl | b2 <;> omega
  refine Runs.bind (Runs.bind (Runs.lift (byteAt_eq (prefix_byte he.hK)) (Runs.mono (addEdge_runs hi (a1.then0 b1) (b2.imp_right fun h => Nat.le_trans a1.len h) b3 hmn
    (b5.of_stp a1 b1) c1 (hn3.layout a10) (by rw [hn3.part]; exact a9) (hn3.wrap (Or.inr ⟨a11.1, Or.inr a11.2⟩)) (by rw [hn3.leaf]; exact a8) c2 a2 a3 hne (hk3.trans a6) (hv3.trans a7) he.hd he.hK he.hb
    (fun e h => he.hno e (List.mem_append_left _ h)) he.hlt he.hdol) ?_)))
  rintro aa t ⟨d1, E', N', d2, d3⟩
  exact Runs.pure ⟨rfl, d1.mono (Nat.le_refl _) (by rintro x hx rfl; exact Occ.head), ⟨E', N', d2, d3⟩, Or.inr (Or.inl ⟨he.hno, rfl, rfl⟩)⟩

theorem insertNew_runs [Inhabited V] (hi : IsNode s.heap p a n pfx es st vals f g) (he : NewEdge K (p ++ pfx) b n es vals f) (hp : pfx = []) :
    Runs (insertNew a K v p.length : M V (InsRes V)) s (InsPost s p K v (vals ++ es.flatMap fun e => f e.1) ((p, a) :: es.flatMap fun e => g e.1)) := by
  unfold insertNew
  refine Runs.bind (Runs.mono (makeLeaf_runs (N := s.heap.length) (Nat.le_refl _)) ?_)
  rintro w2 s1 ⟨a1, a2, l2, lc2, n2, a3, a4, a5, a6, a7, a8, a9, a10, a11⟩
  obtain ⟨n1, ha1, hn1⟩ := a1.like hi.ha
  have hlk : LeafOK s1.heap n1.leaf := by rw [hn1.leaf]; exact hi.leafOK.step a1
  have hlen := he.len
  have hbyte := prefix_byte he.hK
  rw [hp, List.append_nil] at hlen hbyte
  rw [if_pos hlen]
  refine trackWrite_runs (Z := s.heap.length) ha1 (by rw [hn1.part]; exact hi.hh.part) hlk ?_
  intro a' s3 m b1 b2 b3 b4 b5
  obtain ⟨n3, c1, hn3⟩ := b1.like a4
  obtain ⟨lc3, c2, hk3, hv3⟩ := b1.likeL a5
  have hmn : Like m n := ⟨b4.kind.trans hn1.kind, b4.num.trans hn1.num, b4.keys.trans hn1.keys, b4.children.trans hn1.children, b4.part.trans hn1.part, b4.plen.trans hn1.plen, b4.leaf.trans hn1.leaf⟩
  have hne : a' ≠ w2 := by
    have := lt_of_get a4
    have := lt_of_get hi.ha
    rcases b2 with rfl | b2 <;> omega
  refine Runs.bind (Runs.lift (byteAt_eq hbyte) (Runs.bind (Runs.mono (addEdge_runs hi (a1.then0 b1) (b2.imp_right fun h => Nat.le_trans a1.len h) b3 hmn
    (b5.of_stp a1 b1) c1 (hn3.layout a10) (by rw [hn3.part]; exact a9) (hn3.wrap (Or.inr ⟨a11.1, Or.inr a11.2⟩)) (by rw [hn3.leaf]; exact a8) c2 a2 a3 hne (hk3.trans a6) (hv3.trans a7) he.hd he.hK he.hb
    (fun e h => he.hno e (List.mem_append_left _ h)) he.hlt he.hdol) ?_)))
  rintro aa t ⟨d1, E', N', d2, d3⟩
  exact Runs.pure ⟨rfl, d1.mono (Nat.le_refl _) (by rintro x hx rfl; exact Occ.head), ⟨E', N', d2, d3⟩, Or.inr (Or.inl ⟨he.hno, rfl, rfl⟩)⟩

/-! ### Splitting a prefix -/

/-- The node in the middle of a split: the old node hangs below the new one, its prefix is shortened. -/
structure SplitPost (Z : Nat) (t : St V) (nn a : Addr) (n : Inner) (pre post : Key) (b : Byte) (nn' : Addr) (t' : St V) : Prop where
  eq : nn' = nn
  stp : Stp Z (fun x => x = nn ∨ x = a) t t'
  top : ∃ m, t'.heap[nn]? = some (.inner m) ∧ m.kind = .n4 ∧ Layout m [(b, a)] none ∧ Header m pre ∧ m.leaf = none
  bot : ∃ m, t'.heap[a]? = some (.inner m) ∧ m.kind = n.kind ∧ m.numChildren = n.numChildren ∧ m.keys = n.keys ∧ m.children = n.children ∧ m.leaf = n.leaf ∧ Header m post

theorem Header.split_short {q : List Byte} {k : Nat} (hh : Header n pfx) (h10 : pfx.length ≤ 10) (hk : k ≤ pfx.length) :
    (n.part.drop k).take (min maxPrefixLen (pfx.length - k)) = (pfx.drop k).take 10 := by
  have h1 := hh.bytes
  rw [Nat.min_eq_right h10, List.take_of_length_le (l := pfx) h10] at h1
  have h2 : n.part = pfx ++ n.part.drop pfx.length := by
    conv => lhs; rw [← List.take_append_drop pfx.length n.part, h1]
  rw [h2, List.drop_append_of_le_length hk, List.take_append_of_le_length (by rw [List.length_drop]; exact Nat.min_le_right _ _)]
  rw [List.take_of_length_le (by rw [List.length_drop]; unfold maxPrefixLen; omega), List.take_of_length_le (by rw [List.length_drop]; omega)]

theorem drop_take_key {k : Nat} {tl : Key} (hk : k ≤ pfx.length) :
    ((p ++ pfx ++ tl).drop (p.length + k)).take (min maxPrefixLen (pfx.length - k)) = (pfx.drop k).take 10 := by
  rw [List.append_assoc, List.drop_append, List.drop_eq_nil_of_le (by omega), List.nil_append, show p.length + k - p.length = k by omega,
    List.drop_append_of_le_length hk, List.take_append_of_le_length (by rw [List.length_drop]; exact Nat.min_le_right _ _)]
  have : pfx.length - k = (pfx.drop k).length := List.length_drop.symm
  rw [this]
  exact (List.take_eq_take_min ..).symm

theorem splitChild_runs {nn : Addr} {r : Nat} (hi : IsNode t.heap p a n pfx es st vals f g) (hnn : t.heap[nn]? = some (.inner m)) (hk : m.kind = .n4) (hmL : Layout m [] none)
    (hmh : Header m (pfx.take r)) (hml : m.leaf = none) (hne : nn ≠ a) (hnocc : ∀ b c, (b, c) ∈ es → ¬ Occ (f b) (g b) nn) (hr : pfx[r]? = some b) :
    Runs (splitChild nn a pfx.length p.length r : M V Nat) t (SplitPost Z t nn a n (pfx.take r) (pfx.drop (r + 1)) b) := by
  have hrl : r < pfx.length := (List.getElem?_eq_some_iff.1 hr).1
  have hsrt : Edges.Sorted ([] ++ (b, a) :: []) := by simp [Edges.Sorted]
  unfold splitChild
  split
  · next h10 =>
    unfold splitShort
    have h10 : pfx.length ≤ 10 := h10
    refine Runs.bind (Runs.innerAt hi.ha (Runs.bind (Runs.lift (byteAt_eq (b := b) (by rw [hi.hh.byte (by omega) hrl]; exact hr)) (Runs.bind (Runs.mono (addChild_room4 (l := []) (r := []) hnn hk hmL hsrt (by simp)) ?_)))))
    rintro nn' t1 ⟨rfl, m', rfl, f1, f2, f3, f4, f5, f6, -⟩
    have ha1 : ({ t with heap := t.heap.set nn' (.inner m') } : St V).heap[a]? = some (.inner n) := by
      show (t.heap.set nn' _)[a]? = _
      rw [get_set_ne hne]; exact hi.ha
    have hs1 : Stp Z (fun x => x = nn' ∨ x = a) t { t with heap := t.heap.set nn' (.inner m') } := Stp.wrInner hnn (Or.inl rfl) f5 fun _ => Or.inl f2
    have hn1 : ({ t with heap := t.heap.set nn' (.inner m') } : St V).heap[nn']? = some (.inner m') := get_set_self (lt_of_get hnn)
    generalize ({ t with heap := t.heap.set nn' (.inner m') } : St V) = t1 at ha1 hs1 hn1
    refine Runs.bind (Runs.innerAt ha1 (Runs.bind (Runs.assert (by rw [hi.hh.len, hi.hh.part]; unfold maxPrefixLen; omega) (Runs.bind (Runs.wr (Runs.pure ?_))))))
    refine ⟨rfl, hs1.trans (Stp.wrInner ha1 (Or.inr rfl) rfl fun _ => Or.inl rfl) fun _ _ h => h, ⟨m', ?_, f6.trans hk, f1, hmh.congr f4 f3, f2.trans hml⟩, ⟨_, get_set_self (lt_of_get ha1), rfl, rfl, rfl, rfl, rfl, ?_⟩⟩
    · show (t1.heap.set a _)[nn']? = _
      rw [get_set_ne (Ne.symm hne)]; exact hn1
    · refine Header.of_copy (d := n.part) hi.hh.part (by simp [hi.hh.len]) ?_
      simp only [hi.hh.len]
      rw [hi.hh.split_short (q := []) h10 (by omega)]
  · next h10 =>
    have h10 : 10 < pfx.length := Nat.lt_of_not_le h10
    unfold splitLong
    refine Runs.bind (Runs.innerAt hi.ha (Runs.bind (Runs.wr ?_)))
    generalize hm1 : ({ n with partialLen := n.partialLen - (r + 1) } : Inner) = n1
    have e1 : n1.kind = n.kind := by subst hm1; rfl
    have e2 : n1.numChildren = n.numChildren := by subst hm1; rfl
    have e3 : n1.keys = n.keys := by subst hm1; rfl
    have e4 : n1.children = n.children := by subst hm1; rfl
    have e5 : n1.leaf = n.leaf := by subst hm1; rfl
    have e6 : n1.part = n.part := by subst hm1; rfl
    have e7 : n1.partialLen = pfx.length - (r + 1) := by subst hm1; simp [hi.hh.len]
    have e8 : n1.ch = n.ch := by subst hm1; rfl
    clear hm1
    have hs1 : ∀ Z, Stp Z (fun x => x = a) t { t with heap := t.heap.set a (.inner n1) } := fun Z => Stp.wrInner hi.ha rfl e8 fun _ => Or.inl e5
    have ha1 : ({ t with heap := t.heap.set a (.inner n1) } : St V).heap[a]? = some (.inner n1) := get_set_self (lt_of_get hi.ha)
    have hn1 : ({ t with heap := t.heap.set a (.inner n1) } : St V).heap[nn]? = some (.inner m) := by
      show (t.heap.set a _)[nn]? = _
      rw [get_set_ne (Ne.symm hne)]; exact hnn
    generalize ({ t with heap := t.heap.set a (.inner n1) } : St V) = t1 at ha1 hs1 hn1
    have hown1 : OwnLeaf t1.heap (p ++ pfx) n1.leaf vals := by
      rw [e5]
      refine hi.hown.frame fun x hx => ?_
      obtain ⟨e, he, rfl⟩ := List.mem_map.1 hx
      obtain ⟨lc, hlc, -⟩ := hi.rep.leaf_of e (List.mem_append_left _ he)
      exact (hs1 0).frame _ (lt_of_get hlc) (by rintro h; rw [h, hi.ha] at hlc; cases hlc)
    have hch1 : ∀ b c, (b, c) ∈ es → Rep t1.heap (p ++ pfx ++ [b]) c (f b) (g b) := fun b c hb =>
      (hi.hch b c hb).step (hs1 _) (by rintro x hx rfl; exact hi.notin hb hx)
    have hL1 : Layout n1 es st := hi.hL.congr e1 e2 e3 e4
    obtain ⟨e, E1, hE, hmin⟩ := minimum_at (k := t1.heap.length) (P := p ++ pfx) ha1 hL1 hi.hne hown1 (f := f) fun b c hb => (hch1 b c hb).minimumAux _ (hch1 b c hb).lengthN
    have hkey := node_longer hown1 hch1 (e := e) (by rw [hE]; simp)
    have hleaf : ∃ lc : LeafC V, t1.heap[e.2.2]? = some (.leaf lc) ∧ lc.key = e.1 := by
      have he : e ∈ vals ++ es.flatMap fun e => f e.1 := by rw [hE]; simp
      obtain ⟨lc, h1, h2, -⟩ := hi.rep.leaf_of e he
      obtain ⟨lc', h3, h4, -⟩ := ((hs1 0).frame _ (lt_of_get h1) (by rintro h; rw [h, hi.ha] at h1; cases h1)).likeL h1
      exact ⟨lc', h3, h4.trans h2⟩
    obtain ⟨lc, hlc, hlk⟩ := hleaf
    obtain ⟨x, hx⟩ := hkey
    rw [← hlk] at hx
    obtain ⟨tl, htl⟩ := (List.prefix_append _ _).trans hx
    have hbyte : lc.key[p.length + r]? = some b := by
      rw [← htl, List.append_assoc, List.getElem?_append_right (by omega), show p.length + r - p.length = r by omega, List.getElem?_append_left hrl]
      exact hr
    refine Runs.bind (Runs.get (Runs.bind (Runs.lift (a := some e.2.2) hmin ?_)))
    simp only
    refine Runs.bind (Runs.leafAt hlc (Runs.bind (Runs.lift (byteAt_eq hbyte) (Runs.bind (Runs.mono (addChild_room4 (l := []) (r := []) hn1 hk hmL hsrt (by simp)) ?_)))))
    rintro nn' t2 ⟨rfl, m', rfl, f1, f2, f3, f4, f5, f6, -⟩
    have ha2 : ({ t1 with heap := t1.heap.set nn' (.inner m') } : St V).heap[a]? = some (.inner n1) := by
      show (t1.heap.set nn' _)[a]? = _
      rw [get_set_ne hne]; exact ha1
    have hs2 : Stp Z (fun x => x = nn' ∨ x = a) t1 { t1 with heap := t1.heap.set nn' (.inner m') } := Stp.wrInner hn1 (Or.inl rfl) f5 fun _ => Or.inl f2
    have hn2 : ({ t1 with heap := t1.heap.set nn' (.inner m') } : St V).heap[nn']? = some (.inner m') := get_set_self (lt_of_get hn1)
    generalize ({ t1 with heap := t1.heap.set nn' (.inner m') } : St V) = t2 at ha2 hs2 hn2
    have hlen : lc.key.length = p.length + pfx.length + tl.length := by rw [← htl]; simp only [List.length_append]
    have hlb : leafBytes lc (p.length + r + 1 + min maxPrefixLen n1.partialLen) = lc.key :=
      if_pos (by rw [e7, hlen]; omega)
    refine Runs.bind (Runs.innerAt ha2 ?_)
    simp only [hlb]
    refine Runs.bind (Runs.assert (by rw [e7, hlen]; omega) (Runs.bind (Runs.wr (Runs.pure ?_))))
    refine ⟨rfl, (((hs1 Z).mono (Nat.le_refl _) fun _ _ h => Or.inr h).trans hs2 fun _ _ h => h).trans (Stp.wrInner ha2 (Or.inr rfl) rfl fun _ => Or.inl rfl) fun _ _ h => h,
      ⟨m', ?_, f6.trans hk, f1, hmh.congr f4 f3, f2.trans hml⟩, ⟨_, get_set_self (lt_of_get ha2), e1, e2, e3, e4, e5, ?_⟩⟩
    · show (t2.heap.set a _)[nn']? = _
      rw [get_set_ne (Ne.symm hne)]; exact hn2
    · refine Header.of_copy (d := n1.part) (by rw [e6]; exact hi.hh.part) (by simp only [e7, List.length_drop]) ?_
      simp only [e7]
      rw [← htl, Nat.add_assoc, drop_take_key (by omega)]

theorem Like.trans {n1 n2 n3 : Inner} (h1 : Like n1 n2) (h2 : Like n2 n3) : Like n1 n3 :=
  ⟨h1.kind.trans h2.kind, h1.num.trans h2.num, h1.keys.trans h2.keys, h1.children.trans h2.children, h1.part.trans h2.part, h1.plen.trans h2.plen, h1.leaf.trans h2.leaf⟩

/-- A copy of a node. -/
theorem IsNode.copy (hi : IsNode s.heap p a n pfx es st vals f g) (h1 : Stp0 s.heap.length s t) (ha : t.heap[a']? = some (.inner m)) (hm : Like m n) :
    IsNode t.heap p a' m pfx es st vals f g where
  ha := ha
  hL := hm.layout hi.hL
  hne := hm.filled hi.hne
  hh := hm.header hi.hh
  hst := fun c hc => by
    have := hi.hst c hc
    exact h1.sok _ c this.bound this
  hown := by
    rw [hm.leaf]
    refine hi.hown.frame fun x hx => ?_
    obtain ⟨e, he, rfl⟩ := List.mem_map.1 hx
    exact h1.eqv (hi.rep.bound (Occ.val he))
  hnd := by rw [hm.leaf]; exact hi.hnd
  htw := hm.fork hi.htw
  hch := fun b c hb => (hi.hch b c hb).step h1 fun _ _ h => h

theorem IsNode.longer (hi : IsNode h p a n pfx es st vals f g) {e : Ent V} (he : e ∈ vals ++ es.flatMap fun e => f e.1) : ∃ x, p ++ pfx ++ [x] <+: e.1 := node_longer hi.hown hi.hch he

theorem insertSplit_runs [Inhabited V] {r : Nat} {b0 b1 : Byte} (hi : IsNode s.heap p a n pfx es st vals f g) (hd : ∃ k, K = k ++ [dollar]) (hr : pfx[r]? = some b0)
    (hq : p ++ pfx.take r ++ [b1] <+: K) (hne : b0 ≠ b1) :
    Runs (insertSplit a K v p.length r : M V (InsRes V)) s (InsPost s p K v (vals ++ es.flatMap fun e => f e.1) ((p, a) :: es.flatMap fun e => g e.1)) := by
  have hrl : r < pfx.length := (List.getElem?_eq_some_iff.1 hr).1
  have htl : (pfx.take r).length = r := by rw [List.length_take]; omega
  have hpfx : pfx.take r ++ [b0] ++ pfx.drop (r + 1) = pfx := by
    have h1 := (List.getElem?_eq_some_iff.1 hr).2
    rw [← h1, List.append_assoc]
    conv => rhs; rw [← List.take_append_drop r pfx, List.drop_eq_getElem_cons hrl]
    rfl
  have hpP : p ++ pfx.take r ++ [b0] ++ pfx.drop (r + 1) = p ++ pfx := by
    conv => rhs; rw [← hpfx]
    simp only [List.append_assoc]
  -- nothing below the node has to do with the key
  have hPK : ∀ q : Key, p ++ pfx <+: q → ¬ q <+: K := fun q h1 h2 => by
    have h3 : p ++ pfx.take r ++ [b0] <+: K := by
      refine List.IsPrefix.trans ?_ (h1.trans h2)
      rw [← hpP]
      exact List.prefix_append _ _
    exact hne (prefix_edge h3 hq)
  have hEK : ∀ e ∈ vals ++ es.flatMap (fun e => f e.1), e.1 ≠ K := fun e he hk => by
    obtain ⟨x, hx⟩ := hi.longer he
    exact hPK e.1 ((List.prefix_append _ _).trans hx) (hk ▸ List.prefix_refl _)
  unfold insertSplit
  refine Runs.bind (Runs.mono (allocInner_runs (N := s.heap.length)) ?_)
  rintro nn s1 ⟨a1, a2, a3, i, a4⟩
  obtain ⟨n1, ha1, hn1⟩ := a1.like hi.ha
  refine Runs.bind (Runs.innerAt ha1 (Runs.bind (Runs.innerAt a4 (Runs.bind (Runs.assert (by rw [hn1.part, hi.hh.part]; exact Nat.min_le_left _ _) (Runs.bind (Runs.wr ?_)))))))
  have hq10 : n1.part.take (min maxPrefixLen r) = (pfx.take r).take 10 := by
    rw [hn1.part]
    have h1 := hi.hh.bytes
    have h2 : n.part.take (min maxPrefixLen r) = (n.part.take (min 10 pfx.length)).take (min maxPrefixLen r) := by
      rw [List.take_take]; congr 1; unfold maxPrefixLen; omega
    rw [h2, h1, List.take_take, List.take_take]
    congr 1; unfold maxPrefixLen; omega
  generalize hm1 : ({ ({ blankInner .n4 with id := i } : Inner) with partialLen := r, part := goCopy ({ blankInner .n4 with id := i } : Inner).part 0 (n1.part.take (min maxPrefixLen r)) } : Inner) = m1
  obtain ⟨k1, k2, k3, k4, k5⟩ := blank_header (i := i) (m := m1) (pfx := pfx.take r) hq10 (by rw [← hm1, htl]; rfl)
  clear hm1
  have hst2 : Stp s.heap.length (fun y => y = nn) s1 { s1 with heap := s1.heap.set nn (.inner m1) } := Stp.wrInner a4 rfl (by rw [k5]; rfl) fun h => absurd h (by omega)
  have hnn2 : ({ s1 with heap := s1.heap.set nn (.inner m1) } : St V).heap[nn]? = some (.inner m1) := get_set_self (lt_of_get a4)
  generalize ({ s1 with heap := s1.heap.set nn (.inner m1) } : St V) = s2 at hst2 hnn2
  have h02 : Stp0 s.heap.length s s2 := (Stp0.then a1 hst2).mono (Nat.le_refl _) (by rintro x hx rfl; omega)
  obtain ⟨n2, ha2, hn2⟩ := h02.like hi.ha
  refine trackWrite_runs (Z := s.heap.length) ha2 (by rw [hn2.part]; exact hi.hh.part) (by rw [hn2.leaf]; exact hi.leafOK.step h02) ?_
  intro x s3 n3 b1' b2' b3' b4' b5'
  have h03 := h02.then0 b1'
  have hi3 : IsNode s3.heap p x n3 pfx es st vals f g := hi.copy h03 b3' (b4'.trans hn2)
  obtain ⟨m3, hnn3, hm3⟩ := b1'.like hnn2
  have hnx : nn ≠ x := by
    have := lt_of_get hnn2
    have := lt_of_get hi.ha
    rcases b2' with rfl | h <;> omega
  have hxa : x = a ∨ s.heap.length ≤ x := b2'.imp_right fun h => Nat.le_trans h02.len h
  have hplen : n1.partialLen = pfx.length := hn1.plen.trans hi.hh.len
  rw [hplen]
  refine Runs.bind (Runs.mono (splitChild_runs (Z := s.heap.length) hi3 hnn3 (hm3.kind.trans k1) (hm3.layout k2) (hm3.header k3) (hm3.leaf.trans k4) hnx ?_ hr) ?_)
  · intro b c hb ho
    have := (hi.hch b c hb).bound ho
    omega
  rintro nn' s4 ⟨rfl, c1, ⟨m4, c2, c3, c4, c5, c6⟩, ⟨n4, d1, d2, d3, d4, d5, d6, d7⟩⟩
  refine Runs.bind (Runs.mono (makeLeaf_runs (N := s.heap.length) (Nat.le_trans h03.len c1.len)) ?_)
  rintro w2 s5 ⟨e1, e2, l2, lc2, n2', e3, e4, e5, e6, e7, e8, e9, e10, e11⟩
  obtain ⟨m5, hnn5, hm5⟩ := e1.like c2
  obtain ⟨n5, hx5, hn5⟩ := e1.like d1
  have hKl : K.length > p.length + r := by
    have := hq.length_le
    simp only [List.length_append, List.length_cons, List.length_nil, htl] at this
    omega
  have hby : K[p.length + r]? = some b1 := by
    have := prefix_byte hq
    rwa [List.length_append, htl] at this
  have hL5 : Layout m5 [(b0, x)] none := hm5.layout c4
  obtain ⟨l, r', hlr, hsrt⟩ := hL5.sorted.split_new b1 (by simpa using Ne.symm hne)
  rw [hlr] at hL5
  unfold addChildAt
  rw [if_pos hKl]
  refine Runs.bind (Runs.bind (Runs.lift (byteAt_eq hby) (Runs.mono (addChild_room4 hnn5 (hm5.kind.trans c3) hL5 (hsrt w2) (by rw [← hlr]; simp)) ?_)))
  rintro nn s6 ⟨rfl, m6, rfl, f1, f2, f3, f4, f5, f6, -⟩
  have hst6 : Stp s.heap.length (fun y => y = nn) s5 { s5 with heap := s5.heap.set nn (.inner m6) } := Stp.wrInner hnn5 rfl f5 fun _ => Or.inl f2
  have hnn6 : ({ s5 with heap := s5.heap.set nn (.inner m6) } : St V).heap[nn]? = some (.inner m6) := get_set_self (lt_of_get hnn5)
  have hgs : ∀ {y : Addr} {c : Cell V}, nn ≠ y → s5.heap[y]? = some c → ({ s5 with heap := s5.heap.set nn (.inner m6) } : St V).heap[y]? = some c := fun hy h => by
    show (s5.heap.set nn _)[_]? = _
    rw [get_set_ne hy]; exact h
  have hx6 := hgs hnx hx5
  have hw6 := hgs (y := w2) (by have := lt_of_get c2; omega) e4
  have hl6 := hgs (y := l2) (by have := lt_of_get c2; omega) e5
  generalize ({ s5 with heap := s5.heap.set nn (.inner m6) } : St V) = s6 at hst6 hnn6 hx6 hw6 hl6
  refine Runs.pure ?_
  have hnnl : s.heap.length ≤ nn := by omega
  have h36 : Stp s.heap.length (fun y => y = nn ∨ y = x) s3 s6 := (c1.then0 e1).trans hst6 fun _ _ h => Or.inl h
  have h06 : Stp s.heap.length (fun y => y = a) s s6 := (Stp0.then h03 h36).mono (Nat.le_refl _) (by
    rintro y hy (rfl | rfl)
    · omega
    · rcases hxa with h | h
      · exact h
      · omega)
  have hkids : ∀ b c, (b, c) ∈ es → Rep s6.heap (p ++ pfx ++ [b]) c (f b) (g b) := fun b c hb => (hi.hch b c hb).step h06 (by rintro y hy rfl; exact hi.notin hb hy)
  have hown6 : OwnLeaf s6.heap (p ++ pfx) n5.leaf vals := by
    rw [hn5.leaf, d6, b4'.leaf, hn2.leaf]
    refine hi.hown.frame fun y hy => ?_
    obtain ⟨e, he, rfl⟩ := List.mem_map.1 hy
    obtain ⟨lc, hlc, -⟩ := hi.rep.leaf_of e (List.mem_append_left _ he)
    exact h06.frame _ (lt_of_get hlc) (by rintro h; rw [h, hi.ha] at hlc; cases hlc)
  have hrx : Rep s6.heap (p ++ pfx.take r ++ [b0]) x (vals ++ es.flatMap fun e => f e.1) ((p ++ pfx.take r ++ [b0], x) :: es.flatMap fun e => g e.1) := by
    refine Rep.node (pfx := pfx.drop (r + 1)) (st := st) hx6 (hn5.layout (hi3.hL.congr d2 d3 d4 d5)) (hn5.filled (hi3.hne.congr d2)) (hn5.header d7) ?_ (by rw [hpP]; exact hown6) ?_ ?_ (by rw [hpP]; exact hkids)
    · rw [hpP]
      intro c hc
      have := hi.hst c hc
      exact h06.sok _ c this.bound this
    · rw [hn5.leaf, d6, b4'.leaf, hn2.leaf]
      exact hi.hnd
    · unfold Inner.Fork
      rw [hn5.leaf, d6, b4'.leaf, hn2.leaf]
      refine hi.htw.imp_right fun h => ⟨?_, h.2⟩
      have hlk := (b4'.trans hn2)
      exact ((h.1.of hlk.kind hlk.num hlk.children).of d2 d3 d5).of hn5.kind hn5.num hn5.children
  have hrw : Rep s6.heap (p ++ pfx.take r ++ [b1]) w2 [(lc2.key, lc2.value, l2)] [(p ++ pfx.take r ++ [b1], w2)] :=
    Rep.leaf hw6 e10 e9 (Or.inr ⟨e11.1, Or.inr e11.2⟩) e8 hl6 (by rw [e6]; exact hq) (by rw [e6]; exact hd)
  rw [e6, e7] at hrw
  have hrest : ∀ b' c', (b', c') ∈ l ++ r' → b' = b0 ∧ c' = x := fun b' c' h => by
    rw [← hlr] at h
    simpa using h
  have hlen3 : s.heap.length ≤ s4.heap.length := Nat.le_trans h03.len c1.len
  refine ⟨rfl, h06.mono (Nat.le_refl _) (by rintro y hy rfl; exact Occ.head), ⟨_, _, Rep.node (pfx := pfx.take r) (st := none)
    (f := setF (fun _ => vals ++ es.flatMap fun e => f e.1) b1 [(K, v, l2)])
    (g := setF (fun _ => (p ++ pfx.take r ++ [b0], x) :: es.flatMap fun e => g e.1) b1 [(p ++ pfx.take r ++ [b1], w2)]) (vals := [])
    hnn6 f1 ⟨by simp, .of4 (f6.trans (hm5.kind.trans c3))⟩ ((hm5.header c5).congr f4 f3) (fun c hc => nomatch hc) ?_ ?_ ?_ ?_, ?_⟩, Or.inr (Or.inl ⟨hEK, rfl, rfl⟩)⟩
  · rw [f2, hm5.leaf, c6]; exact OwnLeaf.none
  · rw [f2, hm5.leaf, c6]
    intro h
    exact absurd rfl h
  · refine Or.inr ⟨f1.tidy (by rw [f6, hm5.kind, c3]; exact Kind.noConfusion), Or.inr ?_⟩
    have h5 := congrArg List.length hlr
    simp only [List.length_append, List.length_cons, List.length_nil] at h5 ⊢
    omega
  · intro b' c' hb'
    rcases ((hsrt w2).mem_insert _).1 hb' with h | h
    · cases h
      rw [setF_self, setF_self]
      exact hrw
    · obtain ⟨rfl, rfl⟩ := hrest b' c' h
      rw [setF_ne hne, setF_ne hne]
      exact hrx
  · have htrk : Trk s s6 a := (b5'.of_stp h02 b1').then h36
    have ev1 : Evo K (some v) s s6 [] [(K, v, l2)] [(p, a)] ([(p ++ pfx.take r ++ [b1], w2)] ++ [(p, nn), (p ++ pfx.take r ++ [b0], x)]) :=
      (Evo.fresh (v := v) (x := l2) (N := [(p ++ pfx.take r ++ [b1], w2)]) (Nat.le_trans hlen3 e3) (fun q y hy => by cases List.mem_singleton.1 hy; exact Nat.le_trans hlen3 e2)).union
        (Evo.tops (p := p) (N' := [(p, nn), (p ++ pfx.take r ++ [b0], x)]) htrk (fun q y hy => by
          simp only [List.mem_cons, Prod.mk.injEq, List.not_mem_nil, or_false] at hy
          rcases hy with ⟨-, rfl⟩ | ⟨-, rfl⟩
          · exact Or.inr hnnl
          · exact hxa)) (by simp) (by simp) (by simp) (fun e => List.mem_append)
    refine ev1.union (Evo.frame (E := vals ++ es.flatMap fun e => f e.1) (N := es.flatMap fun e => g e.1) h06 hEK ?_) (by simp) ?_ (by simp) ?_
    · intro q y hy hq
      obtain ⟨⟨b, c⟩, hb, hy⟩ := List.mem_flatMap.1 hy
      have := (hi.hch b c hb).paths _ hy
      exact hPK q ((List.prefix_append _ _).trans this) hq
    · intro e
      rw [List.nil_append, mem_setF (hsrt w2), ← hlr]
      simp
    · intro e
      rw [List.mem_cons, mem_setF (hsrt w2), ← hlr]
      simp only [List.flatMap_cons, List.flatMap_nil, List.append_nil, List.mem_cons, List.mem_append, List.not_mem_nil, or_false]
      constructor
      · rintro (h | h | h | h)
        · exact Or.inl (Or.inr (Or.inl h))
        · exact Or.inl (Or.inl h)
        · exact Or.inl (Or.inr (Or.inr h))
        · exact Or.inr h
      · rintro ((h | h | h) | h)
        · exact Or.inr (Or.inl h)
        · exact Or.inl h
        · exact Or.inr (Or.inr (Or.inl h))
        · exact Or.inr (Or.inr (Or.inr h))

end Art
