import Verif.Proofs.RepInsert3
/-
`recursiveDelete` of a present key in a well-formed subtree.
-/
set_option autoImplicit false
set_option linter.unusedVariables false
set_option linter.unusedSimpArgs false
set_option linter.unusedSectionVars false
namespace Art
variable {V : Type} [Removals] {s s' s'' t t' : St V} {h h' : Heap V} {E E' A A' B B' : List (Ent V)} {N N' N1 N1' N2 N2' : List (Key × Addr)} {K p P pfx : Key} {o : Option V}
  {b : Byte} {a a' c c' : Addr} {l r es : Edges} {Z : Nat} {X : Addr → Prop} {v : V} {n m : Inner} {st : Option Addr} {vals : List (Ent V)}
  {f : Byte → List (Ent V)} {g : Byte → List (Key × Addr)}

/-- The outcome of deleting a present key from a subtree. -/
structure DelPost (s : St V) (p K : Key) (E : List (Ent V)) (N : List (Key × Addr)) (r : DelRes) (s' : St V) : Prop where
  stp : Stp s.heap.length (Occ E N) s s'
  leaf : ∃ l e lc, r.leaf = some l ∧ e ∈ E ∧ e.1 = K ∧ s'.heap[l]? = some (.leaf lc) ∧ lc.value = e.2.1
  rep : (r.node = none ∧ Evo K none s s' E [] N []) ∨ ∃ a' E' N', r.node = some a' ∧ Rep s'.heap p a' E' N' ∧ Evo K none s s' E E' N N'

theorem Evo.gone {x : Addr} {w : V} (h : Trk s s' x) : Evo K none s s' [(K, w, x)] [] [] [] where
  occ := fun z hz => by rcases hz with hz | hz <;> cases hz
  back := fun e' he' => nomatch he'
  fwd := fun e he hk => by rw [List.mem_singleton.1 he] at hk; exact absurd rfl hk
  new := fun v hv => nomatch hv
  wK := fun e he hk => by rw [List.mem_singleton.1 he]; exact h
  wN := fun q x hx => nomatch hx
  keep := fun q x hx => nomatch hx

/-- The node moves up, with its channel. -/
theorem Evo.move {q : Key} (hk : Keep s s' a a') (ha : a' = a ∨ s.heap.length ≤ a') (hq : ¬ q <+: K) (hp : p <+: q) :
    Evo K none s s' ([] : List (Ent V)) [] [(q, a)] [(p, a')] where
  occ := fun x hx => by
    rcases hx with hx | hx
    · simp only [List.map_cons, List.map_nil, List.mem_singleton] at hx
      subst hx
      exact ha.imp_left fun h => Or.inl (by simp [h])
    · cases hx
  back := fun e' he' => nomatch he'
  fwd := fun e he _ => nomatch he
  new := fun v hv => nomatch hv
  wK := fun e he hk => nomatch he
  wN := fun q x hx hq' => by cases List.mem_singleton.1 hx; exact absurd hq' hq
  keep := fun q x hx => by cases List.mem_singleton.1 hx; exact Or.inr ⟨p, a', List.mem_singleton.2 rfl, hp, hk⟩

theorem trackNone_runs {Q : Unit → St V → Prop} (hq : Q () s) : Runs (trackChannel none : M V Unit) s Q := by
  unfold trackChannel
  refine Runs.bind (Runs.txnSt ?_)
  split <;> exact Runs.pure hq

/-- Deleting the entry of a leaf. -/
theorem deleteLeaf_runs {y : Addr} {lc : LeafC V} (ha : s.heap[a]? = some (.inner n)) (hL : Layout n [] none) (hpart : n.part.length = 10)
    (hleaf : n.leaf = some y) (hl : s.heap[y]? = some (.leaf lc)) :
    Runs (deleteHit a y : M V DelRes) s (DelPost s p lc.key [(lc.key, lc.value, y)] [(p, a)]) := by
  unfold deleteHit
  have hlo : LeafOK s.heap n.leaf := fun z hz => by rw [hleaf] at hz; cases hz; exact ⟨_, hl⟩
  refine Runs.bind (Runs.mono (writeInner_like (Z := s.heap.length) (t := true) ha hpart hlo) ?_)
  rintro a1 s1 ⟨h1, h2, ⟨m, h3, h4⟩, h5, -⟩
  obtain ⟨h5, h6⟩ := h5 rfl
  obtain ⟨lc1, hl1, -, hv1⟩ := h1.likeL hl
  refine Runs.bind (setNodeLeaf_runs h3 ?_)
  have hst : Stp s.heap.length (fun x => x = a1) s1 { s1 with heap := s1.heap.set a1 (.inner { m with leaf := none }) } :=
    Stp.wrInner h3 rfl rfl fun _ => Or.inr (Or.inl rfl)
  refine Runs.bind (Runs.innerAt (get_set_self (lt_of_get h3)) ?_)
  have hn0 : m.numChildren = 0 := by
    have := hL.num
    rw [h4.num]
    exact UInt8.toNat_inj.1 (by simpa using this)
  rw [if_neg (by show ¬ m.numChildren > 0; rw [hn0]; decide)]
  refine Runs.pure ⟨?_, ⟨y, _, lc1, rfl, List.mem_singleton.2 rfl, rfl, ?_, hv1⟩, Or.inl ⟨rfl, ?_⟩⟩
  · refine Stp.mono (Stp0.then h1 hst) (Nat.le_refl _) ?_
    rintro x hx rfl
    rcases h2 with rfl | h2
    · exact Or.inl (by simp)
    · omega
  · show (s1.heap.set a1 _)[y]? = _
    rw [get_set_ne (by rintro rfl; rw [h3] at hl1; cases hl1)]
    exact hl1
  · exact (Evo.gone (w := lc.value) ((h6 y hleaf).then hst)).union (Evo.tops (p := p) (N' := []) (h5.then hst) fun _ _ h => nomatch h) (by simp) (by simp) (by simp) (by simp)

/-- Deleting the own entry of an inner node. -/
theorem deleteOwn_runs [CanRemove] {y : Addr} {lc : LeafC V} (hi : IsNode s.heap p a n pfx es st vals f g)
    (hleaf : n.leaf = some y) (hl : s.heap[y]? = some (.leaf lc)) :
    Runs (deleteHit a y : M V DelRes) s (DelPost s p lc.key (vals ++ es.flatMap fun e => f e.1) ((p, a) :: es.flatMap fun e => g e.1)) := by
  obtain ⟨hvals, hkey⟩ : vals = [(lc.key, lc.value, y)] ∧ lc.key = p ++ pfx ++ [dollar] := by
    rcases hi.hown.inv with ⟨ho, -⟩ | ⟨z, lc', ho, rfl, hz, hk⟩
    · rw [hleaf] at ho; cases ho
    · rw [hleaf] at ho; cases ho
      rw [hl] at hz; cases hz
      exact ⟨rfl, hk⟩
  have hlne : n.leaf ≠ none := by rw [hleaf]; simp
  unfold deleteHit
  refine Runs.bind (Runs.mono (writeInner_like (Z := s.heap.length) (t := true) hi.ha hi.hh.part hi.leafOK) ?_)
  rintro a1 s1 ⟨h1, h2, ⟨m, h3, h4⟩, h5, -⟩
  obtain ⟨h5, h6⟩ := h5 rfl
  obtain ⟨lc1, hl1, -, hv1⟩ := h1.likeL hl
  refine Runs.bind (setNodeLeaf_runs h3 ?_)
  have hst1 : Stp s.heap.length (fun x => x = a1) s1 { s1 with heap := s1.heap.set a1 (.inner { m with leaf := none }) } :=
    Stp.wrInner h3 rfl rfl fun _ => Or.inr (Or.inl rfl)
  refine Runs.bind (Runs.innerAt (get_set_self (lt_of_get h3)) ?_)
  have hn0 : m.numChildren > 0 := by
    have h7 := hi.hL.num
    rw [h4.num]
    have h8 : 0 < es.length := List.length_pos_iff.2 hi.hne
    exact UInt8.lt_iff_toNat_lt.2 (by rw [h7]; simpa using h8)
  simp only [hn0, if_true]
  have hmL : Layout ({ m with leaf := none } : Inner) es st := (h4.layout hi.hL).congr rfl rfl rfl rfl
  have hmH : Header ({ m with leaf := none } : Inner) pfx := (h4.header hi.hh).congr rfl rfl
  have hml : ({ m with leaf := none } : Inner).leaf = none := rfl
  have hmk : ({ m with leaf := none } : Inner).kind = n.kind := h4.kind
  have hg : (s1.heap.set a1 (.inner { m with leaf := none }))[a1]? = some (.inner { m with leaf := none }) := get_set_self (lt_of_get h3)
  have hgl : (s1.heap.set a1 (.inner { m with leaf := none }))[y]? = some (.leaf lc1) := by
    rw [get_set_ne (by rintro rfl; rw [h3] at hl1; cases hl1)]
    exact hl1
  generalize ({ m with leaf := none } : Inner) = m1 at hmL hmH hml hmk hst1 hg hgl
  generalize ht2 : ({ s1 with heap := s1.heap.set a1 (.inner m1) } : St V) = t2 at hst1
  have hg2 : t2.heap[a1]? = some (.inner m1) := by subst ht2; exact hg
  have hgl2 : t2.heap[y]? = some (.leaf lc1) := by subst ht2; exact hgl
  clear ht2 hg hgl
  have hst : Stp s.heap.length (fun x => x = a) s t2 := (Stp0.then h1 hst1).mono (Nat.le_refl _) (by
    rintro x hx rfl
    rcases h2 with rfl | h
    · rfl
    · omega)
  obtain ⟨hk1, hk2⟩ := hi.kids_ne hlne hkey
  refine Runs.pure ⟨hst.mono (Nat.le_refl _) fun x _ hx => hx ▸ Occ.head, ⟨y, _, lc1, rfl, List.mem_append_left _ (hvals ▸ List.mem_singleton.2 rfl), rfl, hgl2, hv1⟩,
    Or.inr ⟨a1, _, _, rfl, Rep.node (pfx := pfx) (st := st) (f := f) (g := g) (vals := []) hg2 hmL (hi.hne.congr hmk) hmH ?_ (by rw [hml]; exact OwnLeaf.none) (fun h0 => absurd hml h0) (Or.inl CanRemove.ok) ?_, ?_⟩⟩
  · intro x hx
    have := hi.hst x hx
    exact hst.sok _ x this.bound this
  · intro b c hb
    exact (hi.hch b c hb).step hst fun x hx h => hi.notin hb (h ▸ hx)
  · have e1 := (Evo.gone (K := lc.key) (w := lc.value) ((h6 y hleaf).then hst1)).union (E := vals) (E' := []) (N := [(p, a)]) (N' := [(p, a1)])
      (Evo.top (p := p) (a' := a1) (h5.then hst1) h2) (by rw [hvals]; simp) (by simp) (by simp) (by simp)
    exact e1.union (Evo.frame hst hk1 hk2) (fun e => List.mem_append) (fun e => List.mem_append) (fun e => List.mem_append (s := [(p, a)])) (fun e => List.mem_append (s := [(p, a1)]))

theorem Rep.alive (hr : Rep h p a E N) : ∃ n, h[a]? = some (.inner n) ∧ ¬ (n.numChildren = 0 ∧ n.leaf = none) := by
  cases hr with
  | leaf ha hL hpart hw hleaf hl hp hd => exact ⟨_, ha, fun h => by rw [hleaf] at h; exact nomatch h.2⟩
  | node ha hL hne hh hst hown hnd htw hch =>
    refine ⟨_, ha, fun h => ?_⟩
    have h1 := hL.num
    rw [h.1] at h1
    exact hne.ne (List.length_eq_zero_iff.1 h1.symm)

theorem deleteFinish_alive {R : DelRes} (hr : Rep s.heap p a E N) {Q : DelRes → St V → Prop} (hq : Q { node := some a, leaf := R.leaf, mutate := R.mutate } s) :
    Runs (deleteFinish a R : M V DelRes) s Q := by
  obtain ⟨n, h1, h2⟩ := hr.alive
  unfold deleteFinish
  refine Runs.bind (Runs.cell h1 ?_)
  rw [if_neg (show ¬ ((Cell.inner n : Cell V).numChildren = 0 ∧ (Cell.inner n : Cell V).nodeLeaf = none) from h2)]
  exact Runs.pure hq

theorem Rep.kidOK (hr : Rep h p c E N) (hne : c ≠ a) : KidOK h a c := by
  refine ⟨hne, ?_⟩
  cases hr with
  | leaf ha hL hpart hw hleaf hl hp hd => exact ⟨_, ha, hpart, fun y hy => by rw [hleaf] at hy; cases hy; exact ⟨_, hl⟩⟩
  | node ha hL hne hh hst hown hnd htw hch => exact ⟨_, ha, hh.part, IsNode.leafOK ⟨ha, hL, hne, hh, hst, hown, hnd, htw, hch⟩⟩

/-- A child takes the place of its parent. -/
theorem Rep.moved [CanRemove] {c1 : Addr} {b1 : Byte} {m m' : Inner} (hr : Rep s.heap (p ++ pfx ++ [b1]) c1 E N) (hm : s.heap[c1]? = some (.inner m))
    (hm' : s'.heap[a']? = some (.inner m')) (hk : m'.kind = m.kind) (hn : m'.numChildren = m.numChildren) (hke : m'.keys = m.keys) (hc : m'.children = m.children)
    (hlf : m'.leaf = m.leaf) (hp : m'.part.length = 10) (hh' : ∀ pfx1, Header m pfx1 → Header m' (pfx ++ [b1] ++ pfx1))
    (hs : Stp s.heap.length X s s') (hX : ∀ x, Occ E N x → x ≠ c1 → ¬ X x) :
    ∃ N0, N = (p ++ pfx ++ [b1], c1) :: N0 ∧ Rep s'.heap p a' E ((p, a') :: N0) := by
  cases hr with
  | @leaf _ _ n y lc ha hL hpart hw hleaf hl hp' hd =>
    rw [hm] at ha; cases ha
    have hyc : y ≠ c1 := by rintro rfl; rw [hm] at hl; cases hl
    obtain ⟨lc', h1, h2, h3⟩ := (hs.frame y (lt_of_get hl) (hX y (Or.inr (by simp)) hyc)).likeL hl
    refine ⟨[], rfl, ?_⟩
    rw [← h2, ← h3]
    exact Rep.leaf hm' (hL.congr hk hn hke hc) hp (Or.inl CanRemove.ok) (by rw [hlf]; exact hleaf) h1 (by rw [h2, List.append_assoc] at *; exact (List.prefix_append _ _).trans hp') (by rw [h2]; exact hd)
  | @node _ _ n pfx1 es st vals f g ha hL hne hh hst hown hnd htw hch =>
    rw [hm] at ha; cases ha
    have hi : IsNode s.heap (p ++ pfx ++ [b1]) c1 m pfx1 es st vals f g := ⟨hm, hL, hne, hh, hst, hown, hnd, htw, hch⟩
    have hP : p ++ pfx ++ [b1] ++ pfx1 = p ++ (pfx ++ [b1] ++ pfx1) := by simp
    refine ⟨_, rfl, ?_⟩
    refine Rep.node (pfx := pfx ++ [b1] ++ pfx1) (st := st) hm' (hL.congr hk hn hke hc) (hne.congr hk) (hh' _ hh) ?_ ?_ ?_ ?_ ?_
    · rw [← hP]
      intro x hx
      have := hst x hx
      exact hs.sok _ x this.bound this
    · rw [← hP, hlf]
      refine hown.frame fun x hx => ?_
      obtain ⟨e, he, rfl⟩ := List.mem_map.1 hx
      obtain ⟨lc, hlc, -⟩ := hi.rep.leaf_of e (List.mem_append_left _ he)
      exact hs.frame _ (lt_of_get hlc) (hX _ (Occ.val he) (by intro h; rw [h, hm] at hlc; cases hlc))
    · rw [hlf]; exact hnd
    · exact Or.inl CanRemove.ok
    · intro b c hb
      rw [← hP]
      exact (hch b c hb).step hs fun x hx => hX x (Occ.kid hb hx) fun h => hi.notin hb (h ▸ hx)

/-- The rest of a deletion after the recursive call. -/
structure DelMid (s t : St V) (p K : Key) (E : List (Ent V)) (N : List (Key × Addr)) (R R' : DelRes) (t' : St V) : Prop where
  leaf : R'.leaf = R.leaf
  stp : Stp s.heap.length (Occ E N) s t'
  mid : Stp 0 (fun x => ∃ n, t.heap[x]? = some (.inner n)) t t'
  rep : (R'.node = none ∧ Evo K none s t' E [] N []) ∨ ∃ a' E' N', R'.node = some a' ∧ Rep t'.heap p a' E' N' ∧ Evo K none s t' E E' N N'

theorem removeKid_runs [CanRemove] {i : Nat} {R : DelRes} (hi : IsNode s.heap p a n pfx (l ++ (b, c) :: r) st vals f g)
    (h1 : Stp s.heap.length (Occ (f b) (g b)) s t)
    (hslot : AtSlot n l b i) (hevo : Evo K none s t (f b) [] (g b) []) (hK : p ++ pfx ++ [b] <+: K) (hvK : ∀ e ∈ vals, e.1 ≠ K) :
    Runs (do trackChannel (some a); let node ← writeNode a false; setChildAt node i none; let node ← removeChild node b; deleteFinish node R : M V DelRes) t
      (DelMid s t p K (vals ++ (l ++ (b, c) :: r).flatMap fun e => f e.1) ((p, a) :: (l ++ (b, c) :: r).flatMap fun e => g e.1) R) := by
  have hbc : (b, c) ∈ l ++ (b, c) :: r := by simp
  have hsrt := hi.hL.sorted
  obtain ⟨n1, hn1, hl1⟩ := (h1.frame a (lt_of_get hi.ha) (hi.notin hbc)).like hi.ha
  have hvn : ∀ x ∈ vals.map (·.2.2), ¬ Occ (f b) (g b) x := fun x hx =>
    Rep.own_notin hi.hown (hi.hch b c hbc) (fun h2 h3 => hi.hnd h2 (List.mem_map.2 ⟨_, hbc, h3⟩)) hx
  have hlt : LeafOK t.heap n1.leaf := by
    rw [hl1.leaf]
    intro y hy
    rcases hi.hown.inv with ⟨ho, -⟩ | ⟨l', lc, ho, rfl, hl', -⟩
    · rw [ho] at hy; cases hy
    · rw [ho] at hy; cases hy
      obtain ⟨lc', h2, -⟩ := (h1.frame y (lt_of_get hl') (hvn y (by simp))).likeL hl'
      exact ⟨_, h2⟩
  refine trackWrite_runs (Z := t.heap.length) hn1 (by rw [hl1.part]; exact hi.hh.part) hlt ?_
  intro a2 t1 m e1 e2 e3 e4 e5
  have hmn : Like m n := ⟨e4.kind.trans hl1.kind, e4.num.trans hl1.num, e4.keys.trans hl1.keys, e4.children.trans hl1.children, e4.part.trans hl1.part, e4.plen.trans hl1.plen, e4.leaf.trans hl1.leaf⟩
  have hLm : Layout m (l ++ (b, c) :: r) st := hmn.layout hi.hL
  have hslot' : AtSlot m l b i := by
    unfold AtSlot at hslot ⊢
    rw [hmn.kind, hmn.keys]
    exact hslot
  have hilt := (hLm.setChild hslot' c).1
  refine Runs.bind (setChildAt_runs e3 hilt ?_)
  have hwr : Stp t.heap.length (fun x => x = a2) t1 { t1 with heap := t1.heap.set a2 (.inner { m with children := m.children.set i none }) } :=
    Stp.wrInner e3 rfl rfl fun _ => Or.inl rfl
  have haa : a2 = a ∨ s.heap.length ≤ a2 := e2.imp_right fun h => Nat.le_trans h1.len h
  generalize ht2 : ({ t1 with heap := t1.heap.set a2 (.inner { m with children := m.children.set i none }) } : St V) = t2 at hwr
  have hg2 : t2.heap[a2]? = some (.inner { m with children := m.children.set i none }) := by subst ht2; exact get_set_self (lt_of_get e3)
  have hst3 : Stp t.heap.length (fun x => x = a2) t t2 := Stp0.then e1 hwr
  have hlm2 : LeafOK t2.heap m.leaf := by
    rw [e4.leaf]
    refine hlt.stp hst3 ?_
    rintro x lc hx rfl
    rcases e2 with rfl | h
    · rw [hn1] at hx; cases hx
    · have := lt_of_get hx; omega
  clear ht2
  have hst2 : Stp s.heap.length (fun x => x = a2) t t2 := hst3.mono h1.len fun _ _ h => h
  have hst : Stp s.heap.length (fun x => x = a ∨ Occ (f b) (g b) x) s t2 :=
    (h1.mono (Nat.le_refl _) fun _ _ h => Or.inr h).trans hst2 (by
      rintro x hx rfl
      rcases haa with rfl | h
      · exact Or.inl rfl
      · omega)
  have hownt : OwnLeaf t2.heap (p ++ pfx) n.leaf vals := hi.hown.frame fun x hx => hst.frame x (by
      obtain ⟨e, he, rfl⟩ := List.mem_map.1 hx
      exact hi.rep.bound (Occ.val he)) (by
    rintro (rfl | h)
    · obtain ⟨e, he, rfl⟩ := List.mem_map.1 hx
      obtain ⟨lc, hlc, -⟩ := hi.rep.leaf_of e (List.mem_append_left _ he)
      rw [hi.ha] at hlc; cases hlc
    · exact hvn x hx h)
  have htrk : Trk s t2 a := (e5.of_stp h1 (e1.mono h1.len fun _ _ h => h)).then hwr
  have hch2 : ∀ b' c', (b', c') ∈ l ++ r → Rep t2.heap (p ++ pfx ++ [b']) c' (f b') (g b') := fun b' c' hb' => by
    obtain ⟨hbb, hb0⟩ := (hsrt.mem_remove _).1 hb'
    refine (hi.hch b' c' hb0).step hst ?_
    rintro x hx (rfl | h)
    · exact hi.notin hb0 hx
    · exact Rep.disjoint (hi.hch b' c' hb0) (hi.hch b c hbc) hbb hx h
  have hna : ∀ b' c', (b', c') ∈ l ++ r → ∀ x, Occ (f b') (g b') x → x ≠ a2 := fun b' c' hb' x hx hxa => by
    have hb0 := ((hsrt.mem_remove _).1 hb').2
    rcases haa with rfl | h
    · exact hi.notin hb0 (hxa ▸ hx)
    · have := (hi.hch b' c' hb0).bound hx
      omega
  have hv : ∀ x, some x ∈ m.children → x < t2.heap.length := fun x hx => by
    refine Nat.lt_of_lt_of_le ?_ hst.len
    rw [hmn.children] at hx
    rcases hi.hL.slots hx with ⟨b', hb'⟩ | h
    · exact (hi.hch b' x hb').bound (hi.hch b' x hb').occ
    · exact (hi.hst x h).bound
  refine Runs.bind (Runs.mono (removeChild_runs (N := t2.heap.length) (Nat.le_refl _) hg2 (hmn.header hi.hh) hlm2 hLm (hmn.filled hi.hne).dense hslot' hv
    fun b' c' hb' => (hch2 b' c' hb').kidOK (hna b' c' hb' c' (hch2 b' c' hb').occ)) ?_)
  intro a3 t3 hpost
  have hsplE : ∀ e, e ∈ vals ++ (l ++ (b, c) :: r).flatMap (fun e => f e.1) ↔ e ∈ vals ∨ e ∈ f b ∨ e ∈ (l ++ r).flatMap fun e => f e.1 := fun e => by
    rw [List.mem_append, mem_split (f := f)]
  have hsplN : ∀ e, e ∈ (p, a) :: (l ++ (b, c) :: r).flatMap (fun e => g e.1) ↔ e = (p, a) ∨ e ∈ g b ∨ e ∈ (l ++ r).flatMap fun e => g e.1 := fun e => by
    rw [List.mem_cons, mem_split (f := g)]
  have hinn : ∃ n, t2.heap[a2]? = some (.inner n) := ⟨_, hg2⟩
  rcases hpost with ⟨g1, g2, n', st', g3, g4, gD, g5, g6, g7⟩ | ⟨b1, c1, hlr, g1, g2, g3, ⟨m0, part, pl, j, q, g4, g5, g6, g7⟩, g8⟩
  · -- the node stays
    rw [hmn.leaf] at g7
    have g1' : Stp s.heap.length (fun x => x = a2) t2 t3 := g1.mono hst.len fun _ _ h => h
    have hfull : Stp s.heap.length (fun x => x = a ∨ Occ (f b) (g b) x) s t3 := hst.trans g1' (by
      rintro x hx rfl
      rcases haa with rfl | h
      · exact Or.inl rfl
      · omega)
    have hocc : Stp s.heap.length (Occ (vals ++ (l ++ (b, c) :: r).flatMap fun e => f e.1) ((p, a) :: (l ++ (b, c) :: r).flatMap fun e => g e.1)) s t3 :=
      hfull.mono (Nat.le_refl _) (by
        rintro x hx (rfl | h)
        · exact Occ.head
        · exact Occ.kid hbc h)
    have hmid : Stp 0 (fun x => ∃ n, t.heap[x]? = some (.inner n)) t t3 := (hst3.trans (g1.mono hst3.len fun _ _ h => h) fun _ _ h => h).mono (Nat.zero_le _) (by
      rintro x hx rfl
      rcases e2 with rfl | h
      · exact ⟨_, hn1⟩
      · omega)
    obtain ⟨vals', hown', hev⟩ := Evo.own (K := K) hownt g7 g1' hvK
    have hev' : Evo K none s t3 vals vals' [] [] := Evo.of_stp (X := fun _ => True) (M := 0) (hst.mono (Nat.zero_le _) fun _ _ _ => trivial) hev (g1.mono (Nat.zero_le _) fun _ _ _ => trivial)
    have ha3 : a3 = a ∨ s.heap.length ≤ a3 := by
      rcases g2 with rfl | g2
      · exact haa
      · exact Or.inr (Nat.le_trans hst.len g2)
    have hch3 : ∀ b' c', (b', c') ∈ l ++ r → Rep t3.heap (p ++ pfx ++ [b']) c' (f b') (g b') := fun b' c' hb' =>
      (hch2 b' c' hb').step (g1.mono (Nat.le_refl _) fun _ _ h => h) fun x hx => hna b' c' hb' x hx
    have htrk3 := htrk.then g1
    by_cases hnil : l ++ r = []
    · obtain ⟨rfl, rfl⟩ := List.append_eq_nil_iff.1 hnil
      have hst' : st' = none := by rcases g5 with h | h <;> rw [h]; rfl
      have hn0 : n'.numChildren = 0 := by
        have := g4.num
        exact UInt8.toNat_inj.1 (by simpa using this)
      cases hlf : n'.leaf with
      | none =>
        have hv0 : vals = [] := by
          rcases g7 with ⟨h2, -⟩ | ⟨y, y', lc, lc', h2, h3, -⟩
          · rcases hownt.inv with ⟨-, h⟩ | ⟨_, _, h, -⟩
            · exact h
            · rw [h2] at h; cases h
          · rw [hlf] at h3; cases h3
        unfold deleteFinish
        refine Runs.bind (Runs.cell g3 ?_)
        rw [if_pos (show (Cell.inner n' : Cell V).numChildren = 0 ∧ (Cell.inner n' : Cell V).nodeLeaf = none from ⟨hn0, hlf⟩)]
        refine Runs.pure ⟨rfl, hocc, hmid, Or.inl ⟨rfl, ?_⟩⟩
        refine ((hevo.then hst2).then g1').union (Evo.tops (p := p) (N' := []) htrk3 fun _ _ h => nomatch h) (fun e => ?_) (by simp) (fun e => ?_) (by simp)
        · rw [hsplE, hv0]; simp
        · rw [hsplN]; simp [or_comm]
      | some y =>
        rw [hlf] at hown'
        obtain ⟨lc, hvv, hly, hlk⟩ : ∃ lc : LeafC V, vals' = [(lc.key, lc.value, y)] ∧ t3.heap[y]? = some (.leaf lc) ∧ lc.key = p ++ pfx ++ [dollar] := by
          rcases hown'.inv with ⟨h, -⟩ | ⟨y', lc, h, h2, h3, h4⟩
          · cases h
          · cases h; exact ⟨lc, h2, h3, h4⟩
        subst hst'
        have hrep : Rep t3.heap p a3 vals' [(p, a3)] := by
          rw [hvv]
          exact Rep.leaf g3 g4 g6.part (Or.inl CanRemove.ok) hlf hly (by rw [hlk, List.append_assoc]; exact List.prefix_append _ _) ⟨_, hlk⟩
        refine deleteFinish_alive hrep ⟨rfl, hocc, hmid, Or.inr ⟨a3, _, _, rfl, hrep, ?_⟩⟩
        refine Evo.node (p := p) (P := p ++ pfx) (a := a) (a' := a3) (h := s.heap) (f := f) (g := g) (vals := vals) (vals' := vals') hsrt (fun b1 c1 h => hi.hch b1 c1 ((hsrt.mem_remove _).1 h).2) hK hfull
          hev' htrk3 ha3 ((hevo.then hst2).then g1') hsplE hsplN ?_ ?_
        · intro e; simp
        · intro e; simp
    · have hrep : Rep t3.heap p a3 (vals' ++ (l ++ r).flatMap fun e => f e.1) ((p, a3) :: (l ++ r).flatMap fun e => g e.1) := by
        refine Rep.node (pfx := pfx) (st := st') g3 g4 ⟨hnil, gD⟩ g6 ?_ hown' ?_ (Or.inl CanRemove.ok) hch3
        · intro x hx
          rcases g5 with h | h
          · rw [h] at hx; cases hx
          · rw [h] at hx
            obtain ⟨b', hb'⟩ := lastAddr_mem hx
            have hb2 : (b', x) ∈ l ++ r := List.mem_append_right _ hb'
            exact (hch3 b' x hb2).sok.mono fun k hk => ⟨b', List.mem_map.2 ⟨_, hb2, rfl⟩, hk⟩
        · intro h0 hd
          obtain ⟨⟨b', c'⟩, hb', hd⟩ := List.mem_map.1 hd
          refine hi.hnd ?_ (List.mem_map.2 ⟨_, ((hsrt.mem_remove _).1 hb').2, hd⟩)
          intro h00
          rcases g7 with ⟨-, h2⟩ | ⟨y, y', lc, lc', h2, -⟩
          · exact h0 h2
          · rw [h00] at h2; cases h2
      refine deleteFinish_alive hrep ⟨rfl, hocc, hmid, Or.inr ⟨a3, _, _, rfl, hrep, ?_⟩⟩
      refine Evo.node (p := p) (P := p ++ pfx) (a := a) (a' := a3) (h := s.heap) (f := f) (g := g) (vals := vals) (vals' := vals') hsrt (fun b1 c1 h => hi.hch b1 c1 ((hsrt.mem_remove _).1 h).2) hK hfull
        hev' htrk3 ha3 ((hevo.then hst2).then g1') hsplE hsplN ?_ ?_
      · intro e; simp
      · intro e; simp
  · -- the only other child takes its place
    have hb1 : (b1, c1) ∈ l ++ r := by rw [hlr]; simp
    have hb10 := (hsrt.mem_remove _).1 hb1
    have hv0 : vals = [] := by
      rcases hownt.inv with ⟨-, h⟩ | ⟨_, _, h, -⟩
      · exact h
      · rw [← hmn.leaf, g1] at h; cases h
    have hc1 : c1 < s.heap.length := (hi.hch b1 c1 hb10.2).bound (hi.hch b1 c1 hb10.2).occ
    have g2' : Stp s.heap.length (fun x => x = a2 ∨ x = c1) t2 t3 := g2.mono hst.len fun _ _ h => h
    have hocc : Stp s.heap.length (Occ (vals ++ (l ++ (b, c) :: r).flatMap fun e => f e.1) ((p, a) :: (l ++ (b, c) :: r).flatMap fun e => g e.1)) s t3 :=
      (hst.mono (Y := Occ (vals ++ (l ++ (b, c) :: r).flatMap fun e => f e.1) ((p, a) :: (l ++ (b, c) :: r).flatMap fun e => g e.1)) (Nat.le_refl _) (by
        rintro x hx (rfl | h)
        · exact Occ.head
        · exact Occ.kid hbc h)).trans g2' (by
          rintro x hx (rfl | rfl)
          · rcases haa with rfl | h
            · exact Occ.head
            · omega
          · exact Occ.kid hb10.2 (hi.hch b1 x hb10.2).occ)
    have hmid : Stp 0 (fun x => ∃ n, t.heap[x]? = some (.inner n)) t t3 :=
      (hst3.mono (N' := 0) (Y := fun x => ∃ n, t.heap[x]? = some (.inner n)) (Nat.zero_le _) (by
        rintro x hx rfl
        rcases e2 with rfl | h
        · exact ⟨_, hn1⟩
        · omega)).trans (g2.mono (Nat.zero_le _) fun _ _ h => h) (by
          rintro x hx (rfl | rfl)
          · rcases e2 with rfl | h
            · exact ⟨_, hn1⟩
            · omega
          · obtain ⟨m1, hm1⟩ := (hi.hch b1 x hb10.2).inner
            have hd : ¬ Occ (f b) (g b) x := fun h => Rep.disjoint (hi.hch b1 x hb10.2) (hi.hch b c hbc) hb10.1 (hi.hch b1 x hb10.2).occ h
            obtain ⟨m2, hm2, -⟩ := (h1.frame x hc1 hd).like hm1
            exact ⟨_, hm2⟩)
    obtain ⟨N0, hN0, hrep⟩ := (hch2 b1 c1 hb1).moved g4 g5 rfl rfl rfl rfl rfl g6 g7 (g2.mono (Nat.le_refl _) fun _ _ h => h) (fun x hx hxc hx2 => by
      rcases hx2 with h | h
      · exact hna b1 c1 hb1 x hx h
      · exact hxc h)
    refine deleteFinish_alive hrep ⟨rfl, hocc, hmid, Or.inr ⟨a3, _, _, rfl, hrep, ?_⟩⟩
    obtain ⟨hr1, hr2⟩ := rest_keys (f := f) (g := g) hsrt (fun b1 c1 h => hi.hch b1 c1 ((hsrt.mem_remove _).1 h).2) hK
    rw [hlr] at hr1 hr2
    simp only [List.flatMap_cons, List.flatMap_nil, List.append_nil] at hr1 hr2
    have hkeep : Keep s t3 c1 a3 := (Stp.keep (M := 0) (X := fun _ => True) (hst.mono (Nat.zero_le _) fun _ _ _ => trivial) c1).trans (M := 0) (X := fun _ => True)
      (hst.mono (Nat.zero_le _) fun _ _ _ => trivial) (g2.mono (Nat.zero_le _) fun _ _ _ => trivial) fun _ k hk => (g8 k hk).symm
    have hq1 : ¬ p ++ pfx ++ [b1] <+: K := hr2 _ c1 (by rw [hN0]; simp)
    have x1 := ((hevo.then hst2).then g2').union (E := f b) (E' := []) (N := (p, a) :: g b) (N' := []) (Evo.tops (p := p) (N' := []) (htrk.then g2) fun _ _ h => nomatch h)
      (fun e => by simp) (fun e => by simp) (fun e => by simp [or_comm]) (fun e => by simp)
    have x2 := x1.union (E := f b) (E' := []) (N := (p ++ pfx ++ [b1], c1) :: (p, a) :: g b) (N' := [(p, a3)])
      (Evo.move hkeep (g3.imp_right fun h => Nat.le_trans hst.len h) hq1 (by rw [List.append_assoc]; exact List.prefix_append _ _))
      (fun e => by simp) (fun e => by simp) (fun e => by simp only [List.mem_cons, List.not_mem_nil, or_false]; exact or_comm) (fun e => by simp)
    refine x2.union (Evo.frame (E := f b1) (N := N0) hocc hr1 fun q x hx => hr2 q x (by rw [hN0]; exact List.mem_cons_of_mem _ hx)) (fun e => ?_) (fun e => ?_) (fun e => ?_) (fun e => ?_)
    · rw [hsplE, hv0, hlr]; simp
    · simp
    · rw [hsplN, hlr]
      simp only [List.flatMap_cons, List.flatMap_nil, List.append_nil, hN0, List.mem_cons]
      rw [or_assoc, or_assoc]
      constructor
      · rintro (h | h | h | h)
        · exact Or.inr (Or.inl h)
        · exact Or.inr (Or.inr (Or.inl h))
        · exact Or.inl h
        · exact Or.inr (Or.inr (Or.inr h))
      · rintro (h | h | h | h)
        · exact Or.inr (Or.inr (Or.inl h))
        · exact Or.inl h
        · exact Or.inr (Or.inl h)
        · exact Or.inr (Or.inr (Or.inr h))
    · simp

theorem Rep.delete [CanRemove] (hr : Rep s.heap p a E N) : ∀ fuel, (∃ e ∈ E, e.1 = K) → K.length < fuel + p.length →
    Runs (recursiveDelete fuel a K p.length : M V DelRes) s (DelPost s p K E N) := by
  induction hr with
  | @leaf p a n y lc ha hL hpart hw hleaf hl hp hd =>
    rintro fuel ⟨e, he, hek⟩ hf
    rw [List.mem_singleton.1 he] at hek
    simp only at hek
    subst hek
    have hle := hp.length_le
    obtain ⟨fuel, rfl⟩ : ∃ k, fuel = k + 1 := ⟨fuel - 1, by omega⟩
    have hil : n.isLeaf = true := hL.isLeaf_iff.2 ⟨rfl, by rw [hleaf]; simp⟩
    unfold recursiveDelete
    refine Runs.bind (Runs.cell ha ?_)
    simp only [Cell.isLeaf, hil, if_true, true_and, Cell.key]
    refine Runs.bind (Runs.mono (trackChannel_runs (N := s.heap.length) (o := some a) fun x hx => by cases hx; exact lt_of_get ha) ?_)
    rintro _ s1 ⟨h1, hlen, h2⟩
    have hne : ¬ (leafMatches [] lc.key = true) := fun h => by
      obtain ⟨k, hk⟩ := hd
      have := leafMatches_iff.1 h
      rw [hk] at this
      simp at this
    rw [if_neg hne]
    obtain ⟨n1, h3, h4⟩ := h1.like ha
    obtain ⟨lc1, h5, h6, h7⟩ := h1.likeL hl
    refine Runs.bind (leafHit_some h5 hleaf h6 ?_)
    simp only
    refine Runs.mono (deleteLeaf_runs (p := p) h3 (h4.layout hL) (by rw [h4.part]; exact hpart) (by rw [h4.leaf]; exact hleaf) h5) ?_
    rintro R s2 ⟨g1, ⟨z, e, lc2, g2, g3, g4, g5, g6⟩, g7⟩
    rw [hlen] at g1
    rw [h6, h7] at g7 g3
    rw [h6] at g4
    refine ⟨?_, ⟨z, e, lc2, g2, g3, g4, g5, g6⟩, ?_⟩
    · have := Stp0.then h1 g1
      rwa [h6, h7] at this
    · rcases g7 with ⟨g7, g8⟩ | ⟨a', E', N', g7, g8, g9⟩
      · exact Or.inl ⟨g7, Evo.of_stp (M := 0) (X := fun _ => True) (h1.mono (Nat.zero_le _) fun _ _ _ => trivial) g8 (g1.mono (Nat.zero_le _) fun _ _ _ => trivial)⟩
      · exact Or.inr ⟨a', E', N', g7, g8, Evo.of_stp (M := 0) (X := fun _ => True) (h1.mono (Nat.zero_le _) fun _ _ _ => trivial) g9 (g1.mono (Nat.zero_le _) fun _ _ _ => trivial)⟩
  | @node p a n pfx es st vals f g ha hL hne hh hst hown hnd htw hch ih =>
    rintro fuel ⟨e, he, hek⟩ hf
    have hi : IsNode s.heap p a n pfx es st vals f g := ⟨ha, hL, hne, hh, hst, hown, hnd, htw, hch⟩
    have hle := (hi.rep.prefix e he).length_le
    rw [hek] at hle
    obtain ⟨fuel, rfl⟩ : ∃ k, fuel = k + 1 := ⟨fuel - 1, by omega⟩
    unfold recursiveDelete
    refine Runs.bind (Runs.cell ha ?_)
    simp only [Cell.isLeaf, hL.not_leaf hne, Bool.false_eq_true, if_false, false_and]
    refine Runs.bind (trackNone_runs ?_)
    rcases node_keys hown hch he with ⟨hk, hv⟩ | ⟨b, c, hb, hf', hpre⟩
    · -- the own leaf
      rcases hown.inv with ⟨-, rfl⟩ | ⟨y, lc, hy, rfl, hl, hlk⟩
      · cases hv
      · rw [List.mem_singleton.1 hv] at hek
        refine Runs.bind (leafHit_some hl hy hek ?_)
        simp only at hek
        subst hek
        exact deleteOwn_runs hi hy hl
    · rw [hek] at hpre
      have hvK : ∀ e ∈ vals, e.1 ≠ K := fun e' he' hk' => by
        rcases hown.inv with ⟨-, rfl⟩ | ⟨y, lc, hy, rfl, hl, hlk⟩
        · cases he'
        · rw [List.mem_singleton.1 he'] at hk'
          rw [← hk', hlk] at hpre
          exact hnd (by rw [hy]; simp) (List.mem_map.2 ⟨_, hb, prefix_edge hpre (List.prefix_refl _)⟩)
      refine Runs.bind (Runs.mono (leafHit_none hi hvK) ?_)
      rintro x t ⟨rfl, ht'⟩
      rw [ht']; clear ht' t
      simp only
      have hPK : p ++ pfx <+: K := (List.prefix_append _ _).trans hpre
      obtain ⟨bail, hbail, hbi⟩ := prefixBails_eq (V := V) hh K p.length
      have hb0 : bail = false := hbi.2 fun t ht => by
        obtain ⟨tl, rfl⟩ := hPK
        rw [List.append_assoc, List.drop_left, List.getElem?_append_left (by omega)]
      subst hb0
      refine Runs.bind (Runs.lift hbail ?_)
      simp only [Bool.false_eq_true, if_false, Cell.partialLen, hh.len]
      have hby := prefix_byte hpre
      rw [List.length_append] at hby
      refine Runs.bind (Runs.lift (byteAt_eq hby) ?_)
      obtain ⟨l, r, rfl⟩ := Edges.mem_split hb
      obtain ⟨i, hfc, hslot⟩ := hL.find
      refine Runs.bind (Runs.lift hfc ?_)
      simp only
      have hlen : (p ++ pfx ++ [b]).length = p.length + pfx.length + 1 := by simp only [List.length_append, List.length_cons, List.length_nil]
      have hI := ih b c hb fuel ⟨e, hf', hek⟩ (by rw [hlen]; omega)
      rw [hlen] at hI
      refine Runs.bind (Runs.mono hI ?_)
      rintro R t ⟨h1, ⟨y, e', lc, h2, h3, h4, h5, h6⟩, h7⟩
      have hsub : ∀ e ∈ f b, e ∈ vals ++ (l ++ (b, c) :: r).flatMap fun e => f e.1 := fun e he => List.mem_append_right _ (List.mem_flatMap.2 ⟨_, hb, he⟩)
      have hfin : ∀ R' t', DelMid s t p K (vals ++ (l ++ (b, c) :: r).flatMap fun e => f e.1) ((p, a) :: (l ++ (b, c) :: r).flatMap fun e => g e.1) R R' t' →
          DelPost s p K (vals ++ (l ++ (b, c) :: r).flatMap fun e => f e.1) ((p, a) :: (l ++ (b, c) :: r).flatMap fun e => g e.1) R' t' := fun R' t' hm => by
        obtain ⟨lc', g1, g2, g3⟩ := (hm.mid.frame y (lt_of_get h5) (by rintro ⟨n, hn⟩; rw [h5] at hn; cases hn)).likeL h5
        exact ⟨hm.stp, ⟨y, e', lc', hm.leaf.trans h2, hsub e' h3, h4, g1, g3.trans h6⟩, hm.rep⟩
      unfold deleteReplace
      rw [if_pos (Or.inr (by rw [h2]; rfl))]
      rcases h7 with ⟨h7, h8⟩ | ⟨cn, A', N1', h7, h8, h9⟩
      · simp only [h7, if_true]
        simp only [M.assoc]
        refine Runs.mono (removeKid_runs (R := R) hi h1 hslot h8 hpre hvK) hfin
      · simp only [h7, reduceCtorEq, if_false]
        simp only [M.assoc, M.pure_then]
        refine swapKid_runs hi h1 hslot h8 h9 hpre hvK ?_
        rintro a2 t' ha2 k1 k2 ⟨E', N', k3, k4⟩
        refine deleteFinish_alive k3 (hfin _ _ ⟨rfl, k2, k1.mono (Nat.zero_le _) ?_, Or.inr ⟨a2, E', N', rfl, k3, k4⟩⟩)
        rintro x hx rfl
        rcases ha2 with rfl | ha2
        · obtain ⟨n1, hn1, -⟩ := (h1.frame x (lt_of_get ha) (hi.notin hb)).like ha
          exact ⟨_, hn1⟩
        · omega

end Art
