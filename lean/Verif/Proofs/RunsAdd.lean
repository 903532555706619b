import Verif.Proofs.Runs
/-
`addChild` on a well-formed node: the node it returns has one edge more.
-/
set_option autoImplicit false
set_option linter.unusedVariables false
set_option linter.unusedSimpArgs false
namespace Art
variable {V : Type} {s s' s'' : St V} {N : Nat} {a : Addr} {n : Inner} {l r : Edges} {st : Option Addr} {b : Byte} {c : Addr} {pfx : Key}

/-- The leaf pointer `o'` leads to the same entry as `o` did: it is the same leaf, or a fresh copy of it, in which
case the old one was tracked. -/
def LeafMv (s s' : St V) (o o' : Option Addr) : Prop :=
  (o = none ∧ o' = none) ∨ ∃ (l l' : Addr) (lc lc' : LeafC V), o = some l ∧ o' = some l' ∧ s.heap[l]? = some (.leaf lc) ∧
    s'.heap[l']? = some (.leaf lc') ∧ lc'.key = lc.key ∧ lc'.value = lc.value ∧ (l' = l ∨ s.heap.length ≤ l' ∧ Trk s s' l)

theorem LeafMv.then {o o' : Option Addr} {X : Addr → Prop} (h1 : LeafMv s s' o o') (h2 : Stp N X s' s'')
    (hX : ∀ (x : Addr) (lc : LeafC V), s'.heap[x]? = some (.leaf lc) → ¬ X x) : LeafMv s s'' o o' := by
  rcases h1 with h1 | ⟨l, l', lc, lc', e1, e2, e3, e4, e5, e6, e7⟩
  · exact Or.inl h1
  · obtain ⟨i, k, e8⟩ := (h2.frame l' (lt_of_get e4) (hX l' lc' e4)).leaf e4
    refine Or.inr ⟨l, l', lc, _, e1, e2, e3, e8, e5, e6, ?_⟩
    rcases e7 with e7 | ⟨e7, e9⟩
    · exact Or.inl e7
    · exact Or.inr ⟨e7, e9.then h2⟩

/-- A leaf pointer is nil or leads to a leaf. -/
def LeafOK (h : Heap V) (o : Option Addr) : Prop := ∀ l, o = some l → ∃ lc : LeafC V, h[l]? = some (.leaf lc)

theorem LeafOK.lt {h : Heap V} {o : Option Addr} (hl : LeafOK h o) {l : Addr} (ho : o = some l) : l < h.length := by
  obtain ⟨lc, h1⟩ := hl l ho
  exact lt_of_get h1

theorem LeafMv.start {o : Option Addr} {X : Addr → Prop} (hl : LeafOK s.heap o) (h2 : Stp N X s s')
    (hX : ∀ (x : Addr) (lc : LeafC V), s.heap[x]? = some (.leaf lc) → ¬ X x) : LeafMv s s' o o := by
  cases o with
  | none => exact Or.inl ⟨rfl, rfl⟩
  | some l =>
    obtain ⟨lc, h1⟩ := hl l rfl
    obtain ⟨i, k, e8⟩ := (h2.frame l (lt_of_get h1) (hX l lc h1)).leaf h1
    exact Or.inr ⟨l, l, lc, _, rfl, rfl, h1, e8, rfl, rfl, Or.inl rfl⟩

theorem LeafMv.from {o o' : Option Addr} (h1 : Stp0 N s s') (h2 : LeafMv s' s'' o o') (h3 : Stp N (fun _ => True) s' s'') (hl : LeafOK s.heap o) :
    LeafMv s s'' o o' := by
  rcases h2 with h2 | ⟨l, l', lc, lc', e1, e2, e3, e4, e5, e6, e7⟩
  · exact Or.inl h2
  · obtain ⟨lc0, g1⟩ := hl l e1
    obtain ⟨i, k, g2⟩ := h1.leaf g1
    rw [e3] at g2; cases g2
    refine Or.inr ⟨l, l', lc0, lc', e1, e2, g1, e4, e5, e6, ?_⟩
    rcases e7 with e7 | ⟨e7, e9⟩
    · exact Or.inl e7
    · exact Or.inr ⟨Nat.le_trans h1.len e7, e9.of_stp h1 h3⟩

/-- What `addChild` achieves. -/
structure AddPost (N : Nat) (s : St V) (a : Addr) (n : Inner) (pfx : Key) (es : Edges) (a' : Addr) (s' : St V) : Prop where
  stp : Stp N (fun x => x = a) s s'
  at' : a' = a ∨ s.heap.length ≤ a'
  node : ∃ n', s'.heap[a']? = some (.inner n') ∧ Layout n' es none ∧ Dense n' es ∧ Header n' pfx ∧ LeafMv s s' n.leaf n'.leaf ∧
    (n.Tidy → n'.Tidy)

/-- An addition in place. -/
def AddRoom (s : St V) (a : Addr) (n : Inner) (es : Edges) (a' : Addr) (s' : St V) : Prop :=
  a' = a ∧ ∃ n', s' = { s with heap := s.heap.set a (.inner n') } ∧ Layout n' es none ∧ n'.leaf = n.leaf ∧ n'.part = n.part ∧
    n'.partialLen = n.partialLen ∧ n'.ch = n.ch ∧ n'.kind = n.kind ∧ (n.Tidy → n'.Tidy)

theorem AddRoom.post {es es0 : Edges} {a' : Addr} (hD : Dense n es0) (hle : es0.length ≤ es.length) (ha : s.heap[a]? = some (.inner n)) (hh : Header n pfx) (hl : LeafOK s.heap n.leaf)
    (h : AddRoom s a n es a' s') : AddPost N s a n pfx es a' s' := by
  obtain ⟨rfl, n', rfl, h1, h2, h3, h4, h5, h6, h7⟩ := h
  have hst := Stp.wrInner (N := N) (X := fun x => x = a') (m := n') ha rfl h5 fun _ => Or.inl h2
  refine ⟨hst, Or.inl rfl, n', get_set_self (lt_of_get ha), h1, hD.congr h6 hle, hh.congr h4 h3, ?_, h7⟩
  rw [h2]
  refine LeafMv.start hl hst fun x lc hx hxa => ?_
  subst hxa
  rw [ha] at hx; cases hx

theorem Inner.Tidy.add {ks : List Byte} (ht : n.Tidy) (hlt : n.numChildren.toNat < 255) :
    ({ n with children := n.children.set (n.children.findIdx (·.isNone)) (some c), keys := ks, numChildren := n.numChildren + 1 } : Inner).Tidy := by
  intro hs i hi
  have hf := ht.free hs
  simp only at hi ⊢
  rw [UInt8.toNat_add] at hi
  have e1 : (1 : UInt8).toNat = 1 := rfl
  rw [e1, Nat.mod_eq_of_lt (by omega)] at hi
  rw [List.getElem?_set_ne (by omega)]
  exact ht hs i (by omega)

theorem tidy_grow16 {es : Edges} {m : Inner} (hL : Layout n es st) (hk : n.kind = .n16) (hlen : es.length = 16)
    (hn : m.numChildren = n.numChildren) (hc : m.children = goCopy (blankInner .n48).children 0 (n.children.take n.numChildren.toNat)) : m.Tidy := by
  intro hs i hi
  rw [hn, hL.num, hlen] at hi
  have hb := hL.body
  rw [hk] at hb
  have hcl : n.children.length = 16 := by
    obtain ⟨-, -, ⟨h, _, h'⟩ | ⟨h, _⟩⟩ := hb
    · rw [h', List.length_map]; exact h
    · omega
  rw [hc, hL.num, hlen, List.take_of_length_le (by omega)]
  unfold goCopy blankInner
  simp only [List.take_zero, List.nil_append, Nat.sub_zero]
  rw [List.getElem?_append_right (by rw [List.length_take]; omega)]
  generalize hx : (List.drop _ (List.replicate Kind.n48.childrenLen (none : Option Addr)))[(_ : Nat)]? = x
  cases x with
  | none => rfl
  | some o => rw [List.eq_of_mem_replicate (List.mem_of_mem_drop (List.mem_of_getElem? hx))]; rfl

theorem addChild4_room (ha : s.heap[a]? = some (.inner n)) (hk : n.kind = .n4) (hL : Layout n (l ++ r) st) (hs : Edges.Sorted (l ++ (b, c) :: r))
    (hlt : (l ++ r).length < 4) : Runs (addChild4 a b c : M V Nat) s fun a' s' => AddRoom s a n (l ++ (b, c) :: r) a' s' := by
  unfold addChild4
  refine Runs.bind (Runs.innerAt ha ?_)
  have hlt' : n.numChildren < 4 := by
    rw [UInt8.lt_iff_toNat_lt, hL.num]; exact hlt
  rw [if_pos hlt']
  obtain ⟨ks, cs, h1, h2⟩ := hL.insertSorted (Or.inl ⟨hk, rfl⟩) hs hlt
  exact Runs.bind (Runs.lift h1 (Runs.bind (Runs.wr (Runs.pure ⟨rfl, _, rfl, h2, rfl, rfl, rfl, rfl, rfl, fun _ => h2.tidy (by simp only [hk]; exact Kind.noConfusion)⟩))))

theorem addChild16_room (ha : s.heap[a]? = some (.inner n)) (hk : n.kind = .n16) (hL : Layout n (l ++ r) st) (hs : Edges.Sorted (l ++ (b, c) :: r))
    (hlt : (l ++ r).length < 16) : Runs (addChild16 a b c : M V Nat) s fun a' s' => AddRoom s a n (l ++ (b, c) :: r) a' s' := by
  unfold addChild16
  refine Runs.bind (Runs.innerAt ha ?_)
  have hlt' : n.numChildren < 16 := by
    rw [UInt8.lt_iff_toNat_lt, hL.num]; exact hlt
  rw [if_pos hlt']
  obtain ⟨ks, cs, h1, h2⟩ := hL.insertSorted (Or.inr ⟨hk, rfl⟩) hs hlt
  exact Runs.bind (Runs.lift h1 (Runs.bind (Runs.wr (Runs.pure ⟨rfl, _, rfl, h2, rfl, rfl, rfl, rfl, rfl, fun _ => h2.tidy (by simp only [hk]; exact Kind.noConfusion)⟩))))

theorem addChild48_room (ha : s.heap[a]? = some (.inner n)) (hk : n.kind = .n48) (hL : Layout n (l ++ r) st) (hs : Edges.Sorted (l ++ (b, c) :: r))
    (hlt : (l ++ r).length < 48) : Runs (addChild48 a b c : M V Nat) s fun a' s' => AddRoom s a n (l ++ (b, c) :: r) a' s' := by
  unfold addChild48
  refine Runs.bind (Runs.innerAt ha ?_)
  have hlt' : n.numChildren < 48 := by
    rw [UInt8.lt_iff_toNat_lt, hL.num]; exact hlt
  rw [if_pos hlt']
  obtain ⟨h1, h2, h3⟩ := hL.add48 hk hs hlt rfl
  refine Runs.bind (Runs.lift (a := { n with children := n.children.set (n.children.findIdx (·.isNone)) (some c) }) (by simp only [Inner.setChild]; rw [if_pos h1]) ?_)
  refine Runs.bind (Runs.lift (a := { n with children := n.children.set (n.children.findIdx (·.isNone)) (some c), keys := n.keys.set b.toNat (UInt8.ofNat (n.children.findIdx (·.isNone) + 1)) }) (by simp only [Inner.setKeyAtIdx, hk]; rw [if_pos h2]) ?_)
  exact Runs.bind (Runs.wr (Runs.pure ⟨rfl, _, rfl, h3, rfl, rfl, rfl, rfl, rfl, fun ht => ht.add (by rw [hL.num]; omega)⟩))

theorem addChild256_room (ha : s.heap[a]? = some (.inner n)) (hk : n.kind = .n256) (hL : Layout n (l ++ r) st) (hs : Edges.Sorted (l ++ (b, c) :: r))
    (hlt : (l ++ r).length < 255) : Runs (addChild256 a b c : M V Nat) s fun a' s' => AddRoom s a n (l ++ (b, c) :: r) a' s' := by
  unfold addChild256
  refine Runs.bind (Runs.innerAt ha ?_)
  obtain ⟨h1, h2⟩ := hL.add256 hk hs hlt
  refine Runs.bind (Runs.lift (a := { n with children := n.children.set b.toNat (some c), numChildren := n.numChildren + 1 }) (by simp only [Inner.setChild]; rw [if_pos h1]) ?_)
  exact Runs.bind (Runs.wr (Runs.pure ⟨rfl, _, rfl, h2, rfl, rfl, rfl, rfl, rfl, fun _ => h2.tidy (by simp only [hk]; exact Kind.noConfusion)⟩))

/-! ### Growing -/

theorem goCopy_length {α : Type} {xs ys : List α} (h : ys.length ≤ xs.length) : (goCopy xs 0 ys).length = xs.length := by
  simp [goCopy]; omega

theorem goCopy_take {α : Type} {xs ys : List α} (h : ys.length ≤ xs.length) : (goCopy xs 0 ys).take ys.length = ys := by
  unfold goCopy
  simp only [List.take_zero, List.nil_append, Nat.sub_zero, List.take_of_length_le h]
  exact List.take_left' rfl

theorem Header.copy {m : Inner} {d : List Byte} (hd : d.length = 10) (hh : Header n pfx) (h1 : m.partialLen = n.partialLen)
    (h2 : m.part = goCopy d 0 (n.part.take (min 10 n.partialLen))) : Header m pfx := by
  have hlen : (n.part.take (min 10 pfx.length)).length = min 10 pfx.length := by
    rw [List.length_take, hh.part]; omega
  rw [hh.len] at h2
  refine ⟨by rw [h1]; exact hh.len, by rw [h2, goCopy_length (by rw [hlen]; omega)]; exact hd, ?_⟩
  rw [h2]
  have := goCopy_take (xs := d) (ys := n.part.take (min 10 pfx.length)) (by rw [hlen]; omega)
  rw [hlen] at this
  rw [this]; exact hh.bytes

theorem copyHeader_runs {dest src : Addr} {d n : Inner} {Q : Unit → St V → Prop} (hs : s.heap[src]? = some (.inner n)) (hd : s.heap[dest]? = some (.inner d))
    (hp : n.part.length = 10) (hdp : d.part.length = 10)
    (hq : Q () { s with heap := s.heap.set dest (.inner { d with numChildren := n.numChildren, partialLen := n.partialLen, part := goCopy d.part 0 (n.part.take (min 10 n.partialLen)) }) }) : Runs (copyHeader dest src : M V Unit) s Q := by
  unfold copyHeader
  refine Runs.bind (Runs.innerAt hs (Runs.bind (Runs.innerAt hd ?_)))
  have : ¬ (min maxPrefixLen n.partialLen > n.part.length ∨ min maxPrefixLen n.partialLen > d.part.length) := by
    rw [hp, hdp]; unfold maxPrefixLen; omega
  simp only
  rw [if_neg this]
  exact Runs.wr hq

/-- `moveLeaf` into a new node. -/
theorem moveLeaf_runs {newNode : Addr} {m : Inner} (ha : s.heap[a]? = some (.inner n)) (hm : s.heap[newNode]? = some (.inner m))
    (hml : m.leaf = none) (hl : LeafOK s.heap n.leaf) (hN : N ≤ newNode) (hne : newNode ≠ a) :
    Runs (moveLeaf newNode a : M V Unit) s fun _ s' => Stp N (fun x => x = newNode) s s' ∧
      (∃ i k o, s'.heap[newNode]? = some (.inner { m with id := i, ch := k, leaf := o }) ∧ LeafMv s s' n.leaf o) := by
  unfold moveLeaf
  refine Runs.bind (Runs.innerAt ha ?_)
  cases hnl : n.leaf with
  | none =>
    refine Runs.pure ⟨Stp.refl, m.id, m.ch, none, ?_, Or.inl ⟨rfl, rfl⟩⟩
    rw [hm]
    cases m
    cases hml
    rfl
  | some l =>
    obtain ⟨lc, hlc⟩ := hl l hnl
    simp only
    refine Runs.bind (Runs.mono (writeLeaf_runs (N := N) (t := true) hlc) ?_)
    rintro nL s1 ⟨h1, h2, ⟨i, k, h3⟩, h4⟩
    obtain ⟨i', k', hm1⟩ := h1.inner hm
    refine setNodeLeaf_runs hm1 ?_
    have hst := Stp.wrInner (N := N) (X := fun x => x = newNode) (m := { m with id := i', ch := k', leaf := some nL }) hm1 rfl rfl
      fun h => absurd h (by omega)
    refine ⟨Stp0.then h1 hst, i', k', some nL, get_set_self (lt_of_get hm1), Or.inr ⟨l, nL, lc, { lc with id := i, ch := k }, rfl, rfl, hlc, ?_, rfl, rfl, ?_⟩⟩
    · show (s1.heap.set newNode _)[nL]? = _
      rw [get_set_ne]
      · exact h3
      · rintro rfl
        rw [hm1] at h3; cases h3
    · rcases h2 with h2 | h2
      · exact Or.inl h2
      · exact Or.inr ⟨h2, (h4 rfl).then hst⟩

/-- The common part of `addChild4`, `addChild16` and `addChild48` when the node is full. -/
theorem grow_runs {k : Kind} {kf : Inner → Inner → List Byte} {cf : Inner → Inner → List (Option Addr)} {cont : Nat → M V Nat} {Q : Nat → St V → Prop}
    (hN : N ≤ s.heap.length) (ha : s.heap[a]? = some (.inner n)) (hh : Header n pfx) (hl : LeafOK s.heap n.leaf)
    (hcont : ∀ (newNode : Addr) (s1 : St V) (i j : Nat) (q q' : Option ChanId) (o : Option Addr) (m : Inner), newNode = s.heap.length → Stp0 N s s1 →
      LeafMv s s1 n.leaf o → s1.heap[newNode]? = some (.inner m) → m.kind = k → m.leaf = o → m.numChildren = n.numChildren → Header m pfx →
      m.keys = kf { n with id := i, ch := q } { blankInner k with id := j, ch := q', leaf := o } →
      m.children = cf { n with id := i, ch := q } { blankInner k with id := j, ch := q', leaf := o } → Runs (cont newNode) s1 Q) :
    Runs (do
      let newNode ← allocInner k
      moveLeaf newNode a
      let n ← innerAt a
      let m ← innerAt newNode
      wr newNode (.inner { m with keys := kf n m, children := cf n m })
      copyHeader newNode a
      cont newNode) s Q := by
  refine Runs.bind (Runs.mono (allocInner_runs (N := N)) ?_)
  rintro nn s1 ⟨h1, h2, h3, i, h4⟩
  obtain ⟨i1, q1, ha1⟩ := h1.inner ha
  have hl1 : LeafOK s1.heap n.leaf := fun l hl' => by
    obtain ⟨lc, h5⟩ := hl l hl'
    obtain ⟨i, q, h6⟩ := h1.leaf h5
    exact ⟨_, h6⟩
  have hal := lt_of_get ha
  refine Runs.bind (Runs.mono (moveLeaf_runs (N := N) ha1 h4 rfl hl1 (by omega) (by omega)) ?_)
  rintro _ s2 ⟨g1, i2, q2, o, g2, g3⟩
  obtain ⟨i3, q3, ha2⟩ := (g1.frame a (lt_of_get ha1) (by omega)).inner ha1
  have hmv : LeafMv s s2 n.leaf o := g3.from h1 (g1.mono (Nat.le_refl _) fun _ _ _ => trivial) hl
  refine Runs.bind (Runs.innerAt ha2 (Runs.bind (Runs.innerAt g2 (Runs.bind (Runs.wr (Runs.bind ?_))))))
  generalize hm1 : ({ ({ blankInner k with id := i2, ch := q2, leaf := o } : Inner) with
      keys := kf { n with id := i3, ch := q3 } { blankInner k with id := i2, ch := q2, leaf := o },
      children := cf { n with id := i3, ch := q3 } { blankInner k with id := i2, ch := q2, leaf := o } } : Inner) = m1
  have f1 : m1.kind = k := by rw [← hm1]; rfl
  have f2 : m1.leaf = o := by rw [← hm1]
  have f3 : m1.part = zeroPartial := by rw [← hm1]; rfl
  have f4 : m1.keys = kf { n with id := i3, ch := q3 } { blankInner k with id := i2, ch := q2, leaf := o } := by rw [← hm1]
  have f5 : m1.children = cf { n with id := i3, ch := q3 } { blankInner k with id := i2, ch := q2, leaf := o } := by rw [← hm1]
  have f6 : m1.ch = q2 := by rw [← hm1]
  have hset : (s2.heap.set nn (Cell.inner m1))[nn]? = some (.inner m1) := get_set_self (lt_of_get g2)
  have e1 := Stp.wrInner (N := N) (X := fun x => x = nn) (m := m1) g2 rfl f6 fun h => absurd h (by omega)
  refine copyHeader_runs (s := { s2 with heap := s2.heap.set nn (Cell.inner m1) }) (n := { n with id := i3, ch := q3 }) (d := m1) ?_ hset hh.part (by rw [f3]; rfl) ?_
  · show (s2.heap.set nn _)[a]? = _
    rw [get_set_ne (by omega)]; exact ha2
  · have hlt2 : nn < (s2.heap.set nn (Cell.inner m1)).length := by
      rw [List.length_set]; exact lt_of_get g2
    have e2 := Stp.wrInner (N := N) (X := fun x => x = nn)
      (s := { s2 with heap := s2.heap.set nn (Cell.inner m1) })
      (m := { m1 with numChildren := n.numChildren, partialLen := n.partialLen, part := goCopy m1.part 0 (n.part.take (min 10 n.partialLen)) })
      hset rfl rfl fun h => absurd h (by omega)
    refine hcont nn _ i3 i2 q3 q2 o _ h2 ?_ ?_ (get_set_self hlt2) f1 f2 rfl (hh.copy (d := m1.part) (by rw [f3]; rfl) rfl rfl) f4 f5
    · refine Stp.mono (Y := fun _ => False) (X := fun x => x = nn) ((((Stp.mono h1 (Nat.le_refl _) (fun x _ h => h.elim)).trans g1 fun x _ h => h).trans e1 fun x _ h => h).trans e2 fun x _ h => h) (Nat.le_refl _) ?_
      rintro x hx rfl
      omega
    · refine (hmv.then e1 ?_).then e2 ?_
      · rintro x lc hx rfl
        rw [g2] at hx; cases hx
      · rintro x lc hx rfl
        rw [hset] at hx; cases hx

theorem AddPost.of_grow {es es0 : Edges} {a' nn : Addr} {m : Inner} {s1 : St V} {o : Option Addr} (ht : m.Tidy) (hD : Dense m es0) (hle : es0.length ≤ es.length) (hnn : nn = s.heap.length) (h1 : Stp0 N s s1) (h2 : LeafMv s s1 n.leaf o)
    (h3 : s1.heap[nn]? = some (.inner m)) (h4 : m.leaf = o) (h5 : Header m pfx) (hN : N ≤ s.heap.length)
    (h6 : AddRoom s1 nn m es a' s') : AddPost N s a n pfx es a' s' := by
  obtain ⟨rfl, n', rfl, g1, g2, g3, g4, g5, g6, g7⟩ := h6
  have e1 := Stp.wrInner (N := N) (X := fun x => x = a') (m := n') h3 rfl g5 fun h => absurd h (by omega)
  refine ⟨Stp.mono (X := fun x => x = a') (Stp0.then h1 e1) (Nat.le_refl _) (by rintro x hx rfl; omega), Or.inr (by omega), n', get_set_self (lt_of_get h3), g1, hD.congr g6 hle, h5.congr g4 g3, ?_, fun _ => g7 ht⟩
  rw [g2, h4]
  refine h2.then e1 ?_
  rintro x lc hx rfl
  rw [h3] at hx; cases hx

/-- `addChild` on a well-formed node. -/
theorem addChild_runs (hN : N ≤ s.heap.length) (ha : s.heap[a]? = some (.inner n)) (hh : Header n pfx) (hl : LeafOK s.heap n.leaf)
    (hL : Layout n (l ++ r) st) (hD : Dense n (l ++ r)) (hs : Edges.Sorted (l ++ (b, c) :: r)) (hlt : (l ++ r).length < 255) :
    Runs (addChild a b c : M V Nat) s fun a' s' => AddPost N s a n pfx (l ++ (b, c) :: r) a' s' := by
  unfold addChild
  refine Runs.bind (Runs.cell ha ?_)
  simp only
  have hle : (l ++ r).length ≤ 255 := by omega
  have hle1 : (l ++ r).length ≤ (l ++ (b, c) :: r).length := by simp
  rcases hL.kinds with ⟨hk, hb⟩ | ⟨hk, hb⟩ | ⟨hk, hb⟩ | ⟨hk, hb⟩ <;> rw [hk] <;> simp only
  · by_cases hroom : (l ++ r).length < 4
    · exact Runs.mono (addChild4_room ha hk hL hs hroom) fun a' s' h => h.post hD hle1 ha hh hl
    · unfold addChild4
      refine Runs.bind (Runs.innerAt ha ?_)
      have hlt' : ¬ n.numChildren < 4 := by
        rw [UInt8.lt_iff_toNat_lt, hL.num]; exact hroom
      rw [if_neg hlt']
      refine grow_runs (kf := fun n m => goCopy m.keys 0 (n.keys.take n.numChildren.toNat)) (cf := fun n m => goCopy m.children 0 (n.children.take n.numChildren.toNat)) hN ha hh hl ?_
      intro nn s1 i j q q' o m e1 e2 e3 e4 e5 e6 e7 e8 e9 e10
      have hlen : (l ++ r).length = 4 := by have := hb.le; omega
      have hLm : Layout m (l ++ r) none := hL.grow4 hk hlen e5 e7 e9 e10
      exact Runs.mono (addChild16_room e4 e5 hLm hs (by omega)) fun a' s' h => AddPost.of_grow (hLm.tidy (by rw [e5]; exact Kind.noConfusion)) (.of16 e5 (by omega)) hle1 e1 e2 e3 e4 e6 e8 hN h
  · by_cases hroom : (l ++ r).length < 16
    · exact Runs.mono (addChild16_room ha hk hL hs hroom) fun a' s' h => h.post hD hle1 ha hh hl
    · unfold addChild16
      refine Runs.bind (Runs.innerAt ha ?_)
      have hlt' : ¬ n.numChildren < 16 := by
        rw [UInt8.lt_iff_toNat_lt, hL.num]; exact hroom
      rw [if_neg hlt']
      refine grow_runs (kf := fun n m => keys16to48 n) (cf := fun n m => goCopy m.children 0 (n.children.take n.numChildren.toNat)) hN ha hh hl ?_
      intro nn s1 i j q q' o m e1 e2 e3 e4 e5 e6 e7 e8 e9 e10
      have hlen : (l ++ r).length = 16 := by have := hb.le; omega
      have hLm : Layout m (l ++ r) none := hL.grow16 hk hlen e5 e7 e9 e10
      exact Runs.mono (addChild48_room e4 e5 hLm hs (by omega)) fun a' s' h => AddPost.of_grow (tidy_grow16 hL hk hlen e7 e10) (.of48 e5 (by omega)) hle1 e1 e2 e3 e4 e6 e8 hN h
  · by_cases hroom : (l ++ r).length < 48
    · exact Runs.mono (addChild48_room ha hk hL hs hroom) fun a' s' h => h.post hD hle1 ha hh hl
    · unfold addChild48
      refine Runs.bind (Runs.innerAt ha ?_)
      have hlt' : ¬ n.numChildren < 48 := by
        rw [UInt8.lt_iff_toNat_lt, hL.num]; exact hroom
      rw [if_neg hlt']
      refine grow_runs (kf := fun n m => m.keys) (cf := fun n m => children48to256 n) hN ha hh hl ?_
      intro nn s1 i j q q' o m e1 e2 e3 e4 e5 e6 e7 e8 e9 e10
      have hLm : Layout m (l ++ r) none := hL.grow48 hk e5 e7 e10
      exact Runs.mono (addChild256_room e4 e5 hLm hs (by omega)) fun a' s' h => AddPost.of_grow (hLm.tidy (by rw [e5]; exact Kind.noConfusion)) (.of256 e5 (by omega)) hle1 e1 e2 e3 e4 e6 e8 hN h
  · exact Runs.mono (addChild256_room ha hk hL hs hlt) fun a' s' h => h.post hD hle1 ha hh hl

end Art
