import Verif.Proofs.RunsAdd
/-
`removeChild` on a well-formed node: the node it returns has one edge less, or is the only child left.
-/
set_option autoImplicit false
set_option linter.unusedVariables false
set_option linter.unusedSimpArgs false
namespace Art
variable {V : Type} {s s' s'' : St V} {N : Nat} {a : Addr} {n : Inner} {l r : Edges} {st : Option Addr} {b : Byte} {c : Addr} {pfx : Key}

theorem LeafOK.stp {o : Option Addr} {X : Addr → Prop} (hl : LeafOK s.heap o) (h2 : Stp N X s s')
    (hX : ∀ (x : Addr) (lc : LeafC V), s.heap[x]? = some (.leaf lc) → ¬ X x) : LeafOK s'.heap o := fun x hx => by
  obtain ⟨lc, h1⟩ := hl x hx
  obtain ⟨i, k, h3⟩ := (h2.frame x (lt_of_get h1) (hX x lc h1)).leaf h1
  exact ⟨_, h3⟩

theorem shiftChildren_inv (pos num : Nat) (ch : List (Option Addr)) (P : List (Option Addr) → Prop) (h0 : P ch)
    (h1 : ∀ (xs : List (Option Addr)) (i j : Nat), P xs → P (xs.set i ((xs[j]?).getD none))) : P (shiftChildren ch pos num) := by
  unfold shiftChildren
  have : ∀ (is : List Nat) (acc : List (Option Addr) × Nat), P acc.1 → P (is.foldl (fun (acc : List (Option Addr) × Nat) itr =>
      if itr = pos then acc else (acc.1.set acc.2 ((acc.1[itr]?).getD none), acc.2 + 1)) acc).1 := by
    intro is
    induction is with
    | nil => intro acc h; exact h
    | cons i is ih =>
      intro acc h
      rw [List.foldl_cons]
      refine ih _ ?_
      split
      · exact h
      · exact h1 _ _ _ h
  exact this _ _ h0

theorem shiftChildren_length (pos num : Nat) (ch : List (Option Addr)) : (shiftChildren ch pos num).length = ch.length :=
  shiftChildren_inv pos num ch (fun xs => xs.length = ch.length) rfl fun xs i j h => by rw [List.length_set]; exact h

theorem shiftChildren_mem {pos num : Nat} {ch : List (Option Addr)} {x : Addr} (hx : some x ∈ shiftChildren ch pos num) : some x ∈ ch :=
  shiftChildren_inv pos num ch (fun xs => some x ∈ xs → some x ∈ ch) (fun h => h) (fun xs i j h hx => by
    rcases List.mem_or_eq_of_mem_set hx with h' | h'
    · exact h h'
    · cases hj : xs[j]? with
      | none => rw [hj] at h'; cases h'
      | some y =>
        rw [hj] at h'
        refine h ?_
        rw [h']
        exact List.mem_of_getElem? hj) hx

theorem clearTail_runs : ∀ (k itr : Nat) (s : St V) (n : Inner), s.heap[a]? = some (.inner n) → itr ≤ n.children.length →
    n.children.length - itr ≤ k → (∀ x, some x ∈ n.children.drop itr → x < s.heap.length) →
    Runs (clearTail a k itr : M V Unit) s fun _ s' => Stp N (fun x => x = a) s s' ∧ s'.heap.length = s.heap.length ∧
      ∃ i q, s'.heap[a]? = some (.inner { n with children := n.children.take itr ++ List.replicate (n.children.length - itr) none, id := i, ch := q }) := by
  intro k
  induction k with
  | zero =>
    intro itr s n ha hle hk hv
    refine Runs.pure ⟨Stp.refl, rfl, n.id, n.ch, ?_⟩
    have : itr = n.children.length := by omega
    subst this
    simpa using ha
  | succ k ih =>
    intro itr s n ha hle hk hv
    unfold clearTail
    refine Runs.bind (Runs.innerAt ha ?_)
    by_cases hlt : itr < n.children.length
    · rw [if_pos hlt]
      have hdrop : n.children.drop itr = n.children[itr] :: n.children.drop (itr + 1) := List.drop_eq_getElem_cons hlt
      refine Runs.bind (Runs.mono (trackChannel_runs (N := N) ?_) ?_)
      · intro x hx
        refine hv x ?_
        rw [← hx, List.getElem?_eq_getElem hlt, hdrop]
        exact List.mem_cons_self
      · rintro _ s1 ⟨h1, h2, -⟩
        obtain ⟨i, q, ha1⟩ := h1.inner ha
        refine Runs.bind (setChildAt_runs ha1 hlt ?_)
        have e1 := Stp.wrInner (N := N) (X := fun x => x = a) (m := { n with children := n.children.set itr none, id := i, ch := q }) ha1 rfl rfl fun _ => Or.inl rfl
        refine Runs.mono (ih (itr + 1) _ _ (get_set_self (lt_of_get ha1)) ?_ ?_ ?_) ?_
        · simp only [List.length_set]; omega
        · simp only [List.length_set]; omega
        · simp only [List.length_set]
          intro x hx
          rw [List.drop_set_of_lt (by omega)] at hx
          rw [h2]
          exact hv x (by rw [hdrop]; exact List.mem_cons_of_mem _ hx)
        · rintro _ s2 ⟨g1, g2, i', q', g3⟩
          refine ⟨(Stp0.then h1 e1).trans g1 fun x _ h => h, ?_, i', q', ?_⟩
          · rw [g2]; simp only [List.length_set]; exact h2
          · rw [g3]
            simp only [Option.some.injEq, Cell.inner.injEq, Inner.mk.injEq, true_and, and_true, List.length_set]
            rw [List.take_succ_eq_append_getElem (by simpa using hlt), List.take_set_of_le (by omega), List.getElem_set_self, List.append_assoc]
            congr 1
            rw [show n.children.length - itr = n.children.length - (itr + 1) + 1 from by omega, List.replicate_succ]
            rfl
    · rw [if_neg hlt]
      refine Runs.pure ⟨Stp.refl, rfl, n.id, n.ch, ?_⟩
      have : itr = n.children.length := by omega
      subst this
      simpa using ha

/-- What the removal achieves when the node stays. -/
structure RemPost (N : Nat) (s : St V) (a : Addr) (o : Option Addr) (pfx : Key) (l r : Edges) (a' : Addr) (s' : St V) : Prop where
  stp : Stp N (fun x => x = a) s s'
  at' : a' = a ∨ s.heap.length ≤ a'
  node : ∃ n' st', s'.heap[a']? = some (.inner n') ∧ Layout n' (l ++ r) st' ∧ Dense n' (l ++ r) ∧ (st' = none ∨ st' = lastAddr r) ∧ Header n' pfx ∧ LeafMv s s' o n'.leaf

/-- `removeSorted`: the node stays in place. -/
theorem removeSorted_runs {i : Nat} (ha : s.heap[a]? = some (.inner { n with children := n.children.set i none }))
    {cap : Nat} (hk : (n.kind = .n4 ∧ cap = 4) ∨ (n.kind = .n16 ∧ cap = 16)) (hL : Layout n (l ++ (b, c) :: r) st) (hi : AtSlot n l b i)
    (hv : ∀ x, some x ∈ n.children → x < s.heap.length) :
    Runs (removeSorted a b : M V Unit) s fun _ s' => Stp N (fun x => x = a) s s' ∧ s'.heap.length = s.heap.length ∧
      ∃ n', s'.heap[a]? = some (.inner n') ∧ Layout n' (l ++ r) (lastAddr r) ∧ n'.kind = n.kind ∧ n'.leaf = n.leaf ∧ n'.part = n.part ∧ n'.partialLen = n.partialLen := by
  have hi' : i = l.length := by
    unfold AtSlot at hi
    rcases hk with ⟨hk, -⟩ | ⟨hk, -⟩ <;> rw [hk] at hi <;> exact hi
  subst hi'
  obtain ⟨h1, h2, h3, h4, h5⟩ := hL.removeSorted hk
  have hnum := hL.num
  unfold removeSorted
  refine Runs.bind (Runs.innerAt ha ?_)
  have hpos : removePos { n with children := n.children.set l.length none } b = l.length := h1
  simp only [hpos]
  have hlen : (l ++ (b, c) :: r).length = l.length + 1 + r.length := by simp; omega
  refine Runs.bind (Runs.assert (by rw [h2]; omega) ?_)
  refine Runs.bind (Runs.assert (by rw [List.length_set, h3]; omega) ?_)
  refine Runs.bind (Runs.wr (Runs.bind ?_))
  generalize hm1 : ({ n with keys := goCopy n.keys l.length (n.keys.drop (l.length + 1)), children := shiftChildren (n.children.set l.length none) l.length n.numChildren.toNat } : Inner) = m1
  have f1 : m1.kind = n.kind := by rw [← hm1]
  have f2 : m1.leaf = n.leaf := by rw [← hm1]
  have f3 : m1.part = n.part := by rw [← hm1]
  have f4 : m1.partialLen = n.partialLen := by rw [← hm1]
  have f5 : m1.ch = n.ch := by rw [← hm1]
  have f6 : m1.keys = goCopy n.keys l.length (n.keys.drop (l.length + 1)) := by rw [← hm1]
  have f7 : m1.children = shiftChildren (n.children.set l.length none) l.length n.numChildren.toNat := by rw [← hm1]
  have f8 : m1.numChildren = n.numChildren := by rw [← hm1]
  have hsl : m1.children.length = cap := by
    rw [f7, shiftChildren_length, List.length_set, h3]
  have e1 := Stp.wrInner (N := N) (X := fun x => x = a) (m := m1) ha rfl f5 fun _ => Or.inl f2
  rw [show (n.children.set l.length none).length = cap from by rw [List.length_set, h3]]
  refine Runs.mono (clearTail_runs (N := N) _ _ { s with heap := s.heap.set a (.inner m1) } m1 (get_set_self (lt_of_get ha)) ?_ ?_ ?_) ?_
  · rw [hsl]; omega
  · rw [hsl]; omega
  · intro x hx
    simp only [List.length_set]
    have := List.mem_of_mem_drop hx
    rw [f7] at this
    have := shiftChildren_mem this
    rcases List.mem_or_eq_of_mem_set this with h | h
    · exact hv x h
    · cases h
  · rintro _ s1 ⟨g1, g2, i', q', g3⟩
    refine Runs.bind (Runs.innerAt g3 (Runs.wr ?_))
    simp only [List.length_set] at g2
    generalize hm2 : ({ m1 with numChildren := m1.numChildren - 1, children := m1.children.take n.numChildren.toNat ++ List.replicate (m1.children.length - n.numChildren.toNat) none, id := i', ch := q' } : Inner) = m2
    have e2 := Stp.wrInner (N := N) (X := fun x => x = a) (m := m2) g3 rfl (by rw [← hm2]) fun _ => Or.inl (by rw [← hm2])
    refine ⟨(e1.trans g1 fun x _ h => h).trans e2 fun x _ h => h, by simp only [List.length_set]; exact g2, m2, get_set_self (lt_of_get g3), ?_, ?_, ?_, ?_, ?_⟩
    · refine h5 m2 (by rw [← hm2]; exact f1) (by rw [← hm2]; exact f6) ?_ (by rw [← hm2]; simp only [f8])
      rw [← hm2]
      simp only [hsl]
      rw [f7]
    · rw [← hm2]; exact f1
    · rw [← hm2]; exact f2
    · rw [← hm2]; exact f3
    · rw [← hm2]; exact f4


/-! ### Shrinking -/

theorem LeafMv.from' {o o' : Option Addr} {X : Addr → Prop} (h1 : Stp N X s s') (h2 : LeafMv s' s'' o o') (h3 : Stp N (fun _ => True) s' s'') (hl : LeafOK s.heap o)
    (hX : ∀ (x : Addr) (lc : LeafC V), s.heap[x]? = some (.leaf lc) → ¬ X x) : LeafMv s s'' o o' := by
  rcases h2 with h2 | ⟨l, l', lc, lc', e1, e2, e3, e4, e5, e6, e7⟩
  · exact Or.inl h2
  · obtain ⟨lc0, g1⟩ := hl l e1
    obtain ⟨i, k, g2⟩ := (h1.frame l (lt_of_get g1) (hX l lc0 g1)).leaf g1
    rw [e3] at g2; cases g2
    refine Or.inr ⟨l, l', lc0, lc', e1, e2, g1, e4, e5, e6, ?_⟩
    rcases e7 with e7 | ⟨e7, e9⟩
    · exact Or.inl e7
    · exact Or.inr ⟨Nat.le_trans h1.len e7, e9.of_stp h1 h3⟩

/-- A new node that replaces `a`. -/
structure Shrunk (N : Nat) (s : St V) (n : Inner) (pfx : Key) (es : Edges) (st : Option Addr) (a' : Addr) (s' : St V) : Prop where
  stp : Stp0 N s s'
  new : s.heap.length ≤ a'
  node : ∃ n', s'.heap[a']? = some (.inner n') ∧ Layout n' es st ∧ Dense n' es ∧ Header n' pfx ∧ LeafMv s s' n.leaf n'.leaf

theorem Shrunk.post {n0 : Inner} {s0 : St V} {a' : Addr} (h0 : Stp N (fun x => x = a) s0 s) (ha0 : s0.heap[a]? = some (.inner n0)) (hleaf : n.leaf = n0.leaf)
    (hl : LeafOK s0.heap n0.leaf) (hlen : s0.heap.length ≤ s.heap.length) (hst : st = none ∨ st = lastAddr r)
    (h : Shrunk N s n pfx (l ++ r) st a' s') : RemPost N s0 a n0.leaf pfx l r a' s' := by
  obtain ⟨h1, h2, n', h3, h4, hD, h5, h6⟩ := h
  refine ⟨h0.then0 h1, Or.inr (by omega), n', st, h3, h4, hD, hst, h5, ?_⟩
  rw [hleaf] at h6
  refine LeafMv.from' h0 h6 (h1.mono (Nat.le_refl _) fun _ _ h => trivial) hl ?_
  rintro x lc hx rfl
  rw [ha0] at hx; cases hx

/-- The node stays in place. -/
theorem RemPost.stay {n0 : Inner} {s0 : St V} (h0 : Stp N (fun x => x = a) s0 s) (ha0 : s0.heap[a]? = some (.inner n0)) (hleaf : n.leaf = n0.leaf)
    (hl : LeafOK s0.heap n0.leaf) (hst : st = none ∨ st = lastAddr r) (ha : s.heap[a]? = some (.inner n)) (hL : Layout n (l ++ r) st) (hD : Dense n (l ++ r)) (hh : Header n pfx) :
    RemPost N s0 a n0.leaf pfx l r a s := by
  refine ⟨h0, Or.inl rfl, n, st, ha, hL, hD, hst, hh, ?_⟩
  rw [hleaf]
  refine LeafMv.start hl h0 ?_
  rintro x lc hx rfl
  rw [ha0] at hx; cases hx

theorem shrink16_runs (hN : N ≤ s.heap.length) (ha : s.heap[a]? = some (.inner n)) (hk : n.kind = .n16) (hh : Header n pfx) (hl : LeafOK s.heap n.leaf)
    {es : Edges} (hL : Layout n es st) (h3 : es.length = 3) :
    Runs (do
      trackChannel (some a)
      let newNode ← allocInner .n4
      copyHeader newNode a
      let n ← innerAt a
      let m ← innerAt newNode
      wr newNode (.inner { m with keys := goCopy m.keys 0 (n.keys.take 4), children := goCopy m.children 0 (n.children.take 4) })
      moveLeaf newNode a
      setNodeLeaf newNode n.leaf
      pure newNode : M V Nat) s fun a' s' => Shrunk N s n pfx es st a' s' := by
  have hal := lt_of_get ha
  refine Runs.bind (Runs.mono (trackChannel_runs (N := N) (by intro x hx; cases hx; exact hal)) ?_)
  rintro _ s1 ⟨a1, a2, -⟩
  refine Runs.bind (Runs.mono (allocInner_runs (N := N)) ?_)
  rintro nn s2 ⟨b1, b2, b3, j, b4⟩
  have ab := a1.then0 b1
  obtain ⟨i2, q2, ha2⟩ := ab.inner ha
  refine Runs.bind (copyHeader_runs ha2 b4 hh.part (by rfl) ?_)
  generalize hm1 : ({ ({ blankInner .n4 with id := j } : Inner) with numChildren := n.numChildren, partialLen := n.partialLen, part := goCopy (blankInner .n4).part 0 (n.part.take (min 10 n.partialLen)) } : Inner) = m1
  have f1 : m1.kind = .n4 := by rw [← hm1]; rfl
  have f2 : m1.leaf = none := by rw [← hm1]; rfl
  have f3 : m1.ch = none := by rw [← hm1]; rfl
  have f4 : m1.numChildren = n.numChildren := by rw [← hm1]
  have f5 : m1.keys = List.replicate 4 0 := by rw [← hm1]; rfl
  have f6 : m1.children = List.replicate 4 none := by rw [← hm1]; rfl
  have f7 : Header m1 pfx := hh.copy (d := (blankInner .n4).part) (by rfl) (by rw [← hm1]) (by rw [← hm1])
  have c1 := Stp.wrInner (N := N) (X := fun x => x = nn) (m := m1) b4 rfl f3 fun h => absurd h (by omega)
  have c2 : (s2.heap.set nn (Cell.inner m1))[nn]? = some (.inner m1) := get_set_self (lt_of_get b4)
  have c3 : (s2.heap.set nn (Cell.inner m1))[a]? = some (.inner { n with id := i2, ch := q2 }) := by rw [get_set_ne (by omega)]; exact ha2
  refine Runs.bind (Runs.innerAt c3 (Runs.bind (Runs.innerAt c2 (Runs.bind (Runs.wr (Runs.bind ?_))))))
  generalize hm2 : ({ m1 with keys := goCopy m1.keys 0 (n.keys.take 4), children := goCopy m1.children 0 (n.children.take 4) } : Inner) = m2
  have g1 : m2.kind = .n4 := by rw [← hm2]; exact f1
  have g2 : m2.leaf = none := by rw [← hm2]; exact f2
  have g3 : m2.ch = m1.ch := by rw [← hm2]
  have g4 : m2.numChildren = n.numChildren := by rw [← hm2]; exact f4
  have g5 : m2.keys = goCopy (List.replicate 4 0) 0 (n.keys.take 4) := by rw [← hm2, ← f5]
  have g6 : m2.children = goCopy (List.replicate 4 none) 0 (n.children.take 4) := by rw [← hm2, ← f6]
  have g7 : Header m2 pfx := f7.congr (by rw [← hm2]) (by rw [← hm2])
  have d1 := Stp.wrInner (N := N) (X := fun x => x = nn) (s := { s2 with heap := s2.heap.set nn (Cell.inner m1) }) (m := m2) c2 rfl g3 fun h => absurd h (by omega)
  have hnn : nn < (s2.heap.set nn (Cell.inner m1)).length := lt_of_get c2
  have d2 : ((s2.heap.set nn (Cell.inner m1)).set nn (Cell.inner m2))[nn]? = some (.inner m2) := get_set_self hnn
  have d3 : ((s2.heap.set nn (Cell.inner m1)).set nn (Cell.inner m2))[a]? = some (.inner { n with id := i2, ch := q2 }) := by rw [get_set_ne (by omega)]; exact c3
  have cd := c1.trans d1 fun x _ h => h
  have hl2 : LeafOK s2.heap n.leaf := hl.stp ab fun x lc _ h => h
  have hl3 := hl2.stp cd (by rintro x lc hx rfl; rw [b4] at hx; cases hx)
  refine Runs.mono (moveLeaf_runs (N := N) (s := { s2 with heap := (s2.heap.set nn (Cell.inner m1)).set nn (Cell.inner m2) }) d3 d2 g2 hl3 (by omega) (by omega)) ?_
  rintro _ s4 ⟨e1, i4, q4, o, e2, e3⟩
  refine Runs.bind (setNodeLeaf_runs e2 (Runs.pure ?_))
  have k1 := Stp.wrInner (N := N) (X := fun x => x = nn) (m := { m2 with id := i4, ch := q4, leaf := n.leaf }) e2 rfl rfl fun h => absurd h (by omega)
  have tot : Stp0 N s { s4 with heap := s4.heap.set nn (.inner { m2 with id := i4, ch := q4, leaf := n.leaf }) } := by
    refine Stp.mono (X := fun x => x = nn) (Stp0.then ab ((cd.trans e1 fun x _ h => h).trans k1 fun x _ h => h)) (Nat.le_refl _) ?_
    rintro x hx rfl
    omega
  exact ⟨tot, by omega, _, get_set_self (lt_of_get e2), (hL.shrink16 hk h3 g1 g4 g5 g6).congr rfl rfl rfl rfl, .of4 g1, g7.congr rfl rfl,
    LeafMv.start hl tot fun x lc _ h => h⟩

/-- The end of `removeChild48` and `removeChild256`. -/
theorem shrinkTail_runs {nn : Addr} {m : Inner} {kf : Inner → Inner → List Byte} {cf : Inner → Inner → List (Option Addr)} {len : Inner → Nat} {cap : Nat} {s0 : St V}
    (h0 : Stp0 N s0 s) (hN : N ≤ s0.heap.length) (hnn : s0.heap.length ≤ nn) (ha0 : s0.heap[a]? = some (.inner n)) (hh : Header n pfx) (hl : LeafOK s0.heap n.leaf)
    (hm : s.heap[nn]? = some (.inner m)) (hml : m.leaf = none) (hmh : Header m pfx) {es : Edges} (hD : Dense m es)
    (hlen : ∀ i q, len { n with id := i, ch := q } ≤ cap)
    (hL : ∀ i q (m' : Inner), m'.kind = m.kind → m'.numChildren = m.numChildren → (∀ j p o, m'.keys = kf { n with id := i, ch := q } { m with id := j, ch := p, leaf := o } → 
       m'.children = cf { n with id := i, ch := q } { m with id := j, ch := p, leaf := o } → Layout m' es st)) :
    Runs (do
      moveLeaf nn a
      let n ← innerAt a
      let m ← innerAt nn
      M.assert (len n ≤ cap) .index
      wr nn (.inner { m with keys := kf n m, children := cf n m })
      pure nn : M V Nat) s fun a' s' => Shrunk N s0 n pfx es st a' s' := by
  have hal := lt_of_get ha0
  obtain ⟨i, q, ha⟩ := h0.inner ha0
  have hl1 : LeafOK s.heap n.leaf := hl.stp h0 fun x lc _ h => h
  refine Runs.bind (Runs.mono (moveLeaf_runs (N := N) ha hm hml hl1 (by omega) (by omega)) ?_)
  rintro _ s4 ⟨e1, i4, q4, o, e2, e3⟩
  obtain ⟨i3, q3, ha4⟩ := (e1.frame a (lt_of_get ha) (by omega)).inner ha
  refine Runs.bind (Runs.innerAt ha4 (Runs.bind (Runs.innerAt e2 (Runs.bind (Runs.assert (hlen i3 q3) (Runs.bind (Runs.wr (Runs.pure ?_))))))))
  have k1 := Stp.wrInner (N := N) (X := fun x => x = nn) (m := { m with id := i4, ch := q4, leaf := o, keys := kf { n with id := i3, ch := q3 } { m with id := i4, ch := q4, leaf := o }, children := cf { n with id := i3, ch := q3 } { m with id := i4, ch := q4, leaf := o } }) e2 rfl rfl fun h => absurd h (by omega)
  have t1 := e1.trans k1 fun x _ h => h
  refine ⟨?_, hnn, _, get_set_self (lt_of_get e2), hL i3 q3 _ rfl rfl i4 q4 o rfl rfl, hD.congr rfl (Nat.le_refl _), hmh.congr rfl rfl, ?_⟩
  · refine Stp.mono (X := fun x => x = nn) (Stp0.then h0 t1) (Nat.le_refl _) ?_
    rintro x hx rfl
    omega
  · refine LeafMv.from h0 (e3.then k1 ?_) (t1.mono (Nat.le_refl _) fun _ _ _ => trivial) hl
    rintro x lc hx rfl
    rw [e2] at hx; cases hx


/-! ### Collapsing -/

theorem goCopy_take' {α : Type} {xs ys : List α} {i : Nat} (h : i + ys.length ≤ xs.length) : (goCopy xs i ys).take (i + ys.length) = xs.take i ++ ys := by
  unfold goCopy
  rw [List.take_of_length_le (l := ys) (by omega)]
  exact List.take_left' (by simp; omega)

theorem goCopy_length' {α : Type} {xs ys : List α} {i : Nat} (h : i + ys.length ≤ xs.length) : (goCopy xs i ys).length = xs.length := by
  unfold goCopy
  rw [List.take_of_length_le (l := ys) (by omega)]
  simp; omega

theorem joinPrefix_eq {b1 : Byte} {m : Inner} (hh : Header n pfx) (hk : n.getKeyAtIdx 0 = .ok b1) (hm : m.part.length = 10) :
    ∃ part, (joinPrefix n m >>= fun j => takePrefix { n with part := j.1 } m j.2) = .ok { m with part := part, partialLen := m.partialLen + n.partialLen + 1 } ∧ part.length = 10 ∧
      ∀ pfx1, Header m pfx1 → Header { m with part := part, partialLen := m.partialLen + n.partialLen + 1 } (pfx ++ [b1] ++ pfx1) := by
  obtain ⟨h1, h2, h3⟩ := hh
  have hlen : ∀ {part' : List Byte} {k : Nat}, part'.length = 10 → k ≤ 10 → (goCopy m.part 0 (part'.take k)).length = 10 := fun h1 h2 => by
    rw [goCopy_length (by rw [List.length_take, hm]; omega), hm]
  have htk : ∀ {part' : List Byte} {k : Nat}, part'.length = 10 → k ≤ 10 → (goCopy m.part 0 (part'.take k)).take k = part'.take k := fun {part' k} h1 h2 => by
    have := goCopy_take (xs := m.part) (ys := part'.take k) (by rw [List.length_take, hm]; omega)
    rwa [List.length_take, show min k part'.length = k from by omega] at this
  unfold joinPrefix takePrefix
  simp only [h1, hk, Except.bind_ok, maxPrefixLen]
  by_cases hp : pfx.length < 10
  · rw [if_pos hp, if_pos (by rw [h2]; exact hp)]
    have hpt : n.part.take pfx.length = pfx := by
      rw [show min 10 pfx.length = pfx.length from by omega] at h3
      rw [h3, List.take_of_length_le (by omega)]
    have hset : (n.part.set pfx.length b1).take (pfx.length + 1) = pfx ++ [b1] := by
      rw [List.take_succ_eq_append_getElem (by simp [h2, hp]), List.take_set_of_le (Nat.le_refl _), List.getElem_set_self, hpt]
    have hsl : (n.part.set pfx.length b1).length = 10 := by rw [List.length_set]; exact h2
    by_cases hp1 : pfx.length + 1 < 10
    · erw [if_pos hp1]
      erw [if_neg (by rw [hm, hsl]; omega)]
      simp only [Except.bind_ok]
      generalize hsub : min m.partialLen (10 - (pfx.length + 1)) = sub
      have hsub' : sub ≤ 10 - (pfx.length + 1) := by omega
      have htl : (m.part.take sub).length = sub := by rw [List.length_take, hm]; omega
      have hgl : (goCopy (n.part.set pfx.length b1) (pfx.length + 1) (m.part.take sub)).length = 10 := by
        rw [goCopy_length' (by rw [htl, hsl]; omega), hsl]
      rw [if_neg (by rw [hgl]; omega)]
      refine ⟨_, rfl, hlen hgl (by omega), fun pfx1 hh1 => ⟨?_, hlen hgl (by omega), ?_⟩⟩
      · simp only [List.length_append, List.length_singleton, hh1.len]; omega
      · have hm1 : min (pfx.length + 1 + sub) 10 = pfx.length + 1 + sub := by omega
        have hgt : (goCopy (n.part.set pfx.length b1) (pfx.length + 1) (m.part.take sub)).take (pfx.length + 1 + sub) = pfx ++ [b1] ++ m.part.take sub := by
          have := goCopy_take' (xs := n.part.set pfx.length b1) (ys := m.part.take sub) (i := pfx.length + 1) (by rw [htl, hsl]; omega)
          rw [htl, hset] at this
          exact this
        rw [hm1]
        rw [hh1.len] at hsub
        have hmin : min 10 (pfx ++ [b1] ++ pfx1).length = pfx.length + 1 + sub := by
          simp only [List.length_append, List.length_singleton]; omega
        simp only
        rw [hmin, htk hgl (by omega), hgt]
        have hms : m.part.take sub = pfx1.take sub := by
          have := congrArg (List.take sub) hh1.bytes
          rw [List.take_take, List.take_take] at this
          rw [show min sub (min 10 pfx1.length) = sub from by omega, show min sub 10 = sub from by omega] at this
          exact this
        rw [hms]
        rw [List.take_append, List.take_of_length_le (l := pfx ++ [b1]) (by simp; omega)]
        congr 1
        simp only [List.length_append, List.length_singleton]
        by_cases hc : sub = pfx1.length
        · rw [hc, List.take_length, List.take_of_length_le (by omega)]
        · congr 1; omega
    · erw [if_neg hp1]; simp only [Except.bind_ok]
      have hp9 : pfx.length = 9 := by omega
      rw [if_neg (by rw [hsl]; omega)]
      refine ⟨_, rfl, hlen hsl (by omega), fun pfx1 hh1 => ⟨?_, hlen hsl (by omega), ?_⟩⟩
      · simp only [List.length_append, List.length_singleton, hh1.len]; omega
      · have hmin : min 10 (pfx ++ [b1] ++ pfx1).length = 10 := by
          simp only [List.length_append, List.length_singleton]; omega
        have hm1 : min (pfx.length + 1) 10 = 10 := by omega
        simp only
        rw [hmin, hm1, htk hsl (by omega)]
        rw [hp9] at hset
        rw [hp9, hset, List.take_append, List.take_of_length_le (l := pfx ++ [b1]) (by simp; omega)]
        rw [show 10 - (pfx ++ [b1]).length = 0 from by simp; omega]
        simp
  · rw [if_neg hp]
    erw [if_neg hp]; simp only [Except.bind_ok]
    rw [if_neg (by rw [h2]; omega)]
    have hm1 : min pfx.length 10 = 10 := by omega
    rw [hm1]
    refine ⟨_, rfl, hlen h2 (by omega), fun pfx1 hh1 => ⟨?_, hlen h2 (by omega), ?_⟩⟩
    · simp only [List.length_append, List.length_singleton, hh1.len]; omega
    · have hmin : min 10 (pfx ++ [b1] ++ pfx1).length = 10 := by
        simp only [List.length_append, List.length_singleton]; omega
      simp only
      rw [hmin, htk h2 (by omega)]
      rw [show min 10 pfx.length = 10 from by omega] at h3
      rw [h3, List.append_assoc, List.take_append_of_le_length (by omega)]


/-- The node disappears: its only child takes its place. -/
structure Collapsed (N : Nat) (s : St V) (a : Addr) (n : Inner) (pfx : Key) (b1 : Byte) (c1 : Addr) (a' : Addr) (s' : St V) : Prop where
  leaf : n.leaf = none
  stp : Stp N (fun x => x = a ∨ x = c1) s s'
  at' : a' = c1 ∨ s.heap.length ≤ a'
  node : ∃ m part pl i q, s.heap[c1]? = some (.inner m) ∧ s'.heap[a']? = some (.inner { m with part := part, partialLen := pl, id := i, ch := q }) ∧
    part.length = 10 ∧ ∀ pfx1, Header m pfx1 → Header { m with part := part, partialLen := pl, id := i, ch := q } (pfx ++ [b1] ++ pfx1)
  chan : ∀ k, chAt s.heap c1 = some k → chAt s'.heap a' = some k ∨ k ∈ s'.txn.trackChnSlice

/-- A child of a node to be removed from. -/
def KidOK (h : Heap V) (a c : Addr) : Prop := c ≠ a ∧ ∃ m, h[c]? = some (.inner m) ∧ m.part.length = 10 ∧ LeafOK h m.leaf

theorem num_eq_one {n : Inner} {es : Edges} (h : n.numChildren.toNat = es.length) (k : Nat) (hk : k < 256) : n.numChildren = UInt8.ofNat k ↔ es.length = k := by
  rw [← h]
  constructor
  · intro h'; rw [h']; exact toNat_ofNat hk
  · intro h'; rw [← h']; simp

theorem removeChild4_runs {i : Nat} (ha : s.heap[a]? = some (.inner { n with children := n.children.set i none }))
    (hk : n.kind = .n4) (hh : Header n pfx) (hl : LeafOK s.heap n.leaf) (hL : Layout n (l ++ (b, c) :: r) st) (hi : AtSlot n l b i)
    (hv : ∀ x, some x ∈ n.children → x < s.heap.length) (hkid : ∀ b' c', (b', c') ∈ l ++ r → KidOK s.heap a c') :
    Runs (removeChild4 a b : M V Nat) s fun a' s' => RemPost N s a n.leaf pfx l r a' s' ∨
      ∃ b1 c1, l ++ r = [(b1, c1)] ∧ Collapsed N s a n pfx b1 c1 a' s' := by
  unfold removeChild4
  refine Runs.bind (Runs.mono (removeSorted_runs (N := N) ha (Or.inl ⟨hk, rfl⟩) hL hi hv) ?_)
  rintro _ s1 ⟨h1, h2, n', h3, h4, h5, h6, h7, h8⟩
  refine Runs.bind (Runs.innerAt h3 ?_)
  by_cases hc : n'.numChildren = 1 ∧ n'.leaf = none
  · rw [if_pos hc]
    have hone : (l ++ r).length = 1 := (num_eq_one h4.num 1 (by omega)).1 hc.1
    obtain ⟨⟨b1, c1⟩, hlr⟩ := List.length_eq_one_iff.1 hone
    have hb := h4.body
    rw [h5, hk] at hb
    rw [hlr] at hb
    have hget : n'.getChild 0 = .ok (some c1) := getChild_arr (i := 0) (Or.inl (h5.trans hk)) (hb.child (i := 0) (by simp))
    have hkey : n'.getKeyAtIdx 0 = .ok b1 := by
      unfold Inner.getKeyAtIdx
      have := hb.key (i := 0) (by simp)
      rw [h5, hk]
      simp only [this]
      rfl
    refine Runs.bind (Runs.lift hget ?_)
    simp only
    obtain ⟨hne, m, hm, hmp, hml⟩ := hkid b1 c1 (by rw [hlr]; simp)
    have hm' := hm
    obtain ⟨i1, q1, hm1⟩ := (h1.frame c1 (lt_of_get hm) hne).inner hm
    have hml1 : LeafOK s1.heap m.leaf := hml.stp h1 (by rintro x lc hx rfl; rw [ha] at hx; cases hx)
    refine Runs.bind (Runs.mono (writeInner_runs (N := N) (t := false) hm1 hmp fun l hl => hml1.lt hl) ?_)
    rintro ret s2 ⟨e1, e2, ⟨i2, q2, e3⟩, -, e5⟩
    obtain ⟨i3, q3, ha3⟩ := e1.inner h3
    obtain ⟨part, g1, g2, g3⟩ := joinPrefix_eq (n := { n' with id := i3, ch := q3 }) (m := { m with id := i2, ch := q2 }) (pfx := pfx) (b1 := b1)
      (hh.congr h8 h7) hkey hmp
    obtain ⟨j, g0, g1⟩ := R.bind_ok g1
    refine Runs.bind (Runs.innerAt ha3 (Runs.bind (Runs.innerAt e3 (Runs.bind (Runs.lift g0 (Runs.bind (Runs.wr ?_)))))))
    have hra : ret ≠ a := by
      rintro rfl
      rcases e2 with e2 | e2
      · exact hne e2.symm
      · have := lt_of_get h3; omega
    have k0 := Stp.wrInner (N := N) (X := fun x => x = a) (m := { n' with id := i3, ch := q3, part := j.1 }) ha3 rfl rfl fun _ => Or.inl rfl
    have ha4 := get_set_self (c := (Cell.inner { n' with id := i3, ch := q3, part := j.1 } : Cell V)) (lt_of_get ha3)
    have e4 := (get_set_ne (h := s2.heap) (c := (Cell.inner { n' with id := i3, ch := q3, part := j.1 } : Cell V)) (Ne.symm hra)).trans e3
    refine Runs.bind (Runs.innerAt ha4 (Runs.bind (Runs.innerAt e4 (Runs.bind (Runs.lift g1 (Runs.bind (Runs.wr (Runs.bind ?_))))))))
    generalize hm3 : ({ m with part := part, partialLen := m.partialLen + n'.partialLen + 1, id := i2, ch := q2 } : Inner) = m3
    have k1 := Stp.wrInner (N := N) (s := { s2 with heap := s2.heap.set a (.inner { n' with id := i3, ch := q3, part := j.1 }) }) (X := fun x => x = ret) (m := m3) e4 rfl (by rw [← hm3]) fun _ => Or.inl (by rw [← hm3])
    refine Runs.mono (trackChannel_runs (N := N) (o := some a) ?_) ?_
    · intro x hx
      cases hx
      rw [List.length_set]; exact lt_of_get ha4
    · rintro _ s4 ⟨t1, t2, -⟩
      refine Runs.pure (Or.inr ⟨b1, c1, hlr, ?_⟩)
      obtain ⟨i4, q4, hm4⟩ := t1.inner (x := ret) (n := m3) (get_set_self (lt_of_get e4))
      refine ⟨h6 ▸ hc.2, ?_, ?_, ⟨m, part, m.partialLen + n'.partialLen + 1, i4, q4, hm, ?_, g2, ?_⟩, ?_⟩
      · have k2 : Stp N (fun x => x = a ∨ x = ret) s2 _ := (Stp.mono k0 (Nat.le_refl _) fun x _ h => Or.inl h).trans k1 fun x _ h => Or.inr h
        refine ((Stp.mono h1 (Nat.le_refl _) fun x _ h => Or.inl h).trans (Stp0.then e1 k2) ?_).trans t1 fun x _ h => h.elim
        rintro x hx (rfl | rfl)
        · exact Or.inl rfl
        rcases e2 with e2 | e2
        · exact Or.inr e2
        · have := h1.len; omega
      · rcases e2 with e2 | e2
        · exact Or.inl e2
        · exact Or.inr (Nat.le_trans h1.len e2)
      · rw [hm4, ← hm3]
      · intro pfx1 hh1
        exact (g3 pfx1 (hh1.congr rfl rfl)).congr rfl rfl
      · intro k hck
        have hs : ∀ c, c ∈ s1.txn.trackChnSlice → c ∈ s4.txn.trackChnSlice := fun c hc => t1.slice c (k1.slice c (k0.slice c (e1.slice c hc)))
        rcases h1.chs c1 k hck with hck | hck
        · have := e5 rfl k hck
          have h9 : chAt ((s2.heap.set a (.inner { n' with id := i3, ch := q3, part := j.1 })).set ret (.inner m3)) ret = some k := by
            simp only [chAt, e3, Option.bind_some] at this
            simp only [chAt, get_set_self (lt_of_get e4), Option.bind_some]
            rw [← this, ← hm3]; rfl
          rcases t1.chs ret k h9 with h | h
          · exact Or.inl h
          · exact Or.inr h
        · exact Or.inr (hs k hck)
  · rw [if_neg hc]
    exact Runs.pure (Or.inl (RemPost.stay (n0 := { n with children := n.children.set i none }) h1 ha h6 hl (Or.inr rfl) h3 h4 (.of4 (h5.trans hk)) (hh.congr h8 h7)))

theorem removeChild16_runs {i : Nat} (hN : N ≤ s.heap.length) (ha : s.heap[a]? = some (.inner { n with children := n.children.set i none }))
    (hk : n.kind = .n16) (hh : Header n pfx) (hl : LeafOK s.heap n.leaf) (hL : Layout n (l ++ (b, c) :: r) st) (hD : Dense n (l ++ (b, c) :: r)) (hi : AtSlot n l b i)
    (hv : ∀ x, some x ∈ n.children → x < s.heap.length) :
    Runs (removeChild16 a b : M V Nat) s fun a' s' => RemPost N s a n.leaf pfx l r a' s' := by
  unfold removeChild16
  refine Runs.bind (Runs.mono (removeSorted_runs (N := N) ha (Or.inr ⟨hk, rfl⟩) hL hi hv) ?_)
  rintro _ s1 ⟨h1, h2, n', h3, h4, h5, h6, h7, h8⟩
  refine Runs.bind (Runs.innerAt h3 ?_)
  by_cases hc : n'.numChildren = 3
  · rw [if_pos hc]
    have hone : (l ++ r).length = 3 := (num_eq_one h4.num 3 (by omega)).1 hc
    refine Runs.mono (shrink16_runs (N := N) (by omega) h3 (h5.trans hk) (hh.congr h8 h7) ?_ h4 hone) ?_
    · rw [h6]; exact hl.stp h1 (by rintro x lc hx rfl; rw [ha] at hx; cases hx)
    · intro a' s' h
      exact h.post (n0 := { n with children := n.children.set i none }) h1 ha h6 hl h1.len (Or.inr rfl)
  · rw [if_neg hc]
    exact Runs.pure (RemPost.stay (n0 := { n with children := n.children.set i none }) h1 ha h6 hl (Or.inr rfl) h3 h4 (.of16 (h5.trans hk) (by
      have h9 := hD.k16 hk
      have h10 : (l ++ r).length ≠ 3 := fun h => hc ((num_eq_one h4.num 3 (by omega)).2 h)
      simp only [List.length_append, List.length_cons] at h9 h10 ⊢; omega)) (hh.congr h8 h7))

theorem removeChild48_runs {i : Nat} (hN : N ≤ s.heap.length) (ha : s.heap[a]? = some (.inner { n with children := n.children.set i none }))
    (hk : n.kind = .n48) (hh : Header n pfx) (hl : LeafOK s.heap n.leaf) (hL : Layout n (l ++ (b, c) :: r) st) (hD : Dense n (l ++ (b, c) :: r)) (hi : AtSlot n l b i) :
    Runs (removeChild48 a b : M V Nat) s fun a' s' => RemPost N s a n.leaf pfx l r a' s' := by
  have hi' := hi
  unfold AtSlot at hi
  rw [hk] at hi
  simp only at hi
  have hb := hL.body
  rw [hk] at hb
  obtain ⟨hb, -⟩ := hb
  have hcl := hb.clen
  have hkl := hb.klen
  have hsub : (UInt8.ofNat (i + 1) - 1).toNat = i := by
    rw [UInt8.toNat_sub_of_le _ _ (by rw [UInt8.le_iff_toNat_le, toNat_ofNat (by omega)]; simp), toNat_ofNat (by omega)]; simp
  unfold removeChild48
  refine Runs.bind (Runs.innerAt ha ?_)
  refine Runs.bind (Runs.lift (a := UInt8.ofNat (i + 1)) (by simp only [Inner.getKeyAtIdx, hk, hi.2]) ?_)
  refine Runs.bind (Runs.lift (a := { n with children := n.children.set i none, keys := n.keys.set b.toNat 0 }) (by
    simp only [Inner.setKeyAtIdx, hk]
    rw [if_pos (by rw [hkl]; exact byte_lt_len b)]) ?_)
  refine Runs.bind (Runs.wr ?_)
  simp only [hsub]
  refine Runs.bind (Runs.lift (getChild_arr (i := i) (o := none) (Or.inr (Or.inr hk)) (by simp [hcl, hi.1])) ?_)
  have w1 := Stp.wrInner (N := N) (X := fun x => x = a) (m := { n with children := n.children.set i none, keys := n.keys.set b.toNat 0 }) ha rfl rfl fun _ => Or.inl rfl
  have w2 := get_set_self (c := (Cell.inner { n with children := n.children.set i none, keys := n.keys.set b.toNat 0 } : Cell V)) (lt_of_get ha)
  generalize hs1 : ({ s with heap := s.heap.set a (.inner { n with children := n.children.set i none, keys := n.keys.set b.toNat 0 }) } : St V) = s1 at w1 ⊢
  have w2' : s1.heap[a]? = some (.inner { n with children := n.children.set i none, keys := n.keys.set b.toNat 0 }) := by rw [← hs1]; exact w2
  refine Runs.bind (Runs.mono (trackChannel_runs (N := N) (o := none) (by intro x hx; cases hx)) ?_)
  rintro _ s2 ⟨x1, x2, -⟩
  obtain ⟨j1, q1, x3⟩ := x1.inner w2'
  refine Runs.bind (setChildAt_runs x3 (by simpa [hcl] using hi.1) ?_)
  have y1 := Stp.wrInner (N := N) (X := fun x => x = a) (m := { n with children := (n.children.set i none).set i none, keys := n.keys.set b.toNat 0, id := j1, ch := q1 }) x3 rfl rfl fun _ => Or.inl rfl
  have y2 := get_set_self (c := (Cell.inner { n with children := (n.children.set i none).set i none, keys := n.keys.set b.toNat 0, id := j1, ch := q1 } : Cell V)) (lt_of_get x3)
  refine Runs.bind (Runs.innerAt y2 (Runs.bind (Runs.wr ?_)))
  have z1 := Stp.wrInner (s := { s2 with heap := s2.heap.set a (.inner { n with children := (n.children.set i none).set i none, keys := n.keys.set b.toNat 0, id := j1, ch := q1 }) }) (N := N) (X := fun x => x = a) (m := { n with children := (n.children.set i none).set i none, keys := n.keys.set b.toNat 0, id := j1, ch := q1, numChildren := n.numChildren - 1 }) y2 rfl rfl fun _ => Or.inl rfl
  have z2 := get_set_self (c := (Cell.inner { n with children := (n.children.set i none).set i none, keys := n.keys.set b.toNat 0, id := j1, ch := q1, numChildren := n.numChildren - 1 } : Cell V)) (lt_of_get y2)
  refine Runs.bind (Runs.innerAt z2 ?_)
  have tot := ((w1.then0 x1).trans y1 fun x _ h => h).trans z1 fun x _ h => h
  have hL3 := hL.remove48 hk hi' (m := { n with children := (n.children.set i none).set i none, keys := n.keys.set b.toNat 0, id := j1, ch := q1, numChildren := n.numChildren - 1 }) hk rfl (by simp) rfl
  generalize hn3 : ({ n with children := (n.children.set i none).set i none, keys := n.keys.set b.toNat 0, id := j1, ch := q1, numChildren := n.numChildren - 1 } : Inner) = n3 at tot hL3 z2 ⊢
  generalize hs3 : ({ s2 with heap := (s2.heap.set a (.inner { n with children := (n.children.set i none).set i none, keys := n.keys.set b.toNat 0, id := j1, ch := q1 })).set a (.inner n3) } : St V) = s3 at tot ⊢
  have z3 : s3.heap[a]? = some (.inner n3) := by rw [← hs3]; exact z2
  have f1 : n3.leaf = n.leaf := by rw [← hn3]
  have f2 : Header n3 pfx := hh.congr (by rw [← hn3]) (by rw [← hn3])
  have f3 : n3.kind = .n48 := by rw [← hn3]; exact hk
  have hlX : ∀ (x : Addr) (lc : LeafC V), s.heap[x]? = some (.leaf lc) → ¬ x = a := by rintro x lc hx rfl; rw [ha] at hx; cases hx
  by_cases hc : n3.numChildren = 12
  · rw [if_pos hc]
    have h12 : (l ++ r).length = 12 := (num_eq_one hL3.num 12 (by omega)).1 hc
    refine Runs.bind (Runs.mono (allocInner_runs (N := N)) ?_)
    rintro nn s4 ⟨b1, b2, b3, j, b4⟩
    obtain ⟨i4, q4, b5⟩ := b1.inner z3
    refine Runs.bind (Runs.mono (trackChannel_runs (N := N) (o := some a) (by intro x hx; cases hx; exact lt_of_get b5)) ?_)
    rintro _ s5 ⟨t1, t2, -⟩
    obtain ⟨i5, q5, t3⟩ := t1.inner b5
    obtain ⟨i6, q6, t4⟩ := t1.inner b4
    refine Runs.bind (copyHeader_runs t3 t4 f2.part (by rfl) ?_)
    have hlen3 := tot.len
    have hal := lt_of_get z3
    have k1 := Stp.wrInner (N := N) (X := fun x => x = nn) (m := { ({ blankInner .n16 with id := i6, ch := q6 } : Inner) with numChildren := n3.numChildren, partialLen := n3.partialLen, part := goCopy (blankInner .n16).part 0 (n3.part.take (min 10 n3.partialLen)) }) t4 rfl rfl fun h => absurd h (by omega)
    have k2 := (get_set_self (c := (Cell.inner { ({ blankInner .n16 with id := i6, ch := q6 } : Inner) with numChildren := n3.numChildren, partialLen := n3.partialLen, part := goCopy (blankInner .n16).part 0 (n3.part.take (min 10 n3.partialLen)) } : Cell V)) (lt_of_get t4))
    refine Runs.mono (shrinkTail_runs (N := N) (s0 := s3) (n := n3) (pfx := pfx) (es := l ++ r) (st := none)
      (kf := fun n m => goCopy m.keys 0 ((compact48 n).map (·.1))) (cf := fun n m => goCopy m.children 0 ((compact48 n).map (·.2))) (len := fun n => (compact48 n).length) (cap := 16)
      (m := { ({ blankInner .n16 with id := i6, ch := q6 } : Inner) with numChildren := n3.numChildren, partialLen := n3.partialLen, part := goCopy (blankInner .n16).part 0 (n3.part.take (min 10 n3.partialLen)) })
      ?_ (by omega) (by omega) z3 f2 (by rw [f1]; exact hl.stp tot hlX) k2 rfl (f2.copy (d := (blankInner .n16).part) (by rfl) rfl rfl) (.of16 rfl (by omega)) ?_ ?_) ?_
    · refine Stp.mono (X := fun x => x = nn) (Stp0.then (b1.then0 t1) k1) (Nat.le_refl _) ?_
      rintro x hx rfl
      omega
    · intro i' q'
      rw [compact48_eq (n := { n3 with id := i', ch := q' }) f3 (hL3.congr rfl rfl rfl rfl)]
      simp only [List.length_map]; omega
    · intro i' q' m' e1 e2 j' p' o' e3 e4
      exact Layout.shrink48 (n := { n3 with id := i', ch := q' }) f3 (hL3.congr rfl rfl rfl rfl) (by omega) e1 e2 e3 e4
    · intro a' s' h
      exact h.post (n0 := { n with children := n.children.set i none }) tot ha f1 hl tot.len (Or.inl rfl)
  · rw [if_neg hc]
    exact Runs.pure (RemPost.stay (n0 := { n with children := n.children.set i none }) tot ha f1 hl (Or.inl rfl) z3 hL3 (.of48 f3 (by
      have h9 := hD.k48 hk
      have h10 : (l ++ r).length ≠ 12 := fun h => hc ((num_eq_one hL3.num 12 (by omega)).2 h)
      simp only [List.length_append, List.length_cons] at h9 h10 ⊢; omega)) f2)


theorem removeChild256_runs {i : Nat} (hN : N ≤ s.heap.length) (ha : s.heap[a]? = some (.inner { n with children := n.children.set i none }))
    (hk : n.kind = .n256) (hh : Header n pfx) (hl : LeafOK s.heap n.leaf) (hL : Layout n (l ++ (b, c) :: r) st) (hD : Dense n (l ++ (b, c) :: r)) (hi : AtSlot n l b i) :
    Runs (removeChild256 a b : M V Nat) s fun a' s' => RemPost N s a n.leaf pfx l r a' s' := by
  have hi' := hi
  unfold AtSlot at hi
  rw [hk] at hi
  simp only at hi
  subst hi
  have hb := hL.body
  rw [hk] at hb
  obtain ⟨hb, -⟩ := hb
  have hcl := hb.1
  unfold removeChild256
  refine Runs.bind (setChildAt_runs ha (by rw [List.length_set, hcl]; exact byte_lt_len b) ?_)
  have y1 := Stp.wrInner (N := N) (X := fun x => x = a) (m := { n with children := (n.children.set b.toNat none).set b.toNat none }) ha rfl rfl fun _ => Or.inl rfl
  have y2 := get_set_self (c := (Cell.inner { n with children := (n.children.set b.toNat none).set b.toNat none } : Cell V)) (lt_of_get ha)
  refine Runs.bind (Runs.innerAt y2 (Runs.bind (Runs.wr ?_)))
  have z1 := Stp.wrInner (s := { s with heap := s.heap.set a (.inner { n with children := (n.children.set b.toNat none).set b.toNat none }) }) (N := N) (X := fun x => x = a) (m := { n with children := (n.children.set b.toNat none).set b.toNat none, numChildren := n.numChildren - 1 }) y2 rfl rfl fun _ => Or.inl rfl
  have z2 := get_set_self (c := (Cell.inner { n with children := (n.children.set b.toNat none).set b.toNat none, numChildren := n.numChildren - 1 } : Cell V)) (lt_of_get y2)
  refine Runs.bind (Runs.innerAt z2 ?_)
  have tot := y1.trans z1 fun x _ h => h
  have hL3 := hL.remove256 hk (m := { n with children := (n.children.set b.toNat none).set b.toNat none, numChildren := n.numChildren - 1 }) hk (by simp) rfl
  generalize hn3 : ({ n with children := (n.children.set b.toNat none).set b.toNat none, numChildren := n.numChildren - 1 } : Inner) = n3 at tot hL3 z2 ⊢
  generalize hs3 : ({ s with heap := (s.heap.set a (.inner { n with children := (n.children.set b.toNat none).set b.toNat none })).set a (.inner n3) } : St V) = s3 at tot ⊢
  have z3 : s3.heap[a]? = some (.inner n3) := by rw [← hs3]; exact z2
  have f1 : n3.leaf = n.leaf := by rw [← hn3]
  have f2 : Header n3 pfx := hh.congr (by rw [← hn3]) (by rw [← hn3])
  have f3 : n3.kind = .n256 := by rw [← hn3]; exact hk
  have hlX : ∀ (x : Addr) (lc : LeafC V), s.heap[x]? = some (.leaf lc) → ¬ x = a := by rintro x lc hx rfl; rw [ha] at hx; cases hx
  by_cases hc : n3.numChildren = 37
  · rw [if_pos hc]
    have h37 : (l ++ r).length = 37 := (num_eq_one hL3.num 37 (by omega)).1 hc
    refine Runs.bind (Runs.mono (allocInner_runs (N := N)) ?_)
    rintro nn s4 ⟨b1, b2, b3, j, b4⟩
    obtain ⟨i4, q4, b5⟩ := b1.inner z3
    have hlen3 := tot.len
    have hal := lt_of_get z3
    refine Runs.bind (copyHeader_runs b5 b4 f2.part (by rfl) ?_)
    generalize hm1 : ({ ({ blankInner .n48 with id := j } : Inner) with numChildren := n3.numChildren, partialLen := n3.partialLen, part := goCopy (blankInner .n48).part 0 (n3.part.take (min 10 n3.partialLen)) } : Inner) = m1
    have g1 : Header m1 pfx := f2.copy (d := (blankInner .n48).part) (by rfl) (by rw [← hm1]) (by rw [← hm1])
    have g2 : m1.leaf = none := by rw [← hm1]; rfl
    have g3 : m1.kind = .n48 := by rw [← hm1]; rfl
    have g4 : m1.numChildren = n3.numChildren := by rw [← hm1]
    have g5 : m1.children = List.replicate 48 none := by rw [← hm1]; rfl
    have k1 := Stp.wrInner (N := N) (X := fun x => x = nn) (m := m1) b4 rfl (by rw [← hm1]) fun h => absurd h (by omega)
    have k2 := get_set_self (c := (Cell.inner m1 : Cell V)) (lt_of_get b4)
    refine Runs.bind (Runs.mono (trackChannel_runs (N := N) (o := some a) (by intro x hx; cases hx; rw [List.length_set]; exact lt_of_get b5)) ?_)
    rintro _ s5 ⟨t1, t2, -⟩
    obtain ⟨i6, q6, t4⟩ := t1.inner (x := nn) k2
    refine Runs.mono (shrinkTail_runs (N := N) (s0 := s3) (n := n3) (pfx := pfx) (es := l ++ r) (st := none)
      (kf := fun n m => index48 (compact256 n)) (cf := fun n m => goCopy m.children 0 ((compact256 n).map fun p => some p.2)) (len := fun n => (compact256 n).length) (cap := 48)
      (m := { m1 with id := i6, ch := q6 })
      ?_ (by omega) (by omega) z3 f2 (by rw [f1]; exact hl.stp tot hlX) t4 g2 (g1.congr rfl rfl) (.of48 g3 (by omega)) ?_ ?_) ?_
    · refine Stp.mono (X := fun x => x = nn) ((Stp0.then b1 k1).then0 t1) (Nat.le_refl _) ?_
      rintro x hx rfl
      omega
    · intro i' q'
      rw [compact256_eq (n := { n3 with id := i', ch := q' }) f3 (hL3.congr rfl rfl rfl rfl)]
      omega
    · intro i' q' m' e1 e2 j' p' o' e3 e4
      exact Layout.shrink256 (n := { n3 with id := i', ch := q' }) f3 (hL3.congr rfl rfl rfl rfl) (by omega) (e1.trans g3) (e2.trans g4) e3 (by rw [e4]; simp only [g5])
    · intro a' s' h
      exact h.post (n0 := { n with children := n.children.set b.toNat none }) tot ha f1 hl tot.len (Or.inl rfl)
  · rw [if_neg hc]
    exact Runs.pure (RemPost.stay (n0 := { n with children := n.children.set b.toNat none }) tot ha f1 hl (Or.inl rfl) z3 hL3 (.of256 f3 (by
      have h9 := hD.k256 hk
      have h10 : (l ++ r).length ≠ 37 := fun h => hc ((num_eq_one hL3.num 37 (by omega)).2 h)
      simp only [List.length_append, List.length_cons] at h9 h10 ⊢; omega)) f2)

/-- `removeChild` after the slot of the edge `b` was set to nil. -/
theorem removeChild_runs {i : Nat} (hN : N ≤ s.heap.length) (ha : s.heap[a]? = some (.inner { n with children := n.children.set i none }))
    (hh : Header n pfx) (hl : LeafOK s.heap n.leaf) (hL : Layout n (l ++ (b, c) :: r) st) (hD : Dense n (l ++ (b, c) :: r)) (hi : AtSlot n l b i)
    (hv : ∀ x, some x ∈ n.children → x < s.heap.length) (hkid : ∀ b' c', (b', c') ∈ l ++ r → KidOK s.heap a c') :
    Runs (removeChild a b : M V Nat) s fun a' s' => RemPost N s a n.leaf pfx l r a' s' ∨
      ∃ b1 c1, l ++ r = [(b1, c1)] ∧ Collapsed N s a n pfx b1 c1 a' s' := by
  unfold removeChild
  refine Runs.bind (Runs.cell ha ?_)
  simp only
  rcases hL.kinds with ⟨hk, hb⟩ | ⟨hk, hb⟩ | ⟨hk, hb⟩ | ⟨hk, hb⟩ <;> rw [hk] <;> simp only
  · exact removeChild4_runs ha hk hh hl hL hi hv hkid
  · exact Runs.mono (removeChild16_runs hN ha hk hh hl hL hD hi hv) fun _ _ h => Or.inl h
  · exact Runs.mono (removeChild48_runs hN ha hk hh hl hL hD hi) fun _ _ h => Or.inl h
  · exact Runs.mono (removeChild256_runs hN ha hk hh hl hL hD hi) fun _ _ h => Or.inl h

end Art
