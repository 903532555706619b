import Verif.Proofs.Snapshot
/-
A copied root answers like the original: the two cells differ only in the channel and, where it does not
matter, in the padding of the compressed prefix.
-/
set_option autoImplicit false
set_option linter.unusedVariables false
set_option linter.unusedSimpArgs false
set_option linter.unusedSectionVars false
namespace Art
variable {V : Type} [Inhabited V]

/-- Cells at `r` and `r'` differ only in the channel and in a prefix that is not read. -/
structure Twin (h : Heap V) (r r' : Addr) (n : Inner) : Prop where
  orig : h[r]? = some (.inner n)
  copy : ∃ p ch, h[r']? = some (.inner { n with part := p, ch := ch }) ∧ (p = n.part ∨ n.partialLen = 0)

variable {h : Heap V} {r r' : Addr} {n : Inner}

theorem goCopy_full {α : Type} (z xs : List α) (h : xs.length = z.length) : goCopy z 0 xs = xs := by
  unfold goCopy
  simp [h.symm]

/-- The copy that `clone` makes. -/
theorem Twin.of_clone {ch : Option ChanId} (h1 : h[r]? = some (.inner n))
    (h2 : h[r']? = some (.inner { n with part := goCopy zeroPartial 0 n.part, ch := ch }))
    (hp : n.part.length = 10 ∨ n.partialLen = 0) : Twin h r r' n := by
  refine ⟨h1, _, _, h2, ?_⟩
  rcases hp with hp | hp
  · exact .inl (goCopy_full _ _ (by rw [hp]; rfl))
  · exact .inr hp

theorem prefixBails_twin {p : List Byte} {ch : Option ChanId} (hp : p = n.part ∨ n.partialLen = 0) (key : Key) (depth : Nat) :
    prefixBails (V := V) (.inner { n with part := p, ch := ch }) key depth = prefixBails (V := V) (.inner n) key depth := by
  rcases hp with rfl | hp
  · rfl
  · simp [prefixBails, Cell.partialLen, hp]

theorem minimumAux_twin (ht : Twin h r r' n) (f : Nat) : minimumAux h (f + 1) (some r') = minimumAux h (f + 1) (some r) := by
  obtain ⟨p, ch, h2, -⟩ := ht.copy
  simp only [minimumAux, rd, ht.orig, h2, Except.bind_ok]
  rfl

theorem minimum_twin (ht : Twin h r r' n) : minimum h (some r') = minimum h (some r) := minimumAux_twin ht _

theorem maximum_twin (ht : Twin h r r' n) : maximum h (some r') = maximum h (some r) := by
  obtain ⟨p, ch, h2, -⟩ := ht.copy
  simp only [maximum, maximumAux, rd, ht.orig, h2, Except.bind_ok]
  rfl

theorem prefixMismatch_twin (ht : Twin h r r' n) (key : Key) (kl d : Nat) :
    prefixMismatch h r' key kl d = prefixMismatch h r key kl d := by
  obtain ⟨p, ch, h2, hp⟩ := ht.copy
  simp only [prefixMismatch, rd, ht.orig, h2, Except.bind_ok, minimum_twin ht]
  rcases hp with rfl | hp
  · rfl
  · have h3 : Cell.partialLen (V := V) (.inner { n with part := p, ch := ch }) = 0 := hp
    have h4 : Cell.partialLen (V := V) (.inner n) = 0 := hp
    simp only [h3, h4, Nat.zero_min, Nat.min_zero, scanEq]

theorem search_twin (ht : Twin h r r' n) (k : Key) :
    (search h r' k).map Hit.val = (search h r k).map Hit.val := by
  obtain ⟨p, ch, h2, hp⟩ := ht.copy
  unfold search
  rw [searchLoopAt, searchLoopAt]
  simp only [rd, ht.orig, h2, Except.bind_ok, prefixBails_twin hp]
  have h1 : searchLeaf h r' (.inner { n with part := p, ch := ch }) (getTreeKey k) = searchLeaf h r (.inner n) (getTreeKey k) := rfl
  have h3 : (searchStop h r' (.inner { n with part := p, ch := ch }) (getTreeKey k)).map Hit.val =
      (searchStop h r (.inner n) (getTreeKey k)).map Hit.val := by
    unfold searchStop
    have a1 : searchOwn h (.inner { n with part := p, ch := ch }) (getTreeKey k) = searchOwn h (.inner n) (getTreeKey k) := rfl
    have a2 : searchChildren h (getTreeKey k) (Cell.children (V := V) (.inner { n with part := p, ch := ch })) =
      searchChildren h (getTreeKey k) (Cell.children (V := V) (.inner n)) := rfl
    rw [a1]
    simp only [a2]
    cases searchOwn h (.inner n) (getTreeKey k) with
    | error e => rfl
    | ok o =>
      cases o with
      | some q => rfl
      | none =>
        simp only [Except.bind_ok]
        cases searchChildren h (getTreeKey k) (Cell.children (V := V) (.inner n)) with
        | error e => rfl
        | ok o => cases o <;> rfl
  have h4 : ∀ b, Cell.findChild (V := V) (.inner { n with part := p, ch := ch }) b = Cell.findChild (V := V) (.inner n) b := fun b => rfl
  have h5 : Cell.partialLen (V := V) (.inner { n with part := p, ch := ch }) = Cell.partialLen (V := V) (.inner n) := rfl
  rw [h1]
  simp only [h4, h5]
  cases searchLeaf h r (.inner n) (getTreeKey k) with
  | error e => rfl
  | ok o =>
    cases o with
    | some q => rfl
    | none =>
      simp only [Except.bind_ok]
      cases prefixBails (V := V) (.inner n) (getTreeKey k) 0 with
      | error e => rfl
      | ok b =>
        simp only [Except.bind_ok]
        split
        · exact h3
        · split
          · exact h3
          · cases byteAt (getTreeKey k) (0 + Cell.partialLen (V := V) (.inner n)) with
            | error e => rfl
            | ok b =>
              simp only [Except.bind_ok]
              cases Cell.findChild (V := V) (.inner n) b with
              | error e => rfl
              | ok q =>
                obtain ⟨o, i⟩ := q
                cases o with
                | none => exact h3
                | some c => rfl

theorem treeGet_eq_map (h : Heap V) (t : Tree) (k : Key) : treeGet h t k = (search h t.root k).map Hit.val := by
  unfold treeGet
  cases search h t.root k <;> rfl

theorem longestPrefix_twin (ht : Twin h r r' n) {t t' : Tree} (hr : t.root = r) (hr' : t'.root = r') (k : Key) :
    longestPrefix h t' k = longestPrefix h t k := by
  obtain ⟨p, ch, h2, hp⟩ := ht.copy
  unfold longestPrefix
  rw [hr, hr']
  simp only [lpLoop, rd, ht.orig, h2, Except.bind_ok, prefixBails_twin hp]
  rfl

theorem treeWalk_twin (ht : Twin h r r' n) {t t' : Tree} (hr : t.root = r) (hr' : t'.root = r') (fn : Key → V → Bool) :
    treeWalk h t' fn = treeWalk h t fn := by
  obtain ⟨p, ch, h2, hp⟩ := ht.copy
  unfold treeWalk
  rw [hr, hr']
  simp only [recursiveWalk, rd, ht.orig, h2, Except.bind_ok]
  rfl

theorem pathCollect_twin (ht : Twin h r r' n) {t t' : Tree} (hr : t.root = r) (hr' : t'.root = r') (q : Key) (fuel : Nat) :
    pathCollect h fuel (getPathIterator t' q) = pathCollect h fuel (getPathIterator t q) := by
  obtain ⟨p, ch, h2, hp⟩ := ht.copy
  cases fuel with
  | zero => rfl
  | succ fuel =>
    unfold getPathIterator
    rw [hr, hr']
    simp only [pathCollect, pathNext, rd, ht.orig, h2, Except.bind_ok]
    rfl

/-! ### Forward iteration -/

/-- The field `node` plays no role in `Next`. -/
theorem iterNext_node (h : Heap V) (x : Option Addr) (f : Nat) (it : Iter) :
    iterNext h f { it with node := x } = (iterNext h f it).map fun q => (q.1, { q.2 with node := x }) := by
  induction f generalizing it with
  | zero => rfl
  | succ f ih =>
    obtain ⟨path, nd, stack, sm⟩ := it
    rw [iterNext, iterNext]
    match stack with
    | [] => rfl
    | none :: rest => rfl
    | some a :: rest =>
      simp only
      cases rd h a with
      | error e => rfl
      | ok c =>
        cases c with
        | leaf l =>
          simp only [Except.bind_ok]
          split
          · rfl
          · exact ih { path := path, node := nd, stack := rest, seenMismatch := sm }
        | inner m =>
          simp only [Except.bind_ok]
          have := ih { path := path, node := nd, stack := m.iterChildren ++ rest, seenMismatch := sm }
          cases m.leaf with
          | none => exact this
          | some l =>
            simp only
            cases rdLeaf h l with
            | error e => rfl
            | ok lc =>
              simp only [Except.bind_ok]
              split
              · rfl
              · exact this

theorem iterCollect_node (h : Heap V) (x : Option Addr) (f : Nat) (it : Iter) :
    iterCollect h f { it with node := x } = iterCollect h f it := by
  induction f generalizing it with
  | zero => rfl
  | succ f ih =>
    rw [iterCollect, iterCollect, iterNext_node]
    cases iterNext h (f + 1) it with
    | error e => rfl
    | ok q =>
      obtain ⟨o, it'⟩ := q
      show (match o with | none => _ | some kv => _) = (match o with | none => _ | some kv => _)
      cases o with
      | none => rfl
      | some kv =>
        simp only
        rw [ih it']

theorem iterCollect_twin (ht : Twin h r r' n) (f : Nat) (path : Key) (x x' : Option Addr) (sm : Bool) :
    iterCollect h f { path := path, node := x', stack := [some r'], seenMismatch := sm } =
    iterCollect h f { path := path, node := x, stack := [some r], seenMismatch := sm } := by
  rw [show ({ path := path, node := x', stack := [some r'], seenMismatch := sm } : Iter) =
    { ({ path := path, node := x, stack := [some r'], seenMismatch := sm } : Iter) with node := x' } from rfl, iterCollect_node]
  obtain ⟨p, ch, h2, hp⟩ := ht.copy
  cases f with
  | zero => rfl
  | succ f =>
    simp only [iterCollect, iterNext, rd, ht.orig, h2, Except.bind_ok]
    rfl

/-- Where `SeekPrefix` stops: at the same node, or at the roots. -/
theorem seekLoop_twin (ht : Twin h r r' n) (pre : Key) (f d : Nat) :
    (seekLoop h pre f r' d = seekLoop h pre f r d) ∨ (seekLoop h pre f r' d = .ok r' ∧ seekLoop h pre f r d = .ok r) := by
  obtain ⟨p, ch, h2, hp⟩ := ht.copy
  cases f with
  | zero => exact .inl rfl
  | succ f =>
    simp only [seekLoop, rd, ht.orig, h2, Except.bind_ok]
    have h1 : seekStep h r' (.inner { n with part := p, ch := ch }) pre d = seekStep h r (.inner n) pre d := by
      simp only [seekStep, prefixMismatch_twin ht]
      rfl
    have h4 : ∀ b, Cell.findChild (V := V) (.inner { n with part := p, ch := ch }) b = Cell.findChild (V := V) (.inner n) b := fun b => rfl
    simp only [h1, h4]
    cases seekStep h r (.inner n) pre d with
    | error e => exact .inl rfl
    | ok q =>
      obtain ⟨stop, d'⟩ := q
      simp only [Except.bind_ok]
      split
      · exact .inr ⟨rfl, rfl⟩
      · split
        · exact .inr ⟨rfl, rfl⟩
        · cases byteAt pre d' with
          | error e => exact .inl rfl
          | ok b =>
            simp only [Except.bind_ok]
            cases Cell.findChild (V := V) (.inner n) b with
            | error e => exact .inl rfl
            | ok q =>
              obtain ⟨o, i⟩ := q
              cases o with
              | none => exact .inr ⟨rfl, rfl⟩
              | some c => exact .inl rfl

theorem iterPrefix_twin (ht : Twin h r r' n) {t t' : Tree} (hr : t.root = r) (hr' : t'.root = r') (p : Key) (fuel : Nat) :
    iterPrefix h t' p fuel = iterPrefix h t p fuel := by
  unfold iterPrefix seekPrefix mkIter
  rw [hr, hr']
  simp only
  rcases seekLoop_twin ht p (p.length + 1) 0 with h1 | ⟨h1, h2⟩
  · rw [h1]
  · rw [h1, h2]
    exact iterCollect_twin ht fuel p _ _ _

/-! ### Reverse iteration from the root -/

theorem revCollect_node (h : Heap V) (x : Option Addr) (f : Nat) (it : RevIter) (s : List (Option Addr)) (hs : it.stack = some s) :
    revCollect h f { it with node := x } = revCollect h f it := by
  induction f generalizing it s with
  | zero => rfl
  | succ f ih =>
    rw [revCollect, revCollect]
    unfold revPrevious
    simp only [hs]
    cases hn : revNext h it.path it.expanded (f + 1) s with
    | error e => rfl
    | ok q =>
      obtain ⟨o, st⟩ := q
      simp only [Except.bind_ok, pure, Except.pure]
      cases o with
      | none => rfl
      | some kv =>
        simp only
        rw [ih { it with stack := some st } st rfl]

theorem revNext_twin (ht : Twin h r r' n) (f : Nat) :
    revNext h [] [] f [some r'] = revNext h [] [] f [some r] := by
  obtain ⟨p, ch, h2, hp⟩ := ht.copy
  cases f with
  | zero => rfl
  | succ f =>
    simp only [revNext, rd, ht.orig, h2, Except.bind_ok]
    rfl

theorem revCollect_twin (ht : Twin h r r' n) (f : Nat) : revCollect h f (mkRevIter r') = revCollect h f (mkRevIter r) := by
  cases f with
  | zero => rfl
  | succ f =>
    rw [revCollect, revCollect]
    unfold revPrevious mkRevIter
    simp only [revNext_twin ht]
    cases revNext h [] [] (f + 1) [some r] with
    | error e => rfl
    | ok q =>
      obtain ⟨o, st⟩ := q
      simp only [Except.bind_ok, pure, Except.pure]
      cases o with
      | none => rfl
      | some kv =>
        simp only
        rw [show ({ path := [], node := some r', stack := some st, expanded := [] } : RevIter) =
          { ({ path := [], node := some r, stack := some st, expanded := [] } : RevIter) with node := some r' } from rfl,
          revCollect_node h _ f _ st rfl]

end Art
