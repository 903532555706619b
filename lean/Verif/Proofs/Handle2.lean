import Verif.Proofs.Handle
/-
Positioning an iterator a second time.
-/
set_option autoImplicit false
set_option linter.unusedVariables false
set_option linter.unusedSimpArgs false
set_option linter.unusedSectionVars false
namespace Art
variable {V : Type} {h : Heap V} {S : Addr → Prop}

/-! ### Forward iterators -/

theorem fwdCalls_append (fuel : Nat) (cs ds : List FwdCall) (it : Iter) :
    fwdCalls h fuel it (cs ++ ds) = (do
      let r ← fwdCalls h fuel it cs
      let q ← fwdCalls h fuel r.2 ds
      pure (r.1 ++ q.1, q.2)) := by
  induction cs generalizing it with
  | nil =>
    show fwdCalls h fuel it ds = (do let q ← fwdCalls h fuel it ds; pure ([] ++ q.1, q.2))
    cases fwdCalls h fuel it ds <;> rfl
  | cons c cs ih =>
    cases c with
    | seek p =>
      simp only [List.cons_append, fwdCalls]
      cases seekPrefix h it p with
      | error e => rfl
      | ok r => simp only [Except.bind_ok, bind, Except.bind]; exact ih r.1
    | next =>
      simp only [List.cons_append, fwdCalls]
      cases iterNext h fuel it with
      | error e => rfl
      | ok r =>
        simp only [bind, Except.bind, ih r.2]
        cases fwdCalls h fuel r.2 cs with
        | error e => rfl
        | ok q =>
          simp only [pure, Except.pure]
          cases fwdCalls h fuel q.2 ds <;> rfl

/-- `Next` returns keys with the prefix of the iterator, and keeps it. -/
theorem iterNext_keeps (fuel : Nat) (it : Iter) (r : Option (Key × V)) (it' : Iter) (e : iterNext h fuel it = .ok (r, it')) :
    it'.path = it.path ∧ it'.node = it.node ∧ it'.seenMismatch = it.seenMismatch ∧
      ∀ kv, r = some kv → ∃ (x : Addr) (lc : LeafC V), h[x]? = some (.leaf lc) ∧ kv = (getKey lc.key, lc.value) ∧ it.path <+: lc.key := by
  induction fuel generalizing it with
  | zero => cases e
  | succ n ih =>
    unfold Art.iterNext at e
    split at e
    · cases e; exact ⟨rfl, rfl, rfl, fun _ h => by cases h⟩
    · next hst => cases e; exact ⟨rfl, rfl, rfl, fun _ h => by cases h⟩
    · next a rest hst =>
      obtain ⟨c, hc, e⟩ := R.bind_ok e
      have hc := rd_ok hc
      cases c with
      | leaf l =>
        dsimp only at e
        split at e
        · next hp =>
          cases e
          exact ⟨rfl, rfl, rfl, fun _ h => by cases h; exact ⟨a, l, hc, rfl, (hasPrefix_iff _ _).1 hp.2.2⟩⟩
        · exact ih { it with stack := rest } e
      | inner nd =>
        dsimp only at e
        split at e
        · exact ih { it with stack := nd.iterChildren ++ rest } e
        · next l hl =>
          obtain ⟨lc, hlc, e⟩ := R.bind_ok e
          split at e
          · next hp =>
            cases e
            exact ⟨rfl, rfl, rfl, fun _ h => by cases h; exact ⟨l, lc, rdLeaf_ok hlc, rfl, (hasPrefix_iff _ _).1 hp⟩⟩
          · exact ih { it with stack := nd.iterChildren ++ rest } e

/-- A pair in the set whose stored key starts with `p`. -/
def PairUnder (h : Heap V) (S : Addr → Prop) (p : Key) (kv : Key × V) : Prop :=
  ∃ a l, S a ∧ h[a]? = some (.leaf l) ∧ kv = (getKey l.key, l.value) ∧ p <+: l.key

theorem Fold.iterNext_under (hS : Fold h S) (fuel : Nat) (it : Iter) (r : Option (Key × V)) (it' : Iter) (hi : Held S it.stack)
    (e : Art.iterNext h fuel it = .ok (r, it')) : ∀ kv, r = some kv → PairUnder h S it.path kv := by
  induction fuel generalizing it with
  | zero => cases e
  | succ n ih =>
    unfold Art.iterNext at e
    split at e
    · cases e; exact fun _ h => by cases h
    · next hst => cases e; exact fun _ h => by cases h
    · next a rest hst =>
      rw [hst] at hi
      have ha := hi a (List.mem_cons_self ..)
      obtain ⟨c, hc, e⟩ := R.bind_ok e
      have hc := rd_ok hc
      cases c with
      | leaf l =>
        dsimp only at e
        split at e
        · next hp =>
          cases e
          exact fun _ h => by cases h; exact ⟨a, l, ha, hc, rfl, (hasPrefix_iff _ _).1 hp.2.2⟩
        · exact ih { it with stack := rest } hi.tail e
      | inner nd =>
        dsimp only at e
        have hi' := (hS.iter ha hc).append hi.tail
        split at e
        · exact ih { it with stack := nd.iterChildren ++ rest } hi' e
        · next l hl =>
          obtain ⟨lc, hlc, e⟩ := R.bind_ok e
          split at e
          · next hp =>
            cases e
            exact fun _ h => by cases h; exact ⟨l, lc, hS.leaf a nd l ha hc hl, rdLeaf_ok hlc, rfl, (hasPrefix_iff _ _).1 hp⟩
          · exact ih { it with stack := nd.iterChildren ++ rest } hi' e

/-- `Next` after `Next`. -/
theorem Fold.nexts (hS : Fold h S) (fuel n : Nat) (it it' : Iter) (l : List (Option (Key × V))) (hi : Held S it.stack)
    (e : Art.fwdCalls h fuel it (List.replicate n .next) = .ok (l, it')) : l.length = n ∧ ∀ kv, some kv ∈ l → PairUnder h S it.path kv := by
  induction n generalizing it l with
  | zero => cases e; exact ⟨rfl, fun _ h => by cases h⟩
  | succ n ih =>
    obtain ⟨⟨r, it1⟩, hr, e⟩ := R.bind_ok e
    obtain ⟨⟨l1, it2⟩, h2, e⟩ := R.bind_ok e
    cases e
    obtain ⟨g0, g1, -, -⟩ := iterNext_keeps fuel it r it1 hr
    obtain ⟨-, g2, -⟩ := hS.iterNext fuel it r it1 hi hr
    obtain ⟨g3, g4⟩ := ih it1 l1 g2 h2
    refine ⟨by simp [g3], fun kv hkv => ?_⟩
    rcases List.mem_cons.1 hkv with hkv | hkv
    · exact hS.iterNext_under fuel it r it1 hi hr kv hkv.symm
    · exact g0 ▸ g4 kv hkv

theorem Fold.fwdCalls_node (hS : Fold h S) (fuel : Nat) (cs : List FwdCall) (it it' : Iter) (l : List (Option (Key × V))) (hn : ∀ a, it.node = some a → S a)
    (e : Art.fwdCalls h fuel it cs = .ok (l, it')) : ∀ a, it'.node = some a → S a := by
  induction cs generalizing it l with
  | nil => cases e; exact hn
  | cons c cs ih =>
    cases c with
    | seek p =>
      obtain ⟨r, hr, e⟩ := R.bind_ok e
      exact ih r.1 l (hS.seekPrefix it p r hn hr).1 e
    | next =>
      obtain ⟨⟨r, it1⟩, hr, e⟩ := R.bind_ok e
      obtain ⟨⟨l1, it2⟩, h2, e⟩ := R.bind_ok e
      cases e
      exact ih it1 l1 ((iterNext_keeps fuel it r it1 hr).2.1 ▸ hn) h2

theorem Fold.seekNexts (hS : Fold h S) (fuel n : Nat) (cs : List FwdCall) (p : Key) (it it' : Iter) (l : List (Option (Key × V)))
    (hn : ∀ a, it.node = some a → S a)
    (e : Art.fwdCalls h fuel it (cs ++ .seek p :: List.replicate n .next) = .ok (l, it')) :
    ∀ kv, some kv ∈ l.drop (l.length - n) → PairUnder h S p kv := by
  rw [fwdCalls_append] at e
  obtain ⟨⟨l1, it1⟩, h1, e⟩ := R.bind_ok e
  obtain ⟨⟨l2, it2⟩, h2, e⟩ := R.bind_ok e
  cases e
  have hn1 := hS.fwdCalls_node fuel cs it it1 l1 hn h1
  obtain ⟨r, hr, h2⟩ := R.bind_ok h2
  obtain ⟨g1, g2⟩ := hS.seekPrefix it1 p r hn1 hr
  obtain ⟨g3, g4⟩ := hS.nexts fuel n r.1 _ l2 g2 h2
  have hp : r.1.path = p := by
    unfold Art.seekPrefix at hr
    split at hr
    · cases hr
    · obtain ⟨b, -, hr⟩ := R.bind_ok hr
      cases hr; rfl
  intro kv hkv
  rw [show (l1 ++ l2).length - n = l1.length by simp [g3], List.drop_left] at hkv
  exact hp ▸ g4 kv hkv

/-- The seek to the empty prefix stays where it is. -/
theorem seekLoop_nil (fuel : Nat) (a b : Addr) (d : Nat) (e : seekLoop h [] fuel a d = .ok b) : b = a := by
  cases fuel with
  | zero => cases e
  | succ n =>
    unfold seekLoop at e
    obtain ⟨c, hc, e⟩ := R.bind_ok e
    obtain ⟨⟨stop, d'⟩, -, e⟩ := R.bind_ok e
    dsimp only at e
    split at e
    · cases e; rfl
    · rw [if_pos (show d' ≥ ([] : Key).length from Nat.zero_le _)] at e
      cases e; rfl

/-- Calls that do not move the iterator away from the node it was made for. -/
def FwdCall.Still : FwdCall → Prop
  | .seek p => p = []
  | .next => True

theorem fwdCalls_still (fuel : Nat) (cs : List FwdCall) (it it' : Iter) (l : List (Option (Key × V))) (hcs : ∀ c ∈ cs, c.Still)
    (e : fwdCalls h fuel it cs = .ok (l, it')) : it'.node = it.node ∧ it'.seenMismatch = it.seenMismatch := by
  induction cs generalizing it l with
  | nil => cases e; exact ⟨rfl, rfl⟩
  | cons c cs ih =>
    have hcs' := fun d hd => hcs d (List.mem_cons_of_mem _ hd)
    cases c with
    | seek p =>
      have hp : p = [] := hcs _ (List.mem_cons_self ..)
      subst hp
      obtain ⟨r, hr, e⟩ := R.bind_ok e
      obtain ⟨g1, g2⟩ := ih r.1 l hcs' e
      unfold seekPrefix at hr
      split at hr
      · cases hr
      · next a ha =>
        obtain ⟨b, hb, hr⟩ := R.bind_ok hr
        cases hr
        rw [seekLoop_nil _ _ _ _ hb] at g1
        exact ⟨g1.trans ha.symm, g2⟩
    | next =>
      obtain ⟨⟨r, it1⟩, hr, e⟩ := R.bind_ok e
      obtain ⟨⟨l1, it2⟩, h2, e⟩ := R.bind_ok e
      cases e
      obtain ⟨-, k1, k2, -⟩ := iterNext_keeps fuel it r it1 hr
      obtain ⟨g1, g2⟩ := ih it1 l1 hcs' h2
      exact ⟨g1.trans k1, g2.trans k2⟩

/-- Only the node and the unused field matter to a seek. -/
theorem seekPrefix_same (it it' : Iter) (p : Key) (hn : it'.node = it.node) (hs : it'.seenMismatch = it.seenMismatch) : seekPrefix h it' p = seekPrefix h it p := by
  unfold seekPrefix
  rw [hn]
  cases it; cases it'
  cases hs
  rfl

theorem fwdCalls_again (fuel : Nat) (cs ds : List FwdCall) (p : Key) (it it' : Iter) (l : List (Option (Key × V))) (hcs : ∀ c ∈ cs, c.Still)
    (e : fwdCalls h fuel it cs = .ok (l, it')) : fwdCalls h fuel it' (.seek p :: ds) = fwdCalls h fuel it (.seek p :: ds) := by
  obtain ⟨h1, h2⟩ := fwdCalls_still fuel cs it it' l hcs e
  simp only [fwdCalls, seekPrefix_same it it' p h1 h2]

/-! ### Lower bound iterators -/

theorem R.tagged {α β : Type} (x : R α) (b : β) : (do let r ← (do let s ← x; pure (s, b)); pure r.1) = x := by
  cases x <;> rfl

theorem R.tag_ite {α β : Type} {P : Prop} [Decidable P] {x y : R (α × β)} {x' y' : R α} (h1 : (do let r ← x; pure r.1) = x')
    (h2 : (do let r ← y; pure r.1) = y') : (do let r ← (if P then x else y); pure r.1) = if P then x' else y' := by
  split
  · exact h1
  · exact h2

/-- `lowLoop` is `lbLoop` with one more result. -/
theorem lowLoop_fst (q : Key) (fuel : Nat) (node parent : Option Addr) (d : Nat) (seen : Bool) (st : List (Option Addr)) :
    (do let r ← lowLoop h q fuel node parent d seen st; pure r.1) = lbLoop h q fuel node parent d seen st := by
  induction fuel generalizing node parent d seen st with
  | zero => rfl
  | succ n ih =>
    unfold lowLoop lbLoop
    cases node with
    | none =>
      cases parent with
      | none => rfl
      | some p =>
        dsimp only
        cases rd h p with
        | error e => rfl
        | ok c => simp only [Except.bind_ok]; cases c.nodeLeaf <;> rfl
    | some a =>
      dsimp only
      cases rd h a with
      | error e => rfl
      | ok c =>
        simp only [Except.bind_ok]
        cases lbCmp c q d with
        | error e => rfl
        | ok o =>
          simp only [Except.bind_ok]
          refine R.tag_ite ?_ ?_
          · exact R.tagged _ _
          · refine R.tag_ite ?_ ?_
            · exact R.tagged _ _
            · cases nodeLeafKey h a with
              | error e => rfl
              | ok lk =>
                simp only [Except.bind_ok]
                refine R.tag_ite ?_ ?_
                · exact R.tagged _ _
                · cases lbSkip h a c q seen d with
                  | error e => rfl
                  | ok t =>
                    obtain ⟨stop, seen, d⟩ := t
                    simp only [Except.bind_ok]
                    refine R.tag_ite ?_ ?_
                    · rfl
                    · refine R.tag_ite ?_ ?_
                      · exact R.tagged _ _
                      · cases byteAt q d with
                        | error e => rfl
                        | ok b =>
                          simp only [Except.bind_ok]
                          cases c.getLowerBoundCh b with
                          | error e => rfl
                          | ok i0 =>
                            simp only [Except.bind_ok]
                            refine R.tag_ite ?_ ?_
                            · rfl
                            · refine R.tag_ite ?_ ?_
                              · exact R.tagged _ _
                              · cases parentLeafKey h parent with
                                | error e => rfl
                                | ok pl =>
                                  simp only [Except.bind_ok]
                                  refine R.tag_ite ?_ ?_
                                  · exact R.tagged _ _
                                  · generalize (if seen = true then 0 else i0.toNat) = i
                                    cases lbPushChildren h q c (i + 1) false c.numChildren.toNat st with
                                    | error e => rfl
                                    | ok st =>
                                      simp only [Except.bind_ok]
                                      cases c.getKeyAtIdx i with
                                      | error e => rfl
                                      | ok kb =>
                                        simp only [Except.bind_ok]
                                        cases c.getChild i with
                                        | error e => rfl
                                        | ok ch => simp only [Except.bind_ok]; exact ih _ _ _ _ _

/-- On a new iterator, `lowSeek` leaves the stack of `seekLowerBound`. -/
theorem lowSeek_stack (a : Addr) (it : LowIter) (hn : it.node = some a) (q : Key) :
    (do let r ← lowSeek h it q; pure r.stack) = seekLowerBound h a q := by
  unfold lowSeek seekLowerBound
  split
  · rw [hn]; rfl
  · rw [← lowLoop_fst, hn]
    cases lowLoop h (getTreeKey q) ((getTreeKey q).length + 1) (some a) none 0 false [] <;> rfl

theorem lowSeek_same (it it' : LowIter) (hn : it'.node = it.node) (q : Key) : lowSeek h it' q = lowSeek h it q := by
  unfold lowSeek
  cases it; cases it'
  cases hn
  rfl

/-- Calls that cannot set the node of a lower bound iterator to nil. -/
def LowCall.Still : LowCall → Prop
  | .seek q => q = []
  | .next => True

theorem lowCalls_still (fuel : Nat) (cs : List LowCall) (it it' : LowIter) (l : List (Option (Key × V))) (hcs : ∀ c ∈ cs, c.Still)
    (e : lowCalls h fuel it cs = .ok (l, it')) : it'.node = it.node := by
  induction cs generalizing it l with
  | nil => cases e; rfl
  | cons c cs ih =>
    have hcs' := fun d hd => hcs d (List.mem_cons_of_mem _ hd)
    cases c with
    | seek p =>
      have hp : p = [] := hcs _ (List.mem_cons_self ..)
      subst hp
      obtain ⟨r, hr, e⟩ := R.bind_ok e
      cases hr
      exact ih ⟨it.node, [it.node]⟩ l hcs' e
    | next =>
      obtain ⟨⟨r, st⟩, hr, e⟩ := R.bind_ok e
      obtain ⟨⟨l1, it2⟩, h2, e⟩ := R.bind_ok e
      cases e
      exact ih ⟨it.node, st⟩ l1 hcs' h2

/-- A lower bound iterator keeps its node or loses it. -/
theorem lowCalls_node (fuel : Nat) (cs : List LowCall) (it it' : LowIter) (l : List (Option (Key × V)))
    (e : lowCalls h fuel it cs = .ok (l, it')) : it'.node = it.node ∨ it'.node = none := by
  induction cs generalizing it l with
  | nil => cases e; exact .inl rfl
  | cons c cs ih =>
    cases c with
    | seek q =>
      obtain ⟨r, hr, e⟩ := R.bind_ok e
      have h1 : r.node = it.node ∨ r.node = none := by
        unfold lowSeek at hr
        split at hr
        · cases hr; exact .inl rfl
        · obtain ⟨x, -, hr⟩ := R.bind_ok hr
          cases hr
          dsimp only
          split
          · exact .inr rfl
          · exact .inl rfl
      rcases ih r l e with h2 | h2
      · exact h1.imp h2.trans h2.trans
      · exact .inr h2
    | next =>
      obtain ⟨⟨r, st⟩, hr, e⟩ := R.bind_ok e
      obtain ⟨⟨l1, it2⟩, h2, e⟩ := R.bind_ok e
      cases e
      exact ih ⟨it.node, st⟩ l1 h2

theorem lowCalls_again (fuel : Nat) (ds : List LowCall) (q : Key) (it it' : LowIter) (hn : it'.node = it.node) :
    lowCalls h fuel it' (.seek q :: ds) = lowCalls h fuel it (.seek q :: ds) := by
  simp only [lowCalls, lowSeek_same it it' hn q]

/-- Without a node, every seek finds nothing. -/
theorem lowSeek_lost (it : LowIter) (hn : it.node = none) (q : Key) (hq : q ≠ []) : lowSeek h it q = .ok { node := none, stack := [] } := by
  unfold lowSeek
  rw [if_neg (by simpa using hq), hn]
  rfl

theorem lowSeek_lost_nil (it : LowIter) (hn : it.node = none) : lowSeek h it [] = .ok { node := none, stack := [none] } := by
  unfold lowSeek
  rw [if_pos (show ([] : Key).length = 0 from rfl), hn]

/-- An iterator that has lost its node, and holds nothing else. -/
def LowIter.Lost (it : LowIter) : Prop := it.node = none ∧ (it.stack = [] ∨ it.stack = [none])

theorem LowIter.Lost.calls (fuel : Nat) (cs : List LowCall) (it it' : LowIter) (l : List (Option (Key × V))) (hi : it.Lost)
    (e : lowCalls h fuel it cs = .ok (l, it')) : ∀ r ∈ l, r = none := by
  induction cs generalizing it l with
  | nil => cases e; intro _ h; cases h
  | cons c cs ih =>
    cases c with
    | seek q =>
      obtain ⟨r, hr, e⟩ := R.bind_ok e
      by_cases hq : q = []
      · subst hq
        rw [lowSeek_lost_nil it hi.1] at hr
        cases hr
        exact ih _ l ⟨rfl, .inr rfl⟩ e
      · rw [lowSeek_lost it hi.1 q hq] at hr
        cases hr
        exact ih _ l ⟨rfl, .inl rfl⟩ e
    | next =>
      obtain ⟨⟨r, st⟩, hr, e⟩ := R.bind_ok e
      obtain ⟨⟨l1, it2⟩, h2, e⟩ := R.bind_ok e
      cases e
      have h1 : r = none ∧ st = [] := by
        cases fuel with
        | zero => cases hr
        | succ n =>
          unfold lbNext at hr
          rcases hi.2 with hs | hs <;> rw [hs] at hr <;> cases hr <;> exact ⟨rfl, rfl⟩
      intro x hx
      rcases List.mem_cons.1 hx with rfl | hx
      · exact h1.1
      · exact ih ⟨it.node, st⟩ l1 ⟨hi.1, .inl h1.2⟩ h2 x hx

/-! ### Reverse iterators -/

/-- Calls that do not move a reverse iterator away from its node. -/
def RevCall.Still : RevCall → Prop
  | .seekPrefix p => p = []
  | .seekLower _ _ => False
  | .previous => True

theorem revCalls_still (fuel : Nat) (cs : List RevCall) (it it' : RevIter) (l : List (Option (Key × V))) (hcs : ∀ c ∈ cs, c.Still)
    (e : revCalls h fuel it cs = .ok (l, it')) : it'.node = it.node ∧ it'.expanded = it.expanded := by
  induction cs generalizing it l with
  | nil => cases e; exact ⟨rfl, rfl⟩
  | cons c cs ih =>
    have hcs' := fun d hd => hcs d (List.mem_cons_of_mem _ hd)
    cases c with
    | seekPrefix p =>
      have hp : p = [] := hcs _ (List.mem_cons_self ..)
      subst hp
      obtain ⟨r, hr, e⟩ := R.bind_ok e
      obtain ⟨g1, g2⟩ := ih r l hcs' e
      unfold revSeekPrefix at hr
      split at hr
      · cases hr
      · next a ha =>
        obtain ⟨b, hb, hr⟩ := R.bind_ok hr
        cases hr
        rw [seekLoop_nil _ _ _ _ hb] at g1
        exact ⟨g1.trans ha.symm, g2⟩
    | seekLower q x => exact (hcs _ (List.mem_cons_self ..)).elim
    | previous =>
      obtain ⟨⟨r, it1⟩, hr, e⟩ := R.bind_ok e
      obtain ⟨⟨l1, it2⟩, h2, e⟩ := R.bind_ok e
      cases e
      obtain ⟨⟨x, st⟩, -, hr⟩ := R.bind_ok hr
      cases hr
      exact ih { it with stack := some st } l1 hcs' h2

theorem revCalls_again (fuel : Nat) (cs ds : List RevCall) (it it' : RevIter) (l : List (Option (Key × V))) (hcs : ∀ c ∈ cs, c.Still)
    (e : revCalls h fuel it cs = .ok (l, it')) :
    (∀ p, revCalls h fuel it' (.seekPrefix p :: ds) = revCalls h fuel it (.seekPrefix p :: ds)) ∧
    ∀ q x, revCalls h fuel it' (.seekLower q x :: ds) = revCalls h fuel it (.seekLower q x :: ds) := by
  obtain ⟨h1, h2⟩ := revCalls_still fuel cs it it' l hcs e
  refine ⟨fun p => ?_, fun q x => ?_⟩
  · have : revSeekPrefix h it' p = revSeekPrefix h it p := by
      unfold revSeekPrefix
      rw [h1]
      cases it; cases it'
      cases h2
      rfl
    simp only [revCalls, this]
  · have : seekReverseLowerBound h it' q x = seekReverseLowerBound h it q x := by
      unfold seekReverseLowerBound
      rw [h1, h2]
    simp only [revCalls, this]

/-- After `SeekReverseLowerBound` the iterator has no node. -/
theorem seekReverseLowerBound_node (it it' : RevIter) (q x : Key) (e : seekReverseLowerBound h it q x = .ok it') : it'.node = none := by
  obtain ⟨r, -, e⟩ := R.bind_ok e
  cases e; rfl

theorem seekReverseLowerBound_lost (it : RevIter) (hn : it.node = none) (q x : Key) :
    seekReverseLowerBound h it q x = .ok { path := getTreeKey q, node := none, stack := some [], expanded := it.expanded } := by
  unfold seekReverseLowerBound
  rw [hn]
  rfl

theorem revSeekPrefix_lost (it : RevIter) (hn : it.node = none) (p : Key) : revSeekPrefix h it p = .error .nilDeref := by
  unfold revSeekPrefix
  rw [hn]

/-- A reverse iterator that has lost its node, and has nothing more to return. -/
def RevIter.Lost (it : RevIter) : Prop := it.node = none ∧ it.stack = some []

theorem RevIter.Lost.calls (fuel : Nat) (cs : List RevCall) (it it' : RevIter) (l : List (Option (Key × V))) (hi : it.Lost)
    (e : revCalls h fuel it cs = .ok (l, it')) : ∀ r ∈ l, r = none := by
  induction cs generalizing it l with
  | nil => cases e; intro _ h; cases h
  | cons c cs ih =>
    cases c with
    | seekPrefix p =>
      obtain ⟨r, hr, e⟩ := R.bind_ok e
      rw [revSeekPrefix_lost it hi.1] at hr
      cases hr
    | seekLower q x =>
      obtain ⟨r, hr, e⟩ := R.bind_ok e
      rw [seekReverseLowerBound_lost it hi.1] at hr
      cases hr
      exact ih _ l ⟨rfl, rfl⟩ e
    | previous =>
      obtain ⟨⟨r, it1⟩, hr, e⟩ := R.bind_ok e
      obtain ⟨⟨l1, it2⟩, h2, e⟩ := R.bind_ok e
      cases e
      obtain ⟨⟨x, st⟩, hx, hr⟩ := R.bind_ok hr
      cases hr
      have h1 : r = none ∧ st = [] := by
        rw [hi.2] at hx
        cases fuel with
        | zero => cases hx
        | succ n => cases hx; exact ⟨rfl, rfl⟩
      intro y hy
      rcases List.mem_cons.1 hy with rfl | hy
      · exact h1.1
      · exact ih { it with stack := some st } l1 ⟨hi.1, congrArg some h1.2⟩ h2 y hy

end Art
