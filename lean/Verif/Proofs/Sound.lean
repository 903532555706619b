import Verif.Proofs.WorldAll
/-
Whatever a read returns comes from a leaf of the heap.
-/
set_option autoImplicit false
set_option linter.unusedVariables false
set_option linter.unusedSimpArgs false
namespace Art
variable {V : Type}

theorem rdLeaf_ok {h : Heap V} {a : Addr} {l : LeafC V} (hr : rdLeaf h a = .ok l) : h[a]? = some (.leaf l) := by
  unfold rdLeaf at hr
  split at hr
  · rename_i l' hl; cases hr; exact hl
  · cases hr

theorem rd_ok {h : Heap V} {a : Addr} {c : Cell V} (hr : rd h a = .ok c) : h[a]? = some c := by
  unfold rd at hr
  split at hr
  · rename_i l' hl; cases hr; exact hl
  · cases hr

theorem R.bind_ok {α β : Type} {r : R α} {f : α → R β} {b : β} (h : r >>= f = .ok b) : ∃ a, r = .ok a ∧ f a = .ok b := by
  cases r with
  | error e => exact nomatch h
  | ok a => exact ⟨a, rfl, h⟩

/-- The value comes from a leaf with the key. -/
def FromLeaf (h : Heap V) (key : Key) (v : V) : Prop :=
  ∃ (a : Addr) (l : LeafC V), h[a]? = some (.leaf l) ∧ l.key = key ∧ l.value = v

theorem searchChildren_sound {h : Heap V} {key : Key} {l : List (Option Addr)} {v : V} {a : Addr}
    (hs : searchChildren h key l = .ok (some (v, a))) : FromLeaf h key v := by
  induction l with
  | nil => cases hs
  | cons x rest ih =>
    cases x with
    | none => exact ih hs
    | some ch =>
      unfold searchChildren at hs
      obtain ⟨c, hc, hs⟩ := R.bind_ok hs
      split at hs
      · exact ih hs
      · obtain ⟨lc, hlc, hs⟩ := R.bind_ok hs
        split at hs
        · rename_i l _ hm
          cases hs
          exact ⟨_, lc, rdLeaf_ok hlc, leafMatches_iff.1 hm, rfl⟩
        · exact ih hs

theorem searchOwn_sound {h : Heap V} {key : Key} {c : Cell V} {v : V} {a : Addr}
    (hs : searchOwn h c key = .ok (some (v, a))) : FromLeaf h key v := by
  unfold searchOwn at hs
  split at hs
  · cases hs
  · obtain ⟨lc, hlc, hs⟩ := R.bind_ok hs
    cases hs' : leafMatches lc.key key with
    | true =>
      rw [hs'] at hs
      cases hs
      exact ⟨_, lc, rdLeaf_ok hlc, leafMatches_iff.1 hs', rfl⟩
    | false => rw [hs'] at hs; cases hs

theorem searchStop_sound {h : Heap V} {key : Key} {c : Cell V} {v : V} {a : Addr} {hit : Hit V}
    (hs : searchStop h a c key = .ok hit) (hv : hit.val = some v) : FromLeaf h key v := by
  unfold searchStop at hs
  obtain ⟨o, ho, hs⟩ := R.bind_ok hs
  split at hs
  · cases hs; cases hv; exact searchOwn_sound ho
  · obtain ⟨o', ho', hs⟩ := R.bind_ok hs
    split at hs
    · cases hs; cases hv; exact searchChildren_sound ho'
    · cases hs; cases hv

theorem searchLeaf_sound {h : Heap V} {key : Key} {c : Cell V} {v : V} {a : Addr} {hit : Hit V} (hc : h[a]? = some c)
    (hs : searchLeaf h a c key = .ok (some hit)) (hv : hit.val = some v) : FromLeaf h key v := by
  unfold searchLeaf at hs
  split at hs
  · split at hs
    · rename_i l _
      cases hs' : leafMatches l.key key with
      | true =>
        rw [hs'] at hs
        cases hs; cases hv
        exact ⟨_, l, hc, leafMatches_iff.1 hs', rfl⟩
      | false => rw [hs'] at hs; cases hs
    · split at hs
      · cases hs
      · obtain ⟨lc, hlc, hs⟩ := R.bind_ok hs
        cases hs' : leafMatches lc.key key with
        | true =>
          rw [hs'] at hs
          cases hs; cases hv
          exact ⟨_, lc, rdLeaf_ok hlc, leafMatches_iff.1 hs', rfl⟩
        | false => rw [hs'] at hs; cases hs
  · cases hs

theorem searchLoopAt_sound {h : Heap V} {key : Key} {v : V} {hit : Hit V} (hv : hit.val = some v) (fuel : Nat) :
    ∀ (a : Addr) d, searchLoopAt h key fuel a d = .ok hit → FromLeaf h key v := by
  induction fuel with
  | zero => intro a d hs; cases hs
  | succ n ih =>
    intro a d hs
    unfold searchLoopAt at hs
    obtain ⟨c, hc, hs⟩ := R.bind_ok hs
    obtain ⟨o, ho, hs⟩ := R.bind_ok hs
    split at hs
    · cases hs; exact searchLeaf_sound (rd_ok hc) ho hv
    · obtain ⟨b, hb, hs⟩ := R.bind_ok hs
      split at hs
      · exact searchStop_sound hs hv
      · split at hs
        · exact searchStop_sound hs hv
        · obtain ⟨b, hb, hs⟩ := R.bind_ok hs
          obtain ⟨p, hp, hs⟩ := R.bind_ok hs
          split at hs
          · exact searchStop_sound hs hv
          · exact ih _ _ hs

theorem search_sound {h : Heap V} {root : Addr} {key : Key} {v : V} {hit : Hit V}
    (hs : search h root key = .ok hit) (hv : hit.val = some v) : FromLeaf h (getTreeKey key) v :=
  searchLoopAt_sound hv _ _ _ hs

theorem getTreeKey_inj {a b : Key} (h : getTreeKey a = getTreeKey b) : a = b := by
  unfold getTreeKey at h
  exact List.append_inj_left' h rfl

theorem getKey_getTreeKey (k : Key) : getKey (getTreeKey k) = k := by
  unfold getKey getTreeKey; simp

theorem getKey_nil : getKey [] = [] := rfl

/-- The pair is the one stored in some leaf, the `'$'` cut off. -/
def PairFrom (h : Heap V) (p : Key × V) : Prop :=
  ∃ (a : Addr) (l : LeafC V), h[a]? = some (.leaf l) ∧ getKey l.key = p.1 ∧ l.value = p.2

theorem iterNext_sound {h : Heap V} {p : Key × V} {it' : Iter} (fuel : Nat) :
    ∀ it, iterNext h fuel it = .ok (some p, it') → PairFrom h p := by
  induction fuel with
  | zero => intro it hs; cases hs
  | succ n ih =>
    intro it hs
    unfold iterNext at hs
    split at hs
    · cases hs
    · cases hs
    · obtain ⟨c, hc, hs⟩ := R.bind_ok hs
      split at hs
      · simp only at hs
        split at hs
        · cases hs; exact ⟨_, _, rd_ok hc, rfl, rfl⟩
        · exact ih _ hs
      · simp only at hs
        split at hs
        · exact ih _ hs
        · obtain ⟨lc, hlc, hs⟩ := R.bind_ok hs
          split at hs
          · cases hs; exact ⟨_, _, rdLeaf_ok hlc, rfl, rfl⟩
          · exact ih _ hs

theorem lbNext_sound {h : Heap V} {p : Key × V} {st' : List (Option Addr)} (fuel : Nat) :
    ∀ st, lbNext h fuel st = .ok (some p, st') → PairFrom h p := by
  induction fuel with
  | zero => intro it hs; rw [lbNext.eq_def] at hs; cases hs
  | succ n ih =>
    intro it hs
    rw [lbNext.eq_def] at hs
    simp only at hs
    split at hs
    · cases hs
    · cases hs
    · obtain ⟨c, hc, hs⟩ := R.bind_ok hs
      split at hs
      · cases hs; exact ⟨_, _, rd_ok hc, rfl, rfl⟩
      · split at hs
        · exact ih _ hs
        · obtain ⟨lc, hlc, hs⟩ := R.bind_ok hs
          cases hs; exact ⟨_, _, rdLeaf_ok hlc, rfl, rfl⟩

theorem leafOf_ok {h : Heap V} {o : Option Addr} {l : Addr} {lc : LeafC V} (hs : leafOf h o = .ok (some (l, lc))) :
    h[l]? = some (.leaf lc) := by
  unfold leafOf at hs
  split at hs
  · cases hs
  · obtain ⟨lc', hlc, hs⟩ := R.bind_ok hs
    cases hs; exact rdLeaf_ok hlc

theorem revNext_sound {h : Heap V} {p : Key × V} {st' : List (Option Addr)} {path : Key} {ex : List Addr} (fuel : Nat) :
    ∀ st, revNext h path ex fuel st = .ok (some p, st') → PairFrom h p := by
  induction fuel with
  | zero => intro it hs; rw [revNext.eq_def] at hs; cases hs
  | succ n ih =>
    intro it hs
    rw [revNext.eq_def] at hs
    simp only at hs
    split at hs
    · cases hs
    · cases hs
    · obtain ⟨c, hc, hs⟩ := R.bind_ok hs
      split at hs
      · split at hs
        · cases hs; exact ⟨_, _, rd_ok hc, rfl, rfl⟩
        · exact ih _ hs
      · obtain ⟨lf, hlf, hs⟩ := R.bind_ok hs
        split at hs
        · exact ih _ hs
        · split at hs
          · split at hs
            · cases hs; exact ⟨_, _, leafOf_ok hlf, rfl, rfl⟩
            · exact ih _ hs
          · exact ih _ hs

theorem leafPair_sound {h : Heap V} {o : Option Addr} {k : Key} {v : V} (hs : leafPair h o = .ok (some (k, v))) :
    FromLeaf h k v := by
  unfold leafPair at hs
  split at hs
  · cases hs
  · obtain ⟨lc, hlc, hs⟩ := R.bind_ok hs
    cases hs; exact ⟨_, _, rdLeaf_ok hlc, rfl, rfl⟩

theorem longestPrefix_sound {h : Heap V} {t : Tree} {q : Key} {p : Key × V} (hs : longestPrefix h t q = .ok (some p)) :
    PairFrom h p := by
  unfold longestPrefix at hs
  obtain ⟨c, hc, hs⟩ := R.bind_ok hs
  obtain ⟨o, ho, hs⟩ := R.bind_ok hs
  split at hs
  · cases hs
  · obtain ⟨lc, hlc, hs⟩ := R.bind_ok hs
    cases hs; exact ⟨_, _, rdLeaf_ok hlc, rfl, rfl⟩

theorem hasPrefixB_iff (k p : Key) : hasPrefixB k p = true ↔ p <+: k := by
  unfold hasPrefixB; exact List.isPrefixOf_iff_prefix

theorem pathNext_sound {h : Heap V} {p : Key × V} {it' : PathIter} (fuel : Nat) :
    ∀ it, pathNext h fuel it = .ok (some p, it') → it'.path = it.path ∧ it.path ≠ [] ∧ p.1 <+: getKey it.path ∧
      ∃ (a : Addr) (l : LeafC V), h[a]? = some (.leaf l) ∧ l.key ≠ [] ∧ getKey l.key = p.1 ∧ l.value = p.2 := by
  induction fuel with
  | zero => intro it hs; cases hs
  | succ n ih =>
    intro it hs
    unfold pathNext at hs
    split at hs
    · cases hs
    · obtain ⟨c, hc, hs⟩ := R.bind_ok hs
      split at hs
      · simp only at hs
        split at hs
        · rename_i l hm
          cases hs
          unfold prefixContainsMatch at hm
          split at hm
          · cases hm
          · rename_i hne
            have h1 : it.path ≠ [] := fun h => hne (.inl (by simp [h]))
            have h2 : l.key ≠ [] := fun h => hne (.inr (by simp [h]))
            exact ⟨rfl, h1, (hasPrefixB_iff _ _).1 hm, _, _, rd_ok hc, h2, rfl, rfl⟩
        · have := ih _ hs; exact this
      · have := ih _ hs; exact this

theorem notify_foldl_true (ks : List ChanId) (cs : List Bool) (c : ChanId) (hc : cs[c]? = some true) :
    (ks.foldl (fun cs k => cs.set k true) cs)[c]? = some true := by
  induction ks generalizing cs with
  | nil => exact hc
  | cons k ks ih =>
    refine ih _ ?_
    rw [List.getElem?_set]
    split
    · have := (List.getElem?_eq_some_iff.1 hc).1
      rename_i hk; subst hk; simp [this]
    · exact hc

end Art
