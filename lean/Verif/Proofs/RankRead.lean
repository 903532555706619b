import Verif.Proofs.Rank
import Verif.Proofs.Congr2
import Verif.Proofs.Fuel
/-
In a ranked heap every read operation and every iterator comes to its end.
-/
set_option autoImplicit false
set_option linter.unusedVariables false
set_option linter.unusedSimpArgs false
set_option linter.unusedSectionVars false
namespace Art
variable {V : Type} {rk : Rank} {h : Heap V}

/-! ### Functions bounded by the length of the key -/

theorem searchLeaf_nofuel (h : Heap V) (a : Addr) (c : Cell V) (key : Key) : searchLeaf h a c key ≠ .error .fuel := by
  unfold searchLeaf
  split
  · split
    · nofun
    · split
      · nofun
      · exact nofuel_bind (rdLeaf_nofuel _ _) fun _ _ => nofun
  · nofun

theorem searchChildren_nofuel (h : Heap V) (key : Key) (l : List (Option Addr)) : searchChildren h key l ≠ .error .fuel := by
  induction l with
  | nil => nofun
  | cons x l ih =>
    cases x with
    | none => exact ih
    | some ch =>
      unfold searchChildren
      refine nofuel_bind (rd_nofuel _ _) fun c _ => ?_
      split
      · exact ih
      · refine nofuel_bind (rdLeaf_nofuel _ _) fun lc _ => ?_
        split
        · nofun
        · exact ih

theorem searchStop_nofuel (h : Heap V) (a : Addr) (c : Cell V) (key : Key) : searchStop h a c key ≠ .error .fuel := by
  unfold searchStop
  refine nofuel_bind ?_ fun r _ => ?_
  · unfold searchOwn
    split
    · nofun
    · exact nofuel_bind (rdLeaf_nofuel _ _) fun _ _ => nofun
  · split
    · nofun
    · refine nofuel_bind (searchChildren_nofuel _ _ _) fun r _ => ?_
      split <;> nofun

theorem searchLoopAt_nofuel (h : Heap V) (key : Key) (fuel : Nat) (a : Addr) (d : Nat) (hf : key.length + 1 ≤ fuel + d)
    (hd : d ≤ key.length) : searchLoopAt h key fuel a d ≠ .error .fuel := by
  induction fuel generalizing a d with
  | zero => omega
  | succ fuel ih =>
    unfold searchLoopAt
    refine nofuel_bind (rd_nofuel _ _) fun c _ => nofuel_bind (searchLeaf_nofuel _ _ _ _) fun r _ => ?_
    split
    · nofun
    · refine nofuel_bind (prefixBails_nofuel _ _ _) fun b _ => ?_
      split
      · exact searchStop_nofuel _ _ _ _
      · split
        · exact searchStop_nofuel _ _ _ _
        · refine nofuel_bind (byteAt_nofuel _ _) fun b _ => nofuel_bind (c.findChild_nofuel _) fun r _ => ?_
          split
          · exact searchStop_nofuel _ _ _ _
          · exact ih _ _ (by omega) (by omega)

theorem search_nofuel (h : Heap V) (root : Addr) (key : Key) : search h root key ≠ .error .fuel :=
  searchLoopAt_nofuel _ _ _ _ _ (by omega) (by omega)

theorem treeGet_nofuel (h : Heap V) (t : Tree) (key : Key) : treeGet h t key ≠ .error .fuel :=
  nofuel_bind (search_nofuel _ _ _) fun _ _ => nofun

theorem lpChildren_nofuel (h : Heap V) (key : Key) (l : List (Option Addr)) (last : Option Addr) : lpChildren h key l last ≠ .error .fuel := by
  induction l generalizing last with
  | nil => nofun
  | cons x l ih =>
    cases x with
    | none => exact ih _
    | some ch =>
      unfold lpChildren
      refine nofuel_bind (rd_nofuel _ _) fun c _ => ?_
      split
      · exact ih _
      · exact nofuel_bind (rdLeaf_nofuel _ _) fun lc _ => ih _

theorem lpOwn_nofuel (h : Heap V) (key : Key) (c : Cell V) (last : Option Addr) : lpOwn h key c last ≠ .error .fuel := by
  unfold lpOwn
  split
  · nofun
  · exact nofuel_bind (rdLeaf_nofuel _ _) fun _ _ => nofun

theorem lpLoop_nofuel (h : Heap V) (key : Key) (fuel : Nat) (a : Addr) (d : Nat) (last : Option Addr) (hf : key.length + 1 ≤ fuel + d)
    (hd : d ≤ key.length) : lpLoop h key fuel a d last ≠ .error .fuel := by
  induction fuel generalizing a d last with
  | zero => omega
  | succ fuel ih =>
    unfold lpLoop
    refine nofuel_bind (rd_nofuel _ _) fun c _ => nofuel_bind (prefixBails_nofuel _ _ _) fun b _ => ?_
    split
    · nofun
    · split
      · nofun
      · refine nofuel_bind (lpOwn_nofuel _ _ _ _) fun _ _ => nofuel_bind (lpChildren_nofuel _ _ _ _) fun _ _ => ?_
        refine nofuel_bind (byteAt_nofuel _ _) fun b _ => nofuel_bind (c.findChild_nofuel _) fun r _ => ?_
        split
        · nofun
        · exact ih _ _ _ (by omega) (by omega)

theorem longestPrefix_nofuel (h : Heap V) (t : Tree) (k : Key) : longestPrefix h t k ≠ .error .fuel := by
  unfold longestPrefix
  refine nofuel_bind (rd_nofuel _ _) fun c _ => nofuel_bind (lpLoop_nofuel _ _ _ _ _ _ (by omega) (by omega)) fun r _ => ?_
  split
  · nofun
  · exact nofuel_bind (rdLeaf_nofuel _ _) fun _ _ => nofun

theorem leafPair_nofuel (h : Heap V) (a : Option Addr) : leafPair h a ≠ .error .fuel := by
  unfold leafPair
  split
  · nofun
  · exact nofuel_bind (rdLeaf_nofuel _ _) fun _ _ => nofun

/-! ### Minimum, Maximum, Walk: bounded by the rank -/

theorem Ranked.treeMinimum (hj : Ranked rk h) (t : Tree) : Art.treeMinimum h t ≠ .error .fuel :=
  nofuel_bind (hj.minimum _) fun _ _ => leafPair_nofuel _ _
theorem Ranked.treeMaximum (hj : Ranked rk h) (t : Tree) : Art.treeMaximum h t ≠ .error .fuel :=
  nofuel_bind (hj.maximum _) fun _ _ => leafPair_nofuel _ _

theorem walkChildren_nofuel {rec : Addr → R (List (Key × V) × Bool)} (l : List (Option Addr))
    (hl : ∀ b, some b ∈ l → rec b ≠ .error .fuel) : walkChildren rec l ≠ .error .fuel := by
  induction l with
  | nil => nofun
  | cons x l ih =>
    cases x with
    | none => exact ih fun b hb => hl b (.tail _ hb)
    | some ch =>
      unfold walkChildren
      refine nofuel_bind (hl ch (.head _)) fun p _ => ?_
      obtain ⟨l1, st⟩ := p
      simp only
      split
      · nofun
      · exact nofuel_bind (ih fun b hb => hl b (.tail _ hb)) fun _ _ => nofun

theorem walkOwn_nofuel [Inhabited V] (h : Heap V) (c : Cell V) (fn : Key → V → Bool) : walkOwn h c fn ≠ .error .fuel := by
  unfold walkOwn
  split
  · exact nofuel_bind (rdLeaf_nofuel _ _) fun _ _ => nofun
  · nofun

theorem recursiveWalk_nofuel [Inhabited V] (hj : Ranked rk h) (fn : Key → V → Bool) (fuel : Nat) (a : Addr) (ha : rk a < fuel) :
    recursiveWalk h fn fuel a ≠ .error .fuel := by
  induction fuel generalizing a with
  | zero => omega
  | succ fuel ih =>
    unfold recursiveWalk
    refine nofuel_bind (rd_nofuel _ _) fun c hc => nofuel_bind (walkOwn_nofuel _ _ _) fun p _ => ?_
    obtain ⟨calls, st⟩ := p
    simp only
    split
    · nofun
    · refine nofuel_bind (walkChildren_nofuel _ fun b hb => ih b ?_) fun _ _ => nofun
      have := (hj a c b (rd_ok hc) (.inr hb)).2
      omega

theorem Ranked.treeWalk [Inhabited V] (hj : Ranked rk h) (t : Tree) (fn : Key → V → Bool) : Art.treeWalk h t fn ≠ .error .fuel :=
  nofuel_bind (recursiveWalk_nofuel hj.squeeze _ _ _ (Nat.lt_succ_of_le (squeeze_le _ _ _))) fun _ _ => nofun

/-! ### Seeks -/

theorem Ranked.seekStep (hj : Ranked rk h) (a : Addr) (c : Cell V) (pre : Key) (d : Nat) : Art.seekStep h a c pre d ≠ .error .fuel := by
  unfold Art.seekStep
  split
  · exact nofuel_bind (hj.prefixMismatch _ _ _ _) fun _ _ => nofun
  · nofun

theorem seekStep_depth {a : Addr} {c : Cell V} {pre : Key} {d d' : Nat} {st : Bool} (hs : seekStep h a c pre d = .ok (st, d')) : d ≤ d' := by
  unfold seekStep at hs
  split at hs
  · cases hm : prefixMismatch h a pre pre.length d with
    | error e => rw [hm] at hs; cases hs
    | ok i =>
      rw [hm, Except.bind_ok] at hs
      split at hs
      · cases hs; exact Nat.le_refl _
      · cases hs; omega
  · cases hs; exact Nat.le_refl _

theorem Ranked.seekLoop (hj : Ranked rk h) (pre : Key) (fuel : Nat) (a : Addr) (d : Nat) (hf : pre.length + 1 ≤ fuel + d)
    (hd : d ≤ pre.length) : Art.seekLoop h pre fuel a d ≠ .error .fuel := by
  induction fuel generalizing a d with
  | zero => omega
  | succ fuel ih =>
    unfold Art.seekLoop
    refine nofuel_bind (rd_nofuel _ _) fun c _ => nofuel_bind (hj.seekStep _ _ _ _) fun p hp => ?_
    obtain ⟨st, d'⟩ := p
    have := seekStep_depth hp
    simp only
    split
    · nofun
    · split
      · nofun
      · refine nofuel_bind (byteAt_nofuel _ _) fun b _ => nofuel_bind (c.findChild_nofuel _) fun r _ => ?_
        split
        · nofun
        · exact ih _ _ (by omega) (by omega)

theorem Ranked.seekPrefix (hj : Ranked rk h) (it : Iter) (pre : Key) : Art.seekPrefix h it pre ≠ .error .fuel := by
  unfold Art.seekPrefix
  split
  · nofun
  · exact nofuel_bind (hj.seekLoop _ _ _ _ (by omega) (by omega)) fun _ _ => nofun

theorem Ranked.revSeekPrefix (hj : Ranked rk h) (it : RevIter) (pre : Key) : Art.revSeekPrefix h it pre ≠ .error .fuel := by
  unfold Art.revSeekPrefix
  split
  · nofun
  · exact nofuel_bind (hj.seekLoop _ _ _ _ (by omega) (by omega)) fun _ _ => nofun

theorem nodeLeafKey_nofuel (h : Heap V) (a : Addr) : nodeLeafKey h a ≠ .error .fuel := by
  unfold nodeLeafKey
  refine nofuel_bind (rd_nofuel _ _) fun c _ => ?_
  split
  · nofun
  · exact nofuel_bind (rdLeaf_nofuel _ _) fun _ _ => nofun

theorem lbPush_nofuel (h : Heap V) (path : Key) (a : Addr) (st : List (Option Addr)) : lbPush h path a st ≠ .error .fuel := by
  unfold lbPush
  refine nofuel_bind (nodeLeafKey_nofuel _ _) fun r _ => ?_
  split <;> nofun

theorem lbPushParent_nofuel (h : Heap V) (path : Key) (p : Option Addr) (st : List (Option Addr)) : lbPushParent h path p st ≠ .error .fuel := by
  unfold lbPushParent
  split
  · nofun
  · refine nofuel_bind (rd_nofuel _ _) fun c _ => ?_
    split
    · nofun
    · exact nofuel_bind (rdLeaf_nofuel _ _) fun _ _ => nofun

theorem Cell.getChild_nofuel (c : Cell V) (i : Int) : c.getChild i ≠ .error .fuel := by
  cases c with
  | leaf l => nofun
  | inner n => exact n.getChild_nofuel i
theorem Cell.getKeyAtIdx_nofuel (c : Cell V) (i : Nat) : c.getKeyAtIdx i ≠ .error .fuel := by
  cases c with
  | leaf l => nofun
  | inner n => exact n.getKeyAtIdx_nofuel i

theorem lowerBound48_nofuel (n : Inner) (fuel i : Nat) : n.lowerBound48 fuel i ≠ .error .fuel := by
  induction fuel generalizing i with
  | zero => nofun
  | succ fuel ih =>
    unfold Inner.lowerBound48
    split
    · refine nofuel_bind (n.getKeyAtIdx_nofuel _) fun _ _ => nofuel_bind (n.getChild_nofuel _) fun _ _ => ?_
      split
      · nofun
      · exact ih _
    · nofun
theorem lowerBound256_nofuel (n : Inner) (fuel i : Nat) : n.lowerBound256 fuel i ≠ .error .fuel := by
  induction fuel generalizing i with
  | zero => nofun
  | succ fuel ih =>
    unfold Inner.lowerBound256
    split
    · refine nofuel_bind (n.getChild_nofuel _) fun _ _ => ?_
      split
      · nofun
      · exact ih _
    · nofun
theorem Cell.getLowerBoundCh_nofuel (c : Cell V) (b : Byte) : c.getLowerBoundCh b ≠ .error .fuel := by
  cases c with
  | leaf l => nofun
  | inner n =>
    unfold Cell.getLowerBoundCh Inner.getLowerBoundCh
    simp only
    split
    · nofun
    · nofun
    · exact lowerBound48_nofuel _ _ _
    · exact lowerBound256_nofuel _ _ _

theorem lbPushChildren_nofuel (h : Heap V) (path : Key) (c : Cell V) (lo : Nat) (strict : Bool) (k : Nat) (st : List (Option Addr)) :
    lbPushChildren h path c lo strict k st ≠ .error .fuel := by
  induction k generalizing st with
  | zero => nofun
  | succ k ih =>
    unfold lbPushChildren
    split
    · nofun
    · refine nofuel_bind (c.getChild_nofuel _) fun r _ => ?_
      split
      · split
        · nofun
        · exact ih _
      · exact nofuel_bind (lbPush_nofuel _ _ _ _) fun _ _ => ih _

theorem goSlice_nofuel (s : Key) (lo hi : Nat) : goSlice s lo hi ≠ .error .fuel := by unfold goSlice; split <;> nofun

theorem lbCmp_nofuel (c : Cell V) (p : Key) (d : Nat) : lbCmp c p d ≠ .error .fuel := by
  unfold lbCmp
  split
  · nofun
  · exact nofuel_bind (goSlice_nofuel _ _ _) fun _ _ => nofuel_bind (goSlice_nofuel _ _ _) fun _ _ => nofun

theorem lbPushBoth_nofuel (h : Heap V) (path : Key) (a : Addr) (p : Option Addr) (st : List (Option Addr)) :
    lbPushBoth h path a p st ≠ .error .fuel :=
  nofuel_bind (lbPush_nofuel _ _ _ _) fun _ _ => lbPushParent_nofuel _ _ _ _

theorem Ranked.lbSkip (hj : Ranked rk h) (a : Addr) (c : Cell V) (p : Key) (seen : Bool) (d : Nat) : Art.lbSkip h a c p seen d ≠ .error .fuel := by
  unfold Art.lbSkip
  split
  · nofun
  · exact nofuel_bind (hj.prefixMismatch _ _ _ _) fun _ _ => nofun

theorem lbSkip_depth {a : Addr} {c : Cell V} {p : Key} {seen seen' st : Bool} {d d' : Nat}
    (hs : lbSkip h a c p seen d = .ok (st, seen', d')) : d ≤ d' := by
  unfold lbSkip at hs
  split at hs
  · cases hs; exact Nat.le_refl _
  · cases hm : prefixMismatch h a p p.length d with
    | error e => rw [hm] at hs; cases hs
    | ok i =>
      rw [hm, Except.bind_ok] at hs
      split at hs
      · cases hs; exact Nat.le_refl _
      · cases hs; omega

theorem lbNoChild_nofuel (h : Heap V) (path : Key) (a : Addr) (c : Cell V) (lk : Option Key) (p : Option Addr) (st : List (Option Addr)) :
    lbNoChild h path a c lk p st ≠ .error .fuel := by
  unfold lbNoChild
  simp only
  cases p with
  | none =>
    split
    · nofun
    · exact nofuel_bind (lbPushChildren_nofuel _ _ _ _ _ _ _) fun _ _ => nofun
  | some p =>
    split
    · exact nofuel_bind (r := Except.ok _) (fun h => nomatch h) fun _ _ => lbPushParent_nofuel _ _ _ _
    · exact nofuel_bind (lbPushChildren_nofuel _ _ _ _ _ _ _) fun _ _ => lbPushParent_nofuel _ _ _ _

theorem lbTakeAll_nofuel (h : Heap V) (path : Key) (a : Addr) (c : Cell V) (lk : Option Key) (p : Option Addr) (st : List (Option Addr)) :
    lbTakeAll h path a c lk p st ≠ .error .fuel := by
  unfold lbTakeAll
  simp only
  split
  · exact lbPushParent_nofuel _ _ _ _
  · exact nofuel_bind (lbPushChildren_nofuel _ _ _ _ _ _ _) fun _ _ => lbPushParent_nofuel _ _ _ _

theorem parentLeafKey_nofuel (h : Heap V) (p : Option Addr) : parentLeafKey h p ≠ .error .fuel := by
  unfold parentLeafKey
  split
  · nofun
  · exact nodeLeafKey_nofuel _ _

theorem Ranked.lbLoop (hj : Ranked rk h) (p : Key) (fuel : Nat) (node parent : Option Addr) (d : Nat) (seen : Bool) (st : List (Option Addr))
    (hf : p.length + 1 ≤ fuel + d) (hd : d ≤ p.length) : Art.lbLoop h p fuel node parent d seen st ≠ .error .fuel := by
  induction fuel generalizing node parent d seen st with
  | zero => omega
  | succ fuel ih =>
    unfold Art.lbLoop
    split
    · split
      · nofun
      · refine nofuel_bind (rd_nofuel _ _) fun c _ => ?_
        split <;> nofun
    · refine nofuel_bind (rd_nofuel _ _) fun c _ => nofuel_bind (lbCmp_nofuel _ _ _) fun cmp _ => ?_
      split
      · exact lbPushBoth_nofuel _ _ _ _ _
      · split
        · exact lbPushParent_nofuel _ _ _ _
        · refine nofuel_bind (nodeLeafKey_nofuel _ _) fun lk _ => ?_
          split
          · exact lbPushBoth_nofuel _ _ _ _ _
          · refine nofuel_bind (hj.lbSkip _ _ _ _ _) fun q hq => ?_
            obtain ⟨stop, seen', d'⟩ := q
            have := lbSkip_depth hq
            simp only
            split
            · nofun
            · split
              · exact lbPushBoth_nofuel _ _ _ _ _
              · refine nofuel_bind (byteAt_nofuel _ _) fun b _ => nofuel_bind (c.getLowerBoundCh_nofuel _) fun idx0 _ => ?_
                split
                · nofun
                · split
                  · exact lbNoChild_nofuel _ _ _ _ _ _ _
                  · refine nofuel_bind (parentLeafKey_nofuel _ _) fun pl _ => ?_
                    split
                    · exact lbTakeAll_nofuel _ _ _ _ _ _ _
                    · refine nofuel_bind (lbPushChildren_nofuel _ _ _ _ _ _ _) fun st' _ => ?_
                      refine nofuel_bind (c.getKeyAtIdx_nofuel _) fun kb _ => nofuel_bind (c.getChild_nofuel _) fun ch _ => ?_
                      exact ih _ _ _ _ _ (by omega) (by omega)

theorem Ranked.seekLowerBound (hj : Ranked rk h) (root : Addr) (k : Key) : Art.seekLowerBound h root k ≠ .error .fuel := by
  unfold Art.seekLowerBound
  split
  · nofun
  · exact hj.lbLoop _ _ _ _ _ _ _ (by omega) (by omega)

theorem revCmp_nofuel (c : Cell V) (p e : Key) (d : Nat) : revCmp c p e d ≠ .error .fuel := by
  unfold revCmp
  refine nofuel_bind (goSlice_nofuel _ _ _) fun _ _ => ?_
  simp only
  split <;> exact nofuel_bind (goSlice_nofuel _ _ _) fun _ _ => nofun

theorem revLeafDone_nofuel (c : Cell V) (lk : Option Key) (key : Key) : revLeafDone c lk key ≠ .error .fuel := by
  unfold revLeafDone
  split
  · split <;> nofun
  · nofun

theorem Ranked.revSkip (hj : Ranked rk h) (a : Addr) (c : Cell V) (p : Key) (seen : Bool) (d : Nat) : Art.revSkip h a c p seen d ≠ .error .fuel := by
  unfold Art.revSkip
  split
  · exact nofuel_bind (hj.prefixMismatch _ _ _ _) fun _ _ => nofun
  · nofun

theorem revSkip_depth {a : Addr} {c : Cell V} {p : Key} {seen seen' st : Bool} {d d' : Nat}
    (hs : revSkip h a c p seen d = .ok (st, seen', d')) : d ≤ d' := by
  unfold revSkip at hs
  split at hs
  · cases hm : prefixMismatch h a p p.length d with
    | error e => rw [hm] at hs; cases hs
    | ok i =>
      rw [hm, Except.bind_ok] at hs
      split at hs
      · cases hs; exact Nat.le_refl _
      · cases hs; omega
  · cases hs; exact Nat.le_refl _

theorem revPick_nofuel (c : Cell V) (p : Key) (d : Nat) (seen : Bool) : revPick c p d seen ≠ .error .fuel := by
  unfold revPick
  refine nofuel_bind (byteAt_nofuel _ _) fun b _ => nofuel_bind (c.getLowerBoundCh_nofuel _) fun idx _ => ?_
  simp only
  generalize (if idx = -1 ∨ d = p.length - 1 then (c.numChildren.toNat : Int) - 1 else idx) = j
  by_cases hj : j ≥ 0
  · rw [if_pos hj]; exact nofuel_bind (c.getKeyAtIdx_nofuel _) fun _ _ => nofun
  · rw [if_neg hj]; nofun

theorem mapM_nofuel {α β : Type} (f : α → R β) (l : List α) (hf : ∀ a, f a ≠ .error .fuel) : l.mapM f ≠ .error .fuel := by
  induction l with
  | nil => nofun
  | cons a l ih =>
    rw [List.mapM_cons]
    exact nofuel_bind (hf a) fun _ _ => nofuel_bind ih fun _ _ => nofun

theorem Ranked.revLoop (hj : Ranked rk h) (key p e : Key) (fuel : Nat) (node : Option Addr) (d : Nat) (seen : Bool) (st : List (Option Addr))
    (ex : List Addr) (hf : p.length + 1 ≤ fuel + d) (hd : d ≤ p.length) : Art.revLoop h key p e fuel node d seen st ex ≠ .error .fuel := by
  induction fuel generalizing node d seen st ex with
  | zero => omega
  | succ fuel ih =>
    unfold Art.revLoop
    split
    · nofun
    · refine nofuel_bind (rd_nofuel _ _) fun c _ => nofuel_bind (revCmp_nofuel _ _ _ _) fun cmp _ => ?_
      split
      · nofun
      · split
        · nofun
        · refine nofuel_bind (nodeLeafKey_nofuel _ _) fun lk _ => nofuel_bind (revLeafDone_nofuel _ _ _) fun dn _ => ?_
          split
          · nofun
          · refine nofuel_bind (hj.revSkip _ _ _ _ _) fun q hq => ?_
            obtain ⟨stop, seen', d'⟩ := q
            have := revSkip_depth hq
            simp only
            split
            · nofun
            · split
              · nofun
              · refine nofuel_bind (revPick_nofuel _ _ _ _) fun q _ => ?_
                obtain ⟨idx, seen''⟩ := q
                refine nofuel_bind (mapM_nofuel _ _ fun i => c.getChild_nofuel _) fun chs _ => ?_
                by_cases hi : (if seen'' = true then (c.numChildren.toNat : Int) - 1 else idx) = -1
                · simp only [if_pos hi]; nofun
                · simp only [if_neg hi]
                  refine nofuel_bind (c.getChild_nofuel _) fun ch _ => ?_
                  exact ih _ _ _ _ _ (by omega) (by omega)

theorem Ranked.seekReverseLowerBound (hj : Ranked rk h) (it : RevIter) (key extra : Key) :
    Art.seekReverseLowerBound h it key extra ≠ .error .fuel :=
  nofuel_bind (hj.revLoop _ _ _ _ _ _ _ _ _ (by omega) (by omega)) fun _ _ => nofun

/-! ### Iterators

A step of an iterator replaces the top of its stack by nodes of smaller rank. -/

/-- The rank of a stack entry. -/
def orank (rk : Rank) : Option Addr → Nat
  | none => 0
  | some a => rk a + 1

/-- One step on the stack. -/
def StkLt (rk : Rank) (st' st : List (Option Addr)) : Prop :=
  ∃ a rest ps, st = a :: rest ∧ st' = ps ++ rest ∧ ∀ b ∈ ps, orank rk b < orank rk a

theorem stk_acc (rk : Rank) (st : List (Option Addr)) : Acc (StkLt rk) st := by
  have key : ∀ n rest, Acc (StkLt rk) rest → ∀ a, orank rk a < n → Acc (StkLt rk) (a :: rest) := by
    intro n
    induction n with
    | zero => intro rest _ a ha; omega
    | succ n ih =>
      intro rest hr a ha
      refine Acc.intro _ fun st' hst => ?_
      obtain ⟨a', rest', ps, h1, rfl, hps⟩ := hst
      cases h1
      have : ∀ qs : List (Option Addr), (∀ b ∈ qs, orank rk b < orank rk a) → Acc (StkLt rk) (qs ++ rest) := by
        intro qs
        induction qs with
        | nil => intro _; exact hr
        | cons q qs ihq =>
          intro hq
          exact ih _ (ihq fun b hb => hq b (.tail _ hb)) q (by have := hq q (.head _); omega)
      exact this ps hps
  induction st with
  | nil => exact Acc.intro _ fun st' hst => by obtain ⟨_, _, _, h1, _⟩ := hst; cases h1
  | cons a st ih => exact key (orank rk a + 1) st ih a (Nat.lt_succ_self _)

/-- The functions `next` and `coll` (repeated `next`) of an iterator. -/
structure Machine (σ κ : Type) where
  next : Nat → σ → R (Option κ × σ)
  coll : Nat → σ → R (List κ)
  eq : ∀ n s, coll (n + 1) s = (next (n + 1) s >>= fun p => match p.1 with
    | none => .ok []
    | some kv => coll n p.2 >>= fun rest => .ok (kv :: rest))
  zero : ∀ s, coll 0 s = .error .fuel
  csucc : ∀ n s, coll n s ≠ .error .fuel → coll (n + 1) s = coll n s

namespace Machine
variable {σ κ : Type} (m : Machine σ κ)

/-- The iteration from `s` reaches its end. -/
def Halts (s : σ) : Prop := ∃ F, m.coll F s ≠ .error .fuel

theorem halts_next {s : σ} (hs : m.Halts s) : ∃ F, m.next F s ≠ .error .fuel := by
  obtain ⟨F, hF⟩ := hs
  cases F with
  | zero => exact absurd (m.zero s) hF
  | succ F =>
    refine ⟨F + 1, fun hn => hF ?_⟩
    rw [m.eq, hn]
    rfl

theorem halts_stop {s s' : σ} (hn : ∀ F, m.next (F + 1) s = .ok (none, s')) : m.Halts s :=
  ⟨1, by rw [m.eq, hn]; nofun⟩

theorem halts_err {s : σ} {e : Err} (he : e ≠ .fuel) (hn : ∀ F, m.next (F + 1) s = .error e) : m.Halts s :=
  ⟨1, by rw [m.eq, hn]; intro h; cases h; exact he rfl⟩

theorem halts_yield {s s' : σ} {kv : κ} (hn : ∀ F, m.next (F + 1) s = .ok (some kv, s')) (hs : m.Halts s') : m.Halts s := by
  obtain ⟨F, hF⟩ := hs
  refine ⟨F + 1, ?_⟩
  rw [m.eq, hn, Except.bind_ok]
  exact nofuel_bind hF fun _ _ => nofun

theorem halts_skip {s s' : σ} (hn : ∀ F, m.next (F + 1) s = m.next F s') (hs : m.Halts s') : m.Halts s := by
  obtain ⟨F, hF⟩ := hs
  cases F with
  | zero => exact absurd (m.zero s') hF
  | succ F =>
    refine ⟨F + 2, fun hc => hF ?_⟩
    rw [m.eq, hn] at hc
    rw [m.eq]
    cases hr : m.next (F + 1) s' with
    | error e => rw [hr] at hc; cases hc; rfl
    | ok p =>
      obtain ⟨r, s''⟩ := p
      rw [hr, Except.bind_ok] at hc
      rw [Except.bind_ok]
      cases r with
      | none => cases hc
      | some kv =>
        simp only at hc ⊢
        by_cases h2 : m.coll F s'' = .error .fuel
        · rw [h2]; rfl
        · rw [m.csucc F s'' h2] at hc; exact hc

end Machine

/-- Iterator. -/
def iterM (h : Heap V) : Machine Iter (Key × V) where
  next := iterNext h
  coll := iterCollect h
  eq := fun n s => by rw [iterCollect]; congr 1; funext p; obtain ⟨r, it'⟩ := p; cases r <;> rfl
  zero := fun s => rfl
  csucc := iterCollect_succ h

/-- PathIterator. -/
def pathM (h : Heap V) : Machine PathIter (Key × V) where
  next := pathNext h
  coll := pathCollect h
  eq := fun n s => by rw [pathCollect]; congr 1; funext p; obtain ⟨r, it'⟩ := p; cases r <;> rfl
  zero := fun s => rfl
  csucc := pathCollect_succ h

/-- LowerBoundIterator. -/
def lbM (h : Heap V) : Machine (List (Option Addr)) (Key × V) where
  next := lbNext h
  coll := lbCollect h
  eq := fun n s => by rw [lbCollect]; congr 1; funext p; obtain ⟨r, it'⟩ := p; cases r <;> rfl
  zero := fun s => rfl
  csucc := lbCollect_succ h

/-- ReverseIterator. -/
def revM (h : Heap V) : Machine RevIter (Key × V) where
  next := revPrevious h
  coll := revCollect h
  eq := fun n s => by rw [revCollect]; congr 1; funext p; obtain ⟨r, it'⟩ := p; cases r <;> rfl
  zero := fun s => rfl
  csucc := revCollect_succ h

theorem rd_cases (h : Heap V) (a : Addr) : (∃ e, e ≠ Err.fuel ∧ rd h a = .error e) ∨ ∃ c, rd h a = .ok c ∧ h[a]? = some c := by
  cases hr : rd h a with
  | error e => exact .inl ⟨e, fun he => rd_nofuel h a (he ▸ hr), rfl⟩
  | ok c => exact .inr ⟨c, rfl, rd_ok hr⟩
theorem rdLeaf_cases (h : Heap V) (a : Addr) : (∃ e, e ≠ Err.fuel ∧ rdLeaf h a = .error e) ∨ ∃ c, rdLeaf h a = .ok c := by
  cases hr : rdLeaf h a with
  | error e => exact .inl ⟨e, fun he => rdLeaf_nofuel h a (he ▸ hr), rfl⟩
  | ok c => exact .inr ⟨c, rfl⟩

theorem StkLt.pop (rk : Rank) (a : Option Addr) (rest : List (Option Addr)) : StkLt rk rest (a :: rest) :=
  ⟨a, rest, [], rfl, rfl, fun b hb => nomatch hb⟩

theorem Ranked.stk (hj : Ranked rk h) {a : Addr} {n : Inner} (ha : h[a]? = some (.inner n)) {ps : List (Option Addr)}
    (hp : ∀ b, some b ∈ ps → n.leaf = some b ∨ some b ∈ n.children) (rest : List (Option Addr)) : StkLt rk (ps ++ rest) (some a :: rest) :=
  ⟨some a, rest, ps, rfl, rfl, fun b hb => by
    cases b with
    | none => exact Nat.succ_pos _
    | some b => exact Nat.succ_lt_succ (hj a _ b ha (hp b hb)).2⟩

theorem Ranked.iter (hj : Ranked rk h) (it : Iter) : (iterM h).Halts it := by
  have key : ∀ st, Acc (StkLt rk) st → ∀ it : Iter, it.stack = st → (iterM h).Halts it := by
    intro st hst
    induction hst with
    | intro st _ ih =>
      intro it hs
      cases st with
      | nil => exact (iterM h).halts_stop (s' := it) fun F => by show iterNext h (F + 1) it = _; rw [iterNext, hs]
      | cons x rest =>
        cases x with
        | none => exact (iterM h).halts_stop fun F => by show iterNext h (F + 1) it = _; rw [iterNext, hs]
        | some a =>
          rcases rd_cases h a with ⟨e, he, hr⟩ | ⟨c, hr, hc⟩
          · exact (iterM h).halts_err he fun F => by show iterNext h (F + 1) it = _; rw [iterNext, hs]; simp only [hr]; rfl
          · cases c with
            | leaf l =>
              have hh := ih rest (.pop _ _ _) { it with stack := rest } rfl
              by_cases hk : l.key.length ≠ 0 ∧ hasPrefixB l.key it.path ∧ hasPrefix l.key it.path
              · refine (iterM h).halts_yield (kv := (getKey l.key, l.value)) (fun F => ?_) hh
                show iterNext h (F + 1) it = _
                rw [iterNext, hs]; simp only [hr, Except.bind_ok, if_pos hk]; rfl
              · refine (iterM h).halts_skip (fun F => ?_) hh
                show iterNext h (F + 1) it = iterNext h F _
                rw [iterNext, hs]; simp only [hr, Except.bind_ok, if_neg hk]
            | inner n =>
              have hh := ih _ (hj.stk hc (fun b hb => .inr (mem_iterChildren hb)) rest) { it with stack := n.iterChildren ++ rest } rfl
              cases hl : n.leaf with
              | none =>
                refine (iterM h).halts_skip (fun F => ?_) hh
                show iterNext h (F + 1) it = iterNext h F _
                rw [iterNext, hs]; simp only [hr, Except.bind_ok, hl]
              | some l =>
                rcases rdLeaf_cases h l with ⟨e, he, hr2⟩ | ⟨lc, hr2⟩
                · exact (iterM h).halts_err he fun F => by
                    show iterNext h (F + 1) it = _; rw [iterNext, hs]; simp only [hr, Except.bind_ok, hl, hr2]; rfl
                · by_cases hk : hasPrefix lc.key it.path
                  · refine (iterM h).halts_yield (kv := (getKey lc.key, lc.value)) (fun F => ?_) hh
                    show iterNext h (F + 1) it = _
                    rw [iterNext, hs]; simp only [hr, Except.bind_ok, hl, hr2, if_pos hk]; rfl
                  · refine (iterM h).halts_skip (fun F => ?_) hh
                    show iterNext h (F + 1) it = iterNext h F _
                    rw [iterNext, hs]; simp only [hr, Except.bind_ok, hl, hr2, if_neg hk]
  exact key _ (stk_acc rk _) it rfl

theorem Ranked.path (hj : Ranked rk h) (it : PathIter) : (pathM h).Halts it := by
  have key : ∀ st, Acc (StkLt rk) st → ∀ it : PathIter, it.stack.map some = st → (pathM h).Halts it := by
    intro st hst
    induction hst with
    | intro st _ ih =>
      intro it hs
      cases hst : it.stack with
      | nil => exact (pathM h).halts_stop (s' := it) fun F => by show pathNext h (F + 1) it = _; rw [pathNext, hst]
      | cons a rest =>
        rw [hst] at hs
        subst hs
        rcases rd_cases h a with ⟨e, he, hr⟩ | ⟨c, hr, hc⟩
        · exact (pathM h).halts_err he fun F => by show pathNext h (F + 1) it = _; rw [pathNext, hst]; simp only [hr]; rfl
        · cases c with
          | leaf l =>
            have hh := ih (rest.map some) (.pop _ _ _) { it with stack := rest } rfl
            by_cases hk : prefixContainsMatch l.key it.path
            · refine (pathM h).halts_yield (kv := (getKey l.key, l.value)) (fun F => ?_) hh
              show pathNext h (F + 1) it = _
              rw [pathNext, hst]; simp only [hr, Except.bind_ok, if_pos hk]; rfl
            · refine (pathM h).halts_skip (fun F => ?_) hh
              show pathNext h (F + 1) it = pathNext h F _
              rw [pathNext, hst]; simp only [hr, Except.bind_ok, if_neg hk]
          | inner n =>
            have hlt := hj.stk hc (ps := (n.leaf.toList ++ n.pathChildren).map some) (fun b hb => by
              simp only [List.mem_map, Option.some.injEq, exists_eq_right, List.mem_append, Option.mem_toList] at hb
              rcases hb with hb | hb
              · exact .inl hb
              · exact .inr (mem_pathChildren hb)) (rest.map some)
            have hh := ih _ hlt { it with stack := n.leaf.toList ++ n.pathChildren ++ rest } (by simp)
            refine (pathM h).halts_skip (fun F => ?_) hh
            show pathNext h (F + 1) it = pathNext h F _
            rw [pathNext, hst]; simp only [hr, Except.bind_ok]
  exact key _ (stk_acc rk _) it rfl

theorem Ranked.lb (hj : Ranked rk h) (st : List (Option Addr)) : (lbM h).Halts st := by
  have key : ∀ st, Acc (StkLt rk) st → (lbM h).Halts st := by
    intro st hst
    induction hst with
    | intro st _ ih =>
      cases st with
      | nil => exact (lbM h).halts_stop fun F => rfl
      | cons x rest =>
        cases x with
        | none => exact (lbM h).halts_stop fun F => rfl
        | some a =>
          rcases rd_cases h a with ⟨e, he, hr⟩ | ⟨c, hr, hc⟩
          · exact (lbM h).halts_err he fun F => by show lbNext h (F + 1) (some a :: rest) = _; rw [lbNext]; simp only [hr]; rfl
          · cases c with
            | leaf l =>
              refine (lbM h).halts_yield (kv := (getKey l.key, l.value)) (fun F => ?_) (ih rest (.pop _ _ _))
              show lbNext h (F + 1) (some a :: rest) = _
              rw [lbNext]; simp only [hr, Except.bind_ok]; rfl
            | inner n =>
              have hh := ih _ (hj.stk hc (fun b hb => .inr (mem_iterChildren hb)) rest)
              cases hl : n.leaf with
              | none =>
                refine (lbM h).halts_skip (fun F => ?_) hh
                show lbNext h (F + 1) (some a :: rest) = lbNext h F _
                rw [lbNext]; simp only [hr, Except.bind_ok, hl]
              | some l =>
                rcases rdLeaf_cases h l with ⟨e, he, hr2⟩ | ⟨lc, hr2⟩
                · exact (lbM h).halts_err he fun F => by
                    show lbNext h (F + 1) (some a :: rest) = _; rw [lbNext]; simp only [hr, Except.bind_ok, hl, hr2]; rfl
                · refine (lbM h).halts_yield (kv := (getKey lc.key, lc.value)) (fun F => ?_) hh
                  show lbNext h (F + 1) (some a :: rest) = _
                  rw [lbNext]; simp only [hr, Except.bind_ok, hl, hr2]; rfl
  exact key _ (stk_acc rk _)

theorem mem_revLeafPush {path : Key} {n : Inner} {lf : Option (Addr × LeafC V)} (hl : leafOf h n.leaf = .ok lf) (rest : List (Option Addr)) :
    ∃ ps, revLeafPush path lf rest = ps ++ rest ∧ ∀ b, some b ∈ ps → n.leaf = some b := by
  unfold revLeafPush
  cases lf with
  | none => exact ⟨[], rfl, fun b hb => nomatch hb⟩
  | some p =>
    obtain ⟨l, lc⟩ := p
    have : n.leaf = some l := by
      unfold leafOf at hl
      cases hn : n.leaf with
      | none => rw [hn] at hl; cases hl
      | some l' =>
        rw [hn] at hl
        simp only at hl
        cases hr : rdLeaf h l' with
        | error e => rw [hr] at hl; cases hl
        | ok lc' => rw [hr] at hl; cases hl; rfl
    simp only
    split
    · exact ⟨[some l], rfl, fun b hb => by simp at hb; rw [this, hb]⟩
    · exact ⟨[], rfl, fun b hb => nomatch hb⟩

theorem leafOf_cases (h : Heap V) (a : Option Addr) : (∃ e, e ≠ Err.fuel ∧ leafOf h a = .error e) ∨ ∃ c, leafOf h a = .ok c := by
  unfold leafOf
  split
  · exact .inr ⟨_, rfl⟩
  · rename_i l
    rcases rdLeaf_cases h l with ⟨e, he, hr⟩ | ⟨c, hr⟩
    · exact .inl ⟨e, he, by rw [hr]; rfl⟩
    · exact .inr ⟨some (l, c), by rw [hr]; rfl⟩

theorem Ranked.rev (hj : Ranked rk h) (it : RevIter) : (revM h).Halts it := by
  have key : ∀ st, Acc (StkLt rk) st → ∀ it : RevIter, it.stack = some st → (revM h).Halts it := by
    intro st hst
    induction hst with
    | intro st _ ih =>
      intro it hs
      have run : ∀ F, revPrevious h F it = (revNext h it.path it.expanded F st >>= fun p => .ok (p.1, { it with stack := some p.2 })) := fun F => by
        unfold revPrevious; rw [hs]; rfl
      have run' : ∀ F st', revPrevious h F { it with stack := some st' } =
          (revNext h it.path it.expanded F st' >>= fun p => .ok (p.1, { it with stack := some p.2 })) := fun F st' => by
        unfold revPrevious; rfl
      have skip : ∀ st', StkLt rk st' st → (∀ F, revNext h it.path it.expanded (F + 1) st = revNext h it.path it.expanded F st') →
          (revM h).Halts it := fun st' hlt hn =>
        (revM h).halts_skip (s' := { it with stack := some st' }) (fun F => by
          show revPrevious h (F + 1) it = revPrevious h F _
          rw [run, run', hn]) (ih st' hlt _ rfl)
      have yield : ∀ st' kv, StkLt rk st' st → (∀ F, revNext h it.path it.expanded (F + 1) st = .ok (some kv, st')) → (revM h).Halts it :=
        fun st' kv hlt hn => (revM h).halts_yield (s' := { it with stack := some st' }) (kv := kv) (fun F => by
          show revPrevious h (F + 1) it = _
          rw [run, hn]; rfl) (ih st' hlt _ rfl)
      have stop : ∀ st', (∀ F, revNext h it.path it.expanded (F + 1) st = .ok (none, st')) → (revM h).Halts it :=
        fun st' hn => (revM h).halts_stop (s' := { it with stack := some st' }) fun F => by
          show revPrevious h (F + 1) it = _
          rw [run, hn]; rfl
      have err : ∀ e, e ≠ Err.fuel → (∀ F, revNext h it.path it.expanded (F + 1) st = .error e) → (revM h).Halts it :=
        fun e he hn => (revM h).halts_err he fun F => by
          show revPrevious h (F + 1) it = _
          rw [run, hn]; rfl
      cases st with
      | nil => exact stop [] fun F => rfl
      | cons x rest =>
        cases x with
        | none => exact stop rest fun F => rfl
        | some a =>
          rcases rd_cases h a with ⟨e, he, hr⟩ | ⟨c, hr, hc⟩
          · exact err e he fun F => by rw [revNext]; simp only [hr]; rfl
          · cases c with
            | leaf l =>
              by_cases hk : leBytes (getKey l.key) (getKey it.path)
              · exact yield rest (getKey l.key, l.value) (.pop _ _ _) fun F => by
                  rw [revNext]; simp only [hr, Except.bind_ok, if_pos hk]; rfl
              · exact skip rest (.pop _ _ _) fun F => by
                  rw [revNext]; simp only [hr, Except.bind_ok, if_neg hk]
            | inner n =>
              rcases leafOf_cases h n.leaf with ⟨e, he, hr2⟩ | ⟨lf, hr2⟩
              · exact err e he fun F => by rw [revNext]; simp only [hr, Except.bind_ok, hr2]; rfl
              · obtain ⟨ps, hps, hpm⟩ := mem_revLeafPush (path := it.path) hr2 rest
                have hlt1 : StkLt rk (revLeafPush it.path lf rest) (some a :: rest) := by
                  rw [hps]; exact hj.stk hc (fun b hb => .inl (hpm b hb)) rest
                have hlt2 : StkLt rk (n.revChildren ++ revLeafPush it.path lf rest) (some a :: rest) := by
                  rw [hps, ← List.append_assoc]
                  refine hj.stk hc (fun b hb => ?_) rest
                  rcases List.mem_append.1 hb with hb | hb
                  · unfold Inner.revChildren at hb
                    exact .inr (mem_iterChildren (List.mem_reverse.1 hb))
                  · exact .inl (hpm b hb)
                by_cases hx : it.expanded.contains a = true
                · exact skip _ hlt1 fun F => by
                    rw [revNext]; simp only [hr, Except.bind_ok, hr2, if_pos hx]
                · cases lf with
                  | none =>
                    exact skip _ hlt2 fun F => by rw [revNext]; simp only [hr, Except.bind_ok, hr2, if_neg hx]
                  | some p =>
                    obtain ⟨l, lc⟩ := p
                    by_cases hk : hasPrefix (getKey lc.key) it.path
                    · exact yield _ (getKey lc.key, lc.value) hlt2 fun F => by
                        rw [revNext]; simp only [hr, Except.bind_ok, hr2, if_neg hx, if_pos hk]; rfl
                    · exact skip _ hlt2 fun F => by
                        rw [revNext]; simp only [hr, Except.bind_ok, hr2, if_neg hx, if_neg hk]
  cases hs : it.stack with
  | some st => exact key st (stk_acc rk _) it hs
  | none =>
    cases hn : it.node with
    | none =>
      exact (revM h).halts_stop (s' := { it with stack := some [] }) fun F => by
        show revPrevious h (F + 1) it = _
        unfold revPrevious
        rw [hs, hn]; rfl
    | some a =>
      obtain ⟨F, hF⟩ := key [some a] (stk_acc rk _) { it with stack := some [some a] } rfl
      cases F with
      | zero => exact absurd rfl hF
      | succ F =>
        refine ⟨F + 1, ?_⟩
        have : revPrevious h (F + 1) it = revPrevious h (F + 1) { it with stack := some [some a] } := by
          unfold revPrevious; rw [hs, hn]
        rw [(revM h).eq] at hF ⊢
        show (revPrevious h (F + 1) it >>= _) ≠ _
        rw [this]
        exact hF

end Art
