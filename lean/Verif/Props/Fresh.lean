import Verif.Props.Spared
/-
C52: the channels that `GetWatch` and `SeekPrefixWatch` hand out are open.  C53: the channel of a present key belongs to
this key alone.
-/
set_option autoImplicit false
set_option linter.unusedSectionVars false
namespace Art
variable {V : Type} [Inhabited V]

/-- What a call watches if it returns a channel: the channel, and the key if it is a key and present (otherwise the
channel reports changes of a part of the tree). -/
def Op.watched {V : Type} : Op V → Out V → Option (ChanId × Option Key)
  | .getWatch _ k, .chan c r | .txnGetWatch _ k, .chan c r => some (c, r.map fun _ => k)
  | .seekPrefixWatch _ _, .watch c => some (c, none)
  | _, _ => none

/-! ### C52 -/

/-- A new tree, and tracked transactions one after the other, each on the tree that the one before it committed. -/
def chainOps {V : Type} (bodies : List (List (Op V))) : List (Op V) := .newTree :: (bodies.mapIdx fun i body => trackedTxn i i body).flatten

/-- C52: whatever tracked transactions were made one after the other, the channel of a watch of the newest tree has not
been closed before it is handed out. -/
def C52_Full (V : Type) [Inhabited V] : Prop := ∀ (bodies : List (List (Op V))) (op : Op V) c a,
  (∀ (i : Nat) (hi : i < bodies.length), ∀ o ∈ bodies[i], o.writeOf i) →
  let w := (execAll World.init (chainOps bodies)).2
  (∃ k, op = .getWatch bodies.length k ∨ op = .seekPrefixWatch bodies.length k) → op.watched (exec w op).1 = some (c, a) →
  (exec w op).2.chans[c]? = some false

/-- `{a, b, c, da, db}`; then `a` is deleted, `dc` inserted, `b` deleted. -/
def staleBodies : List (List (Op Nat)) :=
  [[.txnInsert 0 kA 1, .txnInsert 0 kB 2, .txnInsert 0 kC 3, .txnInsert 0 (ascii ['d', 'a']) 4, .txnInsert 0 (ascii ['d', 'b']) 5],
   [.txnDelete 1 kA], [.txnInsert 2 (ascii ['d', 'c']) 6], [.txnDelete 3 kB]]

/-- `SeekPrefixWatch "d"` of the newest tree returns a channel that is closed already.  The deletion of `a` leaves a second
pointer to the last child behind the children of the root (helpers.go:381-393: the slot `numChildren - 1` is not
cleared); the insertion of `dc` gives the child a new channel and then copies it with that channel; the deletion of `b` closes the channel
of the node at the stale pointer (helpers.go:389-391), which is the channel of the live copy, too. -/
theorem C52_false : ¬ C52_Full Nat := fun h => by
  have := h staleBodies (.seekPrefixWatch 4 (ascii ['d'])) 19 none (by decide +kernel) ⟨_, .inr rfl⟩ (by decide +kernel)
  revert this
  decide +kernel

/-- C52 in all histories for present keys, in every tree and transaction. -/
theorem C52_present_partial (ops : List (Op V)) (op : Op V) (c : ChanId) (k : Key) :
    let w := (execAll World.init ops).2
    op.watched (exec w op).1 = some (c, some k) → (exec w op).2.chans[c]? = some false := by
  intro w h
  have hl : WLone (exec w op).2 := by
    have := loneAfter (ops ++ [op])
    rw [execAll_append] at this
    exact this
  unfold Op.watched at h
  split at h
  · rename_i i k' c' r ho
    cases r with
    | none => cases h
    | some v => cases h; exact hl.opn (getWatch_at (saneAll ops) ho)
  · rename_i i k' c' r ho
    cases r with
    | none => cases h
    | some v => cases h; exact hl.opn (txnGetWatch_at (saneAll ops) ho)
  · cases h
  · cases h

-- beside the closed channel above, in the same tree
example : (exec (execAll World.init (chainOps staleBodies)).2 (.getWatch 4 kC)).2.chans[29]? = some false :=
  C52_present_partial (chainOps staleBodies) (.getWatch 4 kC) 29 kC (by decide +kernel)

/-! ### C53 -/

/-- C53: two watches of different present keys never share a channel, nor does a watch of a present key share one with a
watch of an absent key or of a prefix; whenever they are taken, in whatever trees and transactions. -/
def C53_Full (V : Type) [Inhabited V] : Prop := ∀ (ops later : List (Op V)) (op op' : Op V) c a b,
  let w := (execAll World.init ops).2
  let w' := (execAll (exec w op).2 later).2
  op.watched (exec w op).1 = some (c, a) → op'.watched (exec w' op').1 = some (c, b) → a = b

theorem watched_at_key (ops : List (Op V)) {op : Op V} {c : ChanId} {a : Option Key} (h : op.watched (exec (execAll World.init ops).2 op).1 = some (c, a)) :
    ChanAt (exec (execAll World.init ops).2 op).2.heap c (a.map getTreeKey) := by
  unfold Op.watched at h
  split at h
  · rename_i i k' c' r ho
    cases h
    have := getWatch_at (saneAll ops) ho
    cases r <;> exact this
  · rename_i i k' c' r ho
    cases h
    have := txnGetWatch_at (saneAll ops) ho
    cases r <;> exact this
  · rename_i i k' c' ho
    cases h
    exact seekWatch_at (saneAll ops) ho
  · cases h

theorem C53 : C53_Full V := by
  intro ops later op op' c a b w w' h h'
  have hw : WOK (exec w op).2 := (worldAfter_ok ops).exec op
  have h1 := OnlyAt.execAll hw ((watched_at_key ops h).only hw) (later ++ [op'])
  have e : w' = (execAll World.init (ops ++ [op] ++ later)).2 := by rw [execAll_append, execAll_append]; rfl
  rw [e] at h'
  have h2 := watched_at_key _ h'
  rw [← e] at h2
  rw [execAll_append] at h1
  obtain ⟨x, d, hd, hc, hk⟩ := h2
  have h3 := (h1 x d hd hc).symm.trans hk
  cases a with
  | none => cases b with
    | none => rfl
    | some b => cases h3
  | some a => cases b with
    | none => cases h3
    | some b => exact congrArg some (getTreeKey_inj (Option.some.inj h3))

-- the channel of `c` handed out by the newest tree is still that of `c` later, and watched again
example : (some kC : Option Key) = some kC :=
  C53 (chainOps staleBodies) [.begin 4, .txnInsert 4 kB 8] (.getWatch 4 kC) (.txnGetWatch 4 kC) 29 _ _ (by decide +kernel) (by decide +kernel)

end Art
