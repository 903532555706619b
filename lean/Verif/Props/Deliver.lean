import Verif.Proofs.Deliver
import Verif.Props.Ring
import Verif.Props.Watch
import Verif.Props.Fresh
/-
C74, C75: watches fire when goroutines work at the same time.
-/
set_option autoImplicit false
set_option linter.unusedVariables false
set_option linter.unusedSimpArgs false
set_option linter.unusedSectionVars false
namespace Art
variable {V : Type} [Inhabited V]

/-- Goroutine `i` is the only one in the schedule that calls `TrackMutate(true)`, and those outside of the team who set channels of
nodes (readers that watch) only do so where there is none, as the compare-and-swap in `getMutateCh` has it. -/
structure Sole (ops : List (Op V)) (turns : List (Turn V)) (i : Nat) : Prop where
  others : ∀ k j, (teamAfter ops turns).jobs[k]? = some j → k ≠ i → ¬ j.work.tracks
  fills : ∀ n a c, turns[n]? = some (.act (.chan a c)) → chanOf (teamAfter ops (turns.take n)).pool.heap a = none

/-- C74: a goroutine that ends with `Commit`, and is the only one that tracks, closes in every schedule each of the old channels that it
closes when it makes the same calls alone. -/
theorem C74 (ops : List (Op V)) (hl : Lawful World.init ops) (turns : List (Turn V)) (i : Nat) (j : Job V)
    (hj : (teamAfter ops turns).jobs[i]? = some j) (hs : j.src = none) (ht : j.work.tree < (execAll World.init ops).2.trees.length)
    (hg : j.work.tells) (ho : Sole ops turns i) (x : List (Out V) × Tree) (hx : (teamAfter ops turns).pool.result i = some (.ok x))
    (c : ChanId) (hc : c < (execAll World.init ops).2.chans.length) (ha : (aloneAfter ops j.work).2.chans[c]? = some true) :
    (teamAfter ops turns).pool.Closed c :=
  due_closed hj hg hx hc (deliver_due hl hj hs ho.others ho.fills hx ht hc ha)

/-- C74 without the condition that no one else tracks. -/
def C74_Wide : Prop := ∀ (ops : List (Op Nat)) (turns : List (Turn Nat)) (i : Nat) (j : Job Nat) (x : List (Out Nat) × Tree) (c : ChanId), Lawful World.init ops →
  (∀ a k, Turn.act (.chan a k) ∉ turns) →
  (teamAfter ops turns).jobs[i]? = some j → j.src = none → j.work.tree < (execAll World.init ops).2.trees.length → j.work.tells →
  (teamAfter ops turns).pool.result i = some (.ok x) → c < (execAll World.init ops).2.chans.length → (aloneAfter ops j.work).2.chans[c]? = some true →
  (teamAfter ops turns).pool.Closed c

/-- Goroutine 0 changes foo with tracking, and ends with `CommitOnly`; goroutine 1 changes foo with tracking, and ends with `Commit`. -/
def robbed : List (Turn Nat) :=
  [.start none ⟨3, [.track true, .insert kFoo 7], false⟩, .start none ⟨3, [.track true, .insert kFoo 8], true⟩] ++
    ((List.range 90).map fun _ => .act (.step 0)) ++ (List.range 90).map fun _ => .act (.step 1)

theorem C74_wide_false : ¬ C74_Wide := fun h => by
  have h1 := h (busy ++ [.getWatch 3 kFoo]) robbed 1
  cases hj : (teamAfter (busy ++ [.getWatch 3 kFoo]) robbed).jobs[1]? with
  | none =>
    have : ((teamAfter (busy ++ [.getWatch 3 kFoo]) robbed).jobs[1]?).isSome = true := by decide +kernel
    rw [hj] at this; cases this
  | some j =>
    cases hx : (teamAfter (busy ++ [.getWatch 3 kFoo]) robbed).pool.result 1 with
    | none =>
      have : ((teamAfter (busy ++ [.getWatch 3 kFoo]) robbed).pool.result 1).isSome = true := by decide +kernel
      rw [hx] at this; cases this
    | some x =>
      cases x with
      | error e =>
        have : ((teamAfter (busy ++ [.getWatch 3 kFoo]) robbed).pool.result 1).any (fun x => x.toOption.isSome) = true := by decide +kernel
        rw [hx] at this; cases this
      | ok x =>
        have hw : ((teamAfter (busy ++ [.getWatch 3 kFoo]) robbed).jobs[1]?).map (fun j => (j.src, j.work)) =
            some (none, ⟨3, [.track true, .insert kFoo 8], true⟩) := by decide +kernel
        rw [hj] at hw
        obtain ⟨src, kn, g⟩ := j
        cases hw
        have h2 : 3 < (execAll World.init (busy ++ [.getWatch 3 kFoo])).2.trees.length := by decide +kernel
        have h3 : (aloneAfter (busy ++ [.getWatch 3 kFoo]) ⟨3, [.track true, .insert kFoo 8], true⟩).2.chans[3]? = some true := by decide +kernel
        refine absurd (h1 _ x 3 (by decide +kernel) (fun a k h => ?_) hj rfl h2 ⟨rfl, by simp⟩ hx ?_ h3) ?_
        · unfold robbed at h
          simp at h
        · decide +kernel
        · unfold Pool.Closed
          decide +kernel

/-! ### Watches -/

/-- A watched channel is one of the channels of the history. -/
theorem watched_lt (ops : List (Op V)) {op : Op V} {c : ChanId} {a : Option Key} (h : op.watched (exec (execAll World.init ops).2 op).1 = some (c, a)) :
    c < (execAll World.init (ops ++ [op])).2.chans.length := by
  obtain ⟨x, d, hd, hc, -⟩ := watched_at_key ops h
  have := (worldAfter_ok (ops ++ [op])).lab.lt x d c
  rw [execAll_append] at this ⊢
  exact this hd hc

/-- The goroutine tracks from the beginning to the end, and ends with `Commit`. -/
def Session.Tracked (g : Session V) (calls : List (Call V)) : Prop := g.calls = .track true :: calls ∧ g.notify = true ∧ ∀ b, .track b ∉ calls

section
variable {g : Session V} {calls : List (Call V)}

theorem Session.Tracked.ops (h : g.Tracked calls) (x : Nat) : g.ops x = [] ++ trackedTxn g.tree x (calls.map (Call.toOp x)) := by
  obtain ⟨h1, h2, -⟩ := h
  simp [Session.ops, Session.last, h1, h2, trackedTxn, Call.toOp]

theorem Session.Tracked.tells (h : g.Tracked calls) : g.tells := by
  obtain ⟨h1, h2, h3⟩ := h
  refine ⟨h2, fun h => ?_⟩
  rw [h1] at h
  rcases List.mem_cons.1 h with h | h
  · cases h
  · exact h3 _ h

theorem Session.Tracked.steady (h : g.Tracked calls) (w : World V) : Steady w.txns.length w [] g.tree (calls.map (Call.toOp w.txns.length)) := by
  refine ⟨rfl, fun b hb => ?_, ?_⟩
  · obtain ⟨c, hc, e⟩ := List.mem_map.1 hb
    cases c <;> cases e
    exact h.2.2 b hc
  · rw [← h.ops]
    refine writesOf_calm _ fun op hop => ?_
    unfold Session.ops at hop
    rcases List.mem_cons.1 hop with rfl | hop
    · exact .inl rfl
    rcases List.mem_append.1 hop with hop | hop
    · obtain ⟨c, -, rfl⟩ := List.mem_map.1 hop
      cases c <;> first | exact .inl rfl | exact .inr rfl
    · rw [List.mem_singleton] at hop
      subst hop
      unfold Session.last
      rw [h.2.1]
      simp [Op.writes]
end

/-- The call inserts or deletes the key. -/
def Call.touches (k : Key) : Call V → Prop
  | .insert k' _ | .delete k' => k' = k
  | _ => False

theorem Call.touches.op {c : Call V} {k : Key} (h : c.touches k) (x : Nat) : (c.toOp x).touches x k := by
  cases c <;> first | exact ⟨rfl, h⟩ | exact h.elim

section
variable (ops : List (Op V)) (turns : List (Turn V)) (i : Nat) (j : Job V) (calls : List (Call V)) (c : ChanId) (x : List (Out V) × Tree)

theorem fires_core (watch : Op V) {a : Option Key} (hw : watch.watched (exec (execAll World.init ops).2 watch).1 = some (c, a))
    (htree : j.work.tree < (execAll World.init (ops ++ [watch])).2.trees.length) (hl : Lawful World.init (ops ++ [watch]))
    (hj : (teamAfter (ops ++ [watch]) turns).jobs[i]? = some j) (hs : j.src = none) (hg : j.work.Tracked calls) (ho : Sole (ops ++ [watch]) turns i)
    (hx : (teamAfter (ops ++ [watch]) turns).pool.result i = some (.ok x))
    (hf : (execAll (exec (execAll World.init ops).2 watch).2 ([] ++ trackedTxn j.work.tree (exec (execAll World.init ops).2 watch).2.txns.length
      (calls.map (Call.toOp (exec (execAll World.init ops).2 watch).2.txns.length)) ++ [])).2.chans[c]? = some true) :
    (teamAfter (ops ++ [watch]) turns).pool.Closed c := by
  refine C74 _ hl turns i j hj hs htree hg.tells ho x hx c (watched_lt ops hw) ?_
  have e : (execAll World.init (ops ++ [watch])).2 = (exec (execAll World.init ops).2 watch).2 := by rw [execAll_append]; rfl
  unfold aloneAfter
  rw [e, hg.ops, ← List.append_nil ([] ++ trackedTxn _ _ _)]
  exact hf

theorem tracked_after (watch : Op V) {g : Session V} (hg : g.Tracked calls) : g.after (ops ++ [watch]) =
    ops ++ [watch] ++ ([] ++ trackedTxn g.tree (exec (execAll World.init ops).2 watch).2.txns.length
      (calls.map (Call.toOp (exec (execAll World.init ops).2 watch).2.txns.length))) := by
  have e : (execAll World.init (ops ++ [watch])).2 = (exec (execAll World.init ops).2 watch).2 := by rw [execAll_append]; rfl
  unfold Session.after
  rw [e, hg.ops]

theorem tree_after (watch : Op V) {t : Nat} (h : t < (execAll World.init ops).2.trees.length) : t < (execAll World.init (ops ++ [watch])).2.trees.length := by
  obtain ⟨u, hu⟩ : ∃ u, (execAll World.init ops).2.trees[t]? = some u := ⟨_, List.getElem?_eq_getElem h⟩
  rw [execAll_append]
  exact (List.getElem?_eq_some_iff.1 (execAll_trees (execAll World.init ops).2 [watch] hu)).1

theorem onTree_lt {w : World V} {t : Nat} {α : Type} {m : Tree → M V α} {f : α → Out V × List Tree} (h : (w.onTree t m f).1 ≠ .noSuch) : t < w.trees.length := by
  unfold World.onTree at h
  cases ht : w.trees[t]? with
  | none => rw [ht] at h; exact absurd rfl h
  | some u => exact (List.getElem?_eq_some_iff.1 ht).1

/-- C75 for present keys: somebody watches key `k` of a tree; a goroutine starts on this tree, with tracking, inserts or deletes the key, and
commits; whatever the others do meanwhile, without tracking, the watch has fired when the goroutine has returned. -/
theorem C75_key_partial (k : Key) (v : V) :
    let watch : Op V := .getWatch j.work.tree k
    let ops' := ops ++ [watch]
    (exec (execAll World.init ops).2 watch).1 = .chan c (some v) → Lawful World.init ops' → Broad (j.work.after ops') →
    (teamAfter ops' turns).jobs[i]? = some j → j.src = none → j.work.Tracked calls → (∃ call ∈ calls, call.touches k) → Sole ops' turns i →
    (teamAfter ops' turns).pool.result i = some (.ok x) → (teamAfter ops' turns).pool.Closed c := by
  intro watch ops' hw hl hb hj hs hg ⟨call, hm, ht⟩ ho hx
  have h1 : j.work.tree < (execAll World.init ops).2.trees.length := onTree_lt (w := (execAll World.init ops).2) fun h => by rw [show (exec _ watch).1 = _ from h] at hw; cases hw
  refine fires_core ops turns i j calls c x watch (a := some k) (by simp only [watch] at hw ⊢; rw [hw]; rfl) (tree_after ops watch h1) hl hj hs hg ho hx ?_
  rw [tracked_after ops calls watch hg] at hb
  exact C29_partial ops [] _ [] _ _ k c v hw hb (hg.steady _) ⟨_, List.mem_map_of_mem hm, ht.op _⟩

/-- C75 for absent keys, in trees with keys of at most ten bytes. -/
theorem C75_absent_partial (k : Key) :
    let watch : Op V := .getWatch j.work.tree k
    let ops' := ops ++ [watch]
    (∀ m, mapAfter ops j.work.tree = some m → ∀ k', m.has k' → k'.length ≤ 10) →
    (exec (execAll World.init ops).2 watch).1 = .chan c none → Lawful World.init ops' → Broad (j.work.after ops') →
    (teamAfter ops' turns).jobs[i]? = some j → j.src = none → j.work.Tracked calls → (∃ call ∈ calls, call.touches k) → Sole ops' turns i →
    (teamAfter ops' turns).pool.result i = some (.ok x) → (teamAfter ops' turns).pool.Closed c := by
  intro watch ops' hlen hw hl hb hj hs hg ⟨call, hm, ht⟩ ho hx
  have h1 : j.work.tree < (execAll World.init ops).2.trees.length := onTree_lt (w := (execAll World.init ops).2) fun h => by rw [show (exec _ watch).1 = _ from h] at hw; cases hw
  refine fires_core ops turns i j calls c x watch (a := none) (by simp only [watch] at hw ⊢; rw [hw]; rfl) (tree_after ops watch h1) hl hj hs hg ho hx ?_
  rw [tracked_after ops calls watch hg] at hb
  exact C30_partial ops [] _ [] _ _ k c hlen hw hb (hg.steady _) ⟨_, List.mem_map_of_mem hm, ht.op _⟩

/-- C75 for prefixes: the goroutine inserts or deletes any key with the prefix. -/
theorem C75_prefix_partial (p : Key) :
    let watch : Op V := .seekPrefixWatch j.work.tree p
    let ops' := ops ++ [watch]
    (exec (execAll World.init ops).2 watch).1 = .watch c → Lawful World.init ops' → Broad (j.work.after ops') →
    (teamAfter ops' turns).jobs[i]? = some j → j.src = none → j.work.Tracked calls → (∃ call ∈ calls, ∃ k, call.touches k ∧ p <+: k) → Sole ops' turns i →
    (teamAfter ops' turns).pool.result i = some (.ok x) → (teamAfter ops' turns).pool.Closed c := by
  intro watch ops' hw hl hb hj hs hg ⟨call, hm, k, ht, hk⟩ ho hx
  have h1 : j.work.tree < (execAll World.init ops).2.trees.length := onTree_lt (w := (execAll World.init ops).2) fun h => by rw [show (exec _ watch).1 = _ from h] at hw; cases hw
  refine fires_core ops turns i j calls c x watch (a := none) (by simp only [watch] at hw ⊢; rw [hw]; rfl) (tree_after ops watch h1) hl hj hs hg ho hx ?_
  rw [tracked_after ops calls watch hg] at hb
  exact C31_partial ops [] _ [] _ _ p c hw hb (hg.steady _) ⟨_, List.mem_map_of_mem hm, k, ht.op _, hk⟩
end

/-- C75 for present keys, in all lawful histories. -/
def C75_Full : Prop := ∀ (ops : List (Op Nat)) (turns : List (Turn Nat)) (i : Nat) (j : Job Nat) (calls : List (Call Nat)) (c : ChanId)
    (x : List (Out Nat) × Tree) (k : Key) (v : Nat),
  let watch : Op Nat := .getWatch j.work.tree k
  let ops' := ops ++ [watch]
  (exec (execAll World.init ops).2 watch).1 = .chan c (some v) → Lawful World.init ops' →
  (teamAfter ops' turns).jobs[i]? = some j → j.src = none → j.work.Tracked calls → (∃ call ∈ calls, call.touches k) → Sole ops' turns i →
  (teamAfter ops' turns).pool.result i = some (.ok x) → (teamAfter ops' turns).pool.Closed c

theorem Sole.of_jobs {ops : List (Op Nat)} {turns : List (Turn Nat)} {i : Nat}
    (h1 : (teamAfter ops turns).jobs.zipIdx.all (fun p => p.2 == i || decide (.track true ∉ p.1.work.calls)) = true)
    (h2 : ∀ a k, Turn.act (.chan a k) ∉ turns) : Sole ops turns i where
  others := fun k j hj hk ht => by
    have h3 := List.all_eq_true.1 h1 (j, k) (List.mk_mem_zipIdx_iff_getElem?.2 hj)
    simp only [Bool.or_eq_true, beq_iff_eq, decide_eq_true_eq] at h3
    rcases h3 with h3 | h3
    · exact hk h3
    · exact h3 ht
  fills := fun n a k h => absurd (List.mem_of_getElem? h) (h2 a k)

/-- A goroutine all by itself. -/
def solo (g : Session Nat) (n : Nat) : List (Turn Nat) := .start none g :: (List.range n).map fun _ => .act (.step 0)

theorem solo_noChan (g : Session Nat) (n : Nat) (a : Addr) (k : ChanId) : Turn.act (.chan a k) ∉ solo g n := fun h => by
  unfold solo at h
  simp at h

theorem team_of {ops : List (Op Nat)} {turns : List (Turn Nat)} {i : Nat} {src : Option Nat} {g : Session Nat}
    (h1 : ((teamAfter ops turns).jobs[i]?).map (fun j => (j.src, j.work)) = some (src, g))
    (h2 : ((teamAfter ops turns).pool.result i).any (fun x => x.toOption.isSome) = true) :
    ∃ j x, (teamAfter ops turns).jobs[i]? = some j ∧ j.src = src ∧ j.work = g ∧ (teamAfter ops turns).pool.result i = some (.ok x) := by
  obtain ⟨j, hj, e⟩ := Option.map_eq_some_iff.1 h1
  cases e
  cases hx : (teamAfter ops turns).pool.result i with
  | none => rw [hx] at h2; cases h2
  | some x =>
    cases x with
    | error e => rw [hx] at h2; cases h2
    | ok x => exact ⟨j, x, hj, rfl, rfl, rfl⟩

/-- C75 is false in general, without any other goroutine: {a, b}, a watched; a goroutine that deletes c, which is not there, and inserts a
does not fire the watch (`C29_false`). -/
theorem C75_false : ¬ C75_Full := fun h => by
  obtain ⟨j, x, hj, hs, hg, hx⟩ := team_of (ops := build [kA, kB] ++ [.getWatch 2 kA])
    (turns := solo ⟨2, [.track true, .delete kC, .insert kA 7], true⟩ 200) (i := 0) (src := none)
    (g := ⟨2, [.track true, .delete kC, .insert kA 7], true⟩) (by decide +kernel) (by decide +kernel)
  have h1 := h (build [kA, kB]) (solo ⟨2, [.track true, .delete kC, .insert kA 7], true⟩ 200) 0 j [.delete kC, .insert kA 7] 2 x kA 1
  dsimp only at h1
  rw [hg] at h1
  refine absurd (h1 ?_ ?_ hj hs ⟨rfl, rfl, by simp⟩ ⟨.insert kA 7, by simp, rfl⟩ (.of_jobs ?_ (solo_noChan _ _)) hx) ?_
  · decide +kernel
  · decide +kernel
  · decide +kernel
  · unfold Pool.Closed; decide +kernel

/-! ### Examples -/

theorem telling_noChan (a : Addr) (k : ChanId) : Turn.act (.chan a k) ∉ telling := fun h => by
  unfold telling at h
  simp at h

/-- Somebody watches foo; goroutine 0 changes it with tracking, and goroutine 1 changes it at the same time in a tree of its own.  In
the schedule of `telling` the watch has fired (C75). -/
example : (teamAfter (busy ++ [.getWatch 3 kFoo]) telling).pool.Closed 3 := by
  obtain ⟨j, x, hj, hs, hg, hx⟩ := team_of (ops := busy ++ [.getWatch 3 kFoo]) (turns := telling) (i := 0) (src := none)
    (g := ⟨3, [.track true, .insert kFoo 7], true⟩) (by decide +kernel) (by decide +kernel)
  have h1 := C75_key_partial busy telling 0 j [.insert kFoo 7] 3 x kFoo 1
  dsimp only at h1
  rw [hg] at h1
  refine h1 ?_ ?_ (.of_loose ?_) hj hs ⟨rfl, rfl, by simp⟩ ⟨.insert kFoo 7, by simp, rfl⟩ (.of_jobs ?_ telling_noChan) hx
  · decide +kernel
  · decide +kernel
  · decide +kernel
  · decide +kernel

/-- In any schedule, and whatever is started, as long as nobody else tracks. -/
example (turns : List (Turn Nat)) (hs : Sole (busy ++ [.getWatch 3 kFoo]) turns 0) (kn : List Tree)
    (hj : (teamAfter (busy ++ [.getWatch 3 kFoo]) turns).jobs[0]? = some ⟨none, kn, ⟨3, [.track true, .insert kFoo 7], true⟩⟩)
    (x : List (Out Nat) × Tree) (hx : (teamAfter (busy ++ [.getWatch 3 kFoo]) turns).pool.result 0 = some (.ok x)) :
    (teamAfter (busy ++ [.getWatch 3 kFoo]) turns).pool.Closed 3 := by
  have h1 := C75_key_partial busy turns 0 ⟨none, kn, ⟨3, [.track true, .insert kFoo 7], true⟩⟩ [.insert kFoo 7] 3 x kFoo 1
  refine h1 ?_ ?_ (.of_loose ?_) hj rfl ⟨rfl, rfl, by simp⟩ ⟨.insert kFoo 7, by simp, rfl⟩ hs hx
  · show (exec (execAll World.init busy).2 (.getWatch 3 kFoo)).1 = .chan 3 (some 1)
    decide +kernel
  · show Lawful World.init (busy ++ [.getWatch 3 kFoo])
    decide +kernel
  · show Loose (Session.after (busy ++ [.getWatch 3 kFoo]) ⟨3, [.track true, .insert kFoo 7], true⟩)
    decide +kernel

/-- Somebody watches b, which is absent; a goroutine inserts it (C75). -/
example : (teamAfter (busy ++ [.getWatch 3 kB]) (solo ⟨3, [.track true, .insert kB 7], true⟩ 200)).pool.Closed 3 := by
  obtain ⟨j, x, hj, hs, hg, hx⟩ := team_of (ops := busy ++ [.getWatch 3 kB]) (turns := solo ⟨3, [.track true, .insert kB 7], true⟩ 200) (i := 0) (src := none)
    (g := ⟨3, [.track true, .insert kB 7], true⟩) (by decide +kernel) (by decide +kernel)
  have h1 := C75_absent_partial busy (solo ⟨3, [.track true, .insert kB 7], true⟩ 200) 0 j [.insert kB 7] 3 x kB
  dsimp only at h1
  rw [hg] at h1
  refine h1 ?_ ?_ ?_ (.of_loose ?_) hj hs ⟨rfl, rfl, by simp⟩ ⟨.insert kB 7, by simp, rfl⟩ (.of_jobs ?_ (solo_noChan _ _)) hx
  · intro m hm k' hk'
    have hm : mapAfter busy 3 = some m := hm
    have h : mapAfter busy 3 = some [(kA, 3), (kFoobar, 2), (kFoo, 1)] := by decide +kernel
    rw [h] at hm; cases hm
    obtain ⟨v, hv⟩ := hk'
    revert hv
    simp only [List.mem_cons, Prod.mk.injEq, List.not_mem_nil, or_false]
    rintro (⟨rfl, -⟩ | ⟨rfl, -⟩ | ⟨rfl, -⟩) <;> decide
  · decide +kernel
  · decide +kernel
  · decide +kernel
  · decide +kernel

/-- Somebody watches the keys that begin with fo; goroutine 0 changes foo (C75). -/
example : (teamAfter (busy ++ [.seekPrefixWatch 3 (ascii ['f', 'o'])]) telling).pool.Closed 2 := by
  obtain ⟨j, x, hj, hs, hg, hx⟩ := team_of (ops := busy ++ [.seekPrefixWatch 3 (ascii ['f', 'o'])]) (turns := telling) (i := 0) (src := none)
    (g := ⟨3, [.track true, .insert kFoo 7], true⟩) (by decide +kernel) (by decide +kernel)
  have h1 := C75_prefix_partial busy telling 0 j [.insert kFoo 7] 2 x (ascii ['f', 'o'])
  dsimp only at h1
  rw [hg] at h1
  refine h1 ?_ ?_ (.of_loose ?_) hj hs ⟨rfl, rfl, by simp⟩ ⟨.insert kFoo 7, by simp, kFoo, rfl, by decide⟩ (.of_jobs ?_ telling_noChan) hx
  · decide +kernel
  · decide +kernel
  · decide +kernel
  · decide +kernel

/-- The channels that goroutine 0 closes alone (C74), and the channels before. -/
example : (aloneAfter (busy ++ [.getWatch 3 kFoo]) ⟨3, [.track true, .insert kFoo 7], true⟩).2.chans.take 4 = [false, false, true, true] ∧
    (execAll World.init (busy ++ [.getWatch 3 kFoo])).2.chans = [false, false, false, false] := by decide +kernel

end Art
