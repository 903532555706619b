import Verif.Proofs.MindPool
import Verif.Props.Deliver

/-!
# C77: watches that come while a goroutine works

C75 is about watches that somebody has asked for before the goroutine starts.  Here the channel is on a node of the tree at any moment of the
schedule: while the goroutine that tracks is at work, or because a reader put it there meanwhile.
-/

set_option autoImplicit false
set_option linter.unusedVariables false
set_option linter.unusedSimpArgs false
set_option linter.unusedSectionVars false

namespace Art
variable {V : Type} [Inhabited V]

/-- What `GetWatch` returns for key `k` of tree `t`, when everybody else waits. -/
def Team.getWatch (T : Team V) (t : Tree) (k : Key) : R (ChanId × Option V) := (treeGetWatch t k ⟨T.pool.heap, T.pool.chans, default⟩).1

/-- C77: somebody asks, at any moment before the goroutine returns, for the channel of a key of the tree on which the goroutine started; the
goroutine changes this key.  When it has returned, the channel is closed. -/
def C77_Full : Prop := ∀ (ops : List (Op Nat)) (turns : List (Turn Nat)) (i n : Nat) (j : Job Nat) (calls : List (Call Nat)) (c : ChanId)
    (x : List (Out Nat) × Tree) (k : Key) (v : Nat) (t : Tree),
  Lawful World.init ops → Broad (j.work.after ops) → (teamAfter ops turns).jobs[i]? = some j → j.src = none → j.work.Tracked calls →
  (∃ call ∈ calls, call.touches k) → Sole ops turns i → Honest ops turns →
  (execAll World.init ops).2.trees[j.work.tree]? = some t →
  (teamAfter ops (turns.take n)).getWatch t k = .ok (c, some v) → c < (teamAfter ops (turns.take n)).pool.chans.length →
  (teamAfter ops (turns.take n)).pool.result i = none →
  (teamAfter ops turns).pool.result i = some (.ok x) → (teamAfter ops turns).pool.Closed c

theorem Honest.of_noChan {ops : List (Op V)} {turns : List (Turn V)} (h : ∀ a k, Turn.act (.chan a k) ∉ turns) : Honest ops turns :=
  fun n a c e => absurd (List.mem_of_getElem? e) (h a c)

/-- C77 is false: `trackChannel` replaces the channel of the leaf when the goroutine inserts foo.  Who asks for the channel of foo after that, in the
tree that is still the current one, gets a channel that nobody is ever going to close. -/
theorem C77_false : ¬ C77_Full := fun h => by
  obtain ⟨j, x, hj, hs, hg, hx⟩ := team_of (ops := busy ++ [.getWatch 3 kFoo])
    (turns := solo ⟨3, [.track true, .insert kFoo 7], true⟩ 90) (i := 0) (src := none)
    (g := ⟨3, [.track true, .insert kFoo 7], true⟩) (by decide +kernel) (by decide +kernel)
  have h1 := h (busy ++ [.getWatch 3 kFoo]) (solo ⟨3, [.track true, .insert kFoo 7], true⟩ 90) 0 50 j [.insert kFoo 7] 7 x kFoo 1
    ⟨11, 3, 15⟩
  rw [hg] at h1
  refine absurd (h1 ?_ (.of_loose ?_) hj hs ⟨rfl, rfl, by simp⟩ ⟨.insert kFoo 7, by simp, rfl⟩ (.of_jobs ?_ (solo_noChan _ _))
    (.of_noChan (solo_noChan _ _)) ?_ ?_ ?_ ?_ hx) ?_
  · decide +kernel
  · decide +kernel
  · decide +kernel
  · decide +kernel
  · show (treeGetWatch _ _ _).1 = _
    decide +kernel
  · decide +kernel
  · exact Option.isNone_iff_eq_none.1 (by decide +kernel)
  · unfold Pool.Closed; decide +kernel

section
variable (ops : List (Op V)) (turns : List (Turn V)) (i n : Nat)

/-- Every channel of a node, and every channel that somebody is going to close, has been made. -/
theorem C77_range_partial (hh : Honest ops turns) (c : ChanId)
    (h : (∃ a, chanOf (teamAfter ops turns).pool.heap a = some c) ∨ (teamAfter ops turns).pool.Tracks i c) :
    c < (teamAfter ops turns).pool.chans.length := by
  have hM := honest_minded hh turns.length (Nat.le_refl _)
  rw [List.take_length] at hM
  rcases h with ⟨a, h⟩ | ⟨p, hp, h⟩
  · exact hM.heap.chanOf h
  · exact (hM.proc i p hp).1 c h

/-- Whatever a goroutine has put on its list at some moment is closed when it has returned from `Commit`, also the channels made since the
goroutines started (C73 has the older ones). -/
theorem C77_told_partial (hh : Honest ops turns) (j : Job V) (hj : (teamAfter ops turns).jobs[i]? = some j) (ht : j.work.tells)
    (x : List (Out V) × Tree) (hx : (teamAfter ops turns).pool.result i = some (.ok x)) (c : ChanId)
    (hk : (teamAfter ops (turns.take n)).pool.Tracks i c) : (teamAfter ops turns).pool.Closed c :=
  honest_closed hh hj ht hx hk

/-- A node of a tree loses its channel only in a step of the goroutine that tracks, and then the channel is on its list. -/
theorem C77_step_partial (hl : Lawful World.init ops) (hh : Honest ops turns) (ho : Sole ops turns i) (e : Turn V) (he : turns[n]? = some e)
    (a : Nat) (ha : a < (heapAfter ops).length) (c : ChanId) (h1 : chanOf (teamAfter ops (turns.take n)).pool.heap a = some c)
    (h2 : chanOf (teamAfter ops (turns.take (n + 1))).pool.heap a ≠ some c) :
    e = .act (.step i) ∧ (teamAfter ops (turns.take n)).pool.Tracks i c :=
  sole_lost hl hh ho.others ho.fills he ha h1 h2

/-- A channel that a node of a tree had at some moment is still there when the goroutine has returned, or else it is closed. -/
theorem C77_node_partial (hl : Lawful World.init ops) (hh : Honest ops turns) (ho : Sole ops turns i) (j : Job V)
    (hj : (teamAfter ops turns).jobs[i]? = some j) (ht : j.work.tells) (x : List (Out V) × Tree)
    (hx : (teamAfter ops turns).pool.result i = some (.ok x)) (a : Nat) (ha : a < (heapAfter ops).length) (c : ChanId)
    (h1 : chanOf (teamAfter ops (turns.take n)).pool.heap a = some c) :
    chanOf (teamAfter ops turns).pool.heap a = some c ∨ (teamAfter ops turns).pool.Closed c := by
  by_cases h2 : chanOf (teamAfter ops turns).pool.heap a = some c
  · exact .inl h2
  refine .inr ?_
  rcases Nat.lt_or_ge turns.length n with h | h
  · rw [List.take_of_length_le (Nat.le_of_lt h)] at h1
    exact absurd h1 h2
  obtain ⟨k, -, -, -, hk⟩ := sole_lost_later hl hh ho.others ho.fills h (Nat.le_refl _) ha h1 (by rw [List.take_length]; exact h2)
  exact honest_closed hh hj ht hx hk

/-- The trees of the history read the same while the goroutines are at work. -/
theorem team_same (hl : Lawful World.init ops) (h0 : 0 < (heapAfter ops).length) : Same (heapAfter ops) (teamAfter ops turns).pool.heap (· < (heapAfter ops).length) where
  closed := fun a ha => by
    obtain ⟨rk, hk⟩ := worldAfter_ranked ops
    exact ⟨_, List.getElem?_eq_getElem ha, fun b hb => (hk a _ b (List.getElem?_eq_getElem ha) hb).1⟩
  agree := fun a ha => by
    obtain ⟨_, _, _, hT, -⟩ := team_inv hl h0 turns
    exact orel_agree (hT.inv.old a ha)

theorem Team.getWatch_ok {T : Team V} {t : Tree} {k : Key} {c : ChanId} {r : Option V} (h : T.getWatch t k = .ok (c, r)) (hc : c < T.pool.chans.length) :
    ∃ hit, search T.pool.heap t.root k = .ok hit ∧ hit.val = r ∧ chanOf T.pool.heap hit.watch = some c := by
  unfold Team.getWatch at h
  rw [treeGetWatch_run] at h
  dsimp only at h
  cases hs : search T.pool.heap t.root k with
  | error e => rw [hs] at h; cases h
  | ok hit =>
    rw [hs] at h
    dsimp only at h
    cases hd : T.pool.heap[hit.watch]? with
    | none => rw [hd] at h; cases h
    | some d =>
      rw [hd] at h
      dsimp only at h
      cases hk : d.ch with
      | none =>
        simp only [watchCh, hk] at h
        injection h with h
        injection h with h h'
        exact absurd hc (by rw [← h]; exact Nat.lt_irrefl _)
      | some k' =>
        simp only [watchCh, hk] at h
        injection h with h
        injection h with h h'
        exact ⟨hit, rfl, h', by unfold chanOf; rw [hd]; simp [hk, h]⟩

theorem Team.getWatch_of {T : Team V} {t : Tree} {k : Key} {c : ChanId} {hit : Hit V} (h : search T.pool.heap t.root k = .ok hit)
    (hc : chanOf T.pool.heap hit.watch = some c) : T.getWatch t k = .ok (c, hit.val) := by
  unfold Team.getWatch
  rw [treeGetWatch_run, h]
  dsimp only
  unfold chanOf at hc
  cases hd : T.pool.heap[hit.watch]? with
  | none => rw [hd] at hc; cases hc
  | some d =>
    rw [hd] at hc
    have hc : d.ch = some c := hc
    simp [watchCh, hc]

/-- C77: whoever has asked, at any moment, for the channel of a key of some tree, and got a channel that was there, need not ask again: the channel is
closed when the goroutine has returned, or else whoever asks then gets the same channel and the same value. -/
theorem C77_partial (hl : Lawful World.init ops) (hh : Honest ops turns) (ho : Sole ops turns i) (j : Job V)
    (hj : (teamAfter ops turns).jobs[i]? = some j) (ht : j.work.tells) (x : List (Out V) × Tree)
    (hx : (teamAfter ops turns).pool.result i = some (.ok x)) (t : Tree) (htree : t ∈ (execAll World.init ops).2.trees) (k : Key)
    (c : ChanId) (r : Option V)
    (h1 : (teamAfter ops (turns.take n)).getWatch t k = .ok (c, r)) (h2 : c < (teamAfter ops (turns.take n)).pool.chans.length) :
    (teamAfter ops turns).getWatch t k = .ok (c, r) ∨ (teamAfter ops turns).pool.Closed c := by
  have hroot : t.root < (heapAfter ops).length := (worldAfter_all ops).trees t htree
  have h0 : 0 < (heapAfter ops).length := Nat.lt_of_le_of_lt (Nat.zero_le _) hroot
  obtain ⟨hit, hs, hv, hc⟩ := Team.getWatch_ok h1 h2
  rw [search_congr (team_same ops _ hl h0) hroot] at hs
  have ha : hit.watch < (heapAfter ops).length := searchLoopAt_lt (saneAll ops).heap _ _ _ _ _ hs
  rcases C77_node_partial ops turns i n hl hh ho j hj ht x hx hit.watch ha c hc with h | h
  · refine .inl ?_
    rw [← hv]
    exact Team.getWatch_of (by rw [search_congr (team_same ops _ hl h0) hroot]; exact hs) h
  · exact .inr h
end

/-- The same with several goroutines that track, all of which end with `Commit`. -/
def C77_Wide : Prop := ∀ (ops : List (Op Nat)) (turns : List (Turn Nat)) (n : Nat) (a : Nat) (c : ChanId),
  Lawful World.init ops → (∀ b k, Turn.act (.chan b k) ∉ turns) →
  (∀ i j, (teamAfter ops turns).jobs[i]? = some j → j.work.tells ∧ ∃ x, (teamAfter ops turns).pool.result i = some (.ok x)) →
  a < (heapAfter ops).length → chanOf (teamAfter ops (turns.take n)).pool.heap a = some c →
  chanOf (teamAfter ops turns).pool.heap a = some c ∨ (teamAfter ops turns).pool.Closed c

/-- Two goroutines change foo.  Goroutine 0 has read the channel of the leaf and is about to replace it. Goroutine 1 replaces it first, and returns;
somebody asks; goroutine 0 replaces that channel, which is on nobody's list. -/
def crossed : List (Turn Nat) :=
  [.start none ⟨3, [.track true, .insert kFoo 7], true⟩, .start none ⟨3, [.track true, .insert kFoo 8], true⟩] ++
    ((List.range 17).map fun _ => .act (.step 0)) ++ ((List.range 90).map fun _ => .act (.step 1)) ++ (List.range 90).map fun _ => .act (.step 0)

theorem C77_wide_false : ¬ C77_Wide := fun h => by
  have h1 := h (busy ++ [.getWatch 3 kFoo]) crossed 100 4 8 (by decide +kernel) (fun b k hm => by unfold crossed at hm; simp at hm) (fun i j hj => ?_)
    (by decide +kernel) (by decide +kernel)
  · rcases h1 with h1 | h1
    · revert h1; decide +kernel
    · revert h1; unfold Pool.Closed; decide +kernel
  · have hlen : (teamAfter (busy ++ [.getWatch 3 kFoo]) crossed).jobs.length = 2 := by decide +kernel
    have hi : i < 2 := hlen ▸ (List.getElem?_eq_some_iff.1 hj).1
    rcases i with _ | _ | i
    · obtain ⟨j', x, hj', -, hg, hx⟩ := team_of (ops := busy ++ [.getWatch 3 kFoo]) (turns := crossed) (i := 0) (src := none)
        (g := ⟨3, [.track true, .insert kFoo 7], true⟩) (by decide +kernel) (by decide +kernel)
      have e : j' = j := Option.some.inj (hj'.symm.trans hj)
      subst e
      exact ⟨by rw [hg]; exact ⟨rfl, by simp⟩, x, hx⟩
    · obtain ⟨j', x, hj', -, hg, hx⟩ := team_of (ops := busy ++ [.getWatch 3 kFoo]) (turns := crossed) (i := 1) (src := none)
        (g := ⟨3, [.track true, .insert kFoo 8], true⟩) (by decide +kernel) (by decide +kernel)
      have e : j' = j := Option.some.inj (hj'.symm.trans hj)
      subst e
      exact ⟨by rw [hg]; exact ⟨rfl, by simp⟩, x, hx⟩
    · omega

/-! ### Examples -/

/-- Nobody has asked for the channel of foo.  Goroutine 0 is going to change foo, goroutine 1 asks for its channel meanwhile. -/
def latecomer : List (Turn Nat) :=
  [.start none ⟨3, [.track true, .insert kFoo 7], true⟩, .start none ⟨3, [.getWatch kFoo], false⟩] ++
    ((List.range 8).map fun _ => .act (.step 0)) ++ ((List.range 20).map fun _ => .act (.step 1)) ++ (List.range 90).map fun _ => .act (.step 0)

theorem latecomer_noChan (a : Addr) (k : ChanId) : Turn.act (.chan a k) ∉ latecomer := fun h => by
  unfold latecomer at h
  simp at h

/-- Leaf 4 is foo; it has no channel at first, then channel 4 of goroutine 1, then one that is not on any list. -/
example : chanOf (heapAfter busy) 4 = none ∧ chanOf (teamAfter busy (latecomer.take 30)).pool.heap 4 = some 4 ∧
    chanOf (teamAfter busy latecomer).pool.heap 4 = some 7 := by decide +kernel

/-- What goroutine 1 returned, without the channel. -/
example : ((teamAfter busy latecomer).pool.result 1).map (fun r => r.toOption.map (·.1)) = some (some [.value (some 1)]) := by decide +kernel

/-- The watch of goroutine 1 has fired when goroutine 0 has returned (C77). -/
example : (teamAfter busy latecomer).pool.Closed 4 := by
  obtain ⟨j, x, hj, hs, hg, hx⟩ := team_of (ops := busy) (turns := latecomer) (i := 0) (src := none)
    (g := ⟨3, [.track true, .insert kFoo 7], true⟩) (by decide +kernel) (by decide +kernel)
  have h1 := C77_partial busy latecomer 0 30
  refine (h1 ?_ (.of_noChan latecomer_noChan) (.of_jobs ?_ latecomer_noChan) j hj ?_ x hx ⟨11, 3, 15⟩ ?_ kFoo 4 (some 1) ?_ ?_).resolve_left ?_
  · decide +kernel
  · decide +kernel
  · rw [hg]; exact ⟨rfl, by simp⟩
  · decide +kernel
  · show (treeGetWatch _ _ _).1 = _
    decide +kernel
  · decide +kernel
  · show (treeGetWatch _ _ _).1 ≠ _
    decide +kernel

/-- In any schedule: once leaf 4 has a channel that the goroutine takes away, it is closed when the goroutine has returned (C77). -/
example (turns : List (Turn Nat)) (n : Nat) (c : ChanId) (hh : Honest busy turns) (hs : Sole busy turns 0) (kn : List Tree)
    (hj : (teamAfter busy turns).jobs[0]? = some ⟨none, kn, ⟨3, [.track true, .insert kFoo 7], true⟩⟩)
    (x : List (Out Nat) × Tree) (hx : (teamAfter busy turns).pool.result 0 = some (.ok x))
    (h1 : chanOf (teamAfter busy (turns.take n)).pool.heap 4 = some c) (h2 : chanOf (teamAfter busy turns).pool.heap 4 ≠ some c) :
    (teamAfter busy turns).pool.Closed c :=
  (C77_node_partial busy turns 0 n (by decide +kernel) hh hs _ hj ⟨rfl, by simp⟩ x hx 4 (by decide +kernel) c h1).resolve_left h2

/-- Goroutine 0 has channel 4 on its list, on the way (C77: so it has been made, and is closed in the end). -/
example : (teamAfter busy (latecomer.take 60)).pool.Tracks 0 4 ∧ ¬ (teamAfter busy (latecomer.take 60)).pool.Closed 4 :=
  ⟨Pool.tracks_of_any (by decide +kernel), by unfold Pool.Closed; decide +kernel⟩

example : 4 < (teamAfter busy (latecomer.take 60)).pool.chans.length :=
  C77_range_partial busy (latecomer.take 60) 0 (.of_noChan fun a k h => latecomer_noChan a k (List.mem_of_mem_take h)) 4
    (.inr (Pool.tracks_of_any (by decide +kernel)))

example : (teamAfter busy latecomer).pool.Closed 4 := by
  obtain ⟨j, x, hj, hs, hg, hx⟩ := team_of (ops := busy) (turns := latecomer) (i := 0) (src := none)
    (g := ⟨3, [.track true, .insert kFoo 7], true⟩) (by decide +kernel) (by decide +kernel)
  exact C77_told_partial busy latecomer 0 60 (.of_noChan latecomer_noChan) j hj (by rw [hg]; exact ⟨rfl, by simp⟩) x hx 4
    (Pool.tracks_of_any (by decide +kernel))

end Art
