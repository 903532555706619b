import Verif.Proofs.RingPool
import Verif.Props.Team
/-
Channels when goroutines work at the same time (`Model/Pool.lean`): `Notify` looks at each channel on the list of its transaction
and then closes it, in two steps, so that another goroutine can come in between.
-/
set_option autoImplicit false
set_option linter.unusedVariables false
set_option linter.unusedSimpArgs false
set_option linter.unusedSectionVars false
namespace Art
variable {V : Type} [Inhabited V]

/-- C71, in full: no goroutine closes a channel that another one has closed. -/
def C71_Full : Prop := ∀ (ops : List (Op Nat)) (turns : List (Turn Nat)) (i : Nat), Lawful World.init ops → ¬ (teamAfter ops turns).pool.Crash i

/-- Two goroutines that insert b into the tree (a, foo, foobar), both with `TrackMutate(true)` and `Commit`.
The second one takes one step more: when it wants to give the root a channel, the first one was faster, and it has to load that channel. -/
def clash : List (Turn Nat) :=
  [.start none ⟨3, [.track true, .insert kB 7], true⟩, .start none ⟨3, [.track true, .insert kB 8], true⟩] ++
    (List.range 20).flatMap (fun _ => [.act (.step 0), .act (.step 1)]) ++ [.act (.step 1)] ++
    (List.range 35).flatMap fun _ => [.act (.step 0), .act (.step 1)]

/-- C71 is false: both find the channel of the root open, and then both close it. -/
theorem C71_false : ¬ C71_Full := fun h => by
  have h1 := h busy clash 1 (by decide +kernel)
  cases hp : (teamAfter busy clash).pool.procs[1]? with
  | none =>
    have : ((teamAfter busy clash).pool.procs[1]?).isSome = true := by decide +kernel
    rw [hp] at this
    cases this
  | some p =>
    refine h1 ⟨p, hp, ?_⟩
    have : ((teamAfter busy clash).pool.procs[1]?).any (fun p => decide (p.crashes (teamAfter busy clash).pool.chans)) = true := by decide +kernel
    rw [hp] at this
    simpa using this

/-- C71 when there is at any moment at most one goroutine at work that tracks and notifies. -/
theorem C71_partial (ops : List (Op V)) (turns : List (Turn V))
    (h1 : ∀ n i j, (teamAfter ops (turns.take n)).Ringing i → (teamAfter ops (turns.take n)).Ringing j → i = j) (i : Nat) :
    ¬ (teamAfter ops turns).pool.Crash i := by
  have key : ∀ (xs : List (Turn V)) (T : Team V) (L : Nat), T.Neat L 0 → T.Safe →
      (∀ n i j, (T.run (xs.take n)).Ringing i → (T.run (xs.take n)).Ringing j → i = j) → (T.run xs).Safe := by
    intro xs
    induction xs with
    | nil => intro T L _ hs _; exact hs
    | cons x xs ih => exact fun T L hN hs h => ih _ L (hN.turn x) (hs.turn hN (h 0) x) fun n => h (n + 1)
  exact key turns _ _ (World.team_neat _) (fun i ⟨p, hp, _⟩ => by cases hp) h1 i

/-- C71 when only one goroutine that tracks and notifies is started at all. -/
theorem C71_one_partial (ops : List (Op V)) (t1 t2 : List (Turn V)) (x : Turn V) (h1 : ∀ src g, .start src g ∈ t1 → ¬ g.rings)
    (h2 : ∀ src g, .start src g ∈ t2 → ¬ g.rings) (i : Nat) : ¬ (teamAfter ops (t1 ++ x :: t2)).pool.Crash i := by
  have key : ∀ n i, (teamAfter ops ((t1 ++ x :: t2).take n)).Ringing i → i = (teamAfter ops t1).jobs.length := by
    rintro n i ⟨-, j, hj, hr⟩
    rw [List.take_append] at hj
    unfold teamAfter Team.run at hj
    rw [List.foldl_append] at hj
    cases hm : n - t1.length with
    | zero =>
      obtain ⟨js, g1, g2⟩ := Team.run_jobs (execAll World.init ops).2.team (t1.take n)
      rw [hm] at hj
      have hj : ((execAll World.init ops).2.team.run (t1.take n)).jobs[i]? = some j := hj
      rw [g1] at hj
      obtain ⟨src, h⟩ := g2 j (List.mem_of_getElem? hj)
      exact absurd hr (h1 src _ (List.mem_of_mem_take h))
    | succ m =>
      rw [hm, List.take_of_length_le (by omega)] at hj
      have hj : (((teamAfter ops t1).turn x).run (t2.take m)).jobs[i]? = some j := hj
      obtain ⟨js, g1, g2⟩ := Team.run_jobs ((teamAfter ops t1).turn x) (t2.take m)
      obtain ⟨js', g3, g4⟩ := Team.turn_jobs (teamAfter ops t1) x
      obtain ⟨js0, g5, g6⟩ := Team.run_jobs (execAll World.init ops).2.team t1
      rw [g1, g3, List.append_assoc] at hj
      rcases Nat.lt_or_ge i (teamAfter ops t1).jobs.length with k1 | k1
      · rw [List.getElem?_append_left k1] at hj
        have hj := List.mem_of_getElem? hj
        unfold teamAfter at hj
        rw [g5] at hj
        obtain ⟨src, h⟩ := g6 j hj
        exact absurd hr (h1 src _ h)
      · rw [List.getElem?_append_right k1] at hj
        rcases Nat.lt_or_ge (i - (teamAfter ops t1).jobs.length) js'.length with k2 | k2
        · omega
        · rw [List.getElem?_append_right k2] at hj
          obtain ⟨src, h⟩ := g2 j (List.mem_of_getElem? hj)
          exact absurd hr (h2 src _ (List.mem_of_mem_take h))
  exact C71_partial ops _ (fun n i j hi hj => (key n i hi).trans (key n j hj).symm) i

/-- When there is at any moment at most one of them at work, a goroutine that gets to take steps again and again returns (C69). -/
theorem C71_ends_partial (ops : List (Op V)) (f : Nat → Turn V) (i n : Nat) (hi : i < (teamAfter ops ((List.range n).map f)).pool.procs.length)
    (hf : ∀ n, ∃ m, n ≤ m ∧ f m = .act (.step i))
    (h1 : ∀ n i j, (teamAfter ops ((List.range n).map f)).Ringing i → (teamAfter ops ((List.range n).map f)).Ringing j → i = j) :
    ∃ m x, (teamAfter ops ((List.range m).map f)).pool.result i = some x := by
  obtain ⟨m, h | h⟩ := C69 ops f i n hi hf
  · exact ⟨m, h⟩
  · refine absurd h (C71_partial ops _ (fun n => ?_) i)
    rw [← List.map_take, List.take_range]
    exact h1 _

/-- C72: a channel is closed by a goroutine that has called `TrackMutate(true)`, and `Notify` or `Commit`, and that has it on its list;
starting a goroutine closes nothing. -/
theorem C72 (ops : List (Op V)) (turns : List (Turn V)) (x : Turn V) (c : ChanId) (hn : ¬ (teamAfter ops turns).pool.Closed c)
    (hc : (teamAfter ops (turns ++ [x])).pool.Closed c) :
    ∃ i j, x = .act (.step i) ∧ (teamAfter ops turns).jobs[i]? = some j ∧ j.work.rings ∧ (teamAfter ops turns).pool.Tracks i c := by
  unfold teamAfter at hc
  unfold Team.run at hc
  rw [List.foldl_append] at hc
  obtain ⟨i, p, j, h1, h2, h3, h4, h5⟩ := ((World.team_neat (execAll World.init ops).2).run turns).closes x hn hc
  exact ⟨i, j, h1, h3, h4, p, h2, h5⟩

/-- C72: a closed channel stays closed. -/
theorem C72_stays (ops : List (Op V)) (turns more : List (Turn V)) (c : ChanId) (hc : (teamAfter ops turns).pool.Closed c) :
    (teamAfter ops (turns ++ more)).pool.Closed c := by
  unfold teamAfter Team.run
  rw [List.foldl_append]
  exact Team.run_closed _ more hc

/-- C72: when no goroutine tracks and notifies, no channel is closed. -/
theorem C72_quiet (ops : List (Op V)) (turns : List (Turn V)) (hq : ∀ src g, .start src g ∈ turns → ¬ g.rings) (c : ChanId)
    (hc : (teamAfter ops turns).pool.Closed c) : (execAll World.init ops).2.chans[c]? = some true := by
  have key : ∀ (ys xs : List (Turn V)), turns = xs ++ ys → (teamAfter ops (xs ++ ys)).pool.Closed c → (teamAfter ops xs).pool.Closed c := by
    intro ys
    induction ys with
    | nil => intro xs _ h; rwa [List.append_nil] at h
    | cons y ys ih =>
      intro xs e h
      have h1 := ih (xs ++ [y]) (by rw [e]; simp) (by simpa using h)
      by_cases hn : (teamAfter ops xs).pool.Closed c
      · exact hn
      · obtain ⟨i, j, -, h2, h3, -⟩ := C72 ops xs y c hn h1
        obtain ⟨js, g1, g2⟩ := Team.run_jobs (execAll World.init ops).2.team xs
        have h2 := List.mem_of_getElem? h2
        unfold teamAfter at h2
        rw [g1] at h2
        obtain ⟨src, h⟩ := g2 j h2
        exact absurd h3 (hq src _ (e ▸ List.mem_append_left _ h))
  exact key turns [] rfl hc

/-- C73: a goroutine that ends with `Commit` (and does not call `TrackMutate(false)`) tells everybody who is to be told: when it has
returned without a panic, every channel that it has tracked at some moment is closed.  The channel must have been there when
the goroutine was started. -/
theorem C73 (ops : List (Op V)) (t1 t2 t3 : List (Turn V)) (i : Nat) (g : Session V) (c : ChanId)
    (hi : (teamAfter ops t1).pool.procs.length ≤ i) (hc : c < (teamAfter ops t1).pool.chans.length)
    (hj : ((teamAfter ops (t1 ++ t2)).jobs[i]?).map (·.work) = some g) (ht : g.tells) (hk : (teamAfter ops (t1 ++ t2)).pool.Tracks i c)
    (x : List (Out V) × Tree) (hx : (teamAfter ops (t1 ++ t2 ++ t3)).pool.result i = some (.ok x)) :
    (teamAfter ops (t1 ++ t2 ++ t3)).pool.Closed c := by
  have e1 : teamAfter ops (t1 ++ t2) = (teamAfter ops t1).run t2 := by unfold teamAfter Team.run; rw [List.foldl_append]
  have e2 : teamAfter ops (t1 ++ t2 ++ t3) = (teamAfter ops (t1 ++ t2)).run t3 := by unfold teamAfter Team.run; rw [List.foldl_append]
  obtain ⟨j, hj', rfl⟩ := Option.map_eq_some_iff.1 hj
  have hN := (((World.team_neat (execAll World.init ops).2).run t1).later.run t2)
  have hN : (teamAfter ops (t1 ++ t2)).Neat _ _ := e1 ▸ hN
  obtain ⟨h1, h2⟩ := hN.keeps_run hi hj' ht hc t3 (.inr hk)
  rw [← e2] at h1 h2
  rcases h2 with h2 | ⟨p, hp, h2⟩
  · exact h2
  · have := (e2 ▸ hN.run t3 : (teamAfter ops (t1 ++ t2 ++ t3)).Neat _ _).told hi h1 ht hx hp
    rw [this] at h2
    cases h2

/-! ### Examples -/

/-- Just before the clash, goroutine 0 has closed channel 3 already, and goroutine 1 has found it open before that. -/
example : ((teamAfter busy clash).pool.chans[3]?, (teamAfter busy (clash.take 100)).pool.chans[3]?) = (some true, some false) := by decide +kernel

/-- Two goroutines on the tree (a, foo, foobar), of which somebody has asked for the channel of foo, which is channel 3.  Goroutine 0
changes foo and tells; goroutine 1 changes foo in a tree of its own, and does not track. -/
def telling : List (Turn Nat) :=
  [.start none ⟨3, [.track true, .insert kFoo 7], true⟩, .start none ⟨3, [.insert kFoo 8], true⟩] ++
    (List.range 90).flatMap fun _ => [.act (.step 0), .act (.step 1)]

example : (execAll World.init (busy ++ [.getWatch 3 kFoo])).1[4]? = some (.chan 3 (some 1)) := by decide +kernel

/-- Both return. -/
example : ((teamAfter (busy ++ [.getWatch 3 kFoo]) telling).pool.result 0).any (fun x => x.toOption.isSome) = true ∧
    ((teamAfter (busy ++ [.getWatch 3 kFoo]) telling).pool.result 1).any (fun x => x.toOption.isSome) = true := by decide +kernel

theorem Pool.tracks_of_any {α : Type} {P : Pool V α} {i : Nat} {c : ChanId}
    (h : (P.procs[i]?).any (fun p => decide (c ∈ p.txn.trackChnSlice)) = true) : P.Tracks i c := by
  unfold Pool.Tracks
  cases hp : P.procs[i]? with
  | none => rw [hp] at h; cases h
  | some p => rw [hp] at h; exact ⟨p, rfl, by simpa using h⟩

/-- Channel 3 is on the list of goroutine 0 in the middle of its work, so that it is closed in the end (C73). -/
example (x : List (Out Nat) × Tree) (hx : (teamAfter (busy ++ [.getWatch 3 kFoo]) ([] ++ telling.take 60 ++ telling.drop 60)).pool.result 0 = some (.ok x)) :
    (teamAfter (busy ++ [.getWatch 3 kFoo]) ([] ++ telling.take 60 ++ telling.drop 60)).pool.Closed 3 :=
  by
  have h := C73 (busy ++ [.getWatch 3 kFoo]) [] (telling.take 60) (telling.drop 60) 0 ⟨3, [.track true, .insert kFoo 7], true⟩ 3
  refine h ?_ ?_ ?_ ?_ ?_ x hx
  · decide +kernel
  · decide +kernel
  · decide +kernel
  · exact ⟨rfl, by simp⟩
  · refine Pool.tracks_of_any ?_
    decide +kernel

/-- It is open in the middle. -/
example : (teamAfter (busy ++ [.getWatch 3 kFoo]) (telling.take 60)).pool.chans[3]? = some false := by decide +kernel

/-- Goroutine 0 is the only one that may close it (C72), and this does not go wrong (C71). -/
example (i : Nat) : ¬ (teamAfter (busy ++ [.getWatch 3 kFoo]) telling).pool.Crash i := by
  refine C71_one_partial _ [] telling.tail (.start none ⟨3, [.track true, .insert kFoo 7], true⟩) (fun _ _ h => by cases h) (fun src g h hr => ?_) i
  rcases List.mem_cons.1 (show Turn.start src g ∈ Turn.start none ⟨3, [.insert kFoo 8], true⟩ ::
    (List.range 90).flatMap fun _ => [.act (.step 0), .act (.step 1)] from h) with h | h
  · cases h
    have := hr.1
    simp at this
  · obtain ⟨n, -, h⟩ := List.mem_flatMap.1 h
    simp at h

/-- A goroutine that does not track closes nothing, though it commits. -/
example (turns : List (Turn Nat)) (h : ∀ src g, .start src g ∈ turns → g = ⟨3, [.insert kFoo 8], true⟩) (c : ChanId) :
    ¬ (teamAfter (busy ++ [.getWatch 3 kFoo]) turns).pool.Closed c := fun hc => by
  have h1 := C72_quiet _ turns (fun src g hg hr => by
    rw [h src g hg] at hr
    have := hr.1
    simp at this) c hc
  have h2 : ∀ b ∈ (execAll World.init (busy ++ [Op.getWatch 3 kFoo])).2.chans, b = false := by decide +kernel
  cases h2 _ (List.mem_of_getElem? h1)

end Art
