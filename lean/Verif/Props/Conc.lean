import Verif.Proofs.Conc
import Verif.Props.Negations
/-
C37 and C38: goroutines inside `slowNotify` and inside `getMutateCh`.
-/
set_option autoImplicit false
namespace Art
variable {V : Type}

/-- C38: any number of goroutines call `getMutateCh` on a node that holds a channel or none; under every schedule
none of them dereferences nil, each returns after at most four of its own steps, and whenever two have returned they
returned the same channel; it is the one the node held, if it held one. -/
theorem C38 (cell : Option ChanId) (chans n : Nat) (sched : List Nat) :
    let s := (Watchers.init cell chans n).run sched
    .crash ∉ s.pcs ∧
    (∀ c c', .done c ∈ s.pcs → .done c' ∈ s.pcs → c = c') ∧
    (∀ c, .done c ∈ s.pcs → s.cell = some c ∧ ∀ c', cell = some c' → c = c') ∧
    ∀ i, i < n → 4 ≤ sched.count i → ∃ c, s.pcs[i]? = some (.done c) := by
  intro s
  obtain ⟨hok, hkeep⟩ := (Watchers.Ok.init cell chans n).run sched
  refine ⟨fun h => hok _ h, fun c c' h h' => ?_, fun c h => ⟨hok _ h, fun c' hc' => ?_⟩, fun i hi hcnt => ?_⟩
  · exact Option.some.inj ((hok _ h).symm.trans (hok _ h'))
  · exact Option.some.inj (((hok _ h : s.cell = some c)).symm.trans (hkeep c' hc'))
  · have hlen : s.pcs.length = n := by
      rw [Watchers.run_length]; simp [Watchers.init]
    have hl := (Watchers.init cell chans n).run_left sched i
    have hs : (((Watchers.init cell chans n).pcs[i]?).map WatchPC.left).getD 0 = 4 := by
      simp [Watchers.init, hi, WatchPC.left]
    rw [hs] at hl
    have hi' : i < s.pcs.length := by omega
    have hg : s.pcs[i]? = some s.pcs[i] := List.getElem?_eq_getElem hi'
    have h0 : (s.pcs[i]).left = 0 := by
      have : ((s.pcs[i]?).map WatchPC.left).getD 0 ≤ 4 - sched.count i := hl
      rw [hg] at this
      simp only [Option.map_some, Option.getD_some] at this
      omega
    obtain ⟨c, hc, -⟩ := (hok _ (List.getElem_mem hi')).done h0
    exact ⟨c, by rw [hg, hc]⟩

/-- Three goroutines, two of which lose the race: all return channel 5. -/
example : (Watchers.init none 5 3).run [0, 1, 2, 1, 0, 1, 0, 0, 2, 2, 2, 1] =
    { cell := some 5, chans := 8, pcs := [.done 5, .done 5, .done 5] } := by decide

/-- C37: whatever the program did, goroutines that notify for different transactions never close a channel twice,
under any schedule. -/
def C37_Full (V : Type) [Inhabited V] : Prop := ∀ ops : List (Op V), Ordinary ops → ∀ xs : List Nat, xs.Nodup →
  ∀ sched, (((execAll World.init ops).2.notifiers xs).run sched).panicked = false

/-- Two tracked transactions from the same tree, each with one insertion. -/
def rivals : List (Op Nat) :=
  [.newTree, .begin 0, .begin 0, .trackMutate 0 true, .trackMutate 1 true, .txnInsert 0 kA 1, .txnInsert 1 kB 2]

/-- Both hold the channel of the root; both find it open, and both close it. -/
theorem C37_false : ¬ C37_Full Nat := fun h =>
  absurd (h rivals ⟨by decide +kernel, by decide +kernel⟩ [0, 1] (by decide) [0, 1, 0, 1]) (by decide +kernel)

/-- C37 for schedules in which nobody runs between the check of a channel and its closing (in particular when
the transactions notify one after the other), and for all schedules if the transactions track different channels.
A goroutine that runs alone closes the channels that `slowNotify` of the sequential model closes.
Missing for the full statement: transactions that share a channel and race, for which it is false. -/
theorem C37_partial (w : World V) (xs : List Nat) :
    (∀ sched, (w.notifiers xs).calm sched = true → ((w.notifiers xs).run sched).panicked = false) ∧
    ((w.notifiers xs).Disjoint → ∀ sched, ((w.notifiers xs).run sched).panicked = false) ∧
    ∀ (x : Nat) r, w.txns[x]? = some r → r.st.trackMutate = true → ∃ n, ∀ m, n ≤ m →
      ((w.notifiers [x]).run (List.replicate m 0)).chans = (slowNotify (w.st r.st)).2.chans := by
  refine ⟨fun sched h => ((Notifiers.Ok.init w xs).run_calm sched h).1,
    fun h sched => ((Notifiers.Ok.init w xs).run_disjoint h sched).1, fun x r hx ht => ?_⟩
  obtain ⟨n, hn⟩ := Notifiers.run_alone r.st.trackChnSlice w.chans
  refine ⟨n, fun m hm => ?_⟩
  have := congrArg Notifiers.chans (hn m hm)
  simpa [World.notifiers, hx, ht, slowNotify, World.st] using this

/-- One transaction after the other: the schedule is calm, and the shared channel is closed once. -/
def rivalsNotify : Notifiers := (execAll World.init rivals).2.notifiers [0, 1]

example : rivalsNotify.calm [0, 0, 0, 0, 1, 1, 1, 1] = true ∧
    (rivalsNotify.run [0, 0, 0, 0, 1, 1, 1, 1]).chans.contains true = true := by
  decide +kernel

/-- Transactions from different trees track different channels. -/
def strangers : List (Op Nat) :=
  [.newTree, .newTree, .begin 0, .begin 1, .trackMutate 0 true, .trackMutate 1 true, .txnInsert 0 kA 1,
    .txnInsert 1 kB 2]

example : ((execAll World.init strangers).2.notifiers [0, 1]).gs = [⟨[0, 3], false⟩, ⟨[1, 6], false⟩] := by
  decide +kernel

end Art
