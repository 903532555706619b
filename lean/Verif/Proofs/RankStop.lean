import Verif.Proofs.RankWorld
import Verif.Props.Statements
/-
Acyclic heaps: every read ends.
-/
set_option autoImplicit false
set_option linter.unusedSectionVars false
namespace Art
variable {V : Type} [Inhabited V]

theorem stops_of {α : Type} {f : Nat → R α} (hs : ∀ n, f n ≠ .error .fuel → f (n + 1) = f n) (h : ∃ n, f n ≠ .error .fuel) : Stops f := by
  obtain ⟨n, hn⟩ := h
  exact ⟨f n, hn, n, fun fuel hf => fuel_le hs hf hn⟩

theorem Ranked.readsStop {rk : Rank} {h : Heap V} (hj : Ranked rk h) : ReadsStop h where
  get := treeGet_nofuel h
  minimum := hj.treeMinimum
  maximum := hj.treeMaximum
  longest := longestPrefix_nofuel h
  walk := hj.treeWalk
  seek := hj.seekPrefix
  lower := hj.seekLowerBound
  reverseSeek := hj.revSeekPrefix
  reverseLower := hj.seekReverseLowerBound
  next := fun it => stops_of (fun n => iterNext_succ h n it) ((iterM h).halts_next (hj.iter it))
  iter := fun it => stops_of (fun n => iterCollect_succ h n it) (hj.iter it)
  pathNext := fun it => stops_of (fun n => pathNext_succ h n it) ((pathM h).halts_next (hj.path it))
  path := fun it => stops_of (fun n => pathCollect_succ h n it) (hj.path it)
  lowerNext := fun it => stops_of (fun n => lbNext_succ h n it) ((lbM h).halts_next (hj.lb it))
  lowerIter := fun it => stops_of (fun n => lbCollect_succ h n it) (hj.lb it)
  previous := fun it => stops_of (fun n => revPrevious_succ h n it) ((revM h).halts_next (hj.rev it))
  reverse := fun it => stops_of (fun n => revCollect_succ h n it) (hj.rev it)

theorem Ranked.acyclic {rk : Rank} {h : Heap V} (hj : Ranked rk h) {a b : Nat} (hp : PathTo h a b) : rk b < rk a := by
  induction hp with
  | leaf a n b h1 h2 => exact (hj a _ b h1 (.inl h2)).2
  | child a n b h1 h2 => exact (hj a _ b h1 (.inr h2)).2
  | trans a b c _ _ h1 h2 => exact Nat.lt_trans h2 h1

end Art
