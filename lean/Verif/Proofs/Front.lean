import Verif.Proofs.Handle2
import Verif.Proofs.Limits
import Verif.FrontSpec
/-
`Front` and `Path` of iterators.
-/
set_option autoImplicit false
set_option linter.unusedVariables false
set_option linter.unusedSimpArgs false
set_option linter.unusedSectionVars false
namespace Art
variable {V : Type} [Inhabited V] {h : Heap V} {fuel : Nat}

theorem fwdObjCalls_obs (cs : List ItCall) (o o' : FwdObj) (os : List (ItOut V)) (e : fwdObjCalls h fuel o cs = .ok (os, o')) :
    (∀ f ∈ ItOut.fronts os, f = o.pos) ∧ ItOut.paths os = soughtAll cs o.it.path := by
  induction cs generalizing o os with
  | nil => cases e; exact ⟨by simp [ItOut.fronts], rfl⟩
  | cons c cs ih =>
    cases c with
    | seek p =>
      unfold fwdObjCalls at e
      cases hs : seekPrefix h o.it p with
      | error x => rw [hs] at e; cases e
      | ok r =>
        rw [hs] at e
        obtain ⟨h1, h2⟩ := ih _ _ e
        refine ⟨h1, ?_⟩
        rw [h2, seekPrefix_path h o.it r.1 p r.2 hs]; rfl
    | next =>
      unfold fwdObjCalls at e
      cases hn : iterNext h fuel o.it with
      | error x => rw [hn] at e; cases e
      | ok r =>
        rw [hn] at e
        simp only [bind, Except.bind] at e
        cases hq : fwdObjCalls h fuel { o with it := r.2 } cs with
        | error x => rw [hq] at e; cases e
        | ok q =>
          rw [hq] at e
          cases e
          obtain ⟨h1, h2⟩ := ih _ _ hq
          refine ⟨h1, ?_⟩
          rw [show ItOut.paths (ItOut.pair r.1 :: q.1) = ItOut.paths q.1 from rfl, h2]
          show soughtAll cs r.2.path = soughtAll cs o.it.path
          rw [(iterNext_keeps fuel o.it r.1 r.2 hn).1]
    | front =>
      unfold fwdObjCalls at e
      simp only [bind, Except.bind] at e
      cases hq : fwdObjCalls h fuel o cs with
      | error x => rw [hq] at e; cases e
      | ok q =>
        rw [hq] at e
        cases e
        obtain ⟨h1, h2⟩ := ih _ _ hq
        exact ⟨fun f hf => (List.mem_cons.1 hf).elim id (h1 f), h2⟩
    | path =>
      unfold fwdObjCalls at e
      simp only [bind, Except.bind] at e
      cases hq : fwdObjCalls h fuel o cs with
      | error x => rw [hq] at e; cases e
      | ok q =>
        rw [hq] at e
        cases e
        obtain ⟨h1, h2⟩ := ih _ _ hq
        exact ⟨h1, congrArg _ h2⟩

theorem lowObjCalls_obs (cs : List ItCall) (o o' : LowObj) (os : List (ItOut V)) (e : lowObjCalls h fuel o cs = .ok (os, o')) :
    (∀ f ∈ ItOut.fronts os, f = o.pos) ∧ ItOut.paths os = boundAll cs o.path := by
  induction cs generalizing o os with
  | nil => cases e; exact ⟨by simp [ItOut.fronts], rfl⟩
  | cons c cs ih =>
    cases c with
    | seek q =>
      unfold lowObjCalls at e
      cases hs : lowSeek h o.it q with
      | error x => rw [hs] at e; cases e
      | ok r =>
        rw [hs] at e
        obtain ⟨h1, h2⟩ := ih _ _ e
        refine ⟨h1, ?_⟩
        rw [h2]
        show boundAll cs _ = boundAll cs _
        cases q <;> rfl
    | next =>
      unfold lowObjCalls at e
      cases hn : lbNext h fuel o.it.stack with
      | error x => rw [hn] at e; cases e
      | ok r =>
        rw [hn] at e
        simp only [bind, Except.bind] at e
        cases hq : lowObjCalls h fuel { o with it := { o.it with stack := r.2 } } cs with
        | error x => rw [hq] at e; cases e
        | ok q =>
          rw [hq] at e
          cases e
          obtain ⟨h1, h2⟩ := ih _ _ hq
          exact ⟨h1, h2⟩
    | front =>
      unfold lowObjCalls at e
      simp only [bind, Except.bind] at e
      cases hq : lowObjCalls h fuel o cs with
      | error x => rw [hq] at e; cases e
      | ok q =>
        rw [hq] at e
        cases e
        obtain ⟨h1, h2⟩ := ih _ _ hq
        exact ⟨fun f hf => (List.mem_cons.1 hf).elim id (h1 f), h2⟩
    | path =>
      unfold lowObjCalls at e
      simp only [bind, Except.bind] at e
      cases hq : lowObjCalls h fuel o cs with
      | error x => rw [hq] at e; cases e
      | ok q =>
        rw [hq] at e
        cases e
        obtain ⟨h1, h2⟩ := ih _ _ hq
        exact ⟨h1, congrArg _ h2⟩

theorem hasAnyClosed_false (chans : List Bool) (rounds : Nat) (t : Tree) (b : Bool)
    (e : hasAnyClosedMutateCh h chans fuel rounds t = .ok b) : b = false := by
  unfold hasAnyClosedMutateCh at e
  cases hn : iterNext h fuel (mkIter t.root) with
  | error x => rw [hn] at e; cases e
  | ok r =>
    rw [hn] at e
    cases rounds with
    | zero => cases e
    | succ n => cases e; rfl
end Art
