import Verif.Model.Conc
/-
Lemmas about the machines of `Model/Conc.lean`.
-/
set_option autoImplicit false
namespace Art

/-! ### getMutateCh -/

/-- What is true of a goroutine, given what the node holds. -/
def WatchPC.ok (cell : Option ChanId) : WatchPC → Prop
  | .done c => cell = some c
  | .reload => ∃ c, cell = some c
  | .crash => False
  | _ => True

/-- Every goroutine is as it should be. -/
def Watchers.Ok (s : Watchers) : Prop := ∀ pc ∈ s.pcs, pc.ok s.cell

theorem Watchers.Ok.set {s : Watchers} (h : s.Ok) (i : Nat) (n : Nat) {pc : WatchPC} (hp : pc.ok s.cell) :
    Watchers.Ok { s with chans := n, pcs := s.pcs.set i pc } := by
  intro q hq
  rcases List.mem_or_eq_of_mem_set hq with hq | rfl
  · exact h q hq
  · exact hp

theorem Watchers.Ok.step {s : Watchers} (h : s.Ok) (i : Nat) :
    (s.step i).Ok ∧ ∀ c, s.cell = some c → (s.step i).cell = some c := by
  obtain ⟨cell, chans, pcs⟩ := s
  unfold Watchers.step
  simp only
  cases hi : pcs[i]? with
  | none => exact ⟨h, fun _ hc => hc⟩
  | some pc =>
    have hpc := h pc (List.mem_of_getElem? hi)
    cases pc with
    | start =>
      cases cell with
      | some c => exact ⟨h.set i chans (pc := .done c) rfl, fun _ h' => h'⟩
      | none => exact ⟨h.set i chans (pc := .make) trivial, fun _ h' => nomatch h'⟩
    | make => exact ⟨h.set i _ (pc := .swap chans) trivial, fun _ h' => h'⟩
    | swap new =>
      cases cell with
      | none =>
        refine ⟨fun q hq => ?_, fun _ h' => nomatch h'⟩
        rcases List.mem_or_eq_of_mem_set hq with hq | rfl
        · have := h q hq
          cases q with
          | done c => exact absurd this nofun
          | reload => obtain ⟨_, h0⟩ := this; exact absurd h0 nofun
          | crash => exact this.elim
          | _ => trivial
        · rfl
      | some c => exact ⟨h.set i chans (pc := .reload) ⟨c, rfl⟩, fun _ h' => h'⟩
    | reload =>
      cases cell with
      | some c => exact ⟨h.set i chans (pc := .done c) rfl, fun _ h' => h'⟩
      | none => obtain ⟨_, h0⟩ := hpc; exact absurd h0 nofun
    | done c => exact ⟨h, fun _ h' => h'⟩
    | crash => exact ⟨h, fun _ h' => h'⟩

theorem Watchers.Ok.run {s : Watchers} (h : s.Ok) (sched : List Nat) :
    (s.run sched).Ok ∧ ∀ c, s.cell = some c → (s.run sched).cell = some c := by
  induction sched generalizing s with
  | nil => exact ⟨h, fun _ hc => hc⟩
  | cons i is ih =>
    have h1 := h.step i
    have h2 := ih h1.1
    exact ⟨h2.1, fun c hc => h2.2 c (h1.2 c hc)⟩

theorem Watchers.Ok.init (cell : Option ChanId) (chans n : Nat) : (Watchers.init cell chans n).Ok := by
  intro pc hpc
  obtain ⟨-, rfl⟩ := List.mem_replicate.1 hpc
  trivial

/-- How many more steps of its own a goroutine takes at most. -/
def WatchPC.left : WatchPC → Nat
  | .start => 4
  | .make => 3
  | .swap _ => 2
  | .reload => 1
  | _ => 0

theorem Watchers.step_left (s : Watchers) (i j : Nat) :
    (((s.step i).pcs[j]?).map WatchPC.left).getD 0 ≤ ((s.pcs[j]?).map WatchPC.left).getD 0 - (if i = j then 1 else 0) := by
  have key : ∀ (cell : Option ChanId) (n : Nat) (pc q : WatchPC), s.pcs[i]? = some q → pc.left ≤ q.left - 1 →
      ((({ cell := cell, chans := n, pcs := s.pcs.set i pc } : Watchers).pcs[j]?).map WatchPC.left).getD 0 ≤
        ((s.pcs[j]?).map WatchPC.left).getD 0 - (if i = j then 1 else 0) := by
    intro cell n pc q hq hl
    have hlt : i < s.pcs.length := (List.getElem?_eq_some_iff.1 hq).1
    simp only [List.getElem?_set]
    by_cases hij : i = j
    · subst hij; simp only [if_pos hlt, hq, Option.map_some, Option.getD_some]; exact hl
    · simp only [if_neg hij]; omega
  unfold Watchers.step
  cases hi : s.pcs[i]? with
  | none =>
    by_cases hij : i = j
    · subst hij; simp [hi]
    · simp [hij]
  | some pc =>
    cases pc with
    | start => cases hc : s.cell <;> exact key _ _ _ _ hi (by simp [WatchPC.left])
    | make => exact key _ _ _ _ hi (by simp [WatchPC.left])
    | swap new => cases hc : s.cell <;> exact key _ _ _ _ hi (by simp [WatchPC.left])
    | reload => cases hc : s.cell <;> exact key _ _ _ _ hi (by simp [WatchPC.left])
    | done c =>
      by_cases hij : i = j
      · subst hij; simp [hi, WatchPC.left]
      · simp [hij]
    | crash =>
      by_cases hij : i = j
      · subst hij; simp [hi, WatchPC.left]
      · simp [hij]

theorem Watchers.run_left (s : Watchers) (sched : List Nat) (j : Nat) :
    (((s.run sched).pcs[j]?).map WatchPC.left).getD 0 ≤ ((s.pcs[j]?).map WatchPC.left).getD 0 - sched.count j := by
  induction sched generalizing s with
  | nil => simp [Watchers.run]
  | cons i is ih =>
    have h1 := s.step_left i j
    have h2 := ih (s.step i)
    have h3 : (s.run (i :: is)) = (s.step i).run is := rfl
    rw [h3, List.count_cons]
    by_cases hij : i = j
    · subst hij
      simp only [beq_self_eq_true] at h1 ⊢; omega
    · have : (i == j) = false := by simpa using hij
      simp only [if_neg hij, this, Bool.false_eq_true, if_false] at h1 ⊢; omega

theorem Watchers.step_length (s : Watchers) (i : Nat) : (s.step i).pcs.length = s.pcs.length := by
  unfold Watchers.step
  split <;> first | rfl | (split <;> simp) | simp

theorem Watchers.run_length (s : Watchers) (sched : List Nat) : (s.run sched).pcs.length = s.pcs.length := by
  induction sched generalizing s with
  | nil => rfl
  | cons i is ih => exact (ih (s.step i)).trans (s.step_length i)

/-- A goroutine with no step left has returned. -/
theorem WatchPC.ok.done {cell : Option ChanId} {pc : WatchPC} (h : pc.ok cell) (hl : pc.left = 0) :
    ∃ c, pc = .done c ∧ cell = some c := by
  cases pc with
  | done c => exact ⟨c, rfl, h⟩
  | crash => exact h.elim
  | _ => exact absurd hl nofun

/-! ### slowNotify -/

/-- Nobody is about to close a closed channel. -/
def Notifiers.Ok (s : Notifiers) : Prop :=
  s.panicked = false ∧ ∀ (i : Nat) c cs, s.gs[i]? = some ⟨c :: cs, true⟩ → s.isClosed c = false

/-- A step of `i` keeps this, provided nobody else is about to close the same channel. -/
theorem Notifiers.Ok.step {s : Notifiers} (h : s.Ok) (i : Nat)
    (hd : ∀ (j : Nat) c cs ds, j ≠ i → s.gs[i]? = some ⟨c :: cs, true⟩ → s.gs[j]? ≠ some ⟨c :: ds, true⟩) :
    (s.step i).Ok := by
  obtain ⟨hp, h⟩ := h
  unfold Notifiers.step
  cases hi : s.gs[i]? with
  | none => exact ⟨hp, h⟩
  | some g =>
    have hlt : i < s.gs.length := (List.getElem?_eq_some_iff.1 hi).1
    obtain ⟨todo, closing⟩ := g
    cases todo with
    | nil => cases closing <;> exact ⟨hp, h⟩
    | cons c cs =>
      cases closing with
      | false =>
        simp only
        split
        · refine ⟨hp, fun j c' ds hj => ?_⟩
          rw [List.getElem?_set] at hj
          split at hj
          · exact absurd hj nofun
          · exact h j c' ds hj
        · rename_i hc
          refine ⟨hp, fun j c' ds hj => ?_⟩
          rw [List.getElem?_set] at hj
          split at hj
          · cases hj
            show s.isClosed c = false
            simpa using hc
          · exact h j c' ds hj
      | true =>
        have hc := h i c cs hi
        simp only [hc, Bool.false_eq_true, if_false]
        refine ⟨hp, fun j c' ds hj => ?_⟩
        rw [List.getElem?_set] at hj
        split at hj
        · exact absurd hj nofun
        · rename_i hij
          have h1 := h j c' ds hj
          have hne : c ≠ c' := fun e => hd j c cs ds (Ne.symm hij) hi (e ▸ hj)
          unfold Notifiers.isClosed at h1 ⊢
          rw [List.getElem?_set, if_neg hne]
          exact h1

/-- The channels still to be visited only become fewer. -/
theorem Notifiers.step_todo (s : Notifiers) (i : Nat) {j : Nat} {g : Notifier} (hj : (s.step i).gs[j]? = some g) :
    ∃ g', s.gs[j]? = some g' ∧ ∀ c ∈ g.todo, c ∈ g'.todo := by
  have same : ∀ {l : List Notifier} {g0 g1 : Notifier}, s.gs[i]? = some g0 → (∀ c ∈ g1.todo, c ∈ g0.todo) →
      (s.gs.set i g1)[j]? = some g → ∃ g', s.gs[j]? = some g' ∧ ∀ c ∈ g.todo, c ∈ g'.todo := by
    intro l g0 g1 hi hsub hj
    have hlt : i < s.gs.length := (List.getElem?_eq_some_iff.1 hi).1
    rw [List.getElem?_set] at hj
    split at hj
    · rename_i hij; subst hij
      rename_i hj0
      cases hj0; exact ⟨g0, hi, hsub⟩
    · exact ⟨g, hj, fun _ h => h⟩
  unfold Notifiers.step at hj
  cases hi : s.gs[i]? with
  | none => rw [hi] at hj; exact ⟨g, hj, fun _ h => h⟩
  | some g0 =>
    rw [hi] at hj
    obtain ⟨todo, closing⟩ := g0
    cases todo with
    | nil => cases closing <;> exact ⟨g, hj, fun _ h => h⟩
    | cons c cs =>
      cases closing with
      | false =>
        simp only at hj
        split at hj
        · exact same (l := []) hi (fun c' h => List.mem_cons_of_mem _ h) hj
        · exact same (l := []) (g1 := ⟨c :: cs, true⟩) hi (fun c' h => h) hj
      | true =>
        simp only at hj
        split at hj
        · exact same (l := []) hi (fun c' h => by cases h) hj
        · exact same (l := []) hi (fun c' h => List.mem_cons_of_mem _ h) hj

theorem Notifiers.Disjoint.step {s : Notifiers} (h : s.Disjoint) (k : Nat) : (s.step k).Disjoint := by
  intro i j g g' hij hi hj c hc hc'
  obtain ⟨g1, h1, h2⟩ := s.step_todo k hi
  obtain ⟨g2, h3, h4⟩ := s.step_todo k hj
  exact h i j g1 g2 hij h1 h3 c (h2 c hc) (h4 c hc')

theorem Notifiers.Ok.run_disjoint {s : Notifiers} (h : s.Ok) (hd : s.Disjoint) (sched : List Nat) :
    (s.run sched).Ok := by
  induction sched generalizing s with
  | nil => exact h
  | cons i is ih =>
    refine ih (h.step i fun j c cs ds hj hi hjj => ?_) (hd.step i)
    exact hd i j _ _ (Ne.symm hj) hi hjj c List.mem_cons_self List.mem_cons_self

theorem Notifiers.calm_head {s : Notifiers} {i : Nat} {is : List Nat} (h : s.calm (i :: is) = true) :
    (∀ (j : Nat) g, j ≠ i → s.gs[j]? = some g → g.closing = false) ∧ (s.step i).calm is = true := by
  simp only [Notifiers.calm, Bool.and_eq_true, List.all_eq_true] at h
  refine ⟨fun j g hj hg => ?_, h.2⟩
  have := h.1 (g, j) (List.mem_zipIdx_iff_getElem?.2 hg)
  simpa [hj] using this

theorem Notifiers.Ok.run_calm {s : Notifiers} (h : s.Ok) (sched : List Nat) (hc : s.calm sched = true) :
    (s.run sched).Ok := by
  induction sched generalizing s with
  | nil => exact h
  | cons i is ih =>
    exact ih (h.step i fun j c cs ds hj hi hjj => Bool.noConfusion ((Notifiers.calm_head hc).1 j _ hj hjj)) (Notifiers.calm_head hc).2

theorem Notifiers.Ok.init {V : Type} (w : World V) (xs : List Nat) : (w.notifiers xs).Ok := by
  refine ⟨rfl, fun i c cs hi => ?_⟩
  simp only [World.notifiers, List.getElem?_map] at hi
  cases hx : xs[i]? with
  | none => rw [hx] at hi; exact absurd hi nofun
  | some x =>
    rw [hx] at hi
    simp only [Option.map_some] at hi
    cases hr : w.txns[x]? <;> simp [hr] at hi

/-- A goroutine that runs alone closes exactly the channels that `slowNotify` of the sequential model closes. -/
theorem Notifiers.run_alone : ∀ (cs : List ChanId) (chans : List Bool),
    ∃ n, ∀ m, n ≤ m →
      ({ chans := chans, gs := [⟨cs, false⟩], panicked := false } : Notifiers).run (List.replicate m 0) =
        { chans := cs.foldl (fun l k => l.set k true) chans, gs := [⟨[], false⟩], panicked := false } := by
  intro cs
  induction cs with
  | nil =>
    intro chans
    refine ⟨0, fun m _ => ?_⟩
    induction m with
    | zero => rfl
    | succ m ih => exact ih (Nat.zero_le _)
  | cons c cs ih =>
    intro chans
    obtain ⟨n, hn⟩ := ih (chans.set c true)
    refine ⟨n + 2, fun m hm => ?_⟩
    obtain ⟨k, rfl⟩ : ∃ k, m = k + 2 := ⟨m - 2, by omega⟩
    by_cases hc : (chans[c]?).getD false = true
    · have hset : chans.set c true = chans := by
        cases hcc : chans[c]? with
        | none => rw [hcc] at hc; exact absurd hc (by simp)
        | some b =>
          rw [hcc] at hc
          simp only [Option.getD_some] at hc
          subst hc
          apply List.ext_getElem?
          intro j
          rw [List.getElem?_set]
          have hlt := (List.getElem?_eq_some_iff.1 hcc).1
          split
          · rename_i e; subst e; rw [hcc]
          · rfl
      have := hn (k + 1) (by omega)
      rw [List.foldl_cons, ← this, hset]
      show ((Notifiers.step _ 0).run (List.replicate (k + 1) 0)) = _
      congr 1
      simp [Notifiers.step, Notifiers.isClosed, hc]
    · have hc' : (chans[c]?).getD false = false := by simpa using hc
      have := hn k (by omega)
      rw [List.foldl_cons, ← this]
      show (((Notifiers.step (Notifiers.step _ 0) 0)).run (List.replicate k 0)) = _
      congr 1
      simp [Notifiers.step, Notifiers.isClosed, hc']

end Art
