import Verif.Proofs.PoolWorld
import Verif.Proofs.RingPool
/-
A goroutine that tracks and tells closes, in a schedule where the others do not track, every old channel that it closes when it is alone.
-/
set_option autoImplicit false
set_option linter.unusedVariables false
set_option linter.unusedSimpArgs false
set_option linter.unusedSectionVars false
namespace Art
variable {V : Type} [Inhabited V]

theorem lineage_front (ops : List (Op V)) (pre post : List (Job V)) {i : Nat} (hi : i < pre.length) :
    (lineage ops (pre ++ post))[i]? = (lineage ops pre)[i]? := by
  induction post generalizing pre with
  | nil => rw [List.append_nil]
  | cons j post ih =>
    have h1 : pre ++ j :: post = (pre ++ [j]) ++ post := by simp
    rw [h1, ih (pre ++ [j]) (by rw [List.length_append]; exact Nat.lt_of_lt_of_le hi (Nat.le_add_right _ _)), lineage_concat,
      List.getElem?_append_left (by rw [lineage_length]; exact hi)]

/-- A goroutine that was started on an old tree continues the history. -/
theorem lineage_base (ops : List (Op V)) {jobs : List (Job V)} {i : Nat} {j : Job V} (hj : jobs[i]? = some j) (hs : j.src = none) :
    (lineage ops jobs)[i]? = some (ops, j.work) := by
  obtain ⟨hlt, e⟩ := List.getElem?_eq_some_iff.1 hj
  have h1 : jobs = jobs.take i ++ [j] ++ jobs.drop (i + 1) := by
    rw [← e, List.take_append_getElem, List.take_append_drop]
  have hlen : (jobs.take i).length = i := by rw [List.length_take]; omega
  rw [h1, lineage_front _ _ _ (by rw [List.length_append, hlen]; simp), lineage_concat]
  rw [List.getElem?_append_right (by rw [lineage_length, hlen]; exact Nat.le_refl _), lineage_length, hlen, Nat.sub_self]
  simp [hs]

theorem teamAfter_append (ops : List (Op V)) (xs ys : List (Turn V)) : teamAfter ops (xs ++ ys) = (teamAfter ops xs).run ys := by
  unfold teamAfter Team.run
  rw [List.foldl_append]

theorem teamAfter_jobs (ops : List (Op V)) (turns : List (Turn V)) (n : Nat) {k : Nat} {j : Job V} (h : (teamAfter ops (turns.take n)).jobs[k]? = some j) :
    (teamAfter ops turns).jobs[k]? = some j := by
  obtain ⟨js, h1, -⟩ := Team.run_jobs (teamAfter ops (turns.take n)) (turns.drop n)
  rw [← teamAfter_append, List.take_append_drop] at h1
  rw [h1, List.getElem?_append_left (List.getElem?_eq_some_iff.1 h).1]
  exact h

section
variable {ops : List (Op V)} {turns : List (Turn V)} {i : Nat} {j : Job V}

/-- The channels that goroutine `i` has to close. -/
def due (ops : List (Op V)) (turns : List (Turn V)) (i : Nat) (c : ChanId) : Prop :=
  (execAll World.init ops).2.chans[c]? = some true ∨ ∃ n, (teamAfter ops (turns.take n)).pool.Tracks i c

/-- Only goroutine `i` is compared. -/
@[instance_reducible] def dueLim (ops : List (Op V)) (turns : List (Turn V)) (i : Nat) (k : Nat) : Lim :=
  if k = i then ⟨(execAll World.init ops).2.chans.length, due ops turns i⟩ else lax

theorem deliver_inv (hl : Lawful World.init ops) (h0 : 0 < (heapAfter ops).length)
    (hj : (teamAfter ops turns).jobs[i]? = some j) (hs : j.src = none)
    (ho : ∀ k j', (teamAfter ops turns).jobs[k]? = some j' → k ≠ i → ¬ j'.work.tracks)
    (hc : ∀ n a k, turns[n]? = some (.act (.chan a k)) → chanOf (teamAfter ops (turns.take n)).pool.heap a = none) (n : Nat) (hn : n ≤ turns.length) :
    ∃ m r A, WInv (if (teamAfter ops (turns.take n)).jobs.length ≤ i then (execAll World.init ops).2.chans.length else 0) (dueLim ops turns i) ops
      (teamAfter ops (turns.take n)) m r A := by
  have hzero : ∀ k, k ≠ i → (dueLim ops turns i k).limit = 0 := fun k hk => by unfold dueLim; rw [if_neg hk]; rfl
  induction n with
  | zero => exact ⟨_, _, _, WInv.init _ _ ops⟩
  | succ n ih =>
    obtain ⟨m, r, A, hI⟩ := ih (Nat.le_of_succ_le hn)
    obtain ⟨x, hx⟩ : ∃ x, turns[n]? = some x := ⟨_, List.getElem?_eq_getElem hn⟩
    have et : turns.take (n + 1) = turns.take n ++ [x] := by rw [List.take_add_one, hx]; rfl
    have eT : teamAfter ops (turns.take (n + 1)) = (teamAfter ops (turns.take n)).turn x := by rw [et, teamAfter_append]; rfl
    have hN : (teamAfter ops (turns.take n)).Neat (execAll World.init ops).2.chans.length 0 := (World.team_neat (execAll World.init ops).2).run _
    have hjobs := fun k (j' : Job V) => teamAfter_jobs ops turns n (k := k) (j := j')
    have hmark : ∀ d, (teamAfter ops (turns.take (n + 1))).pool.Tracks i d → (dueLim ops turns i i).mark d := fun d hd => by
      unfold dueLim; rw [if_pos rfl]; exact .inr ⟨_, hd⟩
    have hc' := hc n
    have hjobs' := fun k (j' : Job V) => teamAfter_jobs ops turns (n + 1) (k := k) (j := j')
    rw [eT] at hmark hjobs' ⊢
    generalize teamAfter ops (turns.take n) = T at hI hN hjobs hmark hc' hjobs' ⊢
    have hgen : ∀ k p, k ≠ i → T.pool.procs[k]? = some p → ¬ ∃ a ch q, p.code = .store a ch q := fun k p hk hp ⟨a, ch, q, e⟩ => by
      obtain ⟨j', hj'⟩ : ∃ j', T.jobs[k]? = some j' := ⟨_, List.getElem?_eq_getElem (hN.len ▸ (List.getElem?_eq_some_iff.1 hp).1)⟩
      exact ho k j' (hjobs k j' hj') hk ((hN.proc k p j' (Nat.zero_le _) hp hj').store e)
    have hF : T.Fair (if T.jobs.length ≤ i then (execAll World.init ops).2.chans.length else 0) (dueLim ops turns i) ops x := by
      cases x with
      | act e =>
        have hg : e ≠ .step i ∨ T.jobs.length ≤ i → T.pool.Gentle e := fun h => by
          cases e with
          | step k =>
            intro p hp
            refine hgen k p (fun e => ?_) hp
            subst e
            rcases h with h | h
            · exact h rfl
            · exact absurd (hN.len ▸ (List.getElem?_eq_some_iff.1 hp).1) (Nat.not_lt.2 h)
          | look k a => trivial
          | chan a k => exact hc' a k hx
        refine ⟨?_, fun k => ?_, fun k p hp d hd hlt => ?_⟩
        · by_cases h : T.jobs.length ≤ i
          · exact .inr (hg (.inr h))
          · rw [if_neg h]; exact .inl rfl
        · by_cases hk : k = i
          · subst hk
            by_cases h : e = .step k
            · exact .inr (.inr h)
            · exact .inr (.inl (hg (.inl h)))
          · exact .inl (hzero k hk)
        · by_cases hk : k = i
          · subst hk; exact hmark d ⟨p, hp, hd⟩
          · rw [hzero k hk] at hlt; exact absurd hlt (Nat.not_lt_zero _)
      | start src g =>
        intro ts hts
        by_cases hk : T.pool.procs.length = i
        · have h1 := hjobs' i ⟨src, ts, g⟩ (by
            simp only [Team.turn, hts]
            rw [← hk, hN.len, List.getElem?_concat_length])
          rw [hj] at h1
          cases h1
          rw [hk, if_pos (by rw [← hk, hN.len]; exact Nat.le_refl _)]
          unfold dueLim
          rw [if_pos rfl]
          exact .inr ⟨hs, Nat.le_refl _, Nat.le_refl _, fun d _ hd => .inl hd⟩
        · exact .inl (hzero _ hk)
    obtain ⟨m', r', A', h', -⟩ := hI.turn hl h0 x hF
    refine ⟨m', r', A', { h' with inv := h'.inv.change ?_ fun _ _ => rfl }⟩
    obtain ⟨js, h1, -⟩ := T.turn_jobs x
    have h2 : T.jobs.length ≤ (T.turn x).jobs.length := by rw [h1, List.length_append]; exact Nat.le_add_right _ _
    by_cases h : T.jobs.length ≤ i
    · rw [if_pos h]
      split
      · exact Nat.le_refl _
      · exact Nat.zero_le _
    · rw [if_neg h, if_neg (by omega)]
      exact Nat.le_refl _

/-- What goroutine `i` closes alone, it has to close. -/
theorem deliver_due (hl : Lawful World.init ops) (hj : (teamAfter ops turns).jobs[i]? = some j) (hs : j.src = none)
    (ho : ∀ k j', (teamAfter ops turns).jobs[k]? = some j' → k ≠ i → ¬ j'.work.tracks)
    (hc : ∀ n a k, turns[n]? = some (.act (.chan a k)) → chanOf (teamAfter ops (turns.take n)).pool.heap a = none)
    {x : List (Out V) × Tree} (hx : (teamAfter ops turns).pool.result i = some (.ok x)) (ht : j.work.tree < (execAll World.init ops).2.trees.length)
    {c : ChanId} (hlt : c < (execAll World.init ops).2.chans.length) (ha : (aloneAfter ops j.work).2.chans[c]? = some true) : due ops turns i c := by
  obtain ⟨m, r, A, hI⟩ := deliver_inv hl (tree_heap ht) hj hs ho hc turns.length (Nat.le_refl _)
  rw [List.take_length] at hI
  obtain ⟨h', h1, -, h3, -⟩ := hI.job i j hj
  rw [lineage_base ops hj hs] at h1
  cases h1
  obtain ⟨-, -, f3, f4⟩ := hI.inv.finished hx
  obtain ⟨σ, hσ⟩ := hI.inv.renames i
  have hp := (f3 σ hσ).2
  have he := hI.ends i
  have hse := exec_session (execAll World.init ops).2 j.work ht
  rw [← h3] at hse
  have hL : dueLim ops turns i i = ⟨(execAll World.init ops).2.chans.length, due ops turns i⟩ := by unfold dueLim; rw [if_pos rfl]
  rw [hL] at f4
  generalize r i = y at hse hp he f4
  obtain ⟨y, s⟩ := y
  cases hp with
  | fuel _ => exact absurd rfl he
  | ok hq =>
    rename_i a
    obtain ⟨os, t⟩ := a
    obtain ⟨-, -, -, -, -, -, e⟩ := hse
    have e : (aloneAfter ops j.work).2.chans = s.chans := e
    rw [e] at ha
    exact f4 c hlt (.inr ha)

/-- What it has to close is closed in the end. -/
theorem due_closed (hj : (teamAfter ops turns).jobs[i]? = some j) (ht : j.work.tells) {x : List (Out V) × Tree}
    (hx : (teamAfter ops turns).pool.result i = some (.ok x)) {c : ChanId} (hlt : c < (execAll World.init ops).2.chans.length) (hd : due ops turns i c) :
    (teamAfter ops turns).pool.Closed c := by
  rcases hd with hd | ⟨n, p, hp, hd⟩
  · exact Team.run_closed (execAll World.init ops).2.team turns hd
  · have hN : (teamAfter ops (turns.take n)).Neat (execAll World.init ops).2.chans.length 0 := (World.team_neat (execAll World.init ops).2).run _
    have hN' : (teamAfter ops turns).Neat (execAll World.init ops).2.chans.length 0 := (World.team_neat (execAll World.init ops).2).run _
    obtain ⟨j', hj'⟩ : ∃ j', (teamAfter ops (turns.take n)).jobs[i]? = some j' :=
      ⟨_, List.getElem?_eq_getElem (hN.len ▸ (List.getElem?_eq_some_iff.1 hp).1)⟩
    have e := teamAfter_jobs ops turns n hj'
    rw [hj] at e
    cases e
    obtain ⟨-, h2⟩ := hN.keeps_run (Nat.zero_le i) hj' ht hlt (turns.drop n) (.inr ⟨p, hp, hd⟩)
    rw [← teamAfter_append, List.take_append_drop] at h2
    rcases h2 with h2 | ⟨q, hq, h2⟩
    · exact h2
    · rw [hN'.told (Nat.zero_le i) hj ht hx hq] at h2
      cases h2
end
end Art
