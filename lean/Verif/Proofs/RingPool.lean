import Verif.Proofs.Ring
/-
Channels in a schedule: who closes them, when a goroutine closes a closed one, and what becomes of the channels that a goroutine
has tracked.
-/
set_option autoImplicit false
set_option linter.unusedVariables false
set_option linter.unusedSimpArgs false
set_option linter.unusedSectionVars false
namespace Art
variable {V : Type} {α : Type}

/-- A goroutine in the middle of neat code; the channels below `L` that it knows to be closed are closed. -/
def Proc.Neat (A B S : Prop) (Q : R α → TxnSt → Prop) (L : Nat) (cs : List Bool) (p : Proc V α) : Prop :=
  ∃ C : ChanId → Prop, (∀ c, c < L → C c → cs[c]? = some true) ∧
    (Art.Neat A B S Q p.code p.txn C ∨
      A ∧ ∃ c k, p.code = .shut c k ∧ c ∈ p.txn.trackChnSlice ∧ Art.Neat A B S Q k p.txn fun x => x = c ∨ C x)

section
variable {A B S : Prop} {Q : R α → TxnSt → Prop} {L : Nat} {cs cs' : List Bool} {p : Proc V α}

/-- Closed channels stay closed. -/
theorem Proc.step_closed (h : Heap V) (p : Proc V α) {c : ChanId} (hc : cs[c]? = some true) : (p.step h cs).2.1[c]? = some true := by
  obtain ⟨code, txn, view⟩ := p
  cases code with
  | look k => cases view <;> exact hc
  | make k => exact (List.getElem?_append_left (List.getElem?_eq_some_iff.1 hc).1).trans hc
  | shut d k =>
    dsimp only [Proc.step]
    cases cs[d]? == some true with
    | true => exact hc
    | false =>
      by_cases e : d = c
      · subst e; exact List.getElem?_set_self (List.getElem?_eq_some_iff.1 hc).1
      · exact (List.getElem?_set_ne e).trans hc
  | claim a d k => dsimp only [Proc.step]; cases chanOf h a <;> exact hc
  | _ => exact hc

/-- Channels do not go away. -/
theorem Proc.step_chans (h : Heap V) (cs : List Bool) (p : Proc V α) : cs.length ≤ (p.step h cs).2.1.length := by
  obtain ⟨code, txn, view⟩ := p
  cases code with
  | look k => cases view <;> exact Nat.le_refl _
  | make k => simp [Proc.step]
  | shut d k =>
    dsimp only [Proc.step]
    cases cs[d]? == some true with
    | true => exact Nat.le_refl _
    | false => simp
  | claim a d k => dsimp only [Proc.step]; cases chanOf h a <;> exact Nat.le_refl _
  | _ => exact Nat.le_refl _

/-- A channel is closed by a goroutine that is about to close it. -/
theorem Proc.step_closes (h : Heap V) (p : Proc V α) {c : ChanId} (hc : (p.step h cs).2.1[c]? = some true) (hn : cs[c]? ≠ some true) :
    ∃ k, p.code = .shut c k := by
  obtain ⟨code, txn, view⟩ := p
  cases code with
  | look k => cases view <;> exact absurd hc hn
  | make k =>
    dsimp only [Proc.step] at hc
    rcases Nat.lt_or_ge c cs.length with h1 | h1
    · rw [List.getElem?_append_left h1] at hc; exact absurd hc hn
    · rw [List.getElem?_append_right h1] at hc
      have := List.mem_of_getElem? hc
      simp at this
  | shut d k =>
    dsimp only [Proc.step] at hc
    cases hd : cs[d]? == some true with
    | true => rw [hd] at hc; exact absurd hc hn
    | false =>
      rw [hd] at hc
      by_cases e : d = c
      · subst e; exact ⟨k, rfl⟩
      · exact absurd ((List.getElem?_set_ne e).symm.trans hc) hn
  | claim a d k => dsimp only [Proc.step] at hc; cases hx : chanOf h a <;> rw [hx] at hc <;> exact absurd hc hn
  | _ => exact absurd hc hn

/-- The others close more channels. -/
theorem Proc.Neat.other (h : p.Neat A B S Q L cs) (hc : ∀ c : ChanId, cs[c]? = some true → cs'[c]? = some true) : p.Neat A B S Q L cs' := by
  obtain ⟨C, h1, h2⟩ := h
  exact ⟨C, fun c hl h => hc c (h1 c hl h), h2⟩

theorem Proc.Neat.code (h : p.Neat A B S Q L cs) {q : Proc V α} (h1 : q.code = p.code) (h2 : q.txn = p.txn) : q.Neat A B S Q L cs := by
  obtain ⟨C, k1, k2⟩ := h
  exact ⟨C, k1, by rw [h1, h2]; exact k2⟩

/-- A step of its own. -/
theorem Proc.Neat.step (h : p.Neat A B S Q L cs) (H : Heap V) (hL : ∀ c ∈ p.txn.trackChnSlice, c < L → c < cs.length) : (p.step H cs).2.2.Neat A B S Q L (p.step H cs).2.1 := by
  obtain ⟨C, hC, hN⟩ := h
  obtain ⟨code, txn, view⟩ := p
  have ok : ∀ {k : Code V α} {t : TxnSt} {v : Option (Heap V)} {cs' : List Bool}, Art.Neat A B S Q k t C →
      (∀ c : ChanId, cs[c]? = some true → cs'[c]? = some true) → Proc.Neat A B S Q L cs' { code := k, txn := t, view := v } :=
    fun h1 h2 => ⟨C, fun c hl h => h2 c (hC c hl h), .inl h1⟩
  rcases hN with hN | ⟨hA, c, k, e, hc, hN⟩
  · cases hN with
    | done h => exact ok (.done h) fun _ h => h
    | look h =>
      cases view with
      | none => exact ok (.look h) fun _ h => h
      | some v => exact ok (h _ rfl) fun _ h => h
    | read h => exact ok (h _) fun _ h => h
    | write h => exact ok h fun _ h => h
    | store hB h => exact ok h fun _ h => h
    | alloc h => exact ok (h _) fun _ h => h
    | @make k t C h =>
      exact ok (h _) fun c hc => Proc.step_closed H { code := Code.make k, txn := txn, view := view } hc
    | own hs h => exact ok h fun _ h => h
    | @claim a c k t C h =>
      dsimp only [Proc.step]
      cases chanOf H a with
      | none => exact ok (h _) fun _ h => h
      | some y => exact ok (.load h) fun _ h => h
    | load h => exact ok (h _) fun _ h => h
    | @test c k k2 t C hA hc h1 e h2 =>
      dsimp only [Proc.step]
      cases hb : cs[c]? == some true with
      | true =>
        refine ⟨_, fun x hl hx => ?_, .inl h1⟩
        rcases hx with hx | hx
        · rw [hx]; exact beq_iff_eq.1 hb
        · exact hC x hl hx
      | false => exact ⟨C, hC, .inr ⟨hA, c, k2, e, hc, h2⟩⟩
  · dsimp only at e
    subst e
    dsimp only [Proc.step]
    cases hb : cs[c]? == some true with
    | true => exact ⟨C, hC, .inr ⟨hA, c, k, rfl, hc, hN⟩⟩
    | false =>
      refine ⟨_, fun x hl hx => ?_, .inl hN⟩
      dsimp only
      by_cases e : c = x
      · subst e; exact List.getElem?_set_self (hL c hc hl)
      · rw [List.getElem?_set_ne e]
        exact hC x hl (hx.resolve_left fun h => e h.symm)

theorem Proc.Neat.shut (h : p.Neat A B S Q L cs) {c : ChanId} {k : Code V α} (hc : p.code = .shut c k) : A ∧ c ∈ p.txn.trackChnSlice := by
  obtain ⟨C, -, hN | ⟨hA, d, k', e, hd, -⟩⟩ := h
  · rw [hc] at hN; cases hN
  · rw [hc] at e; cases e; exact ⟨hA, hd⟩

theorem Proc.Neat.store (h : p.Neat A B S Q L cs) {a : Addr} {c : ChanId} {k : Code V α} (hc : p.code = .store a c k) : B := by
  obtain ⟨C, -, hN | ⟨hA, d, k', e, hd, -⟩⟩ := h
  · rw [hc] at hN; cases hN; assumption
  · rw [hc] at e; cases e

/-- It is about to close a channel that it has just found open. -/
theorem Proc.Neat.step_shut (h : p.Neat A B S Q L cs) (H : Heap V) {c : ChanId} {k : Code V α} (hc : (p.step H cs).2.2.code = .shut c k) :
    cs[c]? ≠ some true ∧ (p.step H cs).2.1 = cs ∨ p.code = .shut c k ∧ (p.step H cs).2.1 = cs := by
  obtain ⟨C, hC, hN⟩ := h
  obtain ⟨code, txn, view⟩ := p
  have no : ∀ {k' : Code V α} {t : TxnSt} {C : ChanId → Prop}, Art.Neat A B S Q k' t C → k' ≠ .shut c k := fun h e => by subst e; cases h
  rcases hN with hN | ⟨hA, d, k', e, hd, hN⟩
  · cases hN with
    | done h => cases hc
    | look h =>
      cases view with
      | none => cases hc
      | some v => exact absurd hc (no (h _ rfl))
    | read h => exact absurd hc (no (h _))
    | write h => exact absurd hc (no h)
    | store hB h => exact absurd hc (no h)
    | alloc h => exact absurd hc (no (h _))
    | make h => exact absurd hc (no (h _))
    | own hs h => exact absurd hc (no h)
    | @claim a c' k' t C h =>
      dsimp only [Proc.step] at hc
      cases hx : chanOf H a with
      | none => rw [hx] at hc; exact absurd hc (no (h _))
      | some y => rw [hx] at hc; cases hc
    | load h => exact absurd hc (no (h _))
    | @test c' k' k2 t C hA hc' h1 e h2 =>
      dsimp only [Proc.step] at hc ⊢
      cases hb : cs[c']? == some true with
      | true => rw [hb] at hc; exact absurd hc (no h1)
      | false =>
        rw [hb] at hc
        replace hc := e.symm.trans hc
        cases hc
        exact .inl ⟨fun h => (by rw [h] at hb; exact absurd hb (by decide)), rfl⟩
  · dsimp only at e
    subst e
    dsimp only [Proc.step] at hc ⊢
    cases hb : cs[d]? == some true with
    | true => rw [hb] at hc; dsimp only at hc; exact .inr ⟨hc, rfl⟩
    | false => rw [hb] at hc; exact absurd hc (no hN)

/-- A tracked channel stays tracked until it is closed. -/
theorem Proc.Neat.keep (hS : S) (h : p.Neat A B S Q L cs) (H : Heap V) {c : ChanId} (hl : c < L) (hc : c ∈ p.txn.trackChnSlice) :
    c ∈ (p.step H cs).2.2.txn.trackChnSlice ∨ cs[c]? = some true := by
  obtain ⟨C, hC, hN⟩ := h
  obtain ⟨code, txn, view⟩ := p
  rcases hN with hN | ⟨hA, d, k', e, hd, hN⟩
  · cases hN with
    | look h => cases view <;> exact .inl hc
    | own hs h => exact (hs hS c hc).imp_right (hC c hl)
    | @claim a d k t C h => dsimp only [Proc.step]; cases chanOf H a <;> exact .inl hc
    | _ => exact .inl hc
  · dsimp only at e
    subst e
    dsimp only [Proc.step]
    cases cs[d]? == some true <;> exact .inl hc
end

/-! ### Teams -/

section
variable [Inhabited V]

/-- What a goroutine with the work `g` leaves behind. -/
abbrev Session.leaves (g : Session V) (r : R (List (Out V) × Tree)) (t : TxnSt) : Prop := g.tells → ∀ a, r = .ok a → t.trackChnSlice = []

/-- The goroutines from number `m` on are in the middle of neat code. -/
structure Team.Tidy (L m : Nat) (T : Team V) : Prop where
  len : T.pool.procs.length = T.jobs.length
  proc : ∀ (i : Nat) (p : Proc V (List (Out V) × Tree)) (j : Job V), m ≤ i → T.pool.procs[i]? = some p → T.jobs[i]? = some j →
    p.Neat j.work.rings j.work.tracks j.work.tells j.work.leaves L T.pool.chans

/-- Besides, there are `L` channels at least. -/
structure Team.Neat (L m : Nat) (T : Team V) : Prop extends Team.Tidy L m T where
  chans : L ≤ T.pool.chans.length

/-- The turn in terms of goroutines and channels. -/
inductive Team.Turns (T T' : Team V) : Turn V → Prop
  | step (i : Nat) (p : Proc V (List (Out V) × Tree)) (hp : T.pool.procs[i]? = some p) (hc : T'.pool.chans = (p.step T.pool.heap T.pool.chans).2.1)
      (h : T'.pool.procs = T.pool.procs.set i (p.step T.pool.heap T.pool.chans).2.2) (hj : T'.jobs = T.jobs) : Turns T T' (.act (.step i))
  | idle (x : Turn V) (hc : T'.pool.chans = T.pool.chans) (hl : T'.pool.procs.length = T.pool.procs.length)
      (h : ∀ (i : Nat) (p' : Proc V (List (Out V) × Tree)), T'.pool.procs[i]? = some p' → ∃ p : Proc V (List (Out V) × Tree), T.pool.procs[i]? = some p ∧ p'.code = p.code ∧ p'.txn = p.txn) (hj : T'.jobs = T.jobs) : Turns T T' x
  | start (src : Option Nat) (g : Session V) (ts : List Tree) (hc : T'.pool.chans = T.pool.chans)
      (h : T'.pool.procs = T.pool.procs ++ [{ code := (g.code ts).code, txn := default, view := none }])
      (hj : T'.jobs = T.jobs ++ [{ src := src, known := ts, work := g }]) : Turns T T' (.start src g)

theorem Team.turn_turns (T : Team V) (x : Turn V) : T.Turns (T.turn x) x := by
  have idle : T.Turns T x := .idle x rfl rfl (fun i p' h => ⟨p', h, rfl, rfl⟩) rfl
  cases x with
  | act x =>
    cases x with
    | step i =>
      cases hp : T.pool.procs[i]? with
      | none =>
        have : T.turn (.act (.step i)) = T := by unfold Team.turn Pool.act; dsimp only; rw [hp]
        rw [this]; exact idle
      | some p =>
        refine .step i p hp ?_ ?_ rfl
        · unfold Team.turn Pool.act; dsimp only; rw [hp]
        · unfold Team.turn Pool.act; dsimp only; rw [hp]
    | look i a =>
      cases hp : T.pool.procs[i]? with
      | none =>
        have : T.turn (.act (.look i a)) = T := by unfold Team.turn Pool.act; dsimp only; rw [hp]
        rw [this]; exact idle
      | some p =>
        have e : (T.turn (.act (.look i a))).pool.procs = T.pool.procs.set i (p.look T.pool.heap a) := by unfold Team.turn Pool.act; dsimp only; rw [hp]
        refine .idle _ (by unfold Team.turn Pool.act; dsimp only; rw [hp]) (by rw [e, List.length_set]) (fun j p' h => ?_) rfl
        rw [e] at h
        by_cases hj : i = j
        · subst hj
          rw [List.getElem?_set_self (List.getElem?_eq_some_iff.1 hp).1] at h
          cases h
          refine ⟨p, hp, ?_, ?_⟩ <;> unfold Proc.look <;> split <;> rfl
        · rw [List.getElem?_set_ne hj] at h
          exact ⟨p', h, rfl, rfl⟩
    | chan a k => exact .idle _ rfl rfl (fun i p' h => ⟨p', h, rfl, rfl⟩) rfl
  | start src g =>
    cases hk : T.known src with
    | none =>
      have : T.turn (.start src g) = T := by unfold Team.turn; dsimp only; rw [hk]
      rw [this]; exact idle
    | some ts =>
      refine .start src g ts ?_ ?_ ?_ <;> · unfold Team.turn; dsimp only; rw [hk]

theorem Team.Tidy.turn {L m : Nat} {T : Team V} (h : T.Tidy L m) (hL : ∀ (i : Nat) (p : Proc V (List (Out V) × Tree)), T.pool.procs[i]? = some p →
    ∀ c ∈ p.txn.trackChnSlice, c < L → c < T.pool.chans.length) (x : Turn V) : (T.turn x).Tidy L m := by
  have ht := T.turn_turns x
  generalize T.turn x = T' at ht
  cases ht with
  | step i p hp hc he hj =>
    refine ⟨by rw [he, hj, List.length_set, h.len], fun i' p' j hm hp' hj' => ?_⟩
    rw [hj] at hj'
    rw [he] at hp'
    rw [hc]
    by_cases e : i = i'
    · subst e
      rw [List.getElem?_set_self (List.getElem?_eq_some_iff.1 hp).1] at hp'
      cases hp'
      exact (h.proc i p j hm hp hj').step _ (hL i p hp)
    · rw [List.getElem?_set_ne e] at hp'
      exact (h.proc i' p' j hm hp' hj').other fun c hc => Proc.step_closed _ _ hc
  | idle _ hc hl he hj =>
    refine ⟨by rw [hl, hj, h.len], fun i' p' j hm hp' hj' => ?_⟩
    obtain ⟨p, k1, k2, k3⟩ := he i' p' hp'
    rw [hc]
    exact (h.proc i' p j hm k1 (hj ▸ hj')).code k2 k3
  | start src g ts hc he hj =>
    refine ⟨by rw [he, hj, List.length_append, List.length_append, h.len]; rfl, fun i' p' j hm hp' hj' => ?_⟩
    rw [he] at hp'
    rw [hj] at hj'
    rw [hc]
    rcases Nat.lt_or_ge i' T.pool.procs.length with hlt | hge
    · rw [List.getElem?_append_left hlt] at hp'
      rw [List.getElem?_append_left (h.len ▸ hlt)] at hj'
      exact h.proc i' p' j hm hp' hj'
    · rw [List.getElem?_append_right hge] at hp'
      rw [List.getElem?_append_right (h.len ▸ hge)] at hj'
      have hz : i' - T.pool.procs.length = 0 := by
        have := (List.getElem?_eq_some_iff.1 hp').1
        simp only [List.length_cons, List.length_nil] at this
        omega
      rw [hz] at hp'
      rw [← h.len, hz] at hj'
      cases hp'
      cases hj'
      exact ⟨_, fun _ _ h => h.elim, .inl (session_neat ts g)⟩

theorem Team.turn_chans (T : Team V) (x : Turn V) : T.pool.chans.length ≤ (T.turn x).pool.chans.length := by
  have ht := T.turn_turns x
  generalize T.turn x = T' at ht
  cases ht with
  | step i p hp hc he hj => rw [hc]; exact Proc.step_chans _ _ _
  | idle _ hc hl he hj => rw [hc]; exact Nat.le_refl _
  | start src g ts hc he hj => rw [hc]; exact Nat.le_refl _

theorem Team.Neat.turn {L m : Nat} {T : Team V} (h : T.Neat L m) (x : Turn V) : (T.turn x).Neat L m :=
  ⟨h.toTidy.turn (fun _ _ _ _ _ hl => Nat.lt_of_lt_of_le hl h.chans) x, Nat.le_trans h.chans (T.turn_chans x)⟩

theorem Team.Neat.run {L m : Nat} {T : Team V} (h : T.Neat L m) (xs : List (Turn V)) : (T.run xs).Neat L m := by
  induction xs generalizing T with
  | nil => exact h
  | cons x xs ih => exact ih (h.turn x)

theorem World.team_neat (w : World V) : w.team.Neat w.chans.length 0 := ⟨⟨rfl, fun i p j _ h => by cases h⟩, Nat.le_refl _⟩

/-- From now on, for the goroutines that are not yet there. -/
theorem Team.Neat.later {L m : Nat} {T : Team V} (h : T.Neat L m) : T.Neat T.pool.chans.length T.pool.procs.length :=
  ⟨⟨h.len, fun i p j hm hp => absurd (List.getElem?_eq_some_iff.1 hp).1 (Nat.not_lt.2 hm)⟩, Nat.le_refl _⟩

theorem Team.turn_closed (T : Team V) (x : Turn V) {c : ChanId} (h : T.pool.chans[c]? = some true) : (T.turn x).pool.chans[c]? = some true := by
  have ht := T.turn_turns x
  generalize T.turn x = T' at ht
  cases ht with
  | step i p hp hc he hj => rw [hc]; exact Proc.step_closed _ _ h
  | idle _ hc hl he hj => rw [hc]; exact h
  | start src g ts hc he hj => rw [hc]; exact h

theorem Team.run_closed (T : Team V) (xs : List (Turn V)) {c : ChanId} (h : T.pool.chans[c]? = some true) : (T.run xs).pool.chans[c]? = some true := by
  induction xs generalizing T with
  | nil => exact h
  | cons x xs ih => exact ih _ (T.turn_closed x h)

/-- Who was started. -/
theorem Team.run_jobs (T : Team V) (turns : List (Turn V)) :
    ∃ js : List (Job V), (T.run turns).jobs = T.jobs ++ js ∧ ∀ j ∈ js, ∃ src, .start src j.work ∈ turns := by
  induction turns generalizing T with
  | nil => exact ⟨[], (List.append_nil _).symm, fun j hj => by cases hj⟩
  | cons x xs ih =>
    obtain ⟨js, h1, h2⟩ := ih (T.turn x)
    have h3 : (T.run (x :: xs)).jobs = (T.turn x).jobs ++ js := h1
    have h4 : ∀ j ∈ js, ∃ src, .start src j.work ∈ x :: xs := fun j hj => (h2 j hj).imp fun _ h => List.mem_cons_of_mem _ h
    have ht := T.turn_turns x
    generalize T.turn x = T' at ht h3
    rw [h3]
    cases ht with
    | step i p hp hc he hj => exact ⟨js, by rw [hj], h4⟩
    | idle _ hc hl he hj => exact ⟨js, by rw [hj], h4⟩
    | start src g ts hc he hj =>
      refine ⟨_ :: js, by rw [hj, List.append_assoc]; rfl, fun j hj => ?_⟩
      rcases List.mem_cons.1 hj with h | h
      · subst h; exact ⟨src, List.mem_cons_self⟩
      · exact h4 j h

theorem Team.turn_jobs (T : Team V) (x : Turn V) : ∃ js : List (Job V), (T.turn x).jobs = T.jobs ++ js ∧ js.length ≤ 1 := by
  have ht := T.turn_turns x
  generalize T.turn x = T' at ht
  cases ht with
  | step i p hp hc he hj => exact ⟨[], by rw [hj, List.append_nil], Nat.zero_le _⟩
  | idle _ hc hl he hj => exact ⟨[], by rw [hj, List.append_nil], Nat.zero_le _⟩
  | start src g ts hc he hj => exact ⟨_, hj, Nat.le_refl _⟩

/-- Who closes a channel. -/
theorem Team.Neat.closes {L : Nat} {T : Team V} (h : T.Neat L 0) (x : Turn V) {c : ChanId} (hn : T.pool.chans[c]? ≠ some true)
    (hc : (T.turn x).pool.chans[c]? = some true) : ∃ (i : Nat) (p : Proc V (List (Out V) × Tree)) (j : Job V), x = .act (.step i) ∧
      T.pool.procs[i]? = some p ∧ T.jobs[i]? = some j ∧ j.work.rings ∧ c ∈ p.txn.trackChnSlice := by
  have ht := T.turn_turns x
  generalize T.turn x = T' at ht hc
  cases ht with
  | step i p hp hc' he hj =>
    rw [hc'] at hc
    obtain ⟨k, e⟩ := Proc.step_closes _ p hc hn
    obtain ⟨j, hj⟩ : ∃ j, T.jobs[i]? = some j := ⟨_, List.getElem?_eq_getElem (h.len ▸ (List.getElem?_eq_some_iff.1 hp).1)⟩
    obtain ⟨h1, h2⟩ := (h.proc i p j (Nat.zero_le _) hp hj).shut e
    exact ⟨i, p, j, rfl, hp, hj, h1, h2⟩
  | idle _ hc' hl he hj => rw [hc'] at hc; exact absurd hc hn
  | start src g ts hc' he hj => rw [hc'] at hc; exact absurd hc hn

/-- Nobody is about to close a closed channel. -/
def Team.Safe (T : Team V) : Prop := ∀ i, ¬ T.pool.Crash i

theorem Team.Neat.ringing {L : Nat} {T : Team V} (h : T.Neat L 0) {i : Nat} {p : Proc V (List (Out V) × Tree)} (hp : T.pool.procs[i]? = some p)
    {c : ChanId} {k : Code V (List (Out V) × Tree)} (hc : p.code = .shut c k) : T.Ringing i := by
  obtain ⟨j, hj⟩ : ∃ j, T.jobs[i]? = some j := ⟨_, List.getElem?_eq_getElem (h.len ▸ (List.getElem?_eq_some_iff.1 hp).1)⟩
  refine ⟨?_, j, hj, ((h.proc i p j (Nat.zero_le _) hp hj).shut hc).1⟩
  unfold Pool.result
  rw [hp]
  obtain ⟨code, txn, view⟩ := p
  dsimp only at hc
  rw [hc]

theorem Team.Safe.turn {L : Nat} {T : Team V} (hs : T.Safe) (h : T.Neat L 0) (h1 : ∀ i j, T.Ringing i → T.Ringing j → i = j) (x : Turn V) :
    (T.turn x).Safe := by
  intro i ⟨p', hp', hcr⟩
  unfold Proc.crashes at hcr
  split at hcr
  case h_2 => exact hcr
  case h_1 c k hk =>
  have ht := T.turn_turns x
  generalize T.turn x = T' at ht hcr hp'
  cases ht with
  | step i' p hp hc he hj =>
    rw [hc] at hcr
    rw [he] at hp'
    by_cases e : i' = i
    · subst e
      rw [List.getElem?_set_self (List.getElem?_eq_some_iff.1 hp).1] at hp'
      cases hp'
      obtain ⟨j, hj⟩ : ∃ j, T.jobs[i']? = some j := ⟨_, List.getElem?_eq_getElem (h.len ▸ (List.getElem?_eq_some_iff.1 hp).1)⟩
      rcases (h.proc i' p j (Nat.zero_le _) hp hj).step_shut _ hk with ⟨g1, g2⟩ | ⟨g1, g2⟩
      · rw [g2] at hcr; exact g1 hcr
      · rw [g2] at hcr; exact hs i' ⟨p, hp, by unfold Proc.crashes; rw [g1]; exact hcr⟩
    · rw [List.getElem?_set_ne e] at hp'
      by_cases hn : T.pool.chans[c]? = some true
      · exact hs i ⟨p', hp', by unfold Proc.crashes; rw [hk]; exact hn⟩
      · obtain ⟨k', e'⟩ := Proc.step_closes _ p hcr hn
        exact e (h1 _ _ (h.ringing hp e') (h.ringing hp' hk))
  | idle _ hc hl he hj =>
    obtain ⟨p, k1, k2, k3⟩ := he i p' hp'
    rw [hc] at hcr
    exact hs i ⟨p, k1, by unfold Proc.crashes; rw [← k2, hk]; exact hcr⟩
  | start src g ts hc he hj =>
    rw [hc] at hcr
    rw [he] at hp'
    rcases Nat.lt_or_ge i T.pool.procs.length with hlt | hge
    · rw [List.getElem?_append_left hlt] at hp'
      exact hs i ⟨p', hp', by unfold Proc.crashes; rw [hk]; exact hcr⟩
    · rw [List.getElem?_append_right hge] at hp'
      have := List.mem_of_getElem? hp'
      rw [List.mem_singleton] at this
      subst this
      have hn := session_neat ts g
      dsimp only at hk
      rw [hk] at hn
      cases hn

/-- A tracked channel stays tracked until it is closed. -/
theorem Team.Tidy.keeps {L m : Nat} {T : Team V} (h : T.Tidy L m) {i : Nat} (hm : m ≤ i) {j : Job V} (hj : T.jobs[i]? = some j) (ht : j.work.tells)
    {c : ChanId} (hl : c < L) (x : Turn V) (hc : T.pool.chans[c]? = some true ∨ ∃ p, T.pool.procs[i]? = some p ∧ c ∈ p.txn.trackChnSlice) :
    (T.turn x).jobs[i]? = some j ∧
      ((T.turn x).pool.chans[c]? = some true ∨ ∃ p, (T.turn x).pool.procs[i]? = some p ∧ c ∈ p.txn.trackChnSlice) := by
  have hx := T.turn_turns x
  have hcl := fun h => T.turn_closed x (c := c) h
  generalize T.turn x = T' at hx hcl
  have hlt : i < T.pool.procs.length := h.len ▸ (List.getElem?_eq_some_iff.1 hj).1
  refine ⟨?_, ?_⟩
  · cases hx with
    | step i' p hp hc he hj' => rw [hj']; exact hj
    | idle _ hc hl he hj' => rw [hj']; exact hj
    | start src g ts hc he hj' => rw [hj', List.getElem?_append_left (List.getElem?_eq_some_iff.1 hj).1]; exact hj
  rcases hc with hc | ⟨p, hp, hc⟩
  · exact .inl (hcl hc)
  cases hx with
  | step i' p' hp' hc' he hj' =>
    by_cases e : i' = i
    · subst e
      rw [hp] at hp'
      cases hp'
      rcases (h.proc i' p j hm hp hj).keep ht T.pool.heap hl hc with g | g
      · exact .inr ⟨_, by rw [he]; exact List.getElem?_set_self hlt, g⟩
      · exact .inl (hcl g)
    · exact .inr ⟨p, by rw [he, List.getElem?_set_ne e]; exact hp, hc⟩
  | idle _ hc' hl' he hj' =>
    obtain ⟨p', hp'⟩ : ∃ p', T'.pool.procs[i]? = some p' := ⟨_, List.getElem?_eq_getElem (hl' ▸ hlt)⟩
    obtain ⟨q, k1, k2, k3⟩ := he i p' hp'
    rw [hp] at k1
    cases k1
    exact .inr ⟨p', hp', k3 ▸ hc⟩
  | start src g ts hc' he hj' => exact .inr ⟨p, by rw [he, List.getElem?_append_left hlt]; exact hp, hc⟩

theorem Team.Neat.keeps_run {L m : Nat} {T : Team V} (h : T.Neat L m) {i : Nat} (hm : m ≤ i) {j : Job V} (hj : T.jobs[i]? = some j) (ht : j.work.tells)
    {c : ChanId} (hl : c < L) (xs : List (Turn V)) (hc : T.pool.chans[c]? = some true ∨ ∃ p, T.pool.procs[i]? = some p ∧ c ∈ p.txn.trackChnSlice) :
    (T.run xs).jobs[i]? = some j ∧
      ((T.run xs).pool.chans[c]? = some true ∨ ∃ p, (T.run xs).pool.procs[i]? = some p ∧ c ∈ p.txn.trackChnSlice) := by
  induction xs generalizing T with
  | nil => exact ⟨hj, hc⟩
  | cons x xs ih =>
    obtain ⟨h1, h2⟩ := h.keeps hm hj ht hl x hc
    exact ih (h.turn x) h1 h2

/-- A goroutine that has returned has told everybody. -/
theorem Team.Tidy.told {L m : Nat} {T : Team V} (h : T.Tidy L m) {i : Nat} (hm : m ≤ i) {j : Job V} (hj : T.jobs[i]? = some j) (ht : j.work.tells)
    {a : List (Out V) × Tree} (hr : T.pool.result i = some (.ok a)) {p : Proc V (List (Out V) × Tree)} (hp : T.pool.procs[i]? = some p) :
    p.txn.trackChnSlice = [] := by
  obtain ⟨C, -, hN⟩ := h.proc i p j hm hp hj
  unfold Pool.result at hr
  rw [hp] at hr
  obtain ⟨code, txn, view⟩ := p
  cases code with
  | done r =>
    cases hr
    rcases hN with hN | ⟨-, c, k, e, -⟩
    · cases hN with
      | done h => exact h ht a rfl
    · cases e
  | _ => cases hr
end

end Art
