import Verif.Proofs.Mind
import Verif.Proofs.Deliver
import Verif.Proofs.Watch
/-
Channels in a schedule: all channels of nodes and on lists are there; a channel that a node loses is on the list of the goroutine
that takes it away, when there is only one that tracks.
-/
set_option autoImplicit false
set_option linter.unusedVariables false
set_option linter.unusedSimpArgs false
set_option linter.unusedSectionVars false
namespace Art
variable {V : Type}

theorem chanOf_set_ne {h : Heap V} {a b : Addr} (hab : a ≠ b) (c : Cell V) : chanOf (h.set a c) b = chanOf h b := by
  unfold chanOf
  rw [List.getElem?_set_ne hab]

theorem chanOf_setChan_ne {h : Heap V} {a b : Addr} (hab : a ≠ b) (k : ChanId) : chanOf (setChan h a k) b = chanOf h b := by
  unfold setChan
  split
  · exact chanOf_set_ne hab _
  · rfl

theorem chanOf_setChan_self {h : Heap V} {a : Addr} (ha : a < h.length) (k : ChanId) : chanOf (setChan h a k) a = some k := by
  unfold setChan
  rw [List.getElem?_eq_getElem ha]
  unfold chanOf
  rw [List.getElem?_set_self ha]
  cases h[a] <;> rfl

theorem chanOf_append {h : Heap V} {c : Cell V} {a : Addr} (ha : a < h.length) : chanOf (h ++ [c]) a = chanOf h a := by
  unfold chanOf
  rw [List.getElem?_append_left ha]

theorem chanOf_lt {h : Heap V} {a : Addr} {k : ChanId} (ha : chanOf h a = some k) : a < h.length := by
  unfold chanOf at ha
  cases hc : h[a]? with
  | none => rw [hc] at ha; cases ha
  | some c => exact (List.getElem?_eq_some_iff.1 hc).1

theorem chanOf_casChan {h : Heap V} {a b : Addr} {k x : ChanId} (hb : chanOf h b = some x) : chanOf (casChan h a k) b = some x := by
  unfold casChan
  cases ha : chanOf h a with
  | some y => exact hb
  | none =>
    have hab : a ≠ b := fun e => by rw [e, hb] at ha; cases ha
    exact (chanOf_setChan_ne hab k).trans hb

theorem chanOf_casChan_self {h : Heap V} {a : Addr} (ha : a < h.length) (k : ChanId) : chanOf (casChan h a k) a = some ((chanOf h a).getD k) := by
  unfold casChan
  cases hc : chanOf h a with
  | some y => exact hc
  | none => exact chanOf_setChan_self ha k

/-! ### Channels are there -/

/-- All channels of nodes are among the first `N`. -/
def HeapWithin (N : Nat) (h : Heap V) : Prop := ∀ (a : Nat) (c : Cell V), h[a]? = some c → c.Within N

section
variable {N : Nat} {h : Heap V}

theorem HeapWithin.set (hh : HeapWithin N h) {c : Cell V} (hc : c.Within N) (a : Addr) : HeapWithin N (h.set a c) := fun b d hd => by
  by_cases e : a = b
  · subst e
    rw [List.getElem?_set] at hd
    split at hd
    · split at hd
      · cases hd; exact hc
      · cases hd
    · exact hh _ _ hd
  · rw [List.getElem?_set_ne e] at hd
    exact hh _ _ hd

theorem HeapWithin.setChan (hh : HeapWithin N h) {k : ChanId} (hk : k < N) (a : Addr) : HeapWithin N (Art.setChan h a k) := by
  unfold Art.setChan
  split
  · exact hh.set (fun x hx => by cases ‹Cell V› <;> · cases hx; exact hk) a
  · exact hh

theorem HeapWithin.casChan (hh : HeapWithin N h) {k : ChanId} (hk : k < N) (a : Addr) : HeapWithin N (Art.casChan h a k) := by
  unfold Art.casChan
  split
  · exact hh.setChan hk a
  · exact hh

theorem HeapWithin.append (hh : HeapWithin N h) {c : Cell V} (hc : c.Within N) : HeapWithin N (h ++ [c]) := fun b d hd => by
  rcases Nat.lt_or_ge b h.length with hlt | hge
  · rw [List.getElem?_append_left hlt] at hd; exact hh _ _ hd
  · rw [List.getElem?_append_right hge] at hd
    have := List.mem_of_getElem? hd
    rw [List.mem_singleton] at this
    exact this ▸ hc

theorem HeapWithin.chanOf (hh : HeapWithin N h) {a : Addr} {k : ChanId} (hk : Art.chanOf h a = some k) : k < N := by
  unfold Art.chanOf at hk
  cases hc : h[a]? with
  | none => rw [hc] at hk; cases hk
  | some c => rw [hc] at hk; exact hh a c hc k hk
end

/-- A goroutine in the middle of code that minds the channels of the first `B` nodes. -/
def Proc.Minding {α : Type} (N B : Nat) (h : Heap V) (p : Proc V α) : Prop :=
  p.txn.Within N ∧ ∃ K : Addr → Option ChanId, (∀ a, a < B → ∀ x, K a = some x → chanOf h a = some x) ∧ p.code.Mind N B (fun _ _ _ => True) K p.txn

section
variable {α : Type} {N B : Nat} {h h' : Heap V} {p : Proc V α} {cs : List Bool}

theorem Proc.Minding.other (hp : p.Minding N B h) (hh : ∀ a x, a < B → chanOf h a = some x → chanOf h' a = some x) : p.Minding N B h' := by
  obtain ⟨h1, K, h2, h3⟩ := hp
  exact ⟨h1, K, fun a ha x hx => hh a x ha (h2 a ha x hx), h3⟩

theorem Proc.Minding.code (hp : p.Minding N B h) {q : Proc V α} (h1 : q.code = p.code) (h2 : q.txn = p.txn) : q.Minding N B h := by
  unfold Proc.Minding
  rw [h1, h2]
  exact hp

/-- A step of its own. -/
theorem Proc.Minding.step (hp : p.Minding N B h) (hh : HeapWithin N h) (hB : B ≤ h.length) (hN : (p.step h cs).2.1.length ≤ N) :
    HeapWithin N (p.step h cs).1 ∧ B ≤ (p.step h cs).1.length ∧ (p.step h cs).2.2.Minding N B (p.step h cs).1 := by
  obtain ⟨ht, K, hK, hm⟩ := hp
  obtain ⟨code, txn, view⟩ := p
  have hset : ∀ {a : Addr} {o : Option ChanId} {H : Heap V}, (a < B → ∀ x, o = some x → chanOf H a = some x) →
      (∀ b, b < B → b ≠ a → chanOf H b = chanOf h b) → ∀ b, b < B → ∀ x, known K a o b = some x → chanOf H b = some x := by
    intro a o H h1 h2 b hb x hx
    unfold known at hx
    split at hx
    · rename_i e; subst e; exact h1 hb x hx
    · rename_i e; rw [h2 b hb e]; exact hK b hb x hx
  cases code with
  | done r => exact ⟨hh, hB, ht, K, hK, hm⟩
  | look k =>
    cases view with
    | none => exact ⟨hh, hB, ht, K, hK, hm⟩
    | some v => exact ⟨hh, hB, ht, K, hK, hm _⟩
  | read a k =>
    exact ⟨hh, hB, ht, _, hset (fun _ x hx => hx) (fun _ _ _ => rfl), hm h[a]? (fun c hc => hh a c hc) fun ha x hx => hK a ha x hx⟩
  | write a c k =>
    exact ⟨hh.set hm.1 a, by show B ≤ (h.set a c).length; rw [List.length_set]; exact hB, ht, _,
      hset (fun _ x hx => by cases hx) (fun b _ hb => chanOf_set_ne (Ne.symm hb) c), hm.2⟩
  | store a c k =>
    have hl : (setChan h a c).length = h.length := by obtain ⟨d, e⟩ := setChan_set h a c; rw [e, List.length_set]
    exact ⟨hh.setChan hm.1 a, by show B ≤ (setChan h a c).length; rw [hl]; exact hB, ht, _,
      hset (fun ha x hx => by cases hx; exact chanOf_setChan_self (Nat.lt_of_lt_of_le ha hB) c) (fun b _ hb => chanOf_setChan_ne (Ne.symm hb) c), hm.2.2⟩
  | alloc c k =>
    exact ⟨hh.append hm.1, by show B ≤ (h ++ [c]).length; rw [List.length_append]; omega, ht, K,
      fun a ha x hx => (chanOf_append (Nat.lt_of_lt_of_le ha hB)).trans (hK a ha x hx), hm.2 _⟩
  | make k =>
    have : cs.length < N := by
      simp only [Proc.step, List.length_append, List.length_cons, List.length_nil] at hN
      omega
    exact ⟨hh, hB, ht, K, hK, hm _ this⟩
  | own f k => exact ⟨hh, hB, hm.1, K, hK, hm.2⟩
  | claim a c k =>
    dsimp only [Proc.step]
    cases hc : chanOf h a with
    | some y =>
      refine ⟨hh, hB, ht, known K a (some y), hset (fun _ x hx => by rw [← hx]; exact hc) (fun _ _ _ => rfl), hm.1, fun _ => ⟨y, known_self ..⟩, fun x hx hy => ?_⟩
      rw [known_known]
      refine hm.2 x hx fun ha z hz => ?_
      have := hK a ha z hz
      rw [hc] at this
      cases this
      exact hy ha y (known_self ..)
    | none =>
      have hl : (setChan h a c).length = h.length := setChan_length ..
      refine ⟨hh.setChan hm.1 a, by show B ≤ (setChan h a c).length; rw [hl]; exact hB, ht, _,
        hset (o := some c) (fun ha x hx => ?_) (fun b _ hb => chanOf_setChan_ne (Ne.symm hb) c), hm.2 _ hm.1 fun ha y hy => ?_⟩
      · rw [← hx]; exact chanOf_setChan_self (Nat.lt_of_lt_of_le ha hB) c
      · rw [hK a ha y hy] at hc; cases hc
  | load a c k =>
    refine ⟨hh, hB, ht, _, hset (o := some ((chanOf h a).getD c)) (fun ha x hx => ?_) (fun _ _ _ => rfl), hm.2.2 _ ?_ fun ha y hy => ?_⟩
    · obtain ⟨y, hy⟩ := hm.2.1 ha
      have h2 := hK a ha y hy
      rw [← hx, h2]
      exact h2
    · cases hc : chanOf h a with
      | none => exact hm.1
      | some k => exact hh.chanOf hc
    · rw [hK a ha y hy]; rfl
  | test c k => exact ⟨hh, hB, ht, K, hK, hm _⟩
  | shut c k =>
    dsimp only [Proc.step]
    cases cs[c]? == some true with
    | true => exact ⟨hh, hB, ht, K, hK, hm⟩
    | false => exact ⟨hh, hB, ht, K, hK, hm⟩

/-- The channels of old nodes after a step of somebody. -/
theorem Proc.step_chan (h : Heap V) (cs : List Bool) (p : Proc V α) {a : Addr} {x : ChanId} (hx : chanOf h a = some x)
    (h1 : ∀ c k, p.code ≠ .write a c k) (h2 : ∀ c k, p.code ≠ .store a c k) : chanOf (p.step h cs).1 a = some x := by
  obtain ⟨code, txn, view⟩ := p
  cases code with
  | look k => cases view <;> exact hx
  | write b c k => exact (chanOf_set_ne (fun e => h1 c k (by rw [e])) c).trans hx
  | store b c k => exact (chanOf_setChan_ne (fun e => h2 c k (by rw [e])) c).trans hx
  | alloc c k => exact (chanOf_append (chanOf_lt hx)).trans hx
  | claim b c k =>
    dsimp only [Proc.step]
    cases hc : chanOf h b with
    | none => exact (chanOf_setChan_ne (fun e => by rw [e, hx] at hc; cases hc) c).trans hx
    | some y => exact hx
  | shut c k =>
    dsimp only [Proc.step]
    cases cs[c]? == some true <;> exact hx
  | _ => exact hx
end

/-! ### Teams -/

section
variable [Inhabited V] {N : Nat} {Bf : Nat → Nat} {T : Team V}

/-- All channels are there; goroutine `i` is in the middle of code that minds the channels of the first `Bf i` nodes. -/
structure Team.Minded (N : Nat) (Bf : Nat → Nat) (T : Team V) : Prop where
  heap : HeapWithin N T.pool.heap
  base : ∀ i, Bf i ≤ T.pool.heap.length
  proc : ∀ (i : Nat) (p : Proc V (List (Out V) × Tree)), T.pool.procs[i]? = some p → p.Minding N (Bf i) T.pool.heap

/-- What is not to happen: somebody writes to the nodes, or replaces channels, that another one minds. -/
def Team.Gentle (N : Nat) (Bf : Nat → Nat) (T : Team V) : Turn V → Prop
  | .act (.step i) => ∀ p, T.pool.procs[i]? = some p → ∀ j, j ≠ i → ∀ a, a < Bf j → (∀ c k, p.code ≠ .write a c k) ∧ ∀ c k, p.code ≠ .store a c k
  | .act (.chan a k) => k < N ∧ ∀ j, a < Bf j → chanOf T.pool.heap a = none
  | _ => True

theorem Team.Minded.turn (hT : T.Minded N Bf) (x : Turn V) (hx : T.Gentle N Bf x) (hN : (T.turn x).pool.chans.length ≤ N) : (T.turn x).Minded N Bf := by
  cases x with
  | act x =>
    cases x with
    | step i =>
      cases hp : T.pool.procs[i]? with
      | none =>
        have : T.turn (.act (.step i)) = T := by unfold Team.turn Pool.act; dsimp only; rw [hp]
        rw [this]; exact hT
      | some p =>
        have e : T.turn (.act (.step i)) = { T with pool := ⟨(p.step T.pool.heap T.pool.chans).1, (p.step T.pool.heap T.pool.chans).2.1,
            T.pool.procs.set i (p.step T.pool.heap T.pool.chans).2.2⟩ } := by unfold Team.turn Pool.act; dsimp only; rw [hp]
        rw [e] at hN ⊢
        have hs := (hT.proc i p hp).step (cs := T.pool.chans) hT.heap (hT.base i) hN
        refine ⟨hs.1, fun j => ?_, fun j q hq => ?_⟩
        · refine Nat.le_trans (hT.base j) ?_
          obtain ⟨code, txn, view⟩ := p
          cases code with
          | look k => cases view <;> exact Nat.le_refl _
          | write b c k => simp [Proc.step]
          | store b c k => obtain ⟨d, e⟩ := setChan_set T.pool.heap b c; simp [Proc.step, e]
          | alloc c k => simp [Proc.step]
          | claim b c k => dsimp only [Proc.step]; cases chanOf T.pool.heap b with | none => exact Nat.le_of_eq (setChan_length ..).symm | some y => exact Nat.le_refl _
          | shut c k => dsimp only [Proc.step]; cases T.pool.chans[c]? == some true <;> exact Nat.le_refl _
          | _ => exact Nat.le_refl _
        · dsimp only at hq ⊢
          by_cases ej : i = j
          · subst ej
            rw [List.getElem?_set_self (List.getElem?_eq_some_iff.1 hp).1] at hq
            cases hq
            exact hs.2.2
          · rw [List.getElem?_set_ne ej] at hq
            refine (hT.proc j q hq).other fun a x ha hx' => ?_
            obtain ⟨g1, g2⟩ := hx p hp j (Ne.symm ej) a ha
            exact Proc.step_chan _ _ p hx' g1 g2
    | look i a =>
      cases hp : T.pool.procs[i]? with
      | none =>
        have : T.turn (.act (.look i a)) = T := by unfold Team.turn Pool.act; dsimp only; rw [hp]
        rw [this]; exact hT
      | some p =>
        have e : T.turn (.act (.look i a)) = { T with pool := { T.pool with procs := T.pool.procs.set i (p.look T.pool.heap a) } } := by
          unfold Team.turn Pool.act; dsimp only; rw [hp]
        rw [e]
        refine ⟨hT.heap, hT.base, fun j q hq => ?_⟩
        dsimp only at hq ⊢
        by_cases ej : i = j
        · subst ej
          rw [List.getElem?_set_self (List.getElem?_eq_some_iff.1 hp).1] at hq
          cases hq
          refine (hT.proc i p hp).code ?_ ?_ <;> unfold Proc.look <;> split <;> rfl
        · rw [List.getElem?_set_ne ej] at hq
          exact hT.proc j q hq
    | chan a k =>
      have hl : (setChan T.pool.heap a k).length = T.pool.heap.length := by obtain ⟨d, e⟩ := setChan_set T.pool.heap a k; rw [e, List.length_set]
      refine ⟨hT.heap.setChan hx.1 a, fun j => ?_, fun j q hq => (hT.proc j q hq).other fun b x hb hx' => ?_⟩
      · show Bf j ≤ (setChan T.pool.heap a k).length
        rw [hl]; exact hT.base j
      · have hab : a ≠ b := fun e => by subst e; rw [hx.2 j hb] at hx'; cases hx'
        exact (chanOf_setChan_ne hab k).trans hx'
  | start src g =>
    unfold Team.turn
    dsimp only
    cases T.known src with
    | none => exact hT
    | some ts =>
      refine ⟨hT.heap, hT.base, fun j q hq => ?_⟩
      dsimp only at hq ⊢
      rcases Nat.lt_or_ge j T.pool.procs.length with hlt | hge
      · rw [List.getElem?_append_left hlt] at hq; exact hT.proc j q hq
      · rw [List.getElem?_append_right hge] at hq
        have := List.mem_of_getElem? hq
        rw [List.mem_singleton] at this
        subst this
        exact ⟨fun c hc => (by cases hc), fun _ => none, fun _ _ _ h => (by cases h), session_mind ts g _⟩
end

section
variable [Inhabited V] {ops : List (Op V)} {turns : List (Turn V)} {i : Nat}

theorem take_turn {n : Nat} (hn : n < turns.length) : ∃ x, turns[n]? = some x ∧
    teamAfter ops (turns.take (n + 1)) = (teamAfter ops (turns.take n)).turn x := by
  refine ⟨turns[n], List.getElem?_eq_getElem hn, ?_⟩
  rw [List.take_succ_eq_append_getElem hn, teamAfter_append]
  rfl

/-- Everybody minds the channels. -/
theorem minded_upto {Bf : Nat → Nat} (hB : ∀ i, Bf i ≤ (heapAfter ops).length)
    (hG : ∀ n x, turns[n]? = some x → ∀ N, (teamAfter ops (turns.take (n + 1))).pool.chans.length ≤ N → (teamAfter ops (turns.take n)).Gentle N Bf x)
    (n : Nat) (hn : n ≤ turns.length) (N : Nat) (hN : (teamAfter ops (turns.take n)).pool.chans.length ≤ N) : (teamAfter ops (turns.take n)).Minded N Bf := by
  induction n generalizing N with
  | zero =>
    refine ⟨fun a c hc k hk => ?_, hB, fun i p hp => by cases hp⟩
    exact Nat.lt_of_lt_of_le ((worldAfter_ok ops).lab.lt a c k hc hk) hN
  | succ n ih =>
    obtain ⟨x, hx, e⟩ := take_turn (ops := ops) hn
    have hG' := hG n x hx N hN
    rw [e] at hN ⊢
    exact (ih (Nat.le_of_succ_le hn) N (Nat.le_trans (Team.turn_chans _ _) hN)).turn x hG' hN

/-- All channels are there. -/
theorem honest_minded (hh : Honest ops turns) (n : Nat) (hn : n ≤ turns.length) :
    (teamAfter ops (turns.take n)).Minded (teamAfter ops (turns.take n)).pool.chans.length fun _ => 0 := by
  refine minded_upto (fun _ => Nat.zero_le _) (fun n x hx N hN => ?_) n hn _ (Nat.le_refl _)
  obtain ⟨hlt, -⟩ := List.getElem?_eq_some_iff.1 hx
  obtain ⟨y, hy, e⟩ := take_turn (ops := ops) hlt
  rw [hx] at hy
  cases hy
  cases x with
  | start src g => exact trivial
  | act x =>
    cases x with
    | look i a => exact trivial
    | step i => exact fun p hp j hj a ha => absurd ha (Nat.not_lt_zero _)
    | chan a k =>
      refine ⟨Nat.lt_of_lt_of_le (hh n a k hx) (Nat.le_trans ?_ hN), fun j ha => absurd ha (Nat.not_lt_zero _)⟩
      rw [e]
      exact Team.turn_chans _ _

theorem honest_tidy (hh : Honest ops turns) (L : Nat) (n : Nat) (hn : n ≤ turns.length) : (teamAfter ops (turns.take n)).Tidy L 0 := by
  induction n with
  | zero => exact ⟨rfl, fun i p j _ h => by cases h⟩
  | succ n ih =>
    obtain ⟨x, hx, e⟩ := take_turn (ops := ops) hn
    have hm := honest_minded hh n (Nat.le_of_succ_le hn)
    rw [e]
    exact (ih (Nat.le_of_succ_le hn)).turn (fun i p hp c hc _ => (hm.proc i p hp).1 c hc) x

theorem Honest.take (hh : Honest ops turns) (n : Nat) : Honest ops (turns.take n) := fun m a c h => by
  rw [List.getElem?_take] at h
  split at h
  · rename_i hlt
    rw [List.take_take, Nat.min_eq_left (Nat.le_of_lt hlt)]
    exact hh m a c h
  · cases h

/-- A goroutine that has told everybody has closed what it has tracked. -/
theorem honest_closed (hh : Honest ops turns) {j : Job V} (hj : (teamAfter ops turns).jobs[i]? = some j) (ht : j.work.tells) {x : List (Out V) × Tree}
    (hx : (teamAfter ops turns).pool.result i = some (.ok x)) {c : ChanId} {n : Nat} (hk : (teamAfter ops (turns.take n)).pool.Tracks i c) :
    (teamAfter ops turns).pool.Closed c := by
  rcases Nat.lt_or_ge turns.length n with hge | hn
  · rw [List.take_of_length_le (Nat.le_of_lt hge)] at hk
    obtain ⟨p, hp, hc⟩ := hk
    have hT := honest_tidy hh 0 turns.length (Nat.le_refl _)
    rw [List.take_length] at hT
    rw [hT.told (Nat.zero_le i) hj ht hx hp] at hc
    cases hc
  obtain ⟨p, hp, hc⟩ := hk
  have key : ∀ d, n + d ≤ turns.length → (teamAfter ops (turns.take (n + d))).jobs[i]? = some j ∧
      ((teamAfter ops (turns.take (n + d))).pool.chans[c]? = some true ∨
        ∃ p, (teamAfter ops (turns.take (n + d))).pool.procs[i]? = some p ∧ c ∈ p.txn.trackChnSlice) := by
    intro d
    induction d with
    | zero =>
      intro hd
      have hT := honest_tidy hh 0 n hn
      obtain ⟨j', hj'⟩ : ∃ j', (teamAfter ops (turns.take n)).jobs[i]? = some j' :=
        ⟨_, List.getElem?_eq_getElem (hT.len ▸ (List.getElem?_eq_some_iff.1 hp).1)⟩
      have e := teamAfter_jobs ops turns n hj'
      rw [hj] at e
      cases e
      exact ⟨hj', .inr ⟨p, hp, hc⟩⟩
    | succ d ih =>
      intro hd
      obtain ⟨h1, h2⟩ := ih (Nat.le_of_succ_le hd)
      obtain ⟨y, hy, e⟩ := take_turn (ops := ops) (turns := turns) (n := n + d) hd
      rw [show n + (d + 1) = n + d + 1 from rfl, e]
      exact (honest_tidy hh (c + 1) (n + d) (Nat.le_of_succ_le hd)).keeps (Nat.zero_le i) h1 ht (Nat.lt_succ_self c) y h2
  have h := (key (turns.length - n) (by omega)).2
  rw [show n + (turns.length - n) = turns.length by omega, List.take_length] at h
  rcases h with h | ⟨q, hq, h⟩
  · exact h
  · have hT := honest_tidy hh 0 turns.length (Nat.le_refl _)
    rw [List.take_length] at hT
    rw [hT.told (Nat.zero_le i) hj ht hx hq] at h
    cases h

/-- Nobody writes to an old node. -/
theorem old_write (hl : Lawful World.init ops) {a : Nat} (ha : a < (heapAfter ops).length) {p : Proc V (List (Out V) × Tree)}
    (hp : (teamAfter ops turns).pool.procs[i]? = some p) (c : Cell V) (k : Code V (List (Out V) × Tree)) : p.code ≠ .write a c k := fun e => by
  obtain ⟨n, r, A, hT, -⟩ := team_inv hl (Nat.lt_of_le_of_lt (Nat.zero_le a) ha) turns
  have hw : p.writes = some a := by unfold Proc.writes; rw [e]
  have := hT.inv.keep i a (hT.inv.writes hT.ends hp hw (Nat.lt_of_lt_of_le ha hT.inv.base))
  omega

/-- Who replaces channels. -/
theorem store_tracks {a : Addr} {c : ChanId} {k : Code V (List (Out V) × Tree)} {p : Proc V (List (Out V) × Tree)}
    (hp : (teamAfter ops turns).pool.procs[i]? = some p) (e : p.code = .store a c k) : ∃ j, (teamAfter ops turns).jobs[i]? = some j ∧ j.work.tracks := by
  have hN : (teamAfter ops turns).Neat _ 0 := (World.team_neat (execAll World.init ops).2).run turns
  obtain ⟨j, hj⟩ : ∃ j, (teamAfter ops turns).jobs[i]? = some j := ⟨_, List.getElem?_eq_getElem (hN.len ▸ (List.getElem?_eq_some_iff.1 hp).1)⟩
  exact ⟨j, hj, (hN.proc i p j (Nat.zero_le _) hp hj).store e⟩

section
variable (hl : Lawful World.init ops) (hh : Honest ops turns)
  (ho : ∀ k j, (teamAfter ops turns).jobs[k]? = some j → k ≠ i → ¬ j.work.tracks)
  (hf : ∀ n a c, turns[n]? = some (.act (.chan a c)) → chanOf (teamAfter ops (turns.take n)).pool.heap a = none)
include hl hh ho hf

/-- The tracking goroutine minds the channels of the old nodes. -/
theorem sole_minded (n : Nat) (hn : n ≤ turns.length) : (teamAfter ops (turns.take n)).Minded (teamAfter ops (turns.take n)).pool.chans.length
    fun k => if k = i then (heapAfter ops).length else 0 := by
  refine minded_upto (fun k => ?_) (fun n x hx N hN => ?_) n hn _ (Nat.le_refl _)
  · split
    · exact Nat.le_refl _
    · exact Nat.zero_le _
  obtain ⟨hlt, -⟩ := List.getElem?_eq_some_iff.1 hx
  obtain ⟨y, hy, e⟩ := take_turn (ops := ops) hlt
  rw [hx] at hy
  cases hy
  cases x with
  | start src g => exact trivial
  | act x =>
    cases x with
    | look i a => exact trivial
    | step k =>
      intro p hp j hj a ha
      have hj' : j = i ∧ a < (heapAfter ops).length := by
        dsimp only at ha
        split at ha
        · exact ⟨‹_›, ha⟩
        · exact absurd ha (Nat.not_lt_zero _)
      refine ⟨fun c k => old_write hl hj'.2 hp c k, fun c k' e => ?_⟩
      obtain ⟨j2, h1, h2⟩ := store_tracks hp e
      exact ho k j2 (teamAfter_jobs ops turns n h1) (fun e => hj (hj'.1.trans e.symm)) h2
    | chan a k =>
      refine ⟨Nat.lt_of_lt_of_le (hh n a k hx) (Nat.le_trans ?_ hN), fun j ha => hf n a k hx⟩
      rw [e]
      exact Team.turn_chans _ _

/-- A channel that an old node loses. -/
theorem sole_lost {n : Nat} {x : Turn V} (hx : turns[n]? = some x) {a : Nat} (ha : a < (heapAfter ops).length) {c : ChanId}
    (h1 : chanOf (teamAfter ops (turns.take n)).pool.heap a = some c) (h2 : chanOf (teamAfter ops (turns.take (n + 1))).pool.heap a ≠ some c) :
    x = .act (.step i) ∧ (teamAfter ops (turns.take n)).pool.Tracks i c := by
  obtain ⟨hlt, -⟩ := List.getElem?_eq_some_iff.1 hx
  obtain ⟨y, hy, e⟩ := take_turn (ops := ops) hlt
  rw [hx] at hy
  cases hy
  rw [e] at h2
  cases x with
  | start src g =>
    refine absurd ?_ h2
    unfold Team.turn
    dsimp only
    cases (teamAfter ops (turns.take n)).known src <;> exact h1
  | act x =>
    cases x with
    | look k b =>
      refine absurd ?_ h2
      unfold Team.turn Pool.act
      dsimp only
      cases (teamAfter ops (turns.take n)).pool.procs[k]? <;> exact h1
    | chan b k =>
      have hab : b ≠ a := fun e => by subst e; rw [hf n b k hx] at h1; cases h1
      exact absurd ((chanOf_setChan_ne hab k).trans h1) h2
    | step k =>
      cases hp : (teamAfter ops (turns.take n)).pool.procs[k]? with
      | none =>
        refine absurd ?_ h2
        unfold Team.turn Pool.act
        dsimp only
        rw [hp]
        exact h1
      | some p =>
        have hs : chanOf (p.step (teamAfter ops (turns.take n)).pool.heap (teamAfter ops (turns.take n)).pool.chans).1 a ≠ some c := by
          unfold Team.turn Pool.act at h2
          dsimp only at h2
          rw [hp] at h2
          exact h2
        obtain ⟨d, k', ec⟩ : ∃ d k', p.code = .store a d k' := Classical.byContradiction fun hn =>
          hs (Proc.step_chan _ _ p h1 (fun d k => old_write hl ha hp d k) fun d k' e => hn ⟨d, k', e⟩)
        obtain ⟨j2, g1, g2⟩ := store_tracks hp ec
        have hk : k = i := Classical.byContradiction fun hn => ho k j2 (teamAfter_jobs ops turns n g1) hn g2
        subst hk
        obtain ⟨-, K, hK, hm⟩ := (sole_minded hl hh ho hf n (Nat.le_of_lt hlt)).proc k p hp
        rw [ec] at hm
        obtain ⟨-, hm, -⟩ := hm
        have ha' : a < if k = k then (heapAfter ops).length else 0 := by rw [if_pos rfl]; exact ha
        obtain ⟨c', h3, h4⟩ := hm ha'
        have h5 := hK a ha' c' h3
        rw [h1] at h5
        cases h5
        exact ⟨rfl, p, hp, h4⟩

theorem sole_lost_later {n m : Nat} (hnm : n ≤ m) (hm : m ≤ turns.length) {a : Nat} (ha : a < (heapAfter ops).length) {c : ChanId}
    (h1 : chanOf (teamAfter ops (turns.take n)).pool.heap a = some c) (h2 : chanOf (teamAfter ops (turns.take m)).pool.heap a ≠ some c) :
    ∃ k, n ≤ k ∧ k < m ∧ turns[k]? = some (.act (.step i)) ∧ (teamAfter ops (turns.take k)).pool.Tracks i c := by
  obtain ⟨d, rfl⟩ : ∃ d, m = n + d := ⟨m - n, by omega⟩
  induction d with
  | zero => exact absurd h1 h2
  | succ d ih =>
    by_cases h3 : chanOf (teamAfter ops (turns.take (n + d))).pool.heap a = some c
    · obtain ⟨y, hy, -⟩ := take_turn (ops := ops) (turns := turns) (n := n + d) hm
      obtain ⟨rfl, h4⟩ := sole_lost hl hh ho hf hy ha h3 h2
      exact ⟨n + d, Nat.le_add_right _ _, Nat.lt_succ_self _, hy, h4⟩
    · obtain ⟨k, h4, h5, h6⟩ := ih (Nat.le_add_right _ _) (Nat.le_of_succ_le hm) h3
      exact ⟨k, h4, Nat.lt_succ_of_lt h5, h6⟩
end
end
end Art
