import Verif.Proofs.Mixed
import Verif.RoundsSpec
/-
Goroutines that make reading calls of any kind with slices of the same array.
-/
set_option autoImplicit false
set_option linter.unusedVariables false
set_option linter.unusedSimpArgs false
set_option linter.unusedSectionVars false
namespace Art
variable {V ρ : Type} {h : Heap V}

/-- The bytes that the loop of a call reads. -/
def seenKey (b : Bool) (key : Key) : Key := if b then key ++ [36] else key

/-- The rounds of a call, with a key that does not change. -/
def Reading.loop (c : Reading ρ) (key : Key) : Nat → c.σ → R ρ
  | 0, _ => .error .fuel
  | fuel + 1, x =>
    (c.round key x).bind fun
      | .inl r => .ok r
      | .inr x' => c.loop key fuel x'

/-- The call, made alone. -/
def Reading.whole (c : Reading ρ) (key : Key) : R ρ :=
  c.start.bind fun x => c.loop (seenKey c.appends key) ((seenKey c.appends key).length + 1) x

/-- The window of a call. -/
def ReadWin (m0 m : Mem) (b : Bool) (s win : Slice) : Prop := if b then WinOK m0 m s win else win = s

/-- The state of a call. -/
def ReadOK (m0 m : Mem) (c : Reading ρ) (s : Slice) : ReadState c.σ ρ → Prop
  | .waiting => True
  | .running win fuel x => ReadWin m0 m c.appends s win ∧ c.loop (seenKey c.appends (s.read m0)) fuel x = c.whole (s.read m0)
  | .done r => r = c.whole (s.read m0)

/-- The memory and the calls, given the slices and what was there at the beginning. -/
structure ReadersOK (m0 : Mem) (cs : List (Reading ρ × Slice)) (m : Mem) (ps : List (Reader ρ)) : Prop where
  grown : m0.length ≤ m.length
  size : ∀ i, i < m0.length → (m.bytes i).length = (m0.bytes i).length
  keys : ∀ c ∈ cs, c.2.read m = c.2.read m0
  calls : ps.map (fun p => (p.call, p.s)) = cs
  states : ∀ p ∈ ps, ReadOK m0 m p.call p.s p.st

theorem ReadersOK.start (m : Mem) (cs : List (Reading ρ × Slice)) : ReadersOK m cs m (readAll cs) where
  grown := Nat.le_refl _
  size := fun _ _ => rfl
  keys := fun _ _ => rfl
  calls := by unfold readAll; rw [List.map_map]; exact List.map_id _
  states := fun p hp => by
    unfold readAll at hp
    obtain ⟨c, -, rfl⟩ := List.mem_map.1 hp
    trivial

/-- What the loop of a call reads, while no other call disturbs it. -/
theorem ReadWin.read {m0 m : Mem} {b : Bool} {s win : Slice} (hw : ReadWin m0 m b s win) (hk : s.read m = s.read m0) :
    win.read m = seenKey b (s.read m0) := by
  unfold ReadWin at hw
  unfold seenKey
  split at hw
  · next e => rw [if_pos e]; exact hw.1
  · next e => rw [if_neg e, hw]; exact hk

/-- The beginning of a call. -/
theorem readBegin_ok {m0 m : Mem} {c : Reading ρ} {s win : Slice} (hw : ReadWin m0 m c.appends s win)
    (hl : win.len = (seenKey c.appends (s.read m0)).length) : ReadOK m0 m c s (readBegin c.start win) := by
  unfold readBegin
  cases hs : c.start with
  | error e =>
    show _ = _
    unfold Reading.whole
    rw [hs]; rfl
  | ok x =>
    refine ⟨hw, ?_⟩
    unfold Reading.whole
    rw [hs, hl]; rfl

/-- A round of a call. -/
theorem readNext_ok {m0 m : Mem} {c : Reading ρ} {s win : Slice} {fuel : Nat} {x : c.σ} (hw : ReadWin m0 m c.appends s win)
    (hl : c.loop (seenKey c.appends (s.read m0)) (fuel + 1) x = c.whole (s.read m0)) :
    ReadOK m0 m c s (readNext win fuel (c.round (seenKey c.appends (s.read m0)) x)) := by
  rw [Reading.loop] at hl
  unfold readNext
  cases hr : c.round (seenKey c.appends (s.read m0)) x with
  | error e => rw [hr] at hl; exact hl
  | ok r =>
    rw [hr] at hl
    cases r with
    | inl r => exact hl
    | inr x' => exact ⟨hw, hl⟩

/-- Another call begins. -/
theorem ReadOK.other {m0 m m' : Mem} {c : Reading ρ} {s : Slice} (ho : ∀ win, WinOK m0 m s win → WinOK m0 m' s win) :
    ∀ {st : ReadState c.σ ρ}, ReadOK m0 m c s st → ReadOK m0 m' c s st
  | .waiting, _ => trivial
  | .running win fuel x, hq => by
    refine ⟨?_, hq.2⟩
    have h1 := hq.1
    unfold ReadWin at h1 ⊢
    split at h1
    · next e => rw [if_pos e]; exact ho win h1
    · next e => rw [if_neg e]; exact h1
  | .done r, hq => hq

theorem map_set_eq {α β : Type _} (f : α → β) (l : List α) (j : Nat) (x y : α) (hj : l[j]? = some x) (hxy : f y = f x) :
    (l.set j y).map f = l.map f := by
  apply List.ext_getElem?
  intro k
  rw [List.getElem?_map, List.getElem?_map, List.getElem?_set]
  split
  · next hk =>
    subst hk
    rw [if_pos (List.getElem?_eq_some_iff.1 hj).1, hj]
    exact congrArg some hxy
  · rfl

theorem readStep_call (extra : Nat → Nat) (m : Mem) (p : Reader ρ) :
    ((readStep extra m p).2.call, (readStep extra m p).2.s) = (p.call, p.s) := by
  unfold readStep
  split <;> rfl

theorem ReadersOK.step (extra : Nat → Nat) {m0 m : Mem} {cs : List (Reading ρ × Slice)} {ps : List (Reader ρ)} (hok : ReadersOK m0 cs m ps)
    (hr : ∀ c ∈ cs, c.2.Real m0) (hn : ∀ c ∈ cs, c.1.appends = true → ∀ c' ∈ cs, ¬ c.2.spoils c'.2) {j : Nat} {p : Reader ρ}
    (hj : ps[j]? = some p) : ReadersOK m0 cs (readStep extra m p).1 (ps.set j (readStep extra m p).2) := by
  have hp : p ∈ ps := List.mem_of_getElem? hj
  have hcs : ∀ q ∈ ps, (q.call, q.s) ∈ cs := fun q hq => by rw [← hok.calls]; exact List.mem_map.2 ⟨q, hq, rfl⟩
  have hst := hok.states p hp
  have hpc := hcs p hp
  have calls : (ps.set j (readStep extra m p).2).map (fun p => (p.call, p.s)) = cs := by
    rw [map_set_eq _ _ _ _ _ hj (readStep_call extra m p)]
    exact hok.calls
  have still : (readStep extra m p).1 = m → ReadOK m0 m (readStep extra m p).2.call (readStep extra m p).2.s (readStep extra m p).2.st →
      ReadersOK m0 cs (readStep extra m p).1 (ps.set j (readStep extra m p).2) := fun e1 e2 => by
    refine ⟨by rw [e1]; exact hok.grown, by rw [e1]; exact hok.size, by rw [e1]; exact hok.keys, calls, fun q hq => ?_⟩
    rw [e1]
    rcases List.mem_or_eq_of_mem_set hq with hq | hq
    · exact hok.states q hq
    · rw [hq]; exact e2
  obtain ⟨c, s, st⟩ := p
  have hlen := read_len (hr _ hpc).2
  dsimp only at hlen
  cases st with
  | waiting =>
    by_cases ha : c.appends = true
    · have e : readStep extra m ⟨c, s, .waiting⟩ = ((goAppend extra m s 36).1, ⟨c, s, readBegin c.start (goAppend extra m s 36).2⟩) := by
        unfold readStep readWindow; dsimp only; rw [if_pos ha]
      rw [e] at calls ⊢
      have hw := append_own extra hok.grown hok.size (hr _ hpc) (hok.keys _ hpc)
      have hz := append_size extra (s := s) hok.grown hok.size
      refine ⟨hz.1, hz.2, fun c' hc => ?_, calls, fun q hq => ?_⟩
      · exact (append_others extra hok.grown hok.size (hr _ hpc) (hr c' hc) (hn _ hpc ha c' hc)).1 (hok.keys c' hc)
      · rcases List.mem_or_eq_of_mem_set hq with hq | hq
        · exact (hok.states q hq).other
            (append_others extra hok.grown hok.size (hr _ hpc) (hr _ (hcs q hq)) (hn _ hpc ha _ (hcs q hq))).2
        · rw [hq]
          refine readBegin_ok (by unfold ReadWin; rw [if_pos ha]; exact hw) ?_
          unfold seenKey
          rw [if_pos ha, List.length_append, hlen]
          exact hw.2.1
    · have e : readStep extra m ⟨c, s, .waiting⟩ = (m, ⟨c, s, readBegin c.start s⟩) := by
        unfold readStep readWindow; dsimp only; rw [if_neg ha]
      refine still (by rw [e]) ?_
      rw [e]
      refine readBegin_ok (by unfold ReadWin; rw [if_neg ha]) ?_
      unfold seenKey
      rw [if_neg ha, hlen]
  | running win fuel x =>
    obtain ⟨hw, hl⟩ := hst
    cases fuel with
    | zero => exact still rfl hl
    | succ fuel =>
      have hrd : win.read m = seenKey c.appends (s.read m0) := hw.read (hok.keys _ hpc)
      have e : readStep extra m ⟨c, s, .running win (fuel + 1) x⟩ = (m, ⟨c, s, readNext win fuel (c.round (seenKey c.appends (s.read m0)) x)⟩) := by
        rw [← hrd]; rfl
      refine still (by rw [e]) ?_
      rw [e]
      exact readNext_ok hw hl
  | done r => exact still rfl hst

theorem ReadersOK.run (extra : Nat → Nat) {m0 : Mem} {cs : List (Reading ρ × Slice)} (hr : ∀ c ∈ cs, c.2.Real m0)
    (hn : ∀ c ∈ cs, c.1.appends = true → ∀ c' ∈ cs, ¬ c.2.spoils c'.2) (js : List Nat) :
    ∀ (m : Mem) (ps : List (Reader ρ)), ReadersOK m0 cs m ps →
    ReadersOK m0 cs (readRun extra m ps js).1 (readRun extra m ps js).2 := by
  induction js with
  | nil => intro m ps hok; exact hok
  | cons j js ih =>
    intro m ps hok
    unfold readRun
    cases hj : ps[j]? with
    | none => exact ih m ps hok
    | some p => exact ih _ _ (hok.step extra hr hn hj)

/-- A bound on the steps that a call has left. -/
def Reader.left (p : Reader ρ) : Nat :=
  match p.st with
  | .waiting => p.s.len + 4
  | .running _ fuel _ => fuel + 1
  | .done _ => 0

theorem readWindow_len (extra : Nat → Nat) (m : Mem) (b : Bool) (s : Slice) : (readWindow extra m b s).2.len ≤ s.len + 1 := by
  unfold readWindow goAppend
  split
  · split <;> exact Nat.le_refl _
  · exact Nat.le_succ _

theorem readStep_left (extra : Nat → Nat) (m : Mem) (p : Reader ρ) : (readStep extra m p).2.left ≤ p.left - 1 := by
  obtain ⟨c, s, st⟩ := p
  cases st with
  | waiting =>
    have e := readWindow_len extra m c.appends s
    have e2 : (readStep extra m ⟨c, s, .waiting⟩).2 = ⟨c, s, readBegin c.start (readWindow extra m c.appends s).2⟩ := rfl
    rw [e2]
    show _ ≤ s.len + 4 - 1
    unfold readBegin
    cases c.start with
    | error x => exact Nat.zero_le _
    | ok x =>
      show (readWindow extra m c.appends s).2.len + 1 + 1 ≤ _
      omega
  | running win fuel x =>
    cases fuel with
    | zero => exact Nat.zero_le _
    | succ fuel =>
      have e2 : (readStep extra m ⟨c, s, .running win (fuel + 1) x⟩).2 = ⟨c, s, readNext win fuel (c.round (win.read m) x)⟩ := rfl
      rw [e2]
      show _ ≤ fuel + 1 + 1 - 1
      unfold readNext
      cases c.round (win.read m) x with
      | error e => exact Nat.zero_le _
      | ok r =>
        cases r with
        | inl r => exact Nat.zero_le _
        | inr r => exact Nat.le_refl _
  | done r => exact Nat.zero_le _

theorem readRun_left (extra : Nat → Nat) (js : List Nat) : ∀ (m : Mem) (ps : List (Reader ρ)) (i : Nat) (p : Reader ρ), ps[i]? = some p →
    ∃ p', (readRun extra m ps js).2[i]? = some p' ∧ p'.left ≤ p.left - js.count i := by
  induction js with
  | nil => intro m ps i p hi; exact ⟨p, hi, by simp⟩
  | cons j js ih =>
    intro m ps i p hi
    unfold readRun
    cases hj : ps[j]? with
    | none =>
      have hne : j ≠ i := fun e => by rw [e, hi] at hj; cases hj
      obtain ⟨p', h1, h2⟩ := ih m ps i p hi
      exact ⟨p', h1, by rw [List.count_cons_of_ne hne]; exact h2⟩
    | some q =>
      dsimp only
      by_cases he : j = i
      · subst he
        rw [hi] at hj
        cases hj
        obtain ⟨p', h1, h2⟩ := ih (readStep extra m p).1 (ps.set j (readStep extra m p).2) j (readStep extra m p).2
          (by rw [List.getElem?_set_self (List.getElem?_eq_some_iff.1 hi).1])
        have h3 := readStep_left extra m p
        exact ⟨p', h1, by rw [List.count_cons_self]; omega⟩
      · obtain ⟨p', h1, h2⟩ := ih (readStep extra m q).1 (ps.set j (readStep extra m q).2) i p (by rw [List.getElem?_set_ne he]; exact hi)
        exact ⟨p', h1, by rw [List.count_cons_of_ne he]; exact h2⟩

/-! ### The calls of the API -/

theorem mixReading_loop (h : Heap V) (k : AskKind) (t : Tree) (key : Key) (fuel : Nat) : ∀ x : Addr × Nat × Option Addr,
    (mixReading h k t).loop key fuel x = (mixLoop h k key fuel x.1 x.2.1 x.2.2).map .answer := by
  induction fuel with
  | zero => intro x; rfl
  | succ fuel ih =>
    intro x
    rw [mixLoop]
    show Except.bind (Except.bind (mixRound h k key x.1 x.2.1 x.2.2) _) _ = _
    cases mixRound h k key x.1 x.2.1 x.2.2 with
    | error e => rfl
    | ok r =>
      cases r with
      | inl r => rfl
      | inr q => exact ih q

theorem lbLoop_round (h : Heap V) (key : Key) (fuel : Nat) (x : LowState) :
    lbLoop h key (fuel + 1) x.1 x.2.1 x.2.2.1 x.2.2.2.1 x.2.2.2.2 = (lbRound h key x).bind fun
      | .inl l => .ok l
      | .inr q => lbLoop h key fuel q.1 q.2.1 q.2.2.1 q.2.2.2.1 q.2.2.2.2 := by
  obtain ⟨node, parent, depth, seen, stack⟩ := x
  rw [lbLoop.eq_def]
  unfold lbRound
  dsimp only
  cases node with
  | none =>
    cases parent with
    | none => rfl
    | some p =>
      dsimp only
      cases rd h p with
      | error e => rfl
      | ok c =>
        simp only [bind, Except.bind]
        cases c.nodeLeaf <;> rfl
  | some a =>
    dsimp only
    cases rd h a with
    | error e => rfl
    | ok c =>
      simp only [bind, Except.bind]
      cases lbCmp c key depth with
      | error e => rfl
      | ok cmp =>
        dsimp only
        split
        · cases lbPushBoth h key a parent stack <;> rfl
        · split
          · cases lbPushParent h key parent stack <;> rfl
          · cases nodeLeafKey h a with
            | error e => rfl
            | ok lk =>
              dsimp only
              split
              · cases lbPushBoth h key a parent stack <;> rfl
              · cases lbSkip h a c key seen depth with
                | error e => rfl
                | ok q =>
                  obtain ⟨stop, seen', depth'⟩ := q
                  dsimp only
                  split
                  · rfl
                  · split
                    · cases lbPushBoth h key a parent stack <;> rfl
                    · cases byteAt key depth' with
                      | error e => rfl
                      | ok b =>
                        dsimp only
                        cases c.getLowerBoundCh b with
                        | error e => rfl
                        | ok i0 =>
                          dsimp only
                          by_cases h1 : i0 = -1 ∧ (!seen') = true
                          · rw [if_pos h1, if_pos h1]; rfl
                          · rw [if_neg h1, if_neg h1]
                            by_cases h2 : i0 = -1
                            · rw [if_pos h2, if_pos h2]
                              cases lbNoChild h key a c lk parent stack <;> rfl
                            · rw [if_neg h2, if_neg h2]
                              cases parentLeafKey h parent with
                              | error e => rfl
                              | ok pl =>
                                dsimp only
                                by_cases h3 : seen' = true ∧ pl.isSome = true
                                · rw [if_pos h3, if_pos h3]
                                  cases lbTakeAll h key a c lk parent stack <;> rfl
                                · rw [if_neg h3, if_neg h3]
                                  generalize lbPushChildren h key c ((if seen' = true then 0 else i0.toNat) + 1) false c.numChildren.toNat stack = y
                                  cases y with
                                  | error e => rfl
                                  | ok st =>
                                    dsimp only
                                    cases c.getKeyAtIdx (if seen' = true then 0 else i0.toNat) with
                                    | error e => rfl
                                    | ok kb =>
                                      dsimp only
                                      generalize c.getChild _ = y
                                      cases y <;> rfl

theorem lowReading_loop (h : Heap V) (root : Addr) (n : Nat) (hn : n ≠ 0) (key : Key) (fuel : Nat) : ∀ x : LowState,
    (lowReading h root n).loop key fuel x = (lbLoop h key fuel x.1 x.2.1 x.2.2.1 x.2.2.2.1 x.2.2.2.2).map .stack := by
  induction fuel with
  | zero => intro x; rfl
  | succ fuel ih =>
    intro x
    rw [lbLoop_round]
    have e : (lowReading h root n).round key x = (lbRound h key x).bind fun
        | .inl l => .ok (.inl (.stack l))
        | .inr q => .ok (.inr q) := if_neg hn
    refine (congrArg (fun y => Except.bind y _) e).trans ?_
    clear e
    generalize lbRound h key x = y
    cases y with
    | error e => rfl
    | ok r =>
      cases r with
      | inl r => rfl
      | inr q => exact ih q

/-- The steps of a call make up the call. -/
theorem ReadCall.whole (h : Heap V) (c : ReadCall) (s : Slice) (key : Key) (hk : key.length = s.len) :
    (c.steps h s).whole key = c.alone h key := by
  cases c with
  | mixed k t =>
    have e : (ReadCall.steps h (.mixed k t) s).whole key = ((mixStart h k t).bind fun last => .ok (t.root, 0, last)).bind
        fun x => (mixReading h k t).loop (k.seen key) ((k.seen key).length + 1) x := rfl
    rw [e]
    show _ = Except.map _ (mixCall h k t key)
    cases hs : mixStart h k t with
    | error x => rw [mixCall_error hs]; rfl
    | ok last =>
      rw [← mixCall_ok hs]
      exact mixReading_loop h k t _ _ _
  | lower t =>
    have e : (ReadCall.steps h (.lower t) s).whole key =
        (lowReading h t.root s.len).loop (seenKey (s.len != 0) key) ((seenKey (s.len != 0) key).length + 1) (some t.root, none, 0, false, []) := rfl
    rw [e]
    show _ = Except.map _ (seekLowerBound h t.root key)
    unfold seekLowerBound
    by_cases h0 : s.len = 0
    · rw [if_pos (by omega), h0]
      rfl
    · rw [if_neg (by omega), lowReading_loop h t.root s.len h0]
      have eb : (s.len != 0) = true := by simp [h0]
      rw [eb]
      rfl

theorem ReadCall.steps_appends (h : Heap V) (c : ReadCall) (s : Slice) : (c.steps h s).appends = c.appends s.len := by
  cases c <;> rfl

end Art
